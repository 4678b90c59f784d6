import Verif.Model.RulesExport
import Verif.Props.C129_RulesInput
import Verif.Props.C130_MonoExport

/-! # C131: rulebooks that are returned, given again, and merged -/

namespace Moment.C131
open Moment.RulesExport
open Moment.RulesInput (built fromSymbols fromKnown readWords)
open Moment.RuleInput (Out)
open Moment.PolyInput (Value Streams readTerms toPolynomial exportPolynomial stage supply found)
open Moment.C125 (bind_ok each_ok)
open Moment.Poly (Mono MRule Assignment Solves Canonical Book Holds Inv)
open Moment.Symbols (Table)
open Moment.SymbolText (Doubles)
open Moment.MatrixBasis (polyTable)
open Moment.MonoExport (FullRow sequences)
open Moment.SymbolMatrix (Host Setting Ready)
open Moment.C130 (ReadsAll Plainly asInput)

/-- **C131, each once.** Rules are returned by the number of their symbol, each of them once. -/
theorem C131_each {t : Poly.Table} (ht : t.Good) {o : Poly.Order} (ho : o.Good) {b : List MRule} (hb : Book t o b) :
    (inOrder b).Perm b ∧ (inOrder b).Pairwise fun r s => r.lhs < s.lhs := by
  have hp : (inOrder b).Perm b := List.mergeSort_perm _ _
  refine ⟨hp, ?_⟩
  have hle : (inOrder b).Pairwise fun r s => r.lhs ≤ s.lhs := by
    have := List.pairwise_mergeSort (le := fun (r s : MRule) => decide (r.lhs ≤ s.lhs)) (by intro a b c; simp; omega) (by intro a b; simp; omega) b
    simpa [inOrder] using this
  have hne : (inOrder b).Pairwise fun r s => r.lhs ≠ s.lhs := by
    refine (hp.pairwise_iff fun h => Ne.symm h).mpr ?_
    exact (C56.book_inv ht ho hb).ordered.imp fun h e => absurd h (by rw [e]; exact lt_irrefl _)
  exact (hle.and hne).imp fun h => by omega

/-- The equations of rules have the solutions of the rules. -/
theorem zero_of_rules {t : Poly.Table} {o : Poly.Order} (ho : o.Good) {b : List MRule} (hb : Inv t o b) {l : List MRule} (hl : l.Perm b) (a : Nat → ℂ) :
    Solves t b a ↔ Assignment t a ∧ ∀ p ∈ l.map (MRule.asPolynomial o), Poly.value a p = 0 := by
  refine and_congr_right fun _ => ?_
  simp only [List.mem_map, forall_exists_index, and_imp, forall_apply_eq_imp_iff₂]
  refine forall_congr' fun r => ?_
  rw [hl.mem_iff]
  exact imp_congr_right fun hr => (Poly.asPolynomial_zero ho.injective (hb.ok r hr).lhs a).symm

/-- A rulebook is built from all lists of polynomials that have its solutions. -/
theorem built_of {t : Poly.Table} (ht : t.Good) {o : Poly.Order} (ho : o.Good) {sort : List (List Mono) → List (List Mono)} (hs : ∀ l, (sort l).Perm l)
    {b : List MRule} (hb : Inv t o b) {raw : List (List Mono)} (hraw : ∀ p ∈ raw, Canonical t o p) (h : ∀ a, Solves t b a ↔ Assignment t a ∧ ∀ p ∈ raw, Poly.value a p = 0) :
    built t o sort raw = .ok b := by
  rcases C129.built_spec ht ho hs hraw with ⟨-, hn⟩ | ⟨c, h1, h2, -, h4⟩
  · have := (h _).mp (hb.subst_solves (Poly.zero_assignment ht))
    exact absurd this.2 (hn _ this.1)
  · rw [h1, Poly.inv_unique ht ho hb (C56.book_inv ht ho h2) fun a => (h a).trans (h4 a).symm]

/-- **C131, complete.** A rulebook is what its own equations, in any order, are completed to. -/
theorem C131_fixed {t : Poly.Table} (ht : t.Good) {o : Poly.Order} (ho : o.Good) {sort : List (List Mono) → List (List Mono)} (hs : ∀ l, (sort l).Perm l)
    {b : List MRule} (hb : Book t o b) {l : List MRule} (hl : l.Perm b) : built t o sort (l.map (MRule.asPolynomial o)) = .ok b := by
  have hi := C56.book_inv ht ho hb
  refine built_of ht ho hs hi ?_ (zero_of_rules ho hi hl)
  intro p hp
  obtain ⟨r, hr, rfl⟩ := List.mem_map.mp hp
  exact Poly.asPolynomial_canonical ho.injective (hi.ok r (hl.mem_iff.mp hr))

/-- All symbols of the rules are in the table. -/
def Within (t : Table) (b : List MRule) : Prop := ∀ r ∈ b, r.lhs < t.syms.length ∧ ∀ m ∈ r.rhs, m.id < t.syms.length

/-- No coefficient of a rule has an imaginary part that is within tolerance of zero but not zero. -/
def Clear (o : Poly.Order) (b : List MRule) : Prop := ∀ r ∈ b, ∀ m ∈ r.asPolynomial o, |m.factor.im| ≤ Tolerance.eps → m.factor.im = 0

theorem ids_within {t : Table} {o : Poly.Order} {b : List MRule} (hw : Within t b) {r : MRule} (hr : r ∈ b) (h1 : 1 < r.lhs) {m : Mono} (hm : m ∈ r.asPolynomial o) :
    m.id < t.syms.length := by
  rw [Poly.asPolynomial_eq h1] at hm
  obtain ⟨x, hx, e⟩ : ∃ x ∈ r.rhs ++ [(⟨r.lhs, false, -1⟩ : Mono)], x.id = m.id := by
    obtain ⟨x, hx, e, -⟩ := Poly.mergeAdd_mem hm
    exact ⟨x, hx, e⟩
  rw [← e]
  rcases List.mem_append.mp hx with hx | hx
  · exact (hw r hr).2 x hx
  · simp only [List.mem_singleton] at hx
    subst hx
    exact (hw r hr).1

theorem rounded_self {p : List Mono} (hr : ∀ m ∈ p, |m.factor.im| ≤ Tolerance.eps → m.factor.im = 0) : C126.rounded p = p := by
  unfold C126.rounded
  conv_rhs => rw [← List.map_id p]
  refine List.map_congr_left fun m hm => ?_
  rcases m with ⟨i, c, f⟩
  simp only [id_eq, Mono.mk.injEq, true_and]
  split
  · rename_i h
    simp only [Tolerance.real, Tolerance.tiny, one_mul, decide_eq_true_eq] at h
    have := hr _ hm h
    exact Complex.ext rfl (by simpa using this.symm)
  · rfl

/-- What is made of the returned rules: the rulebook for their rounded equations. -/
theorem fromSymbols_cell (s : Streams) (D : Doubles) {t : Table} {o : Poly.Order} (sort : List (List Mono) → List (List Mono)) {b : List MRule} (h1 : ∀ r ∈ b, 1 < r.lhs)
    (hw : Within t b) : fromSymbols s D t o sort (asSymbolCell o b) =
      built (polyTable t) o sort ((inOrder b).map fun r => Poly.make (polyTable t) o (C126.rounded (r.asPolynomial o))) := by
  have hp : (inOrder b).Perm b := List.mergeSort_perm _ _
  unfold fromSymbols asSymbolCell
  split
  · rename_i he
    simp only [RulesInput.empty, List.isEmpty_map, List.isEmpty_iff] at he
    simp [he]
  · have e : Out.each (readTerms s D) ((inOrder b).map fun r => exportPolynomial (r.asPolynomial o)) = .ok ((inOrder b).map fun r => C126.rounded (r.asPolynomial o)) := by
      rw [each_ok, List.forall₂_map_left_iff, List.forall₂_map_right_iff, List.forall₂_same]
      exact fun r _ => C126.readTerms_export s D _
    have hk : ∀ p ∈ (inOrder b).map (fun r => C126.rounded (r.asPolynomial o)), ∀ m ∈ p, m.id < t.syms.length := by
      intro p hp' m hm
      obtain ⟨r, hr, rfl⟩ := List.mem_map.mp hp'
      obtain ⟨x, hx, rfl⟩ := List.mem_map.mp hm
      exact ids_within (m := x) hw (hp.mem_iff.mp hr) (h1 r (hp.mem_iff.mp hr)) hx
    dsimp only
    rw [e, Out.bind, if_pos hk, C129.each_map (g := Poly.make (polyTable t) o), Out.bind, List.map_map]
    · rfl
    · exact fun p hp => by rw [toPolynomial, if_pos (hk p hp)]

/-- **C131, round trip.** A rulebook that is returned as a cell array of polynomials, and given again, is the same rulebook. Missing: coefficients with tiny imaginary parts, see
`C131_refuted_tiny`. -/
theorem C131_round_partial (s : Streams) (D : Doubles) {t : Table} (ht : (polyTable t).Good) {o : Poly.Order} (ho : o.Good) {sort : List (List Mono) → List (List Mono)}
    (hs : ∀ l, (sort l).Perm l) {b : List MRule} (hb : Book (polyTable t) o b) (hw : Within t b) (hc : Clear o b) :
    fromSymbols s D t o sort (asSymbolCell o b) = .ok b := by
  have hi := C56.book_inv ht ho hb
  have hp := (C131_each ht ho hb).1
  rw [fromSymbols_cell s D sort (fun r hr => (hi.ok r hr).lhs) hw]
  have e : ((inOrder b).map fun r => Poly.make (polyTable t) o (C126.rounded (r.asPolynomial o))) = (inOrder b).map (MRule.asPolynomial o) := by
    refine List.map_congr_left fun r hr => ?_
    have hr' := hp.mem_iff.mp hr
    rw [rounded_self (hc r hr'), Poly.make_self ho.injective (Poly.asPolynomial_canonical ho.injective (hi.ok r hr'))]
  rw [e]
  exact C131_fixed ht ho hs hb hp

/-- **C131, words.** A rulebook that is returned as polynomials in words, and given again, is the same rulebook. Missing: symbols whose conjugate is the same word up to a sign, as
in C130. -/
theorem C131_words_partial {h : Host} {W : HSeq → Prop} {resolve : List Nat → HSeq} (hS : Setting h W) {t : Table} (hr : Ready h W t) (hR : ReadsAll resolve W t)
    (ht : (polyTable t).Good) {o : Poly.Order} (ho : o.Good) {sort : List (List Mono) → List (List Mono)} (hs : ∀ l, (sort l).Perm l) {b : List MRule}
    (hb : Book (polyTable t) o b) (hp : ∀ r ∈ b, ∀ m ∈ r.asPolynomial o, Plainly t m) {l : List (List FullRow)} (hl : asPolynomials t o b = .ok l) (s : Streams) {num : Nat}
    (hnum : num ≤ 32767) (hk : ∀ p ∈ l, ∀ x ∈ p, ∀ k ∈ x.ops, k ≤ num) :
    (readWords s num resolve (.cell (l.map asInput))).bind (fromKnown h.env t o sort) = .ok b := by
  have hi := C56.book_inv ht ho hb
  have hperm := (C131_each ht ho hb).1
  rw [asPolynomials, each_ok] at hl
  have key : ∃ x y, Out.each (stage s) (l.map asInput) = .ok x ∧ Out.each (supply num resolve) x = .ok y ∧
      Out.each (found h.env t o) y = .ok ((inOrder b).map (MRule.asPolynomial o)) := by
    have hmem : ∀ r ∈ inOrder b, r ∈ b := fun r hr => hperm.mem_iff.mp hr
    generalize inOrder b = c at hl hmem
    clear hperm
    induction hl with
    | nil => exact ⟨[], [], rfl, rfl, rfl⟩
    | @cons r p c l h1 _ ih =>
      obtain ⟨x, y, i1, i2, i3⟩ := ih (fun p hp => hk p (List.mem_cons_of_mem _ hp)) (fun r hr => hmem r (List.mem_cons_of_mem _ hr))
      have hrb := hmem r List.mem_cons_self
      have := C130.C130_back_partial hS hr hR ho.injective (Poly.asPolynomial_canonical ho.injective (hi.ok r hrb)) (hp r hrb) h1 s hnum (hk p List.mem_cons_self)
      obtain ⟨z, j1, j2⟩ := bind_ok.mp this
      obtain ⟨u, j3, j4⟩ := bind_ok.mp j1
      exact ⟨u :: x, z :: y, by simp only [List.map_cons, Out.each, j3, i1, Out.bind], by simp only [Out.each, j4, i2, Out.bind],
        by simp only [List.map_cons, Out.each, j2, i3, Out.bind]⟩
  obtain ⟨x, y, h1, h2, h3⟩ := key
  have hread : readWords s num resolve (.cell (l.map asInput)) = .ok y := by
    unfold readWords
    split
    · rename_i he
      simp only [RulesInput.empty, List.isEmpty_iff] at he
      rw [he] at h1
      cases h1
      cases h2
      rfl
    · dsimp only
      rw [h1, Out.bind, h2]
  rw [hread, Out.bind, fromKnown, h3, Out.bind]
  exact C131_fixed ht ho hs hb hperm

/-- **C131, merging.** Rules that are merged into a rulebook give the rulebook of the common solutions, whichever is merged into which. If there are none this is refused, and the
rulebook stays as it was. -/
theorem C131_merge {t : Poly.Table} (ht : t.Good) {o : Poly.Order} (ho : o.Good) {sort sort' : List (List Mono) → List (List Mono)} (hs : ∀ l, (sort l).Perm l)
    (hs' : ∀ l, (sort' l).Perm l) {b c : List MRule} (hb : Book t o b) (hc : Book t o c) :
    (mergeIn t o sort b c = (.refused, b) ∧ mergeIn t o sort' c b = (.refused, c) ∧ ∀ a, ¬ (Solves t b a ∧ Solves t c a)) ∨
    ∃ d, mergeIn t o sort b c = (.ok (), d) ∧ mergeIn t o sort' c b = (.ok (), d) ∧ Book t o d ∧ ∀ a, Solves t d a ↔ Solves t b a ∧ Solves t c a := by
  unfold mergeIn
  rcases C56.C56_combine t ht o ho b c hb hc sort hs with ⟨e1, n1⟩ | ⟨d, e1, s1⟩ <;>
    rcases C56.C56_combine t ht o ho c b hc hb sort' hs' with ⟨e2, n2⟩ | ⟨d', e2, s2⟩
  · left
    rw [e1, e2]
    exact ⟨rfl, rfl, n1⟩
  · exfalso
    have h := (C56.book_inv ht ho (.combine hc hb hs' e2)).subst_solves (Poly.zero_assignment ht)
    exact n1 _ ((s2 _).mp h).symm
  · exfalso
    have h := (C56.book_inv ht ho (.combine hb hc hs e1)).subst_solves (Poly.zero_assignment ht)
    exact n2 _ ((s1 _).mp h).symm
  · right
    have hd : Book t o d := .combine hb hc hs e1
    have hd' : Book t o d' := .combine hc hb hs' e2
    have : d = d' := C59.C59_unique t ht o ho d d' hd hd' fun a => (s1 a).trans (and_comm.trans (s2 a).symm)
    subst this
    rw [e1, e2]
    exact ⟨d, rfl, rfl, hd, s1⟩

/-- **C131, portions.** Rules that are given in two portions, the second merged into the first, give the same as when all are given at once. -/
theorem C131_portions {t : Poly.Table} (ht : t.Good) {o : Poly.Order} (ho : o.Good) {sort : List (List Mono) → List (List Mono)} (hs : ∀ l, (sort l).Perm l)
    {r1 r2 : List (List Mono)} (c1 : ∀ p ∈ r1, Canonical t o p) (c2 : ∀ p ∈ r2, Canonical t o p) {b c : List MRule} (h1 : built t o sort r1 = .ok b)
    (h2 : built t o sort r2 = .ok c) :
    (built t o sort (r1 ++ r2) = .refused ∧ mergeIn t o sort b c = (.refused, b)) ∨ ∃ d, built t o sort (r1 ++ r2) = .ok d ∧ mergeIn t o sort b c = (.ok (), d) := by
  rcases C129.built_spec ht ho hs c1 with ⟨g, -⟩ | ⟨b', g1, hb, -, s1⟩
  · rw [h1] at g
    cases g
  rcases C129.built_spec ht ho hs c2 with ⟨g, -⟩ | ⟨c', g2, hc, -, s2⟩
  · rw [h2] at g
    cases g
  rw [h1] at g1
  rw [h2] at g2
  cases g1
  cases g2
  have c3 : ∀ p ∈ r1 ++ r2, Canonical t o p := fun p hp => (List.mem_append.mp hp).elim (c1 p) (c2 p)
  have hboth : ∀ a, Solves t b a ∧ Solves t c a ↔ Assignment t a ∧ ∀ p ∈ r1 ++ r2, Poly.value a p = 0 := by
    intro a
    rw [s1, s2]
    simp only [List.mem_append]
    constructor
    · rintro ⟨⟨ha, x⟩, -, y⟩
      exact ⟨ha, fun p hp => hp.elim (x p) (y p)⟩
    · rintro ⟨ha, x⟩
      exact ⟨⟨ha, fun p hp => x p (.inl hp)⟩, ha, fun p hp => x p (.inr hp)⟩
  rcases C131_merge ht ho hs hs hb hc with ⟨e, -, n⟩ | ⟨d, e, -, hd, hsol⟩
  · refine .inl ⟨?_, e⟩
    rcases C129.built_spec ht ho hs c3 with ⟨g, -⟩ | ⟨d, -, -, ⟨a, ha⟩, s3⟩
    · exact g
    · exact absurd ((hboth a).mpr ((s3 a).mp ha)) (n a)
  · exact .inr ⟨d, built_of ht ho hs (C56.book_inv ht ho hd) c3 fun a => (hsol a).trans (hboth a), e⟩

/-! ## A rule that is lost -/

theorem table_good : (polyTable C130.table).Good := by
  refine ⟨rfl, rfl, rfl, fun i hi => ?_⟩
  match i, hi with
  | 1, _ => decide
  | 2, _ => decide
  | i + 3, _ =>
    have : C130.table.syms[i + 3]? = none := List.getElem?_eq_none (by have : C130.table.syms.length = 3 := rfl; omega)
    simp [polyTable, this]

/-- Interreduced rules are rulebooks. -/
theorem book_of_inv {t : Poly.Table} (ht : t.Good) {o : Poly.Order} (ho : o.Good) {b : List MRule} (hb : Inv t o b) : Book t o b := by
  have hc : ∀ p ∈ b.map (MRule.asPolynomial o), Canonical t o p := by
    intro p hp
    obtain ⟨r, hr, rfl⟩ := List.mem_map.mp hp
    exact Poly.asPolynomial_canonical ho.injective (hb.ok r hr)
  rcases C129.built_spec (sort := id) ht ho (fun l => List.Perm.refl l) hc with ⟨h, -⟩ | ⟨c, h, hc', -⟩
  · rw [built_of (sort := id) ht ho (fun l => List.Perm.refl l) hb hc (zero_of_rules ho hb (List.Perm.refl b))] at h
    cases h
  · rw [built_of (sort := id) ht ho (fun l => List.Perm.refl l) hb hc (zero_of_rules ho hb (List.Perm.refl b))] at h
    cases h
    exact hc'

/-- The rule 2 → z for a number. -/
noncomputable def toNumber (z : ℂ) : MRule := ⟨2, [⟨1, false, z⟩], false, 0⟩

theorem toNumber_inv {z : ℂ} (hz : z ≠ 0) : Inv (polyTable C130.table) Poly.byId [toNumber z] := by
  have h2 : (polyTable C130.table).herm 2 = false := rfl
  have h3 : (polyTable C130.table).anti 2 = false := rfl
  refine ⟨by simp [Poly.Ordered], ?_, ?_⟩
  · simp only [List.mem_singleton, forall_eq]
    exact
      { lhs := by simp [toNumber]
        core := ⟨by simp [MRule.core, toNumber], by simp [MRule.core, toNumber, hz], by simp [MRule.core, toNumber]⟩
        below := by simp [Poly.Below, MRule.core, toNumber, Poly.byId]
        dir0 := fun _ => rfl
        herm := fun h => by simp [toNumber, h2] at h
        anti := fun h => by simp [toNumber, h3] at h
        part := fun h => by simp [toNumber] at h }
  · simp only [List.mem_singleton, forall_eq]
    simp [Poly.Meets, toNumber, Poly.coeff]

theorem toNumber_book {z : ℂ} (hz : z ≠ 0) : Book (polyTable C130.table) Poly.byId [toNumber z] := book_of_inv table_good C23.byId_good (toNumber_inv hz)

theorem toNumber_poly {z : ℂ} (hz : z ≠ 0) : (toNumber z).asPolynomial Poly.byId = [⟨1, false, z⟩, ⟨2, false, -1⟩] := by
  rw [Poly.asPolynomial_eq (by simp [toNumber])]
  exact Poly.mergeAdd_below _ _ _ (by simp [toNumber, Poly.byId, Poly.Order.key])

theorem toNumber_within (z : ℂ) : Within C130.table [toNumber z] := by
  simp only [Within, List.mem_singleton, forall_eq, toNumber]
  exact ⟨by decide, by decide⟩

theorem toNumber_clear {z : ℂ} (hz : z ≠ 0) (h : |z.im| ≤ Tolerance.eps → z.im = 0) : Clear Poly.byId [toNumber z] := by
  simp only [Clear, List.mem_singleton, forall_eq, toNumber_poly hz]
  simpa using h

/-- **C131, refuted.** A rule that gives a moment a tiny imaginary value is returned as one that gives it the value zero: the rulebook that is read has no solution of the
rulebook that was returned. -/
theorem C131_refuted_tiny (s : Streams) (D : Doubles) {sort : List (List Mono) → List (List Mono)} (hs : ∀ l, (sort l).Perm l) :
    ∃ b c, Book (polyTable C130.table) Poly.byId b ∧ Within C130.table b ∧ fromSymbols s D C130.table Poly.byId sort (asSymbolCell Poly.byId b) = .ok c ∧
      ∀ a, ¬ (Solves (polyTable C130.table) b a ∧ Solves (polyTable C130.table) c a) := by
  have hz : (⟨0, Tolerance.eps⟩ : ℂ) ≠ 0 := fun h => by
    have := congrArg Complex.im h
    simp only [Complex.zero_im, Tolerance.eps] at this
    norm_num at this
  have hr : Tolerance.real ⟨0, Tolerance.eps⟩ 1 = true := by simp [Tolerance.real, Tolerance.tiny, Tolerance.eps]
  have hr1 : Tolerance.real (-1) 1 = true := by simp [Tolerance.real, Tolerance.tiny, Tolerance.eps]
  have hb := toNumber_book hz
  have e : fromSymbols s D C130.table Poly.byId sort (asSymbolCell Poly.byId [toNumber ⟨0, Tolerance.eps⟩]) =
      built (polyTable C130.table) Poly.byId sort [Poly.make (polyTable C130.table) Poly.byId [⟨1, false, 0⟩, ⟨2, false, -1⟩]] := by
    rw [fromSymbols_cell s D sort (by simp [toNumber]) (toNumber_within _)]
    simp only [inOrder, List.mergeSort_singleton, List.map_cons, List.map_nil, toNumber_poly hz]
    simp [C126.rounded, hr, hr1]
  rcases C129.built_spec table_good C23.byId_good hs (raw := [Poly.make (polyTable C130.table) Poly.byId [⟨1, false, 0⟩, ⟨2, false, -1⟩]])
    (by simpa using Poly.make_canonical _ _ (fun _ _ e => e) _) with ⟨-, hn⟩ | ⟨c, h1, -, -, h4⟩
  · refine absurd ?_ (hn _ (Poly.zero_assignment table_good))
    simp only [List.mem_singleton, forall_eq]
    rw [C129.value_make (Poly.zero_assignment table_good).1]
    simp [C129.sum]
  · refine ⟨_, c, hb, toNumber_within _, e.trans h1, fun a => ?_⟩
    rintro ⟨⟨ha, g1⟩, g2⟩
    have g3 := ((h4 a).mp g2).2 _ List.mem_cons_self
    rw [C129.value_make ha.1] at g3
    have g4 := g1 _ List.mem_cons_self
    have e2 : a 2 = 0 := by simpa [C129.sum] using g3
    have e3 : a 2 = ⟨0, Tolerance.eps⟩ := by simpa [Holds, toNumber, Mono.value, ha.2] using g4
    exact hz (e3.symm.trans e2)

/-! ## Examples -/

example : Book (polyTable C130.table) Poly.byId [toNumber (1 + Complex.I)] ∧ Within C130.table [toNumber (1 + Complex.I)] ∧ Clear Poly.byId [toNumber (1 + Complex.I)] := by
  have hz : (1 + Complex.I : ℂ) ≠ 0 := fun h => by simpa using congrArg Complex.re h
  refine ⟨toNumber_book hz, toNumber_within _, toNumber_clear hz fun h => ?_⟩
  simp only [Tolerance.eps, Complex.add_im, Complex.one_im, Complex.I_im] at h
  norm_num at h

example (s : Streams) {sort : List (List Mono) → List (List Mono)} (hs : ∀ l, (sort l).Perm l) :
    (readWords s 2 (fun u => C70.letters 2 u) (.cell [asInput [⟨⟨[], 3, 1⟩, 1, false, 1, 0⟩, ⟨⟨[1, 2], -1, C130.ab.hash⟩, 2, false, 2, 1⟩]])).bind
      (fromKnown (C70.freeHost 2).env C130.table Poly.byId sort) = .ok [toNumber 3] := by
  have h3 : (3 : ℂ) ≠ 0 := by norm_num
  have e : asPolynomials C130.table Poly.byId [toNumber 3] = .ok [[⟨⟨[], 3, 1⟩, 1, false, 1, 0⟩, ⟨⟨[1, 2], -1, C130.ab.hash⟩, 2, false, 2, 1⟩]] := by
    simp only [asPolynomials, inOrder, List.mergeSort_singleton, Out.each, toNumber_poly h3]
    rfl
  refine C131_words_partial C70.setting_sample C130.table_ready C130.table_reads table_good C23.byId_good hs (toNumber_book h3) ?_ e s (by decide) ?_
  · simp only [List.mem_singleton, forall_eq, toNumber_poly h3]
    intro m hm hc
    simp only [List.mem_cons, List.not_mem_nil, or_false] at hm
    rcases hm with rfl | rfl <;> cases hc
  · simp only [List.mem_singleton, forall_eq]
    intro x hx
    simp only [List.mem_cons, List.not_mem_nil, or_false] at hx
    rcases hx with rfl | rfl <;> decide

/-- Contradictory rules are refused, and do not change the rulebook. -/
example {sort : List (List Mono) → List (List Mono)} (hs : ∀ l, (sort l).Perm l) :
    mergeIn (polyTable C130.table) Poly.byId sort [toNumber 3] [toNumber 4] = (.refused, [toNumber 3]) := by
  rcases C131_merge table_good C23.byId_good hs hs (toNumber_book (z := 3) (by norm_num)) (toNumber_book (z := 4) (by norm_num)) with h | ⟨d, -, -, hd, h⟩
  · exact h.1
  · exfalso
    obtain ⟨⟨ha, g1⟩, -, g2⟩ := (h _).mp ((C56.book_inv table_good C23.byId_good hd).subst_solves (Poly.zero_assignment table_good))
    have e1 := g1 _ List.mem_cons_self
    have e2 := g2 _ List.mem_cons_self
    have := e1.symm.trans e2
    simp only [toNumber, Poly.value_cons, Poly.value_nil, Mono.value, ha.2] at this
    norm_num at this

/-- Rules that can be merged. -/
example : Book (polyTable C130.table) Poly.byId [toNumber 3] ∧ Book (polyTable C130.table) Poly.byId [] := ⟨toNumber_book (by norm_num), .empty⟩

example : ∃ b, built (polyTable C130.table) Poly.byId id [[⟨1, false, 3⟩, ⟨2, false, -1⟩]] = .ok b ∧ b ≠ [] := by
  have h3 : (3 : ℂ) ≠ 0 := by norm_num
  have := C131_fixed (sort := id) table_good C23.byId_good (fun l => List.Perm.refl l) (toNumber_book h3) (List.Perm.refl _)
  rw [List.map_singleton, toNumber_poly h3] at this
  exact ⟨_, this, by simp⟩

end Moment.C131
