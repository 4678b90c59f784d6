import Verif.Model.TransformSymbols
import Verif.Props.C92_Transformed
import Verif.Props.C126_PolyInput
import Verif.Props.C129_RulesInput

/-! # C137: symbols and polynomials are transformed to derived systems one by one -/

namespace Moment.C137
open Moment.RuleInput (Out)
open Moment.PolyInput Moment.TransformSymbols
open Moment.SymbolText (Doubles)
open Moment.Symbols (Table)
open Moment.Poly (Mono)
open Moment.Derived
open Moment.MatrixBasis (polyTable)

variable {s : Streams} {D : Doubles} {t u : Table} {o : Poly.Order} {rows : Nat} {R : Nat → Nat → ℝ} {osg : List (Nat × Bool)} {M : STM}

/-! ## Steps -/

theorem transformed_ok (hM : Maps t rows R osg M u) {ps : List (List Mono)} (hk : ∀ p ∈ ps, ∀ m ∈ p, m.id < t.syms.length) :
    ∃ qs, transformed M u ps = .ok qs ∧ List.Forall₂ (fun p q => (∀ m ∈ q, m.id < u.syms.length) ∧ ∀ y, Poly.Respects (polyTable u) y →
      (∀ m ∈ p, m.conj = true → (starRingEnd ℂ) m.factor = m.factor) → Poly.value y q = Poly.value (carried M y) p) ps qs := by
  unfold transformed
  induction ps with
  | nil => exact ⟨[], rfl, .nil⟩
  | cons p ps ih =>
    obtain ⟨qs, h1, h2⟩ := ih fun p' hp' => hk p' (by simp [hp'])
    obtain ⟨q, g1, g2, g3⟩ := applyPoly_value hM (hk p (by simp))
    refine ⟨q :: qs, ?_, .cons ⟨g2, g3⟩ h2⟩
    unfold Out.each
    rw [h1, g1]
    rfl

/-! ## Theorems -/

/-- Each number of a symbol of the base system becomes a polynomial in the symbols of the derived system, at the same place, whose value is that which the map carries
to the symbol. -/
theorem C137_symbols (hM : Maps t rows R osg M u) {shape : List Nat} {l : List Int} (hl : ∀ id ∈ l, 0 ≤ id ∧ id < t.syms.length) :
    ∃ qs, run s D t o M u (.ids shape l) = .ok (shape, qs.map exportPolynomial) ∧
      List.Forall₂ (fun id q => (∀ m ∈ q, m.id < u.syms.length) ∧ ∀ y, Poly.Respects (polyTable u) y → Poly.value y q = if id = 0 then 0 else carried M y id.toNat) l qs := by
  have hs : symbols t l = .ok (l.map fun id => symbol id.toNat) := C129.each_map fun id hid => by
    have := hl id hid
    rw [if_neg (by omega)]
  obtain ⟨qs, h1, h2⟩ := transformed_ok hM (ps := l.map fun id => symbol id.toNat) (by
    intro p hp m hm
    obtain ⟨id, hid, rfl⟩ := List.mem_map.mp hp
    have := hl id hid
    unfold symbol at hm
    split at hm
    · simp at hm
    · rw [List.mem_singleton.mp hm]
      show id.toNat < t.syms.length
      omega)
  refine ⟨qs, by simp only [run, hs, h1, Out.bind], ?_⟩
  rw [List.forall₂_map_left_iff] at h2
  have key : ∀ {a : List Int} {b : List (List Mono)}, (∀ id ∈ a, (0 : Int) ≤ id) → List.Forall₂ (fun (c : Int) q => (∀ m ∈ q, m.id < u.syms.length) ∧
      ∀ y, Poly.Respects (polyTable u) y → (∀ m ∈ symbol c.toNat, m.conj = true → (starRingEnd ℂ) m.factor = m.factor) →
        Poly.value y q = Poly.value (carried M y) (symbol c.toNat)) a b →
      List.Forall₂ (fun (id : Int) q => (∀ m ∈ q, m.id < u.syms.length) ∧ ∀ y, Poly.Respects (polyTable u) y →
        Poly.value y q = if id = 0 then 0 else carried M y id.toNat) a b := by
    intro a b ha h
    induction h with
    | nil => exact .nil
    | cons hx _ ih =>
      rename_i c q _ _ _
      refine .cons ⟨hx.1, fun y hy => ?_⟩ (ih fun id hid => ha id (by simp [hid]))
      rw [hx.2 y hy (by
        intro m hm hc
        unfold symbol at hm
        split at hm
        · simp at hm
        · rw [List.mem_singleton.mp hm] at hc
          cases hc)]
      have := ha c (by simp)
      unfold symbol
      by_cases h0 : c = 0
      · subst h0
        simp [Poly.value]
      · rw [if_neg (by omega), if_neg h0]
        simp [Poly.value, Mono.value]
  exact key (fun id hid => (hl id hid).1) h2

/-- Each polynomial in symbols of the base system becomes a polynomial in those of the derived system, at the same place, with the same value if symbols have the values
that the map carries to them. What is read from the cells is the matter of C126. Missing: conjugated symbols with factors that are not real (`C137_refuted_factor`). -/
theorem C137_polynomials_partial (hM : Maps t rows R osg M u) {shape : List Nat} {l : List Value} {ps : List (List Mono)}
    (hl : List.Forall₂ (fun x p => importPolynomial s D t o x = .ok p) l ps) (hk : ∀ p ∈ ps, ∀ m ∈ p, m.id < t.syms.length)
    (hr : ∀ p ∈ ps, ∀ m ∈ p, m.conj = true → (starRingEnd ℂ) m.factor = m.factor) :
    ∃ qs, run s D t o M u (.cells shape l) = .ok (shape, qs.map exportPolynomial) ∧
      List.Forall₂ (fun p q => (∀ m ∈ q, m.id < u.syms.length) ∧ ∀ y, Poly.Respects (polyTable u) y → Poly.value y q = Poly.value (carried M y) p) ps qs := by
  have hs : TransformSymbols.polynomials s D t o l = .ok ps := C125.each_ok.mpr hl
  obtain ⟨qs, h1, h2⟩ := transformed_ok hM hk
  refine ⟨qs, by simp only [run, hs, h1, Out.bind], ?_⟩
  clear h1 hs hl hk
  induction h2 with
  | nil => exact .nil
  | cons hx _ ih => exact .cons ⟨hx.1, fun y hy => hx.2 y hy (hr _ (by simp))⟩ (ih fun p hp => hr p (by simp [hp]))

/-- Numbers that are not those of symbols, and cells that are not polynomials in known symbols, are refused. -/
theorem C137_refused {shape : List Nat} : (∀ {l : List Int}, (∃ id ∈ l, id < 0 ∨ (t.syms.length : Int) ≤ id) → run s D t o M u (.ids shape l) = .refused) ∧
    ∀ {l : List Value}, (∀ x ∈ l, importPolynomial s D t o x ≠ .undefined) → (∃ x ∈ l, importPolynomial s D t o x = .refused) →
      run s D t o M u (.cells shape l) = .refused := by
  refine ⟨fun {l} ⟨id, hid, h⟩ => ?_, fun {l} hu hx => ?_⟩
  · have : symbols t l = .refused := C129.each_refused (fun x _ => by split <;> exact fun e => by cases e) ⟨id, hid, if_pos h⟩
    simp only [run, this, Out.bind]
  · have : TransformSymbols.polynomials s D t o l = .refused := C129.each_refused hu hx
    simp only [run, this, Out.bind]

/-! ## Conjugated symbols -/

/-- A table with two further symbols that are not Hermitian. -/
def pairTable : Table := Table.createMany Table.new true true 2

theorem pair_positions : Positions pairTable.syms.length C90.swapOsg := by
  obtain ⟨a, b, c, d, e⟩ := C90.swap_positions
  exact ⟨a, by decide, by decide, d, e⟩

theorem pair_anti : ∀ i, (polyTable pairTable).anti i = true → i = 0 := by
  intro i
  match i with
  | 0 => simp
  | 1 | 2 | 3 => decide
  | i + 4 =>
    intro h
    rw [show (polyTable pairTable).anti (i + 4) = (pairTable.syms[i + 4]?).any Symbols.Sym.anti from rfl, List.getElem?_eq_none (by show 4 ≤ i + 4; omega)] at h
    simp at h

/-- **Refuted.** In a system with symbols that are not Hermitian, derived from it by averaging both: the cell that says `i` times the conjugate of the first symbol is
transformed to a polynomial with value `-i` where it should be `i`. -/
theorem C137_refuted_factor (s : Streams) (D : Doubles) : ∃ (u : Table) (M : STM) (q : List Mono), Maps pairTable 3 C90.swapAverage.val C90.swapOsg M u ∧
    importPolynomial s D pairTable Poly.byId (exportPolynomial [⟨2, true, Complex.I⟩]) = .ok [⟨2, true, Complex.I⟩] ∧
    run s D pairTable Poly.byId M u (.cells [1, 1] [exportPolynomial [⟨2, true, Complex.I⟩]]) = .ok ([1, 1], [exportPolynomial q]) ∧
    ∃ y, Poly.Respects (polyTable u) y ∧ Poly.value y q = -Complex.I ∧ Poly.value (carried M y) [⟨2, true, Complex.I⟩] = Complex.I := by
  obtain ⟨M, u, -, hM⟩ := C92.swap_maps pair_positions
  have hv := C92.ones_respects pair_anti
  have hc := C92.swap_carried hM (v := C92.ones) rfl rfl
  obtain ⟨p, hp, -⟩ := hM.value C92.ones rfl rfl 1 2 rfl
  have hcp : carried M (pulled C92.ones M.inverse) 2 = Poly.value (pulled C92.ones M.inverse) p := by
    rw [carried, List.getD_eq_getElem?_getD, hp, Option.getD_some]
  have hk := hM.known p (List.mem_of_getElem? hp)
  have hy := hM.respects C92.ones rfl hv
  have hi : importPolynomial s D pairTable Poly.byId (exportPolynomial [⟨2, true, Complex.I⟩]) = .ok [⟨2, true, Complex.I⟩] := by
    refine C126.C126_round_partial s D C21.byId_injective ⟨List.pairwise_singleton _ _, by simp, ?_⟩ ?_ ?_
    · intro m hm _
      rw [List.mem_singleton.mp hm]
      decide
    · intro m hm
      rw [List.mem_singleton.mp hm]
      decide
    · intro m hm h
      rw [List.mem_singleton.mp hm] at h
      exfalso
      simp only [Complex.I_im, abs_one, Tolerance.eps] at h
      norm_num at h
  have ha : M.applyPoly u [⟨2, true, Complex.I⟩] = some (Poly.makeRaw Poly.byId (Poly.conjugate (polyTable u) (Poly.scale Complex.I p))) := by
    simp [STM.applyPoly, STM.apply, hp]
  refine ⟨u, M, Poly.makeRaw Poly.byId (Poly.conjugate (polyTable u) (Poly.scale Complex.I p)), hM, hi, ?_, pulled C92.ones M.inverse, hy, ?_, ?_⟩
  · simp only [run, TransformSymbols.polynomials, Out.each, hi, Out.bind, transformed, ha, Out.ofOption, List.map_cons, List.map_nil]
  · rw [Poly.makeRaw_value _ hy.1, Poly.conjugate_value hy (by
      intro m hm hc
      obtain ⟨m', h', -, e⟩ := scale_mem hm
      rw [← e, (hk m' h').2] at hc
      cases hc), Poly.scale_value, ← hcp, hc]
    simp [C92.ones]
  · simp only [Poly.value, List.map_cons, List.map_nil, List.sum_cons, List.sum_nil, add_zero, Mono.value, if_true]
    rw [hc]
    simp [C92.ones]

/-! ## Examples -/

/-- The hypotheses of `C137_symbols` hold: both symbols become the mean. -/
example (s : Streams) (D : Doubles) : ∃ M u, Maps pairTable 3 C90.swapAverage.val C90.swapOsg M u ∧ ∃ qs : List (List Mono),
    run s D pairTable Poly.byId M u (.ids [1, 3] [2, 3, 0]) = .ok ([1, 3], qs.map exportPolynomial) ∧ qs.length = 3 := by
  obtain ⟨M, u, -, hM⟩ := C92.swap_maps pair_positions
  obtain ⟨qs, h1, h2⟩ := C137_symbols (s := s) (D := D) (o := Poly.byId) hM (shape := [1, 3]) (l := [2, 3, 0]) (by decide)
  exact ⟨M, u, hM, qs, h1, h2.length_eq.symm⟩

/-- The hypotheses of `C137_polynomials_partial` hold: a cell with three times the first symbol. -/
example (s : Streams) (D : Doubles) : ∃ M u, Maps pairTable 3 C90.swapAverage.val C90.swapOsg M u ∧ ∃ q : List Mono,
    run s D pairTable Poly.byId M u (.cells [1, 1] [exportPolynomial [⟨2, false, 3⟩]]) = .ok ([1, 1], [exportPolynomial q]) ∧
    ∀ y, Poly.Respects (polyTable u) y → Poly.value y q = 3 * carried M y 2 := by
  obtain ⟨M, u, -, hM⟩ := C92.swap_maps pair_positions
  have hi : importPolynomial s D pairTable Poly.byId (exportPolynomial [⟨2, false, 3⟩]) = .ok [⟨2, false, 3⟩] := by
    refine C126.C126_round_partial s D C21.byId_injective ⟨List.pairwise_singleton _ _, by simp, ?_⟩ ?_ ?_
    · intro m hm _
      rw [List.mem_singleton.mp hm]
      decide
    · intro m hm
      rw [List.mem_singleton.mp hm]
      decide
    · intro m hm h
      rw [List.mem_singleton.mp hm]
      simp
  obtain ⟨qs, h1, h2⟩ := C137_polynomials_partial (s := s) (D := D) hM (shape := [1, 1]) (.cons hi .nil) (by
    intro p hp m hm
    rw [List.mem_singleton.mp hp] at hm
    rw [List.mem_singleton.mp hm]
    decide) (by
    intro p hp m hm hc
    rw [List.mem_singleton.mp hp] at hm
    rw [List.mem_singleton.mp hm] at hc
    cases hc)
  obtain ⟨q, _, hq, h3, rfl⟩ := List.forall₂_cons_left_iff.mp h2
  cases h3
  refine ⟨M, u, hM, q, h1, fun y hy => ?_⟩
  rw [hq.2 y hy]
  simp [Poly.value, Mono.value]

/-- The hypothesis of `C137_refused` holds: the table has four symbols. -/
example (s : Streams) (D : Doubles) (M : STM) (u : Table) : run s D pairTable Poly.byId M u (.ids [1, 2] [2, 4]) = .refused :=
  C137_refused.1 ⟨4, by decide, .inr (by decide)⟩

end Moment.C137
