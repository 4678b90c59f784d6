import Verif.Spec.Substituted
import Verif.Proof.MatrixTimes
import Verif.Props.C23_MomentRules
import Verif.Props.C25_Basis
import Verif.Props.C42_Workers

/-! # C74: substituted matrices -/

namespace Moment.C74

open Moment.Substituted
open Moment.Symbols (Sym Table)
open Moment.Poly (Mono MRule subst)
open Moment.MatrixBasis (Mat SymMat polyTable)
open Moment.SymbolMatrix (valueAt polyAt)
open Classical

local notation "conj'" => starRingEnd ℂ

/-! ## Entries -/

/-- The values of a matrix after substitution are the old ones with the substituted values of the symbols. -/
theorem mono_subst {t : Poly.Table} {v : Nat → ℂ} (b : List MRule) (hv : Poly.Respects t v) (m : Mono) (hlen : ∀ r ∈ b, r.rhs.length ≤ 1) :
    ∃ m', Poly.reduceBookMonomial t b m = some m' ∧ m'.value v = m.value (subst b v) := by
  unfold Poly.reduceBookMonomial
  cases hf : Poly.findRule b m.id with
  | none => exact ⟨m, rfl, by simp only [Poly.Mono.value, Poly.subst_none hf]⟩
  | some r =>
    obtain ⟨hr, hl⟩ := Poly.findRule_some hf
    refine ⟨_, if_pos (hlen r hr), ?_⟩
    unfold Poly.MRule.reduceMonomial
    rw [if_neg (not_not.mpr hl)]
    have hs := Poly.subst_some (v := v) hf
    have h1 := hlen r hr
    cases hq : r.rhs with
    | nil =>
      rw [hq] at hs
      simp only [Poly.Mono.value, hs, hv.zero, Poly.value_nil, Bool.false_eq_true, if_false, mul_zero]
      split <;> simp
    | cons s l =>
      obtain rfl : l = [] := by
        rw [hq] at h1
        exact List.length_eq_zero_iff.mp (by simpa using h1)
      rw [hq] at hs
      dsimp only
      rw [C23.canonicalMono_value hv]
      simp only [Poly.value_cons, Poly.value_nil, add_zero] at hs
      cases hc : m.conj <;> cases hc' : s.conj <;> simp only [Poly.Mono.value, hc, hc', hs, Bool.false_eq_true, if_false, if_true, Bool.not_false,
        Bool.not_true, map_mul, Complex.conj_conj] <;> ring

theorem one_subst {t : Poly.Table} (o : Poly.Order) {v : Nat → ℂ} (b : List MRule) (hv : Poly.Respects t v) (m : Mono) :
    Poly.value v (Poly.reduceBookOne t o b m) = m.value (subst b v) := by
  unfold Poly.reduceBookOne
  cases hf : Poly.findRule b m.id with
  | none => rw [Poly.ofMono_value v hv.zero]; simp only [Poly.Mono.value, Poly.subst_none hf]
  | some r =>
    obtain ⟨-, hl⟩ := Poly.findRule_some hf
    dsimp only
    unfold Poly.MRule.reduceOne
    rw [if_neg (not_not.mpr hl.symm), Poly.make_value hv, Poly.transformed_value]
    simp only [Poly.Mono.value, Poly.subst_some hf]

theorem mono_known {t : Poly.Table} {n : Nat} (h0 : 0 < n) {b : List MRule} (hb : ∀ r ∈ b, ∀ m ∈ r.rhs, m.id < n) {m m' : Mono} (hm : m.id < n)
    (h : Poly.reduceBookMonomial t b m = some m') : m'.id < n := by
  unfold Poly.reduceBookMonomial at h
  cases hf : Poly.findRule b m.id with
  | none => rw [hf] at h; simp at h; subst h; exact hm
  | some r =>
    obtain ⟨hr, hl⟩ := Poly.findRule_some hf
    rw [hf] at h
    dsimp only at h
    split at h
    · obtain rfl := Option.some.inj h
      unfold Poly.MRule.reduceMonomial
      rw [if_neg (not_not.mpr hl)]
      cases hq : r.rhs with
      | nil => exact h0
      | cons s l =>
        dsimp only
        unfold Poly.canonicalMono
        rw [Poly.fixCC_id]
        have := hb r hr s (by rw [hq]; exact List.mem_cons_self)
        split <;> split <;> simp_all
    · simp at h

theorem one_known {t : Poly.Table} {o : Poly.Order} {n : Nat} {b : List MRule} (hb : ∀ r ∈ b, ∀ m ∈ r.rhs, m.id < n) {m : Mono} (hm : m.id < n) :
    ∀ x ∈ Poly.reduceBookOne t o b m, x.id < n := by
  intro x hx
  unfold Poly.reduceBookOne at hx
  have hone : ∀ x ∈ Poly.ofMono m, x.id < n := by
    intro x hx
    unfold Poly.ofMono at hx
    split at hx
    · rw [List.mem_singleton.mp hx]; exact hm
    · simp at hx
  cases hf : Poly.findRule b m.id with
  | none => rw [hf] at hx; exact hone x hx
  | some r =>
    rw [hf] at hx
    dsimp only at hx
    unfold Poly.MRule.reduceOne at hx
    split at hx
    · exact hone x hx
    · obtain ⟨y, hy, e⟩ := Poly.make_ids hx
      obtain ⟨z, hz, e'⟩ := Poly.transformed_ids hy
      rw [← e, ← e']
      exact hb r (Poly.findRule_some hf).1 z hz

theorem book_known {t : Poly.Table} {o : Poly.Order} {n : Nat} {b : List MRule} (hb : ∀ r ∈ b, ∀ m ∈ r.rhs, m.id < n) {p : List Mono}
    (hp : ∀ m ∈ p, m.id < n) : ∀ x ∈ Poly.reduceBook t o b p, x.id < n := by
  intro x hx
  obtain ⟨y, hy, ⟨-, e⟩ | ⟨r, hf, z, hz, e⟩⟩ := Poly.reduceBook_ids hx
  · rw [← e]; exact hp y hy
  · rw [← e]; exact hb r (Poly.findRule_some hf).1 z hz

theorem mapped {α : Type} {A : Mat α} (hA : A.Square) (f : α → List Mono) {i j : Nat} (hi : i < A.dim) (hj : j < A.dim) (v : Nat → ℂ) :
    ∃ x ∈ A.data, A.get? i j = some x ∧ polyAt v ⟨A.dim, A.data.map f⟩ i j = Poly.value v (f x) := by
  have h : i + j * A.dim < A.data.length := by rw [hA]; exact Triangle.off_lt hi hj
  refine ⟨A.data[i + j * A.dim], List.getElem_mem h, List.getElem?_eq_getElem h, ?_⟩
  unfold polyAt MatrixBasis.Mat.get?
  simp only [List.getElem?_map, List.getElem?_eq_getElem h, Option.map_some, Option.elim_some]

theorem mapM_spec {α β : Type} {f : α → Option β} : ∀ {l : List α} {r : List β}, l.mapM f = some r → r.length = l.length ∧
    (∀ y ∈ r, ∃ x ∈ l, f x = some y) ∧ ∀ (i : Nat) x, l[i]? = some x → r[i]? = f x
  | [], r, h => by simp at h; subst h; simp
  | a :: l, r, h => by
    rw [List.mapM_cons] at h
    cases hy : f a with
    | none => rw [hy] at h; simp at h
    | some y =>
      cases hq : l.mapM f with
      | none => rw [hy, hq] at h; simp at h
      | some q =>
        rw [hy, hq] at h
        obtain rfl : y :: q = r := by simpa using h
        obtain ⟨h1, h2, h3⟩ := mapM_spec hq
        refine ⟨by simp [h1], ?_, ?_⟩
        · intro z hz
          rcases List.mem_cons.mp hz with rfl | hz
          · exact ⟨a, List.mem_cons_self, hy⟩
          · obtain ⟨x, hx, e⟩ := h2 z hz
            exact ⟨x, List.mem_cons_of_mem _ hx, e⟩
        · intro i x hx
          cases i with
          | zero => simp at hx; subst hx; simp [hy]
          | succ i => simpa using h3 i x (by simpa using hx)

theorem mapM_total {α β : Type} {f : α → Option β} : ∀ {l : List α}, (∀ x ∈ l, ∃ y, f x = some y) → ∃ r, l.mapM f = some r
  | [], _ => ⟨[], rfl⟩
  | a :: l, h => by
    obtain ⟨y, hy⟩ := h a List.mem_cons_self
    obtain ⟨r, hr⟩ := mapM_total fun x hx => h x (List.mem_cons_of_mem _ hx)
    exact ⟨y :: r, by simp [List.mapM_cons, hy, hr]⟩

/-- Substitution succeeds, and the values are those with the substituted symbols. -/
theorem substitute_spec {t : Table} (h0 : 0 < t.syms.length) (o : Poly.Order) {R : Rules} (hm : R.flags.monomial = true → ∀ r ∈ R.book, r.rhs.length ≤ 1)
    (hR : KnownRules t R.book) {A : Matrix} (hA : Good t A) : ∃ B, substitute t o R A = some (some B) ∧ dim B = dim A ∧ Good t B ∧
      (∀ v, Poly.Respects (polyTable t) v → ∀ i j, i < dim A → j < dim A → entryAt v B i j = entryAt (subst R.book v) A i j) ∧
      (flagged B = true → (∃ S, B = .poly S) ∨ (flagged A = true ∧ R.flags.hermitian = true)) := by
  cases A with
  | poly A =>
    obtain ⟨B, h1, h2⟩ := SymbolMatrix.makePoly_known (t := t) (A := ⟨A.mat.dim, A.mat.data.map (Poly.reduceBook (polyTable t) o R.book)⟩) (by
      intro p hp
      obtain ⟨q, hq, rfl⟩ := List.mem_map.mp hp
      exact book_known hR (hA.2 q hq))
    refine ⟨.poly B, by simp [substitute, h1], by simp [dim, h2], ⟨?_, ?_⟩, ?_, fun _ => .inl ⟨B, rfl⟩⟩
    · rw [h2]; have := hA.1; unfold MatrixBasis.Mat.Square at this ⊢; simpa using this
    · rw [h2]
      intro p hp
      obtain ⟨q, hq, rfl⟩ := List.mem_map.mp hp
      exact book_known hR (hA.2 q hq)
    · intro v hv i j hi hj
      simp only [entryAt, h2]
      obtain ⟨x, -, hx, e⟩ := mapped hA.1 (Poly.reduceBook (polyTable t) o R.book) hi hj v
      rw [e, Poly.reduceBook_value _ hv]
      simp [polyAt, hx]
  | mono A =>
    by_cases hf : R.flags.monomial = true
    · have hlen := hm hf
      have hz : Poly.Respects (polyTable t) (fun _ => 0) := ⟨rfl, by simp, by simp⟩
      obtain ⟨d, hd⟩ := mapM_total (f := Poly.reduceBookMonomial (polyTable t) R.book) (l := A.mat.data) fun x _ => by
        obtain ⟨y, hy, -⟩ := mono_subst R.book hz x hlen
        exact ⟨y, hy⟩
      obtain ⟨d1, d2, d3⟩ := mapM_spec hd
      obtain ⟨B, b1, b2, b3, b4, b5, b6⟩ := SymbolMatrix.makeMono_agree h0 (A.hermitian && R.flags.hermitian) (S := ⟨A.mat.dim, d⟩)
        (by unfold MatrixBasis.Mat.Square; rw [d1]; exact hA.1)
        (by
          intro m hm
          obtain ⟨x, hx, e⟩ := d2 m hm
          exact mono_known h0 hR (hA.2 x hx) e)
      refine ⟨.mono B, by simp only [substitute, hf, if_true, hd, b1, Option.map_some], b2, ⟨b3, b5⟩, ?_, ?_⟩
      · intro v hv i j hi hj
        simp only [entryAt]
        rw [b6 v hv]
        have hlt : i + j * A.mat.dim < A.mat.data.length := by rw [hA.1]; exact Triangle.off_lt hi hj
        have hx := List.getElem?_eq_getElem hlt
        obtain ⟨m', e1, e2⟩ := mono_subst R.book hv A.mat.data[i + j * A.mat.dim] hlen
        have := d3 _ _ hx
        simp only [valueAt, MatrixBasis.Mat.get?, this, hx, e1, Option.elim_some, e2]
      · intro h
        right
        simp only [flagged, b4, Bool.and_eq_true] at h
        exact h
    · obtain ⟨B, h1, h2⟩ := SymbolMatrix.makePoly_known (t := t) (A := ⟨A.mat.dim, A.mat.data.map (Poly.reduceBookOne (polyTable t) o R.book)⟩) (by
        intro p hp
        obtain ⟨q, hq, rfl⟩ := List.mem_map.mp hp
        exact one_known hR (hA.2 q hq))
      refine ⟨.poly B, by simp [substitute, hf, h1], by simp [dim, h2], ⟨?_, ?_⟩, ?_, fun _ => .inl ⟨B, rfl⟩⟩
      · rw [h2]; have := hA.1; unfold MatrixBasis.Mat.Square at this ⊢; simpa using this
      · rw [h2]
        intro p hp
        obtain ⟨q, hq, rfl⟩ := List.mem_map.mp hp
        exact one_known hR (hA.2 q hq)
      · intro v hv i j hi hj
        simp only [entryAt, h2]
        obtain ⟨x, -, hx, e⟩ := mapped hA.1 (Poly.reduceBookOne (polyTable t) o R.book) hi hj v
        rw [e, one_subst o _ hv]
        simp [valueAt, hx]

theorem honest_monomial {t : Table} {R : Rules} (h : R.Honest t) (hm : R.flags.monomial = true) : ∀ r ∈ R.book, r.rhs.length ≤ 1 := by
  rw [h] at hm
  simpa [Poly.flagsOf] using hm

/-! ## Theorems -/

/-- **C74.** A substituted matrix is made without exception, and for all values of the symbols that satisfy the rules its entries have the values of
those of the old matrix. -/
theorem C74_value (t : Table) (h0 : 0 < t.syms.length) (o : Poly.Order) (R : Rules) (hf : R.Honest t) (hR : KnownRules t R.book) (A : Matrix)
    (hA : Good t A) : ∃ B, substitute t o R A = some (some B) ∧ dim B = dim A ∧ Good t B ∧
      ∀ v, Poly.Solves (polyTable t) R.book v → ∀ i j, i < dim A → j < dim A → entryAt v B i j = entryAt v A i j := by
  obtain ⟨B, h1, h2, h3, h4, -⟩ := substitute_spec h0 o (honest_monomial hf) hR hA
  exact ⟨B, h1, h2, h3, fun v hv i j hi hj => by rw [h4 v hv.1.1 i j hi hj, Poly.subst_of_solves hv]⟩

/-- **C74.** If the rulebook is complete, the new matrix has the rules built in: its values for any values of the symbols are the values of the old
matrix for values that satisfy the rules. -/
theorem C74_solved (t : Table) (h0 : 0 < t.syms.length) (ht : (polyTable t).Good) (o : Poly.Order) (ho : o.Good) (R : Rules) (hf : R.Honest t)
    (hb : Poly.Book (polyTable t) o R.book) (hR : KnownRules t R.book) (A B : Matrix) (hA : Good t A) (h : substitute t o R A = some (some B))
    (v : Nat → ℂ) (hv : Poly.Assignment (polyTable t) v) : ∃ w, Poly.Solves (polyTable t) R.book w ∧
      ∀ i j, i < dim A → j < dim A → entryAt v B i j = entryAt w A i j := by
  obtain ⟨B', h1, -, -, h4, -⟩ := substitute_spec h0 o (honest_monomial hf) hR hA
  obtain rfl : B' = B := by rw [h] at h1; simpa using h1.symm
  exact ⟨subst R.book v, (C56.book_inv ht ho hb).subst_solves hv, h4 v hv.1⟩

/-- **C74.** With a complete rulebook, a matrix of monomials flagged Hermitian is Hermitian for all values of the symbols, if the old matrix was when
it was flagged so. -/
theorem C74_flag_partial (t : Table) (h0 : 0 < t.syms.length) (ht : (polyTable t).Good) (o : Poly.Order) (ho : o.Good) (R : Rules) (hf : R.Honest t)
    (hb : Poly.Book (polyTable t) o R.book) (hR : KnownRules t R.book) (A : Matrix) (S : SymMat Mono) (hA : Good t A)
    (hh : flagged A = true → ∀ v, Poly.Assignment (polyTable t) v → HermitianAt v A) (h : substitute t o R A = some (some (.mono S)))
    (hS : S.hermitian = true) (v : Nat → ℂ) (hv : Poly.Assignment (polyTable t) v) : HermitianAt v (.mono S) := by
  obtain ⟨B', h1, h2, -, h4, h5⟩ := substitute_spec h0 o (honest_monomial hf) hR hA
  obtain rfl : B' = .mono S := by rw [h] at h1; simpa using h1.symm
  rcases h5 hS with ⟨S', e⟩ | ⟨hfa, -⟩
  · simp at e
  · intro i j hi hj
    rw [h2] at hi hj
    rw [h4 v hv.1 i j hi hj, h4 v hv.1 j i hj hi]
    exact hh hfa _ (Poly.subst_assignment (C56.book_inv ht ho hb).ok hv) i j hi hj

/-! ## An example -/

/-- Two further symbols, which have both parts. -/
def table : Table := ((Table.new.create true true).1.create true true).1

theorem table_good : (polyTable table).Good := by
  refine ⟨rfl, rfl, rfl, fun i hi => ?_⟩
  have hlen : table.syms.length = 4 := rfl
  match i, hi with
  | 1, _ => decide
  | 2, _ => decide
  | 3, _ => decide
  | i + 4, _ =>
    have : table.syms[i + 4]? = none := List.getElem?_eq_none (by omega)
    simp [polyTable, this]

theorem byId_good : Poly.byId.Good := C23.byId_good

/-- The rule 3 → 1 + 2. -/
noncomputable def sumRule : MRule := ⟨3, [⟨1, false, 1⟩, ⟨2, false, 1⟩], false, 0⟩

/-- Its raw form, and one that contradicts it. -/
noncomputable def first : List Mono := [⟨1, false, -1⟩, ⟨2, false, -1⟩, ⟨3, false, 1⟩]
noncomputable def second : List Mono := [⟨1, false, -2⟩, ⟨2, false, -1⟩, ⟨3, false, 1⟩]

theorem first_canonical : Poly.Canonical (polyTable table) Poly.byId first := ⟨by simp [first, Poly.byId], by simp [first], by simp [first]⟩
theorem second_canonical : Poly.Canonical (polyTable table) Poly.byId second := ⟨by simp [second, Poly.byId], by simp [second], by simp [second]⟩

theorem make_first : Poly.makeRule (polyTable table) Poly.byId first = some (sumRule, none) := by
  have e1 : (polyTable table).herm 3 = false := rfl
  have e2 : (polyTable table).anti 3 = false := rfl
  have h1 : (-1 : ℂ) ≠ 1 := fun h => by have := congrArg Complex.re h; norm_num at this
  simp [Poly.makeRule, Poly.difficulty, first, Poly.lastId, Poly.splitRegular, Poly.popNorm, e1, e2, Poly.scale, sumRule, h1]

theorem sum_complete : Poly.complete (polyTable table) Poly.byId [] [first] = some (.ok [sumRule] 1) := by
  unfold Poly.complete
  rw [Poly.completeLoop.eq_def]
  simp only [Poly.reduceBook, Poly.findRule, List.find?_nil, Option.isSome_none, List.any_eq_true, Bool.false_eq_true, and_false, exists_false, if_false,
    make_first]
  simp [sumRule, Poly.completeLoop]

theorem sum_book : Poly.Book (polyTable table) Poly.byId [sumRule] :=
  .complete (raw := [first]) .empty (by simpa using first_canonical) sum_complete

/-- The matrix of the symbols 3, 2, 2 and 1. -/
noncomputable def square : SymMat Mono := ⟨⟨2, [⟨3, false, 1⟩, ⟨2, false, 1⟩, ⟨2, true, 1⟩, ⟨1, false, 1⟩]⟩, false, false, true⟩

theorem square_good : Good table (.mono square) := by
  refine ⟨rfl, ?_⟩
  have hlen : table.syms.length = 4 := rfl
  simp [square, hlen]

theorem sum_known : KnownRules table [sumRule] := by
  have hlen : table.syms.length = 4 := rfl
  intro r hr m hm
  rw [List.mem_singleton.mp hr] at hm
  simp only [sumRule, List.mem_cons, List.not_mem_nil, or_false] at hm
  rcases hm with rfl | rfl <;> simp [hlen]

example : ∃ R : Rules, R.Honest table ∧ KnownRules table R.book ∧ Poly.Book (polyTable table) Poly.byId R.book ∧ R.book ≠ [] ∧ Good table (.mono square) :=
  ⟨⟨[sumRule], Poly.flagsOf (polyTable table) [sumRule]⟩, rfl, sum_known, sum_book, by simp, square_good⟩

/-- A monomial rule, 3 → 2, and a Hermitian matrix. -/
noncomputable def equalRule : MRule := ⟨3, [⟨2, false, 1⟩], false, 0⟩
noncomputable def pair : SymMat Mono := ⟨⟨2, [⟨1, false, 1⟩, ⟨3, false, 1⟩, ⟨3, true, 1⟩, ⟨1, false, 1⟩]⟩, true, false, true⟩

theorem equal_book : Poly.Book (polyTable table) Poly.byId [equalRule] := by
  have e1 : (polyTable table).herm 3 = false := rfl
  have e2 : (polyTable table).anti 3 = false := rfl
  have h1 : (-1 : ℂ) ≠ 1 := fun h => by have := congrArg Complex.re h; norm_num at this
  have hm : Poly.makeRule (polyTable table) Poly.byId [⟨2, false, -1⟩, ⟨3, false, 1⟩] = some (equalRule, none) := by
    simp [Poly.makeRule, Poly.difficulty, Poly.lastId, Poly.splitRegular, Poly.popNorm, e1, e2, Poly.scale, equalRule, h1]
  refine .complete (raw := [[⟨2, false, -1⟩, ⟨3, false, 1⟩]]) (k := 1) .empty (by
    intro p hp
    rw [List.mem_singleton.mp hp]
    exact ⟨by simp [Poly.byId], by simp, by simp⟩) ?_
  unfold Poly.complete
  rw [Poly.completeLoop.eq_def]
  simp only [Poly.reduceBook, Poly.findRule, List.find?_nil, Option.isSome_none, List.any_eq_true, Bool.false_eq_true, and_false, exists_false, if_false, hm]
  simp [equalRule, Poly.completeLoop]

example : ∃ (R : Rules) (S : SymMat Mono), R.Honest table ∧ Poly.Book (polyTable table) Poly.byId R.book ∧ KnownRules table R.book ∧ Good table (.mono pair) ∧
    substitute table Poly.byId R (.mono pair) = some (some (.mono S)) ∧ S.hermitian = true := by
  have hlen : table.syms.length = 4 := rfl
  have hhon : (⟨[equalRule], ⟨true, true⟩⟩ : Rules).Honest table := by
    have e1 : (polyTable table).herm 3 = false := rfl
    simp [Rules.Honest, Poly.flagsOf, equalRule, e1]
  have hk : KnownRules table [equalRule] := by simp [KnownRules, equalRule, hlen]
  have hg : Good table (.mono pair) := ⟨rfl, by simp [pair, hlen]⟩
  have hr : ∀ c f, Poly.reduceBookMonomial (polyTable table) [equalRule] ⟨3, c, f⟩ = some ⟨2, c, f⟩ := by
    intro c f
    have e1 : (polyTable table).herm 2 = false := rfl
    have e2 : (polyTable table).anti 2 = false := rfl
    cases c <;> simp [Poly.reduceBookMonomial, Poly.findRule, equalRule, Poly.MRule.reduceMonomial, Poly.canonicalMono, Poly.fixCC, e1, e2]
  have h1 : ∀ c f, Poly.reduceBookMonomial (polyTable table) [equalRule] ⟨1, c, f⟩ = some ⟨1, c, f⟩ := by
    intro c f
    simp [Poly.reduceBookMonomial, Poly.findRule, equalRule]
  obtain ⟨B, b1, -, -, b4, -⟩ := SymbolMatrix.makeMono_agree (t := table) (by decide) true
    (S := ⟨2, [⟨1, false, 1⟩, ⟨2, false, 1⟩, ⟨2, true, 1⟩, ⟨1, false, 1⟩]⟩) rfl (by simp [hlen])
  refine ⟨⟨[equalRule], ⟨true, true⟩⟩, B, hhon, equal_book, hk, hg, ?_, b4⟩
  simp [substitute, pair, List.mapM_cons, hr, h1, b1]

/-! ## Completion that fails -/

theorem completeBook_of_loop (t : Poly.Table) (o : Poly.Order) (b : List MRule) (raw : List (List Mono)) (k : Nat) (out : Poly.Outcome)
    (h : Poly.completeLoop t o b raw k = some out) : (∀ b' n, out = .ok b' n → completeBook t o b raw = some (b', true)) ∧
      (out = .contradiction → ∃ b', completeBook t o b raw = some (b', false)) := by
  revert h
  refine Poly.completeLoop.partial_correctness t o (motive := fun b raw _ out => (∀ b' n, out = .ok b' n → completeBook t o b raw = some (b', true)) ∧
      (out = .contradiction → ∃ b', completeBook t o b raw = some (b', false))) ?_ b raw k out
  intro F ih b raw k out h
  rw [completeBook.eq_def]
  cases raw with
  | nil =>
    dsimp only at h ⊢
    obtain rfl := Option.some.inj h
    exact ⟨fun b' n e => by cases e; rfl, fun e => by simp at e⟩
  | cons p rest =>
    dsimp only at h ⊢
    cases hr : Poly.makeRule t o (Poly.reduceBook t o b p) with
    | none =>
      rw [hr] at h
      dsimp only at h ⊢
      obtain rfl := Option.some.inj h
      exact ⟨fun b' n e => by simp at e, fun _ => ⟨b, rfl⟩⟩
    | some q =>
      obtain ⟨r, split⟩ := q
      rw [hr] at h
      dsimp only at h ⊢
      split at h
      · rename_i h1
        rw [if_pos h1]
        exact ih _ _ _ _ h
      · rename_i h1
        rw [if_neg h1]
        split at h
        · rename_i h2
          rw [if_pos h2]
          exact ih _ _ _ _ h
        · rename_i h2
          rw [if_neg h2]
          cases hf : Poly.findRule b r.lhs with
          | some old => rw [hf] at h; exact ih _ _ _ _ h
          | none => rw [hf] at h; exact ih _ _ _ _ h

/-- **C74.** Completion of a rulebook with honest flags either succeeds, with honest flags, or throws, and it throws exactly if the rules contradict
each other. -/
theorem C74_complete_partial (t : Table) (ht : (polyTable t).Good) (o : Poly.Order) (ho : o.Good) (R : Rules) (hf : R.Honest t)
    (hb : Poly.Book (polyTable t) o R.book) (raw : List (List Mono)) (hraw : ∀ p ∈ raw, Poly.Canonical (polyTable t) o p) :
    ∃ R' ok, completeRules (polyTable t) o R raw = some (R', ok) ∧ (ok = true → R'.Honest t ∧ Poly.Book (polyTable t) o R'.book) ∧
      (ok = false ↔ ∀ v, ¬ (Poly.Solves (polyTable t) R.book v ∧ Poly.Zero v raw)) := by
  unfold completeRules
  by_cases he : raw = []
  · subst he
    refine ⟨R, true, by simp, fun _ => ⟨hf, hb⟩, by simp, fun h => ?_⟩
    obtain ⟨v, hv⟩ : ∃ v, Poly.Solves (polyTable t) R.book v := ⟨_, (C56.book_inv ht ho hb).subst_solves (Poly.zero_assignment ht)⟩
    exact absurd ⟨hv, by simp [Poly.Zero]⟩ (h v)
  · have hne : raw.isEmpty = false := by simpa using he
    rw [if_neg (by simp [hne])]
    rcases C56.C56_complete (polyTable t) ht o ho R.book hb raw hraw with ⟨h, hno⟩ | ⟨b', k, h, h1, ⟨v, hv⟩, -⟩
    · obtain ⟨b', hb'⟩ := (completeBook_of_loop _ _ _ _ _ _ h).2 rfl
      rw [hb']
      exact ⟨_, _, rfl, by simp, fun _ => hno, fun _ => rfl⟩
    · have hb' := (completeBook_of_loop _ _ _ _ _ _ h).1 b' k rfl
      rw [hb']
      refine ⟨_, _, rfl, fun _ => ⟨rfl, .complete hb hraw h⟩, by simp, fun hno => absurd ((h1 v).mp hv) (hno v)⟩

example : (Rules.new).Honest table ∧ Poly.Book (polyTable table) Poly.byId Rules.new.book ∧ ∀ p ∈ [first, second], Poly.Canonical (polyTable table) Poly.byId p :=
  ⟨by simp [Rules.Honest, Rules.new, Poly.flagsOf], .empty, by simpa using ⟨first_canonical, second_canonical⟩⟩

theorem reduce_second : Poly.reduceBook (polyTable table) Poly.byId [sumRule] second = [⟨1, false, -1⟩] := by
  have hi : Function.Injective Poly.byId.rank := C21.byId_injective
  refine Poly.canonical_unique table_good hi (Poly.reduceBook_canonical hi _ second_canonical) ⟨by simp, by simp, by simp⟩ fun v hv h1 => ?_
  rw [Poly.reduceBook_value _ hv]
  have e3 : subst [sumRule] v 3 = v 1 + v 2 := by
    rw [Poly.subst_some (r := sumRule) (by simp [Poly.findRule, sumRule])]
    simp [sumRule, Poly.Mono.value]
  have e2 : subst [sumRule] v 2 = v 2 := Poly.subst_none (by simp [Poly.findRule, sumRule])
  have e1 : subst [sumRule] v 1 = v 1 := Poly.subst_none (by simp [Poly.findRule, sumRule])
  simp [second, Poly.Mono.value, e1, e2, e3, h1]
  ring

theorem complete_both : completeRules (polyTable table) Poly.byId Rules.new [first, second] = some (⟨[sumRule], ⟨true, true⟩⟩, false) := by
  have h2 : Poly.makeRule (polyTable table) Poly.byId [⟨1, false, -1⟩] = none := by simp [Poly.makeRule, Poly.difficulty]
  unfold completeRules
  simp only [List.isEmpty_cons, Bool.false_eq_true, if_false, Rules.new]
  rw [completeBook.eq_def]
  simp only [Poly.reduceBook, Poly.findRule, List.find?_nil, Option.isSome_none, List.any_eq_true, Bool.false_eq_true, and_false, exists_false, if_false,
    make_first]
  have hl : sumRule.lhs ≠ 0 := by simp [sumRule]
  rw [if_neg hl]
  simp only [List.all_nil, if_true, List.nil_append, Option.toList_none, List.append_nil]
  rw [completeBook.eq_def]
  simp only [reduce_second, h2, Option.map_some, Bool.false_eq_true, if_false]

/-- **C74 (violated).** When `complete()` throws, the flags are not updated, but rules may have been added: with the contradicting raw rules
3 = 1 + 2 and 3 = 2·1 + 2, the rulebook then holds the rule 3 → 1 + 2 and counts as monomial. Substitution in a matrix with the symbol 3 throws, although
the rulebook says it can be applied; with several threads the exception is lost and the entry becomes zero, which is not its value for any solution
with 1 + X₂ ≠ 0. -/
theorem C74_refuted_failed : ∃ R, completeRules (polyTable table) Poly.byId Rules.new [first, second] = some (R, false) ∧ ¬ R.Honest table ∧
    substitute table Poly.byId R (.mono square) = some none ∧
    ∀ s : Workers.Grid Mono, C43.Reachable 2 2 (fun k => square.mat.data.getD k ⟨0, false, 0⟩) (Poly.reduceBookMonomial (polyTable table) R.book)
      (fun _ => ⟨0, false, 0⟩) s → s.result = .returned s.out ∧ s.out 0 = ⟨0, false, 0⟩ := by
  have hno : Poly.reduceBookMonomial (polyTable table) [sumRule] ⟨3, false, 1⟩ = none := by simp [Poly.reduceBookMonomial, Poly.findRule, sumRule]
  refine ⟨_, complete_both, ?_, ?_, ?_⟩
  · intro h
    have := congrArg Poly.Flags.monomial h
    simp [Poly.flagsOf, sumRule] at this
  · simp [substitute, square, List.mapM_cons, hno]
  · intro s hs
    refine ⟨rfl, ?_⟩
    induction hs with
    | refl => rfl
    | tail _ h ih =>
      cases h with
      | write w col row y hw hp hc hr hy =>
        by_cases hk : col * 2 + row = 0
        · rw [hk] at hy
          simp [square, hno] at hy
        · dsimp only
          rw [Function.update_of_ne (Ne.symm hk)]
          exact ih
      | throw => exact ih
      | column => exact ih
      | finish => exact ih

/-! ## Rules that are injected -/

/-- A further symbol that is imaginary. -/
def antiTable : Table := (Table.new.create false true).1

/-- The matrix `[[0, X], [-X, 0]]`, which is Hermitian for an imaginary X. -/
noncomputable def skew : SymMat Mono := ⟨⟨2, [⟨0, false, 0⟩, ⟨2, false, -1⟩, ⟨2, false, 1⟩, ⟨0, false, 0⟩]⟩, true, false, true⟩

/-- **C74 (violated by `inject`).** Injecting the rule X → 1 for an imaginary symbol X leaves the Hermitian flag of the rulebook set, which is only
tested for Hermitian symbols. The Hermitian matrix `[[0, X], [-X, 0]]` becomes `[[0, 1], [-1, 0]]`, flagged Hermitian. -/
theorem C74_refuted_inject : ∃ (n : MRule) (R : Rules) (S : SymMat Mono),
    (R.book, R.flags, true) = Poly.inject (polyTable antiTable) Poly.byId [] ⟨true, true⟩ n ∧ R.Honest antiTable ∧
    (∀ v, Poly.Assignment (polyTable antiTable) v → HermitianAt v (.mono skew)) ∧
    substitute antiTable Poly.byId R (.mono skew) = some (some (.mono S)) ∧ S.hermitian = true ∧
    ∀ v, Poly.Assignment (polyTable antiTable) v → ¬ HermitianAt v (.mono S) := by
  have ea : (polyTable antiTable).anti 2 = true := rfl
  have eh : (polyTable antiTable).herm 2 = false := rfl
  have hlen : antiTable.syms.length = 3 := rfl
  let n : MRule := ⟨2, [⟨1, false, 1⟩], false, 0⟩
  have hhon : (⟨[n], ⟨true, true⟩⟩ : Rules).Honest antiTable := by simp [Rules.Honest, Poly.flagsOf, n, eh]
  have hg : Good antiTable (.mono skew) := ⟨rfl, by simp [skew, hlen]⟩
  obtain ⟨B, h1, h2, h3, h4, h5⟩ := substitute_spec (t := antiTable) (by decide) Poly.byId (R := ⟨[n], ⟨true, true⟩⟩) (honest_monomial hhon)
    (by simp [KnownRules, n, hlen]) hg
  have hB : ∃ S : SymMat Mono, B = .mono S ∧ S.hermitian = true := by
    simp only [substitute, if_true] at h1
    split at h1
    · simp at h1
    · rename_i d hd
      rw [Option.map_eq_some_iff] at h1
      obtain ⟨S, hS, e⟩ := h1
      refine ⟨S, by simpa using e.symm, ?_⟩
      unfold MatrixBasis.makeMono at hS
      rw [Option.bind_eq_some_iff] at hS
      obtain ⟨d', -, hS⟩ := hS
      rw [Option.map_eq_some_iff] at hS
      obtain ⟨q, -, rfl⟩ := hS
      rfl
  obtain ⟨S, rfl, hS⟩ := hB
  refine ⟨n, ⟨[n], ⟨true, true⟩⟩, S, ?_, hhon, ?_, h1, hS, ?_⟩
  · simp [Poly.inject, n, eh, Poly.findRule, Poly.insertRule]
  · intro v hv i j hi hj
    have hx := hv.1.anti 2 ea
    change i < 2 at hi
    change j < 2 at hj
    obtain rfl | rfl : i = 0 ∨ i = 1 := by omega
    all_goals obtain rfl | rfl : j = 0 ∨ j = 1 := by omega
    all_goals simp [entryAt, valueAt, skew, MatrixBasis.Mat.get?, Poly.Mono.value, hx]
  · intro v hv h
    have e := h 0 1 (by rw [h2]; decide) (by rw [h2]; decide)
    rw [h4 v hv.1 0 1 (by decide) (by decide), h4 v hv.1 1 0 (by decide) (by decide)] at e
    have es : subst [n] v 2 = 1 := by
      rw [Poly.subst_some (r := n) (by simp [Poly.findRule, n])]
      simp [n, Poly.Mono.value, hv.2]
    simp [entryAt, valueAt, skew, MatrixBasis.Mat.get?, Poly.Mono.value, es] at e
    have := congrArg Complex.re e
    norm_num at this

end Moment.C74
