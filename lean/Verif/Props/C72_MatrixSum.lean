import Verif.Spec.MatrixSum
import Verif.Proof.MatrixTimes
import Verif.Proof.MomentRules
import Verif.Proof.PolyOps
import Verif.Props.C21_Polynomial

/-! # C72: sums of matrices of symbols -/

namespace Moment.C72

open Moment.MatrixSum
open Moment.Symbols (Sym Table)
open Moment.Poly (Mono)
open Moment.MatrixBasis (Mat SymMat polyTable)
open Moment.SymbolMatrix (valueAt polyAt)

/-! ## Entries -/

theorem fixCanonical_value {t : Poly.Table} {v : Nat → ℂ} (hv : Poly.Respects t v) (p : List Mono) : Poly.value v (Poly.fixCanonical t p) = Poly.value v p := by
  unfold Poly.fixCanonical
  simp only
  split
  · rw [Poly.removeZeros_value v hv.zero]
    split
    · rw [Poly.removeDup_value, Poly.value_map_fixCC hv]
    · rw [Poly.value_map_fixCC hv]
  · rw [Poly.value_map_fixCC hv]

theorem fixCanonical_ids {t : Poly.Table} {p : List Mono} {m : Mono} (h : m ∈ Poly.fixCanonical t p) : ∃ y ∈ p, y.id = m.id := by
  have key : ∀ x ∈ p.map (Poly.fixCC t), ∃ y ∈ p, y.id = x.id := by
    intro x hx
    obtain ⟨y, hy, rfl⟩ := List.mem_map.mp hx
    exact ⟨y, hy, (Poly.fixCC_id t y).symm⟩
  unfold Poly.fixCanonical at h
  simp only at h
  split at h
  · have h := (Poly.mem_removeZeros.mp h).1
    split at h
    · obtain ⟨y, hy, e, -⟩ := Poly.removeDup_mem _ _ h
      obtain ⟨z, hz, e'⟩ := key y hy
      exact ⟨z, hz, e'.trans e⟩
    · exact key m h
  · exact key m h

theorem sumPM_ids {o : Poly.Order} {p : List Mono} {x m : Mono} (h : m ∈ Poly.sumPM o p x) : m.id = x.id ∨ ∃ y ∈ p, y.id = m.id := by
  induction p with
  | nil => simp [Poly.sumPM] at h; exact .inl (by rw [h])
  | cons a p ih =>
    unfold Poly.sumPM at h
    split at h
    · rcases List.mem_cons.mp h with rfl | h
      · exact .inr ⟨m, List.mem_cons_self, rfl⟩
      · rcases ih h with h | ⟨y, hy, e⟩
        · exact .inl h
        · exact .inr ⟨y, List.mem_cons_of_mem _ hy, e⟩
    · split at h
      · split at h
        · exact .inr ⟨m, List.mem_cons_of_mem _ h, rfl⟩
        · rcases List.mem_cons.mp h with rfl | h
          · exact .inl rfl
          · exact .inr ⟨m, List.mem_cons_of_mem _ h, rfl⟩
      · rcases List.mem_cons.mp h with rfl | h
        · exact .inl rfl
        · exact .inr ⟨m, h, rfl⟩

theorem sumPM_value (v : Nat → ℂ) {o : Poly.Order} (ho : Function.Injective o.rank) (p : List Mono) (m : Mono) :
    Poly.value v (Poly.sumPM o p m) = Poly.value v p + m.value v := by
  rw [Poly.sumPM_eq ho, Poly.mergeAdd_value v ho]
  simp

theorem mono_scaled (v : Nat → ℂ) (m : Mono) (f : ℂ) : Mono.value v ⟨m.id, m.conj, m.factor * f⟩ = f * m.value v := by
  unfold Poly.Mono.value
  ring

theorem scaled_value (v : Nat → ℂ) (f : ℂ) (p : List Mono) : Poly.value v (p.map fun m => ⟨m.id, m.conj, m.factor * f⟩) = f * Poly.value v p := by
  induction p with
  | nil => simp
  | cons m p ih => rw [List.map_cons, Poly.value_cons, Poly.value_cons, ih, mono_scaled]; ring

/-- A matrix obtained entry by entry. -/
theorem mapped {α : Type} {A : Mat α} (hA : A.Square) (f : α → List Mono) {i j : Nat} (hi : i < A.dim) (hj : j < A.dim) (v : Nat → ℂ) :
    ∃ x ∈ A.data, A.get? i j = some x ∧ polyAt v ⟨A.dim, A.data.map f⟩ i j = Poly.value v (f x) := by
  have h : i + j * A.dim < A.data.length := by rw [hA]; exact Triangle.off_lt hi hj
  refine ⟨A.data[i + j * A.dim], List.getElem_mem h, List.getElem?_eq_getElem h, ?_⟩
  unfold polyAt MatrixBasis.Mat.get?
  simp only [List.getElem?_map, List.getElem?_eq_getElem h, Option.map_some, Option.elim_some]

theorem finish_some {t : Table} {A : Mat (List Mono)} (h : ∀ p ∈ A.data, ∀ m ∈ p, m.id < t.syms.length) :
    ∃ S, finish t (some A) = some (some S) ∧ S.mat = A := by
  obtain ⟨B, h1, h2⟩ := SymbolMatrix.makePoly_known h
  exact ⟨B, by simp [finish, h1], h2⟩

theorem square_map {α β : Type} {A : Mat α} (hA : A.Square) (f : α → β) : (⟨A.dim, A.data.map f⟩ : Mat β).Square := by
  unfold MatrixBasis.Mat.Square at hA ⊢
  simpa using hA

/-! ## Composite matrices -/

theorem rescaled_spec {t : Table} {A : Part} (hA : Good t A) (f : ℂ) :
    (rescaled t A f).dim = A.dim ∧ (rescaled t A f).Square ∧ (∀ p ∈ (rescaled t A f).data, ∀ m ∈ p, m.id < t.syms.length) ∧
    ∀ v, Poly.Respects (polyTable t) v → ∀ i j, i < A.dim → j < A.dim → polyAt v (rescaled t A f) i j = f * entryAt v A i j := by
  cases A with
  | mono A =>
    refine ⟨rfl, by rw [rescaled, List.map_map]; exact square_map hA.1 _, ?_, ?_⟩
    · intro p hp m hm
      simp only [rescaled, List.mem_map] at hp
      obtain ⟨-, ⟨x, hx, rfl⟩, rfl⟩ := hp
      obtain ⟨y, hy, e⟩ := fixCanonical_ids hm
      unfold Poly.ofMono at hy
      split at hy
      · rw [← e, List.mem_singleton.mp hy]; exact hA.2 x hx
      · simp at hy
    · intro v hv i j hi hj
      rw [rescaled, List.map_map]
      obtain ⟨x, -, hx, e⟩ := mapped hA.1 (Poly.fixCanonical (polyTable t) ∘ fun m => Poly.ofMono ⟨m.id, m.conj, m.factor * f⟩) hi hj v
      rw [e]
      simp only [Function.comp, fixCanonical_value hv, Poly.ofMono_value v hv.zero, mono_scaled, entryAt, valueAt, hx, Option.elim_some]
  | poly A =>
    refine ⟨rfl, by rw [rescaled, List.map_map]; exact square_map hA.1 _, ?_, ?_⟩
    · intro p hp m hm
      simp only [rescaled, List.mem_map] at hp
      obtain ⟨-, ⟨x, hx, rfl⟩, rfl⟩ := hp
      obtain ⟨y, hy, e⟩ := fixCanonical_ids hm
      obtain ⟨z, hz, e', -⟩ := Poly.scale_ids hy
      rw [← e, ← e']; exact hA.2 x hx z hz
    · intro v hv i j hi hj
      rw [rescaled, List.map_map]
      obtain ⟨x, -, hx, e⟩ := mapped hA.1 (Poly.fixCanonical (polyTable t) ∘ fun p => Poly.scale f p) hi hj v
      rw [e]
      simp only [Function.comp, fixCanonical_value hv, Poly.scale_value, entryAt, polyAt, hx, Option.elim_some]

theorem terms_value (v : Nat → ℂ) (n i j : Nat) : ∀ l : List (Part × ℂ), (∀ p ∈ l, p.1.dim = n) →
    Poly.value v (monoTerms l (i + j * n)) + Poly.value v (polyTerms l (i + j * n)) = (l.map fun p => p.2 * entryAt v p.1 i j).sum
  | [], _ => by simp [monoTerms, polyTerms]
  | (.mono A, f) :: l, h => by
    have ih := terms_value v n i j l fun p hp => h p (List.mem_cons_of_mem _ hp)
    have hd : A.dim = n := h _ List.mem_cons_self
    simp only [monoTerms, polyTerms, List.flatMap_cons, List.map_cons, List.sum_cons] at ih ⊢
    rw [← ih, Poly.value_append, List.nil_append]
    have : Poly.value v ((A.data[i + j * n]?).elim [] fun m => [⟨m.id, m.conj, m.factor * f⟩]) = f * entryAt v (.mono A) i j := by
      simp only [entryAt, valueAt, MatrixBasis.Mat.get?, hd]
      cases A.data[i + j * n]? with
      | none => simp
      | some m => simp [mono_scaled]
    rw [this]; ring
  | (.poly A, f) :: l, h => by
    have ih := terms_value v n i j l fun p hp => h p (List.mem_cons_of_mem _ hp)
    have hd : A.dim = n := h _ List.mem_cons_self
    simp only [monoTerms, polyTerms, List.flatMap_cons, List.map_cons, List.sum_cons] at ih ⊢
    rw [← ih, List.nil_append, Poly.value_append]
    have : Poly.value v ((A.data[i + j * n]?).elim [] fun p => p.map fun m => ⟨m.id, m.conj, m.factor * f⟩) = f * entryAt v (.poly A) i j := by
      simp only [entryAt, polyAt, MatrixBasis.Mat.get?, hd]
      cases A.data[i + j * n]? with
      | none => simp
      | some p => simp only [Option.elim_some]; exact scaled_value v f p
    rw [this]; ring

theorem terms_ids {t : Table} {l : List (Part × ℂ)} (hg : ∀ p ∈ l, Good t p.1) {k : Nat} {m : Mono} (hm : m ∈ monoTerms l k ++ polyTerms l k) :
    m.id < t.syms.length := by
  rcases List.mem_append.mp hm with hm | hm
  · obtain ⟨⟨A, f⟩, hp, hm⟩ := List.mem_flatMap.mp hm
    have hA := hg _ hp
    cases A with
    | poly A => simp at hm
    | mono A =>
      simp only at hm
      cases hk : A.data[k]? with
      | none => simp [hk] at hm
      | some x =>
        simp only [hk, Option.elim_some, List.mem_singleton] at hm
        rw [hm]; exact hA.2 x (List.mem_of_getElem? hk)
  · obtain ⟨⟨A, f⟩, hp, hm⟩ := List.mem_flatMap.mp hm
    have hA := hg _ hp
    cases A with
    | mono A => simp at hm
    | poly A =>
      simp only at hm
      cases hk : A.data[k]? with
      | none => simp [hk] at hm
      | some x =>
        simp only [hk, Option.elim_some, List.mem_map] at hm
        obtain ⟨y, hy, rfl⟩ := hm
        exact hA.2 x (List.mem_of_getElem? hk) y hy

theorem compile_spec {t : Table} (o : Poly.Order) {c : Parts} (hg : ∀ p ∈ c.elements, Good t p.1 ∧ p.1.dim = c.dim) :
    ∃ A, compile t o c = some A ∧ A.dim = c.dim ∧ A.Square ∧ (∀ p ∈ A.data, ∀ m ∈ p, m.id < t.syms.length) ∧
      ∀ v, Poly.Respects (polyTable t) v → ∀ i j, i < c.dim → j < c.dim → polyAt v A i j = (c.elements.map fun p => p.2 * entryAt v p.1 i j).sum := by
  obtain ⟨n, l⟩ := c
  simp only at hg ⊢
  unfold compile
  match l, hg with
  | [], _ =>
    refine ⟨_, rfl, rfl, by simp [MatrixBasis.Mat.Square], ?_, ?_⟩
    · intro p hp m hm
      rw [List.eq_of_mem_replicate hp] at hm
      simp at hm
    · intro v _ i j hi hj
      unfold polyAt MatrixBasis.Mat.get?
      rw [List.getElem?_replicate, if_pos (Triangle.off_lt hi hj)]
      simp
  | [(A, f)], hg =>
    obtain ⟨h1, h2⟩ := hg (A, f) List.mem_cons_self
    simp only at h1 h2
    obtain ⟨r1, r2, r3, r4⟩ := rescaled_spec h1 f
    refine ⟨_, rfl, r1.trans h2, r2, r3, fun v hv i j hi hj => ?_⟩
    rw [r4 v hv i j (h2 ▸ hi) (h2 ▸ hj)]
    simp
  | p1 :: p2 :: l, hg =>
    unfold summed
    simp only
    rw [if_pos (by
      rw [List.all_eq_true]
      intro p hp
      exact decide_eq_true (hg p hp).2.symm)]
    refine ⟨_, rfl, rfl, by simp [MatrixBasis.Mat.Square], ?_, ?_⟩
    · intro p hp m hm
      obtain ⟨k, -, rfl⟩ := List.mem_map.mp hp
      obtain ⟨y, hy, e⟩ := Poly.make_ids hm
      rw [← e]
      exact terms_ids (fun p hp => (hg p hp).1) hy
    · intro v hv i j hi hj
      unfold polyAt MatrixBasis.Mat.get?
      simp only
      rw [List.getElem?_map, List.getElem?_range (Triangle.off_lt hi hj)]
      simp only [Option.map_some, Option.elim_some]
      rw [Poly.make_value hv, Poly.value_append]
      exact terms_value v n i j _ fun p hp => (hg p hp).2

/-- A composite matrix of matrices of the same dimension: each entry has the weighted sum of the values. -/
theorem C72_composite {t : Table} (o : Poly.Order) {c : Parts} (hg : ∀ p ∈ c.elements, Good t p.1 ∧ p.1.dim = c.dim) :
    ∃ S, composite t o c = some (some S) ∧ S.mat.dim = c.dim ∧ S.mat.Square ∧ Good t (.poly S.mat) ∧
      ∀ v, Poly.Respects (polyTable t) v → ∀ i j, i < c.dim → j < c.dim →
        polyAt v S.mat i j = (c.elements.map fun p => p.2 * entryAt v p.1 i j).sum := by
  obtain ⟨A, h1, h2, h3, h4, h5⟩ := compile_spec o hg
  obtain ⟨S, s1, rfl⟩ := finish_some h4
  exact ⟨S, by rw [composite, h1, s1], h2, h3, ⟨h3, h4⟩, h5⟩

/-- Its entries are canonical polynomials, if those of the matrices are. -/
theorem C72_composite_canonical {t : Table} {o : Poly.Order} (ho : Function.Injective o.rank) {c : Parts} (hg : ∀ p ∈ c.elements, Tidy t o p.1)
    {S : SymMat (List Mono)} (hS : composite t o c = some (some S)) : Tidy t o (.poly S.mat) := by
  unfold composite at hS
  cases hA : compile t o c with
  | none => rw [hA] at hS; simp [finish] at hS
  | some A =>
    rw [hA] at hS
    simp only [finish, Option.map_eq_some_iff, Option.some.injEq] at hS
    obtain ⟨B, hB, rfl⟩ := hS
    have hBA : B.mat = A := by
      unfold MatrixBasis.makePoly at hB
      obtain ⟨x, -, rfl⟩ := Option.map_eq_some_iff.mp hB
      rfl
    rw [Tidy, hBA]
    unfold compile at hA
    have hnil : Poly.Canonical (polyTable t) o [] := ⟨by simp, by simp, by simp⟩
    split at hA
    · cases hA
      intro p hp
      rw [List.eq_of_mem_replicate hp]
      exact hnil
    · rename_i A' f e
      cases hA
      have hA' := hg (A', f) (by rw [e]; exact List.mem_cons_self)
      intro p hp
      cases A' with
      | mono A' =>
        simp only [rescaled, List.mem_map] at hp
        obtain ⟨-, ⟨x, -, rfl⟩, rfl⟩ := hp
        refine (C21.C21_fix_cc (polyTable t) o ho ⟨fun _ => false, fun _ => false⟩ _ ?_).1
        unfold Poly.ofMono
        split
        · rename_i h; exact ⟨by simp, fun y hy => by rw [List.mem_singleton.mp hy]; exact ⟨h.2, h.1⟩, by simp⟩
        · exact ⟨by simp, by simp, by simp⟩
      | poly A' =>
        simp only [rescaled, List.mem_map] at hp
        obtain ⟨-, ⟨x, hx, rfl⟩, rfl⟩ := hp
        exact (C21.C21_fix_cc (polyTable t) o ho (polyTable t) _ (Poly.scale_canonical (hA' x hx) f)).1
    · unfold summed at hA
      split at hA
      · cases hA
        intro p hp
        obtain ⟨k, -, rfl⟩ := List.mem_map.mp hp
        exact Poly.make_canonical _ _ ho _
      · simp at hA

/-- Several matrices, one of which has the wrong dimension, are refused. -/
theorem C72_composite_refuses {t : Table} (o : Poly.Order) {c : Parts} (hl : 2 ≤ c.elements.length) (hd : ∃ p ∈ c.elements, p.1.dim ≠ c.dim) :
    composite t o c = some none := by
  obtain ⟨n, l⟩ := c
  simp only at hl hd
  unfold composite compile
  match l, hl, hd with
  | p1 :: p2 :: l, _, ⟨p, hp, hne⟩ =>
    simp only
    unfold summed
    rw [if_neg]
    · rfl
    · rw [List.all_eq_true]
      intro h
      exact hne (of_decide_eq_true (h p hp)).symm

/-! ## Sums -/

/-- The sum of two matrices: matrices of different dimensions are refused; else each entry has the sum of the values. -/
theorem C72_add {t : Table} (o : Poly.Order) {A B : Part} (hA : Good t A) (hB : Good t B) :
    (A.dim ≠ B.dim → addMatrix t o A B = some none) ∧
    (A.dim = B.dim → ∃ S, addMatrix t o A B = some (some S) ∧ S.mat.dim = A.dim ∧ S.mat.Square ∧
      ∀ v, Poly.Respects (polyTable t) v → ∀ i j, i < A.dim → j < A.dim → polyAt v S.mat i j = entryAt v A i j + entryAt v B i j) := by
  refine ⟨fun h => by rw [addMatrix, if_pos h], fun h => ?_⟩
  obtain ⟨S, s1, s2, s3, -, s5⟩ := C72_composite (t := t) o (c := ⟨A.dim, [(A, 1), (B, 1)]⟩) (by
    intro p hp
    simp only [List.mem_cons, List.not_mem_nil, or_false] at hp
    rcases hp with rfl | rfl
    · exact ⟨hA, rfl⟩
    · exact ⟨hB, h.symm⟩)
  refine ⟨S, by rw [addMatrix, if_neg (by simpa using h)]; exact s1, s2, s3, fun v hv i j hi hj => ?_⟩
  rw [s5 v hv i j hi hj]
  simp

theorem single_composite {t : Table} (o : Poly.Order) {A : Part} (hA : Good t A) : ∃ S, composite t o ⟨A.dim, [(A, 1)]⟩ = some (some S) ∧
    S.mat.dim = A.dim ∧ S.mat.Square ∧
    ∀ v, Poly.Respects (polyTable t) v → ∀ i j, i < A.dim → j < A.dim → polyAt v S.mat i j = entryAt v A i j := by
  obtain ⟨S, s1, s2, s3, -, s5⟩ := C72_composite (t := t) o (c := ⟨A.dim, [(A, 1)]⟩) (by
    intro p hp
    simp only [List.mem_cons, List.not_mem_nil, or_false] at hp
    rw [hp]
    exact ⟨hA, rfl⟩)
  exact ⟨S, s1, s2, s3, fun v hv i j hi hj => by rw [s5 v hv i j hi hj]; simp⟩

/-- A monomial is added to each entry. Missing: zero cannot be added to a matrix of polynomials, see `C72_refuted_zero`. -/
theorem C72_add_monomial_partial {t : Table} {o : Poly.Order} (ho : Function.Injective o.rank) {A : Part} (hA : Good t A) {m : Mono}
    (hm : m.id < t.syms.length) (hz : (∃ B, A = .mono B) ∨ (m.id ≠ 0 ∧ m.factor ≠ 0)) :
    ∃ S, addMono t o m A = some (some S) ∧ S.mat.dim = A.dim ∧ S.mat.Square ∧
      ∀ v, Poly.Respects (polyTable t) v → ∀ i j, i < A.dim → j < A.dim → polyAt v S.mat i j = entryAt v A i j + m.value v := by
  cases A with
  | mono A =>
    simp only [addMono]
    by_cases h0 : m.id = 0 ∨ m.factor = 0
    · obtain ⟨S, s1, s2, s3, s4⟩ := single_composite o hA
      refine ⟨S, by rw [if_pos h0]; exact s1, s2, s3, fun v hv i j hi hj => ?_⟩
      have : m.value v = 0 := by
        unfold Poly.Mono.value
        rcases h0 with h | h <;> simp [h, hv.zero]
      rw [s4 v hv i j hi hj, this, add_zero]
    · rw [if_neg h0]
      obtain ⟨S, s1, s2⟩ := finish_some (t := t) (A := ⟨A.dim, A.data.map fun x => Poly.sumMM o x m⟩) (by
        intro p hp x hx
        obtain ⟨y, hy, rfl⟩ := List.mem_map.mp hp
        rcases SymbolMatrix.sumMM_ids hx with e | e <;> rw [e]
        · exact hA.2 y hy
        · exact hm)
      refine ⟨S, s1, by rw [s2]; rfl, by rw [s2]; exact square_map hA.1 _, fun v hv i j hi hj => ?_⟩
      obtain ⟨x, -, hx, e⟩ := mapped hA.1 (fun x => Poly.sumMM o x m) hi hj v
      rw [s2, e, SymbolMatrix.sumMM_value hv.zero]
      simp [entryAt, valueAt, hx]
  | poly A =>
    have h0 : ¬ (m.id = 0 ∨ m.factor = 0) := by
      rcases hz with ⟨B, hB⟩ | h
      · simp at hB
      · tauto
    simp only [addMono]
    rw [if_neg h0]
    obtain ⟨S, s1, s2⟩ := finish_some (t := t) (A := ⟨A.dim, A.data.map fun x => Poly.sumPM o x m⟩) (by
      intro p hp x hx
      obtain ⟨y, hy, rfl⟩ := List.mem_map.mp hp
      rcases sumPM_ids hx with e | ⟨z, hz, e⟩
      · rw [e]; exact hm
      · rw [← e]; exact hA.2 y hy z hz)
    refine ⟨S, s1, by rw [s2]; rfl, by rw [s2]; exact square_map hA.1 _, fun v hv i j hi hj => ?_⟩
    obtain ⟨x, -, hx, e⟩ := mapped hA.1 (fun x => Poly.sumPM o x m) hi hj v
    rw [s2, e, sumPM_value v ho]
    simp [entryAt, polyAt, hx]

/-- A polynomial is added to each entry. Missing: as before. -/
theorem C72_add_polynomial_partial {t : Table} {o : Poly.Order} (ho : Function.Injective o.rank) {A : Part} (hA : Good t A) {q : List Mono}
    (hm : ∀ m ∈ q, m.id < t.syms.length) (hc : Poly.Canonical (polyTable t) o q) (hz : (∃ B, A = .mono B) ∨ q ≠ []) :
    ∃ S, addPoly t o q A = some (some S) ∧ S.mat.dim = A.dim ∧ S.mat.Square ∧
      ∀ v, Poly.Respects (polyTable t) v → ∀ i j, i < A.dim → j < A.dim → polyAt v S.mat i j = entryAt v A i j + Poly.value v q := by
  match q, hm, hc, hz with
  | [], _, _, hz =>
    cases A with
    | poly A => rcases hz with ⟨B, hB⟩ | h <;> simp_all
    | mono A =>
      obtain ⟨S, s1, s2, s3, s4⟩ := single_composite o hA
      exact ⟨S, s1, s2, s3, fun v hv i j hi hj => by rw [s4 v hv i j hi hj]; simp⟩
  | [m], hm, hc, _ =>
    have h0 := hc.nonzero m List.mem_cons_self
    obtain ⟨S, s1, s2, s3, s4⟩ := C72_add_monomial_partial ho hA (m := m) (hm m List.mem_cons_self) (.inr ⟨h0.2, h0.1⟩)
    exact ⟨S, s1, s2, s3, fun v hv i j hi hj => by rw [s4 v hv i j hi hj]; simp⟩
  | m1 :: m2 :: q, hm, _, _ =>
    cases A with
    | mono A =>
      simp only [addPoly]
      obtain ⟨S, s1, s2⟩ := finish_some (t := t) (A := ⟨A.dim, A.data.map fun x => Poly.sumPM o (m1 :: m2 :: q) x⟩) (by
        intro p hp x hx
        obtain ⟨y, hy, rfl⟩ := List.mem_map.mp hp
        rcases sumPM_ids hx with e | ⟨z, hz, e⟩
        · rw [e]; exact hA.2 y hy
        · rw [← e]; exact hm z hz)
      refine ⟨S, s1, by rw [s2]; rfl, by rw [s2]; exact square_map hA.1 _, fun v hv i j hi hj => ?_⟩
      obtain ⟨x, -, hx, e⟩ := mapped hA.1 (fun x => Poly.sumPM o (m1 :: m2 :: q) x) hi hj v
      rw [s2, e, sumPM_value v ho]
      simp [entryAt, valueAt, hx, add_comm]
    | poly A =>
      simp only [addPoly]
      obtain ⟨S, s1, s2⟩ := finish_some (t := t) (A := ⟨A.dim, A.data.map fun x => Poly.sumPP o x (m1 :: m2 :: q)⟩) (by
        intro p hp x hx
        obtain ⟨y, hy, rfl⟩ := List.mem_map.mp hp
        obtain ⟨z, hz, e, -⟩ := Poly.mergeAdd_mem hx
        rw [← e]
        rcases List.mem_append.mp hz with hz | hz
        · exact hA.2 y hy z hz
        · exact hm z hz)
      refine ⟨S, s1, by rw [s2]; rfl, by rw [s2]; exact square_map hA.1 _, fun v hv i j hi hj => ?_⟩
      obtain ⟨x, -, hx, e⟩ := mapped hA.1 (fun x => Poly.sumPP o x (m1 :: m2 :: q)) hi hj v
      rw [s2, e, Poly.sumPP, Poly.mergeAdd_value v ho]
      simp [entryAt, polyAt, hx]

/-- The entries of the sum of a matrix and a canonical polynomial are canonical, for a matrix of canonical polynomials. -/
theorem C72_add_canonical {t : Table} {o : Poly.Order} (ho : Function.Injective o.rank) {A : Mat (List Mono)} (hA : Tidy t o (.poly A)) {q : List Mono}
    (hc : Poly.Canonical (polyTable t) o q) {S : SymMat (List Mono)} (hS : addPoly t o q (.poly A) = some (some S)) : Tidy t o (.poly S.mat) := by
  have key : ∀ (f : List Mono → List Mono), (∀ p ∈ A.data, Poly.Canonical (polyTable t) o (f p)) →
      finish t (some ⟨A.dim, A.data.map f⟩) = some (some S) → Tidy t o (.poly S.mat) := by
    intro f hf h
    simp only [finish, Option.map_eq_some_iff, Option.some.injEq] at h
    obtain ⟨B, hB, rfl⟩ := h
    unfold MatrixBasis.makePoly at hB
    obtain ⟨x, -, rfl⟩ := Option.map_eq_some_iff.mp hB
    intro p hp
    obtain ⟨y, hy, rfl⟩ := List.mem_map.mp hp
    exact hf y hy
  match q, hc, hS with
  | [], _, hS => simp [addPoly] at hS
  | [m], hc, hS =>
    simp only [addPoly, addMono] at hS
    have h0 := hc.nonzero m List.mem_cons_self
    rw [if_neg (by tauto)] at hS
    refine key _ (fun p hp => ?_) hS
    rw [Poly.sumPM_eq ho]
    exact Poly.mergeAdd_canonical ho (hA p hp) hc
  | m1 :: m2 :: q, hc, hS =>
    simp only [addPoly] at hS
    exact key _ (fun p hp => Poly.mergeAdd_canonical ho (hA p hp) hc) hS

/-! ## Refutations and examples -/

/-- Zero cannot be added to any matrix of polynomials, neither as a monomial nor as a polynomial: the call throws. -/
theorem C72_refuted_zero (t : Table) (o : Poly.Order) (A : Mat (List Mono)) :
    addPoly t o [] (.poly A) = some none ∧ addMono t o ⟨0, false, 0⟩ (.poly A) = some none ∧ addMono t o ⟨1, false, 0⟩ (.poly A) = some none := by
  refine ⟨rfl, ?_, ?_⟩ <;> simp [addMono]

/-- The table of zero, one and nothing else. -/
theorem new_length : Table.new.syms.length = 2 := rfl

/-- Adding one to a matrix of monomials with a zero entry leaves the zero in the sum, which is not canonical. -/
theorem C72_refuted_canonical : ∃ (A : Mat Mono) (S : SymMat (List Mono)), Good Table.new (.mono A) ∧
    addMono Table.new Poly.byId ⟨1, false, 1⟩ (.mono A) = some (some S) ∧ S.mat.get? 0 0 = some [⟨0, false, 0⟩, ⟨1, false, 1⟩] ∧
    ¬ Tidy Table.new Poly.byId (.poly S.mat) := by
  have hg : Good Table.new (.mono ⟨1, [⟨0, false, 0⟩]⟩) := ⟨rfl, by simp [new_length]⟩
  obtain ⟨S, s1, s2⟩ := finish_some (t := Table.new) (A := ⟨1, [(⟨0, false, 0⟩ : Mono)].map fun x => Poly.sumMM Poly.byId x ⟨1, false, 1⟩⟩) (by
    intro p hp x hx
    obtain ⟨y, hy, rfl⟩ := List.mem_map.mp hp
    rw [List.mem_singleton.mp hy] at hx
    rcases SymbolMatrix.sumMM_ids hx with e | e <;> rw [e] <;> simp [new_length])
  have hs : Poly.sumMM Poly.byId ⟨0, false, 0⟩ ⟨1, false, 1⟩ = [⟨0, false, 0⟩, ⟨1, false, 1⟩] := by
    simp [Poly.sumMM, Poly.Order.less, Poly.Order.key, Poly.byId]
  refine ⟨⟨1, [⟨0, false, 0⟩]⟩, S, hg, ?_, ?_, ?_⟩
  · simp only [addMono]
    rw [if_neg (by simp)]
    exact s1
  · rw [s2]
    simp [MatrixBasis.Mat.get?, hs]
  · intro h
    have := h [⟨0, false, 0⟩, ⟨1, false, 1⟩] (by rw [s2]; simp [hs])
    exact (this.nonzero ⟨0, false, 0⟩ List.mem_cons_self).2 rfl

/-- Three times a matrix plus twice another one: the values. -/
example : ∃ S, composite Table.new Poly.byId ⟨1, [(.mono ⟨1, [⟨1, false, 5⟩]⟩, 3), (.poly ⟨1, [[⟨1, false, 7⟩]]⟩, 2)]⟩ = some (some S) ∧
    ∀ v, Poly.Respects (polyTable Table.new) v → polyAt v S.mat 0 0 = 29 * v 1 := by
  obtain ⟨S, s1, -, -, -, s5⟩ := C72_composite (t := Table.new) Poly.byId
    (c := ⟨1, [(.mono ⟨1, [⟨1, false, 5⟩]⟩, 3), (.poly ⟨1, [[⟨1, false, 7⟩]]⟩, 2)]⟩) (by
      intro p hp
      simp only [List.mem_cons, List.not_mem_nil, or_false] at hp
      rcases hp with rfl | rfl
      · exact ⟨⟨rfl, by simp [new_length]⟩, rfl⟩
      · exact ⟨⟨rfl, by simp [new_length]⟩, rfl⟩)
  refine ⟨S, s1, fun v hv => ?_⟩
  rw [s5 v hv 0 0 (by simp) (by simp)]
  simp [entryAt, valueAt, polyAt, MatrixBasis.Mat.get?, Poly.Mono.value]
  ring

end Moment.C72
