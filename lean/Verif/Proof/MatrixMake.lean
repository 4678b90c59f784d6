import Verif.Proof.MatrixValues
import Verif.Proof.BasisMask
import Verif.Spec.Basis
import Mathlib.Data.List.Pairwise
import Mathlib.Data.Complex.BigOperators

/-! # Proofs about basis matrices: creation -/

namespace Moment.MatrixBasis

open Moment.Symbols (Sym Table Sound point flags)
open Moment.Poly (Mono Canonical Order)

theorem pairwise_both {α : Type} {R : α → α → Prop} (hR : ∀ x y, R x y → R y x) : ∀ {l : List α}, l.Pairwise R → ∀ x ∈ l, ∀ y ∈ l, x ≠ y → R x y
  | [], _, x, hx => by simp at hx
  | z :: l, h, x, hx => by
    obtain ⟨h1, h2⟩ := List.pairwise_cons.mp h
    intro y hy hne
    rcases List.mem_cons.mp hx with rfl | hx'
    · rcases List.mem_cons.mp hy with rfl | hy
      · exact absurd rfl hne
      · exact h1 y hy
    · rcases List.mem_cons.mp hy with rfl | hy
      · exact hR _ _ (h1 x hx')
      · exact pairwise_both hR h2 x hx' y hy hne

theorem apart_symm {sym : Bool} : ∀ v w : (Nat × Nat) × Nat, (v.1 ≠ w.1 ∧ (sym = true → v.1 ≠ (w.1.2, w.1.1))) →
    (w.1 ≠ v.1 ∧ (sym = true → w.1 ≠ (v.1.2, v.1.1))) := by
  rintro v w ⟨h1, h2⟩
  exact ⟨h1.symm, fun hs e => h2 hs (by rw [e])⟩

/-- What the values in the stores mean for the matrix. -/
theorem plan_rebuilds {α K : Type} {t : Table} {terms : α → List Mono} {cx : ℂ → K} {up : K → ℂ} {A : Mat α} {sym complex : Bool}
    {visit : List ((Nat × Nat) × Nat)} (hv : Visits sym A.dim visit) {es WR WI} (hp : Plan t terms cx up A sym complex visit es WR WI)
    {R I : Nat → Nat → Nat → ℂ} (hR : ∀ k i j, i < A.dim → j < A.dim → R k i j = wsum (lift up WR) k i j)
    (hI : ∀ k i j, i < A.dim → j < A.dim → I k i j = wsum WI k i j) :
    Rebuilds t A.dim (fun a b i j => Poly.value (point t a b) (ent terms A i j)) R I ↔
      (sym = true → Mirrored A.dim fun a b i j => Poly.value (point t a b) (ent terms A i j)) := by
  have hsum : ∀ a b i j, i < A.dim → j < A.dim →
      (∑ k ∈ Finset.range t.basis.real.length, ((a k : ℝ) : ℂ) * R k i j) + (∑ k ∈ Finset.range t.basis.imag.length, ((b k : ℝ) : ℂ) * I k i j) =
        dotW (lift up WR) a i j + dotW WI b i j := by
    intro a b i j hi hj
    rw [← total_wsum t.basis.real.length a i j (lift up WR), ← total_wsum t.basis.imag.length b i j WI]
    · simp only [hR _ i j hi hj, hI _ i j hi hj]
    · exact fun w hw => (hp.rangeI w hw).1
    · intro w hw
      obtain ⟨w', hw', rfl⟩ := List.mem_map.mp hw
      exact (hp.rangeR w' hw').1
  have hex : ∀ i j, sym = true → i ≠ j → (∃ v ∈ visit, v.1 = (i, j)) → ¬ ∃ v ∈ visit, v.1 = (j, i) := by
    rintro i j hs hne ⟨v, h1, e1⟩ ⟨w, h2, e2⟩
    have hvw : v ≠ w := fun e => hne (by rw [← e, e1] at e2; exact (Prod.mk.inj e2).1)
    have := pairwise_both (fun _ _ h => apart_symm _ _ h) hv.apart v h1 w h2 hvw
    exact this.2 hs (by rw [e1, e2])
  constructor
  · intro h hs a b i j hi hj hne
    rcases hv.cover i j hi hj with hin | ⟨-, hin⟩
    · have h1 := h a b j i hj hi
      rw [hsum a b j i hj hi, (hp.value a b j i hj hi).2 (hex i j hs hne hin)] at h1
      exact h1.symm
    · have h1 := h a b i j hi hj
      rw [hsum a b i j hi hj, (hp.value a b i j hi hj).2 (hex j i hs hne.symm hin)] at h1
      dsimp only at h1 ⊢
      rw [← h1, Complex.conj_conj]
  · intro h a b i j hi hj
    rw [hsum a b i j hi hj]
    by_cases hin : ∃ v ∈ visit, v.1 = (i, j)
    · exact (hp.value a b i j hi hj).1 hin
    · rw [(hp.value a b i j hi hj).2 hin]
      rcases hv.cover i j hi hj with h' | ⟨hs, v, h1, e⟩
      · exact absurd h' hin
      · have hne : j ≠ i := fun q => hin ⟨v, h1, by rw [e, q]⟩
        exact (h hs a b j i hj hi hne).symm

/-! ## The places of single terms -/

theorem pairwise_re {K : Type} (cx : ℂ → K) (sym : Bool) (s : Sym) (m : Mono) (i j : Nat) :
    (reWrites cx sym s m i j).Pairwise fun w v => ¬ (w.2.1 = v.2.1 ∧ w.2.2.1 = v.2.2.1) := by
  unfold reWrites
  split
  · split
    · rename_i h
      simp only [List.pairwise_cons, List.mem_singleton, forall_eq, List.not_mem_nil, false_implies, implies_true, List.Pairwise.nil, and_true]
      exact fun q => h.2 q.1
    · simp
  · exact List.Pairwise.nil

theorem pairwise_im (sym : Bool) (s : Sym) (m : Mono) (i j : Nat) :
    (imWrites sym s m i j).Pairwise fun w v => ¬ (w.2.1 = v.2.1 ∧ w.2.2.1 = v.2.2.1) := by
  unfold imWrites
  rcases s.im with - | k
  · exact List.Pairwise.nil
  · dsimp only
    by_cases h : sym = true ∧ i ≠ j
    · rw [if_pos h]
      simp only [List.pairwise_cons, List.mem_singleton, forall_eq, List.not_mem_nil, false_implies, implies_true, List.Pairwise.nil, and_true]
      exact fun q => h.2 q.1
    · rw [if_neg h]
      simp

theorem pairwise_all {K : Type} {t : Table} {sym : Bool} {f : Sym → Mono → Nat → Nat → List (Write K)}
    (h1 : ∀ s m i j, (f s m i j).Pairwise fun w v => ¬ (w.2.1 = v.2.1 ∧ w.2.2.1 = v.2.2.1))
    (h2 : ∀ s m i j, ∀ w ∈ f s m i j, (w.2.1 = i ∧ w.2.2.1 = j) ∨ (sym = true ∧ i ≠ j ∧ w.2.1 = j ∧ w.2.2.1 = i))
    (m : Nat → Nat → List Mono) (visit : List ((Nat × Nat) × Nat))
    (hv : visit.Pairwise fun v w => v.1 ≠ w.1 ∧ (sym = true → v.1 ≠ (w.1.2, w.1.1)))
    (hm : ∀ v ∈ visit, ∃ x, m v.1.1 v.1.2 = [x]) :
    (allWrites t f (visit.map fun v => (v.1, m v.1.1 v.1.2))).Pairwise fun w v => ¬ (w.2.1 = v.2.1 ∧ w.2.2.1 = v.2.2.1) := by
  unfold allWrites
  rw [List.pairwise_flatten]
  constructor
  · intro l hl
    obtain ⟨e, he, rfl⟩ := List.mem_map.mp hl
    obtain ⟨v, hv', rfl⟩ := List.mem_map.mp he
    obtain ⟨x, hx⟩ := hm v hv'
    simp only [hx, List.map_cons, List.map_nil, List.flatten_cons, List.flatten_nil, List.append_nil]
    exact h1 _ _ _ _
  · rw [List.map_map, List.pairwise_map]
    refine List.Pairwise.imp_of_mem ?_ hv
    intro v w hv1 hv2 hvw x hx y hy
    obtain ⟨a, ha⟩ := hm v hv1
    obtain ⟨b, hb⟩ := hm w hv2
    simp only [Function.comp, ha, hb, List.map_cons, List.map_nil, List.flatten_cons, List.flatten_nil, List.append_nil] at hx hy
    rintro ⟨e1, e2⟩
    rcases h2 _ _ _ _ x hx with ⟨p1, p2⟩ | ⟨hs, -, p1, p2⟩ <;> rcases h2 _ _ _ _ y hy with ⟨q1, q2⟩ | ⟨hs', -, q1, q2⟩
    · exact hvw.1 (Prod.ext (by omega) (by omega))
    · exact hvw.2 hs' (Prod.ext (by simp only; omega) (by simp only; omega))
    · exact hvw.2 hs (Prod.ext (by simp only; omega) (by simp only; omega))
    · exact hvw.1 (Prod.ext (by omega) (by omega))

/-! ## Stores from plans -/

theorem view_id (st : Dense ℂ) : view id st = viewC st := rfl

theorem lift_id (W : List (Write ℂ)) : lift id W = W := by simp [lift]

/-- The number of rows a vector of zeros has. -/
theorem zeros_length {K : Type} [Zero K] (N : Nat) : (zeros N : Dense K).length = N := List.length_replicate

theorem dense_set {α K : Type} [Zero K] {t : Table} {terms : α → List Mono} {cx : ℂ → K} {up : K → ℂ} (h0 : up 0 = 0) {A : Mat α}
    {sym complex : Bool} {visit es WR WI} (hp : Plan t terms cx up A sym complex visit es WR WI)
    (hR : WR.Pairwise fun w v => ¬ (w.2.1 = v.2.1 ∧ w.2.2.1 = v.2.2.1)) (hI : WI.Pairwise fun w v => ¬ (w.2.1 = v.2.1 ∧ w.2.2.1 = v.2.2.1)) :
    ∃ R I, run (setAt A.dim) WR (zeros t.basis.real.length) = some R ∧ run (setAt A.dim) WI (zeros t.basis.imag.length) = some I ∧
      R.length = t.basis.real.length ∧ I.length = t.basis.imag.length ∧
      (∀ k i j, view up R k i j = wsum (lift up WR) k i j) ∧ ∀ k i j, viewC I k i j = wsum WI k i j := by
  obtain ⟨R, r1, r2, r3⟩ := run_set up A.dim WR (zeros t.basis.real.length) (by rw [zeros_length]; exact hp.rangeR) hR
    (fun _ _ k => view_zeros up h0 _ _ _ _)
  obtain ⟨I, i1, i2, i3⟩ := run_set (K := ℂ) id A.dim WI (zeros t.basis.imag.length) (by rw [zeros_length]; exact hp.rangeI) hI
    (fun _ _ k => view_zeros id rfl _ _ _ _)
  rw [zeros_length] at r2 i2
  refine ⟨R, I, r1, i1, r2, i2, fun k i j => ?_, fun k i j => ?_⟩
  · rw [r3, view_zeros up h0, zero_add]
  · have := i3 k i j
    rw [view_zeros id rfl, zero_add, lift_id] at this
    exact this

theorem dense_add {α K : Type} [Zero K] [Add K] {t : Table} {terms : α → List Mono} {cx : ℂ → K} {up : K → ℂ} (h0 : up 0 = 0)
    (hadd : ∀ x y, up (x + y) = up x + up y) {A : Mat α}
    {sym complex : Bool} {visit es WR WI} (hp : Plan t terms cx up A sym complex visit es WR WI) :
    ∃ R I, run (addAt A.dim) WR (zeros t.basis.real.length) = some R ∧ run (addAt A.dim) WI (zeros t.basis.imag.length) = some I ∧
      R.length = t.basis.real.length ∧ I.length = t.basis.imag.length ∧
      (∀ k i j, view up R k i j = wsum (lift up WR) k i j) ∧ ∀ k i j, viewC I k i j = wsum WI k i j := by
  obtain ⟨R, r1, r2, r3⟩ := run_add up hadd A.dim WR (zeros t.basis.real.length) (by rw [zeros_length]; exact hp.rangeR)
  obtain ⟨I, i1, i2, i3⟩ := run_add (K := ℂ) id (fun _ _ => rfl) A.dim WI (zeros t.basis.imag.length) (by rw [zeros_length]; exact hp.rangeI)
  rw [zeros_length] at r2 i2
  refine ⟨R, I, r1, i1, r2, i2, fun k i j => ?_, fun k i j => ?_⟩
  · rw [r3, view_zeros up h0, zero_add]
  · have := i3 k i j
    rw [view_zeros id rfl, zero_add, lift_id] at this
    exact this

theorem viewT_nil {K : Type} (up : K → ℂ) (N k i j : Nat) : viewT up (List.replicate N []) k i j = 0 := by
  unfold viewT
  rw [List.getElem?_replicate]
  split <;> simp [tsum]

theorem viewT_map {K : Type} [AddCommMonoid K] (up : K →+ ℂ) (n : Nat) (st : List (List (Nat × Nat × K))) (k i j : Nat) (hi : i < n) (hj : j < n) :
    viewT up (st.map (fromTriplets n n)) k i j = viewT up st k i j := by
  unfold viewT
  rw [List.getElem?_map]
  rcases st[k]? with - | T
  · rfl
  · exact tsum_fromTriplets T up n n i j hi hj

theorem sparse_make {α K : Type} [AddCommMonoid K] {t : Table} {terms : α → List Mono} {cx : ℂ → K} {up : K →+ ℂ} {A : Mat α}
    {sym complex : Bool} {visit es WR WI} (hp : Plan t terms cx up A sym complex visit es WR WI) :
    ∃ R I, sparse t cx A.dim sym complex es = some (R, I) ∧ R.length = t.basis.real.length ∧ I.length = t.basis.imag.length ∧
      (∀ k i j, i < A.dim → j < A.dim → viewT up R k i j = wsum (lift up WR) k i j) ∧
      ∀ k i j, i < A.dim → j < A.dim → viewT (id : ℂ → ℂ) I k i j = wsum WI k i j := by
  obtain ⟨R, r1, r2, -, r3⟩ := run_push up A.dim WR (List.replicate t.basis.real.length [])
    (by rw [List.length_replicate]; exact hp.rangeR) (by intro T hT; simp [(List.mem_replicate.mp hT).2])
  obtain ⟨I, i1, i2, -, i3⟩ := run_push (K := ℂ) id A.dim WI (List.replicate t.basis.imag.length [])
    (by rw [List.length_replicate]; exact hp.rangeI) (by intro T hT; simp [(List.mem_replicate.mp hT).2])
  rw [List.length_replicate] at r2 i2
  refine ⟨R.map (fromTriplets A.dim A.dim), I.map (fromTriplets A.dim A.dim), ?_, by simpa using r2, by simpa using i2, ?_, ?_⟩
  · unfold sparse
    rw [hp.re, Option.bind_some, hp.im, Option.bind_some, r1, Option.bind_some, i1]
    rfl
  · intro k i j hi hj
    rw [viewT_map up A.dim R k i j hi hj, r3, viewT_nil, zero_add]
  · intro k i j hi hj
    have := viewT_map (AddMonoidHom.id ℂ) A.dim I k i j hi hj
    have h3 := i3 k i j
    rw [viewT_nil, zero_add, lift_id] at h3
    exact this.trans h3

/-! ## Monomial matrices -/

theorem dropZero_value (m : Mono) {v : Nat → ℂ} : (dropZero m).value v = m.value v := by
  unfold dropZero
  split
  · rename_i h
    simp [Mono.value, h]
  · rfl

theorem plainMono_spec {t : Table} (ht : Sound t) {m : Mono} (h : m.id < t.syms.length) :
    ∃ m', plainMono t m = some m' ∧ m'.id = m.id ∧ (m'.factor = m.factor ∨ m'.factor = -m.factor) ∧
      ∀ a b, m'.value (point t a b) = m.value (point t a b) := by
  unfold plainMono
  have hs := symOf_eq h
  split
  · rename_i hc
    rw [hs, Option.map_some]
    refine ⟨_, rfl, ?_⟩
    split
    · rename_i hh
      refine ⟨rfl, Or.inl rfl, fun a b => ?_⟩
      have := (Symbols.respects_point ht a b).herm m.id (by simp [flags, hs, hh])
      simp [Mono.value, hc, this]
    · split
      · rename_i hh
        refine ⟨rfl, Or.inr (by simp), fun a b => ?_⟩
        have := (Symbols.respects_point ht a b).anti m.id (by simp [flags, hs, hh])
        simp [Mono.value, hc, this]
      · exact ⟨rfl, Or.inl rfl, fun _ _ => rfl⟩
  · exact ⟨m, rfl, rfl, Or.inl rfl, fun _ _ => rfl⟩

theorem ent_mono_value {t : Table} {A : Mat Mono} (a b : Nat → ℝ) (i j : Nat) :
    Poly.value (point t a b) (ent (fun m => [m]) A i j) = monoValue t A a b i j := by
  unfold ent monoValue
  rcases A.get? i j with - | m <;> simp [Poly.value]

/-- What the constructor of a monomial matrix makes. -/
structure MonoMade (t : Table) (herm : Bool) (A : Mat Mono) (B : SymMat Mono) : Prop where
  dim : B.mat.dim = A.dim
  square : B.mat.Square
  herm : B.hermitian = herm
  known : ∀ x ∈ B.mat.data, Known t [x]
  coefs : B.complexCoefs = true ↔ ∃ m ∈ A.data, m.factor.im ≠ 0
  real : B.complexCoefs = false → ∀ m ∈ B.mat.data, m.factor.im = 0
  basis : B.complexBasis = false → ∀ m ∈ B.mat.data, (symOf t m).im = none
  value : ∀ a b i j, monoValue t B.mat a b i j = monoValue t A a b i j

theorem makeMono_spec {t : Table} (ht : Sound t) (herm : Bool) {A : Mat Mono} (hA : A.Square) (hk : ∀ x ∈ A.data, Known t [x]) :
    ∃ B, makeMono t herm A = some B ∧ MonoMade t herm A B := by
  have hid : ∀ m ∈ A.data, m.id < t.syms.length := fun m hm => hk m hm m (by simp)
  have hz : 0 < t.syms.length := by
    obtain ⟨s, h, -⟩ := ht.zero
    exact (List.getElem?_eq_some_iff.mp h).1
  let g : Mono → Mono := fun m => (plainMono t m).getD m
  have hg : ∀ m ∈ A.data, plainMono t m = some (g m) ∧ (g m).id = m.id ∧ ((g m).factor = m.factor ∨ (g m).factor = -m.factor) ∧
      ∀ a b, (g m).value (point t a b) = m.value (point t a b) := by
    intro m hm
    obtain ⟨m', h1, h2⟩ := plainMono_spec ht (hid m hm)
    have : g m = m' := by simp [g, h1]
    rw [this]
    exact ⟨h1, h2⟩
  have hd : ∀ m ∈ (A.data.map g).map dropZero, m.id < t.syms.length := by
    intro m hm
    simp only [List.mem_map] at hm
    obtain ⟨_, ⟨x, hx, rfl⟩, rfl⟩ := hm
    unfold dropZero
    split
    · exact hz
    · rw [(hg x hx).2.1]
      exact hid x hx
  have hre : ∀ m ∈ A.data, (dropZero (g m)).factor.im ≠ 0 ↔ m.factor.im ≠ 0 := by
    intro m hm
    obtain ⟨-, -, h, -⟩ := hg m hm
    unfold dropZero
    split
    · rename_i h0
      have : m.factor = 0 := by
        rcases h with h | h <;> rw [h] at h0
        · exact h0
        · exact neg_eq_zero.mp h0
      simp [this]
    · rcases h with h | h <;> rw [h] <;> simp
  have he : makeMono t herm A = some ⟨⟨A.dim, (A.data.map g).map dropZero⟩, herm, ((A.data.map g).map dropZero).any (fun m => m.factor.im ≠ 0),
      (((A.data.map g).map dropZero).map (symOf t)).any fun s => s.im.isSome⟩ := by
    unfold makeMono
    rw [mapM_some g fun m hm => (hg m hm).1, Option.bind_some]
    dsimp only
    rw [mapM_some (symOf t) fun m hm => symOf_eq (hd m hm)]
    rfl
  refine ⟨_, he, rfl, ?_, rfl, ?_, ?_, ?_, ?_, ?_⟩
  · unfold Mat.Square at hA ⊢
    simpa using hA
  · intro x hx m hm
    rw [List.mem_singleton.mp hm]
    exact hd x hx
  · simp only [List.any_eq_true, List.mem_map, decide_eq_true_eq]
    constructor
    · rintro ⟨_, ⟨_, ⟨m, hm, rfl⟩, rfl⟩, h⟩
      exact ⟨m, hm, (hre m hm).mp h⟩
    · rintro ⟨m, hm, h⟩
      exact ⟨_, ⟨_, ⟨m, hm, rfl⟩, rfl⟩, (hre m hm).mpr h⟩
  · intro h m hm
    rw [List.any_eq_false] at h
    simpa using h m hm
  · intro h m hm
    rw [List.any_eq_false] at h
    simpa using h _ (List.mem_map.mpr ⟨m, hm, rfl⟩)
  · intro a b i j
    unfold monoValue Mat.get?
    simp only [List.getElem?_map]
    rcases hx : A.data[i + j * A.dim]? with - | m
    · rfl
    · simp only [Option.map_some, Option.elim]
      rw [dropZero_value]
      exact (hg m (List.mem_of_getElem? hx)).2.2.2 a b

theorem mono_plan {K : Type} {t : Table} (ht : Sound t) {herm : Bool} {A : Mat Mono} {B : SymMat Mono} (h : MonoMade t herm A B)
    {cx : ℂ → K} {up : K → ℂ}
    (hup : ∀ m ∈ B.mat.data, up (cx m.factor) = m.factor ∧ up (cx ((starRingEnd ℂ) m.factor)) = (starRingEnd ℂ) m.factor) :
    ∃ visit es WR WI, Visits B.hermitian B.mat.dim visit ∧ visit = (if B.hermitian then visitUpper B.mat.dim else visitAll B.mat.dim) ∧
      Plan t (fun m => [m]) cx up B.mat B.hermitian B.complexBasis visit es WR WI ∧
      (WR.Pairwise fun w v => ¬ (w.2.1 = v.2.1 ∧ w.2.2.1 = v.2.2.1)) ∧ (WI.Pairwise fun w v => ¬ (w.2.1 = v.2.1 ∧ w.2.2.1 = v.2.2.1)) := by
  have hv : Visits B.hermitian B.mat.dim (if B.hermitian then visitUpper B.mat.dim else visitAll B.mat.dim) := by
    cases B.hermitian
    · exact visits_all _
    · exact visits_upper _
  have hone : ∀ v ∈ (if B.hermitian then visitUpper B.mat.dim else visitAll B.mat.dim),
      ∃ x, ent (fun m : Mono => [m]) B.mat v.1.1 v.1.2 = [x] := by
    intro v hv'
    obtain ⟨h1, h2, -⟩ := hv.off v hv'
    obtain ⟨x, -, -, e⟩ := ent_get (terms := fun m : Mono => [m]) h.square h1 h2
    exact ⟨x, e⟩
  refine ⟨_, _, _, _, hv, rfl, plan_exists ht h.square h.known (fun x hx m hm => ?_) (fun hc x hx b => ?_) hv, ?_, ?_⟩
  · rw [List.mem_singleton.mp hm]
    exact hup x hx
  · simp [imTerm, h.basis hc x hx]
  · exact pairwise_all (sym := B.hermitian) (fun s m i j => pairwise_re cx _ s m i j) (fun s m i j w hw => (mem_reWrites hw).2)
      (ent (fun m : Mono => [m]) B.mat) _ hv.apart hone
  · split
    · exact pairwise_all (sym := B.hermitian) (fun s m i j => pairwise_im _ s m i j) (fun s m i j w hw => (mem_imWrites hw).2)
        (ent (fun m : Mono => [m]) B.mat) _ hv.apart hone
    · exact List.Pairwise.nil

theorem mono_value_fun {t : Table} {herm : Bool} {A : Mat Mono} {B : SymMat Mono} (h : MonoMade t herm A B) :
    (fun a b i j => Poly.value (point t a b) (ent (fun m => [m]) B.mat i j)) = monoValue t A := by
  funext a b i j
  rw [ent_mono_value, h.value]

theorem denseMono_spec {K : Type} [Zero K] {t : Table} (ht : Sound t) {herm : Bool} {A : Mat Mono} {B : SymMat Mono} (h : MonoMade t herm A B)
    {cx : ℂ → K} {up : K → ℂ} (h0 : up 0 = 0)
    (hup : ∀ m ∈ B.mat.data, up (cx m.factor) = m.factor ∧ up (cx ((starRingEnd ℂ) m.factor)) = (starRingEnd ℂ) m.factor) :
    ∃ R I, denseMono t cx B = some (R, I) ∧ R.length = t.basis.real.length ∧ I.length = t.basis.imag.length ∧
      (Rebuilds t A.dim (monoValue t A) (view up R) (viewC I) ↔ (herm = true → Mirrored A.dim (monoValue t A))) := by
  obtain ⟨visit, es, WR, WI, hv, e, hp, p1, p2⟩ := mono_plan ht h hup
  obtain ⟨R, I, r1, i1, r2, i2, r3, i3⟩ := dense_set h0 hp p1 p2
  refine ⟨R, I, ?_, r2, i2, ?_⟩
  · unfold denseMono
    rw [← e, hp.entries, Option.bind_some, hp.re, Option.bind_some, hp.im, Option.bind_some, r1, Option.bind_some, i1]
    rfl
  · have := plan_rebuilds hv hp (fun k i j _ _ => r3 k i j) (fun k i j _ _ => i3 k i j)
    rwa [mono_value_fun h, h.dim, h.herm] at this

theorem sparseMono_spec {K : Type} [AddCommMonoid K] {t : Table} (ht : Sound t) {herm : Bool} {A : Mat Mono} {B : SymMat Mono}
    (h : MonoMade t herm A B) {cx : ℂ → K} {up : K →+ ℂ}
    (hup : ∀ m ∈ B.mat.data, up (cx m.factor) = m.factor ∧ up (cx ((starRingEnd ℂ) m.factor)) = (starRingEnd ℂ) m.factor) :
    ∃ R I, sparseMono t cx B = some (R, I) ∧ R.length = t.basis.real.length ∧ I.length = t.basis.imag.length ∧
      (Rebuilds t A.dim (monoValue t A) (viewT up R) (viewT id I) ↔ (herm = true → Mirrored A.dim (monoValue t A))) := by
  obtain ⟨visit, es, WR, WI, hv, e, hp, -, -⟩ := mono_plan (up := up) ht h hup
  obtain ⟨R, I, s1, r2, i2, r3, i3⟩ := sparse_make hp
  refine ⟨R, I, ?_, r2, i2, ?_⟩
  · unfold sparseMono
    rw [← e, hp.entries, Option.bind_some, s1]
  · have := plan_rebuilds hv hp r3 i3
    rwa [mono_value_fun h, h.dim, h.herm] at this

/-! ## Polynomial matrices -/

theorem im_linear {t : Table} (ht : Sound t) (b : Nat → ℝ) : ∀ p : List Mono, Known t p →
    (p.map (imTerm t b)).sum = ∑ k ∈ Finset.range t.basis.imag.length, (b k : ℂ) * (p.map (imTerm t fun l => if l = k then 1 else 0)).sum
  | [], _ => by simp
  | m :: p, h => by
    rw [List.map_cons, List.sum_cons, im_linear ht b p fun x hx => h x (List.mem_cons_of_mem _ hx)]
    simp only [List.map_cons, List.sum_cons, mul_add, Finset.sum_add_distrib]
    congr 1
    unfold imTerm
    rcases hi : (symOf t m).im with - | k
    · simp
    · have hm := symOf_mem (h m List.mem_cons_self)
      have hlt : k < t.basis.imag.length := (List.getElem?_eq_some_iff.mp ((ht.offsets.im _ hm k).mp hi)).1
      simp only [Option.elim]
      rw [Finset.sum_eq_single_of_mem k (Finset.mem_range.mpr hlt)]
      · simp
      · intro l _ hl
        rw [if_neg hl.symm]
        simp

theorem value_terms {t : Table} {p : List Mono} (h : Known t p) (a b : Nat → ℝ) :
    Poly.value (point t a b) p = (p.map (reTerm t a)).sum + (p.map (imTerm t b)).sum := by
  unfold Poly.value
  rw [← List.sum_map_add]
  congr 1
  apply List.map_congr_left
  intro m hm
  exact value_term (h m hm) a b

theorem im_zero {t : Table} (ht : Sound t) {p : List Mono} (h : Known t p) (hd : ∀ k, ¬ BasisVec.DependsIm t p k) (b : Nat → ℝ) :
    (p.map (imTerm t b)).sum = 0 := by
  rw [im_linear ht b p h]
  apply Finset.sum_eq_zero
  intro k _
  have := hd k
  unfold BasisVec.DependsIm at this
  push Not at this
  have h1 := this (fun _ => 0) (fun _ => 0) (fun l => if l = k then 1 else 0) (fun l hl => if_neg hl)
  rw [value_terms h, value_terms h, add_right_inj] at h1
  rw [h1]
  have : (p.map (imTerm t fun _ => 0)).sum = 0 := by
    apply List.sum_eq_zero
    intro x hx
    obtain ⟨m, -, rfl⟩ := List.mem_map.mp hx
    unfold imTerm
    rcases (symOf t m).im with - | k <;> simp
  rw [this, mul_zero]

theorem ent_poly_value {t : Table} {A : Mat (List Mono)} (a b : Nat → ℝ) (i j : Nat) :
    Poly.value (point t a b) (ent id A i j) = polyValue t A a b i j := by
  unfold ent polyValue
  rcases A.get? i j with - | m
  · simp [Poly.value]
  · rfl

/-- What the constructor of a polynomial matrix makes. -/
structure PolyMade (t : Table) (A : Mat (List Mono)) (B : SymMat (List Mono)) : Prop where
  mat : B.mat = A
  herm : B.hermitian = testHermicity t A
  coefs : B.complexCoefs = true ↔ ∃ p ∈ A.data, ∃ m ∈ p, m.factor.im ≠ 0
  basis : B.complexBasis = false → ∀ p ∈ A.data, ∀ b, (p.map (imTerm t b)).sum = 0

theorem makePoly_spec {t : Table} (ht : Sound t) {o : Order} {A : Mat (List Mono)} (hk : ∀ p ∈ A.data, Known t p)
    (hp : ∀ p ∈ A.data, Canonical (flags t) o p) : ∃ B, makePoly t A = some B ∧ PolyMade t A B := by
  have hm : ∀ p ∈ A.data, ∃ M, BasisVec.maskBits t p = some M ∧ ∀ k, k ∈ M.2 ↔ BasisVec.DependsIm t p k := by
    intro p hp'
    obtain ⟨R, I, h1, h2, -⟩ := BasisVec.mask_depends ht (hp p hp') (hk p hp')
    exact ⟨(R, I), h1, fun k => (h2 k).2⟩
  let g : List Mono → List Nat × List Nat := fun p => (BasisVec.maskBits t p).getD ([], [])
  have hg : ∀ p ∈ A.data, BasisVec.maskBits t p = some (g p) ∧ ∀ k, k ∈ (g p).2 ↔ BasisVec.DependsIm t p k := by
    intro p hp'
    obtain ⟨M, h1, h2⟩ := hm p hp'
    have : g p = M := by simp [g, h1]
    rw [this]
    exact ⟨h1, h2⟩
  have he : makePoly t A = some ⟨A, testHermicity t A, A.data.any fun p => p.any fun m => m.factor.im ≠ 0, (A.data.map g).any fun m => !m.2.isEmpty⟩ := by
    unfold makePoly
    rw [mapM_some g fun p hp' => (hg p hp').1]
    rfl
  refine ⟨_, he, rfl, rfl, ?_, ?_⟩
  · simp
  · intro h p hp' b
    refine im_zero ht (hk p hp') (fun k hd => ?_) b
    rw [List.any_eq_false] at h
    have := h _ (List.mem_map.mpr ⟨p, hp', rfl⟩)
    simp only [Bool.not_eq_true', Bool.not_eq_false, List.isEmpty_iff] at this
    have hk' := ((hg p hp').2 k).mpr hd
    rw [this] at hk'
    simp at hk'

theorem poly_plan {K : Type} {t : Table} (ht : Sound t) {A : Mat (List Mono)} (hA : A.Square) (hk : ∀ p ∈ A.data, Known t p)
    {B : SymMat (List Mono)} (h : PolyMade t A B) {cx : ℂ → K} {up : K → ℂ}
    (hup : ∀ p ∈ A.data, ∀ m ∈ p, up (cx m.factor) = m.factor ∧ up (cx ((starRingEnd ℂ) m.factor)) = (starRingEnd ℂ) m.factor) :
    ∃ es WR WI, Plan t id cx up A B.hermitian B.complexBasis (visitPoly B.hermitian A.dim) es WR WI :=
  ⟨_, _, _, plan_exists ht hA hk hup h.basis (visits_poly _ _)⟩

theorem poly_value_fun {t : Table} {A : Mat (List Mono)} :
    (fun a b i j => Poly.value (point t a b) (ent id A i j)) = polyValue t A := by
  funext a b i j
  rw [ent_poly_value]

theorem densePoly_spec {K : Type} [Zero K] [Add K] {t : Table} (ht : Sound t) {A : Mat (List Mono)} (hA : A.Square) (hk : ∀ p ∈ A.data, Known t p)
    {B : SymMat (List Mono)} (h : PolyMade t A B) {cx : ℂ → K} {up : K → ℂ} (h0 : up 0 = 0) (hadd : ∀ x y, up (x + y) = up x + up y)
    (hup : ∀ p ∈ A.data, ∀ m ∈ p, up (cx m.factor) = m.factor ∧ up (cx ((starRingEnd ℂ) m.factor)) = (starRingEnd ℂ) m.factor) :
    ∃ R I, densePoly t cx B = some (R, I) ∧ R.length = t.basis.real.length ∧ I.length = t.basis.imag.length ∧
      (Rebuilds t A.dim (polyValue t A) (view up R) (viewC I) ↔ (testHermicity t A = true → Mirrored A.dim (polyValue t A))) := by
  obtain ⟨es, WR, WI, hp⟩ := poly_plan ht hA hk h hup
  obtain ⟨R, I, r1, i1, r2, i2, r3, i3⟩ := dense_add h0 hadd hp
  refine ⟨R, I, ?_, r2, i2, ?_⟩
  · unfold densePoly
    rw [h.mat, hp.entries, Option.bind_some, hp.re, Option.bind_some, hp.im, Option.bind_some, r1, Option.bind_some, i1]
    rfl
  · have := plan_rebuilds (visits_poly _ _) hp (fun k i j _ _ => r3 k i j) (fun k i j _ _ => i3 k i j)
    rwa [poly_value_fun, h.herm] at this

theorem sparsePoly_spec {K : Type} [AddCommMonoid K] {t : Table} (ht : Sound t) {A : Mat (List Mono)} (hA : A.Square)
    (hk : ∀ p ∈ A.data, Known t p) {B : SymMat (List Mono)} (h : PolyMade t A B) {cx : ℂ → K} {up : K →+ ℂ}
    (hup : ∀ p ∈ A.data, ∀ m ∈ p, up (cx m.factor) = m.factor ∧ up (cx ((starRingEnd ℂ) m.factor)) = (starRingEnd ℂ) m.factor) :
    ∃ R I, sparsePoly t cx B = some (R, I) ∧ R.length = t.basis.real.length ∧ I.length = t.basis.imag.length ∧
      (Rebuilds t A.dim (polyValue t A) (viewT up R) (viewT id I) ↔ (testHermicity t A = true → Mirrored A.dim (polyValue t A))) := by
  obtain ⟨es, WR, WI, hp⟩ := poly_plan (up := up) ht hA hk h hup
  obtain ⟨R, I, s1, r2, i2, r3, i3⟩ := sparse_make hp
  refine ⟨R, I, ?_, r2, i2, ?_⟩
  · unfold sparsePoly
    rw [h.mat, hp.entries, Option.bind_some, s1]
  · have := plan_rebuilds (visits_poly _ _) hp r3 i3
    rwa [poly_value_fun, h.herm] at this

end Moment.MatrixBasis
