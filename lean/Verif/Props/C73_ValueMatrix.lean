import Verif.Spec.ValueMatrix
import Verif.Props.C71_RawPoly
import Verif.Props.C50_MatrixTimes

/-! # C73: matrices of numbers -/

namespace Moment.C73

open Moment.ValueMatrix
open Moment.Symbols (Sym Table Env)
open Moment.Poly (Mono)
open Moment.MatrixBasis (Mat SymMat polyTable makeMono makePoly)
open Moment.SymbolMatrix (Host Setting Ready Fit Moments Agrees MonoMat AnyMat valueAt polyAt)
open Moment.RawPoly (Raw Over total isScalar)

/-! ## Construction -/

theorem makeMono_plain {t : Table} (herm : Bool) {S : Mat Mono} (hk : ∀ m ∈ S.data, m.conj = false ∧ m.id < t.syms.length) :
    ∃ B, makeMono t herm S = some B ∧ B.mat = ⟨S.dim, S.data.map MatrixBasis.dropZero⟩ ∧ B.hermitian = herm := by
  unfold makeMono
  rw [MatrixBasis.mapM_some (g := fun m => m) (fun m hm => by simp [MatrixBasis.plainMono, (hk m hm).1]), Option.bind_some]
  simp only [List.map_id_fun', id]
  rw [MatrixBasis.mapM_some (MatrixBasis.symOf t) fun m hm => MatrixBasis.symOf_eq (by
    obtain ⟨x, hx, rfl⟩ := List.mem_map.mp hm
    have := (hk x hx).2
    unfold MatrixBasis.dropZero
    split
    · simp only; omega
    · exact this)]
  exact ⟨_, rfl, rfl, rfl⟩

theorem numbers_of {n : Nat} {l : List Mono} {d : Nat → Nat → ℂ} (hl : l.length = n * n)
    (h : ∀ i j, i < n → j < n → ∃ id, l[i + j * n]? = some ⟨id, false, d i j⟩ ∧ (d i j ≠ 0 → id = 1)) :
    Numbers ⟨n, l.map MatrixBasis.dropZero⟩ n d := by
  refine ⟨rfl, by simpa [MatrixBasis.Mat.Square] using hl, fun i j hi hj => ?_⟩
  obtain ⟨id, h1, h2⟩ := h i j hi hj
  unfold MatrixBasis.Mat.get?
  simp only [List.getElem?_map, h1, Option.map_some, MatrixBasis.dropZero]
  exact ⟨fun hd => by rw [if_pos hd], fun hd => by rw [if_neg hd, h2 hd]⟩

theorem dense_herm {D : Dense} {n : Nat} (hD : D.Whole n) : D.isHerm = true ↔ Herm n D.coeff := by
  obtain ⟨h1, h2, -⟩ := hD
  unfold Dense.isHerm Herm
  rw [h1, h2]
  simp only [Bool.and_eq_true, List.all_eq_true, decide_eq_true_eq, List.mem_range, List.mem_range'_1]
  constructor
  · rintro ⟨-, h⟩ i j hi hj
    rcases Nat.lt_trichotomy i j with hij | rfl | hij
    · have := (h i hi).2 j (by omega)
      rw [← this, Complex.conj_conj]
    · exact (Complex.conj_eq_iff_im.mpr (h i hi).1).symm
    · exact ((h j hj).2 i (by omega)).symm
  · intro h
    exact ⟨trivial, fun c hc => ⟨Complex.conj_eq_iff_im.mp (h c c hc hc).symm, fun r hr => (h r c (by omega) hc).symm⟩⟩

theorem conj_neg_iff (z : ℂ) : z = -(starRingEnd ℂ) z ↔ z.re = 0 := by
  constructor
  · intro h
    have := congrArg Complex.re h
    simp at this
    linarith
  · intro h
    apply Complex.ext <;> simp [h]

theorem dense_anti {D : Dense} {n : Nat} (hD : D.Whole n) : D.isAnti = true ↔ Anti n D.coeff := by
  obtain ⟨h1, h2, -⟩ := hD
  unfold Dense.isAnti Anti
  rw [h1, h2]
  simp only [Bool.and_eq_true, List.all_eq_true, decide_eq_true_eq, List.mem_range, List.mem_range'_1]
  constructor
  · rintro ⟨-, h⟩ i j hi hj
    rcases Nat.lt_trichotomy i j with hij | rfl | hij
    · have := (h i hi).2 j (by omega)
      rw [← this, map_neg, Complex.conj_conj, neg_neg]
    · exact (conj_neg_iff _).mpr (h i hi).1
    · exact ((h j hj).2 i (by omega)).symm
  · intro h
    exact ⟨trivial, fun c hc => ⟨(conj_neg_iff _).mp (h c c hc hc), fun r hr => (h r c (by omega) hc).symm⟩⟩

theorem dense_coeff {D : Dense} {n : Nat} (hD : D.Whole n) {i j : Nat} (hi : i < n) (hj : j < n) : D.data[i + j * n]? = some (D.coeff i j) := by
  have : i + j * n < D.data.length := by rw [hD.2.2]; exact Triangle.off_lt hi hj
  unfold Dense.coeff
  rw [hD.1, List.getElem?_eq_getElem this, Option.getD_some]

theorem dense_zero {D : Dense} {n : Nat} (hD : D.Whole n) : D.isZero = true ↔ ∀ i j, i < n → j < n → D.coeff i j = 0 := by
  unfold Dense.isZero
  simp only [List.all_eq_true, decide_eq_true_eq]
  constructor
  · intro h i j hi hj
    exact h _ (List.mem_of_getElem? (dense_coeff hD hi hj))
  · intro h x hx
    obtain ⟨k, hk, rfl⟩ := List.getElem_of_mem hx
    have hk' : k < n * n := by rw [← hD.2.2]; exact hk
    have hn : 0 < n := by
      rcases Nat.eq_zero_or_pos n with e | e
      · simp [e] at hk'
      · exact e
    have h2 := h (k % n) (k / n) (Nat.mod_lt _ hn) (Nat.div_lt_of_lt_mul hk')
    have h3 := dense_coeff hD (Nat.mod_lt k hn) (Nat.div_lt_of_lt_mul hk')
    rw [Nat.mul_comm (k / n) n, Nat.mod_add_div, List.getElem?_eq_getElem hk, h2] at h3
    exact Option.some.inj h3

theorem herm_anti_zero {n : Nat} {d : Nat → Nat → ℂ} (hh : Herm n d) (ha : Anti n d) {i j : Nat} (hi : i < n) (hj : j < n) : d i j = 0 := by
  have h1 := hh i j hi hj
  have h2 := ha i j hi hj
  have h3 : (starRingEnd ℂ) (d i j) = 0 := self_eq_neg.mp (h1.symm.trans h2)
  simpa using h3

/-- A dense matrix: its numbers, and the flag for Hermitian matrices; for complex matrices also the flag for anti-Hermitian matrices. Missing: real
matrices that are anti-Hermitian and not zero are not flagged, see `C73_refuted_anti`. -/
theorem C73_dense_partial {t : Table} (ht : 2 ≤ t.syms.length) (real : Bool) {D : Dense} {n : Nat} (hD : D.Whole n) :
    ∃ A, ofDense t real D = some (some A) ∧ Numbers A.sym.mat n D.coeff ∧ (A.sym.hermitian = true ↔ Herm n D.coeff) ∧
      (real = false → (A.anti = true ↔ Anti n D.coeff)) ∧ (real = true → (A.anti = true ↔ ∀ i j, i < n → j < n → D.coeff i j = 0)) := by
  have hm : D.monos = some ⟨D.rows, D.data.map fun x => if x ≠ 0 then ⟨1, false, x⟩ else ⟨0, false, 0⟩⟩ := by
    unfold Dense.monos
    rw [if_neg (by rw [hD.1, hD.2.1]; simp)]
  obtain ⟨B, b1, b2, b3⟩ := makeMono_plain (t := t) D.isHerm
    (S := ⟨D.rows, D.data.map fun x => if x ≠ 0 then ⟨1, false, x⟩ else ⟨0, false, 0⟩⟩) (by
      intro m hm
      obtain ⟨x, -, rfl⟩ := List.mem_map.mp hm
      split
      · exact ⟨rfl, by simp only; omega⟩
      · exact ⟨rfl, by simp only; omega⟩)
  refine ⟨⟨B, antiFlag real D.isHerm D.isZero D.isAnti⟩, by simp only [ofDense, hm, b1, Option.map_some], ?_, ?_, ?_, ?_⟩
  · simp only [b2, hD.1]
    apply numbers_of
    · simpa using hD.2.2
    · intro i j hi hj
      rw [List.getElem?_map, dense_coeff hD hi hj, Option.map_some]
      by_cases h : D.coeff i j = 0
      · exact ⟨0, by simp [h], by simp [h]⟩
      · exact ⟨1, by simp [h], fun _ => rfl⟩
  · rw [b3, dense_herm hD]
  · rintro rfl
    unfold antiFlag
    simp only [Bool.false_or]
    split
    · rename_i hh
      rw [dense_zero hD]
      rw [dense_herm hD] at hh
      exact ⟨fun h i j hi hj => by simp [h i j hi hj, h j i hj hi], fun h i j hi hj => herm_anti_zero hh h hi hj⟩
    · exact dense_anti hD
  · rintro rfl
    simp only [antiFlag, Bool.true_or, if_true]
    exact dense_zero hD

/-- Matrices that are not square are refused. -/
theorem C73_refuses (t : Table) (real : Bool) (D : Dense) (E : Sparse) :
    (D.rows ≠ D.cols → ofDense t real D = some none) ∧ (E.rows ≠ E.cols → ofSparse t real E = some none) := by
  constructor
  · intro h
    simp [ofDense, Dense.monos, h]
  · intro h
    simp [ofSparse, Sparse.monos, h]

/-! ## Sparse matrices -/

theorem sparse_find {l : List (Nat × Nat × ℂ)} (h : l.Pairwise fun a b => (a.1, a.2.1) ≠ (b.1, b.2.1)) {e : Nat × Nat × ℂ} (he : e ∈ l) :
    l.find? (fun x => decide (x.1 = e.1 ∧ x.2.1 = e.2.1)) = some e := by
  induction l with
  | nil => simp at he
  | cons x l ih =>
    rw [List.pairwise_cons] at h
    rw [List.find?_cons]
    rcases List.mem_cons.mp he with rfl | he'
    · simp
    · have hne : ¬ (x.1 = e.1 ∧ x.2.1 = e.2.1) := fun hx => h.1 e he' (Prod.ext hx.1 hx.2)
      simp only [hne, decide_false]
      exact ih h.2 he'

theorem sparse_coeff {D : Sparse} {n : Nat} (hD : D.Whole n) {e : Nat × Nat × ℂ} (he : e ∈ D.entries) : D.coeff e.1 e.2.1 = e.2.2 := by
  unfold Sparse.coeff
  rw [sparse_find hD.once he]
  rfl

theorem sparse_none {D : Sparse} {i j : Nat} (h : ∀ e ∈ D.entries, ¬ (e.1 = i ∧ e.2.1 = j)) : D.coeff i j = 0 := by
  unfold Sparse.coeff
  rw [List.find?_eq_none.mpr (by simpa using h)]
  rfl

theorem fold_spec (n : Nat) : ∀ (l : List (Nat × Nat × ℂ)) (d : List Mono), d.length = n * n → (∀ e ∈ l, e.1 < n ∧ e.2.1 < n) →
    (l.Pairwise fun a b => (a.1, a.2.1) ≠ (b.1, b.2.1)) →
    let r := l.foldl (fun d e => d.set (e.2.1 * n + e.1) (⟨1, false, e.2.2⟩ : Mono)) d
    r.length = n * n ∧ (∀ e ∈ l, r[e.1 + e.2.1 * n]? = some ⟨1, false, e.2.2⟩) ∧
      ∀ i j, i < n → j < n → (∀ e ∈ l, ¬ (e.1 = i ∧ e.2.1 = j)) → r[i + j * n]? = d[i + j * n]?
  | [], d, hd, _, _ => ⟨hd, by simp, fun _ _ _ _ _ => rfl⟩
  | x :: l, d, hd, hin, hp => by
    rw [List.pairwise_cons] at hp
    have hx := hin x List.mem_cons_self
    have ih := fold_spec n l (d.set (x.2.1 * n + x.1) ⟨1, false, x.2.2⟩) (by simpa using hd) (fun e he => hin e (List.mem_cons_of_mem _ he)) hp.2
    simp only [List.foldl_cons]
    refine ⟨ih.1, fun e he => ?_, fun i j hi hj h => ?_⟩
    · rcases List.mem_cons.mp he with rfl | he
      · rw [ih.2.2 e.1 e.2.1 hx.1 hx.2 fun y hy hxy => hp.1 y hy (Prod.ext hxy.1.symm hxy.2.symm), Nat.add_comm e.1, List.getElem?_set_self]
        rw [hd, Nat.add_comm]; exact Triangle.off_lt hx.1 hx.2
      · exact ih.2.1 e he
    · rw [ih.2.2 i j hi hj fun e he => h e (List.mem_cons_of_mem _ he), List.getElem?_set_ne]
      intro e
      rw [Nat.add_comm] at e
      obtain ⟨e1, e2⟩ := SymbolMatrix.index_inj hx.1 hi e
      exact h x List.mem_cons_self ⟨e1, e2⟩

theorem sparse_herm {D : Sparse} {n : Nat} (hD : D.Whole n) (hh : Herm n D.coeff) : D.isHerm = true := by
  unfold Sparse.isHerm
  rw [hD.rows, hD.cols]
  simp only [decide_true, Bool.true_and, List.all_eq_true]
  intro e he
  obtain ⟨h1, h2⟩ := hD.inside e he
  have hc := sparse_coeff hD he
  split
  · rename_i hd
    have h := hh e.1 e.2.1 h1 h2
    rw [hd] at h hc
    rw [hc] at h
    exact decide_eq_true (Complex.conj_eq_iff_im.mp h.symm)
  · split
    · rw [hh e.1 e.2.1 h1 h2, Complex.conj_conj, hc]; simp
    · rfl

theorem sparse_herm_mirrored {D : Sparse} {n : Nat} (hD : D.Whole n) (hM : D.Mirrored) (hh : D.isHerm = true) : Herm n D.coeff := by
  unfold Sparse.isHerm at hh
  rw [hD.rows, hD.cols] at hh
  simp only [decide_true, Bool.true_and, List.all_eq_true] at hh
  have key : ∀ e ∈ D.entries, D.coeff e.2.1 e.1 = (starRingEnd ℂ) (D.coeff e.1 e.2.1) := by
    intro e he
    have hc := sparse_coeff hD he
    have h := hh e he
    split at h
    · rename_i hd
      rw [hd] at hc ⊢
      rw [hc]
      exact (Complex.conj_eq_iff_im.mpr (by simpa using h)).symm
    · rename_i hd
      split at h
      · rw [hc, ← of_decide_eq_true h, Complex.conj_conj]
      · rename_i hl
        obtain ⟨e', he', m1, m2⟩ := hM e he
        have hc' := sparse_coeff hD he'
        have h' := hh e' he'
        rw [if_neg (by omega), if_pos (by omega)] at h'
        have h' := of_decide_eq_true h'
        rw [m1, m2] at hc' h'
        rw [hc', ← h']
  intro i j hi hj
  by_cases h : ∃ e ∈ D.entries, e.1 = i ∧ e.2.1 = j
  · obtain ⟨e, he, rfl, rfl⟩ := h
    exact key e he
  · push Not at h
    have hn : ∀ e ∈ D.entries, ¬ (e.1 = j ∧ e.2.1 = i) := by
      rintro e he ⟨rfl, rfl⟩
      obtain ⟨e', he', m1, m2⟩ := hM e he
      exact h e' he' m1 m2
    rw [sparse_none hn, sparse_none (fun e he hx => h e he hx.1 hx.2)]
    simp

/-- A sparse matrix: its numbers; Hermitian matrices are flagged, and only these if with an entry the one at the mirrored place is stored. Missing: the
flag of matrices with entries above the diagonal that are not stored below, see `C73_refuted_sparse`. -/
theorem C73_sparse_partial {t : Table} (ht : 2 ≤ t.syms.length) (real : Bool) {D : Sparse} {n : Nat} (hD : D.Whole n) :
    ∃ A, ofSparse t real D = some (some A) ∧ Numbers A.sym.mat n D.coeff ∧ (Herm n D.coeff → A.sym.hermitian = true) ∧
      (D.Mirrored → A.sym.hermitian = true → Herm n D.coeff) := by
  obtain ⟨l, hl⟩ : ∃ l, D.monos = some ⟨n, l⟩ ∧ l.length = n * n ∧ (∀ e ∈ D.entries, l[e.1 + e.2.1 * n]? = some ⟨1, false, e.2.2⟩) ∧
      (∀ i j, i < n → j < n → (∀ e ∈ D.entries, ¬ (e.1 = i ∧ e.2.1 = j)) → l[i + j * n]? = some ⟨0, false, 0⟩) := by
    unfold Sparse.monos
    rw [if_neg (by rw [hD.rows, hD.cols]; simp), hD.rows, hD.cols]
    obtain ⟨f1, f2, f3⟩ := fold_spec n D.entries (List.replicate (n * n) ⟨0, false, 0⟩) (by simp) hD.inside hD.once
    refine ⟨_, rfl, f1, f2, fun i j hi hj h => ?_⟩
    rw [f3 i j hi hj h, List.getElem?_replicate, if_pos (Triangle.off_lt hi hj)]
  obtain ⟨l1, l2, l3, l4⟩ := hl
  have hcell : ∀ i j, i < n → j < n → ∃ id, l[i + j * n]? = some ⟨id, false, D.coeff i j⟩ ∧ (D.coeff i j ≠ 0 → id = 1) ∧ id ≤ 1 := by
    intro i j hi hj
    by_cases h : ∃ e ∈ D.entries, e.1 = i ∧ e.2.1 = j
    · obtain ⟨e, he, rfl, rfl⟩ := h
      exact ⟨1, by rw [l3 e he, sparse_coeff hD he], fun _ => rfl, le_refl _⟩
    · push Not at h
      have h' : ∀ e ∈ D.entries, ¬ (e.1 = i ∧ e.2.1 = j) := fun e he hx => h e he hx.1 hx.2
      exact ⟨0, by rw [l4 i j hi hj h', sparse_none h'], by simp [sparse_none h'], by omega⟩
  obtain ⟨B, b1, b2, b3⟩ := makeMono_plain (t := t) D.isHerm (S := ⟨n, l⟩) (by
      intro m hm
      obtain ⟨k, hk, rfl⟩ := List.getElem_of_mem hm
      simp only at hk
      have hk' : k < n * n := by rw [← l2]; exact hk
      have hn : 0 < n := by
        rcases Nat.eq_zero_or_pos n with e | e
        · simp [e] at hk'
        · exact e
      obtain ⟨id, c1, -, c3⟩ := hcell (k % n) (k / n) (Nat.mod_lt _ hn) (Nat.div_lt_of_lt_mul hk')
      rw [Nat.mul_comm (k / n) n, Nat.mod_add_div, List.getElem?_eq_getElem hk] at c1
      rw [Option.some.inj c1]
      exact ⟨rfl, by simp only; omega⟩)
  refine ⟨⟨B, _⟩, by simp only [ofSparse, l1, b1, Option.map_some]; rfl, ?_, fun h => by rw [b3]; exact sparse_herm hD h, fun hM h => ?_⟩
  · rw [b2]
    exact numbers_of l2 fun i j hi hj => by
      obtain ⟨id, c1, c2, -⟩ := hcell i j hi hj
      exact ⟨id, c1, c2⟩
  · rw [b3] at h
    exact sparse_herm_mirrored hD hM h

/-! ## Products -/

/-- The words that products are asked for. -/
def Askable (h : Host) (W : HSeq → Prop) (w : HSeq) : Prop := W { w with sign := .pos } ∧ (h.env.aliases = true → W (h.env.simp { w with sign := .pos }))

theorem monomialize_spec {h : Host} {W : HSeq → Prop} (hS : Setting h W) {t : Table} (ht : Ready h W t) {w : HSeq} (hw : Askable h W w) (f : ℂ) :
    ∃ t' m, monomialize h.env t w f = some (t', m) ∧ Ready h W t' ∧ t.syms <+: t'.syms ∧ m.id < t'.syms.length ∧
      m.factor = f * Rewrite.phase w.sign ∧
      ∀ L v, Moments h.env W L → C71.SimpKeeps h W L → Agrees t' L v → ∀ g, Mono.value v ⟨m.id, m.conj, g⟩ = g * L { w with sign := .pos } := by
  have hg : (if w.sign = .pos then f else f * SymbolMatrix.scalar w.sign) = f * Rewrite.phase w.sign := by
    split
    · rename_i hs; rw [hs, Rewrite.phase_pos, mul_one]
    · rw [SymbolMatrix.scalar_phase]
  unfold monomialize
  simp only [hg]
  cases hk : (t.lookup h.env { w with sign := .pos }).1 with
  | some k =>
    refine ⟨t, _, rfl, ht, List.prefix_rfl, ?_, rfl, fun L v hL hs hv g => ?_⟩
    · exact C71.lookup_lt (ht.fit hS) hk
    · exact C71.lookup_value hS (ht.fit hS) hL hs hv hw.1 rfl hk g
  | none =>
    have hl : W (if h.env.aliases then h.env.simp { w with sign := .pos } else { w with sign := .pos }) := by
      split
      · exact hw.2 (by assumption)
      · exact hw.1
    obtain ⟨m, m1, m2, m3, -⟩ := C71.lookup_after hS ht (w := { w with sign := .pos }) rfl hl
    rw [m1]
    generalize ha : (if h.env.aliases then h.env.simp { w with sign := .pos } else { w with sign := .pos }) = a at hl
    have hnone : t.hashes.lookup a.hash = none := by
      unfold Symbols.Table.lookup at hk
      split at hk
      · simp at hk
      · rename_i hf
        have hf' : ∀ x, t.find x = none → t.hashes.lookup x = none := by
          intro x hx
          simpa [Symbols.Table.find] using hx
        split at hk
        · rename_i hal
          rw [if_pos hal] at ha
          rw [ha] at hk
          simp only at hk
          split at hk
          · exact hf' _ hk
          · rename_i hne
            have : a.hash = ({ w with sign := .pos } : HSeq).hash := by simpa using hne
            rw [this]
            exact hf' _ hf
        · rename_i hal
          rw [if_neg hal] at ha
          rw [← ha]
          exact hf' _ hf
    have hm := m1
    unfold Symbols.Table.mergeSeq at hm
    simp only [ha] at hm
    unfold Symbols.Table.mergeSym at hm
    simp only [Symbols.Sym.ofPair, hnone, Option.some.injEq] at hm
    refine ⟨m.1, ⟨m.2.1, false, f * Rewrite.phase w.sign⟩, rfl, m2, m3, ?_, rfl, fun L v hL hs hv g => ?_⟩
    · rw [← hm]; simp
    · have hsym : ∃ s, m.1.syms[m.2.1]? = some s ∧ s.seq = some { a with sign := .pos } := by
        rw [← hm]
        simp
      obtain ⟨s, s1, s2⟩ := hsym
      have hval := hv.word m.2.1 s _ s1 s2
      unfold Poly.Mono.value
      simp only [Bool.false_eq_true, if_false]
      rw [hval]
      by_cases hal : h.env.aliases = true
      · rw [if_pos hal] at ha
        obtain ⟨-, k2, k3⟩ := hs hal { w with sign := .pos } hw.1 rfl
        rw [ha] at k2 k3
        rw [← k3]
        congr 2
        rw [← k2]
      · rw [if_neg hal] at ha
        rw [← ha]

theorem ready_two {h : Host} {W : HSeq → Prop} (hS : Setting h W) {t : Table} (ht : Ready h W t) : 0 < t.syms.length :=
  SymbolMatrix.fit_pos (ht.fit hS)

/-- The product of a matrix of numbers with a word: the value of each entry is the number times the moment of the word. -/
theorem C73_times {h : Host} {W : HSeq → Prop} (hS : Setting h W) {t : Table} (ht : Ready h W t) {w : HSeq} (hW : W w) (hw : Askable h W w) (f : ℂ)
    {A : ValMat} {n : Nat} {d : Nat → Nat → ℂ} (hA : Numbers A.sym.mat n d) :
    ∃ t' M, timesWord h t w f A = some (t', some M) ∧ Ready h W t' ∧ t.syms <+: t'.syms ∧ M.sym.mat.dim = n ∧ M.sym.mat.Square ∧
      ∀ L v, Moments h.env W L → C71.SimpKeeps h W L → Agrees t' L v → ∀ i j, i < n → j < n → valueAt v M.sym.mat i j = d i j * (f * L w) := by
  unfold timesWord
  split
  · rename_i h0
    obtain ⟨M, m1, m2, m3, m4⟩ := C50.zeroMatrix_spec hS ht A.sym.mat.dim
    refine ⟨t, M, by rw [m1]; rfl, ht, List.prefix_rfl, m2.trans hA.dim, m3, fun L v hL _ hv i j _ _ => ?_⟩
    rw [m4 v hv.flags]
    rcases h0 with h0 | h0
    · rw [h0]; ring
    · have hz : L w = 0 := by
        have hh : w.hash = 0 := by simpa [HSeq.isZero] using h0
        have h0' := hL.hash { w with sign := .pos } HSeq.zero hw.1 hS.words.zero.1 hh rfl
        rw [hL.phase w hW, h0', hL.zero, mul_zero]
      rw [hz]; ring
  · obtain ⟨t', m, e1, e2, e3, e4, e5, e6⟩ := monomialize_spec hS ht hw f
    rw [e1, Option.bind_some]
    obtain ⟨B, b1, b2, b3, -, -, b6⟩ := SymbolMatrix.makeMono_agree (t := t') (ready_two hS e2) (productFlag h.env A w)
      (S := ⟨A.sym.mat.dim, A.sym.mat.data.map fun x => if m.factor * x.factor ≠ 0 then ⟨m.id, m.conj, m.factor * x.factor⟩ else ⟨0, false, 0⟩⟩)
      (by have := hA.square; unfold MatrixBasis.Mat.Square at this ⊢; simpa using this) (by
        intro x hx
        obtain ⟨y, -, rfl⟩ := List.mem_map.mp hx
        split
        · exact e4
        · exact ready_two hS e2)
    refine ⟨t', ⟨none, none, B, 1⟩, by simp only [b1, Option.map_some], e2, e3, b2.trans hA.dim, b3, fun L v hL hs hv i j hi hj => ?_⟩
    rw [b6 v hv.flags]
    have hfac : ∃ x, A.sym.mat.get? i j = some x ∧ x.factor = d i j := by
      by_cases hd : d i j = 0
      · exact ⟨_, (hA.entries i j hi hj).1 hd, hd.symm⟩
      · exact ⟨_, (hA.entries i j hi hj).2 hd, rfl⟩
    obtain ⟨x, x1, x2⟩ := hfac
    unfold valueAt MatrixBasis.Mat.get?
    unfold MatrixBasis.Mat.get? at x1
    simp only [List.getElem?_map, x1, Option.map_some, Option.elim_some]
    rw [x2, e5, hL.phase w hW]
    split
    · rw [e6 L v hL hs hv]; ring
    · rename_i hz
      push Not at hz
      simp only [Poly.Mono.value, zero_mul]
      have : d i j * (f * (Rewrite.phase w.sign * L { w with sign := .pos })) = f * Rewrite.phase w.sign * d i j * L { w with sign := .pos } := by ring
      rw [this, hz, zero_mul]

theorem compare_minus {a b : HSeq} (h : HSeq.compareSameNegation a b = -1) : a.hash = b.hash ∧ a.sign = b.sign.negate := by
  unfold HSeq.compareSameNegation at h
  split at h
  · simp at h
  · rename_i h1
    split at h
    · simp at h
    · rename_i h2
      split at h
      · simp at h
      · rename_i h3
        refine ⟨by simpa using h1, ?_⟩
        generalize a.sign = x at *
        generalize b.sign = y at *
        revert h2 h3
        cases x <;> cases y <;> decide

theorem phase_real {s : Sign} (h : s.isImaginary = false) : (starRingEnd ℂ) (Rewrite.phase s) = Rewrite.phase s := by
  cases s <;> simp_all [Rewrite.phase] <;> exact absurd h (by decide)

theorem phase_imaginary {s : Sign} (h : s.isImaginary = true) : (starRingEnd ℂ) (Rewrite.phase s) = -Rewrite.phase s := by
  cases s <;> simp_all [Rewrite.phase] <;> exact absurd h (by decide)

theorem phase_negate (s : Sign) : Rewrite.phase s.negate = -Rewrite.phase s := by
  cases s
  · show (-1 : ℂ) = -1; rfl
  · show -Complex.I = -Complex.I; rfl
  · show (1 : ℂ) = - -1; simp
  · show Complex.I = - -Complex.I; simp

/-- What a word's type says about its moment. The empty words are multiples of the identity. -/
theorem hermType_moment {h : Host} {W : HSeq → Prop} (hS : Setting h W) (h1 : h.env.conj (HSeq.identity .pos) = HSeq.identity .pos)
    (hE : ∀ w, W w → w.ops = [] → w.hash = 0 ∨ w.hash = 1) {w : HSeq} (hW : W w) {L : HSeq → ℂ} (hL : Moments h.env W L) :
    (hermType h.env w = .hermitian → (starRingEnd ℂ) (L w) = L w) ∧ (hermType h.env w = .antiHermitian → (starRingEnd ℂ) (L w) = -L w) := by
  have hid : (starRingEnd ℂ) (L (HSeq.identity .pos)) = L (HSeq.identity .pos) := by
    rw [← hL.conj _ hS.words.one.1, h1]
  unfold hermType
  split
  · rename_i he
    split
    · simp
    · rename_i hz
      have hone : w.hash = 1 := by
        rcases hE w hW (by simpa using he) with e | e
        · simp [HSeq.isZero, e] at hz
        · exact e
      have hval : L w = Rewrite.phase w.sign * L (HSeq.identity .pos) := by
        rw [hL.phase w hW, hL.hash { w with sign := .pos } (HSeq.identity .pos) (hS.words.sign w hW) hS.words.one.1 hone rfl]
      split
      · rename_i hi
        refine ⟨by simp, fun _ => ?_⟩
        rw [hval, map_mul, hid, phase_imaginary hi]; ring
      · rename_i hi
        refine ⟨fun _ => ?_, by simp⟩
        rw [hval, map_mul, hid, phase_real (by simpa using hi)]
  · have hcw := hS.words.conj w hW
    simp only
    split
    · rename_i hc
      obtain ⟨e1, e2⟩ := SymbolMatrix.compare_one hc
      refine ⟨fun _ => ?_, by simp⟩
      rw [← hL.conj w hW]
      exact (hL.hash w _ hW hcw e1 e2).symm
    · split
      · rename_i hc
        obtain ⟨e1, e2⟩ := compare_minus hc
        refine ⟨by simp, fun _ => ?_⟩
        rw [← hL.conj w hW, hL.phase w hW, hL.phase _ hcw, e2, phase_negate,
          hL.hash { w with sign := .pos } { h.env.conj w with sign := .pos } (hS.words.sign w hW) (hS.words.sign _ hcw) e1 rfl]
        ring
      · simp

/-- The flag of the product, for a real weight: if it is set, the values are a Hermitian matrix for all moments. Missing: complex weights, see
`C73_refuted_weight`. -/
theorem C73_times_flag_partial {h : Host} {W : HSeq → Prop} (hS : Setting h W) (h1 : h.env.conj (HSeq.identity .pos) = HSeq.identity .pos)
    (hE : ∀ w, W w → w.ops = [] → w.hash = 0 ∨ w.hash = 1) {t : Table} (ht : Ready h W t) {w : HSeq} (hW : W w) (hw : Askable h W w) {f : ℂ} (hf : f.im = 0)
    {A : ValMat} {n : Nat} {d : Nat → Nat → ℂ} (hA : Numbers A.sym.mat n d) (hh : A.sym.hermitian = true → Herm n d) (ha : A.anti = true → Anti n d)
    {t' : Table} {M : MonoMat} (hM : timesWord h t w f A = some (t', some M)) (hflag : M.sym.hermitian = true) :
    ∀ L v, Moments h.env W L → C71.SimpKeeps h W L → Agrees t' L v → Herm n fun i j => valueAt v M.sym.mat i j := by
  intro L v hL hs hv
  obtain ⟨t'', M', e1, -, -, -, -, e2⟩ := C73_times hS ht hW hw f hA
  rw [hM] at e1
  simp only [Option.some.injEq, Prod.mk.injEq] at e1
  obtain ⟨rfl, rfl⟩ := e1
  intro i j hi hj
  simp only
  rw [e2 L v hL hs hv i j hi hj, e2 L v hL hs hv j i hj hi, map_mul, map_mul, Complex.conj_eq_iff_im.mpr hf]
  unfold timesWord at hM
  split at hM
  · rename_i h0
    rcases h0 with h0 | h0
    · simp [h0]
    · have hz : L w = 0 := by
        have hh : w.hash = 0 := by simpa [HSeq.isZero] using h0
        rw [hL.phase w hW, hL.hash { w with sign := .pos } HSeq.zero hw.1 hS.words.zero.1 hh rfl, hL.zero, mul_zero]
      simp [hz]
  · have hprod : productFlag h.env A w = true := by
      simp only [Option.bind_eq_some_iff, Option.map_eq_some_iff, Prod.mk.injEq, Option.some.injEq] at hM
      obtain ⟨r, -, S, hS', -, rfl⟩ := hM
      unfold makeMono at hS'
      simp only [Option.bind_eq_some_iff, Option.map_eq_some_iff] at hS'
      obtain ⟨x1, x2, x3, x4, rfl⟩ := hS'
      exact hflag
    obtain ⟨m1, m2⟩ := hermType_moment hS h1 hE hW hL
    unfold productFlag at hprod
    split at hprod
    · rename_i hAh
      rw [m1 (by simpa using hprod), hh hAh i j hi hj]
    · split at hprod
      · rename_i hAa
        rw [m2 (by simpa using hprod), ha hAa i j hi hj]; ring
      · simp at hprod

/-! ## Products with raw polynomials -/

theorem foldl_sum (p : Raw) (s : ℂ) : p.foldl (fun s e => s + e.2) s = s + (p.map fun e => e.2).sum := by
  induction p generalizing s with
  | nil => simp
  | cons e p ih => rw [List.foldl_cons, ih, List.map_cons, List.sum_cons]; ring

theorem scalar_total {h : Host} {W : HSeq → Prop} (hS : Setting h W) (hE : ∀ w, W w → w.ops = [] → w.hash = 0 ∨ w.hash = 1) {L : HSeq → ℂ}
    (hL : Moments h.env W L) : ∀ {p : Raw}, Over W p → (∀ e ∈ p, e.1.hash ≠ 0) → isScalar p = true →
      total L p = (p.map fun e => e.2).sum * L (HSeq.identity .pos)
  | [], _, _, _ => by simp
  | e :: p, hp, h0, hs => by
    simp only [isScalar, List.all_cons, Bool.and_eq_true, List.isEmpty_iff] at hs
    have he := hp e List.mem_cons_self
    rw [RawPoly.total_cons, scalar_total hS hE hL (fun x hx => hp x (List.mem_cons_of_mem _ hx)) (fun x hx => h0 x (List.mem_cons_of_mem _ hx))
      (by simpa [isScalar] using hs.2), List.map_cons, List.sum_cons, smul_eq_mul]
    have hh : e.1.hash = 1 := (hE e.1 he.1 hs.1).resolve_left (h0 e List.mem_cons_self)
    rw [hL.hash e.1 (HSeq.identity .pos) he.1 hS.words.one.1 hh he.2]
    ring

/-- The product of a matrix of numbers with a raw polynomial without the zero word: the value of each entry is the number times the moment of the
polynomial. Missing: polynomials with the zero word, see `C73_refuted_zero_word`. -/
theorem C73_times_raw_partial {h : Host} {W : HSeq → Prop} (hS : Setting h W) (hE : ∀ w, W w → w.ops = [] → w.hash = 0 ∨ w.hash = 1)
    (hid : h.env.aliases = true → W (h.env.simp (HSeq.identity .pos))) {t : Table} (ht : Ready h W t) (o : Poly.Order) {p : Raw} (hp : Over W p)
    (h0 : ∀ e ∈ p, e.1.hash ≠ 0) (hal : h.env.aliases = true → ∀ e ∈ p, W (h.env.simp e.1)) {A : ValMat} {n : Nat} {d : Nat → Nat → ℂ}
    (hA : Numbers A.sym.mat n d) :
    ∃ t' M, timesRaw h t o p A = some (t', some M) ∧ Ready h W t' ∧ (∀ (id : Nat) (s : Sym), t.syms[id]? = some s → t'.syms[id]? = some s) ∧ anyDim M = n ∧
      ∀ L v, Moments h.env W L → C71.SimpKeeps h W L → Agrees t' L v → ∀ i j, i < n → j < n → anyAt v M i j = d i j * total L p := by
  unfold timesRaw
  split
  · obtain ⟨M, m1, m2, m3, m4⟩ := C50.zeroMatrix_spec hS ht A.sym.mat.dim
    refine ⟨t, .mono M, by rw [m1]; rfl, ht, fun _ _ h => h, m2.trans hA.dim, fun L v hL _ hv i j _ _ => ?_⟩
    simp [anyAt, m4 v hv.flags]
  · rename_i e
    have he := hp e List.mem_cons_self
    have hpos : ({ e.1 with sign := .pos } : HSeq) = e.1 := by rw [← he.2]
    obtain ⟨t', M, m1, m2, m3, m4, -, m6⟩ := C73_times hS ht he.1 ⟨by rw [hpos]; exact he.1, fun ha => by rw [hpos]; exact hal ha e List.mem_cons_self⟩ e.2 hA
    refine ⟨t', .mono M, by rw [m1]; rfl, m2, fun id s hs => SymbolMatrix.get_prefix m3 hs, m4, fun L v hL hs hv i j hi hj => ?_⟩
    simp [anyAt, m6 L v hL hs hv i j hi hj]
  · split
    · rename_i hsc
      obtain ⟨t', M, m1, m2, m3, m4, -, m6⟩ := C73_times hS ht hS.words.one.1 ⟨hS.words.one.1, hid⟩ (p.foldl (fun s e => s + e.2) 0) hA
      refine ⟨t', .mono M, by rw [m1]; rfl, m2, fun id s hs => SymbolMatrix.get_prefix m3 hs, m4, fun L v hL hs hv i j hi hj => ?_⟩
      rw [scalar_total hS hE hL hp h0 hsc]
      simp [anyAt, m6 L v hL hs hv i j hi hj, foldl_sum]
    · obtain ⟨t', q, r1, r2, r3, r4, r5⟩ := C71.C71_register hS ht o hp hal
      obtain ⟨B, b1, b2⟩ := SymbolMatrix.makePoly_known (t := t') (A := ⟨A.sym.mat.dim, A.sym.mat.data.map fun x => Poly.scale x.factor q⟩) (by
        intro x hx m hm
        obtain ⟨y, -, rfl⟩ := List.mem_map.mp hx
        obtain ⟨z, hz, e, -⟩ := Poly.scale_ids hm
        rw [← e]
        exact r4 z hz)
      refine ⟨t', .poly B, by simp only [r1, Option.bind_some, b1, Option.map_some], r2, r3, by simp [anyDim, b2, hA.dim], fun L v hL hs hv i j hi hj => ?_⟩
      have hfac : ∃ x, A.sym.mat.get? i j = some x ∧ x.factor = d i j := by
        by_cases hd : d i j = 0
        · exact ⟨_, (hA.entries i j hi hj).1 hd, hd.symm⟩
        · exact ⟨_, (hA.entries i j hi hj).2 hd, rfl⟩
      obtain ⟨x, x1, x2⟩ := hfac
      unfold MatrixBasis.Mat.get? at x1
      simp only [anyAt, polyAt, MatrixBasis.Mat.get?, b2, List.getElem?_map, x1, Option.map_some, Option.elim_some]
      rw [Poly.scale_value, r5 L v hL hs hv, x2]

/-! ## Refutations -/

theorem two_new : 2 ≤ Table.new.syms.length := le_refl _

/-- A real matrix that is anti-Hermitian: it is not flagged. -/
theorem C73_refuted_anti : ∃ (D : Dense) (A : ValMat), D.Whole 2 ∧ (∀ x ∈ D.data, x.im = 0) ∧ Anti 2 D.coeff ∧ ofDense Table.new true D = some (some A) ∧
    A.anti = false := by
  have hw : Dense.Whole ⟨2, 2, [0, -1, 1, 0]⟩ 2 := ⟨rfl, rfl, rfl⟩
  obtain ⟨A, a1, -, -, -, a5⟩ := C73_dense_partial two_new true hw
  refine ⟨_, A, hw, by simp, ?_, a1, ?_⟩
  · intro i j hi hj
    obtain rfl | rfl : i = 0 ∨ i = 1 := by omega
    all_goals obtain rfl | rfl : j = 0 ∨ j = 1 := by omega
    all_goals simp [Dense.coeff]
  · by_contra h
    have := (a5 rfl).mp (by simpa using h) 0 1 (by norm_num) (by norm_num)
    simp [Dense.coeff] at this

/-- A sparse matrix with a single entry, above the diagonal: it is flagged Hermitian, whether it is real or complex. -/
theorem C73_refuted_sparse : ∃ D : Sparse, D.Whole 2 ∧ D.coeff 0 1 = 1 ∧ D.coeff 1 0 = 0 ∧ ¬ Herm 2 D.coeff ∧
    ∀ real, ∃ A, ofSparse Table.new real D = some (some A) ∧ A.sym.hermitian = true := by
  have h1 : Sparse.coeff ⟨2, 2, [(0, 1, 1)]⟩ 0 1 = 1 := by simp [Sparse.coeff]
  have h2 : Sparse.coeff ⟨2, 2, [(0, 1, 1)]⟩ 1 0 = 0 := by simp [Sparse.coeff]
  have hw : Sparse.Whole ⟨2, 2, [(0, 1, 1)]⟩ 2 := ⟨rfl, rfl, by simp, by simp⟩
  refine ⟨_, hw, h1, h2, fun h => ?_, fun real => ?_⟩
  · have := h 0 1 (by norm_num) (by norm_num)
    rw [h1, h2] at this
    simp at this
  · obtain ⟨A, a1, -⟩ := C73_sparse_partial two_new real hw
    refine ⟨A, a1, ?_⟩
    unfold ofSparse at a1
    split at a1
    · simp at a1
    · simp only [Option.map_eq_some_iff, Option.some.injEq] at a1
      obtain ⟨S, s1, rfl⟩ := a1
      unfold makeMono at s1
      simp only [Option.bind_eq_some_iff, Option.map_eq_some_iff] at s1
      obtain ⟨x1, x2, x3, x4, rfl⟩ := s1
      simp [Sparse.isHerm]

/-- The value matrix of one number. -/
theorem single (x : ℂ) : ∃ A, ofDense Table.new false ⟨1, 1, [x]⟩ = some (some A) ∧ Numbers A.sym.mat 1 (fun _ _ => x) ∧
    (A.sym.hermitian = true ↔ x.im = 0) ∧ (A.anti = true ↔ x.re = 0) := by
  obtain ⟨A, a1, a2, a3, a4, -⟩ := C73_dense_partial two_new false (D := ⟨1, 1, [x]⟩) (n := 1) ⟨rfl, rfl, rfl⟩
  have hc : ∀ i j, i < 1 → j < 1 → Dense.coeff ⟨1, 1, [x]⟩ i j = x := by
    intro i j hi hj
    obtain rfl : i = 0 := by omega
    obtain rfl : j = 0 := by omega
    simp [Dense.coeff]
  refine ⟨A, a1, ⟨a2.dim, a2.square, fun i j hi hj => by have := a2.entries i j hi hj; rwa [hc i j hi hj] at this⟩, a3.trans ?_, (a4 rfl).trans ?_⟩
  · constructor
    · intro h
      have := h 0 0 one_pos one_pos
      rw [hc 0 0 one_pos one_pos] at this
      exact Complex.conj_eq_iff_im.mp this.symm
    · intro h i j hi hj
      rw [hc i j hi hj, hc j i hj hi]
      exact (Complex.conj_eq_iff_im.mpr h).symm
  · constructor
    · intro h
      have := h 0 0 one_pos one_pos
      rw [hc 0 0 one_pos one_pos] at this
      exact (conj_neg_iff x).mp this
    · intro h i j hi hj
      rw [hc i j hi hj, hc j i hj hi]
      exact (conj_neg_iff x).mpr h

theorem free_letter : C27.FreeWord 2 4 (C70.letters 2 [0]) := Or.inr ⟨rfl, by simp [C70.letters, C02.IsWord], by simp [C70.letters]⟩

theorem flag_of {h : Host} {t t' : Table} {w : HSeq} {f : ℂ} {A : ValMat} {M : MonoMat} (hf : f ≠ 0) (hw : w.isZero = false)
    (hM : timesWord h t w f A = some (t', some M)) : M.sym.hermitian = productFlag h.env A w := by
  unfold timesWord at hM
  rw [if_neg (by simp [hf, hw])] at hM
  simp only [Option.bind_eq_some_iff, Option.map_eq_some_iff, Prod.mk.injEq, Option.some.injEq] at hM
  obtain ⟨r, -, S, hS', -, rfl⟩ := hM
  unfold makeMono at hS'
  simp only [Option.bind_eq_some_iff, Option.map_eq_some_iff] at hS'
  obtain ⟨x1, x2, x3, x4, rfl⟩ := hS'
  rfl

theorem askable_letter : Askable (C70.freeHost 2) (C27.FreeWord 2 4) (C70.letters 2 [0]) :=
  ⟨free_letter, by simp [C70.freeHost, C27.freeEnv]⟩

theorem letter_herm : hermType (C70.freeHost 2).env (C70.letters 2 [0]) = .hermitian := by decide +kernel

/-- The matrix of one number times the letter a with weight i: `[1]` gives a matrix that is flagged Hermitian but has the value i⟨a⟩; `[i]` gives one
that is not flagged, though it has the value -⟨a⟩. -/
theorem C73_refuted_weight : (∃ A t' M, ofDense Table.new false ⟨1, 1, [1]⟩ = some (some A) ∧
      timesWord (C70.freeHost 2) Table.new (C70.letters 2 [0]) Complex.I A = some (t', some M) ∧ M.sym.hermitian = true ∧
      ∀ L v, Moments (C70.freeHost 2).env (C27.FreeWord 2 4) L → Agrees t' L v → valueAt v M.sym.mat 0 0 = Complex.I * L (C70.letters 2 [0])) ∧
    ∃ A t' M, ofDense Table.new false ⟨1, 1, [Complex.I]⟩ = some (some A) ∧
      timesWord (C70.freeHost 2) Table.new (C70.letters 2 [0]) Complex.I A = some (t', some M) ∧ M.sym.hermitian = false ∧
      ∀ L v, Moments (C70.freeHost 2).env (C27.FreeWord 2 4) L → Agrees t' L v → valueAt v M.sym.mat 0 0 = -L (C70.letters 2 [0]) := by
  have hsimp : ∀ L, C71.SimpKeeps (C70.freeHost 2) (C27.FreeWord 2 4) L := by intro L; simp [C71.SimpKeeps, C70.freeHost, C27.freeEnv]
  constructor
  · obtain ⟨A, a1, a2, a3, a4⟩ := single 1
    obtain ⟨t', M, m1, -, -, -, -, m6⟩ := C73_times C70.setting_sample Ready.new free_letter askable_letter Complex.I a2
    refine ⟨A, t', M, a1, m1, ?_, fun L v hL hv => ?_⟩
    · rw [flag_of Complex.I_ne_zero (by decide) m1, productFlag, if_pos (a3.mpr (by simp)), letter_herm]
      rfl
    · rw [m6 L v hL (hsimp L) hv 0 0 one_pos one_pos, one_mul]
  · obtain ⟨A, a1, a2, a3, a4⟩ := single Complex.I
    obtain ⟨t', M, m1, -, -, -, -, m6⟩ := C73_times C70.setting_sample Ready.new free_letter askable_letter Complex.I a2
    refine ⟨A, t', M, a1, m1, ?_, fun L v hL hv => ?_⟩
    · rw [flag_of Complex.I_ne_zero (by decide) m1, productFlag, if_neg (by rw [a3]; simp), if_pos (a4.mpr (by simp)), letter_herm]
      rfl
    · rw [m6 L v hL (hsimp L) hv 0 0 one_pos one_pos, ← mul_assoc, Complex.I_mul_I, neg_one_mul]

/-- A raw polynomial that holds the zero word besides the identity counts it as another identity: `[1]` times it has the value 2 instead of 1. -/
theorem C73_refuted_zero_word : ∃ A t' M, ofDense Table.new false ⟨1, 1, [1]⟩ = some (some A) ∧
    timesRaw (C70.freeHost 2) Table.new Poly.byId [(HSeq.zero, 1), (HSeq.identity .pos, 1)] A = some (t', some M) ∧
    ∀ L v, Moments (C70.freeHost 2).env (C27.FreeWord 2 4) L → Agrees t' L v →
      anyAt v M 0 0 = 2 * L (HSeq.identity .pos) ∧ total L [(HSeq.zero, 1), (HSeq.identity .pos, 1)] = L (HSeq.identity .pos) := by
  have hsimp : ∀ L, C71.SimpKeeps (C70.freeHost 2) (C27.FreeWord 2 4) L := by intro L; simp [C71.SimpKeeps, C70.freeHost, C27.freeEnv]
  obtain ⟨A, a1, a2, -, -⟩ := single 1
  have hone := C70.setting_sample.words.one.1
  obtain ⟨t', M, m1, -, -, -, -, m6⟩ := C73_times C70.setting_sample Ready.new hone ⟨hone, by simp [C70.freeHost, C27.freeEnv]⟩ 2 a2
  refine ⟨A, t', .mono M, a1, ?_, fun L v hL hv => ⟨?_, ?_⟩⟩
  · have h1 : isScalar [(HSeq.zero, (1 : ℂ)), (HSeq.identity .pos, 1)] = true := by simp [isScalar, HSeq.zero, HSeq.identity]
    have h2 : ([(HSeq.zero, 1), (HSeq.identity .pos, 1)] : Raw).foldl (fun s e => s + e.2) 0 = 2 := by simp; norm_num
    simp only [timesRaw, h1, if_true, h2, m1]
    rfl
  · simp [anyAt, m6 L v hL (hsimp L) hv 0 0 one_pos one_pos]
  · simp [total, hL.zero]

/-! ## Examples -/

/-- A complex Hermitian matrix times a letter. -/
example : ∃ A t' M, ofDense Table.new false ⟨2, 2, [1, Complex.I, -Complex.I, 0]⟩ = some (some A) ∧ A.sym.hermitian = true ∧
    timesWord (C70.freeHost 2) Table.new (C70.letters 2 [0]) 5 A = some (t', some M) ∧ M.sym.hermitian = true ∧
    ∀ L v, Moments (C70.freeHost 2).env (C27.FreeWord 2 4) L → Agrees t' L v → valueAt v M.sym.mat 1 0 = Complex.I * (5 * L (C70.letters 2 [0])) := by
  obtain ⟨A, a1, a2, a3, -, -⟩ := C73_dense_partial two_new false (D := ⟨2, 2, [1, Complex.I, -Complex.I, 0]⟩) (n := 2) ⟨rfl, rfl, rfl⟩
  obtain ⟨t', M, m1, -, -, -, -, m6⟩ := C73_times C70.setting_sample Ready.new free_letter askable_letter 5 a2
  have hh : A.sym.hermitian = true := by
    rw [a3]
    intro i j hi hj
    obtain rfl | rfl : i = 0 ∨ i = 1 := by omega
    all_goals obtain rfl | rfl : j = 0 ∨ j = 1 := by omega
    all_goals simp [Dense.coeff]
  refine ⟨A, t', M, a1, hh, m1, ?_, fun L v hL hv => ?_⟩
  · rw [flag_of (by norm_num) (by decide) m1, productFlag, if_pos hh, letter_herm]
    rfl
  · rw [m6 L v hL (by simp [C71.SimpKeeps, C70.freeHost, C27.freeEnv]) hv 1 0 (by norm_num) (by norm_num)]
    simp [Dense.coeff]

/-- What the products assume of a context holds without rewriting rules. -/
example : (C70.freeHost 2).env.conj (HSeq.identity .pos) = HSeq.identity .pos ∧
    ∀ w, C27.FreeWord 2 4 w → w.ops = [] → w.hash = 0 ∨ w.hash = 1 := by
  refine ⟨by decide +kernel, fun w hw h => ?_⟩
  rcases hw with h1 | ⟨h1, -⟩
  · exact .inl h1.1
  · right; rw [h1, h]; decide

/-- A sparse matrix with mirrored entries. -/
example : Sparse.Whole ⟨2, 2, [(1, 0, Complex.I), (0, 1, -Complex.I)]⟩ 2 ∧ Sparse.Mirrored ⟨2, 2, [(1, 0, Complex.I), (0, 1, -Complex.I)]⟩ :=
  ⟨⟨rfl, rfl, by simp, by simp⟩, by simp [Sparse.Mirrored]⟩

end Moment.C73
