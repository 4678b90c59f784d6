import Verif.Props.C91_Symmetrized

/-! # C92: matrices of derived systems -/

namespace Moment.C92
open Moment.Symbols (Table)
open Moment.SymbolMatrix (Moments Agrees valueAt polyAt)
open Moment.SymRep (Entries Grp)
open Moment.Derived
open Moment.DictionaryMap (Index at')
open Moment.Poly (Mono)
open Moment.MatrixBasis (polyTable makeMono makePoly Mat)
open Moment.Substituted (Matrix entryAt dim flagged Good)

variable {t u : Table} {rows : Nat} {R : Nat → Nat → ℝ} {osg : List (Nat × Bool)} {M : STM}

/-- The monomials of a matrix. -/
def monos : Matrix → List Mono
  | .mono A => A.mat.data
  | .poly A => A.mat.data.flatten

/-- No conjugated symbol has a factor that is not real. -/
def RealConj (A : Matrix) : Prop := ∀ m ∈ monos A, m.conj = true → (starRingEnd ℂ) m.factor = m.factor

/-! ## Helpers -/

theorem get_map {α β : Type} (d : Nat) (l : List α) (g : α → β) (i j : Nat) : (⟨d, l.map g⟩ : Mat β).get? i j = ((⟨d, l⟩ : Mat α).get? i j).map g := by
  simp only [Mat.get?, List.getElem?_map]

theorem get_mem {α : Type} {A : Mat α} {i j : Nat} {a : α} (h : A.get? i j = some a) : a ∈ A.data := by
  exact List.mem_of_getElem? h

/-! ## Theorems -/

/-- A matrix of known symbols is transformed into a matrix of the same dimension; for all values of the new symbols its entries have the values of the
entries of the given matrix, if the old symbols have the values that the map carries to them. Matrices of monomials that are marked Hermitian stay so
if the map is one of monomials. Missing: conjugated symbols with factors that are not real (`C92_refuted_factor`). -/
theorem C92_entries_partial (hM : Maps t rows R osg M u) (hu : 0 < u.syms.length) {A : Matrix} (hA : Good t A) (hr : RealConj A) :
    ∃ B, transform M u A = some (some B) ∧ dim B = dim A ∧ (∀ A' B', A = .mono A' → B = .mono B' → B'.hermitian = A'.hermitian) ∧ Good u B ∧
      ∀ y, Poly.Respects (polyTable u) y → ∀ i j, entryAt y B i j = entryAt (carried M y) A i j := by
  cases A with
  | mono A =>
    obtain ⟨hsq, hk⟩ := hA
    let g : Mono → List Mono := fun m => (M.apply u m).getD []
    have hg : ∀ m ∈ A.mat.data, M.apply u m = some (g m) ∧ (∀ m' ∈ g m, m'.id < u.syms.length) ∧ (M.monomial = true → (g m).length ≤ 1) ∧
        ∀ y, Poly.Respects (polyTable u) y → Poly.value y (g m) = m.value (carried M y) := by
      intro m hm
      obtain ⟨p, h1, h2, h3, h4⟩ := apply_value hM (hk m hm)
      have : g m = p := by simp [g, h1]
      rw [this]
      exact ⟨h1, h2, h3, fun y hy => h4 y hy (hr m hm)⟩
    by_cases hmono : M.monomial = true
    · let f : Mono → Mono := fun m => (toMono (g m)).getD ⟨0, false, 1⟩
      have hf : ∀ m ∈ A.mat.data, (M.apply u m).bind toMono = some (f m) ∧ (f m).id < u.syms.length ∧
          ∀ y, Poly.Respects (polyTable u) y → (f m).value y = m.value (carried M y) := by
        intro m hm
        obtain ⟨h1, h2, h3, h4⟩ := hg m hm
        rw [h1]
        simp only [Option.bind_some, f]
        match e : g m, h3 hmono with
        | [], _ =>
          rw [e] at h4
          refine ⟨rfl, hu, fun y hy => ?_⟩
          rw [← h4 y hy]
          simp [toMono, Poly.value, Mono.value, hy.zero]
        | [x], _ =>
          rw [e] at h2 h4
          refine ⟨rfl, h2 x (by simp), fun y hy => ?_⟩
          rw [← h4 y hy]
          simp [toMono, Poly.value]
      obtain ⟨B, hB, b1, b2, b3, b4, b5⟩ := SymbolMatrix.makeMono_agree (t := u) hu A.hermitian (S := ⟨A.mat.dim, A.mat.data.map f⟩)
        (by simpa [Mat.Square] using hsq) (by
          intro m hm
          obtain ⟨m', h', rfl⟩ := List.mem_map.mp hm
          exact (hf m' h').2.1)
      refine ⟨.mono B, ?_, b1, ?_, ⟨b2, b4⟩, ?_⟩
      · simp only [transform, if_pos hmono]
        rw [MatrixBasis.mapM_some f fun m hm => (hf m hm).1]
        simp [hB]
      · intro A' B' h1 h2
        cases h1
        cases h2
        exact b3
      · intro y hy i j
        simp only [entryAt]
        rw [b5 y hy]
        simp only [valueAt]
        rw [get_map]
        cases e : A.mat.get? i j with
        | none => rfl
        | some m => exact (hf m (get_mem e)).2.2 y hy
    · obtain ⟨B, hB, hBA⟩ := SymbolMatrix.makePoly_known (t := u) (A := ⟨A.mat.dim, A.mat.data.map g⟩) (by
        intro p hp
        obtain ⟨m, hm, rfl⟩ := List.mem_map.mp hp
        exact (hg m hm).2.1)
      refine ⟨.poly B, ?_, by simp [dim, hBA], by simp, ?_, ?_⟩
      · simp only [transform, if_neg hmono]
        rw [MatrixBasis.mapM_some g fun m hm => (hg m hm).1]
        simp [hB]
      · simp only [Good, hBA]
        refine ⟨by simpa [Mat.Square] using hsq, ?_⟩
        intro p hp
        obtain ⟨m, hm, rfl⟩ := List.mem_map.mp hp
        exact (hg m hm).2.1
      · intro y hy i j
        simp only [entryAt, polyAt, valueAt, hBA]
        rw [get_map]
        cases e : A.mat.get? i j with
        | none => rfl
        | some m => exact (hg m (get_mem e)).2.2.2 y hy
  | poly A =>
    obtain ⟨hsq, hk⟩ := hA
    let g : List Mono → List Mono := fun p => (M.applyPoly u p).getD []
    have hg : ∀ p ∈ A.mat.data, M.applyPoly u p = some (g p) ∧ (∀ m ∈ g p, m.id < u.syms.length) ∧
        ∀ y, Poly.Respects (polyTable u) y → Poly.value y (g p) = Poly.value (carried M y) p := by
      intro p hp
      obtain ⟨q, h1, h2, h3⟩ := applyPoly_value hM (hk p hp)
      have : g p = q := by simp [g, h1]
      rw [this]
      exact ⟨h1, h2, fun y hy => h3 y hy fun m hm => hr m (List.mem_flatten.mpr ⟨p, hp, hm⟩)⟩
    obtain ⟨B, hB, hBA⟩ := SymbolMatrix.makePoly_known (t := u) (A := ⟨A.mat.dim, A.mat.data.map g⟩) (by
      intro p hp
      obtain ⟨m, hm, rfl⟩ := List.mem_map.mp hp
      exact (hg m hm).2.1)
    refine ⟨.poly B, ?_, by simp [dim, hBA], by simp, ?_, ?_⟩
    · simp only [transform]
      rw [MatrixBasis.mapM_some g fun m hm => (hg m hm).1]
      simp [hB]
    · simp only [Good, hBA]
      refine ⟨by simpa [Mat.Square] using hsq, ?_⟩
      intro p hp
      obtain ⟨m, hm, rfl⟩ := List.mem_map.mp hp
      exact (hg m hm).2.1
    · intro y hy i j
      simp only [entryAt, polyAt, hBA]
      rw [get_map]
      cases e : A.mat.get? i j with
      | none => rfl
      | some m => exact (hg m (get_mem e)).2.2 y hy

/-- A matrix with a symbol that the table of the base system did not have when the map was made is rejected with an exception. -/
theorem C92_rejected (hM : Maps t rows R osg M u) {A : Matrix} (hA : ∃ m ∈ monos A, t.syms.length ≤ m.id) : transform M u A = some none := by
  obtain ⟨m, hm, hid⟩ := hA
  have hnone : M.apply u m = none := by
    unfold STM.apply
    rw [List.getElem?_eq_none (by rw [hM.size]; exact hid)]
    rfl
  have fails : ∀ {α β : Type} {f : α → Option β} {l : List α} {a : α}, a ∈ l → f a = none → l.mapM f = none := by
    intro α β f l a ha h
    rw [Option.eq_none_iff_forall_not_mem]
    intro r hr
    have := (BasisVec.mapM_isSome.mp (Option.isSome_iff_exists.mpr ⟨r, hr⟩)) a ha
    simp [h] at this
  cases A with
  | mono A =>
    simp only [monos] at hm
    simp only [transform]
    split
    · rw [fails (f := fun m => (M.apply u m).bind toMono) hm (by simp [hnone])]
    · rw [fails hm hnone]
  | poly A =>
    obtain ⟨p, hp, hm⟩ := List.mem_flatten.mp hm
    simp only [transform]
    rw [fails hp (by simp [STM.applyPoly, fails hm hnone])]

open Moment.C91 in
/-- Matrices of a symmetrized system: if the symbols of the base system have the moments of a functional as values, then the entries of the transformed matrix
have the values that those of the given matrix have for the mean of the functional over the group. The symbols of the matrix are those of words up to the length of the
map. Missing: as for `C91_mean_partial` and `C92_entries_partial`. -/
theorem C92_symmetrized_partial {A : Type} [Ring A] [Algebra ℝ A] [StarRing A] {h : SymbolMatrix.Host} {W : HSeq → Prop} {c : SymRep.Ctx} {words : Nat → List HSeq}
    {ev : HSeq → A} {N size : Nat} {φ : Nat → A →ₐ[ℝ] A} {fund : List Entries} {t : Table} {I : Index} {G : Grp} {n : Nat} {store : Dense → Sparse}
    {solve : Core → Solved} (hH : Symmetric h W c words ev N size φ fund t I G n) (hst : Stores store) (hsol : ∀ C, Solves C (solve C)) :
    ∃ J b M u, I.update h.env t c.words n = some (J, b) ∧ symmetrized h.env c size t I G n store solve = some (some (M, u)) ∧
      ∀ S : Matrix, Good t S → RealConj S → (∀ m ∈ monos S, m.id = 0 ∨ ∃ i r, i < (c.words n).length ∧ J.get i = some r ∧ r.1 = m.id) →
        ∃ S', transform M u S = some (some S') ∧ dim S' = dim S ∧
          ∀ (T : A →ₗ[ℝ] ℂ) (L L' : HSeq → ℂ) (v v' : Nat → ℂ), T 1 = 1 → Moments h.env W L → Moments h.env W L' →
            (∀ w ∈ c.words n, L w = T (ev w)) → (∀ w ∈ c.words n, L' w = mean T φ size (ev w)) → Agrees t L v → Agrees t L' v' →
            ∀ i j, entryAt (pulled v M.inverse) S' i j = entryAt v' S i j := by
  obtain ⟨J, b, osg, R, M, u, hJ, hM, hrJ, hJn, hget, -, hP, hMaps, hkey⟩ := made hH hst hsol
  obtain ⟨hS, hl, hwe, ha, -, -, -, -, -, -, -, ⟨-, hn⟩, -, -, -, hcl, hadj, hstar⟩ := hH
  have hu : 0 < u.syms.length := by
    by_contra hu
    have h0 : u.syms.length = 0 := by omega
    have := hMaps.one (fun i => if i = 1 then 1 else 0) (by simp) (by simp)
    have hi : M.inverse = [] := List.length_eq_zero_iff.mp (by rw [← hMaps.target, h0])
    simp [pulled, hi, Poly.value] at this
  refine ⟨J, b, M, u, hJ, hM, ?_⟩
  intro S hSg hSr hSc
  obtain ⟨S', h1, h2, -, -, h5⟩ := C92_entries_partial hMaps hu hSg hSr
  refine ⟨S', h1, h2, ?_⟩
  intro T L L' v v' hT1 hL hL' hLT hLT' hv hv' i j
  obtain ⟨hone, key⟩ := hkey T L v hT1 hL hLT hv
  rw [h5 _ (hMaps.respects v hone hv.flags)]
  have hsame : ∀ m ∈ monos S, carried M (pulled v M.inverse) m.id = v' m.id := by
    intro m hm
    rcases hSc m hm with h0 | ⟨i, ⟨id, cj⟩, hi, hr, e⟩
    · rw [h0, hv'.flags.zero, carried, List.getD_eq_getElem?_getD,
        hMaps.other 0 (by have := hP.two; omega) fun j hj => hP.nonzero _ (List.mem_of_getElem? hj) rfl]
      simp [Poly.value]
    · simp only at e
      subst e
      obtain ⟨k, hk, hgk⟩ : ∃ k, k < (c.words n).length ∧ J.get k = some (m.id, false) := by
        cases cj with
        | false => exact ⟨i, hi, hr⟩
        | true =>
          obtain ⟨x, hx, hxw⟩ := hcl _ (List.getElem_mem hi)
          obtain ⟨j, hj, rfl⟩ := List.getElem_of_mem hx
          exact ⟨j, hj, (partner hS hl ha hrJ hr (list_prefix hl (hwe n hn) hJn (List.getElem?_eq_getElem hi))
            (list_prefix hl (hwe n hn) hJn (List.getElem?_eq_getElem hj)) hxw).1⟩
      rw [key k _ m.id (List.getElem?_eq_getElem hk) (by rw [hget k hk]; exact hgk), ← hLT' _ (List.getElem_mem hk)]
      have := (C89.C89_values_partial hS hl hrJ).2 k _ _ (list_prefix hl (hwe n hn) hJn (List.getElem?_eq_getElem hk)) hgk L' v' hL'
        ⟨by simp [ha], by simp [ha], by simp [ha]⟩ hv'
      rw [← this]
      simp [at']
  cases S with
  | mono S =>
    simp only [entryAt, valueAt]
    cases e : S.mat.get? i j with
    | none => rfl
    | some m =>
      simp only [Option.elim_some, Mono.value]
      rw [hsame m (get_mem e)]
  | poly S =>
    simp only [entryAt, polyAt]
    cases e : S.mat.get? i j with
    | none => rfl
    | some p =>
      simp only [Option.elim_some, Poly.value]
      congr 1
      refine List.map_congr_left fun m hm => ?_
      simp only [Mono.value]
      rw [hsame m (List.mem_flatten.mpr ⟨p, get_mem e, hm⟩)]

/-! ## Instances and refutations -/

/-- A table with three further Hermitian symbols, the last of which stands for a longer word. -/
def longTable : Table := Table.createMany Table.new true false 3

theorem long_positions : Positions longTable.syms.length C90.swapOsg := by
  obtain ⟨a, b, c, d, e⟩ := C90.swap_positions
  exact ⟨a, by decide, by decide, d, e⟩

/-- The map of the exchange of two letters. -/
theorem swap_maps {t : Table} (hP : Positions t.syms.length C90.swapOsg) :
    ∃ M u, ofDense t ⟨[1, 2, 3], 1⟩ (fun C => luSolve C C90.swapLU) C90.swapAverage = some (some (M, u)) ∧ Maps t 3 C90.swapAverage.val C90.swapOsg M u :=
  C90.C90_dense (t := t) (I := ⟨[1, 2, 3], 1⟩) (R := C90.swapAverage) (osg := C90.swapOsg) (solve := fun C => luSolve C C90.swapLU)
    (by rfl) hP (by simp [C90.swapAverage]) (by simp [C90.swapAverage]) (by simp [C90.swapAverage])
    (by intro i hi h; simp only [C90.swapAverage]; rw [if_neg (by omega), if_neg (by omega)]) (fun C hC => C90.C90_lu (C90.swap_core hC))

theorem swap_carried {t u : Table} {M : STM} (hM : Maps t 3 C90.swapAverage.val C90.swapOsg M u) {v : Nat → ℂ} (v0 : v 0 = 0) (v1 : v 1 = 1) :
    carried M (pulled v M.inverse) 2 = (v 2 + v 3) / 2 := by
  obtain ⟨p, hp, e⟩ := hM.value v v0 v1 1 2 rfl
  rw [carried, List.getD_eq_getElem?_getD, hp, Option.getD_some, e, combined]
  simp only [Finset.sum_range_succ, Finset.sum_range_zero]
  simp [C90.swapAverage, C90.swapOsg, at', v1]
  ring

/-- The values one. -/
def ones (i : Nat) : ℂ := if i = 0 then 0 else 1

theorem ones_respects {t : Table} (h : ∀ i, (polyTable t).anti i = true → i = 0) : Poly.Respects (polyTable t) ones := by
  refine ⟨rfl, ?_, ?_⟩
  · intro i _
    unfold ones
    split <;> simp
  · intro i hi
    rw [h i hi]
    simp [ones]

/-- A matrix with one entry. -/
noncomputable def single (m : Mono) : Matrix := .mono ⟨⟨1, [m]⟩, false, false, false⟩

theorem swap_anti : ∀ i, (polyTable C90.swapTable).anti i = true → i = 0 := by
  intro i
  match i with
  | 0 => simp
  | 1 | 2 | 3 => decide
  | i + 4 =>
    intro h
    rw [show (polyTable C90.swapTable).anti (i + 4) = (C90.swapTable.syms[i + 4]?).any Symbols.Sym.anti from rfl,
      List.getElem?_eq_none (by show 4 ≤ i + 4; omega)] at h
    simp at h

theorem long_anti : ∀ i, (polyTable longTable).anti i = true → i = 0 := by
  intro i
  match i with
  | 0 => simp
  | 1 | 2 | 3 | 4 => decide
  | i + 5 =>
    intro h
    rw [show (polyTable longTable).anti (i + 5) = (longTable.syms[i + 5]?).any Symbols.Sym.anti from rfl,
      List.getElem?_eq_none (by show 5 ≤ i + 5; omega)] at h
    simp at h

/-- The hypotheses of `C92_entries_partial` hold: half the first letter, conjugated, goes to a matrix with a quarter of the sum of the moments of both. -/
example : ∃ M u, Maps C90.swapTable 3 C90.swapAverage.val C90.swapOsg M u ∧ ∃ B, transform M u (single ⟨2, true, 1 / 2⟩) = some (some B) ∧
    entryAt (pulled ones M.inverse) B 0 0 = 1 / 2 := by
  obtain ⟨M, u, -, hM⟩ := swap_maps C90.swap_positions
  have hu : 0 < u.syms.length := by
    by_contra hu
    have := hM.one ones rfl rfl
    have hi : M.inverse = [] := List.length_eq_zero_iff.mp (by rw [← hM.target]; omega)
    simp [pulled, hi, Poly.value] at this
  obtain ⟨B, h1, -, -, -, h5⟩ := C92_entries_partial hM hu (A := single ⟨2, true, 1 / 2⟩) ⟨rfl, by
    intro m hm
    obtain rfl := List.mem_singleton.mp hm
    decide⟩ (by
    intro m hm _
    obtain rfl := List.mem_singleton.mp hm
    simp [Complex.conj_ofNat])
  refine ⟨M, u, hM, B, h1, ?_⟩
  rw [h5 _ (hM.respects ones rfl (ones_respects swap_anti))]
  show (1 / 2 : ℂ) * (starRingEnd ℂ) (carried M (pulled ones M.inverse) 2) = 1 / 2
  rw [swap_carried hM rfl rfl]
  simp [ones]

/-- **Refuted.** The map multiplies by the factor of a monomial before it conjugates: the conjugate of a symbol with factor `i` is sent to the conjugate of
`i` times the image of the symbol, although it stands for `i` times the conjugate. -/
theorem C92_refuted_factor : ∃ (t u : Table) (I : Index) (M : STM) (m : Mono) (p : List Mono), ofDense t I (fun C => luSolve C C90.swapLU) C90.swapAverage = some (some (M, u)) ∧
    m.id < t.syms.length ∧ M.apply u m = some p ∧ ∃ v, v 1 = 1 ∧ Poly.Respects (polyTable t) v ∧
      Poly.value (pulled v M.inverse) p = -Complex.I ∧ m.value (carried M (pulled v M.inverse)) = Complex.I := by
  obtain ⟨M, u, h1, hM⟩ := swap_maps C90.swap_positions
  have hv := ones_respects swap_anti
  have hc := swap_carried hM (v := ones) rfl rfl
  obtain ⟨p, hp, -⟩ := hM.value ones rfl rfl 1 2 rfl
  have hcp : carried M (pulled ones M.inverse) 2 = Poly.value (pulled ones M.inverse) p := by
    rw [carried, List.getD_eq_getElem?_getD, hp, Option.getD_some]
  have hk := hM.known p (List.mem_of_getElem? hp)
  refine ⟨C90.swapTable, u, _, M, ⟨2, true, Complex.I⟩, Poly.conjugate (polyTable u) (Poly.scale Complex.I p), h1, by decide, by simp [STM.apply, hp], ones, rfl, hv, ?_, ?_⟩
  · rw [Poly.conjugate_value (hM.respects ones rfl hv) (by
      intro m hm hc
      obtain ⟨m', h', -, e⟩ := scale_mem hm
      rw [← e, (hk m' h').2] at hc
      cases hc), Poly.scale_value, ← hcp, hc]
    simp [ones]
  · rw [Mono.value]
    simp only [if_true]
    rw [hc]
    simp [ones]

/-- **Refuted.** Matrices of the base system can be transformed whatever words they have. Symbols of words that are too long for the map become zero, without exception. -/
theorem C92_refuted_missing : ∃ (t u : Table) (I : Index) (M : STM) (A B : Matrix), ofDense t I (fun C => luSolve C C90.swapLU) C90.swapAverage = some (some (M, u)) ∧
    Good t A ∧ transform M u A = some (some B) ∧ (∀ y, Poly.Respects (polyTable u) y → entryAt y B 0 0 = 0) ∧
      ∃ v, v 1 = 1 ∧ Poly.Respects (polyTable t) v ∧ entryAt v A 0 0 = 1 := by
  obtain ⟨M, u, h0, hM⟩ := swap_maps long_positions
  have hu : 0 < u.syms.length := by
    by_contra hu
    have := hM.one ones rfl rfl
    have hi : M.inverse = [] := List.length_eq_zero_iff.mp (by rw [← hM.target]; omega)
    simp [pulled, hi, Poly.value] at this
  have hg : Good longTable (single ⟨4, false, 1⟩) := ⟨rfl, by
    intro m hm
    obtain rfl := List.mem_singleton.mp hm
    decide⟩
  obtain ⟨B, h1, -, -, -, h5⟩ := C92_entries_partial hM hu hg (by
    intro m hm h
    obtain rfl := List.mem_singleton.mp hm
    cases h)
  refine ⟨longTable, u, _, M, _, B, h0, hg, h1, ?_, ones, rfl, ones_respects long_anti, by simp [single, entryAt, valueAt, Mat.get?, Mono.value, ones]⟩
  intro y hy
  rw [h5 y hy]
  show (1 : ℂ) * carried M y 4 = 0
  rw [carried, List.getD_eq_getElem?_getD, hM.other 4 (by decide) (by
    intro j
    match j with
    | 0 | 1 | 2 => simp [C90.swapOsg]
    | j + 3 => simp [C90.swapOsg])]
  simp [Poly.value]

example : Good C90.swapTable (single ⟨2, false, 1⟩) ∧ ¬ Good C90.swapTable (single ⟨9, false, 1⟩) := by
  refine ⟨⟨rfl, ?_⟩, ?_⟩
  · intro m hm
    obtain rfl := List.mem_singleton.mp hm
    decide
  · intro h
    exact absurd (h.2 ⟨9, false, 1⟩ (List.mem_singleton.mpr rfl)) (by decide)

end Moment.C92
