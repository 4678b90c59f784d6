import Verif.Proof.OperatorMatrix
import Verif.Proof.Rewrite
import Verif.Props.C70_SymbolMatrix
import Mathlib.LinearAlgebra.Matrix.PosDef
import Mathlib.Analysis.Complex.Order

/-! # C82: moment matrices and localizing matrices -/

namespace Moment.C82
open Moment.Symbols Moment.SymbolMatrix Moment.OperatorMatrix
open Moment.MatrixBasis (Mat)
open scoped ComplexOrder Matrix

/-! ## Entries -/

theorem get_block {α : Type} (m : Nat) : ∀ (l : List (List α)) (i j : Nat), (∀ x ∈ l, x.length = m) → i < m → l.flatten[i + j * m]? = (l[j]?).bind fun x => x[i]?
  | [], i, j, _, _ => by simp
  | x :: l, i, 0, h, hi => by
    rw [List.flatten_cons, List.getElem?_append_left (by rw [h x (by simp)]; omega)]
    simp
  | x :: l, i, j + 1, h, hi => by
    have hx := h x (by simp)
    rw [List.flatten_cons, List.getElem?_append_right (by rw [hx, Nat.succ_mul]; omega), hx,
      show i + (j + 1) * m - m = i + j * m by rw [Nat.succ_mul]; omega, get_block m l i j (fun y hy => h y (by simp [hy])) hi]
    simp

theorem rowWords_length (h : Host) (words : List HSeq) : (rowWords h words).length = words.length := by
  unfold rowWords; split <;> simp

/-- **C82.** The entry in row `i` and column `j` is made from the `i`-th word of the row generator and the `j`-th word of the column generator. -/
theorem C82_entry (f : HSeq → HSeq → HSeq) (rows cols : List HSeq) (hl : rows.length = cols.length) {i j : Nat} {a b : HSeq}
    (hi : rows[i]? = some a) (hj : cols[j]? = some b) : word (single f rows cols) i j = f a b := by
  have hi' : i < cols.length := by rw [← hl]; exact (List.getElem?_eq_some_iff.mp hi).1
  unfold word single Mat.get?
  dsimp only
  rw [List.flatMap, get_block cols.length _ i j (by simp [hl]) hi']
  simp [hi, hj]

theorem single_square (f : HSeq → HSeq → HSeq) (rows cols : List HSeq) (hl : rows.length = cols.length) : (single f rows cols).Square := by
  unfold Mat.Square single
  simp [List.length_flatMap, hl]

/-- The matrix that the symbols are made from. -/
def used (h : Host) (f : HSeq → HSeq → HSeq) (words : List HSeq) : Mat HSeq :=
  (singleAliased h f (rowWords h words) words).2.getD (single f (rowWords h words) words)

theorem used_dim (h : Host) (f : HSeq → HSeq → HSeq) (words : List HSeq) : (used h f words).dim = words.length := by
  unfold used singleAliased; dsimp only; split <;> rfl

theorem word_map (A : Mat HSeq) (g : HSeq → HSeq) {i j : Nat} (hA : A.Square) (hi : i < A.dim) (hj : j < A.dim) :
    word ⟨A.dim, A.data.map g⟩ i j = g (word A i j) := by
  unfold word Mat.get?
  have hlt : i + j * A.dim < A.data.length := by
    rw [hA]
    calc i + j * A.dim < A.dim + j * A.dim := by omega
      _ = (j + 1) * A.dim := by ring
      _ ≤ A.dim * A.dim := Nat.mul_le_mul_right _ hj
  simp [List.getElem?_eq_getElem hlt]

theorem used_word (h : Host) (f : HSeq → HSeq → HSeq) (words : List HSeq) {i j : Nat} {a b : HSeq} (hi : (rowWords h words)[i]? = some a)
    (hj : words[j]? = some b) : word (used h f words) i j = if h.env.aliases then h.env.simp (f a b) else f a b := by
  have hl := rowWords_length h words
  have hi' : i < words.length := by rw [← hl]; exact (List.getElem?_eq_some_iff.mp hi).1
  have hj' := (List.getElem?_eq_some_iff.mp hj).1
  unfold used singleAliased
  dsimp only
  split
  · rw [Option.getD_some, word_map _ _ (single_square f _ _ hl) hi' hj', C82_entry f _ _ hl hi hj]
  · rw [Option.getD_none, C82_entry f _ _ hl hi hj]

/-- In a context all of whose words are Hermitian the words of the generator are. -/
def SelfAdjoint (h : Host) (words : List HSeq) : Prop := h.canNonHerm = false → ∀ w ∈ words, h.env.conj w = w

theorem rowWords_get {h : Host} {words : List HSeq} (hh : SelfAdjoint h words) {i : Nat} {a : HSeq} (hi : words[i]? = some a) :
    (rowWords h words)[i]? = some (h.env.conj a) := by
  unfold rowWords
  cases hc : h.canNonHerm
  · simp only [Bool.false_eq_true, if_false]
    rw [hi, hh hc a (List.mem_of_getElem? hi)]
  · simp [hi]

/-! ## Values -/

theorem used_square (h : Host) (f : HSeq → HSeq → HSeq) (words : List HSeq) : (used h f words).Square := by
  have hq := single_square f _ words (rowWords_length h words)
  unfold used singleAliased
  dsimp only
  split
  · rw [Option.getD_some]
    unfold Mat.Square at hq ⊢
    simpa using hq
  · exact hq

/-- The words of the matrix. -/
theorem used_mem {h : Host} {f : HSeq → HSeq → HSeq} {words : List HSeq} (hh : SelfAdjoint h words) {w : HSeq} (hw : w ∈ (used h f words).data) :
    ∃ a ∈ words, ∃ b ∈ words, w = if h.env.aliases then h.env.simp (f (h.env.conj a) b) else f (h.env.conj a) b := by
  have row : ∀ a' ∈ rowWords h words, ∃ a ∈ words, a' = h.env.conj a := by
    intro a' ha
    unfold rowWords at ha
    cases hc : h.canNonHerm
    · rw [hc] at ha
      simp only [Bool.false_eq_true, if_false] at ha
      exact ⟨a', ha, (hh hc a' ha).symm⟩
    · rw [hc] at ha
      simp only [if_true, List.mem_map] at ha
      obtain ⟨a, h1, h2⟩ := ha
      exact ⟨a, h1, h2.symm⟩
  have key : ∀ w ∈ (single f (rowWords h words) words).data, ∃ a ∈ words, ∃ b ∈ words, w = f (h.env.conj a) b := by
    intro w hw
    simp only [single, List.mem_flatMap, List.mem_map] at hw
    obtain ⟨b, hb, a', ha', rfl⟩ := hw
    obtain ⟨a, ha, rfl⟩ := row a' ha'
    exact ⟨a, ha, b, hb, rfl⟩
  unfold used singleAliased at hw
  dsimp only at hw
  cases hal : h.env.aliases
  · rw [hal] at hw
    simp only [Bool.false_eq_true, if_false, Option.getD_none] at hw ⊢
    exact key w hw
  · rw [hal] at hw
    simp only [if_true, Option.getD_some, List.mem_map] at hw ⊢
    obtain ⟨x, hx, rfl⟩ := hw
    obtain ⟨a, ha, b, hb, rfl⟩ := key x hx
    exact ⟨a, ha, b, hb, rfl⟩

/-- **C82.** The matrix made from a functor and a list of words: it is always made, it has a row for each word, and the value of the entry in row `i` and
column `j` is the moment of the functor applied to the conjugate of the `i`-th word and to the `j`-th, if the simplification of moments keeps the moments of the
entries. Missing: words whose conjugates acquire signs (see C70). -/
theorem C82_entries_partial {h : Host} {W : HSeq → Prop} (hS : Setting h W) {t : Table} (ht : Ready h W t) (f : HSeq → HSeq → HSeq) {words : List HSeq}
    (hh : SelfAdjoint h words) (hu : Usable h W (used h f words)) :
    ∃ t' M, createMatrix h t f words = some (t', some M) ∧ M.sym.mat.dim = words.length ∧ M.sym.mat.Square ∧
      ∀ L v, Moments h.env W L → Agrees t' L v →
        (h.env.aliases = true → ∀ a ∈ words, ∀ b ∈ words, L (h.env.simp (f (h.env.conj a) b)) = L (f (h.env.conj a) b)) →
        ∀ i j a b, words[i]? = some a → words[j]? = some b → valueAt v M.sym.mat i j = L (f (h.env.conj a) b) := by
  obtain ⟨t', M, h1, h2, h3, h4⟩ := C70.C70_value_partial hS ht (singleAliased h f (rowWords h words) words).1
    (singleAliased h f (rowWords h words) words).2 1 hu
  have hd := used_dim h f words
  refine ⟨t', M, h1, h2.trans hd, h3, fun L v hL hv hk i j a b hi hj => ?_⟩
  have hi' := (List.getElem?_eq_some_iff.mp hi).1
  have hj' := (List.getElem?_eq_some_iff.mp hj).1
  refine (h4 L v hL hv i j (by show i < (used h f words).dim; omega) (by show j < (used h f words).dim; omega)).trans ?_
  rw [one_mul]
  show L (word (used h f words) i j) = _
  rw [used_word h f words (rowWords_get hh hi) hj]
  cases ha : h.env.aliases
  · rfl
  · exact hk ha _ (List.mem_of_getElem? hi) _ (List.mem_of_getElem? hj)

/-- **C82.** The same for functionals whose moments the simplification keeps for all words. -/
theorem C82_value_partial {h : Host} {W : HSeq → Prop} (hS : Setting h W) {t : Table} (ht : Ready h W t) (f : HSeq → HSeq → HSeq) {words : List HSeq}
    (hh : SelfAdjoint h words) (hu : Usable h W (used h f words)) :
    ∃ t' M, createMatrix h t f words = some (t', some M) ∧ M.sym.mat.dim = words.length ∧ M.sym.mat.Square ∧
      ∀ L v, Moments h.env W L → KeepsMoments h L → Agrees t' L v → ∀ i j a b, words[i]? = some a → words[j]? = some b →
        valueAt v M.sym.mat i j = L (f (h.env.conj a) b) := by
  obtain ⟨t', M, h1, h2, h3, h4⟩ := C82_entries_partial hS ht f hh hu
  exact ⟨t', M, h1, h2, h3, fun L v hL hk hv => h4 L v hL hv fun ha _ _ _ _ => hk ha _⟩

/-- Moment matrices. -/
theorem C82_moment_partial {h : Host} {W : HSeq → Prop} (hS : Setting h W) {t : Table} (ht : Ready h W t) {words : List HSeq}
    (hh : SelfAdjoint h words) (hu : Usable h W (used h (momentFn h) words)) :
    ∃ t' M, createMatrix h t (momentFn h) words = some (t', some M) ∧ M.sym.mat.dim = words.length ∧
      ∀ L v, Moments h.env W L → KeepsMoments h L → Agrees t' L v → ∀ i j a b, words[i]? = some a → words[j]? = some b →
        valueAt v M.sym.mat i j = L (h.mul (h.env.conj a) b) := by
  obtain ⟨t', M, h1, h2, -, h3⟩ := C82_value_partial hS ht (momentFn h) hh hu
  exact ⟨t', M, h1, h2, h3⟩

/-- Localizing matrices. -/
theorem C82_localizing_partial {h : Host} {W : HSeq → Prop} (hS : Setting h W) {t : Table} (ht : Ready h W t) (x : HSeq) {words : List HSeq}
    (hh : SelfAdjoint h words) (hu : Usable h W (used h (localizingFn h x) words)) :
    ∃ t' M, createMatrix h t (localizingFn h x) words = some (t', some M) ∧ M.sym.mat.dim = words.length ∧
      ∀ L v, Moments h.env W L → KeepsMoments h L → Agrees t' L v → ∀ i j a b, words[i]? = some a → words[j]? = some b →
        valueAt v M.sym.mat i j = L (h.mul (h.env.conj a) (h.mul x b)) := by
  obtain ⟨t', M, h1, h2, -, h3⟩ := C82_value_partial hS ht (localizingFn h x) hh hu
  exact ⟨t', M, h1, h2, h3⟩

/-- The flag says that the matrix is Hermitian if the functor turns conjugates around. -/
theorem C82_flag {h : Host} {W : HSeq → Prop} (hS : Setting h W) {t : Table} (ht : Ready h W t) (f : HSeq → HSeq → HSeq) {words : List HSeq}
    (hh : SelfAdjoint h words) (hu : Usable h W (used h f words))
    (hf : ∀ a ∈ words, ∀ b ∈ words, h.env.conj (f (h.env.conj a) b) = f (h.env.conj b) a)
    (hs : h.env.aliases = true → ∀ a ∈ words, ∀ b ∈ words, h.env.conj (h.env.simp (f (h.env.conj a) b)) = h.env.simp (h.env.conj (f (h.env.conj a) b)))
    {t' : Table} {M : MonoMat} (hM : createMatrix h t f words = some (t', some M)) : M.sym.hermitian = true := by
  refine (C70.C70_flag hS ht (ops := (singleAliased h f (rowWords h words) words).1) (al := (singleAliased h f (rowWords h words) words).2) hu hM).mpr ?_
  intro i j hij hi
  have hi' : i < words.length := by rw [← used_dim h f words]; exact hi
  obtain ⟨a, ha⟩ : ∃ a, words[i]? = some a := ⟨_, List.getElem?_eq_getElem hi'⟩
  obtain ⟨b, hb⟩ : ∃ b, words[j]? = some b := ⟨_, List.getElem?_eq_getElem (by omega)⟩
  have e1 := used_word h f words (rowWords_get hh ha) hb
  have e2 := used_word h f words (rowWords_get hh hb) ha
  have ma := List.mem_of_getElem? ha
  have mb := List.mem_of_getElem? hb
  have e : word (used h f words) i j = h.env.conj (word (used h f words) j i) := by
    rw [e1, e2]
    cases hal : h.env.aliases
    · simp only [Bool.false_eq_true, if_false]; rw [hf b mb a ma]
    · simp only [if_true]; rw [hs hal b mb a ma, hf b mb a ma]
  exact ⟨congrArg HSeq.hash e, congrArg HSeq.sign e⟩

/-! ## Positivity -/

/-- A matrix `φ(gᵢ† x gⱼ)` is positive if `φ(a† x a)` is never negative. -/
theorem gram_posSemidef {A : Type*} [Ring A] [Algebra ℂ A] [StarRing A] [StarModule ℂ A] (φ : A →ₗ[ℂ] ℂ) (x : A) (hpos : ∀ a, 0 ≤ φ (star a * x * a))
    {n : Nat} (g : Fin n → A) : (Matrix.of fun i j => φ (star (g i) * x * g j)).PosSemidef := by
  have quad : ∀ c : Fin n → ℂ, star c ⬝ᵥ ((Matrix.of fun i j => φ (star (g i) * x * g j)) *ᵥ c) =
      φ (star (∑ i, c i • g i) * x * ∑ j, c j • g j) := by
    intro c
    rw [star_sum, Finset.sum_mul, Finset.sum_mul, map_sum]
    unfold dotProduct Matrix.mulVec
    refine Finset.sum_congr rfl fun i _ => ?_
    rw [Finset.mul_sum, map_sum, dotProduct, Finset.mul_sum]
    refine Finset.sum_congr rfl fun j _ => ?_
    simp only [Matrix.of_apply, Pi.star_apply, star_smul, smul_mul_assoc, mul_smul_comm, map_smul, smul_eq_mul]
    ring
  refine Matrix.PosSemidef.of_dotProduct_mulVec_nonneg ?_ fun c => (quad c).symm ▸ hpos _
  -- polarization
  have key : ∀ a b : A, (starRingEnd ℂ) (φ (star a * x * b)) = φ (star b * x * a) := by
    intro a b
    have real : ∀ a : A, (φ (star a * x * a)).im = 0 := fun a => (Complex.le_def.mp (hpos a)).2.symm
    have h1 := real (a + b)
    have h2 := real (a + Complex.I • b)
    have ha := real a
    have hb := real b
    have e1 : φ (star (a + b) * x * (a + b)) = φ (star a * x * a) + φ (star a * x * b) + (φ (star b * x * a) + φ (star b * x * b)) := by
      simp only [star_add, add_mul, mul_add, map_add]; ring
    have e2 : φ (star (a + Complex.I • b) * x * (a + Complex.I • b)) =
        φ (star a * x * a) + Complex.I * φ (star a * x * b) + (-(Complex.I * φ (star b * x * a)) + φ (star b * x * b)) := by
      simp only [star_add, star_smul, add_mul, mul_add, map_add, smul_mul_assoc, mul_smul_comm, map_smul, smul_eq_mul, Complex.star_def, Complex.conj_I]
      linear_combination (-φ (star b * x * b)) * Complex.I_sq
    rw [e1] at h1
    rw [e2] at h2
    simp only [Complex.add_im, Complex.neg_im, Complex.mul_im, Complex.I_re, Complex.I_im, zero_mul, one_mul, zero_add, ha, hb, add_zero] at h1 h2
    apply Complex.ext
    · rw [Complex.conj_re]; linarith
    · rw [Complex.conj_im]; linarith
  ext i j
  rw [Matrix.conjTranspose_apply, Matrix.of_apply, Matrix.of_apply]
  exact key _ _

/-- **C82.** Let the words stand for elements of a *-algebra with a linear functional such that the moments of the words in the matrix are
`φ(ρ(wᵢ)† x ρ(wⱼ))`. If `φ(a† x a) ≥ 0` for all `a`, then the matrix of values is positive semidefinite. For moment matrices `x` is one, and the condition
says that `φ` is positive; for localizing matrices `x` is the localizing word. Missing: as before. -/
theorem C82_positive_partial {A : Type*} [Ring A] [Algebra ℂ A] [StarRing A] [StarModule ℂ A] {h : Host} {W : HSeq → Prop} (hS : Setting h W) {t : Table}
    (ht : Ready h W t) (f : HSeq → HSeq → HSeq) {words : List HSeq} (hh : SelfAdjoint h words) (hu : Usable h W (used h f words))
    {L : HSeq → ℂ} (hL : Moments h.env W L) (hk : KeepsMoments h L) (ρ : HSeq → A) (φ : A →ₗ[ℂ] ℂ) (x : A)
    (hφ : ∀ a ∈ words, ∀ b ∈ words, L (f (h.env.conj a) b) = φ (star (ρ a) * x * ρ b)) (hpos : ∀ a, 0 ≤ φ (star a * x * a)) :
    ∃ t' M, createMatrix h t f words = some (t', some M) ∧ ∀ v, Agrees t' L v →
      (Matrix.of fun i j : Fin words.length => valueAt v M.sym.mat i j).PosSemidef := by
  obtain ⟨t', M, h1, -, -, h3⟩ := C82_value_partial hS ht f hh hu
  refine ⟨t', M, h1, fun v hv => ?_⟩
  have e : (Matrix.of fun i j : Fin words.length => valueAt v M.sym.mat i j) = Matrix.of fun i j : Fin words.length => φ (star (ρ words[i]) * x * ρ words[j]) := by
    ext i j
    rw [Matrix.of_apply, Matrix.of_apply, h3 L v hL hk hv i j words[i] words[j] (List.getElem?_eq_getElem i.2) (List.getElem?_eq_getElem j.2)]
    exact hφ _ (List.getElem_mem i.2) _ (List.getElem_mem j.2)
  rw [e]
  exact gram_posSemidef φ x hpos _

/-! ## The free algebra -/

section free
open C70 (freeHost letters)

variable {r L : Nat}

theorem free_hash (hr : r < 2 ^ 64) (hL : (∑ k ∈ Finset.range (L + 1), r ^ k) < 2 ^ 64) {l : List Nat} (hl : C02.IsWord r l) (hn : l.length ≤ L) (s : Sign) :
    (letters r l s).hash ≠ 0 :=
  (C02.C02_hash_shortlex_partial r L hr hL l l hl hl hn hn).2.2.1

theorem free_conj (l : List Nat) (s : Sign) (h0 : (letters r l s).hash ≠ 0) : (freeHost r).env.conj (letters r l s) = letters r l.reverse s.conj := by
  have : hashWord (UInt64.ofNat r) l ≠ 0 := h0
  simp only [freeHost, C27.freeEnv, HSeq.conjugate, HSeq.isZero, letters, beq_iff_eq, this, if_false]
  simp only [HSeq.construct, HSeq.toCanonical, HSeq.ctxHash, HSeq.hashOps, HSeq.movedFrom, HSeq.isZero, Bool.false_eq_true, if_false, HSeq.mk.injEq, and_true]
  by_cases h : hashWord (UInt64.ofNat r) l.reverse = 0 <;> simp [h]

theorem free_mul (l m : List Nat) (s u : Sign) (h0 : (letters r l s).hash ≠ 0) (h1 : (letters r m u).hash ≠ 0) :
    (freeHost r).mul (letters r l s) (letters r m u) = letters r (l ++ m) (s.mul u) := by
  have h0' : hashWord (UInt64.ofNat r) l ≠ 0 := h0
  have h1' : hashWord (UInt64.ofNat r) m ≠ 0 := h1
  simp only [freeHost, HSeq.multiply, HSeq.isZero, letters, beq_iff_eq, h0', h1', Bool.or_eq_true, or_self, if_false]
  simp only [HSeq.construct, HSeq.toCanonical, HSeq.ctxHash, HSeq.hashOps, HSeq.movedFrom, HSeq.isZero, Bool.false_eq_true, if_false, HSeq.mk.injEq, and_true]
  by_cases h : hashWord (UInt64.ofNat r) (l ++ m) = 0 <;> simp [h]

/-- The functor of moment matrices, with the empty word in the middle, or that of localizing matrices. -/
def Middle (r : Nat) (m : List Nat) (f : HSeq → HSeq → HSeq) : Prop :=
  (f = momentFn (freeHost r) ∧ m = []) ∨ f = localizingFn (freeHost r) (letters r m)

theorem isWord_append {l m : List Nat} (hl : C02.IsWord r l) (hm : C02.IsWord r m) : C02.IsWord r (l ++ m) :=
  fun o ho => (List.mem_append.mp ho).elim (hl o) (hm o)

theorem isWord_reverse {l : List Nat} (hl : C02.IsWord r l) : C02.IsWord r l.reverse := fun o ho => hl o (List.mem_reverse.mp ho)

theorem middle_apply (hr : r < 2 ^ 64) (hL : (∑ k ∈ Finset.range (L + 1), r ^ k) < 2 ^ 64) {m : List Nat} (hm : C02.IsWord r m) {f : HSeq → HSeq → HSeq}
    (hf : Middle r m f) {a b : List Nat} (ha : C02.IsWord r a) (hb : C02.IsWord r b) (hn : a.length + m.length + b.length ≤ L) :
    f ((freeHost r).env.conj (letters r a)) (letters r b) = letters r (a.reverse ++ (m ++ b)) := by
  rw [free_conj _ _ (free_hash hr hL ha (by omega) _)]
  have h1 := free_hash hr hL (isWord_reverse ha) (by rw [List.length_reverse]; omega) .pos
  rcases hf with ⟨rfl, rfl⟩ | rfl
  · exact free_mul _ _ _ _ h1 (free_hash hr hL hb (by omega) _)
  · unfold localizingFn
    rw [free_mul m b _ _ (free_hash hr hL hm (by omega) _) (free_hash hr hL hb (by omega) _)]
    exact free_mul _ _ _ _ h1 (free_hash hr hL (isWord_append hm hb) (by rw [List.length_append]; omega) _)

/-- **C82.** In contexts without rules every list of words short enough for the hashes to be unique gives a moment matrix, and a localizing matrix for each
word `m`; the entries are the moments of `wᵢ† m wⱼ`, the matrix is flagged as Hermitian if `m` is, and in every positive state it is positive. -/
theorem C82_free (hr : r < 2 ^ 64) (hL : (∑ k ∈ Finset.range (L + 1), r ^ k) < 2 ^ 64) {m : List Nat} (hm : C02.IsWord r m) {f : HSeq → HSeq → HSeq}
    (hf : Middle r m f) {ws : List (List Nat)} (hw : ∀ l ∈ ws, C02.IsWord r l ∧ 2 * l.length + m.length ≤ L) {t : Table}
    (ht : Ready (freeHost r) (C27.FreeWord r L) t) :
    ∃ t' M, createMatrix (freeHost r) t f (ws.map fun l => letters r l) = some (t', some M) ∧ M.sym.mat.dim = ws.length ∧
      (m.reverse = m → M.sym.hermitian = true) ∧
      ∀ (A : Type) [Ring A] [Algebra ℂ A] [StarRing A] [StarModule ℂ A] (ρ : Nat → A) (φ : A →ₗ[ℂ] ℂ) (v : Nat → ℂ), (∀ o, star (ρ o) = ρ o) →
        (∀ a, φ (star a) = (starRingEnd ℂ) (φ a)) →
        Agrees t' (fun w => if w.hash = 0 then 0 else φ (Rewrite.eval ρ (some (w.sign, w.ops)))) v →
        (∀ i j a b, ws[i]? = some a → ws[j]? = some b →
          valueAt v M.sym.mat i j = φ (star (Rewrite.evalWord ρ a) * Rewrite.evalWord ρ m * Rewrite.evalWord ρ b)) ∧
        ((∀ a, 0 ≤ φ (star a * Rewrite.evalWord ρ m * a)) → (Matrix.of fun i j : Fin ws.length => valueAt v M.sym.mat i j).PosSemidef) := by
  have hS := C70.setting_free r L hr hL
  have hsa : SelfAdjoint (freeHost r) (ws.map fun l => letters r l) := fun h => by simp [freeHost] at h
  have app : ∀ a ∈ ws, ∀ b ∈ ws, f ((freeHost r).env.conj (letters r a)) (letters r b) = letters r (a.reverse ++ (m ++ b)) := fun a ha b hb =>
    middle_apply hr hL hm hf (hw a ha).1 (hw b hb).1 (by have := (hw a ha).2; have := (hw b hb).2; omega)
  have good : ∀ a ∈ ws, ∀ b ∈ ws, C02.IsWord r (a.reverse ++ (m ++ b)) ∧ (a.reverse ++ (m ++ b)).length ≤ L := fun a ha b hb =>
    ⟨isWord_append (isWord_reverse (hw a ha).1) (isWord_append hm (hw b hb).1), by
      have := (hw a ha).2; have := (hw b hb).2; simp only [List.length_append, List.length_reverse]; omega⟩
  have hused : used (freeHost r) f (ws.map fun l => letters r l) =
      single f (rowWords (freeHost r) (ws.map fun l => letters r l)) (ws.map fun l => letters r l) := rfl
  have mem : ∀ w ∈ (used (freeHost r) f (ws.map fun l => letters r l)).data, ∃ a ∈ ws, ∃ b ∈ ws, w = letters r (a.reverse ++ (m ++ b)) := by
    intro w h
    rw [hused] at h
    simp only [single, rowWords, freeHost, if_true, List.mem_flatMap, List.mem_map] at h
    obtain ⟨_, ⟨b, hb, rfl⟩, _, ⟨_, ⟨a, ha, rfl⟩, rfl⟩, rfl⟩ := h
    exact ⟨a, ha, b, hb, app a ha b hb⟩
  have hu : Usable (freeHost r) (C27.FreeWord r L) (used (freeHost r) f (ws.map fun l => letters r l)) := by
    refine ⟨single_square f _ _ (rowWords_length _ _), fun w h => ?_, fun _ w h => ?_⟩
    · obtain ⟨a, ha, b, hb, rfl⟩ := mem w h
      exact .inr ⟨rfl, good a ha b hb⟩
    · obtain ⟨a, ha, b, hb, rfl⟩ := mem w h
      intro _
      rfl
  obtain ⟨t', M, h1, h2, -, h3⟩ := C82_value_partial hS ht f hsa hu
  refine ⟨t', M, h1, by simpa using h2, fun hpal => ?_, ?_⟩
  · refine C82_flag hS ht f hsa hu ?_ (fun h => by simp [freeHost, C27.freeEnv] at h) h1
    rintro _ ha _ hb
    rw [List.mem_map] at ha hb
    obtain ⟨a, ha, rfl⟩ := ha
    obtain ⟨b, hb, rfl⟩ := hb
    rw [app a ha b hb, app b hb a ha, free_conj _ _ (free_hash hr hL (good a ha b hb).1 (good a ha b hb).2 _)]
    simp [hpal, Sign.conj, Sign.code, Sign.ofCode]
  · intro A _ _ _ _ ρ φ v hρ hφ hv
    have hLm := C70.moments_free ρ hρ φ hφ r L hr hL
    have hst : ∀ w : List Nat, Rewrite.evalWord ρ w.reverse = star (Rewrite.evalWord ρ w) := by
      intro w
      induction w with
      | nil => simp [Rewrite.evalWord]
      | cons o w ih =>
        rw [List.reverse_cons, Rewrite.evalWord_append, ih]
        simp [Rewrite.evalWord, hρ]
    have val : ∀ a ∈ ws, ∀ b ∈ ws, (if (letters r (a.reverse ++ (m ++ b))).hash = 0 then 0 else
        φ (Rewrite.eval ρ (some ((letters r (a.reverse ++ (m ++ b))).sign, (letters r (a.reverse ++ (m ++ b))).ops)))) =
        φ (star (Rewrite.evalWord ρ a) * Rewrite.evalWord ρ m * Rewrite.evalWord ρ b) := by
      intro a ha b hb
      rw [if_neg (free_hash hr hL (good a ha b hb).1 (good a ha b hb).2 _)]
      simp only [letters, Rewrite.eval, Rewrite.phase_pos, one_smul, Rewrite.evalWord_append, hst, mul_assoc]
    have vals : ∀ i j a b, ws[i]? = some a → ws[j]? = some b →
        valueAt v M.sym.mat i j = φ (star (Rewrite.evalWord ρ a) * Rewrite.evalWord ρ m * Rewrite.evalWord ρ b) := by
      intro i j a b hi hj
      have ma := List.mem_of_getElem? hi
      have mb := List.mem_of_getElem? hj
      rw [h3 _ v hLm (fun h => by simp [freeHost, C27.freeEnv] at h) hv i j (letters r a) (letters r b) (by simp [hi]) (by simp [hj]), app a ma b mb]
      exact val a ma b mb
    refine ⟨vals, fun hpos => ?_⟩
    have e : (Matrix.of fun i j : Fin ws.length => valueAt v M.sym.mat i j) =
        Matrix.of fun i j : Fin ws.length => φ (star (Rewrite.evalWord ρ ws[i]) * Rewrite.evalWord ρ m * Rewrite.evalWord ρ ws[j]) := by
      ext i j
      rw [Matrix.of_apply, Matrix.of_apply]
      exact vals i j _ _ (List.getElem?_eq_getElem i.2) (List.getElem?_eq_getElem j.2)
    rw [e]
    exact gram_posSemidef φ _ hpos _

/-- The moment matrix of the words 1, a, b, ba, and the localizing matrix of the word aba, both in a new table. -/
example : (∃ t' M, createMatrix (freeHost 2) Table.new (momentFn (freeHost 2)) ([[], [0], [1], [1, 0]].map fun l => letters 2 l) = some (t', some M) ∧
      M.sym.hermitian = true) ∧
    ∃ t' M, createMatrix (freeHost 2) Table.new (localizingFn (freeHost 2) (letters 2 [0, 1, 0])) ([[], [0], [1], [1, 0]].map fun l => letters 2 l) =
      some (t', some M) ∧ M.sym.hermitian = true := by
  constructor
  · obtain ⟨t', M, h1, -, h2, -⟩ := C82_free (r := 2) (L := 7) (by norm_num) (by decide) (m := []) (f := momentFn (freeHost 2)) (by simp [C02.IsWord])
      (.inl ⟨rfl, rfl⟩) (ws := [[], [0], [1], [1, 0]]) (by unfold C02.IsWord; decide) Ready.new
    exact ⟨t', M, h1, h2 rfl⟩
  · obtain ⟨t', M, h1, -, h2, -⟩ := C82_free (r := 2) (L := 7) (by norm_num) (by decide) (m := [0, 1, 0]) (f := localizingFn (freeHost 2) (letters 2 [0, 1, 0]))
      (by unfold C02.IsWord; decide) (.inr rfl) (ws := [[], [0], [1], [1, 0]]) (by unfold C02.IsWord; decide) Ready.new
    exact ⟨t', M, h1, h2 rfl⟩

end free

end Moment.C82
