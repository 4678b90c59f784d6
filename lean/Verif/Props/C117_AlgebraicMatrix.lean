import Verif.Proof.AlgebraicReport
import Verif.Props.C82_MomentMatrix

/-! # C117: words and moment matrices of algebraic scenarios

From end to end: rulebooks (C16 - C19), conjugation (C20), lists of words (C88), hashes (C02), symbol table (C27) and matrices (C70, C82) together. -/

namespace Moment.C117
open Moment.Symbols (Table)
open Moment.SymbolMatrix Moment.OperatorMatrix Moment.Algebraic Moment.Rewrite Moment.Rules
open scoped ComplexOrder Matrix

variable {a : Context} {L : Nat}

/-! ## Words -/

/-- **C117.** Words become the same sequence just if they are equal in every algebra in which the rules hold, and the zero sequence just if they are zero in
every such algebra. -/
theorem C117_words (h : Settled a L) {u v : List Nat} (hu : IsWord a.pre L u) (hv : IsWord a.pre L v) :
    (sequence a u = sequence a v ↔ Implies a.rules (some (.pos, u)) (some (.pos, v))) ∧
    (sequence a u = HSeq.zero ↔ Implies a.rules (some (.pos, u)) none) := by
  rw [h.sequence hu, h.sequence hv]
  refine ⟨⟨fun e => (h.stored_iff hu hv).mp (congrArg HSeq.hash e), h.stored_same⟩, ?_⟩
  rw [← h.res_none]
  constructor
  · intro e
    cases hn : res a u with
    | none => rfl
    | some w =>
      rw [stored_some hn] at e
      exact absurd (congrArg HSeq.hash e) (hash_ne_zero h.small (h.res_word hu hn).1)
  · exact stored_none

/-- **C117.** Products and conjugates of sequences are the sequences of the products and of the adjoints. -/
theorem C117_products (h : Settled a L) {u v : List Nat} (hw : IsWord a.pre L (u ++ v)) :
    (host a).mul (sequence a u) (sequence a v) = sequence a (u ++ v) ∧ (env a).conj (sequence a u) = sequence a (a.pre.conjWord u) := by
  have hu : IsWord a.pre L u := ⟨fun o ho => hw.1 o (List.mem_append_left _ ho), by have := hw.2; rw [List.length_append] at this; omega⟩
  have hv : IsWord a.pre L v := ⟨fun o ho => hw.1 o (List.mem_append_right _ ho), by have := hw.2; rw [List.length_append] at this; omega⟩
  rw [h.sequence hu, h.sequence hv, h.sequence hw, h.sequence (conjWord_isWord hu)]
  exact ⟨h.mul_stored hw, h.conj_stored hu⟩

/-! ## Matrices -/

/-- The functor of moment matrices, with the empty word in the middle, or that of localizing matrices. -/
def Middle (a : Context) (m : List Nat) (f : HSeq → HSeq → HSeq) : Prop :=
  (f = momentFn (host a) ∧ m = []) ∨ f = localizingFn (host a) (sequence a m)

theorem conjWord_length (p : Pre) (w : List Nat) : (p.conjWord w).length = w.length := by rw [conjWord_eq]; simp

theorem conjWord_append (p : Pre) (u v : List Nat) : p.conjWord (u ++ v) = p.conjWord v ++ p.conjWord u := C20.C20_reverses_products u v

/-- The words of the matrix. -/
theorem used_words (h : Settled a L) {m : List Nat} (hm : ∀ o ∈ m, o < a.pre.num) {f : HSeq → HSeq → HSeq} (hf : Middle a m f)
    {us : List (List Nat)} (hw : ∀ u ∈ us, (∀ o ∈ u, o < a.pre.num) ∧ 2 * u.length + m.length ≤ L) :
    (∀ x ∈ us, ∀ y ∈ us, IsWord a.pre L (a.pre.conjWord x ++ (m ++ y))) ∧
    (∀ x ∈ us, ∀ y ∈ us, f ((host a).env.conj (stored a x)) (stored a y) = stored a (a.pre.conjWord x ++ (m ++ y))) ∧
    C82.SelfAdjoint (host a) (us.map (stored a)) ∧
    Usable (host a) (IsSeq a L) (C82.used (host a) f (us.map (stored a))) := by
  have each : ∀ x ∈ us, IsWord a.pre L x := fun x hx => ⟨(hw x hx).1, by have := (hw x hx).2; omega⟩
  have good : ∀ x ∈ us, ∀ y ∈ us, IsWord a.pre L (a.pre.conjWord x ++ (m ++ y)) := by
    intro x hx y hy
    have := (hw x hx).2
    have := (hw y hy).2
    refine ⟨fun o ho => ?_, by simp only [List.length_append, conjWord_length]; omega⟩
    rcases List.mem_append.mp ho with ho | ho
    · exact (conjWord_isWord (each x hx)).1 o ho
    · exact (List.mem_append.mp ho).elim (hm o) ((hw y hy).1 o)
  have app : ∀ x ∈ us, ∀ y ∈ us, f ((host a).env.conj (stored a x)) (stored a y) = stored a (a.pre.conjWord x ++ (m ++ y)) := by
    intro x hx y hy
    have lx := (hw x hx).2
    have ly := (hw y hy).2
    rw [show (host a).env.conj (stored a x) = _ from h.conj_stored (each x hx)]
    rcases hf with ⟨rfl, rfl⟩ | rfl
    · exact h.mul_stored (good x hx y hy)
    · unfold localizingFn
      rw [h.sequence ⟨hm, by omega⟩, h.mul_stored (u := m) (v := y) ⟨fun o ho => (List.mem_append.mp ho).elim (hm o) ((hw y hy).1 o), by rw [List.length_append]; omega⟩]
      exact h.mul_stored (good x hx y hy)
  have hsa : C82.SelfAdjoint (host a) (us.map (stored a)) := by
    intro hc w hx
    obtain ⟨u, hu, rfl⟩ := List.mem_map.mp hx
    exact h.conj_self hc (h.stored_seq (each u hu))
  have mem : ∀ w ∈ (C82.used (host a) f (us.map (stored a))).data, ∃ x ∈ us, ∃ y ∈ us, w = stored a (a.pre.conjWord x ++ (m ++ y)) := by
    intro w hx
    have hused : C82.used (host a) f (us.map (stored a)) = single f (rowWords (host a) (us.map (stored a))) (us.map (stored a)) := rfl
    rw [hused] at hx
    simp only [single, List.mem_flatMap, List.mem_map] at hx
    obtain ⟨_, ⟨y, hy, rfl⟩, r, hr, rfl⟩ := hx
    have : ∃ x ∈ us, r = (host a).env.conj (stored a x) := by
      unfold rowWords at hr
      split at hr
      · simp only [List.map_map, List.mem_map, Function.comp] at hr
        obtain ⟨x, hx, rfl⟩ := hr
        exact ⟨x, hx, rfl⟩
      · rename_i hc
        obtain ⟨x, hx, rfl⟩ := List.mem_map.mp hr
        exact ⟨x, hx, (hsa (by simpa using hc) _ hr).symm⟩
    obtain ⟨x, hx, rfl⟩ := this
    exact ⟨x, hx, y, hy, app x hx y hy⟩
  refine ⟨good, app, hsa, C82.single_square f _ _ (C82.rowWords_length _ _), fun w hx0 => ?_, fun _ w hx0 => ?_⟩
  · obtain ⟨x, hx, y, hy, rfl⟩ := mem w hx0
    exact h.stored_seq (good x hx y hy)
  · obtain ⟨x, hx, y, hy, rfl⟩ := mem w hx0
    intro _
    exact stored_sign _

theorem matrix_spec (h : Settled a L) {m : List Nat} (hm : ∀ o ∈ m, o < a.pre.num) {f : HSeq → HSeq → HSeq} (hf : Middle a m f)
    {us : List (List Nat)} (hw : ∀ u ∈ us, (∀ o ∈ u, o < a.pre.num) ∧ 2 * u.length + m.length ≤ L) {t : Table} (ht : Ready (host a) (IsSeq a L) t) :
    ∃ t' M, createMatrix (host a) t f (us.map (stored a)) = some (t', some M) ∧ M.sym.mat.dim = us.length ∧
      (Implies a.rules (some (.pos, a.pre.conjWord m)) (some (.pos, m)) → M.sym.hermitian = true) ∧
      (Grown (host a) (IsSeq a L) t → Grown (host a) (IsSeq a L) t') ∧
      (Extends t t' ∧ ∀ x ∈ us, ∀ y ∈ us, (t'.hashes.lookup (stored a (a.pre.conjWord x ++ (m ++ y))).hash).isSome) ∧
      (∀ (F : HSeq → ℂ) v, Moments (env a) (IsSeq a L) F → Agrees t' F v → ∀ i j x y, us[i]? = some x → us[j]? = some y →
        valueAt v M.sym.mat i j = F (stored a (a.pre.conjWord x ++ (m ++ y)))) ∧
      ∀ (A : Type) [Ring A] [Algebra ℂ A] [StarRing A] [StarModule ℂ A] (ρ : Nat → A) (φ : A →ₗ[ℂ] ℂ) (v : Nat → ℂ), Models ρ a.rules →
        StarCompat a.pre ρ → (∀ x, φ (star x) = (starRingEnd ℂ) (φ x)) → Agrees t' (moment ρ φ) v →
        (∀ i j x y, us[i]? = some x → us[j]? = some y → valueAt v M.sym.mat i j = φ (star (evalWord ρ x) * evalWord ρ m * evalWord ρ y)) ∧
        ((∀ x, 0 ≤ φ (star x * evalWord ρ m * x)) → (Matrix.of fun i j : Fin us.length => valueAt v M.sym.mat i j).PosSemidef) := by
  have hS := h.setting
  obtain ⟨good, app, hsa, hu⟩ := used_words h hm hf hw
  obtain ⟨t', M, h1, h2, -, h3⟩ := C82.C82_value_partial hS ht f hsa hu
  have all : ∀ (F : HSeq → ℂ) v, Moments (env a) (IsSeq a L) F → Agrees t' F v → ∀ i j x y, us[i]? = some x → us[j]? = some y →
      valueAt v M.sym.mat i j = F (stored a (a.pre.conjWord x ++ (m ++ y))) := by
    intro F v hF hv i j x y hi hj
    rw [h3 F v hF (fun h => by simp [host, env] at h) hv i j (stored a x) (stored a y) (by simp [hi]) (by simp [hj]),
      app x (List.mem_of_getElem? hi) y (List.mem_of_getElem? hj)]
  have hext := create_extends hS (ht.fit hS) hu h1
  have known : ∀ x ∈ us, ∀ y ∈ us, (t'.hashes.lookup (stored a (a.pre.conjWord x ++ (m ++ y))).hash).isSome := by
    intro x hx y hy
    obtain ⟨i, hi⟩ := List.mem_iff_getElem?.mp hx
    obtain ⟨j, hj⟩ := List.mem_iff_getElem?.mp hy
    have hd : (C82.used (host a) f (us.map (stored a))).dim = us.length := by rw [C82.used_dim, List.length_map]
    have : (t'.hashes.lookup (word (C82.used (host a) f (us.map (stored a))) i j).hash).isSome :=
      hext.2 i j ((List.getElem?_eq_some_iff.mp hi).1.trans_eq hd.symm) ((List.getElem?_eq_some_iff.mp hj).1.trans_eq hd.symm)
    rw [C82.used_word (host a) f (us.map (stored a)) (a := (host a).env.conj (stored a x)) (b := stored a y)
      (C82.rowWords_get hsa (a := stored a x) (by simp [hi])) (by simp [hj])] at this
    rwa [show (host a).env.aliases = false from rfl, if_neg (by simp), app x hx y hy] at this
  refine ⟨t', M, h1, by simpa using h2, fun hpal => ?_, fun hg => .matrix hg hu h1, ⟨hext.1, known⟩, all, ?_⟩
  · refine C82.C82_flag hS ht f hsa hu ?_ (fun h => by simp [host, env] at h) h1
    rintro _ hx _ hy
    rw [List.mem_map] at hx hy
    obtain ⟨x, hx, rfl⟩ := hx
    obtain ⟨y, hy, rfl⟩ := hy
    rw [app x hx y hy, app y hy x hx, show (host a).env.conj (stored a (a.pre.conjWord x ++ (m ++ y))) = _ from h.conj_stored (good x hx y hy)]
    apply h.stored_same
    have hx' : IsWord a.pre L x := ⟨(hw x hx).1, by have := (hw x hx).2; omega⟩
    have := hpal.ctx .pos (a.pre.conjWord y) x
    rw [conjWord_append, conjWord_append, conjWord_twice hx']
    simpa [Rewrite.ctx] using this
  · intro A _ _ _ _ ρ φ v hP hs hφ hv
    have hLm := h.moments hP hs hφ
    have vals : ∀ i j x y, us[i]? = some x → us[j]? = some y → valueAt v M.sym.mat i j = φ (star (evalWord ρ x) * evalWord ρ m * evalWord ρ y) := by
      intro i j x y hi hj
      have mx := List.mem_of_getElem? hi
      have my := List.mem_of_getElem? hj
      rw [all _ v hLm hv i j x y hi hj, moment, h.op_stored hP (good x mx y my), evalWord_append, evalWord_append, evalWord_conj hs (hw x mx).1, mul_assoc]
    refine ⟨vals, fun hpos => ?_⟩
    have e : (Matrix.of fun i j : Fin us.length => valueAt v M.sym.mat i j) =
        Matrix.of fun i j : Fin us.length => φ (star (evalWord ρ us[i]) * evalWord ρ m * evalWord ρ us[j]) := by
      ext i j
      rw [Matrix.of_apply, Matrix.of_apply]
      exact vals i j _ _ (List.getElem?_eq_getElem i.2) (List.getElem?_eq_getElem j.2)
    rw [e]
    exact C82.gram_posSemidef φ _ hpos _

/-! ## Values exist -/

/-- A functional on the words that tells all of them apart. -/
noncomputable def apart (a : Context) (w : HSeq) : ℂ :=
  ((w.hash.toNat + ((env a).conj w).hash.toNat : ℝ) : ℂ) + ((w.hash.toNat - ((env a).conj w).hash.toNat : ℝ) : ℂ) * Complex.I

theorem apart_moments (h : Settled a L) : Moments (env a) (IsSeq a L) (apart a) := by
  have hW := h.words
  constructor
  · unfold apart
    rw [hW.zero.2]
    simp [HSeq.zero]
  · intro w hw
    have : ({ w with sign := .pos } : HSeq) = w := by rw [← hw.1]
    rw [this, hw.1]
    simp [phase]
  · intro w v hw hv e1 e2
    unfold apart
    rw [e1, hW.hash w v hw hv e1]
  · intro w hw
    unfold apart
    rw [hW.twice w hw]
    simp only [map_add, map_mul, Complex.conj_ofReal, Complex.conj_I]
    push_cast
    ring

theorem apart_inj {x y : HSeq} (e : apart a x = apart a y) : x.hash = y.hash := by
  unfold apart at e
  have h1 := congrArg Complex.re e
  have h2 := congrArg Complex.im e
  simp only [Complex.add_re, Complex.ofReal_re, Complex.mul_re, Complex.I_re, Complex.I_im, Complex.ofReal_im, Complex.add_im, Complex.mul_im, mul_zero,
    zero_mul, sub_zero, add_zero, mul_one, zero_add] at h1 h2
  have h3 : (x.hash.toNat : ℝ) = y.hash.toNat := by linarith
  exact UInt64.toNat.inj (by exact_mod_cast h3)

theorem real_of_self {F : HSeq → ℂ} (h : Settled a L) (hF : Moments (env a) (IsSeq a L) F) (hc : (host a).canNonHerm = false) (w : HSeq) (hw : IsSeq a L w) :
    (starRingEnd ℂ) (F w) = F w := by
  rw [← hF.conj w hw, h.conj_self hc hw]

theorem real_one {F : HSeq → ℂ} (h : Settled a L) (hF : Moments (env a) (IsSeq a L) F) : F (HSeq.identity .pos) = (starRingEnd ℂ) (F (HSeq.identity .pos)) := by
  rw [← hF.conj _ h.words.one.1]
  exact hF.hash _ _ h.words.one.1 (h.words.conj _ h.words.one.1) h.words.one.2.symm (h.words.conj _ h.words.one.1).1.symm

/-- Symbols have values in every functional: the premise on values in the other theorems can always be met. -/
theorem C117_values (h : Settled a L) {t : Table} (ht : Grown (host a) (IsSeq a L) t) {A : Type} [Ring A] [Algebra ℂ A] [StarRing A]
    [StarModule ℂ A] {ρ : Nat → A} {φ : A →ₗ[ℂ] ℂ} (hP : Models ρ a.rules) (hs : StarCompat a.pre ρ) (hφ : ∀ x, φ (star x) = (starRingEnd ℂ) (φ x)) :
    ∃ v, Agrees t (moment ρ φ) v :=
  ht.values h.setting (h.moments hP hs hφ) (fun hc w hw _ => real_of_self h (h.moments hP hs hφ) hc w hw) (real_one h (h.moments hP hs hφ))

/-- **C117.** A symbol lacks a real basis element just if it is flagged as anti-Hermitian, and an imaginary one just if it is flagged as Hermitian; the parts that
are lacking vanish in all values. -/
theorem C117_basis {t : Table} (ht : Grown (host a) (IsSeq a L) t) :
    (∀ q ∈ t.syms, (q.re = none ↔ q.anti = true) ∧ (q.im = none ↔ q.herm = true)) ∧
    ∀ (F : HSeq → ℂ) v, Agrees t F v → ∀ id q, t.syms[id]? = some q → (q.re = none → (v id).re = 0) ∧ (q.im = none → (v id).im = 0) :=
  ⟨ht.parts fun _ => rfl, fun _ _ hv _ _ hq => ht.missing (fun _ => rfl) hv hq⟩

/-- **C117.** Every list of words, short enough for the hashes to be unique, gives a moment matrix, and a localizing matrix for each word `m`. The entries are
the moments of `uᵢ† m uⱼ` in every algebra with star operation whose operators meet the rules, the matrix is flagged as Hermitian if the
rules make `m` equal to its adjoint, and in every positive state the matrix is positive semidefinite. Entries that the rules do not make equal
are different. Existing symbols stay as they are, and the words of all entries have symbols afterwards. -/
theorem C117_matrix (h : Settled a L) {m : List Nat} (hm : ∀ o ∈ m, o < a.pre.num) {f : HSeq → HSeq → HSeq} (hf : Middle a m f)
    {us : List (List Nat)} (hw : ∀ u ∈ us, (∀ o ∈ u, o < a.pre.num) ∧ 2 * u.length + m.length ≤ L) {t : Table} (ht : Grown (host a) (IsSeq a L) t) :
    ∃ t' M, createMatrix (host a) t f (us.map (sequence a)) = some (t', some M) ∧ Grown (host a) (IsSeq a L) t' ∧
      (Extends t t' ∧ ∀ x ∈ us, ∀ y ∈ us, (t'.hashes.lookup (sequence a (a.pre.conjWord x ++ m ++ y)).hash).isSome) ∧ M.sym.mat.dim = us.length ∧
      (Implies a.rules (some (.pos, a.pre.conjWord m)) (some (.pos, m)) → M.sym.hermitian = true) ∧
      (∀ i j k l x y z w, us[i]? = some x → us[j]? = some y → us[k]? = some z → us[l]? = some w → M.sym.mat.get? i j = M.sym.mat.get? k l →
        Implies a.rules (some (.pos, a.pre.conjWord x ++ m ++ y)) (some (.pos, a.pre.conjWord z ++ m ++ w))) ∧
      ∀ (A : Type) [Ring A] [Algebra ℂ A] [StarRing A] [StarModule ℂ A] (ρ : Nat → A) (φ : A →ₗ[ℂ] ℂ) (v : Nat → ℂ), Models ρ a.rules →
        StarCompat a.pre ρ → (∀ x, φ (star x) = (starRingEnd ℂ) (φ x)) → Agrees t' (moment ρ φ) v →
        (∀ i j x y, us[i]? = some x → us[j]? = some y → valueAt v M.sym.mat i j = φ (star (evalWord ρ x) * evalWord ρ m * evalWord ρ y)) ∧
        ((∀ x, 0 ≤ φ (star x * evalWord ρ m * x)) → (Matrix.of fun i j : Fin us.length => valueAt v M.sym.mat i j).PosSemidef) := by
  obtain ⟨t', M, h1, h2, h3, h4, hx, h5, h6⟩ := matrix_spec h hm hf hw ht.ready
  have good := (used_words h hm hf hw).1
  have hseq : us.map (sequence a) = us.map (stored a) := List.map_congr_left fun u hu => h.sequence ⟨(hw u hu).1, by have := (hw u hu).2; omega⟩
  rw [hseq]
  refine ⟨t', M, h1, h4 ht, ⟨hx.1, fun x hx' y hy => ?_⟩, h2, h3, ?_, h6⟩
  · rw [List.append_assoc, h.sequence (good x hx' y hy)]
    exact hx.2 x hx' y hy
  intro i j k l x y z w hi hj hk hl e
  have hF := apart_moments h
  obtain ⟨v, hv⟩ := (h4 ht).values h.setting hF (fun hc w hw _ => real_of_self h hF hc w hw) (real_one h hF)
  have hv1 := h5 _ v hF hv i j x y hi hj
  have hv2 := h5 _ v hF hv k l z w hk hl
  have g1 := good x (List.mem_of_getElem? hi) y (List.mem_of_getElem? hj)
  have g2 := good z (List.mem_of_getElem? hk) w (List.mem_of_getElem? hl)
  have he : apart a (stored a (a.pre.conjWord x ++ (m ++ y))) = apart a (stored a (a.pre.conjWord z ++ (m ++ w))) := by
    rw [← hv1, ← hv2]
    unfold valueAt
    rw [e]
  have := (h.stored_iff g1 g2).mp (apart_inj he)
  simpa using this

/-- **C117, levels of the hierarchy.** The matrix of level `n`: rows and columns are the words of the dictionary (C88). Afterwards all words of up to `2 * n`
operators that are not zero have symbols. -/
theorem C117_level {n : Nat} (h : Settled a (2 * n)) {t : Table} (ht : Grown (host a) (IsSeq a (2 * n)) t) :
    ∃ l t' M, GenericWords.generic (GenericWords.algebraicGet a.pre a.book) a.pre.num n = some l ∧
      createMatrix (host a) t (momentFn (host a)) l = some (t', some M) ∧ Grown (host a) (IsSeq a (2 * n)) t' ∧
      (Extends t t' ∧ ∀ u, IsWord a.pre (2 * n) u → ¬ Implies a.rules (some (.pos, u)) none → (t'.hashes.lookup (sequence a u).hash).isSome) ∧
      M.sym.mat.dim = l.length ∧ M.sym.hermitian = true ∧
      (∀ i j k l' x y z w, l[i]? = some x → l[j]? = some y → l[k]? = some z → l[l']? = some w → M.sym.mat.get? i j = M.sym.mat.get? k l' →
        Implies a.rules (some (.pos, a.pre.conjWord x.ops ++ y.ops)) (some (.pos, a.pre.conjWord z.ops ++ w.ops))) ∧
      ∀ (A : Type) [Ring A] [Algebra ℂ A] [StarRing A] [StarModule ℂ A] (ρ : Nat → A) (φ : A →ₗ[ℂ] ℂ) (v : Nat → ℂ), Models ρ a.rules →
        StarCompat a.pre ρ → (∀ x, φ (star x) = (starRingEnd ℂ) (φ x)) → Agrees t' (moment ρ φ) v →
        (∀ i j x y, l[i]? = some x → l[j]? = some y → valueAt v M.sym.mat i j = φ (star (evalWord ρ x.ops) * evalWord ρ y.ops)) ∧
        ((∀ x, 0 ≤ φ (star x * x)) → (Matrix.of fun i j : Fin l.length => valueAt v M.sym.mat i j).PosSemidef) := by
  obtain ⟨l, h1, -, h3⟩ := C88.C88_algebraic_partial h.small h.good h.noEmpty (max := n) (by omega)
  have hent : ∀ s ∈ l, IsWord a.pre n s.ops ∧ s = sequence a s.ops ∧ Irreducible a.rules s.ops := by
    intro s hs
    obtain ⟨w, a1, a2, a3, rfl⟩ := (h3 s).mp hs
    refine ⟨⟨a1, a2⟩, ?_, a3⟩
    show _ = sequence a w
    rw [h.sequence ⟨a1, by omega⟩, stored_some (h.res_irr a3)]
    rfl
  have hlist : (l.map HSeq.ops).map (sequence a) = l := by
    rw [List.map_map]
    conv_rhs => rw [← List.map_id l]
    exact List.map_congr_left fun s hs => (hent s hs).2.1.symm
  have hwords : ∀ u ∈ l.map HSeq.ops, (∀ o ∈ u, o < a.pre.num) ∧ 2 * u.length + ([] : List Nat).length ≤ 2 * n := by
    intro u hu
    obtain ⟨s, hs, rfl⟩ := List.mem_map.mp hu
    have := (hent s hs).1
    exact ⟨this.1, by simpa using this.2⟩
  have hat : ∀ (i : Nat) x, l[i]? = some x → (l.map HSeq.ops)[i]? = some x.ops := fun i x hi => by rw [List.getElem?_map, hi]; rfl
  obtain ⟨t', M, h4, h5, h6, h7, h8, h9, h10⟩ := C117_matrix h (m := []) (by simp) (.inl ⟨rfl, rfl⟩) hwords ht
  rw [hlist] at h4
  refine ⟨l, t', M, h1, h4, h5, ⟨h6.1, ?_⟩, by simpa using h7, h8 (by rw [conjWord_eq]; exact .refl _), ?_, ?_⟩
  · intro u hu hz
    have hcut : u = (u.take n) ++ u.drop n := (List.take_append_drop n u).symm
    have hlt : IsWord a.pre n (u.take n) := ⟨fun o ho => hu.1 o (List.mem_of_mem_take ho), by rw [List.length_take]; omega⟩
    have hld : IsWord a.pre n (u.drop n) := ⟨fun o ho => hu.1 o (List.mem_of_mem_drop ho), by have := hu.2; rw [List.length_drop]; omega⟩
    have up : ∀ {x}, IsWord a.pre n x → IsWord a.pre (2 * n) x := fun hx => ⟨hx.1, by have := hx.2; omega⟩
    have listed : ∀ x y : List Nat, IsWord a.pre n x → res a x = some y → y ∈ l.map HSeq.ops := by
      intro x y hx hn
      obtain ⟨w1, w2⟩ := h.res_word (up hx) hn
      exact List.mem_map.mpr ⟨⟨a.pre.hash y, y, .pos⟩, (h3 _).mpr ⟨y, w1.1, w2.trans hx.2, h.irreducible hn, rfl⟩, rfl⟩
    have htw : IsWord a.pre n (a.pre.conjWord (u.take n)) := conjWord_isWord hlt
    cases hx : res a (a.pre.conjWord (u.take n)) with
    | none =>
      have e1 := h.conj_same (t := none) (h.res_none.mp hx)
      rw [conjWord_twice hlt] at e1
      have e2 := e1.ctx .pos [] (u.drop n)
      simp only [Rewrite.ctx, List.nil_append, Option.map_none] at e2
      rw [← hcut] at e2
      exact absurd e2 hz
    | some x =>
      cases hy : res a (u.drop n) with
      | none =>
        have e2 := (h.res_none.mp hy).ctx .pos (u.take n) []
        simp only [Rewrite.ctx, List.append_nil] at e2
        rw [← hcut] at e2
        exact absurd e2 hz
      | some y =>
        have key := h6.2 x (listed _ x htw hx) y (listed _ y hld hy)
        have e1 := h.conj_same (t := some x) (h.res_some hx)
        rw [conjWord_twice hlt, Option.map_some] at e1
        have e2 := e1.ctx .pos [] (u.drop n)
        have e3 := (h.res_some hy).ctx .pos (a.pre.conjWord x) []
        simp only [Rewrite.ctx, List.nil_append, List.append_nil] at e2 e3
        rw [← hcut] at e2
        have wx := h.res_word (up htw) hx
        have wy := h.res_word (up hld) hy
        have lx := wx.2.trans htw.2
        have ly := wy.2.trans hld.2
        have hw : IsWord a.pre (2 * n) (a.pre.conjWord x ++ y) := ⟨fun o ho => (List.mem_append.mp ho).elim ((conjWord_isWord wx.1).1 o) (wy.1.1 o),
          by rw [List.length_append, conjWord_length]; omega⟩
        rw [(C117_words h hu hw).1.mpr (e2.trans e3)]
        simpa using key
  · intro i j k l' x y z w hi hj hk hl e
    have := h9 i j k l' _ _ _ _ (hat i x hi) (hat j y hj) (hat k z hk) (hat l' w hl) e
    simpa using this
  · intro A _ _ _ _ ρ φ v hP hs hφ hv
    obtain ⟨g1, g2⟩ := h10 A ρ φ v hP hs hφ hv
    constructor
    · intro i j x y hi hj
      have := g1 i j _ _ (hat i x hi) (hat j y hj)
      simpa using this
    · intro hpos
      have := g2 (by simpa using hpos)
      rw [List.length_map] at this
      exact this

/-! ## Making contexts -/

/-- **C117.** A context made from rules has a rulebook that says just this: the rules hold, the operators commute if asked for, and each operator commutes
with its adjoint if asked for. It counts as complete at once just if there are no rules. -/
theorem C117_made {p : Pre} (hs : Small p L) (h2 : 2 ≤ L) {rs : List Rule} (hr : ∀ r ∈ rs, GoodRule p L r) (commute normal : Bool) :
    ∃ a, make p commute normal rs = some a ∧ a.pre = p ∧ a.commutative = commute ∧ GoodMap p L a.book.rules ∧
      a.completed = (if a.book.rules = [] then some true else none) ∧
      ∀ (A : Type) [Ring A] [Algebra ℂ A] (ρ : Nat → A), Models ρ a.rules ↔
        (∀ r ∈ rs, Holds ρ (den r)) ∧ (commute = true → ∀ x < p.num, ∀ y < p.num, ρ x * ρ y = ρ y * ρ x) ∧
        (normal = true → ∀ x < p.num, ρ x * ρ (p.adj x) = ρ (p.adj x) * ρ x) := by
  have hs2 : Small p 2 := C19.Small.mono hs h2
  obtain ⟨b, hb, gb, sb⟩ := C19.C19_new.{0} hs hr
  obtain ⟨cs, hc, gc, sc⟩ := C53.C53_commutator_rules.{0} hs2
  obtain ⟨ns, hn, gn, sn⟩ := C53.C53_normal_rules.{0} hs2
  have step : ∀ (b : Book) (rs : List Rule), GoodMap p L b.rules → (∀ r ∈ rs, GoodRule p 2 r) → ∃ b', addAll b (some rs) = some b' ∧
      GoodMap p L b'.rules ∧ ∀ (A : Type) [Ring A] [Algebra ℂ A] (ρ : Nat → A), Models ρ (rset b'.rules) ↔ Models ρ (rset b.rules) ∧ ∀ r ∈ rs, Holds ρ (den r) := by
    intro b rs hb hr
    obtain ⟨b', n, h1, h3, -, h4⟩ := C19.C19_add_rules.{0} hs hb (fun r h => (hr r h).mono h2)
    exact ⟨b', by simp [addAll, h1], h3, h4⟩
  have first : ∃ b1, (if commute then addAll b (commutatorRules p) else some b) = some b1 ∧ GoodMap p L b1.rules ∧
      ∀ (A : Type) [Ring A] [Algebra ℂ A] (ρ : Nat → A), Models ρ (rset b1.rules) ↔ Models ρ (rset b.rules) ∧
        (commute = true → ∀ x < p.num, ∀ y < p.num, ρ x * ρ y = ρ y * ρ x) := by
    cases commute with
    | false => exact ⟨b, rfl, gb, fun A _ _ ρ => by simp⟩
    | true =>
      obtain ⟨b1, h1, h3, h4⟩ := step b cs gb gc
      exact ⟨b1, by rw [if_pos rfl, hc, h1], h3, fun A _ _ ρ => by rw [h4 A ρ, sc A ρ]; simp⟩
  obtain ⟨b1, e1, g1, s1⟩ := first
  have second : ∃ b2, (if p.mode != .selfAdjoint && normal then addAll b1 (normalRules p) else some b1) = some b2 ∧ GoodMap p L b2.rules ∧
      ∀ (A : Type) [Ring A] [Algebra ℂ A] (ρ : Nat → A), Models ρ (rset b2.rules) ↔ Models ρ (rset b1.rules) ∧
        (normal = true → ∀ x < p.num, ρ x * ρ (p.adj x) = ρ (p.adj x) * ρ x) := by
    split
    · rename_i h
      obtain ⟨b2, h1, h3, h4⟩ := step b1 ns g1 gn
      refine ⟨b2, by rw [hn, h1], h3, fun A _ _ ρ => ?_⟩
      rw [h4 A ρ, sn A ρ]
      simp only [Bool.and_eq_true] at h
      simp [h.2]
    · rename_i h
      refine ⟨b1, rfl, g1, fun A _ _ ρ => ?_⟩
      refine ⟨fun h' => ⟨h', fun hn x _ => ?_⟩, fun h' => h'.1⟩
      have hm : p.mode = .selfAdjoint := by
        rw [hn, Bool.and_true] at h
        by_contra hc
        exact h (by simpa using hc)
      rw [Pre.adj, hm]
  obtain ⟨b2, e2, g2, s2⟩ := second
  refine ⟨⟨p, commute, b2, if b2.rules.length = 0 then some true else none⟩, ?_, rfl, rfl, g2, ?_, fun A _ _ ρ => ?_⟩
  · unfold make
    rw [hb, Option.bind_eq_bind, Option.bind_some, e1, Option.bind_some, e2]
    rfl
  · simp [List.length_eq_zero_iff]
  · show Models ρ (rset b2.rules) ↔ _
    rw [s2 A ρ, s1 A ρ, and_assoc]
    exact and_congr_left' (sb A ρ)

/-- In a context made to be commutative the rules imply that all operators commute. -/
theorem commuting_of_made {p : Pre} (hs : Small p L) (h2 : 2 ≤ L) {rs : List Rule} (hr : ∀ r ∈ rs, GoodRule p L r) {normal : Bool}
    (h : make p true normal rs = some a) : CommutingBelow p.num a.rules := by
  obtain ⟨a', h1, -, -, -, -, h3⟩ := C117_made hs h2 hr true normal
  rw [h] at h1
  obtain rfl := Option.some.inj h1
  intro x hx y hy A _ _ ρ hρ
  have := ((h3 A ρ).mp hρ).2.1 rfl x hx y hy
  simp only [eval, evalWord, List.map_cons, List.map_nil, List.prod_cons, List.prod_nil, mul_one, this]

/-- **C117.** A context made from good rules that then reports to be complete meets the hypothesis of the theorems above. Partial: the resulting rules are to be without phases, and
their left sides not empty, short, and overlapping in at most one way and not with themselves (see `C117_refuted_reported`); and the context is
asked before `attempt_completion` has been called (see `C117_refuted_completed`). -/
theorem C117_reported_partial {p : Pre} (hs : Small p L) (h2 : 2 ≤ L) {rs : List Rule} (hr : ∀ r ∈ rs, GoodRule p L r) {commute normal : Bool} {a' : Context}
    (hm : make p commute normal rs = some a) (hpos : ∀ e ∈ a.book.rules, e.2.rhs.sign = .pos) (hne : C17.NoEmpty a.book.rules)
    (hK : ∀ e ∈ a.book.rules, ∀ e' ∈ a.book.rules, e.2.lhs.ops.length + e'.2.lhs.ops.length ≤ L) (ho : SimpleOverlaps a.rules)
    (h : a.isComplete = some (a', true)) : Settled a' L := by
  obtain ⟨a0, k1, rfl, rfl, k4, k5, -⟩ := C117_made hs h2 hr commute normal
  rw [hm] at k1
  obtain rfl := Option.some.inj k1
  have hc : a.book.isComplete a.pre true = some true ∧ a'.pre = a.pre ∧ a'.book = a.book ∧ a'.commutative = a.commutative := by
    unfold Context.isComplete at h
    by_cases hb : a.book.rules = []
    · rw [if_pos hb] at k5
      rw [k5] at h
      obtain ⟨rfl, -⟩ := Prod.mk.inj (Option.some.inj h)
      refine ⟨?_, rfl, rfl, rfl⟩
      unfold Book.isComplete
      rw [hb]
      rfl
    · rw [if_neg hb] at k5
      rw [k5] at h
      obtain ⟨f, h1, h3⟩ := Option.map_eq_some_iff.mp h
      obtain ⟨rfl, rfl⟩ := Prod.mk.inj h3
      exact ⟨h1, rfl, rfl, rfl⟩
  obtain ⟨hc, e1, e2, e3⟩ := hc
  have hS : Settled a L := by
    refine ⟨hs, k4, hne, phaseless_of hpos, ?_, mock_adjoint hs k4 hpos (mock_of_isComplete hc), fun e => ?_⟩
    · exact C18.C18_complete_unique_partial hs k4 (fun e he => Or.inl (hpos e he)) hK ho true hc
    · rw [e] at hm
      exact commuting_of_made hs h2 hr hm
  obtain ⟨p', c', b', q'⟩ := a'
  obtain ⟨p0, c0, b0, q0⟩ := a
  obtain rfl : p' = p0 := e1
  obtain rfl : b' = b0 := e2
  obtain rfl : c' = c0 := e3
  exact ⟨hS.small, hS.good, hS.noEmpty, hS.phaseless, hS.unique, hS.adjoint, hS.commute⟩

/-! ## Examples -/

open Moment.C16 (p2 small_p2 mkRule mkRule_good word_of)

/-- Two commuting self-adjoint operators. -/
def exContext : Context := ⟨p2, true, ⟨[(p2.hash [1, 0], mkRule p2 [1, 0] [0, 1] .pos)], 1⟩, none⟩

theorem ex_made : make p2 true true [] = some exContext := make_ofN (n := 20) (by decide +kernel)

theorem ex_simple : SimpleOverlaps exContext.rules := by
  have hm : ∀ l ∈ exContext.rules, l = ([1, 0], some (.pos, [0, 1])) := by
    rintro l ⟨e, he, rfl⟩
    simp only [exContext, List.mem_cons, List.not_mem_nil, or_false] at he
    subst he
    decide
  refine ⟨?_, ?_, ?_⟩
  · intro l hl l' hl' x y z x' y' z' hy hy' h1 h2 h3 h4
    obtain rfl := hm l hl
    obtain rfl := hm l' hl'
    simp only at h1 h2 h3 h4
    rcases C18.split_two h1 with ⟨_, rfl⟩ | ⟨_, rfl⟩ | ⟨_, rfl⟩ <;> rcases C18.split_two h3 with ⟨_, rfl⟩ | ⟨_, rfl⟩ | ⟨_, rfl⟩ <;>
    clear h1 h3 <;> simp at hy hy' h2 h4 ⊢
  · intro l hl x y z hx hy h1 h2
    obtain rfl := hm l hl
    simp only at h1 h2
    rcases C18.split_two h1 with ⟨rfl, rfl⟩ | ⟨rfl, rfl⟩ | ⟨rfl, rfl⟩ <;> clear h1 <;> simp at hx hy h2
  · intro l hl l' hl' _
    rw [hm l hl, hm l' hl']

theorem ex_reported : exContext.isComplete = some ({ exContext with completed := some true }, true) := by
  show (exContext.book.isComplete exContext.pre true).map _ = _
  rw [isComplete_ofN (n := 20) (out := true) (by decide +kernel)]
  rfl

/-- The hypotheses of `C117_made` and `C117_reported_partial` hold for two commuting operators, so all of the theorems apply to them. -/
theorem ex_settled : Settled { exContext with completed := some true } 20 :=
  C117_reported_partial small_p2 (by decide) (by simp) ex_made (by decide) (by unfold C17.NoEmpty; decide) (by decide) ex_simple ex_reported

example : IsWord p2 20 [1, 0, 1] ∧ IsWord p2 20 [0, 1, 1] ∧ sequence { exContext with completed := some true } [1, 0, 1] = sequence { exContext with completed := some true } [0, 1, 1] ∧
    sequence { exContext with completed := some true } [1, 0, 1] ≠ sequence { exContext with completed := some true } [0, 1] := by
  have w1 : IsWord p2 20 [1, 0, 1] := word_of _ _ _ (by decide) (by decide)
  have w2 : IsWord p2 20 [0, 1, 1] := word_of _ _ _ (by decide) (by decide)
  have w3 : IsWord p2 20 [0, 1] := word_of _ _ _ (by decide) (by decide)
  refine ⟨w1, w2, (C117_words ex_settled w1 w2).1.mpr ?_, fun e => ?_⟩
  · exact Implies.perm (ex_settled.commute rfl) (by decide) w1.1
  · have := (C117_words ex_settled w1 w3).1.mp e ℂ (fun _ => 2) (by
      rintro rule ⟨e, he, rfl⟩
      simp only [exContext, List.mem_cons, List.not_mem_nil, or_false] at he
      subst he
      have hd : den (mkRule p2 [1, 0] [0, 1] .pos) = ([1, 0], some (.pos, [0, 1])) := by decide
      rw [hd]
      simp [Holds, eval, evalWord, phase])
    norm_num [eval, evalWord, phase] at this

/-- The moment matrix of level 10 of two commuting operators, and a localizing matrix of `x y`. -/
example : (∃ l t' M, GenericWords.generic (GenericWords.algebraicGet p2 exContext.book) 2 10 = some l ∧
      createMatrix (host { exContext with completed := some true }) Table.new (momentFn (host { exContext with completed := some true })) l = some (t', some M) ∧
      M.sym.hermitian = true) ∧
    ∃ t' M, createMatrix (host { exContext with completed := some true }) Table.new
        (localizingFn (host { exContext with completed := some true }) (sequence { exContext with completed := some true } [0, 1]))
        ([[], [0], [1]].map (sequence { exContext with completed := some true })) = some (t', some M) ∧ M.sym.hermitian = true := by
  constructor
  · obtain ⟨l, t', M, h1, h2, -, -, -, h3, -⟩ := C117_level (n := 10) ex_settled .new
    exact ⟨l, t', M, h1, h2, h3⟩
  · obtain ⟨t', M, h1, -, -, -, h2, -⟩ := C117_matrix ex_settled (m := [0, 1]) (by decide) (.inr rfl) (us := [[], [0], [1]]) (by decide) .new
    refine ⟨t', M, h1, h2 ?_⟩
    exact Implies.perm (ex_settled.commute rfl) (by decide) (by decide)

/-! ## What fails -/

/-- A context with the single rule `x x → y` reports to be complete, yet `x y` and `y x`, which are equal in every algebra where the rule holds,
become different sequences. -/
theorem C117_refuted_reported :
    ∃ a a', make p2 false false [mkRule p2 [0, 0] [1] .pos] = some a ∧ a.isComplete = some (a', true) ∧
      Implies a'.rules (some (.pos, [0, 1])) (some (.pos, [1, 0])) ∧ sequence a' [0, 1] ≠ sequence a' [1, 0] := by
  refine ⟨⟨p2, false, ⟨[(p2.hash [0, 0], mkRule p2 [0, 0] [1] .pos)], 1⟩, none⟩, ⟨p2, false, ⟨[(p2.hash [0, 0], mkRule p2 [0, 0] [1] .pos)], 1⟩, some true⟩,
    make_ofN (n := 20) (by decide +kernel), ?_, ?_, ?_⟩
  · show (Book.isComplete p2 ⟨[(p2.hash [0, 0], mkRule p2 [0, 0] [1] .pos)], 1⟩ true).map _ = _
    rw [isComplete_ofN (n := 20) (out := true) (by decide +kernel)]
    rfl
  · intro A _ _ ρ hρ
    have := hρ (den (mkRule p2 [0, 0] [1] .pos)) ⟨_, List.mem_cons_self .., rfl⟩
    have hd : den (mkRule p2 [0, 0] [1] .pos) = ([0, 0], some (.pos, [1])) := by decide
    rw [hd] at this
    simp [Holds, eval, evalWord, phase] at this
    simp [eval, evalWord, phase, ← this, mul_assoc]
  · intro e
    have h1 : (sequence ⟨p2, false, ⟨[(p2.hash [0, 0], mkRule p2 [0, 0] [1] .pos)], 1⟩, some true⟩ [0, 1]).ops = [0, 1] :=
      construct_ops 20 (r := .noMatch) (s' := .pos) _ rfl (by decide) (by decide +kernel)
    have h2 : (sequence ⟨p2, false, ⟨[(p2.hash [0, 0], mkRule p2 [0, 0] [1] .pos)], 1⟩, some true⟩ [1, 0]).ops = [1, 0] :=
      construct_ops 20 (r := .noMatch) (s' := .pos) _ rfl (by decide) (by decide +kernel)
    rw [e, h2] at h1
    exact absurd h1 (by decide)

/-- Two operators `v`, `u` and their adjoints. -/
abbrev pAdj : Pre := ⟨2, .bunched⟩

/-- Completion of the rules `u → 1` and `u* v → 1` succeeds without finding `v* → 1`: after the first new rule, `u* → 1`, has been added, the search for conjugates
goes on with the second rule of the book, and the first has become `v → 1`. The conjugate of the sequence of `v` is then not the sequence
of `v*`. -/
theorem C117_refuted_completed :
    ∃ a a', make pAdj false false [mkRule pAdj [1] [] .pos, mkRule pAdj [3, 0] [] .pos] = some a ∧ a.attemptCompletion 10 = some (a', true) ∧
      a'.isComplete = some (a', true) ∧ (env a').conj (sequence a' [0]) ≠ sequence a' (pAdj.conjWord [0]) := by
  set b : Book := ⟨[(pAdj.hash [1], mkRule pAdj [1] [] .pos), (pAdj.hash [3, 0], mkRule pAdj [3, 0] [] .pos)], 1⟩ with hb
  set b' : Book := ⟨[(pAdj.hash [0], mkRule pAdj [0] [] .pos), (pAdj.hash [1], mkRule pAdj [1] [] .pos), (pAdj.hash [3], mkRule pAdj [3] [] .pos)], 2⟩ with hb'
  refine ⟨⟨pAdj, false, b, none⟩, ⟨pAdj, false, b', some true⟩, make_ofN (n := 20) (by decide +kernel), ?_, rfl, ?_⟩
  · show (Book.complete pAdj b 10).map _ = _
    rw [complete_ofN (n := 20) (out := (b', true)) (by decide) (by decide +kernel)]
    rfl
  · intro e
    have h1 : (sequence ⟨pAdj, false, b', some true⟩ [0]).ops = [] :=
      construct_ops 20 (r := .matched) (s' := .pos) _ rfl (by decide) (by decide +kernel)
    have h2 : (sequence ⟨pAdj, false, b', some true⟩ (pAdj.conjWord [0])).ops = [2] :=
      construct_ops 20 (r := .noMatch) (s' := .pos) _ rfl (by decide) (by decide +kernel)
    have h3 : ((env ⟨pAdj, false, b', some true⟩).conj (sequence ⟨pAdj, false, b', some true⟩ [0])).ops = [] := by
      show (ctxConjugate pAdj (hctx ⟨pAdj, false, b', some true⟩) _ _).ops = []
      unfold ctxConjugate
      rw [if_neg (by decide)]
      split
      · rfl
      · rw [h1]
        exact construct_ops (a := ⟨pAdj, false, b', some true⟩) 20 (r := .noMatch) (s' := .pos) _ rfl (by decide) (by decide +kernel)
    rw [e, h2] at h3
    cases h3

end Moment.C117
