import Verif.Proof.PauliMatrix
import Verif.Proof.PauliRep
import Verif.Props.C79_PauliWords
import Verif.Props.C83_OperatorThreads
import Mathlib.LinearAlgebra.Dual.Lemmas

/-! # C103: matrices of Pauli scenarios

Moment matrices, localizing matrices, and matrices of commutators and anticommutators, from end to end: word lists (C79), products (C08), commutators (C09),
translations (C75, C77), hashes (C02), symbol table (C27) and matrices (C70). -/

namespace Moment.C103
open Moment.Symbols (Table)
open Moment.SymbolMatrix Moment.OperatorMatrix Moment.PauliMatrix Moment.Pauli
open C06 (IsWord)
open scoped ComplexOrder Matrix

variable {n : Nat} {y : Symmetry} {k : Kind} {words : List HSeq} {t : Table}

/-! ## Creation -/

theorem made_ready (hn : Room n) (hf : Fit n y) (hk : k.Fits n) (hw : Plain n words) (ht : Ready (host n y) (IsSeq n) t) :
    ∃ t' M, create n y t k words = some (t', some M) ∧ Ready (host n y) (IsSeq n) t' ∧ Extends t t' ∧ M.sym.mat.dim = words.length ∧
      (∀ a ∈ words, ∀ b ∈ words, (t'.hashes.lookup (settle n y (k.fn n a b)).hash).isSome) ∧
      (M.sym.hermitian = true ↔ ∀ (i j : Nat) (a b : HSeq), j ≤ i → words[i]? = some a → words[j]? = some b →
        settle n y (k.fn n a b) = conjugate (settle n y (k.fn n b a))) ∧
      ∀ L v, Moments (host n y).env (IsSeq n) L → Agrees t' L v → ∀ i j a b, words[i]? = some a → words[j]? = some b →
        valueAt v M.sym.mat i j = k.prefactor * L (settle n y (k.fn n a b)) := by
  have hS := setting n y
  have hu := usable hn hf hk hw (y := y)
  obtain ⟨t', M, h1, h2, -, h3⟩ := C70.C70_value_partial hS ht (singleAliased (host n y) (k.fn n) (rowWords (host n y) words) words).1
    (singleAliased (host n y) (k.fn n) (rowWords (host n y) words) words).2 k.prefactor hu
  have hd := C82.used_dim (host n y) (k.fn n) words
  have hext := create_extends hS (ht.fit hS) hu h1
  have hflag := C70.C70_flag hS ht hu h1
  have lt : ∀ {i : Nat} {a : HSeq}, words[i]? = some a → i < (C82.used (host n y) (k.fn n) words).dim := fun h => by
    rw [hd]; exact (List.getElem?_eq_some_iff.mp h).1
  refine ⟨t', M, h1, .matrix ht hu h1, hext.1, h2.trans hd, ?_, hflag.trans ⟨?_, ?_⟩, ?_⟩
  · intro a ha b hb
    obtain ⟨i, hi⟩ := List.mem_iff_getElem?.mp ha
    obtain ⟨j, hj⟩ := List.mem_iff_getElem?.mp hb
    have : (t'.hashes.lookup (word (C82.used (host n y) (k.fn n) words) i j).hash).isSome := hext.2 i j (lt hi) (lt hj)
    rwa [used_at y (k.fn n) hi hj] at this
  · intro h i j a b hij hi hj
    have e : (word (C82.used (host n y) (k.fn n) words) i j).hash = (conjugate (word (C82.used (host n y) (k.fn n) words) j i)).hash ∧
        (word (C82.used (host n y) (k.fn n) words) i j).sign = (conjugate (word (C82.used (host n y) (k.fn n) words) j i)).sign := h i j hij (lt hi)
    rw [used_at y (k.fn n) hi hj, used_at y (k.fn n) hj hi] at e
    have pa := hw a (List.mem_of_getElem? hi)
    have pb := hw b (List.mem_of_getElem? hj)
    have p1 := settle_proper hn hf (fn_proper hn hk pa.1 pb.1)
    have p2 := settle_proper hn hf (fn_proper hn hk pb.1 pa.1)
    rcases p1 with p1 | p1 <;> rcases p2 with p2 | p2
    · rw [p1, p2]; rfl
    · rw [p1] at e; exact absurd e.1.symm p2.2.2.2
    · rw [p2] at e; exact absurd e.1 p1.2.2.2
    · have := hn.inj (IsWord.letters p1) (IsWord.letters p2) (by rw [← p1.2.2.1, ← p2.2.2.1]; exact e.1)
      rw [IsWord.eq p1, IsWord.eq (show IsWord n (conjugate (settle n y (k.fn n b a))) from p2), e.2, this]
      rfl
  · intro h i j hij hi
    have hi' : i < words.length := by rw [← hd]; exact hi
    have gi : words[i]? = some words[i] := List.getElem?_eq_getElem hi'
    have gj : words[j]? = some words[j] := List.getElem?_eq_getElem (by omega)
    have e := h i j _ _ hij gi gj
    rw [← used_at y (k.fn n) gi gj, ← used_at y (k.fn n) gj gi] at e
    exact ⟨congrArg HSeq.hash e, congrArg HSeq.sign e⟩
  · intro L v hL hv i j a b hi hj
    refine (h3 L v hL hv i j (lt hi) (lt hj)).trans ?_
    congr 2
    exact used_at y (k.fn n) hi hj

theorem made (hn : Room n) (hf : Fit n y) (hk : k.Fits n) (hw : Plain n words) (ht : Grown (host n y) (IsSeq n) t) :
    ∃ t' M, create n y t k words = some (t', some M) ∧ Grown (host n y) (IsSeq n) t' ∧ Extends t t' ∧ M.sym.mat.dim = words.length ∧
      (∀ a ∈ words, ∀ b ∈ words, (t'.hashes.lookup (settle n y (k.fn n a b)).hash).isSome) ∧
      (M.sym.hermitian = true ↔ ∀ (i j : Nat) (a b : HSeq), j ≤ i → words[i]? = some a → words[j]? = some b →
        settle n y (k.fn n a b) = conjugate (settle n y (k.fn n b a))) ∧
      ∀ L v, Moments (host n y).env (IsSeq n) L → Agrees t' L v → ∀ i j a b, words[i]? = some a → words[j]? = some b →
        valueAt v M.sym.mat i j = k.prefactor * L (settle n y (k.fn n a b)) := by
  obtain ⟨t', M, h1, -, h⟩ := made_ready hn hf hk hw ht.ready
  exact ⟨t', M, h1, .matrix ht (usable hn hf hk hw (y := y)) h1, h⟩

/-! ## A functional that tells words apart -/

/-- A functional on the sequences that tells all of them apart. -/
noncomputable def apart (w : HSeq) : ℂ := Rewrite.phase w.sign * (w.hash.toNat : ℂ)

theorem apart_moments (n : Nat) (y : Symmetry) : Moments (host n y).env (IsSeq n) apart := by
  refine ⟨by simp [apart, HSeq.zero], fun w _ => by simp only [apart]; rw [Rewrite.phase_pos, one_mul], fun w v _ _ e1 e2 => by unfold apart; rw [e1, e2], fun w _ => ?_⟩
  show Rewrite.phase w.sign.conj * (w.hash.toNat : ℂ) = _
  unfold apart
  rw [map_mul, SymbolMatrix.phase_conj, Complex.conj_natCast]

theorem apart_inj {a b : HSeq} (ha : a.hash ≠ 0) (e : apart a = apart b) : a.hash = b.hash ∧ a.sign = b.sign := by
  have abs : ∀ w : HSeq, ‖apart w‖ = w.hash.toNat := by
    intro w
    unfold apart
    rw [norm_mul, Complex.norm_natCast]
    cases w.sign <;> simp [Rewrite.phase]
  have h1 : a.hash = b.hash := by
    have := congrArg norm e
    rw [abs, abs] at this
    exact UInt64.toNat.inj (by exact_mod_cast this)
  refine ⟨h1, Rewrite.phase_injective ?_⟩
  unfold apart at e
  rw [← h1] at e
  refine mul_right_cancel₀ ?_ e
  have : a.hash.toNat ≠ 0 := fun h => ha (UInt64.toNat.inj (by simpa using h))
  exact_mod_cast this

theorem apart_values (ht : Grown (host n y) (IsSeq n) t) : ∃ v, Agrees t apart v := by
  refine ht.values (setting n y) (apart_moments n y) (fun _ w _ hs => ?_) ?_
  · unfold apart
    rw [hs, Rewrite.phase_pos, one_mul, Complex.conj_natCast]
  · simp only [apart, HSeq.identity]
    rw [Rewrite.phase_pos, one_mul, Complex.conj_natCast]

/-! ## Theorems -/

/-- The premise on values in the other theorems can always be met: every invariant functional gives values to all symbols. -/
theorem C103_values (hn : Room n) (ht : Grown (host n y) (IsSeq n) t) {A : Type} [Ring A] [Algebra ℂ A] [StarRing A] [StarModule ℂ A] {ρ : Nat → A}
    {φ : A →ₗ[ℂ] ℂ} (hρ : Represents n ρ) (hφ : Invariant n y ρ φ) : ∃ v, Agrees t (moment ρ φ) v := by
  refine ht.values (setting n y) (moment_moments hn y hρ hφ.star) (fun _ w hw hs => moment_real hρ hφ.star hw hs) ?_
  exact (moment_real hρ hφ.star (setting n y).words.one.1 rfl).symm

/-- **C103.** A symbol lacks a real basis element just if it is flagged as anti-Hermitian, and an imaginary one just if it is flagged as Hermitian; the parts that
are lacking vanish in all values. -/
theorem C103_basis (ht : Grown (host n y) (IsSeq n) t) :
    (∀ q ∈ t.syms, (q.re = none ↔ q.anti = true) ∧ (q.im = none ↔ q.herm = true)) ∧
    ∀ (F : HSeq → ℂ) v, Agrees t F v → ∀ id q, t.syms[id]? = some q → (q.re = none → (v id).re = 0) ∧ (q.im = none → (v id).im = 0) :=
  ⟨ht.parts fun _ => rfl, fun _ _ hv _ _ hq => ht.missing (fun _ => rfl) hv hq⟩

/-- **C103.** Let the words of all lengths have different hashes, let the symmetry fit the qubits, and let the words of the generator have positive signs. Then each
of the four matrices is made, whatever matrices were made before; existing symbols stay. In every algebra with the Pauli relations, and for every functional that
does not change under the symmetry, the values of the entries are the moments of `a b`, `a X b`, `[a b, X]` or `{a b, X}`. -/
theorem C103_matrix (hn : Room n) (hf : Fit n y) (hk : k.Fits n) (hw : Plain n words) (ht : Grown (host n y) (IsSeq n) t) :
    ∃ t' M, create n y t k words = some (t', some M) ∧ Grown (host n y) (IsSeq n) t' ∧ Extends t t' ∧ M.sym.mat.dim = words.length ∧
      ∀ (A : Type) [Ring A] [Algebra ℂ A] [StarRing A] [StarModule ℂ A] (ρ : Nat → A) (φ : A →ₗ[ℂ] ℂ) (v : Nat → ℂ), Represents n ρ →
        Invariant n y ρ φ → Agrees t' (moment ρ φ) v → ∀ i j a b, words[i]? = some a → words[j]? = some b →
        valueAt v M.sym.mat i j = φ (k.target ρ (Rewrite.evalWord ρ a.ops) (Rewrite.evalWord ρ b.ops)) := by
  obtain ⟨t', M, h1, h2, h3, h4, -, -, h5⟩ := made hn hf hk hw ht
  refine ⟨t', M, h1, h2, h3, h4, fun A _ _ _ _ ρ φ v hρ hφ hv i j a b hi hj => ?_⟩
  obtain ⟨wa, sa⟩ := hw a (List.mem_of_getElem? hi)
  obtain ⟨wb, sb⟩ := hw b (List.mem_of_getElem? hj)
  rw [h5 _ v (moment_moments hn y hρ hφ.star) hv i j a b hi hj, moment_settle hn hf hφ (fn_proper hn hk wa wb), fn_value hn hk hρ φ wa wb]
  unfold operator
  rw [sa, sb, Rewrite.phase_pos, one_smul, one_smul]

/-- The values of matrices that should be Hermitian are, and those of the others are anti-Hermitian. -/
theorem C103_hermitian (hn : Room n) (hf : Fit n y) (hk : k.Fits n) (hw : Plain n words) (ht : Grown (host n y) (IsSeq n) t) {t' : Table} {M : MonoMat}
    (hM : create n y t k words = some (t', some M)) {A : Type} [Ring A] [Algebra ℂ A] [StarRing A] [StarModule ℂ A] {ρ : Nat → A} {φ : A →ₗ[ℂ] ℂ}
    {v : Nat → ℂ} (hρ : Represents n ρ) (hφ : Invariant n y ρ φ) (hv : Agrees t' (moment ρ φ) v) {i j : Nat} (hi : i < words.length)
    (hj : j < words.length) :
    valueAt v M.sym.mat j i = if k.shouldBeHermitian then (starRingEnd ℂ) (valueAt v M.sym.mat i j) else -(starRingEnd ℂ) (valueAt v M.sym.mat i j) := by
  obtain ⟨t1, M1, h1, -, -, -, h2⟩ := C103_matrix hn hf hk hw ht
  obtain ⟨rfl, rfl⟩ : t1 = t' ∧ M1 = M := by rw [hM] at h1; simpa [eq_comm] using h1
  have gi : words[i]? = some words[i] := List.getElem?_eq_getElem hi
  have gj : words[j]? = some words[j] := List.getElem?_eq_getElem hj
  rw [h2 A ρ φ v hρ hφ hv i j _ _ gi gj, h2 A ρ φ v hρ hφ hv j i _ _ gj gi, ← hφ.star]
  have ea := word_star hρ (IsWord.letters (hw _ (List.mem_of_getElem? gi)).1)
  have eb := word_star hρ (IsWord.letters (hw _ (List.mem_of_getElem? gj)).1)
  have op : ∀ x, IsWord n x → star (operator ρ x) = if x.sign.isImaginary then -operator ρ x else operator ρ x := by
    intro x hx
    rw [← operator_conj hρ hx]
    cases h : x.sign.isImaginary
    · rw [self_conj h]; simp
    · rw [neg_conj h]
      unfold operator opposite
      dsimp only
      rw [← Sign.mul_eq, SymbolMatrix.phase_mul]
      simp [Rewrite.phase]
  cases k with
  | moment => simp [Kind.shouldBeHermitian, Kind.target, ea, eb]
  | localizing x =>
    have hx := op x hk
    simp only [Kind.shouldBeHermitian, Kind.target, star_mul, ea, eb, hx]
    cases x.sign.isImaginary <;> simp [mul_assoc]
  | commutator x =>
    have hx := op x hk
    simp only [Kind.shouldBeHermitian, Kind.target, star_sub, star_mul, ea, eb, hx]
    cases x.sign.isImaginary
    · simp
    · simp only [if_true, neg_mul, mul_neg, sub_neg_eq_add]
      rw [add_comm, ← sub_eq_add_neg]
  | anticommutator x =>
    have hx := op x hk
    simp only [Kind.shouldBeHermitian, Kind.target, star_add, star_mul, ea, eb, hx]
    cases x.sign.isImaginary <;> simp [add_comm]

theorem flag_ready (hn : Room n) (hf : Fit n y) (hk : k.Fits n) (hw : Plain n words) (ht : Ready (host n y) (IsSeq n) t) {t' : Table} {M : MonoMat}
    (hM : create n y t k words = some (t', some M)) :
    (k.shouldBeHermitian = true → M.sym.hermitian = true) ∧
    (k.shouldBeHermitian = false → (M.sym.hermitian = true ↔ ∀ a ∈ words, ∀ b ∈ words, k.fn n a b = HSeq.zero)) := by
  obtain ⟨t1, M1, h1, -, -, -, -, h2, -⟩ := made_ready hn hf hk hw ht
  obtain ⟨rfl, rfl⟩ : t1 = t' ∧ M1 = M := by rw [hM] at h1; simpa [eq_comm] using h1
  have turn : ∀ a ∈ words, ∀ b ∈ words, _ := fun a ha b hb => fn_turn hn hk (hw a ha).1 (hw b hb).1 (hw a ha).2 (hw b hb).2
  refine ⟨fun hs => h2.mpr ?_, fun hs => h2.trans ⟨fun h => ?_, fun h => ?_⟩⟩
  · intro i j a b _ hi hj
    have ma := List.mem_of_getElem? hi
    have mb := List.mem_of_getElem? hj
    rw [settle_conj (fn_proper hn hk (hw b mb).1 (hw a ma).1), (turn b mb a ma).1 hs]
  · have half : ∀ (i j : Nat) (a b : HSeq), j ≤ i → words[i]? = some a → words[j]? = some b → k.fn n a b = HSeq.zero ∧ k.fn n b a = HSeq.zero := by
      intro i j a b hij hi hj
      have ma := List.mem_of_getElem? hi
      have mb := List.mem_of_getElem? hj
      rcases (turn b mb a ma).2 hs with hz | ⟨hword, e⟩
      · exact ⟨hz.2, hz.1⟩
      · exfalso
        have e' := h i j a b hij hi hj
        rw [settle_conj (.inr hword), e] at e'
        have hab : IsWord n (k.fn n a b) := by
          have : IsWord n (opposite (k.fn n a b)) := e ▸ (show IsWord n (conjugate (k.fn n b a)) from hword)
          exact this
        rw [settle_word hab, settle_word (show IsWord n (opposite (k.fn n a b)) from hab)] at e'
        have := congrArg HSeq.sign e'
        have ne : ∀ s : Sign, s ≠ .neg * s := by intro s; cases s <;> decide
        exact ne _ this
    intro a ha b hb
    obtain ⟨i, hi⟩ := List.mem_iff_getElem?.mp ha
    obtain ⟨j, hj⟩ := List.mem_iff_getElem?.mp hb
    rcases Nat.le_total j i with hij | hij
    · exact (half i j a b hij hi hj).1
    · exact (half j i b a hij hj hi).2
  · intro i j a b _ hi hj
    have ma := List.mem_of_getElem? hi
    have mb := List.mem_of_getElem? hj
    rw [settle_zero (h a ma b mb), settle_zero (h b mb a ma)]
    rfl

theorem flag (hn : Room n) (hf : Fit n y) (hk : k.Fits n) (hw : Plain n words) (ht : Grown (host n y) (IsSeq n) t) {t' : Table} {M : MonoMat}
    (hM : create n y t k words = some (t', some M)) :
    (k.shouldBeHermitian = true → M.sym.hermitian = true) ∧
    (k.shouldBeHermitian = false → (M.sym.hermitian = true ↔ ∀ a ∈ words, ∀ b ∈ words, k.fn n a b = HSeq.zero)) :=
  flag_ready hn hf hk hw ht.ready hM

/-- In positive states moment matrices are positive semidefinite; so are localizing matrices if `φ(a† X a)` is never negative. -/
theorem C103_positive (hn : Room n) (hf : Fit n y) (hk : k.Fits n) (hw : Plain n words) (ht : Grown (host n y) (IsSeq n) t) {t' : Table} {M : MonoMat}
    (hM : create n y t k words = some (t', some M)) {A : Type} [Ring A] [Algebra ℂ A] [StarRing A] [StarModule ℂ A] {ρ : Nat → A} {φ : A →ₗ[ℂ] ℂ}
    {v : Nat → ℂ} (hρ : Represents n ρ) (hφ : Invariant n y ρ φ) (hv : Agrees t' (moment ρ φ) v)
    (hpos : (k = .moment ∧ ∀ a, 0 ≤ φ (star a * a)) ∨ ∃ x, k = .localizing x ∧ ∀ a, 0 ≤ φ (star a * operator ρ x * a)) :
    (Matrix.of fun i j : Fin words.length => valueAt v M.sym.mat i j).PosSemidef := by
  obtain ⟨t1, M1, h1, -, -, -, h2⟩ := C103_matrix hn hf hk hw ht
  obtain ⟨rfl, rfl⟩ : t1 = t' ∧ M1 = M := by rw [hM] at h1; simpa [eq_comm] using h1
  have vals : ∀ i j : Fin words.length, valueAt v M1.sym.mat i j =
      φ (k.target ρ (star (Rewrite.evalWord ρ words[i].ops)) (Rewrite.evalWord ρ words[j].ops)) := by
    intro i j
    rw [h2 A ρ φ v hρ hφ hv i j _ _ (List.getElem?_eq_getElem i.2) (List.getElem?_eq_getElem j.2)]
    rw [← word_star hρ (IsWord.letters (hw _ (List.getElem_mem i.2)).1)]
    rfl
  rcases hpos with ⟨rfl, hp⟩ | ⟨x, rfl, hp⟩
  · have e : (Matrix.of fun i j : Fin words.length => valueAt v M1.sym.mat i j) = Matrix.of fun i j : Fin words.length =>
        φ (star (Rewrite.evalWord ρ words[i].ops) * 1 * Rewrite.evalWord ρ words[j].ops) := by
      ext i j
      rw [Matrix.of_apply, Matrix.of_apply, vals i j, mul_one]
      rfl
    rw [e]
    exact C82.gram_posSemidef φ 1 (fun a => by rw [mul_one]; exact hp a) _
  · have e : (Matrix.of fun i j : Fin words.length => valueAt v M1.sym.mat i j) = Matrix.of fun i j : Fin words.length =>
        φ (star (Rewrite.evalWord ρ words[i].ops) * operator ρ x * Rewrite.evalWord ρ words[j].ops) := by
      ext i j
      rw [Matrix.of_apply, Matrix.of_apply, vals i j]
      rfl
    rw [e]
    exact C82.gram_posSemidef φ _ hp _

theorem distinct (hn : Room n) (hf : Fit n y) (hk : k.Fits n) (hw : Plain n words) (ht : Grown (host n y) (IsSeq n) t) {t' : Table} {M : MonoMat}
    (hM : create n y t k words = some (t', some M)) {i j i' j' : Nat} {a b c d : HSeq} (hi : words[i]? = some a) (hj : words[j]? = some b)
    (hi' : words[i']? = some c) (hj' : words[j']? = some d) (e : M.sym.mat.get? i j = M.sym.mat.get? i' j') :
    (k.fn n a b = HSeq.zero ∧ k.fn n c d = HSeq.zero) ∨
    (IsWord n (k.fn n a b) ∧ IsWord n (k.fn n c d) ∧ (k.fn n a b).sign = (k.fn n c d).sign ∧ y.Class (k.fn n a b).ops (k.fn n c d).ops) := by
  obtain ⟨t1, M1, h1, hg, -, -, -, -, h2⟩ := made hn hf hk hw ht
  obtain ⟨rfl, rfl⟩ : t1 = t' ∧ M1 = M := by rw [hM] at h1; simpa [eq_comm] using h1
  obtain ⟨v, hv⟩ := apart_values hg
  have v1 := h2 _ v (apart_moments n y) hv i j a b hi hj
  have v2 := h2 _ v (apart_moments n y) hv i' j' c d hi' hj'
  have hne : k.prefactor ≠ 0 := by cases k <;> simp [Kind.prefactor]
  have key : apart (settle n y (k.fn n a b)) = apart (settle n y (k.fn n c d)) := by
    refine mul_left_cancel₀ hne ?_
    rw [← v1, ← v2]
    unfold valueAt
    rw [e]
  have z : apart HSeq.zero = 0 := by simp [apart, HSeq.zero]
  have nz : ∀ {w : HSeq}, IsWord n w → apart (settle n y w) ≠ 0 := by
    intro w h h0
    have := apart_inj (settle_isWord hn hf h).2.2.2 (h0.trans z.symm)
    exact (settle_isWord hn hf h).2.2.2 this.1
  have p1 := fn_proper hn hk (hw a (List.mem_of_getElem? hi)).1 (hw b (List.mem_of_getElem? hj)).1
  have p2 := fn_proper hn hk (hw c (List.mem_of_getElem? hi')).1 (hw d (List.mem_of_getElem? hj')).1
  rcases p1 with p1 | p1 <;> rcases p2 with p2 | p2
  · exact .inl ⟨p1, p2⟩
  · rw [settle_zero p1, z] at key
    exact absurd key.symm (nz p2)
  · rw [settle_zero p2, z] at key
    exact absurd key (nz p1)
  · right
    have hh := apart_inj (settle_isWord hn hf p1).2.2.2 key
    rw [settle_word p1, settle_word p2] at hh
    exact ⟨p1, p2, hh.2, (canon_iff hf (IsWord.letters p1) (IsWord.letters p2)).mp
      (hn.inj (canon_form hf (IsWord.letters p1)).1 (canon_form hf (IsWord.letters p2)).1 hh.1)⟩

/-- What an entry stands for: nothing, or a multiple of a word. -/
theorem target_eq (hn : Room n) (hk : k.Fits n) {a b : HSeq} (ha : IsWord n a) (hb : IsWord n b) {A : Type} [Ring A] [Algebra ℂ A] [StarRing A]
    [StarModule ℂ A] {ρ : Nat → A} (hρ : Represents n ρ) :
    k.target ρ (operator ρ a) (operator ρ b) =
      if k.fn n a b = HSeq.zero then 0 else (k.prefactor * Rewrite.phase (k.fn n a b).sign) • Rewrite.evalWord ρ (k.fn n a b).ops := by
  rw [← sub_eq_zero, ← Module.forall_dual_apply_eq_zero_iff ℂ]
  intro φ
  rw [map_sub, ← fn_value hn hk hρ φ ha hb, sub_eq_zero]
  unfold moment
  rcases fn_proper hn hk ha hb with h | h
  · rw [if_pos h, h, if_pos (show HSeq.zero.hash = 0 from rfl), map_zero, mul_zero]
  · have : k.fn n a b ≠ HSeq.zero := fun e => h.2.2.2 (by rw [e]; rfl)
    rw [if_neg this, if_neg h.2.2.2, mul_smul, map_smul]
    rfl

theorem word_unit {A : Type} [Ring A] [Algebra ℂ A] [StarRing A] {ρ : Nat → A} (hρ : Represents n ρ) :
    ∀ (w : List Nat), (∀ o ∈ w, o < n * 3) → IsUnit (Rewrite.evalWord ρ w)
  | [], _ => isUnit_one
  | o :: w, h => by
    rw [evalWord_cons]
    have e := hρ.square o (h o (by simp))
    exact (Units.isUnit ⟨ρ o, ρ o, e, e⟩).mul (word_unit hρ w fun p hp => h p (by simp [hp]))

/-- A word is not zero among the Pauli matrices. -/
theorem word_ne (n : Nat) {w : List Nat} (h : Letters n w) (c : ℂ) (hc : c ≠ 0) : c • Rewrite.evalWord (letter n) w ≠ 0 :=
  smul_ne_zero hc (word_unit (represents n) w h.2).ne_zero

theorem prefactor_ne (k : Kind) : k.prefactor ≠ 0 := by cases k <;> simp [Kind.prefactor]

theorem operator_pos {A : Type} [Ring A] [Algebra ℂ A] {ρ : Nat → A} {w : HSeq} (h : w.sign = .pos) : operator ρ w = Rewrite.evalWord ρ w.ops := by
  unfold operator
  rw [h, Rewrite.phase_pos, one_smul]

/-- The flag: matrices that should be Hermitian are flagged as Hermitian, and the others only if their entries stand for nothing: `a X b`, `[a b, X]` or `{a b, X}`
is zero for all pairs of words, among the Pauli matrices. -/
theorem C103_flag (hn : Room n) (hf : Fit n y) (hk : k.Fits n) (hw : Plain n words) (ht : Grown (host n y) (IsSeq n) t) {t' : Table} {M : MonoMat}
    (hM : create n y t k words = some (t', some M)) :
    (k.shouldBeHermitian = true → M.sym.hermitian = true) ∧
    (k.shouldBeHermitian = false → (M.sym.hermitian = true ↔ ∀ a ∈ words, ∀ b ∈ words,
      k.target (letter n) (Rewrite.evalWord (letter n) a.ops) (Rewrite.evalWord (letter n) b.ops) = 0)) := by
  refine ⟨(flag hn hf hk hw ht hM).1, fun hs => ((flag hn hf hk hw ht hM).2 hs).trans ?_⟩
  refine forall₂_congr fun a ha => forall₂_congr fun b hb => ?_
  rw [← operator_pos (hw a ha).2, ← operator_pos (hw b hb).2, target_eq hn hk (hw a ha).1 (hw b hb).1 (represents n)]
  refine ⟨fun h => if_pos h, fun h => ?_⟩
  by_contra hne
  rw [if_neg hne] at h
  rcases fn_proper hn hk (hw a ha).1 (hw b hb).1 with h' | h'
  · exact hne h'
  · exact word_ne n (IsWord.letters h') _ (mul_ne_zero (prefactor_ne k) (Rewrite.phase_ne_zero _)) h

/-- Entries that are equal stand for operators that are equal up to the symmetry: either both are zero, or both are the same multiple of words that can be
translated into each other. -/
theorem C103_distinct (hn : Room n) (hf : Fit n y) (hk : k.Fits n) (hw : Plain n words) (ht : Grown (host n y) (IsSeq n) t) {t' : Table} {M : MonoMat}
    (hM : create n y t k words = some (t', some M)) {i j i' j' : Nat} {a b c d : HSeq} (hi : words[i]? = some a) (hj : words[j]? = some b)
    (hi' : words[i']? = some c) (hj' : words[j']? = some d) (e : M.sym.mat.get? i j = M.sym.mat.get? i' j') :
    ∃ (f : ℂ) (u v : List Nat), Letters n u ∧ Letters n v ∧ y.Class u v ∧
      ∀ (A : Type) [Ring A] [Algebra ℂ A] [StarRing A] [StarModule ℂ A] (ρ : Nat → A), Represents n ρ →
        k.target ρ (Rewrite.evalWord ρ a.ops) (Rewrite.evalWord ρ b.ops) = f • Rewrite.evalWord ρ u ∧
        k.target ρ (Rewrite.evalWord ρ c.ops) (Rewrite.evalWord ρ d.ops) = f • Rewrite.evalWord ρ v := by
  have wa := hw a (List.mem_of_getElem? hi)
  have wb := hw b (List.mem_of_getElem? hj)
  have wc := hw c (List.mem_of_getElem? hi')
  have wd := hw d (List.mem_of_getElem? hj')
  have tg : ∀ (A : Type) [Ring A] [Algebra ℂ A] [StarRing A] [StarModule ℂ A] (ρ : Nat → A), Represents n ρ → _ ∧ _ :=
    fun A _ _ _ _ ρ hρ => And.intro (target_eq hn hk wa.1 wb.1 hρ) (target_eq hn hk wc.1 wd.1 hρ)
  rcases distinct hn hf hk hw ht hM hi hj hi' hj' e with ⟨h1, h2⟩ | ⟨h1, h2, h3, h4⟩
  · refine ⟨0, [], [], ⟨List.Pairwise.nil, by simp⟩, ⟨List.Pairwise.nil, by simp⟩,
      (canon_iff hf ⟨List.Pairwise.nil, by simp⟩ ⟨List.Pairwise.nil, by simp⟩).mp rfl, fun A _ _ _ _ ρ hρ => ?_⟩
    have := tg A ρ hρ
    rw [h1, h2, operator_pos wa.2, operator_pos wb.2, operator_pos wc.2, operator_pos wd.2, if_pos rfl] at this
    rw [zero_smul]
    exact this
  · refine ⟨k.prefactor * Rewrite.phase (k.fn n a b).sign, _, _, IsWord.letters h1, IsWord.letters h2, h4, fun A _ _ _ _ ρ hρ => ?_⟩
    have n1 : k.fn n a b ≠ HSeq.zero := fun e => h1.2.2.2 (by rw [e]; rfl)
    have n2 : k.fn n c d ≠ HSeq.zero := fun e => h2.2.2.2 (by rw [e]; rfl)
    have := tg A ρ hρ
    rw [operator_pos wa.2, operator_pos wb.2, operator_pos wc.2, operator_pos wd.2, if_neg n1, if_neg n2, ← h3] at this
    exact this

/-- Several threads make the same matrices of sequences as one: `sb` is what the generators claim about Hermiticity, so that half of the matrix is made by
conjugation. -/
theorem C103_threads (hn : Room n) (hk : k.Fits n) (hw : Plain n words) (un : Bool) {N : Nat} (hN : 0 < N) {s : State}
    (hs : Reachable (jobOf (host n y) (k.fn n) words k.shouldBeHermitian un N) s) (hm : s.main = .returned) {i j : Nat} {a b : HSeq}
    (hi : words[i]? = some a) (hj : words[j]? = some b) :
    s.os (j * words.length + i) = some (k.fn n a b) ∧ (y.aliases = true → s.al (j * words.length + i) = some (settle n y (k.fn n a b))) := by
  have at' : ∀ {i j : Nat} {a b : HSeq}, words[i]? = some a → words[j]? = some b →
      word (single (k.fn n) (rowWords (host n y) words) words) i j = k.fn n a b := fun hi hj =>
    C82.C82_entry (k.fn n) _ _ (C82.rowWords_length _ _) (show (rowWords (host n y) words)[_]? = some _ from hi) hj
  have ht : k.shouldBeHermitian = true → un = false → C83.Turns (host n y) (k.fn n) words := by
    intro hsb _ r c hcr hr
    have gr : words[r]? = some words[r] := List.getElem?_eq_getElem hr
    have gc : words[c]? = some words[c] := List.getElem?_eq_getElem (by omega)
    rw [at' gr gc, at' gc gr]
    have wr := hw _ (List.mem_of_getElem? gr)
    have wc := hw _ (List.mem_of_getElem? gc)
    refine ⟨(fn_turn hn hk wr.1 wc.1 wr.2 wc.2).1 hsb, fun hal => ?_⟩
    have := settle_conj (y := y) (fn_proper hn hk wr.1 wc.1)
    unfold settle at this
    rw [if_pos hal, if_pos hal] at this
    exact this
  have key := C83.C83_same_partial (host n y) (k.fn n) words k.shouldBeHermitian un hN ht hs hm (List.getElem?_eq_some_iff.mp hi).1
    (List.getElem?_eq_some_iff.mp hj).1
  rw [at' hi hj] at key
  refine ⟨key.1, fun hal => ?_⟩
  unfold settle
  rw [if_pos (show (host n y).env.aliases = true from hal)]
  exact key.2 hal

/-! ## Levels -/

/-- The sequences of a level. -/
noncomputable def levelWords (n level : Nat) : List HSeq := (Fill.allWords n level).map fun e => seq n e.1 e.2

theorem level_plain (hn : Room n) (level : Nat) : Plain n (levelWords n level) := by
  intro w h
  obtain ⟨⟨u, g⟩, he, rfl⟩ := List.mem_map.mp h
  obtain ⟨rfl, h1, h2, -⟩ := ((C79.C79_all n level).1 u g).mp he
  exact ⟨hn.isWord ((letters_within h1).mpr h2) _, rfl⟩

theorem mergeLoop_append : ∀ (u v : List Nat) (s : Sign), (∀ a ∈ u, ∀ b ∈ v, a / 3 < b / 3) → mergeLoop u v s = (u ++ v, s)
  | [], v, s, _ => by simp [mergeLoop]
  | a :: u, [], s, _ => by simp [mergeLoop]
  | a :: u, b :: v, s, h => by
    rw [mergeLoop, if_pos (h a (by simp) b (by simp)), mergeLoop_append u (b :: v) s fun x hx => h x (by simp [hx])]
    rfl

/-- **C103, levels.** The moment matrix of a level: rows and columns are all words up to the level (C79), it is Hermitian, and afterwards all words up to twice
the level have symbols, up to the symmetry. -/
theorem C103_level (hn : Room n) (hf : Fit n y) (level : Nat) (ht : Grown (host n y) (IsSeq n) t) :
    ∃ t' M, create n y t .moment (levelWords n level) = some (t', some M) ∧ Grown (host n y) (IsSeq n) t' ∧ Extends t t' ∧
      M.sym.mat.dim = (Fill.allWords n level).length ∧ M.sym.hermitian = true ∧
      ∀ w, Letters n w → w.length ≤ 2 * level → (t'.hashes.lookup (hashWord (UInt64.ofNat (n * 3)) (y.canon w))).isSome := by
  have hw := level_plain hn level
  obtain ⟨t', M, h1, h2, h3, h4, h5, -, -⟩ := made hn hf (k := .moment) trivial hw ht
  refine ⟨t', M, h1, h2, h3, by simpa [levelWords] using h4, (C103_flag hn hf (k := .moment) trivial hw ht h1).1 rfl, fun w hlw hlen => ?_⟩
  have hsplit := List.take_append_drop level w
  have hN : Normal (w.take level ++ w.drop level) := by rw [hsplit]; exact hlw.1
  have hap := List.pairwise_append.mp hN
  have mem : ∀ u, Letters n u → u.length ≤ level → seq n u .pos ∈ levelWords n level := fun u hu hl =>
    List.mem_map.mpr ⟨(u, .pos), ((C79.C79_all n level).1 u .pos).mpr ⟨rfl, hu.1, (letters_within hu.1).mp hu, hl⟩, rfl⟩
  have l1 : Letters n (w.take level) := ⟨hap.1, fun o ho => hlw.2 o (List.mem_of_mem_take ho)⟩
  have l2 : Letters n (w.drop level) := ⟨hap.2.1, fun o ho => hlw.2 o (List.mem_of_mem_drop ho)⟩
  have key := h5 _ (mem _ l1 (by rw [List.length_take]; omega)) _ (mem _ l2 (by rw [List.length_drop]; omega))
  have e : Kind.moment.fn n (seq n (w.take level) .pos) (seq n (w.drop level) .pos) = seq n w .pos := by
    show multiply n _ _ = _
    rw [multiply_eq (hn.isWord l1 _) (hn.isWord l2 _)]
    have m := mergeLoop_append (w.take level) (w.drop level) 1 hap.2.2
    rw [hsplit] at m
    unfold prod rel
    rw [show (seq n (w.take level) .pos).ops = w.take level from rfl, show (seq n (w.drop level) .pos).ops = w.drop level from rfl, m]
    show seq n w (Sign.pos * Sign.pos * 1) = _
    rfl
  rw [e, settle_word (hn.isWord hlw _)] at key
  exact key

/-! ## Examples -/

theorem room_three : Room 3 := ⟨by norm_num, by decide⟩

/-- Three qubits in an open chain with translations as symmetries: the matrices of level 1, of the moments, and of the commutators with X of the first qubit. The Pauli
matrices and the state in which all qubits are 0 meet the conditions. -/
example : ∃ t1 M1 t2 M2 v, create 3 .chain Table.new .moment (levelWords 3 1) = some (t1, some M1) ∧ M1.sym.hermitian = true ∧
    create 3 .chain t1 (.commutator (sigma 0 0 .pos)) (levelWords 3 1) = some (t2, some M2) ∧ M2.sym.mat.dim = (Fill.allWords 3 1).length ∧
    Agrees t2 (moment (letter 3) (ground 3)) v := by
  obtain ⟨t1, M1, h1, h2, -, -, h3, -⟩ := C103_level (y := .chain) room_three trivial 1 .new
  have hk : (Kind.commutator (sigma 0 0 .pos)).Fits 3 := ⟨by unfold Normal; decide, by decide, by decide +kernel, by decide +kernel⟩
  obtain ⟨t2, M2, g1, g2, -, g3, -⟩ := C103_matrix room_three (y := .chain) trivial hk (level_plain room_three 1) h2
  obtain ⟨v, hv⟩ := C103_values room_three g2 (represents 3) (ground_invariant 3 .chain)
  exact ⟨t1, M1, t2, M2, v, h1, h3, g1, by simpa [levelWords] using g3, hv⟩

/-- A positive moment matrix: that of level 2 for the state in which all qubits are 0. -/
example : ∃ t' M v, create 3 .none Table.new .moment (levelWords 3 2) = some (t', some M) ∧
    (Matrix.of fun i j : Fin (levelWords 3 2).length => valueAt v M.sym.mat i j).PosSemidef := by
  obtain ⟨t1, M1, h1, h2, -⟩ := C103_level (y := .none) room_three trivial 2 .new
  obtain ⟨v, hv⟩ := C103_values room_three h2 (represents 3) (ground_invariant 3 .none)
  exact ⟨t1, M1, v, h1, C103_positive (y := .none) (k := .moment) room_three trivial trivial (level_plain room_three 2) .new h1 (represents 3) (ground_invariant 3 .none) hv
    (.inl ⟨rfl, ground_pos⟩)⟩

/-- Four threads make the localizing matrix of level 1 for `X₀`; there is a run that returns. -/
example : ∃ s, Reachable (jobOf (host 3 .chain) ((Kind.localizing (sigma 0 0 .pos)).fn 3) (levelWords 3 1)
    (Kind.localizing (sigma 0 0 .pos)).shouldBeHermitian false 4) s ∧ s.main = .returned ∧ Plain 3 (levelWords 3 1) := by
  obtain ⟨s, h1, h2⟩ := (C83.C83_ends (C83.job_total (host 3 .chain) ((Kind.localizing (sigma 0 0 .pos)).fn 3) (levelWords 3 1)
    (Kind.localizing (sigma 0 0 .pos)).shouldBeHermitian false 4)).2 _ .refl
  exact ⟨s, h1, h2, level_plain room_three 1⟩

/-! ## Indices -/

/-- Indices whose words differ only in the sign are the same key. -/
theorem C103_index_sign (level neighbours : Nat) (x : HSeq) (g : Sign) : Index.same ⟨level, neighbours, x⟩ ⟨level, neighbours, { x with sign := g }⟩ = true := by
  simp [Index.same, Index.lt]

/-- **C103, indices.** `PauliMonomialIndex` is a key for `std::map`: indices are the same key just if level, neighbours and hash of the word agree, and the
comparison is a strict order of keys. -/
theorem C103_index (a b c : Index) :
    (Index.same a b = true ↔ a.level = b.level ∧ a.neighbours = b.neighbours ∧ a.word.hash = b.word.hash) ∧
    (a.lt b = true → b.lt a = false) ∧ (a.lt b = true → b.lt c = true → a.lt c = true) := by
  simp only [Index.same, Index.lt, Bool.and_eq_true, Bool.not_eq_true', UInt64.lt_iff_toNat_lt, ← UInt64.toNat_inj]
  refine ⟨?_, ?_, ?_⟩
  · split_ifs <;> simp <;> omega
  · split_ifs <;> simp <;> omega
  · split_ifs <;> simp <;> omega

example : Index.lt ⟨1, 0, seq 3 [0] .pos⟩ ⟨1, 2, seq 3 [0] .pos⟩ = true ∧ Index.lt ⟨1, 2, seq 3 [0] .pos⟩ ⟨2, 0, seq 3 [0] .pos⟩ = true := by
  constructor <;> simp [Index.lt]

/-- C103 refuted for lookup by index: the localizing matrices of `X` and of `iX` have the same index, but the first is Hermitian and the second is not, whatever was
made before and in whichever context. So a request for the one can give the other. -/
theorem C103_refuted_index (hn : Room n) (h0 : 0 < n) (hf : Fit n y) (ht : Grown (host n y) (IsSeq n) t) (level neighbours : Nat) :
    Index.same ⟨level, neighbours, seq n [0] .pos⟩ ⟨level, neighbours, seq n [0] .imag⟩ = true ∧
    ∀ t1 M1 t2 M2, create n y t (.localizing (seq n [0] .pos)) (levelWords n level) = some (t1, some M1) →
      create n y t (.localizing (seq n [0] .imag)) (levelWords n level) = some (t2, some M2) → M1.sym.hermitian = true ∧ M2.sym.hermitian = false := by
  refine ⟨C103_index_sign level neighbours (seq n [0] .pos) .imag, fun t1 M1 t2 M2 h1 h2 => ?_⟩
  have hx : ∀ s, IsWord n (seq n [0] s) := fun s => hn.isWord ⟨List.pairwise_singleton _ _, by simp; omega⟩ s
  have hw := level_plain hn level
  refine ⟨(C103_flag hn hf (k := .localizing _) (hx .pos) hw ht h1).1 (by simp only [Kind.shouldBeHermitian, seq]; decide), ?_⟩
  have hflag := (flag hn hf (k := .localizing _) (hx .imag) hw ht h2).2 (by simp only [Kind.shouldBeHermitian, seq]; decide)
  rw [Bool.eq_false_iff]
  intro hh
  have hone : seq n [] .pos ∈ levelWords n level := List.mem_map.mpr ⟨([], .pos), ((C79.C79_all n level).1 [] .pos).mpr
    ⟨rfl, List.Pairwise.nil, fun q p h => by simp [Translate.Has] at h, Nat.zero_le _⟩, rfl⟩
  have hi := hw _ hone
  have := hflag.mp hh _ hone _ hone
  have hword := multiply_word hn hi.1 (multiply_word hn (hx .imag) hi.1)
  rw [show multiply n (seq n [] .pos) (multiply n (seq n [0] .imag) (seq n [] .pos)) = HSeq.zero from this] at hword
  exact hword.2.2.2 rfl

example : Room 3 ∧ 0 < 3 ∧ Fit 3 .chain ∧ Grown (host 3 .chain) (IsSeq 3) Table.new := ⟨room_three, by omega, trivial, .new⟩

end Moment.C103
