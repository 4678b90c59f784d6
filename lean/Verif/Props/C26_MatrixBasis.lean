import Verif.Proof.MatrixMake
import Verif.Props.C21_Polynomial
import Verif.Props.C25_Basis

/-! # C26: basis matrices -/

namespace Moment.C26

open Moment.Symbols Moment.MatrixBasis Moment.C25
open Moment.Poly (Mono Canonical Order byId)
open Moment.C21 (byId_injective)

/-- The real part of a factor, read as a complex number again. -/
theorem real_part {f : ℂ} (h : f.im = 0) : ((f.re : ℝ) : ℂ) = f ∧ ((((starRingEnd ℂ) f).re : ℝ) : ℂ) = (starRingEnd ℂ) f :=
  ⟨Complex.ext (by simp) (by simp [h]), Complex.ext (by simp) (by simp [h])⟩

/-- **C26.** The constructor of a monomial matrix keeps the value of each entry. -/
theorem C26_constructor (t : Symbols.Table) (ht : Reached t) (herm : Bool) (A : Mat Mono) (hA : A.Square) (hk : ∀ m ∈ A.data, m.id < t.syms.length) :
    ∃ B, makeMono t herm A = some B ∧ B.mat.dim = A.dim ∧ B.hermitian = herm ∧ (∀ a b i j, monoValue t B.mat a b i j = monoValue t A a b i j) ∧
      (B.complexCoefs = true ↔ ∃ m ∈ A.data, m.factor.im ≠ 0) := by
  obtain ⟨B, h1, h2⟩ := makeMono_spec ht.sound herm hA (fun x hx m hm => by rw [List.mem_singleton.mp hm]; exact hk x hx)
  exact ⟨B, h1, h2.dim, h2.herm, h2.value, h2.coefs⟩

/-- **C26.** Complex basis of a monomial matrix, dense and sparse: it is made, it has one matrix for each element of the basis, and the combination
of its matrices has the value of the symbolic matrix exactly if the matrix really is as Hermitian as its flag says. -/
theorem C26_monomial_complex (t : Symbols.Table) (ht : Reached t) (herm : Bool) (A : Mat Mono) (hA : A.Square) (hk : ∀ m ∈ A.data, m.id < t.syms.length) :
    ∃ B, makeMono t herm A = some B ∧
      (∃ R I, denseMono t id B = some (R, I) ∧ R.length = t.basis.real.length ∧ I.length = t.basis.imag.length ∧
        (Rebuilds t A.dim (monoValue t A) (viewC R) (viewC I) ↔ (herm = true → Mirrored A.dim (monoValue t A)))) ∧
      (∃ R I, sparseMono t id B = some (R, I) ∧ R.length = t.basis.real.length ∧ I.length = t.basis.imag.length ∧
        (Rebuilds t A.dim (monoValue t A) (viewSC R) (viewSC I) ↔ (herm = true → Mirrored A.dim (monoValue t A)))) := by
  obtain ⟨B, h1, h2⟩ := makeMono_spec ht.sound herm hA (fun x hx m hm => by rw [List.mem_singleton.mp hm]; exact hk x hx)
  refine ⟨B, h1, ?_, ?_⟩
  · exact denseMono_spec ht.sound h2 (cx := id) (up := id) rfl (fun m _ => ⟨rfl, rfl⟩)
  · exact sparseMono_spec ht.sound h2 (cx := id) (up := AddMonoidHom.id ℂ) (fun m _ => ⟨rfl, rfl⟩)

/-- **C26.** Real basis of a monomial matrix: `bad_basis_error` exactly if there is a factor that is not real; else as before. -/
theorem C26_monomial_real (t : Symbols.Table) (ht : Reached t) (herm : Bool) (A : Mat Mono) (hA : A.Square) (hk : ∀ m ∈ A.data, m.id < t.syms.length) :
    ∃ B, makeMono t herm A = some B ∧
      ((∃ m ∈ A.data, m.factor.im ≠ 0) → guarded B (denseMono t Complex.re B) = .badBasis ∧ guarded B (sparseMono t Complex.re B) = .badBasis) ∧
      ((∀ m ∈ A.data, m.factor.im = 0) →
        (∃ R I, guarded B (denseMono t Complex.re B) = .made (R, I) ∧ R.length = t.basis.real.length ∧ I.length = t.basis.imag.length ∧
          (Rebuilds t A.dim (monoValue t A) (viewR R) (viewC I) ↔ (herm = true → Mirrored A.dim (monoValue t A)))) ∧
        (∃ R I, guarded B (sparseMono t Complex.re B) = .made (R, I) ∧ R.length = t.basis.real.length ∧ I.length = t.basis.imag.length ∧
          (Rebuilds t A.dim (monoValue t A) (viewSR R) (viewSC I) ↔ (herm = true → Mirrored A.dim (monoValue t A))))) := by
  obtain ⟨B, h1, h2⟩ := makeMono_spec ht.sound herm hA (fun x hx m hm => by rw [List.mem_singleton.mp hm]; exact hk x hx)
  refine ⟨B, h1, fun h => ?_, fun h => ?_⟩
  · have := h2.coefs.mpr h
    exact ⟨if_pos this, if_pos this⟩
  · have hc : B.complexCoefs = false := by
      rw [Bool.eq_false_iff]
      intro hc
      obtain ⟨m, hm, h'⟩ := h2.coefs.mp hc
      exact h' (h m hm)
    have hup : ∀ m ∈ B.mat.data, ((m.factor.re : ℝ) : ℂ) = m.factor ∧ ((((starRingEnd ℂ) m.factor).re : ℝ) : ℂ) = (starRingEnd ℂ) m.factor :=
      fun m hm => real_part (h2.real hc m hm)
    obtain ⟨R, I, d1, d2, d3, d4⟩ := denseMono_spec ht.sound h2 (cx := Complex.re) (up := Complex.ofReal) Complex.ofReal_zero hup
    obtain ⟨R', I', s1, s2, s3, s4⟩ := sparseMono_spec ht.sound h2 (cx := Complex.re) (up := Complex.ofRealHom.toAddMonoidHom) hup
    refine ⟨⟨R, I, ?_, d2, d3, d4⟩, R', I', ?_, s2, s3, s4⟩
    · unfold guarded
      rw [hc, d1]
      rfl
    · unfold guarded
      rw [hc, s1]
      rfl

/-- A Hermitian matrix `[[1, X], [X*, 2]]` over the demonstration table. -/
noncomputable def herm2 : Mat Mono := ⟨2, [⟨1, false, 1⟩, ⟨2, true, 1⟩, ⟨2, false, 1⟩, ⟨1, false, 2⟩]⟩

theorem herm2_mirrored : Mirrored 2 (monoValue demo herm2) := by
  intro a b i j hi hj hne
  have h : (i = 0 ∧ j = 1) ∨ (i = 1 ∧ j = 0) := by omega
  rcases h with ⟨rfl, rfl⟩ | ⟨rfl, rfl⟩ <;> simp [monoValue, Mat.get?, herm2, Poly.Mono.value]

-- The hypotheses hold for it, with real factors and a true flag that is right.
example : Reached demo ∧ herm2.Square ∧ (∀ m ∈ herm2.data, m.id < demo.syms.length) ∧ (∀ m ∈ herm2.data, m.factor.im = 0) ∧
    (true = true → Mirrored herm2.dim (monoValue demo herm2)) := by
  refine ⟨demo_reached, rfl, ?_, ?_, fun _ => herm2_mirrored⟩
  · intro m hm
    simp only [herm2, List.mem_cons, List.not_mem_nil, or_false] at hm
    rcases hm with rfl | rfl | rfl | rfl <;> decide
  · intro m hm
    simp only [herm2, List.mem_cons, List.not_mem_nil, or_false] at hm
    rcases hm with rfl | rfl | rfl | rfl <;> simp

-- A matrix with a factor that is not real.
example : ∃ m ∈ (⟨1, [⟨2, false, Complex.I⟩]⟩ : Mat Mono).data, m.factor.im ≠ 0 := ⟨_, List.mem_cons_self, by simp⟩

/-! ## Polynomial matrices -/

/-- **C26.** Complex basis of a polynomial matrix, dense and sparse. -/
theorem C26_polynomial_complex (t : Symbols.Table) (ht : Reached t) (o : Order) (A : Mat (List Mono)) (hA : A.Square)
    (hk : ∀ p ∈ A.data, ∀ m ∈ p, m.id < t.syms.length) (hp : ∀ p ∈ A.data, Canonical (flags t) o p) :
    ∃ B, makePoly t A = some B ∧
      (∃ R I, densePoly t id B = some (R, I) ∧ R.length = t.basis.real.length ∧ I.length = t.basis.imag.length ∧
        (Rebuilds t A.dim (polyValue t A) (viewC R) (viewC I) ↔ (B.hermitian = true → Mirrored A.dim (polyValue t A)))) ∧
      (∃ R I, sparsePoly t id B = some (R, I) ∧ R.length = t.basis.real.length ∧ I.length = t.basis.imag.length ∧
        (Rebuilds t A.dim (polyValue t A) (viewSC R) (viewSC I) ↔ (B.hermitian = true → Mirrored A.dim (polyValue t A)))) := by
  obtain ⟨B, h1, h2⟩ := makePoly_spec ht.sound hk hp
  refine ⟨B, h1, ?_, ?_⟩
  · rw [h2.herm]
    exact densePoly_spec ht.sound hA hk h2 (cx := id) (up := id) rfl (fun _ _ => rfl) (fun _ _ m _ => ⟨rfl, rfl⟩)
  · rw [h2.herm]
    exact sparsePoly_spec ht.sound hA hk h2 (cx := id) (up := AddMonoidHom.id ℂ) (fun _ _ m _ => ⟨rfl, rfl⟩)

/-- **C26.** Real basis of a polynomial matrix: `bad_basis_error` exactly if there is a factor that is not real; else as before. -/
theorem C26_polynomial_real (t : Symbols.Table) (ht : Reached t) (o : Order) (A : Mat (List Mono)) (hA : A.Square)
    (hk : ∀ p ∈ A.data, ∀ m ∈ p, m.id < t.syms.length) (hp : ∀ p ∈ A.data, Canonical (flags t) o p) :
    ∃ B, makePoly t A = some B ∧
      ((∃ p ∈ A.data, ∃ m ∈ p, m.factor.im ≠ 0) → guarded B (densePoly t Complex.re B) = .badBasis ∧ guarded B (sparsePoly t Complex.re B) = .badBasis) ∧
      ((∀ p ∈ A.data, ∀ m ∈ p, m.factor.im = 0) →
        (∃ R I, guarded B (densePoly t Complex.re B) = .made (R, I) ∧ R.length = t.basis.real.length ∧ I.length = t.basis.imag.length ∧
          (Rebuilds t A.dim (polyValue t A) (viewR R) (viewC I) ↔ (B.hermitian = true → Mirrored A.dim (polyValue t A)))) ∧
        (∃ R I, guarded B (sparsePoly t Complex.re B) = .made (R, I) ∧ R.length = t.basis.real.length ∧ I.length = t.basis.imag.length ∧
          (Rebuilds t A.dim (polyValue t A) (viewSR R) (viewSC I) ↔ (B.hermitian = true → Mirrored A.dim (polyValue t A))))) := by
  obtain ⟨B, h1, h2⟩ := makePoly_spec ht.sound hk hp
  refine ⟨B, h1, fun h => ?_, fun h => ?_⟩
  · have := h2.coefs.mpr h
    exact ⟨if_pos this, if_pos this⟩
  · have hc : B.complexCoefs = false := by
      rw [Bool.eq_false_iff]
      intro hc
      obtain ⟨p, hp', m, hm, h'⟩ := h2.coefs.mp hc
      exact h' (h p hp' m hm)
    have hup : ∀ p ∈ A.data, ∀ m ∈ p, ((m.factor.re : ℝ) : ℂ) = m.factor ∧ ((((starRingEnd ℂ) m.factor).re : ℝ) : ℂ) = (starRingEnd ℂ) m.factor :=
      fun p hp' m hm => real_part (h p hp' m hm)
    obtain ⟨R, I, d1, d2, d3, d4⟩ := densePoly_spec ht.sound hA hk h2 (cx := Complex.re) (up := Complex.ofReal) Complex.ofReal_zero Complex.ofReal_add hup
    obtain ⟨R', I', s1, s2, s3, s4⟩ := sparsePoly_spec ht.sound hA hk h2 (cx := Complex.re) (up := Complex.ofRealHom.toAddMonoidHom) hup
    rw [h2.herm]
    refine ⟨⟨R, I, ?_, d2, d3, d4⟩, R', I', ?_, s2, s3, s4⟩
    · unfold guarded
      rw [hc, d1]
      rfl
    · unfold guarded
      rw [hc, s1]
      rfl

theorem any_some {α : Type} {x : Option α} {f : α → Bool} (h : x.any f = true) : ∃ u, x = some u ∧ f u = true := by
  cases x with
  | none => simp at h
  | some u => exact ⟨u, rfl, h⟩

/-- **C26, part.** A polynomial matrix of Hermitian and anti-Hermitian symbols is only flagged Hermitian if it is, so its basis rebuilds it. Missing:
other symbols, see `C26_refuted_polynomial`. -/
theorem C26_polynomial_partial (t : Symbols.Table) (ht : Reached t) (o : Order) (A : Mat (List Mono)) (hA : A.Square)
    (hk : ∀ p ∈ A.data, ∀ m ∈ p, m.id < t.syms.length) (hp : ∀ p ∈ A.data, Canonical (flags t) o p)
    (hall : ∀ p ∈ A.data, ∀ m ∈ p, (flags t).herm m.id = true ∨ (flags t).anti m.id = true) :
    ∃ B R I, makePoly t A = some B ∧ densePoly t id B = some (R, I) ∧ R.length = t.basis.real.length ∧ I.length = t.basis.imag.length ∧
      Rebuilds t A.dim (polyValue t A) (viewC R) (viewC I) := by
  obtain ⟨B, h1, ⟨R, I, h2, h3, h4, h5⟩, -⟩ := C26_polynomial_complex t ht o A hA hk hp
  refine ⟨B, R, I, h1, h2, h3, h4, h5.mpr fun hB => ?_⟩
  obtain ⟨B', h1', hm⟩ := makePoly_spec ht.sound hk hp
  obtain rfl : B' = B := Option.some.inj (h1'.symm.trans h1)
  rw [hm.herm] at hB
  have key : ∀ (a b : Nat → ℝ) (r c : Nat), r < c → c < A.dim → polyValue t A a b c r = (starRingEnd ℂ) (polyValue t A a b r c) := by
    intro a b r c hrc hc
    have hr := List.all_eq_true.mp hB r (List.mem_range.mpr (by omega))
    rw [Bool.and_eq_true] at hr
    have hcol := List.all_eq_true.mp hr.2 c (List.mem_range'_1.mpr ⟨by omega, by omega⟩)
    obtain ⟨u, hu, hcol⟩ := any_some hcol
    obtain ⟨l, hl, hcol⟩ := any_some hcol
    have hu' : u ∈ A.data := List.mem_of_getElem? hu
    have hl' : l ∈ A.data := List.mem_of_getElem? hl
    simp only [polyValue, hu, hl, Option.elim_some]
    exact C55.conjugate_sound (hp u hu') (hp l hl') (hall u hu') hcol (respects_point ht.sound a b)
  intro a b i j hi hj hne
  rcases Nat.lt_or_gt_of_ne hne with h | h
  · exact key a b i j h hj
  · rw [key a b j i h hi, Complex.conj_conj]

-- A matrix `[[1, 2 + i], [2 - i, 3]]`.
example : ∃ A : Mat (List Mono), A.Square ∧ A.dim = 2 ∧ (∀ p ∈ A.data, ∀ m ∈ p, m.id < demo.syms.length) ∧
    (∀ p ∈ A.data, Canonical (flags demo) byId p) ∧ ∀ p ∈ A.data, ∀ m ∈ p, (flags demo).herm m.id = true ∨ (flags demo).anti m.id = true := by
  refine ⟨⟨2, [[⟨1, false, 1⟩], [⟨1, false, 2 - Complex.I⟩], [⟨1, false, 2 + Complex.I⟩], [⟨1, false, 3⟩]]⟩, rfl, rfl, ?_, ?_, ?_⟩
  · intro p hp m hm
    simp only [List.mem_cons, List.not_mem_nil, or_false] at hp
    rcases hp with rfl | rfl | rfl | rfl <;> (rw [List.mem_singleton.mp hm]; decide)
  · intro p hp
    simp only [List.mem_cons, List.not_mem_nil, or_false] at hp
    rcases hp with rfl | rfl | rfl | rfl
    · exact ⟨by simp, by simp, by simp⟩
    · refine ⟨by simp, ?_, by simp⟩
      intro m hm
      rw [List.mem_singleton.mp hm]
      exact ⟨fun h => by simpa using congrArg Complex.im h, by simp⟩
    · refine ⟨by simp, ?_, by simp⟩
      intro m hm
      rw [List.mem_singleton.mp hm]
      exact ⟨fun h => by simpa using congrArg Complex.im h, by simp⟩
    · exact ⟨by simp, by simp, by simp⟩
  · intro p hp m hm
    simp only [List.mem_cons, List.not_mem_nil, or_false] at hp
    rcases hp with rfl | rfl | rfl | rfl <;> (rw [List.mem_singleton.mp hm]; exact Or.inl rfl)

/-! ## Refutations -/

noncomputable def skew : Mat Mono := ⟨2, [⟨0, false, 0⟩, ⟨1, false, Complex.I⟩, ⟨1, false, Complex.I⟩, ⟨0, false, 0⟩]⟩

noncomputable def symmetric : Mat (List Mono) := ⟨2, [[], [⟨2, false, 1⟩], [⟨2, false, 1⟩], []]⟩

/-- Refutation: the matrix `[[0, i], [i, 0]]` with the flag `is_hermitian` is accepted, but its basis is that of another matrix. The flag is given by
the user for imported matrices, and taken from the operator matrix when that is multiplied by a complex number. -/
theorem C26_refuted_monomial : ∃ (t : Symbols.Table) (A : Mat Mono) (B : SymMat Mono) (R I : Dense ℂ), Reached t ∧ A.Square ∧
    (∀ m ∈ A.data, m.id < t.syms.length) ∧ makeMono t true A = some B ∧ denseMono t id B = some (R, I) ∧
    ¬ Rebuilds t A.dim (monoValue t A) (viewC R) (viewC I) := by
  have hk : ∀ m ∈ skew.data, m.id < demo.syms.length := by
    intro m hm
    simp only [skew, List.mem_cons, List.not_mem_nil, or_false] at hm
    rcases hm with rfl | rfl | rfl | rfl <;> decide
  obtain ⟨B, h1, ⟨R, I, h2, -, -, h3⟩, -⟩ := C26_monomial_complex demo demo_reached true skew rfl hk
  refine ⟨demo, skew, B, R, I, demo_reached, rfl, hk, h1, h2, fun h => ?_⟩
  have := h3.mp h rfl (fun _ => 1) (fun _ => 1) 0 1 (by decide) (by decide) (by decide)
  have hone : point demo (fun _ => 1) (fun _ => 1) 1 = 1 := by simp [point, demo_syms.2.1, Sym.one, Sym.ofSeq, Sym.at, Complex.ext_iff]
  have := congrArg Complex.im this
  simp [monoValue, skew, Mat.get?, Poly.Mono.value, hone] at this
  norm_num at this

/-- Refutation: the polynomial matrix `[[0, X], [X, 0]]` is taken for Hermitian when `X` is neither Hermitian nor anti-Hermitian, and its basis is that
of another matrix. -/
theorem C26_refuted_polynomial : ∃ (t : Symbols.Table) (A : Mat (List Mono)) (B : SymMat (List Mono)) (R I : Dense ℂ), Reached t ∧ A.Square ∧
    (∀ p ∈ A.data, ∀ m ∈ p, m.id < t.syms.length) ∧ (∀ p ∈ A.data, Canonical (flags t) byId p) ∧ makePoly t A = some B ∧
    densePoly t id B = some (R, I) ∧ ¬ Rebuilds t A.dim (polyValue t A) (viewC R) (viewC I) := by
  have hk : ∀ p ∈ symmetric.data, ∀ m ∈ p, m.id < demo.syms.length := by
    intro p hp m hm
    simp only [symmetric, List.mem_cons, List.not_mem_nil, or_false] at hp
    rcases hp with rfl | rfl | rfl | rfl
    · cases hm
    · rw [List.mem_singleton.mp hm]; decide
    · rw [List.mem_singleton.mp hm]; decide
    · cases hm
  have hc : ∀ p ∈ symmetric.data, Canonical (flags demo) byId p := by
    intro p hp
    simp only [symmetric, List.mem_cons, List.not_mem_nil, or_false] at hp
    rcases hp with rfl | rfl | rfl | rfl <;> exact ⟨by simp, by simp, by simp⟩
  obtain ⟨B, h1, ⟨R, I, h2, -, -, h3⟩, -⟩ := C26_polynomial_complex demo demo_reached byId symmetric rfl hk hc
  refine ⟨demo, symmetric, B, R, I, demo_reached, rfl, hk, hc, h1, h2, fun h => ?_⟩
  obtain ⟨B', h1', hm⟩ := makePoly_spec demo_reached.sound hk hc
  obtain rfl : B' = B := Option.some.inj (h1'.symm.trans h1)
  have hf : B'.hermitian = true := by
    rw [hm.herm]
    have e1 : (polyTable demo).herm 2 = false := rfl
    have e2 : (polyTable demo).anti 2 = false := rfl
    simp [testHermicity, symmetric, Mat.get?, Poly.isHermitian, Poly.hermLoop, Poly.isConjugate, e1, e2, List.range_succ]
  have := h3.mp h hf (fun _ => 1) (fun _ => 1) 0 1 (by decide) (by decide) (by decide)
  have hx : point demo (fun _ => 1) (fun _ => 1) 2 = ⟨1, 1⟩ := by simp [point, demo_syms.2.2, Sym.at]
  have := congrArg Complex.im this
  simp [polyValue, symmetric, Mat.get?, Poly.Mono.value, hx] at this
  norm_num at this

/-! ## Monolithic matrices -/

/-- **C26.** Row `k` of the dense monolithic matrix is matrix `k`, column by column. -/
theorem C26_dense_monolithic (n : Nat) (st : Dense ℂ) (k i j : Nat) (hi : i < n) : denseMonolithic n st k (j * n + i) = viewC st k i j := by
  have h1 : (j * n + i) % n = i := by rw [Nat.add_comm, Nat.add_mul_mod_self_right, Nat.mod_eq_of_lt hi]
  have h2 : (j * n + i) / n = j := by
    rw [Nat.add_comm, Nat.add_mul_div_right _ _ (by omega), Nat.div_eq_of_lt hi, Nat.zero_add]
  unfold denseMonolithic viewC
  rw [h1, h2]
  cases st[k]? <;> rfl

example : denseMonolithic 2 [fun i j => ((10 * i + j : Nat) : ℂ)] 0 (1 * 2 + 0) = ((1 : Nat) : ℂ) := by simp [denseMonolithic]

theorem tsum_append {K : Type} (up : K → ℂ) (S T : List (Nat × Nat × K)) (i j : Nat) : tsum up (S ++ T) i j = tsum up S i j + tsum up T i j := by
  simp [MatrixBasis.tsum]

theorem flat_row {K : Type} (up : K → ℂ) (n s r i j : Nat) (hi : i < n) (T : List (Nat × Nat × K)) (h : ∀ e ∈ T, e.1 < n) :
    tsum up (T.map fun e => (s, e.2.1 * n + e.1, e.2.2)) r (j * n + i) = if s = r then tsum up T i j else 0 := by
  induction T with
  | nil => simp [MatrixBasis.tsum]
  | cons e T ih =>
    have ih := ih fun x hx => h x (List.mem_cons_of_mem _ hx)
    have he := h e List.mem_cons_self
    unfold MatrixBasis.tsum at ih ⊢
    simp only [List.map_cons, List.sum_cons, ih]
    have hiff : e.2.1 * n + e.1 = j * n + i ↔ e.1 = i ∧ e.2.1 = j := by
      constructor
      · intro q
        have h1 : e.1 = i := by
          have := congrArg (· % n) q
          simpa [Nat.add_comm _ e.1, Nat.add_comm _ i, Nat.mod_eq_of_lt he, Nat.mod_eq_of_lt hi] using this
        refine ⟨h1, ?_⟩
        have : e.2.1 * n = j * n := by omega
        exact Nat.eq_of_mul_eq_mul_right (by omega) this
      · rintro ⟨rfl, rfl⟩; rfl
    by_cases hs : s = r
    · simp [hs, hiff]
    · simp [hs]

theorem flat_tsum {K : Type} (up : K → ℂ) (n r i j : Nat) (hi : i < n) : ∀ (st : List (List (Nat × Nat × K))) (s : Nat),
    (∀ T ∈ st, ∀ e ∈ T, e.1 < n) →
    tsum up ((st.zipIdx s).map fun q => q.1.map fun e => (q.2, e.2.1 * n + e.1, e.2.2)).flatten r (j * n + i) = if s ≤ r then viewT up st (r - s) i j else 0
  | [], s, _ => by simp [MatrixBasis.tsum, viewT]
  | T :: st, s, h => by
    have ih := flat_tsum up n r i j hi st (s + 1) fun T hT => h T (List.mem_cons_of_mem _ hT)
    rw [List.zipIdx_cons, List.map_cons, List.flatten_cons, tsum_append, ih]
    rw [flat_row up n s r i j hi T (h T List.mem_cons_self)]
    by_cases hs : s = r
    · subst hs
      simp [viewT]
    · by_cases hl : s ≤ r
      · obtain ⟨d, rfl⟩ : ∃ d, r = s + (d + 1) := ⟨r - s - 1, by omega⟩
        have e1 : s + (d + 1) - (s + 1) = d := by omega
        have e2 : s + (d + 1) - s = d + 1 := by omega
        have e3 : s + 1 ≤ s + (d + 1) := by omega
        simp [e1, e2, e3, viewT]
      · rw [if_neg hs, if_neg (by omega), if_neg hl, zero_add]

/-- What `setFromTriplets` stores is in range. -/
theorem fromTriplets_range {K : Type} [AddCommMonoid K] (n m : Nat) (T : List (Nat × Nat × K)) : ∀ e ∈ fromTriplets n m T, e.1 < n ∧ e.2.1 < m := by
  intro e he
  unfold fromTriplets at he
  rw [List.mem_flatMap] at he
  obtain ⟨c, hc, he⟩ := he
  rw [List.mem_map] at he
  obtain ⟨r, hr, rfl⟩ := he
  exact ⟨List.mem_range.mp (List.mem_of_mem_filter hr), List.mem_range.mp hc⟩

/-- The rows of the matrices that `sparse` makes are in range. -/
theorem sparse_range {K : Type} [AddCommMonoid K] {t : Symbols.Table} {cx : ℂ → K} {n : Nat} {sym complex : Bool} {es : List ((Nat × Nat) × List Mono)}
    {R : List (List (Nat × Nat × K))} {I : List (List (Nat × Nat × ℂ))} (h : sparse t cx n sym complex es = some (R, I)) :
    (∀ T ∈ R, ∀ e ∈ T, e.1 < n) ∧ ∀ T ∈ I, ∀ e ∈ T, e.1 < n := by
  unfold sparse at h
  simp only [Option.bind_eq_some_iff, Option.map_eq_some_iff, Prod.mk.injEq] at h
  obtain ⟨_, -, _, -, _, -, _, -, rfl, rfl⟩ := h
  constructor <;>
  · intro T hT e he
    obtain ⟨T', -, rfl⟩ := List.mem_map.mp hT
    exact (fromTriplets_range _ _ _ e he).1

/-- **C26.** Row `k` of the sparse monolithic matrix is matrix `k`, column by column. -/
theorem C26_sparse_monolithic (t : Symbols.Table) (n : Nat) (sym complex : Bool) (es : List ((Nat × Nat) × List Mono))
    (R I : List (List (Nat × Nat × ℂ))) (h : sparse t id n sym complex es = some (R, I)) (k i j : Nat) (hi : i < n) (hj : j < n) :
    (k < R.length → entryC (sparseMonolithic n R) k (j * n + i) = viewSC R k i j) ∧
    (k < I.length → entryC (sparseMonolithic n I) k (j * n + i) = viewSC I k i j) := by
  obtain ⟨h1, h2⟩ := sparse_range h
  have hc : j * n + i < n * n := by
    have : (j + 1) * n ≤ n * n := Nat.mul_le_mul_right _ hj
    rw [Nat.add_mul, Nat.one_mul] at this
    omega
  have key : ∀ st : List (List (Nat × Nat × ℂ)), (∀ T ∈ st, ∀ e ∈ T, e.1 < n) → k < st.length →
      entryC (sparseMonolithic n st) k (j * n + i) = viewSC st k i j := by
    intro st hst hk
    have e1 := tsum_fromTriplets (flatTriplets n st) (AddMonoidHom.id ℂ) st.length (n * n) k (j * n + i) hk hc
    have e2 := flat_tsum (AddMonoidHom.id ℂ) n k i j hi st 0 hst
    rw [if_pos (Nat.zero_le _), Nat.sub_zero] at e2
    exact e1.trans e2
  exact ⟨key R h1, key I h2⟩

/-- **C26.** The same with real coefficients. -/
theorem C26_sparse_monolithic_real (t : Symbols.Table) (n : Nat) (sym complex : Bool) (es : List ((Nat × Nat) × List Mono))
    (R : List (List (Nat × Nat × ℝ))) (I : List (List (Nat × Nat × ℂ))) (h : sparse t Complex.re n sym complex es = some (R, I)) (k i j : Nat)
    (hi : i < n) (hj : j < n) (hk : k < R.length) : entryR (sparseMonolithic n R) k (j * n + i) = viewSR R k i j := by
  obtain ⟨h1, -⟩ := sparse_range h
  have hc : j * n + i < n * n := by
    have : (j + 1) * n ≤ n * n := Nat.mul_le_mul_right _ hj
    rw [Nat.add_mul, Nat.one_mul] at this
    omega
  have e1 := tsum_fromTriplets (flatTriplets n R) Complex.ofRealHom.toAddMonoidHom R.length (n * n) k (j * n + i) hk hc
  have e2 := flat_tsum Complex.ofRealHom.toAddMonoidHom n k i j hi R 0 h1
  rw [if_pos (Nat.zero_le _), Nat.sub_zero] at e2
  exact e1.trans e2

-- All sparse bases are made by `sparse`: this one has one matrix for each of `a 0` and `a 1`.
example : ∃ R I, sparse demo id 2 false true [((0, 1), [⟨2, true, 1⟩])] = some (R, I) ∧ R.length = 2 ∧ I.length = 1 := by
  refine ⟨_, _, rfl, rfl, rfl⟩

end Moment.C26

/-! # C69: the cache of a basis -/

namespace Moment.C69

open Moment.Symbols Moment.MatrixBasis
open Moment.Poly (Mono)

/-- The answers to a series of calls; each element says what would be made at that time. -/
def calls {β : Type} : Option β → List (Made β) → List (Made β)
  | _, [] => []
  | st, r :: l => (cached st r).1 :: calls (cached st r).2 l

/-- What one should get: nothing is kept of a call that throws; the first basis that is made is kept. -/
theorem C69_calls {β : Type} (l : List (Made β)) (x : β) (later : List (Made β)) (hl : ∀ r ∈ l, ∀ y, r ≠ .made y) :
    calls none (l ++ .made x :: later) = l ++ .made x :: List.replicate later.length (.made x) := by
  have hs : ∀ m : List (Made β), calls (some x) m = List.replicate m.length (.made x) := by
    intro m
    induction m with
    | nil => rfl
    | cons r m ih => rw [List.length_cons, List.replicate_succ, ← ih]; rfl
  induction l with
  | nil =>
    rw [List.nil_append, List.nil_append, ← hs]
    rfl
  | cons r l ih =>
    have ih := ih fun q hq => hl q (List.mem_cons_of_mem _ hq)
    have hr := hl r List.mem_cons_self
    rw [List.cons_append, List.cons_append, ← ih]
    cases r with
    | badBasis => rfl
    | undefined => rfl
    | made y => exact absurd rfl (hr y)

example : ∀ r ∈ [Made.badBasis, (Made.badBasis : Made Nat)], ∀ y, r ≠ .made y := by simp

/-- **C69, part.** As long as what would be made does not change, each call gets it. Missing: changes of the symbol table, see `C69_refuted_stale`. -/
theorem C69_unchanged_partial {β : Type} (r : Made β) (n : Nat) : calls none (List.replicate n r) = List.replicate n r := by
  cases r with
  | made x =>
    cases n with
    | zero => rfl
    | succ n =>
      have := C69_calls [] x (List.replicate n (.made x)) (by simp)
      rwa [List.nil_append, List.nil_append, List.length_replicate] at this
  | badBasis =>
    induction n with
    | zero => rfl
    | succ n ih => rw [List.replicate_succ]; exact congrArg (_ :: ·) ih
  | undefined =>
    induction n with
    | zero => rfl
    | succ n ih => rw [List.replicate_succ]; exact congrArg (_ :: ·) ih

/-- Two symbols with both parts. -/
def before : Symbols.Table := Table.new.createMany true true 2

/-- A later import says that symbol 2 is real. -/
def after : Symbols.Table := (before.mergeBits 4 (fun _ => true) (fun k => k != 2)).elim before fun
  | .done t _ => t
  | .thrown t _ => t

theorem before_reached : Reached before :=
  ⟨⟨id, fun _ => (false, false), false, id, fun _ => false⟩, [.createMany 2 true true], fun _ => rfl, by simp [Op.Parts], rfl⟩

theorem after_reached : Reached after :=
  ⟨⟨id, fun _ => (false, false), false, id, fun _ => false⟩, [.createMany 2 true true, .bits 4 (fun _ => true) (fun k => k != 2)], fun _ => rfl,
    by simp [Op.Parts], rfl⟩

/-- The matrix with entry `Y`, the second symbol. -/
noncomputable def single : Mat Mono := ⟨1, [⟨3, false, 1⟩]⟩

/-- Refutation: the basis of a matrix was asked for; then an import made another symbol real, so that the elements of the basis were numbered anew;
asked again, the matrix still gives its old basis, which is not that of the matrix. -/
theorem C69_refuted_stale : ∃ (t t' : Symbols.Table) (size : Nat) (re im : Nat → Bool) (A : Mat Mono) (B B' : SymMat Mono) (x y : Dense ℂ × Dense ℂ),
    Reached t ∧ Reached t' ∧ t.mergeBits size re im = some (.done t' true) ∧ A.Square ∧ (∀ m ∈ A.data, m.id < t.syms.length) ∧
    makeMono t false A = some B ∧ makeMono t' false A = some B' ∧ denseMono t id B = some x ∧ denseMono t' id B' = some y ∧
    Rebuilds t' A.dim (monoValue t' A) (viewC y.1) (viewC y.2) ∧
    calls none [.of (denseMono t id B), .of (denseMono t' id B')] = [.made x, .made x] ∧
    ¬ Rebuilds t' A.dim (monoValue t' A) (viewC x.1) (viewC x.2) := by
  have hk : ∀ m ∈ single.data, m.id < before.syms.length := by
    intro m hm
    rw [List.mem_singleton.mp hm]
    decide
  have hk' : ∀ m ∈ single.data, m.id < after.syms.length := by
    intro m hm
    rw [List.mem_singleton.mp hm]
    decide
  obtain ⟨B, h1, ⟨R, I, h2, -, -, h3⟩, -⟩ := C26.C26_monomial_complex before before_reached false single rfl hk
  obtain ⟨B', h1', ⟨R', I', h2', -, -, h3'⟩, -⟩ := C26.C26_monomial_complex after after_reached false single rfl hk'
  have h3 := h3.mpr (by simp)
  have h3' := h3'.mpr (by simp)
  refine ⟨before, after, 4, fun _ => true, fun k => k != 2, single, B, B', (R, I), (R', I'), before_reached, after_reached, rfl, rfl, hk, h1, h1',
    h2, h2', h3', ?_, fun h => ?_⟩
  · rw [h2]
    rfl
  · have a1 := h3 (fun _ => 0) (fun k => if k = 0 then 1 else 0) 0 0 (by decide) (by decide)
    have a2 := h (fun _ => 0) (fun k => if k = 0 then 1 else 0) 0 0 (by decide) (by decide)
    have l1 : before.basis.imag.length = 2 := rfl
    have l2 : after.basis.imag.length = 1 := rfl
    have s1 : before.syms[3]? = some { id := 3, seq := none, conj := none, herm := false, anti := false, re := some 2, im := some 1 } := rfl
    have s2 : after.syms[3]? = some { id := 3, seq := none, conj := none, herm := false, anti := false, re := some 2, im := some 0 } := rfl
    rw [l1] at a1
    rw [l2] at a2
    simp [Finset.sum_range_succ, monoValue, single, Mat.get?, Poly.Mono.value, point, s1, Sym.at] at a1
    simp [monoValue, single, Mat.get?, Poly.Mono.value, point, s2, Sym.at, a1, Complex.ext_iff] at a2

end Moment.C69
