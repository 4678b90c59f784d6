import Verif.Proof.Pauli
import Verif.Props.C02_Hash
import Verif.Props.C01_Sign
import Mathlib.LinearAlgebra.Matrix.Notation

/-! # C06 - C09: Pauli words -/

namespace Moment.C06

open Pauli

/-- Check of the specification: the action on basis states of a single qubit is the usual Pauli matrix. Row `false` is the
first row. -/
theorem spec_is_pauli_matrix (p : Fin 3) (b b' : Bool) :
    (if (act1 p.val (fun _ => b)).2 0 = b' then C01.value (act1 p.val (fun _ => b)).1 else 0) =
      (match p with
       | 0 => (!![0, 1; 1, 0] : Matrix (Fin 2) (Fin 2) ℂ)
       | 1 => !![0, -Complex.I; Complex.I, 0]
       | 2 => !![1, 0; 0, -1]) (if b' then 1 else 0) (if b then 1 else 0) := by
  fin_cases p <;> cases b <;> cases b' <;> simp [act1, Pauli.flip, C01.value]

/-- C06: simplification keeps the operator, uses only qubits of the word and never lengthens it. -/
theorem C06_simplify_preserves_operator (w : List Nat) (g : Sign) :
    SameOperator (simplify w g).2 (simplify w g).1 g w ∧
    (∀ x ∈ (simplify w g).1, ∃ o ∈ w, o / 3 = x / 3) ∧ (simplify w g).1.length ≤ w.length :=
  ⟨simplify_act w g, (simplify_normal w g).2⟩

/-- Operators of an `n`-qubit context simplify to operators of that context. -/
theorem C06_simplify_in_range (n : Nat) (w : List Nat) (g : Sign) (hw : ∀ o ∈ w, o < n * 3) :
    ∀ o ∈ (simplify w g).1, o < n * 3 := by
  intro x hx
  obtain ⟨o, ho, h⟩ := (simplify_normal w g).2.1 x hx
  have := hw o ho
  omega

/-- C07: the result lists each qubit at most once in increasing order, and two words simplify to the same phase and word exactly
when they are the same operator. -/
theorem C07_simplify_canonical (v w : List Nat) (g h : Sign) :
    Normal (simplify v g).1 ∧ (simplify v g = simplify w h ↔ SameOperator g v h w) := by
  refine ⟨(simplify_normal v g).1, ?_, ?_⟩
  · intro e b
    rw [← simplify_act v g b, ← simplify_act w h b, e]
  · intro e
    have := normal_unique _ _ (simplify v g).2 (simplify w h).2 (simplify_normal v g).1 (simplify_normal w h).1
      (fun b => by rw [simplify_act v g b, simplify_act w h b, e b])
    exact Prod.ext this.2 this.1

/-- C07: simplified words are left alone. -/
theorem C07_simplify_idempotent (w : List Nat) (g : Sign) : simplify (simplify w g).1 (simplify w g).2 = simplify w g :=
  (C07_simplify_canonical _ _ _ _).2.mpr (simplify_act w g)

theorem C07_normal_fixed (w : List Nat) (g : Sign) (hw : Normal w) : simplify w g = (w, g) := by
  have := normal_unique _ _ _ _ (simplify_normal w g).1 hw (simplify_act w g)
  exact Prod.ext this.2 this.1

/-- Z Y X on qubit 1 with qubit 0 in between is `-i` times the word with qubit 0 only. -/
example : simplify [5, 4, 0, 3] .pos = ([0], .negImag) := by decide +kernel
example : Normal [0, 4, 8] := by unfold Normal; decide

/-- A non-zero simplified word of the `n`-qubit context, with its hash. -/
def IsWord (n : Nat) (s : HSeq) : Prop :=
  Normal s.ops ∧ (∀ o ∈ s.ops, o < n * 3) ∧ s.hash = hashWord (UInt64.ofNat (n * 3)) s.ops ∧ s.hash ≠ 0

/-- C08: the merge product of simplified words is the simplification of the concatenated words, with the matching hash. -/
theorem C08_multiply_eq_simplify (n : Nat) (a b : HSeq) (ha : IsWord n a) (hb : IsWord n b) :
    ((multiply n a b).ops, (multiply n a b).sign) = simplify (a.ops ++ b.ops) (a.sign * b.sign) ∧
    (multiply n a b).hash = hashWord (UInt64.ofNat (n * 3)) (multiply n a b).ops := by
  obtain ⟨a1, a2, a3, a4⟩ := ha
  obtain ⟨b1, b2, b3, b4⟩ := hb
  have za : a.isZero = false := by simpa [HSeq.isZero] using a4
  have zb : b.isZero = false := by simpa [HSeq.isZero] using b4
  unfold multiply
  simp only [za, zb, Bool.false_eq_true, if_false]
  cases hbo : b.ops with
  | nil =>
    simp only [List.isEmpty_nil, if_true, List.append_nil]
    exact ⟨(C07_normal_fixed a.ops (a.sign * b.sign) a1).symm, a3⟩
  | cons r rs =>
    simp only [List.isEmpty_cons, Bool.false_eq_true, if_false]
    cases hao : a.ops with
    | nil =>
      simp only [List.isEmpty_nil, if_true, List.nil_append]
      rw [← hbo]
      exact ⟨(C07_normal_fixed b.ops (a.sign * b.sign) b1).symm, b3⟩
    | cons l ls =>
      simp only [List.isEmpty_cons, Bool.false_eq_true, if_false]
      rw [← hao, ← hbo]
      refine ⟨?_, rfl⟩
      have h1 := mergeLoop_act a.ops b.ops (a.sign * b.sign) a1 b1
      have h2 := (mergeLoop_normal a.ops b.ops (a.sign * b.sign) a1 b1).1
      have := normal_unique _ _ _ _ h2 (simplify_normal (a.ops ++ b.ops) (a.sign * b.sign)).1
        (fun c => by rw [h1 c, simplify_act _ _ c])
      exact Prod.ext this.2 this.1

/-- C08: as operators, the product is the composition. -/
theorem C08_multiply_operator (n : Nat) (a b : HSeq) (ha : IsWord n a) (hb : IsWord n b) :
    SameOperator (multiply n a b).sign (multiply n a b).ops (a.sign * b.sign) (a.ops ++ b.ops) := by
  have := (C08_multiply_eq_simplify n a b ha hb).1
  have h1 := congrArg Prod.fst this
  have h2 := congrArg Prod.snd this
  simp only at h1 h2
  rw [h1, h2]
  exact simplify_act _ _

/-- C08: up to the number of qubits for which full-length words are hashed without overflow, products of words are words. -/
theorem C08_multiply_closed (n : Nat) (hn : n * 3 < 2 ^ 64) (hL : (∑ k ∈ Finset.range (n + 1), (n * 3) ^ k) < 2 ^ 64)
    (a b : HSeq) (ha : IsWord n a) (hb : IsWord n b) : IsWord n (multiply n a b) := by
  have e := C08_multiply_eq_simplify n a b ha hb
  have h1 := congrArg Prod.fst e.1
  simp only at h1
  have hN : Normal (multiply n a b).ops := by rw [h1]; exact (simplify_normal _ _).1
  have hR : ∀ o ∈ (multiply n a b).ops, o < n * 3 := by
    rw [h1]
    apply C06_simplify_in_range
    intro o ho
    rcases List.mem_append.mp ho with h | h
    · exact ha.2.1 o h
    · exact hb.2.1 o h
  refine ⟨hN, hR, e.2, ?_⟩
  rw [e.2]
  have hl := normal_length n _ hN hR
  exact (C02.C02_hash_shortlex_partial (n * 3) n hn hL _ _ hR hR hl hl).2.2.1

/-- C08: the product is associative. -/
theorem C08_multiply_assoc (n : Nat) (hn : n * 3 < 2 ^ 64) (hL : (∑ k ∈ Finset.range (n + 1), (n * 3) ^ k) < 2 ^ 64)
    (a b c : HSeq) (ha : IsWord n a) (hb : IsWord n b) (hc : IsWord n c) :
    multiply n (multiply n a b) c = multiply n a (multiply n b c) := by
  have hab := C08_multiply_closed n hn hL a b ha hb
  have hbc := C08_multiply_closed n hn hL b c hb hc
  have e1 := C08_multiply_eq_simplify n _ c hab hc
  have e2 := C08_multiply_eq_simplify n a _ ha hbc
  have s1 := C08_multiply_operator n a b ha hb
  have s2 := C08_multiply_operator n b c hb hc
  have key : simplify ((multiply n a b).ops ++ c.ops) ((multiply n a b).sign * c.sign) =
      simplify (a.ops ++ (multiply n b c).ops) (a.sign * (multiply n b c).sign) := by
    rw [(C07_simplify_canonical _ _ _ _).2]
    intro x
    have t1 := s1 (act c.ops x).2
    have t2 := s2 x
    simp only [actS, Prod.mk.injEq, Sign.mul_eq, act_append] at t1 t2 ⊢
    constructor
    · rw [t1.2, t2.2] at *
      have : (multiply n a b).sign * c.sign * ((act (multiply n a b).ops (act c.ops x).2).1 * (act c.ops x).1) =
          ((multiply n a b).sign * (act (multiply n a b).ops (act c.ops x).2).1) * (c.sign * (act c.ops x).1) := by
        rw [mul_mul_mul_comm]
      rw [this, t1.1]
      have : a.sign * (multiply n b c).sign * ((act a.ops (act b.ops (act c.ops x).2).2).1 * (act (multiply n b c).ops x).1) =
          (a.sign * (act a.ops (act b.ops (act c.ops x).2).2).1) * ((multiply n b c).sign * (act (multiply n b c).ops x).1) := by
        rw [mul_mul_mul_comm]
      rw [this, t2.1]
      ac_rfl
    · rw [t1.2, t2.2]
  have k1 := e1.1.trans (key.trans e2.1.symm)
  rw [Prod.mk.injEq] at k1
  have hh : (multiply n (multiply n a b) c).hash = (multiply n a (multiply n b c)).hash := by rw [e1.2, e2.2, k1.1]
  calc multiply n (multiply n a b) c
      = ⟨(multiply n (multiply n a b) c).hash, (multiply n (multiply n a b) c).ops, (multiply n (multiply n a b) c).sign⟩ := rfl
    _ = ⟨(multiply n a (multiply n b c)).hash, (multiply n a (multiply n b c)).ops, (multiply n a (multiply n b c)).sign⟩ := by
        rw [hh, k1.1, k1.2]
    _ = multiply n a (multiply n b c) := rfl

/-- C08: the empty word is a unit. -/
theorem C08_multiply_unit (n : Nat) (a : HSeq) (ha : IsWord n a) :
    multiply n a (HSeq.identity .pos) = a ∧ multiply n (HSeq.identity .pos) a = a := by
  obtain ⟨a1, a2, a3, a4⟩ := ha
  have za : a.isZero = false := by simpa [HSeq.isZero] using a4
  have zi : (HSeq.identity .pos).isZero = false := rfl
  rcases a with ⟨h, ops, sg⟩
  constructor
  · simp [multiply, HSeq.identity, HSeq.isZero]
  · cases ops with
    | nil =>
      simp only [multiply, HSeq.identity, za, List.isEmpty_nil, if_true, Bool.false_eq_true, if_false]
      simp at a3
      simp [a3, hashWord, hashLoop]
    | cons o os => simp [multiply, HSeq.identity, HSeq.isZero]

/-- C08: zero is absorbing on the right, and on the left against words that have operators or the plain identity. -/
theorem C08_zero_absorbing_partial (n : Nat) (a : HSeq) (ha : IsWord n a) :
    multiply n a HSeq.zero = HSeq.zero ∧
    (a.ops ≠ [] ∨ a.sign = .pos → multiply n HSeq.zero a = HSeq.zero) ∧
    (multiply n HSeq.zero a).hash = 0 ∧ (multiply n HSeq.zero a).ops = [] := by
  obtain ⟨a1, a2, a3, a4⟩ := ha
  have za : a.isZero = false := by simpa [HSeq.isZero] using a4
  have zz : HSeq.zero.isZero = true := rfl
  refine ⟨by simp [multiply, HSeq.zero, HSeq.isZero], ?_, ?_⟩
  · rintro (h | h)
    · have : a.ops.isEmpty = false := by simpa using h
      simp [multiply, this, HSeq.zero, HSeq.isZero]
    · simp only [multiply, za, h]
      simp [HSeq.zero, HSeq.isZero]
  · simp only [multiply, za]
    cases h : a.ops.isEmpty <;> simp [HSeq.zero, HSeq.isZero]

/-- C08 refuted for zero: zero times minus the identity is a zero word carrying a minus sign, which the library's
equality test tells apart from zero. -/
theorem C08_refuted_single_zero (n : Nat) : IsWord n (HSeq.identity .neg) ∧
    (multiply n HSeq.zero (HSeq.identity .neg)).isZero = true ∧
    multiply n HSeq.zero (HSeq.identity .neg) ≠ HSeq.zero ∧
    HSeq.beq (multiply n HSeq.zero (HSeq.identity .neg)) HSeq.zero = false := by
  refine ⟨⟨List.Pairwise.nil, by simp [HSeq.identity], rfl, by simp [HSeq.identity]⟩, rfl, ?_, rfl⟩
  intro h
  exact absurd (congrArg HSeq.sign h) (by simp [multiply, HSeq.identity, HSeq.isZero, HSeq.zero, Sign.mul, Sign.code, Sign.ofCode])

/-- C09: the commutator routine gives zero exactly when the operators commute, else the product. -/
theorem C09_commutator (n : Nat) (a b : HSeq) (ha : IsWord n a) (hb : IsWord n b) :
    (SameOperator 1 (a.ops ++ b.ops) 1 (b.ops ++ a.ops) → commutator n a b = HSeq.zero) ∧
    (¬ SameOperator 1 (a.ops ++ b.ops) 1 (b.ops ++ a.ops) → commutator n a b = multiply n a b) ∧
    (SameOperator 1 (a.ops ++ b.ops) .neg (b.ops ++ a.ops) → anticommutator n a b = HSeq.zero) ∧
    (¬ SameOperator 1 (a.ops ++ b.ops) .neg (b.ops ++ a.ops) → anticommutator n a b = multiply n a b) := by
  have hop := C08_multiply_operator n a b ha hb
  have hno : Normal (multiply n a b).ops := by
    have := congrArg Prod.fst (C08_multiply_eq_simplify n a b ha hb).1
    simp only at this
    rw [this]; exact (simplify_normal _ _).1
  -- relative phase
  obtain ⟨k, hk⟩ : ∃ k : Sign, k = (a.sign * b.sign)⁻¹ * (multiply n a b).sign := ⟨_, rfl⟩
  have hs : (multiply n a b).sign = (a.sign * b.sign) * k := by rw [hk, mul_inv_cancel_left]
  have h1 : SameOperator 1 (a.ops ++ b.ops) k (multiply n a b).ops := by
    intro x
    have := hop x
    simp only [actS, Prod.mk.injEq, Sign.mul_eq, hs] at this ⊢
    refine ⟨?_, this.2.symm⟩
    rw [mul_assoc] at this
    rw [one_mul]
    exact (mul_left_cancel this.1).symm
  have hex := exchange a.ops b.ops _ k ha.1 hb.1 hno h1
  have hkk : k * k = if k.isImaginary then Sign.neg else Sign.pos := by cases k <;> rfl
  have himag : ((a.sign * b.sign).isImaginary == (multiply n a b).sign.isImaginary) = !k.isImaginary := by
    rw [hs]
    generalize a.sign * b.sign = g
    cases g <;> cases k <;> rfl
  have himag' : ((a.sign * b.sign).isImaginary != (multiply n a b).sign.isImaginary) = k.isImaginary := by
    rw [bne, himag]; simp
  have hcomm : SameOperator 1 (a.ops ++ b.ops) 1 (b.ops ++ a.ops) ↔ k.isImaginary = false := by
    constructor
    · intro h
      have h0 := congrArg Prod.fst (h (fun _ => false))
      have h2 := congrArg Prod.fst (hex (fun _ => false))
      simp only [actS, Sign.mul_eq, one_mul] at h0 h2
      rw [h0] at h2
      have h3 : k * k = 1 := by
        have := mul_right_cancel ((one_mul _).trans h2)
        exact this.symm
      rw [hkk] at h3
      cases hki : k.isImaginary
      · rfl
      · rw [hki] at h3; exact absurd h3 (by decide)
    · intro h x
      have := hex x
      rw [hkk, h] at this
      simpa [actS] using this
  have hanti : SameOperator 1 (a.ops ++ b.ops) .neg (b.ops ++ a.ops) ↔ k.isImaginary = true := by
    constructor
    · intro h
      have h0 := congrArg Prod.fst (h (fun _ => false))
      have h2 := congrArg Prod.fst (hex (fun _ => false))
      simp only [actS, Sign.mul_eq, one_mul] at h0 h2
      rw [h0] at h2
      have h3 : Sign.neg = k * k := mul_right_cancel h2
      rw [hkk] at h3
      cases hki : k.isImaginary
      · rw [hki] at h3; exact absurd h3 (by decide)
      · rfl
    · intro h x
      have := hex x
      rw [hkk, h] at this
      simpa [actS] using this
  unfold commutator anticommutator
  simp only [Sign.mul_eq, himag, himag', hcomm, hanti]
  cases k.isImaginary <;> simp

/-- Twelve qubits are within the bound of `C08_multiply_closed` and `C08_multiply_assoc`; X on qubit 0 and Y on qubit 2 are words;
X and Z on the same qubit do not commute. -/
example : 12 * 3 < 2 ^ 64 ∧ (∑ k ∈ Finset.range (12 + 1), (12 * 3) ^ k) < 2 ^ 64 ∧
    IsWord 12 (sigma 0 0 .pos) ∧ IsWord 12 (sigma 1 2 .imag) ∧
    commutator 12 (sigma 0 0 .pos) (sigma 2 0 .pos) = sigma 1 0 .negImag := by
  refine ⟨by decide, by decide, ?_, ?_, by decide +kernel⟩
  · exact ⟨by unfold Normal; decide, by decide, by decide +kernel, by decide +kernel⟩
  · exact ⟨by unfold Normal; decide, by decide, by decide +kernel, by decide +kernel⟩

end Moment.C06
