import Verif.Spec.PauliMatrix
import Mathlib.LinearAlgebra.Matrix.ConjTranspose
import Mathlib.Data.Fintype.Pi
import Mathlib.Tactic.IntervalCases
import Mathlib.Analysis.Complex.Order

/-! # The Pauli matrices on `n` qubits

The usual matrices on the basis states meet the Pauli relations, and the state in which all qubits are 0 does not change under translations. -/

namespace Moment.PauliMatrix

open Moment.Pauli (Normal)
open Moment.Translate
open scoped ComplexOrder

variable {n : Nat}

/-- Basis states of `n` qubits. -/
abbrev Basis (n : Nat) := Fin n → Bool

/-- Matrix with one non-zero entry in each column. -/
def monomial (π : Basis n → Basis n) (c : Basis n → ℂ) : Matrix (Basis n) (Basis n) ℂ := fun b' b => if b' = π b then c b else 0

theorem monomial_mul (π σ : Basis n → Basis n) (c d : Basis n → ℂ) : monomial π c * monomial σ d = monomial (fun b => π (σ b)) fun b => c (σ b) * d b := by
  ext x b
  simp [monomial, Matrix.mul_apply]

theorem monomial_star (π : Basis n → Basis n) (c : Basis n → ℂ) (h : ∀ b, π (π b) = b) : star (monomial π c) = monomial π fun b => star (c (π b)) := by
  ext x b
  simp only [monomial, Matrix.star_apply]
  by_cases e : b = π x
  · rw [if_pos e, if_pos (by rw [e, h]), e, h]
  · rw [if_neg e, if_neg (fun e' => e (by rw [e', h])), star_zero]

theorem monomial_smul (a : ℂ) (π : Basis n → Basis n) (c : Basis n → ℂ) : a • monomial π c = monomial π fun b => a * c b := by
  ext x b
  simp [monomial]

theorem monomial_one : (1 : Matrix (Basis n) (Basis n) ℂ) = monomial (fun b => b) fun _ => 1 := by
  ext x b
  simp [monomial, Matrix.one_apply]

/-- Flip one qubit. -/
def flipAt (q : Fin n) (b : Basis n) : Basis n := Function.update b q (!b q)

theorem flipAt_flipAt (q : Fin n) (b : Basis n) : flipAt q (flipAt q b) = b := by simp [flipAt]

theorem flipAt_same (q : Fin n) (b : Basis n) : flipAt q b q = !b q := by simp [flipAt]

theorem flipAt_other {q r : Fin n} (h : r ≠ q) (b : Basis n) : flipAt q b r = b r := by simp [flipAt, h]

theorem flipAt_comm {q r : Fin n} (h : q ≠ r) (b : Basis n) : flipAt q (flipAt r b) = flipAt r (flipAt q b) := by
  unfold flipAt
  rw [Function.update_of_ne h, Function.update_of_ne h.symm, Function.update_comm h]

/-- What the letter does to basis states. -/
def letterPerm (p : Nat) (q : Fin n) (b : Basis n) : Basis n := if p = 2 then b else flipAt q b

/-- The factors. -/
noncomputable def letterCoef (p : Nat) (q : Fin n) (b : Basis n) : ℂ :=
  if p = 0 then 1 else if p = 1 then (if b q then -Complex.I else Complex.I) else if b q then -1 else 1

/-- The Pauli matrices X, Y and Z of each qubit. -/
noncomputable def letter (n : Nat) (o : Nat) : Matrix (Basis n) (Basis n) ℂ :=
  if h : o / 3 < n then monomial (letterPerm (o % 3) ⟨o / 3, h⟩) (letterCoef (o % 3) ⟨o / 3, h⟩) else 0

theorem letter_at {q p : Nat} (hq : q < n) (hp : p < 3) : letter n (3 * q + p) = monomial (letterPerm p ⟨q, hq⟩) (letterCoef p ⟨q, hq⟩) := by
  unfold letter
  have e1 : (3 * q + p) / 3 = q := by omega
  have e2 : (3 * q + p) % 3 = p := by omega
  simp only [e1, e2, hq, dif_pos]

theorem letterPerm_twice (p : Nat) (q : Fin n) (b : Basis n) : letterPerm p q (letterPerm p q b) = b := by
  unfold letterPerm
  split
  · rfl
  · exact flipAt_flipAt q b

/-- The Pauli matrices meet the Pauli relations. -/
theorem represents (n : Nat) : Represents n (letter n) := by
  have parts : ∀ o, o < n * 3 → ∃ q p, q < n ∧ p < 3 ∧ o = 3 * q + p := fun o ho => ⟨o / 3, o % 3, by omega, by omega, by omega⟩
  have pair : ∀ {q : Nat} (hq : q < n) {a b c : Nat}, a < 3 → b < 3 → c < 3 →
      (∀ s : Basis n, letterPerm a ⟨q, hq⟩ (letterPerm b ⟨q, hq⟩ s) = letterPerm c ⟨q, hq⟩ s) →
      (∀ s : Basis n, letterCoef a ⟨q, hq⟩ (letterPerm b ⟨q, hq⟩ s) * letterCoef b ⟨q, hq⟩ s = Complex.I * letterCoef c ⟨q, hq⟩ s) →
      letter n (3 * q + a) * letter n (3 * q + b) = Complex.I • letter n (3 * q + c) := by
    intro q hq a b c ha hb hc h1 h2
    rw [letter_at hq ha, letter_at hq hb, letter_at hq hc, monomial_mul, monomial_smul]
    simp only [h1, h2]
  refine ⟨?_, ?_, ?_, ?_, ?_, ?_⟩
  · intro o ho
    obtain ⟨q, p, hq, hp, rfl⟩ := parts o ho
    rw [letter_at hq hp, monomial_star _ _ (letterPerm_twice _ _)]
    congr 1
    funext b
    interval_cases p <;> cases h : b ⟨q, hq⟩ <;> simp [letterCoef, letterPerm, flipAt_same, h]
  · intro o ho
    obtain ⟨q, p, hq, hp, rfl⟩ := parts o ho
    rw [letter_at hq hp, monomial_mul, monomial_one]
    congr 1
    · funext b; exact letterPerm_twice _ _ b
    · funext b
      interval_cases p <;> cases h : b ⟨q, hq⟩ <;> simp [letterCoef, letterPerm, flipAt_same, h]
  · intro q hq
    refine pair hq (a := 0) (b := 1) (c := 2) (by omega) (by omega) (by omega) (fun s => by simp [letterPerm, flipAt_flipAt]) fun s => ?_
    cases h : s ⟨q, hq⟩ <;> simp [letterCoef, h]
  · intro q hq
    refine pair hq (a := 1) (b := 2) (c := 0) (by omega) (by omega) (by omega) (fun s => by simp [letterPerm]) fun s => ?_
    simp [letterCoef, letterPerm]
    cases s ⟨q, hq⟩ <;> simp
  · intro q hq
    refine pair hq (a := 2) (b := 0) (c := 1) (by omega) (by omega) (by omega) (fun s => by simp [letterPerm]) fun s => ?_
    simp [letterCoef, letterPerm, flipAt_same]
    cases s ⟨q, hq⟩ <;> simp
  · intro o o' ho ho' hne
    obtain ⟨q, p, hq, hp, rfl⟩ := parts o ho
    obtain ⟨r, p', hr, hp', rfl⟩ := parts o' ho'
    have hqr : (⟨q, hq⟩ : Fin n) ≠ ⟨r, hr⟩ := fun e => hne (by have := congrArg Fin.val e; simp only at this; omega)
    rw [letter_at hq hp, letter_at hr hp', monomial_mul, monomial_mul]
    have c1 : ∀ b, letterCoef p ⟨q, hq⟩ (letterPerm p' ⟨r, hr⟩ b) = letterCoef p ⟨q, hq⟩ b := by
      intro b
      have : letterPerm p' ⟨r, hr⟩ b ⟨q, hq⟩ = b ⟨q, hq⟩ := by
        unfold letterPerm; split
        · rfl
        · exact flipAt_other hqr b
      simp only [letterCoef, this]
    have c2 : ∀ b, letterCoef p' ⟨r, hr⟩ (letterPerm p ⟨q, hq⟩ b) = letterCoef p' ⟨r, hr⟩ b := by
      intro b
      have : letterPerm p ⟨q, hq⟩ b ⟨r, hr⟩ = b ⟨r, hr⟩ := by
        unfold letterPerm; split
        · rfl
        · exact flipAt_other hqr.symm b
      simp only [letterCoef, this]
    congr 1
    · funext b
      unfold letterPerm
      split <;> split <;> first | rfl | exact flipAt_comm hqr b
    · funext b
      rw [c1, c2, mul_comm]

/-- The expectation in the state in which all qubits are 0. -/
noncomputable def ground (n : Nat) : Matrix (Basis n) (Basis n) ℂ →ₗ[ℂ] ℂ where
  toFun a := a (fun _ => false) (fun _ => false)
  map_add' _ _ := rfl
  map_smul' _ _ := rfl

/-- The state is positive. -/
theorem ground_pos (a : Matrix (Basis n) (Basis n) ℂ) : 0 ≤ ground n (star a * a) := by
  show 0 ≤ (star a * a) _ _
  rw [Matrix.mul_apply]
  exact Finset.sum_nonneg fun x _ => star_mul_self_nonneg (a x fun _ => false)

/-- What a word in normal form does to the basis states. -/
theorem word_monomial : ∀ {w : List Nat}, Letters n w → ∃ π c, Rewrite.evalWord (letter n) w = monomial π c ∧
    (∀ b q, π b q = (b q ^^ w.any fun o => decide (o / 3 = q.val ∧ o % 3 ≠ 2))) ∧ ((∀ o ∈ w, o % 3 = 2) → c (fun _ => false) = 1)
  | [], _ => ⟨fun b => b, fun _ => 1, by rw [← monomial_one]; rfl, by simp, fun _ => rfl⟩
  | o :: w, h => by
    have hp := List.pairwise_cons.mp h.1
    obtain ⟨π, c, h1, h2, h3⟩ := word_monomial (w := w) ⟨hp.2, fun x hx => h.2 x (by simp [hx])⟩
    have ho := h.2 o (by simp)
    have hq : o / 3 < n := by omega
    have e : letter n o = monomial (letterPerm (o % 3) ⟨o / 3, hq⟩) (letterCoef (o % 3) ⟨o / 3, hq⟩) := by unfold letter; rw [dif_pos hq]
    refine ⟨_, _, by rw [Rewrite.evalWord, List.map_cons, List.prod_cons, e, ← Rewrite.evalWord, h1, monomial_mul], ?_, ?_⟩
    · intro b q
      rw [List.any_cons]
      by_cases hqo : q = ⟨o / 3, hq⟩
      · subst hqo
        have hnone : (w.any fun x => decide (x / 3 = o / 3 ∧ x % 3 ≠ 2)) = false := by
          rw [List.any_eq_false]
          intro x hx
          have := hp.1 x hx
          simp only [decide_eq_true_eq]
          omega
        have hb := h2 b ⟨o / 3, hq⟩
        rw [hnone, Bool.xor_false] at hb
        rw [hnone, Bool.or_false]
        unfold letterPerm
        by_cases hz : o % 3 = 2
        · simp [hz, hb]
        · simp [hz, flipAt_same, hb]
      · have : ¬ (o / 3 = q.val ∧ o % 3 ≠ 2) := fun hh => hqo (Fin.ext hh.1.symm)
        rw [decide_eq_false this, Bool.false_or, ← h2 b q]
        unfold letterPerm
        split
        · rfl
        · exact flipAt_other hqo _
    · intro hz
      have h0 : π (fun _ => false) = fun _ => false := by
        funext q
        rw [h2]
        have hnone : (w.any fun x => decide (x / 3 = q.val ∧ x % 3 ≠ 2)) = false := by
          rw [List.any_eq_false]
          intro x hx
          have := hz x (by simp [hx])
          simp [this]
        rw [hnone]
        rfl
      show letterCoef (o % 3) ⟨o / 3, hq⟩ (π fun _ => false) * c (fun _ => false) = 1
      rw [h0, h3 fun x hx => hz x (by simp [hx]), hz o (by simp)]
      simp [letterCoef]

theorem ground_word {w : List Nat} (h : Letters n w) : ground n (Rewrite.evalWord (letter n) w) = if ∀ o ∈ w, o % 3 = 2 then 1 else 0 := by
  obtain ⟨π, c, h1, h2, h3⟩ := word_monomial h
  rw [h1]
  show (if (fun _ => false) = π (fun _ => false) then c _ else 0) = _
  by_cases hz : ∀ o ∈ w, o % 3 = 2
  · rw [if_pos hz, h3 hz, if_pos]
    funext q
    rw [h2]
    have hnone : (w.any fun x => decide (x / 3 = q.val ∧ x % 3 ≠ 2)) = false := by
      rw [List.any_eq_false]
      intro x hx
      simp [hz x hx]
    rw [hnone]
    rfl
  · rw [if_neg hz, if_neg]
    intro e
    push Not at hz
    obtain ⟨o, ho, hne⟩ := hz
    have hq : o / 3 < n := by have := h.2 o ho; omega
    have := congrFun e ⟨o / 3, hq⟩
    rw [h2] at this
    have hsome : (w.any fun x => decide (x / 3 = o / 3 ∧ x % 3 ≠ 2)) = true := List.any_eq_true.mpr ⟨o, ho, by simp [hne]⟩
    have h' : false = (false ^^ true) := this.trans (congrArg (xor false) hsome)
    simp at h'

theorem moved_z {R : Nat → Nat → Prop} {w v : List Nat} (h : MovedBy R w v) : (∀ o ∈ w, o % 3 = 2) ↔ ∀ o ∈ v, o % 3 = 2 := by
  have key : ∀ {x y : List Nat}, (∀ q p, Has y q p → ∃ r, Has x r p) → (∀ o ∈ x, o % 3 = 2) → ∀ o ∈ y, o % 3 = 2 := by
    intro x y hh hx o ho
    obtain ⟨r, -, hr⟩ := hh (o / 3) (o % 3) ⟨Nat.mod_lt _ (by omega), by rwa [show 3 * (o / 3) + o % 3 = o by omega]⟩
    have := hx _ hr
    omega
  exact ⟨key fun q p hh => (h.2 q p hh).imp fun r hr => hr.2, key fun q p hh => (h.1 q p hh).imp fun r hr => hr.2⟩

/-- The state does not change under translations. -/
theorem ground_invariant (n : Nat) (y : Symmetry) : Invariant n y (letter n) (ground n) := by
  refine ⟨fun a => rfl, fun w v hw hv hc => ?_⟩
  rw [ground_word hw, ground_word hv]
  have e : (∀ o ∈ w, o % 3 = 2) ↔ ∀ o ∈ v, o % 3 = 2 := by
    cases y with
    | none => rw [show w = v from hc]
    | chain => obtain ⟨d, h⟩ := hc; exact moved_z h
    | lattice _ => obtain ⟨a, b, h⟩ := hc; exact moved_z h
    | closed _ _ => obtain ⟨a, b, h⟩ := hc; exact moved_z h
  simp only [e]

end Moment.PauliMatrix
