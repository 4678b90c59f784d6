import Verif.Model.Utilities
import Mathlib.Algebra.BigOperators.Intervals
import Mathlib.Tactic.Ring
import Mathlib.Tactic.Linarith
import Mathlib.Tactic.IntervalCases

/-! # C38: integer powers and Kronecker powers -/

namespace Moment.C38

open Util

theorem ipowLoop_eq : ∀ (n : Nat) (b e o : UInt64), e.toNat = n → e ≠ 0 →
    ∃ r, ipowLoop b e o = some r ∧ r.toNat = o.toNat * b.toNat ^ n % 2 ^ 64 := by
  intro n
  induction n using Nat.strong_induction_on with
  | _ n ih =>
    intro b e o hn h0
    rw [ipowLoop.eq_def]
    dsimp only
    have hbit : e &&& 1 = 1 ↔ n % 2 = 1 := by
      rw [← UInt64.toNat_inj, UInt64.toNat_and, hn]
      show n &&& 1 = 1 ↔ _
      rw [Nat.and_one_is_mod]
    have hshift : (e >>> 1).toNat = n / 2 := by
      rw [UInt64.toNat_shiftRight, hn]
      show n >>> 1 = n / 2
      rw [Nat.shiftRight_eq_div_pow]
    have hn0 : n ≠ 0 := fun h => h0 (UInt64.toNat_inj.mp (by rw [hn, h]; rfl))
    have hz : e >>> 1 = 0 ↔ n / 2 = 0 := by
      rw [← UInt64.toNat_inj, hshift]; rfl
    simp only [hbit, hz]
    by_cases hq : n / 2 = 0
    · have : n = 1 := by omega
      subst this
      exact ⟨o * b, by simp, by rw [UInt64.toNat_mul, pow_one]⟩
    · rw [if_neg hq]
      obtain ⟨r, h1, h2⟩ := ih (n / 2) (by omega) (b * b) (e >>> 1) (if n % 2 = 1 then o * b else o) hshift (fun h => hq (hz.mp h))
      refine ⟨r, h1, ?_⟩
      rw [h2, UInt64.toNat_mul]
      have hd : n = 2 * (n / 2) + n % 2 := by omega
      have hmod : ∀ x y k : Nat, x * (y % 2 ^ 64) ^ k % 2 ^ 64 = x * y ^ k % 2 ^ 64 := fun x y k => by
        rw [Nat.mul_mod, ← Nat.pow_mod, ← Nat.mul_mod]
      rw [hmod, ← pow_two, ← pow_mul]
      rcases Nat.mod_two_eq_zero_or_one n with h | h
      · rw [h] at hd
        rw [if_neg (by omega)]
        congr 3; omega
      · rw [h] at hd
        rw [if_pos h, UInt64.toNat_mul, Nat.mod_mul_mod, mul_assoc, ← pow_succ']
        congr 3; omega

/-- **C38.** For `size_t` the fast power is the power modulo 2^64, for every base and exponent. -/
theorem C38_ipow (b e : UInt64) : ∃ r, ipow b e = some r ∧ r.toNat = b.toNat ^ e.toNat % 2 ^ 64 := by
  unfold ipow
  by_cases h0 : e = 0
  · subst h0; exact ⟨1, rfl, rfl⟩
  · by_cases h1 : e = 1
    · subst h1
      exact ⟨b, rfl, by show b.toNat = b.toNat ^ 1 % 2 ^ 64; rw [pow_one, Nat.mod_eq_of_lt b.toNat_lt]⟩
    · by_cases hb0 : b = 0
      · subst hb0
        have : e.toNat ≠ 0 := fun h => h0 (UInt64.toNat_inj.mp h)
        exact ⟨0, by simp [h0, h1], by show 0 = 0 ^ e.toNat % 2 ^ 64; rw [zero_pow this]; rfl⟩
      · by_cases hb1 : b = 1
        · subst hb1
          exact ⟨1, by simp [h0, h1], by show 1 = 1 ^ e.toNat % 2 ^ 64; rw [one_pow]; rfl⟩
        · rw [if_neg h0, if_neg h1, if_neg hb0, if_neg hb1]
          obtain ⟨r, hr, h⟩ := ipowLoop_eq _ b e 1 rfl h0
          exact ⟨r, hr, by rw [h]; show 1 * b.toNat ^ e.toNat % 2 ^ 64 = _; rw [one_mul]⟩

example : ipow 3 5 = some 243 := by
  obtain ⟨r, h, h'⟩ := C38_ipow 3 5
  rw [h, show r = 243 from UInt64.toNat_inj.mp (h'.trans (by decide +kernel))]

theorem ipowSignedLoop_eq (m : Int) (neg : Bool) : ∀ (e : Nat) (b o : Int), 1 ≤ b → 1 ≤ o → e ≠ 0 →
    ipowSignedLoop m b e o neg = some (if o * b ^ e < m then .value (if neg then -(o * b ^ e) else o * b ^ e) else .overflow) := by
  intro e
  induction e using Nat.strong_induction_on with
  | _ e ih =>
    intro b o hb ho he
    rw [ipowSignedLoop.eq_def]
    dsimp only
    have hd : e = 2 * (e / 2) + e % 2 := by omega
    have hone : ∀ n : Nat, 1 ≤ b ^ n := fun n => one_le_pow₀ hb
    have hout : (if (e : Int) % 2 = 1 then o * b else o) = o * b ^ (e % 2) := by
      rcases Nat.mod_two_eq_zero_or_one e with h | h
      · rw [if_neg (by omega), h, pow_zero, mul_one]
      · rw [if_pos (by omega), h, pow_one]
    rw [hout]
    have hmono : o * b ^ (e % 2) ≤ o * b ^ e := by
      have : b ^ (e % 2) ≤ b ^ e := pow_le_pow_right₀ hb (Nat.mod_le _ _)
      nlinarith
    have ho' : 1 ≤ o * b ^ (e % 2) := by nlinarith [hone (e % 2)]
    by_cases h1 : o * b ^ (e % 2) ≥ m
    · rw [if_pos h1, if_neg (by omega)]
    · rw [if_neg h1]
      have hq : (e : Int) / 2 = ((e / 2 : Nat) : Int) := by omega
      rw [hq]
      by_cases h2 : e / 2 = 0
      · have he' : e % 2 = e := by omega
        rw [he'] at h1 ⊢
        simp only [h2, Nat.cast_zero, if_true]
        rw [if_pos (show o * b ^ e < m by omega)]
      · rw [if_neg (by exact_mod_cast h2)]
        have hsplit : o * b ^ e = o * b ^ (e % 2) * (b * b) ^ (e / 2) := by
          conv_lhs => rw [hd, pow_add, pow_mul]
          ring
        by_cases h3 : b * b ≥ m
        · rw [if_pos h3, if_neg]
          have : b ^ 2 ≤ b ^ e := pow_le_pow_right₀ hb (by omega)
          nlinarith [hone e]
        · rw [if_neg h3, ih (e / 2) (by omega) (b * b) _ (by nlinarith) ho' h2, ← hsplit]

/-- **C38.** For a signed type with values from `-m` to `m - 1` the result is the power if its size is below `m`, and otherwise there is an
overflow. -/
theorem C38_ipow_signed (m b : Int) (e : Nat) (hm : 1 < m) (hb : -m ≤ b ∧ b < m) :
    ipowSigned m b e = some (if |b| ^ e < m ∨ e ≤ 1 then .value (b ^ e) else .overflow) := by
  unfold ipowSigned
  by_cases h0 : e = 0
  · subst h0; simp
  by_cases h1 : e = 1
  · subst h1; simp
  rw [if_neg (by exact_mod_cast h0), if_neg (by exact_mod_cast h1)]
  have he : ¬ e ≤ 1 := by omega
  by_cases hb0 : b = 0
  · subst hb0
    simp [zero_pow h0]; omega
  by_cases hb1 : b = 1
  · subst hb1
    simp [hm]
  rw [if_neg hb0, if_neg hb1]
  simp only [he, or_false]
  by_cases hneg : b < 0
  · rw [if_pos hneg, abs_of_neg hneg]
    by_cases hmin : -b ≥ m
    · rw [if_pos hmin, if_neg]
      have : (-b) ^ 1 ≤ (-b) ^ e := pow_le_pow_right₀ (by omega) (by omega)
      rw [pow_one] at this; omega
    · rw [if_neg hmin, ipowSignedLoop_eq m _ e (-b) 1 (by omega) le_rfl h0, one_mul]
      congr 1
      split
      · congr 1
        rcases Nat.mod_two_eq_zero_or_one e with h | h
        · have h' : ¬ ((e : Int) % 2 = 1) := by omega
          simp only [h', decide_false, Bool.false_eq_true, if_false]
          exact Even.neg_pow (Nat.even_iff.mpr h) b
        · have h' : (e : Int) % 2 = 1 := by omega
          simp only [h', decide_true, if_true]
          rw [Odd.neg_pow (Nat.odd_iff.mpr h), neg_neg]
      · rfl
  · rw [if_neg hneg, abs_of_nonneg (by omega), ipowSignedLoop_eq m _ e b 1 (by omega) le_rfl h0, one_mul]
    simp

example : ipowSigned (2 ^ 31) (-3) 5 = some (.value (-243)) := by
  have := C38_ipow_signed (2 ^ 31) (-3) 5 (by norm_num) (by norm_num)
  simpa using this

/-- **C38 (violated for signed types).** The lowest value is not reached: (-2)^63 fits into 64 bits but is computed with an overflow. -/
theorem C38_refuted_lowest : ipowSigned (2 ^ 63) (-2) 63 = some .overflow ∧ -2 ^ 63 ≤ (-2 : Int) ^ 63 := by
  refine ⟨?_, by norm_num⟩
  have := C38_ipow_signed (2 ^ 63) (-2) 63 (by norm_num) (by norm_num)
  simpa using this

/-- **C38 (violated for signed types).** There is no check for negative exponents: the loop for (-1)^(-1) does not end. -/
theorem C38_refuted_negative : ipowSigned (2 ^ 63) (-1) (-1) = none := by
  have key : ∀ m n b e o r, ipowSignedLoop m b e o n = some r → b = 1 → o = 1 → e = -1 → m = 2 ^ 63 → False := by
    intro m n b e o r h
    refine ipowSignedLoop.partial_correctness m n (fun b e o _ => b = 1 → o = 1 → e = -1 → m = 2 ^ 63 → False) ?_ b e o r h
    intro f ih b e o r h hb ho he hm
    subst hb ho he hm
    simp at h
    exact ih _ _ _ _ h rfl rfl rfl rfl
  unfold ipowSigned
  simp only [neg_eq_zero, one_ne_zero, if_false]
  norm_num
  cases h : ipowSignedLoop (2 ^ 63) 1 (-1) 1 true with
  | none => simpa using h
  | some r => exact absurd (key _ _ _ _ _ _ h rfl rfl rfl rfl) id

/-! ## Kronecker powers -/

variable {R : Type} [CommSemiring R]

/-- The `n`-fold Kronecker power, entry by entry: row and column numbers are read in base `rows` and `cols`, and the entries at corresponding digits are
multiplied. -/
def IsPower (a : Mat R) (n : Nat) (p : Mat R) : Prop :=
  p.rows = a.rows ^ n ∧ p.cols = a.cols ^ n ∧ ∀ i j, i < a.rows ^ n → j < a.cols ^ n →
    p.entry i j = ∏ k ∈ Finset.range n, a.entry (i / a.rows ^ k % a.rows) (j / a.cols ^ k % a.cols)

theorem digit_low {r n k i : Nat} (h : k < n) : i % r ^ n / r ^ k % r = i / r ^ k % r := by
  obtain ⟨d, rfl⟩ := Nat.exists_eq_add_of_lt h
  rw [show r ^ (k + d + 1) = r ^ k * (r * r ^ d) by ring, Nat.mod_mul_right_div_self, Nat.mod_mul_right_mod]

theorem isPower_kron {a p q : Mat R} {m n : Nat} (hp : IsPower a m p) (hq : IsPower a n q) : IsPower a (m + n) (kron p q) := by
  obtain ⟨p1, p2, p3⟩ := hp
  obtain ⟨q1, q2, q3⟩ := hq
  refine ⟨by rw [pow_add, ← p1, ← q1]; rfl, by rw [pow_add, ← p2, ← q2]; rfl, fun i j hi hj => ?_⟩
  have pos : ∀ {r i : Nat}, i < r ^ (m + n) → 0 < r ^ n := fun {r i} h => by
    rw [pow_add] at h
    exact Nat.pos_of_ne_zero fun h' => by rw [h'] at h; simp at h
  have hi' : i / a.rows ^ n < a.rows ^ m := Nat.div_lt_of_lt_mul (by rw [mul_comm, ← pow_add]; exact hi)
  have hj' : j / a.cols ^ n < a.cols ^ m := Nat.div_lt_of_lt_mul (by rw [mul_comm, ← pow_add]; exact hj)
  simp only [kron, q1, q2]
  rw [p3 _ _ hi' hj', q3 _ _ (Nat.mod_lt _ (pos hi)) (Nat.mod_lt _ (pos hj)), Nat.add_comm m n, Finset.prod_range_add, mul_comm]
  congr 1
  · refine Finset.prod_congr rfl fun k hk => ?_
    rw [digit_low (Finset.mem_range.mp hk), digit_low (Finset.mem_range.mp hk)]
  · refine Finset.prod_congr rfl fun k _ => ?_
    rw [Nat.div_div_eq_div_mul, Nat.div_div_eq_div_mul, ← pow_add, ← pow_add]

theorem isPower_self (a : Mat R) : IsPower a 1 a := by
  refine ⟨by simp, by simp, fun i j hi hj => ?_⟩
  rw [pow_one] at hi hj
  simp [Nat.mod_eq_of_lt hi, Nat.mod_eq_of_lt hj]

theorem isPower_id (a : Mat R) : IsPower a 0 id1 := ⟨by simp [id1], by simp [id1], fun i j _ _ => by simp [id1]⟩

theorem kronLoop_isPower (a : Mat R) : ∀ (n x y : Nat) (p q : Mat R), IsPower a x p → IsPower a y q → IsPower a (y + 2 * x * n) (kronLoop p q n) := by
  intro n
  induction n using Nat.strong_induction_on with
  | _ n ih =>
    intro x y p q hp hq
    rw [kronLoop]
    split
    · rename_i h; subst h; simpa using hq
    · rename_i h
      have h2 := isPower_kron hp hp
      dsimp only
      have hd : n = 2 * (n / 2) + n % 2 := by omega
      rcases Nat.mod_two_eq_zero_or_one n with h' | h'
      · rw [if_neg (by omega)]
        convert ih (n / 2) (by omega) (x + x) y _ _ h2 hq using 1
        rw [h'] at hd
        conv_lhs => rw [hd]
        ring
      · rw [if_pos h']
        convert ih (n / 2) (by omega) (x + x) (y + (x + x)) _ _ h2 (isPower_kron hq h2) using 1
        rw [h'] at hd
        conv_lhs => rw [hd]
        ring

/-- **C38.** `kronecker_power` gives the Kronecker power, for every matrix and every non-negative power. -/
theorem C38_kronecker (a : Mat R) (n : Nat) : IsPower a n (kroneckerPower a n) := by
  unfold kroneckerPower
  by_cases h1 : n = 1
  · subst h1; exact isPower_self a
  · rw [if_neg h1]
    by_cases h0 : n = 0
    · subst h0; exact isPower_id a
    · rw [if_neg h0]
      have hd : n = 2 * (n / 2) + n % 2 := by omega
      rcases Nat.mod_two_eq_zero_or_one n with h | h
      · rw [if_neg (by omega)]
        convert kronLoop_isPower a (n / 2) 1 0 _ _ (isPower_self a) (isPower_id a) using 1
        omega
      · rw [if_pos h]
        convert kronLoop_isPower a (n / 2) 1 1 _ _ (isPower_self a) (isPower_self a) using 1
        omega

/-- The Kronecker power of the definition is unique on the indices of the matrix, and the square is the usual product. -/
example : ∀ a p : Mat Nat, IsPower a 2 p → ∀ i j, i < a.rows ^ 2 → j < a.cols ^ 2 → p.entry i j = (kron a a).entry i j := by
  intro a p hp i j hi hj
  rw [hp.2.2 i j hi hj, (isPower_kron (isPower_self a) (isPower_self a)).2.2 i j hi hj]

end Moment.C38
