import Verif.Model.Hash
import Mathlib.Data.List.Shortlex
import Mathlib.Algebra.BigOperators.Intervals
import Mathlib.Algebra.BigOperators.Ring.Finset
import Mathlib.Algebra.Order.BigOperators.Group.Finset
import Mathlib.Tactic.Ring
import Mathlib.Tactic.Linarith
import Mathlib.Data.UInt

namespace Moment

/-- The exact (unbounded) value computed by the hash loop. -/
def encLoop (r : Nat) : List Nat → Nat → Nat → Nat
  | [], h, _ => h
  | o :: os, h, m => encLoop r os (h + (o + 1) * m) (m * r)

theorem hashLoop_toNat (radix : UInt64) (r : Nat) (hr : radix.toNat = r) (w : List Nat) :
    ∀ (h m : UInt64) (H M : Nat), h.toNat = H % 2 ^ 64 → m.toNat = M % 2 ^ 64 →
      (hashLoop radix w h m).toNat = encLoop r w H M % 2 ^ 64 := by
  induction w with
  | nil => intro h m H M hh _; simpa [hashLoop, encLoop] using hh
  | cons o os ih =>
    intro h m H M hh hm
    simp only [hashLoop, encLoop]
    apply ih
    · have h1 : (UInt64.ofNat o).toNat = o % 2 ^ 64 := by simp [UInt64.toNat_ofNat']
      rw [UInt64.toNat_add, UInt64.toNat_mul, UInt64.toNat_add, hh, hm, h1]
      simp [Nat.add_mod, Nat.mul_mod]
    · rw [UInt64.toNat_mul, hm, hr]
      simp [Nat.mul_mod]

/-- Horner form. -/
def enc (r : Nat) (w : List Nat) : Nat := w.foldl (fun acc o => acc * r + (o + 1)) 0

theorem encLoop_reverse (r : Nat) (w : List Nat) :
    ∀ h m, encLoop r w h m = h + m * enc r w.reverse := by
  induction w with
  | nil => intro h m; simp [encLoop, enc]
  | cons o os ih =>
    intro h m
    simp only [encLoop, ih, List.reverse_cons]
    simp only [enc, List.foldl_append, List.foldl_cons, List.foldl_nil]
    ring

theorem hashWord_toNat (r : Nat) (hr : r < 2 ^ 64) (w : List Nat) :
    (hashWord (UInt64.ofNat r) w).toNat = (1 + enc r w) % 2 ^ 64 := by
  unfold hashWord
  rw [hashLoop_toNat (UInt64.ofNat r) r (by simp [UInt64.toNat_ofNat']; omega) w.reverse 1 1 1 1 (by rfl) (by rfl)]
  rw [encLoop_reverse, List.reverse_reverse, Nat.one_mul]

theorem foldl_enc (r : Nat) (w : List Nat) : ∀ a,
    w.foldl (fun acc o => acc * r + (o + 1)) a = a * r ^ w.length + enc r w := by
  induction w with
  | nil => intro a; simp [enc]
  | cons o os ih =>
    intro a
    simp only [enc, List.foldl_cons, List.length_cons]
    rw [ih, ih (0 * r + (o+1))]
    ring

theorem enc_cons (r o : Nat) (w : List Nat) : enc r (o :: w) = (o + 1) * r ^ w.length + enc r w := by
  conv_lhs => rw [enc, List.foldl_cons, foldl_enc]
  ring

/-- Number of words of length less than `n` over `r` letters. -/
def rep (r n : Nat) : Nat := ∑ k ∈ Finset.range n, r ^ k

theorem rep_succ (r n : Nat) : rep r (n+1) = rep r n + r ^ n := Finset.sum_range_succ _ _

theorem rep_succ' (r n : Nat) : rep r (n+1) = r * rep r n + 1 := by
  unfold rep
  rw [Finset.sum_range_succ', Finset.mul_sum]
  simp [pow_succ, Nat.mul_comm]

theorem rep_mono (r : Nat) {m n : Nat} (h : m ≤ n) : rep r m ≤ rep r n :=
  Finset.sum_le_sum_of_subset (by simpa using h)

theorem enc_bounds (r : Nat) (w : List Nat) (hw : ∀ o ∈ w, o < r) :
    rep r w.length ≤ enc r w ∧ enc r w + 1 ≤ rep r (w.length + 1) := by
  induction w with
  | nil => simp [enc, rep]
  | cons o os ih =>
    have ho : o < r := hw o (by simp)
    obtain ⟨h1, h2⟩ := ih (fun x hx => hw x (by simp [hx]))
    rw [enc_cons, List.length_cons]
    have e1 := rep_succ r os.length
    have e2 := rep_succ r (os.length + 1)
    have hp : (o + 1) * r ^ os.length ≤ r * r ^ os.length := Nat.mul_le_mul_right _ ho
    have hp2 : r ^ os.length ≤ (o + 1) * r ^ os.length := Nat.le_mul_of_pos_left _ (by omega)
    have : r ^ (os.length + 1) = r * r ^ os.length := by ring
    constructor
    · omega
    · omega

theorem enc_lt_of_lex (r : Nat) : ∀ (v w : List Nat), (∀ o ∈ v, o < r) → (∀ o ∈ w, o < r) →
    v.length = w.length → List.Lex (· < ·) v w → enc r v < enc r w := by
  intro v w hv hw hl hlex
  induction hlex with
  | nil => simp at hl
  | @cons a as bs h ih =>
    simp only [List.length_cons, Nat.add_right_cancel_iff] at hl
    have := ih (fun x hx => hv x (by simp [hx])) (fun x hx => hw x (by simp [hx])) hl
    rw [enc_cons, enc_cons, hl]; omega
  | @rel a as b bs h =>
    simp only [List.length_cons, Nat.add_right_cancel_iff] at hl
    rw [enc_cons, enc_cons, hl]
    have b1 := (enc_bounds r as (fun x hx => hv x (by simp [hx]))).2
    have b2 := (enc_bounds r bs (fun x hx => hw x (by simp [hx]))).1
    rw [hl] at b1
    have e1 := rep_succ r bs.length
    have : (a + 1 + 1) * r ^ bs.length ≤ (b + 1) * r ^ bs.length := Nat.mul_le_mul_right _ (by omega)
    have e2 : (a + 1 + 1) * r ^ bs.length = (a + 1) * r ^ bs.length + r ^ bs.length := by ring
    omega

theorem enc_lt_of_shortlex (r : Nat) (v w : List Nat) (hv : ∀ o ∈ v, o < r) (hw : ∀ o ∈ w, o < r)
    (h : List.Shortlex (· < ·) v w) : enc r v < enc r w := by
  rcases List.shortlex_def.mp h with hl | ⟨hl, hlex⟩
  · have b1 := (enc_bounds r v hv).2
    have b2 := (enc_bounds r w hw).1
    have := rep_mono r (show v.length + 1 ≤ w.length from hl)
    omega
  · exact enc_lt_of_lex r v w hv hw hl hlex

theorem shortlex_trichotomy (v w : List Nat) :
    List.Shortlex (· < ·) v w ∨ v = w ∨ List.Shortlex (· < ·) w v := by
  by_cases h1 : List.Shortlex (· < ·) v w
  · exact Or.inl h1
  · by_cases h2 : List.Shortlex (· < ·) w v
    · exact Or.inr (Or.inr h2)
    · refine Or.inr (Or.inl ?_)
      have : Std.Trichotomous (α := List Nat) (List.Shortlex (· < ·)) := inferInstance
      exact this.trichotomous _ _ h1 h2

theorem enc_lt_iff (r : Nat) (v w : List Nat) (hv : ∀ o ∈ v, o < r) (hw : ∀ o ∈ w, o < r) :
    enc r v < enc r w ↔ List.Shortlex (· < ·) v w := by
  constructor
  · intro h
    rcases shortlex_trichotomy v w with h1 | h1 | h1
    · exact h1
    · subst h1; omega
    · have := enc_lt_of_shortlex r w v hw hv h1; omega
  · exact enc_lt_of_shortlex r v w hv hw

theorem enc_injOn (r : Nat) (v w : List Nat) (hv : ∀ o ∈ v, o < r) (hw : ∀ o ∈ w, o < r)
    (h : enc r v = enc r w) : v = w := by
  rcases shortlex_trichotomy v w with h1 | h1 | h1
  · have := enc_lt_of_shortlex r v w hv hw h1; omega
  · exact h1
  · have := enc_lt_of_shortlex r w v hw hv h1; omega

/-- No wrap-around when the number of words up to the given length is below 2^64. -/
theorem hashWord_exact (r L : Nat) (hr : r < 2 ^ 64) (hL : rep r (L + 1) < 2 ^ 64) (w : List Nat)
    (hw : ∀ o ∈ w, o < r) (hlen : w.length ≤ L) :
    (hashWord (UInt64.ofNat r) w).toNat = 1 + enc r w := by
  rw [hashWord_toNat r hr, Nat.mod_eq_of_lt]
  have := (enc_bounds r w hw).2
  have := rep_mono r (show w.length + 1 ≤ L + 1 by omega)
  omega

theorem foldl_max_mem (l : List Nat) : ∀ a, l.foldl max a = a ∨ l.foldl max a ∈ l := by
  induction l with
  | nil => intro a; simp
  | cons x xs ih =>
    intro a
    simp only [List.foldl_cons, List.mem_cons]
    rcases ih (max a x) with h | h
    · rw [h]; rcases Nat.le_total a x with h' | h'
      · right; left; omega
      · left; omega
    · right; right; exact h

theorem longestHashable_spec (r : Nat) (hr : 2 ≤ r) : r ^ longestHashable r ≤ 2 ^ 64 := by
  unfold longestHashable
  rw [if_neg (by omega)]
  rcases foldl_max_mem ((List.range 65).filter (fun L => decide (r ^ L ≤ 2 ^ 64 ∧ (r = 0 → L = 0)))) 0 with h | h
  · rw [h]; simp
  · have := List.mem_filter.mp h
    simpa using (of_decide_eq_true this.2).1

theorem rep_le (r : Nat) (hr : 2 ≤ r) (n : Nat) : rep r n + 1 ≤ r ^ n := by
  induction n with
  | zero => simp [rep]
  | succ n ih =>
    rw [rep_succ]
    have : r ^ (n+1) = r * r ^ n := by ring
    have h2 : 2 * r ^ n ≤ r * r ^ n := Nat.mul_le_mul_right _ hr
    omega

end Moment
