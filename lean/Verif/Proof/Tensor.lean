import Verif.Model.Tensor
import Verif.Proof.MultiDimIndex
import Mathlib.Data.List.Induction

namespace Moment.Tensor
open Moment.MultiDim

theorem innerProduct_acc : ∀ is ss : List Nat, ∀ acc, innerProduct is ss acc = acc + (List.zipWith (· * ·) is ss).sum
  | [], _, acc => by simp [innerProduct]
  | _ :: _, [], acc => by simp [innerProduct]
  | i :: is, s :: ss, acc => by
    simp only [innerProduct, List.zipWith_cons_cons, List.sum_cons]
    rw [innerProduct_acc is ss]; omega

theorem scan_length : ∀ ds : List Nat, ∀ a, (scan a ds).length = ds.length
  | [], _ => rfl
  | d :: ds, a => by simp [scan, scan_length ds]

theorem scan_sum : ∀ ds is : List Nat, ∀ a, (List.zipWith (· * ·) is (scan a ds)).sum = a * rank ds is
  | [], is, a => by cases is <;> simp [scan, rank]
  | d :: ds, [], a => by simp [rank]
  | d :: ds, i :: is, a => by
    simp only [scan, List.zipWith_cons_cons, List.sum_cons, rank, scan_sum ds is (a * d)]
    rw [Nat.mul_add, Nat.mul_comm i a, Nat.mul_assoc]

theorem offset_eq (lastMajor : Bool) (dims index : List Nat) (hl : index.length = dims.length) :
    indexToOffsetNoChecks lastMajor dims index =
      if lastMajor then rank dims index else rank dims.reverse index.reverse := by
  unfold indexToOffsetNoChecks strides
  rw [innerProduct_acc]
  cases lastMajor
  · simp only [Bool.false_eq_true, if_false, Nat.zero_add]
    have h := scan_sum dims.reverse index.reverse 1
    rw [Nat.one_mul] at h
    rw [← h, ← List.sum_reverse, List.reverse_zipWith (by simp [scan_length, hl]), List.reverse_reverse]
  · simp only [if_true, Nat.zero_add]
    rw [scan_sum, Nat.one_mul]

theorem byDims_eq : ∀ ds o, byDims ds o = unrank ds o
  | [], _ => rfl
  | d :: ds, o => by simp [byDims, unrank, byDims_eq ds]

theorem scan_append : ∀ ds : List Nat, ∀ d a, scan a (ds ++ [d]) = scan a ds ++ [a * ds.prod]
  | [], d, a => by simp [scan]
  | x :: ds, d, a => by simp [scan, scan_append ds, Nat.mul_assoc]

theorem unrank_append : ∀ ds : List Nat, ∀ d o, unrank (ds ++ [d]) o = unrank ds o ++ [o / ds.prod % d]
  | [], d, o => by simp [unrank]
  | x :: ds, d, o => by simp [unrank, unrank_append ds, Nat.div_div_eq_div_mul]

theorem unrank_mod : ∀ ds : List Nat, ∀ o, unrank ds (o % ds.prod) = unrank ds o
  | [], _ => rfl
  | x :: ds, o => by
    simp only [unrank, List.prod_cons]
    rw [Nat.mod_mul_right_mod, Nat.mod_mul_right_div_self, unrank_mod ds]

theorem byStrides_eq (ds : List Nat) : ∀ o, o < ds.prod → byStrides (scan 1 ds).reverse o = (unrank ds o).reverse := by
  induction ds using List.reverseRecOn with
  | nil => intro o _; rfl
  | append_singleton ds d ih =>
    intro o ho
    rw [scan_append, unrank_append]
    simp only [List.prod_append, List.prod_cons, List.prod_nil, Nat.mul_one] at ho
    have hpos : 0 < ds.prod := Nat.pos_of_ne_zero (by intro h; simp [h] at ho)
    simp only [List.reverse_append, List.reverse_cons, List.reverse_nil, List.nil_append, List.cons_append, Nat.one_mul, byStrides]
    rw [ih _ (Nat.mod_lt _ hpos), unrank_mod, Nat.mod_eq_of_lt]
    rw [Nat.div_lt_iff_lt_mul hpos, Nat.mul_comm]; exact ho

theorem toIndex_eq (lastMajor : Bool) (dims : List Nat) (o : Nat) (ho : o < dims.prod) :
    offsetToIndexNoChecks lastMajor dims o = nth lastMajor dims o := by
  unfold offsetToIndexNoChecks nth strides
  cases lastMajor
  · simp only [Bool.false_eq_true, if_false]
    rw [byStrides_eq _ _ (by rwa [List.prod_reverse])]
  · simp [byDims_eq]

theorem count_eq (dims : List Nat) (h : dims ≠ []) : elementCount dims = dims.prod := by
  unfold elementCount
  rw [foldl_mul]
  cases dims with
  | nil => exact absurd rfl h
  | cons d ds => simp

theorem validate_iff (dims index : List Nat) : validateIndex dims index = true ↔ List.Forall₂ (· < ·) index dims := by
  unfold validateIndex
  induction index generalizing dims with
  | nil => cases dims <;> simp
  | cons i is ih =>
    cases dims with
    | nil => simp
    | cons d ds =>
      rw [List.forall₂_cons, ← ih]
      simp only [List.length_cons, List.zipWith_cons_cons, List.all_cons, id, Bool.and_eq_true, beq_iff_eq, decide_eq_true_eq]
      constructor
      · rintro ⟨h1, h2, h3⟩; exact ⟨by omega, by omega, h3⟩
      · rintro ⟨h1, h2, h3⟩; exact ⟨by omega, by omega, h3⟩

theorem validateInclusive_iff (dims index : List Nat) :
    validateIndexInclusive dims index = true ↔ List.Forall₂ (· ≤ ·) index dims := by
  unfold validateIndexInclusive
  induction index generalizing dims with
  | nil => cases dims <;> simp
  | cons i is ih =>
    cases dims with
    | nil => simp
    | cons d ds =>
      rw [List.forall₂_cons, ← ih]
      simp only [List.length_cons, List.zipWith_cons_cons, List.all_cons, id, Bool.and_eq_true, beq_iff_eq, decide_eq_true_eq]
      constructor
      · rintro ⟨h1, h2, h3⟩; exact ⟨by omega, by omega, h3⟩
      · rintro ⟨h1, h2, h3⟩; exact ⟨by omega, by omega, h3⟩

theorem rank_nth (lastMajor : Bool) (dims : List Nat) (n : Nat) (hn : n < dims.prod) :
    indexToOffsetNoChecks lastMajor dims (nth lastMajor dims n) = n := by
  rw [offset_eq]
  · unfold nth
    cases lastMajor
    · simp only [Bool.false_eq_true, if_false, List.reverse_reverse]
      exact rank_unrank _ _ (by rwa [List.prod_reverse])
    · simp only [if_true]; exact rank_unrank _ _ hn
  · unfold nth; cases lastMajor <;> simp [unrank_length]

end Moment.Tensor
