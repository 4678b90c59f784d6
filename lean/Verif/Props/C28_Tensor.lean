import Verif.Proof.Tensor

/-! # C28: tensor offsets and indices are inverse

An index into a tensor with dimensions `dims` is a list of the same length with every entry below its dimension
(`List.Forall₂ (· < ·) index dims`). -/

namespace Moment.C28
open Moment Tensor

/-- Every in-range index has an offset below the element count, and that offset converts back to the index. -/
theorem C28_index_roundtrip (lastMajor : Bool) (dims index : List Nat) (hne : dims ≠ []) (h : List.Forall₂ (· < ·) index dims) :
    ∃ o, o < elementCount dims ∧ indexToOffset lastMajor dims index = some o ∧ offsetToIndex lastMajor dims o = some index := by
  obtain ⟨n, hn, rfl⟩ := (MultiDim.nth_mem lastMajor dims index).mpr h
  refine ⟨n, by rwa [count_eq _ hne], ?_, ?_⟩
  · unfold indexToOffset
    rw [if_pos ((validate_iff _ _).mpr h), rank_nth _ _ _ hn]
  · unfold offsetToIndex
    rw [if_neg (by rw [count_eq _ hne]; omega), toIndex_eq _ _ _ hn]

/-- Every offset below the element count is the offset of exactly one index, the one `offset_to_index` returns. -/
theorem C28_offset_roundtrip (lastMajor : Bool) (dims : List Nat) (o : Nat) (ho : o < elementCount dims) :
    ∃ index, offsetToIndex lastMajor dims o = some index ∧ List.Forall₂ (· < ·) index dims ∧
      ∀ v, indexToOffset lastMajor dims v = some o ↔ v = index := by
  have hne : dims ≠ [] := by rintro rfl; simp [elementCount] at ho
  rw [count_eq _ hne] at ho
  have hf := (MultiDim.nth_mem lastMajor dims _).mp ⟨o, ho, rfl⟩
  refine ⟨MultiDim.nth lastMajor dims o, ?_, hf, ?_⟩
  · unfold offsetToIndex
    rw [if_neg (by rw [count_eq _ hne]; omega), toIndex_eq _ _ _ ho]
  · intro v
    constructor
    · intro hv
      unfold indexToOffset at hv
      split at hv
      · rename_i hval
        obtain ⟨n, hn, rfl⟩ := (MultiDim.nth_mem lastMajor dims v).mpr ((validate_iff _ _).mp hval)
        rw [rank_nth _ _ _ hn, Option.some_inj] at hv
        rw [hv]
      · cases hv
    · rintro rfl
      unfold indexToOffset
      rw [if_pos ((validate_iff _ _).mpr hf), rank_nth _ _ _ ho]

/-- Exactly the out-of-range indices and offsets are refused. -/
theorem C28_rejects (lastMajor : Bool) (dims index : List Nat) (o : Nat) :
    (indexToOffset lastMajor dims index = none ↔ ¬ List.Forall₂ (· < ·) index dims) ∧
    (offsetToIndex lastMajor dims o = none ↔ elementCount dims ≤ o) := by
  constructor
  · unfold indexToOffset
    rw [← validate_iff]
    by_cases h : validateIndex dims index = true <;> simp [h]
  · unfold offsetToIndex
    by_cases h : o ≥ elementCount dims <;> simp [h]

/-- Storage order: with last-index-major storage the offset grows with the index read from its last entry, otherwise with the index read from its
first entry. Together with the round trips this determines all offsets. -/
theorem C28_storage_order (lastMajor : Bool) (dims u v : List Nat) (hu : List.Forall₂ (· < ·) u dims)
    (hv : List.Forall₂ (· < ·) v dims) (a b : Nat) (ha : indexToOffset lastMajor dims u = some a)
    (hb : indexToOffset lastMajor dims v = some b) :
    a < b ↔ if lastMajor then List.Lex (· < ·) u.reverse v.reverse else List.Lex (· < ·) u v := by
  obtain ⟨m, hm, rfl⟩ := (MultiDim.nth_mem lastMajor dims u).mpr hu
  obtain ⟨n, hn, rfl⟩ := (MultiDim.nth_mem lastMajor dims v).mpr hv
  unfold indexToOffset at ha hb
  rw [if_pos ((validate_iff _ _).mpr hu), rank_nth _ _ _ hm, Option.some_inj] at ha
  rw [if_pos ((validate_iff _ _).mpr hv), rank_nth _ _ _ hn, Option.some_inj] at hb
  subst ha hb
  have key : ∀ x y, x < y → y < dims.prod → if lastMajor then
      List.Lex (· < ·) (MultiDim.nth lastMajor dims x).reverse (MultiDim.nth lastMajor dims y).reverse
      else List.Lex (· < ·) (MultiDim.nth lastMajor dims x) (MultiDim.nth lastMajor dims y) := by
    intro x y hxy hy
    unfold MultiDim.nth
    cases lastMajor
    · simp only [Bool.false_eq_true, if_false]
      exact MultiDim.unrank_lex _ _ _ hxy (by rwa [List.prod_reverse])
    · simp only [if_true]
      exact MultiDim.unrank_lex _ _ _ hxy hy
  have asymm : ∀ x y : List Nat, List.Lex (· < ·) x y → ¬ List.Lex (· < ·) y x := by
    intro x y h1 h2
    exact List.lt_asymm (l₁ := x) (l₂ := y) h1 h2
  have irr : ∀ x : List Nat, ¬ List.Lex (· < ·) x x := fun x h => asymm x x h h
  constructor
  · intro h; exact key m n h hn
  · intro h
    rcases Nat.lt_trichotomy m n with h1 | h1 | h1
    · exact h1
    · subst h1; cases lastMajor <;> simp at h
    · have h2 := key n m h1 hm
      cases lastMajor
      · simp only [Bool.false_eq_true, if_false] at h h2; exact absurd h2 (asymm _ _ h)
      · simp only [if_true] at h h2; exact absurd h2 (asymm _ _ h)

/-- No wrap-around: every stride is at most the element count (dimensions being positive, as they are whenever there is any index), so if the element
count fits in 64 bits so does every stride; the offset, and each partial sum of it, is below the element count. -/
theorem C28_no_overflow (lastMajor : Bool) (dims : List Nat) (hne : dims ≠ []) (hpos : ∀ d ∈ dims, 0 < d) :
    (∀ s ∈ strides lastMajor dims, s ≤ elementCount dims) ∧
    (∀ index, List.Forall₂ (· < ·) index dims → indexToOffsetNoChecks lastMajor dims index < elementCount dims) := by
  have hscan : ∀ ds : List Nat, (∀ d ∈ ds, 0 < d) → ∀ a, ∀ s ∈ scan a ds, s ≤ a * ds.prod := by
    intro ds
    induction ds with
    | nil => intro _ a s hs; simp [scan] at hs
    | cons d ds ih =>
      intro hp a s hs
      simp only [scan, List.mem_cons] at hs
      rw [List.prod_cons]
      rcases hs with rfl | hs
      · exact Nat.le_mul_of_pos_right _ (Nat.mul_pos (hp d (by simp)) (MultiDim.prod_pos ds fun x hx => hp x (by simp [hx])))
      · rw [← Nat.mul_assoc]; exact ih (fun x hx => hp x (by simp [hx])) _ s hs
  constructor
  · intro s hs
    rw [count_eq _ hne]
    unfold strides at hs
    cases lastMajor
    · simp only [Bool.false_eq_true, if_false, List.mem_reverse] at hs
      have := hscan dims.reverse (by simpa using hpos) 1 s hs
      rwa [Nat.one_mul, List.prod_reverse] at this
    · simp only [if_true] at hs
      have := hscan dims hpos 1 s hs
      rwa [Nat.one_mul] at this
  · intro index h
    obtain ⟨n, hn, rfl⟩ := (MultiDim.nth_mem lastMajor dims index).mpr h
    rw [rank_nth _ _ _ hn, count_eq _ hne]; exact hn

/-- A shape without any dimension is the one exception: the empty index is accepted and sent to offset 0, yet the element count is 0 and offset 0 is
refused. -/
theorem C28_no_dimensions (lastMajor : Bool) :
    indexToOffset lastMajor [] [] = some 0 ∧ elementCount [] = 0 ∧ offsetToIndex lastMajor [] 0 = none := by
  cases lastMajor <;> decide

/-- `validate_range` accepts exactly the pairs of a cell `mins` and a corner `maxs` of the box, with `mins ≤ maxs`. -/
theorem C28_validate_range (dims mins maxs : List Nat) : validateRange dims mins maxs = true ↔
    List.Forall₂ (· < ·) mins dims ∧ List.Forall₂ (· ≤ ·) maxs dims ∧ List.Forall₂ (· ≤ ·) mins maxs := by
  unfold validateRange
  rw [Bool.and_eq_true, Bool.and_eq_true, validate_iff, validateInclusive_iff, and_assoc]
  refine and_congr_right fun h1 => and_congr_right fun h2 => ?_
  have hl : mins.length = maxs.length := by rw [h1.length_eq, h2.length_eq]
  rw [← validateInclusive_iff]
  unfold validateIndexInclusive
  simp [hl]

-- A 2×3×4 tensor: index (1,2,3) is the last entry, offset 23; in the other order (1,0,2) is at 1·12 + 0·4 + 2.
example : List.Forall₂ (· < ·) [1, 2, 3] [2, 3, 4] ∧ indexToOffset true [2, 3, 4] [1, 2, 3] = some 23 := by
  refine ⟨by simp, by decide⟩
example : indexToOffset false [2, 3, 4] [1, 0, 2] = some 14 ∧ offsetToIndex false [2, 3, 4] 14 = some [1, 0, 2] := by decide
example : 17 < elementCount [2, 3, 4] ∧ offsetToIndex true [2, 3, 4] 17 = some [1, 2, 2] := by decide
example : validateRange [2, 3] [0, 1] [2, 3] = true ∧ validateRange [2, 3] [2, 1] [2, 3] = false := by decide
example : ∃ s ∈ strides true [2, 3, 4], s = 6 := ⟨6, by decide, rfl⟩

end Moment.C28
