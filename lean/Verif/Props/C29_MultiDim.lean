import Verif.Proof.MultiDimOffset
import Verif.Proof.Tensor

/-! # C29: multi-dimensional iteration visits every index of the box once, in storage order -/

namespace Moment.C29
open Moment

/-- Order in which indices are visited: position 0 fastest if `reversed`, last position fastest otherwise. -/
def Before (reversed : Bool) (u v : List Nat) : Prop :=
  if reversed then List.Lex (· < ·) u.reverse v.reverse else List.Lex (· < ·) u v

theorem nth_before (reversed : Bool) (dims : List Nat) {x y : Nat} (hxy : x < y) (hy : y < dims.prod) :
    Before reversed (MultiDim.nth reversed dims x) (MultiDim.nth reversed dims y) := by
  unfold Before MultiDim.nth
  cases reversed
  · simp only [Bool.false_eq_true, if_false]
    exact MultiDim.unrank_lex _ _ _ hxy (by rwa [List.prod_reverse])
  · simp only [if_true]
    exact MultiDim.unrank_lex _ _ _ hxy hy

/-- For every shape with at least one dimension (sizes may be zero), the iterator stops, visits exactly the indices in range, in increasing order
(so none twice), and reports as global index how many were visited before. -/
theorem C29_full_box (reversed : Bool) (dims : List Nat) (hne : dims ≠ []) :
    ∃ l, Yields (MultiDim.next reversed dims) MultiDim.atEnd MultiDim.value (MultiDim.first dims) l ∧
      (∀ v, v ∈ l.map Prod.fst ↔ List.Forall₂ (· < ·) v dims) ∧
      (l.map Prod.fst).Pairwise (Before reversed) ∧
      l.map Prod.snd = List.range l.length := by
  refine ⟨_, MultiDim.run_first reversed dims hne, ?_, ?_, ?_⟩
  · intro v
    rw [← MultiDim.nth_mem reversed]
    simp [List.map_map, Function.comp_def]
  · rw [List.map_map, List.pairwise_map]
    have := List.pairwise_lt_range (n := dims.prod)
    refine this.imp_of_mem ?_
    intro a b ha hb hab
    exact nth_before reversed dims hab (List.mem_range.mp hb)
  · simp [List.map_map, Function.comp_def]

/-- Iteration over a sub-box, `mins ≤ index < maxs`, the ranges accepted by `Tensor::validate_range`. -/
theorem C29_sub_box (reversed : Bool) (mins maxs : List Nat) (hne : mins ≠ []) (h : List.Forall₂ (· ≤ ·) mins maxs) :
    ∃ l, Yields (MultiDimOffset.next reversed mins maxs) MultiDimOffset.atEnd MultiDimOffset.value (MultiDimOffset.first mins maxs) l ∧
      (∀ v, v ∈ l.map Prod.fst ↔ List.Forall₂ (· ≤ ·) mins v ∧ List.Forall₂ (· < ·) v maxs) ∧
      (l.map Prod.fst).Pairwise (Before reversed) ∧
      l.map Prod.snd = List.range l.length := by
  obtain ⟨ds, hlen, rfl⟩ : ∃ ds : List Nat, mins.length = ds.length ∧ maxs = MultiDimOffset.shift mins ds := by
    clear hne
    induction h with
    | nil => exact ⟨[], rfl, rfl⟩
    | @cons m M ms Ms hm _ ih =>
      obtain ⟨ds, h1, h2⟩ := ih
      refine ⟨(M - m) :: ds, by simp [h1], ?_⟩
      unfold MultiDimOffset.shift at h2 ⊢
      rw [List.zipWith_cons_cons, ← h2]
      congr 1; omega
  have hds : ds ≠ [] := by rintro rfl; exact hne (List.length_eq_zero_iff.mp hlen)
  have hlt : ∀ ms es is : List Nat, ms.length = es.length → is.length = es.length → 
      (List.Forall₂ (· < ·) (MultiDimOffset.shift ms is) (MultiDimOffset.shift ms es) ↔ List.Forall₂ (· < ·) is es) := by
    intro ms
    induction ms with
    | nil => intro es is h1 h2; cases es <;> cases is <;> simp_all [MultiDimOffset.shift]
    | cons m ms ih =>
      intro es is h1 h2
      cases es with
      | nil => simp at h1
      | cons e es => cases is with
        | nil => simp at h2
        | cons i is =>
          have := ih es is (by simpa using h1) (by simpa using h2)
          unfold MultiDimOffset.shift at this ⊢
          simp [this]
  have hnl : ∀ n, (MultiDim.nth reversed ds n).length = ds.length := by
    intro n; unfold MultiDim.nth; cases reversed <;> simp [MultiDim.unrank_length]
  refine ⟨_, MultiDimOffset.run_shift reversed mins ds hds hlen, ?_, ?_, ?_⟩
  · intro v
    simp only [List.map_map, Function.comp_def, List.mem_map, List.mem_range]
    constructor
    · rintro ⟨n, hn, rfl⟩
      refine ⟨?_, (hlt _ _ _ hlen (hnl n)).mpr ((MultiDim.nth_mem reversed ds _).mp ⟨n, hn, rfl⟩)⟩
      have : ∀ ms is : List Nat, ms.length = is.length → List.Forall₂ (· ≤ ·) ms (MultiDimOffset.shift ms is) := by
        intro ms
        induction ms with
        | nil => intro is _; simp [MultiDimOffset.shift]
        | cons m ms ih =>
          intro is hi
          cases is with
          | nil => simp at hi
          | cons i is =>
            have := ih is (by simpa using hi)
            unfold MultiDimOffset.shift at this ⊢
            simp [this]
      exact this _ _ (by rw [hlen, hnl])
    · rintro ⟨h1, h2⟩
      obtain ⟨is, hil, rfl⟩ : ∃ is : List Nat, mins.length = is.length ∧ v = MultiDimOffset.shift mins is := by
        clear h h2 hne hlen hlt hnl hds
        induction h1 with
        | nil => exact ⟨[], rfl, rfl⟩
        | @cons m M ms Ms hm _ ih =>
          obtain ⟨ds, h1, h2⟩ := ih
          refine ⟨(M - m) :: ds, by simp [h1], ?_⟩
          unfold MultiDimOffset.shift at h2 ⊢
          rw [List.zipWith_cons_cons, ← h2]
          congr 1; omega
      obtain ⟨n, hn, e⟩ := (MultiDim.nth_mem reversed ds is).mpr ((hlt _ _ _ hlen (by omega)).mp h2)
      exact ⟨n, hn, by rw [e]⟩
  · rw [List.map_map, List.pairwise_map]
    refine (List.pairwise_lt_range (n := ds.prod)).imp_of_mem ?_
    intro a b ha hb hab
    have hb' := nth_before reversed ds hab (List.mem_range.mp hb)
    have lexshift : ∀ ms is js : List Nat, ms.length = is.length → ms.length = js.length → List.Lex (· < ·) is js →
        List.Lex (· < ·) (MultiDimOffset.shift ms is) (MultiDimOffset.shift ms js) := by
      intro ms
      induction ms with
      | nil =>
        intro is js h1 h2 hl
        have : js = [] := List.length_eq_zero_iff.mp h2.symm
        subst this; cases hl
      | cons m ms ih =>
        intro is js h1 h2 hl
        unfold MultiDimOffset.shift at ih ⊢
        cases hl with
        | nil => simp at h1
        | @cons x l1 l2 hl =>
          rw [List.zipWith_cons_cons, List.zipWith_cons_cons]
          exact List.Lex.cons (ih _ _ (by simpa using h1) (by simpa using h2) hl)
        | @rel x l1 y l2 hl =>
          rw [List.zipWith_cons_cons, List.zipWith_cons_cons]
          exact List.Lex.rel (by omega)
    unfold Before at hb' ⊢
    cases reversed
    · simp only [Bool.false_eq_true, if_false] at hb' ⊢
      exact lexshift _ _ _ (by rw [hlen, hnl]) (by rw [hlen, hnl]) hb'
    · simp only [if_true, Function.comp_def] at hb' ⊢
      rw [MultiDimOffset.shift_reverse _ _ (by rw [hlen, hnl]), MultiDimOffset.shift_reverse _ _ (by rw [hlen, hnl])]
      exact lexshift _ _ _ (by simp [hlen, hnl]) (by simp [hlen, hnl]) hb'
  · simp [List.map_map, Function.comp_def]

/-- Storage order: the index iterator in the tensor's own order visits the entries at offsets 0, 1, 2, … This is why reading an explicitly stored
tensor from front to back and iterating over a virtual one (auto_storage_tensor.h:275-285, 302-319) visit the same entries in the same order. -/
theorem C29_storage_order (lastMajor : Bool) (dims : List Nat) (hne : dims ≠ []) :
    ∃ l, Yields (MultiDim.next lastMajor dims) MultiDim.atEnd MultiDim.value (MultiDim.first dims) l ∧
      l.map (fun v => Tensor.indexToOffset lastMajor dims v.1) = (List.range (Tensor.elementCount dims)).map some := by
  refine ⟨_, MultiDim.run_first lastMajor dims hne, ?_⟩
  rw [List.map_map, Tensor.count_eq _ hne]
  apply List.map_congr_left
  intro n hn
  rw [List.mem_range] at hn
  simp only [Function.comp_def]
  unfold Tensor.indexToOffset
  rw [if_pos ((Tensor.validate_iff _ _).mpr ((MultiDim.nth_mem lastMajor dims _).mp ⟨n, hn, rfl⟩)), Tensor.rank_nth _ _ _ hn]

/-- Without dimensions there is nothing to visit. -/
theorem C29_no_dimensions (reversed : Bool) :
    Yields (MultiDim.next reversed []) MultiDim.atEnd MultiDim.value (MultiDim.first []) [] :=
  Yields.done rfl

/-- The operator-word iterator visits exactly the words of the given length over the given operators, in lexicographic order. -/
theorem C29_operator_words (length numOps offset : Nat) (hl : 0 < length) :
    ∃ l, Yields (MultiOper.next numOps offset) MultiOper.atEnd MultiOper.value (MultiOper.first length numOps offset) l ∧
      (∀ v, v ∈ l ↔ v.length = length ∧ ∀ o ∈ v, offset ≤ o ∧ o < offset + numOps) ∧
      l.Pairwise (List.Lex (· < ·)) := by
  refine ⟨_, MultiOper.run_first length numOps offset hl, ?_, ?_⟩
  · intro v
    rw [← MultiOper.nth_mem]
    simp
  · rw [List.pairwise_map]
    refine (List.pairwise_lt_range (n := numOps ^ length)).imp_of_mem ?_
    intro a b ha hb hab
    have := nth_before false (List.replicate length numOps) hab (by simpa using hb)
    unfold Before at this
    simp only [Bool.false_eq_true, if_false] at this
    unfold MultiOper.nth
    have hmap : ∀ u v : List Nat, List.Lex (· < ·) u v → List.Lex (· < ·) (u.map (· + offset)) (v.map (· + offset)) := by
      intro u v h
      induction h with
      | nil => exact List.Lex.nil
      | cons _ ih => exact List.Lex.cons ih
      | rel h => exact List.Lex.rel (by simpa using h)
    exact hmap _ _ this

-- The box 2×2 in both orders, and the sub-box [1,3)×[0,2).
example : ([2, 2] : List Nat) ≠ [] ∧
    Yields (MultiDim.next true [2, 2]) MultiDim.atEnd MultiDim.value (MultiDim.first [2, 2]) [([0, 0], 0), ([1, 0], 1), ([0, 1], 2), ([1, 1], 3)] := by
  refine ⟨by decide, ?_⟩
  have := MultiDim.run_first true [2, 2] (by decide)
  simpa [MultiDim.nth, MultiDim.unrank, List.range, List.range.loop] using this
example : List.Forall₂ (· ≤ ·) [1, 0] [3, 2] ∧ ∃ s, s = MultiDimOffset.next false [1, 0] [3, 2] (MultiDimOffset.first [1, 0] [3, 2]) ∧ s.indices = [1, 1] := by
  refine ⟨by simp, _, rfl, by decide⟩
example : (MultiOper.next 3 5 (MultiOper.first 2 3 5)).indices = [5, 6] := by decide

end Moment.C29
