import Verif.Proof.MultiDimIndex

namespace Moment.MultiDimOffset
open Moment

/-- Shift by the lower limits. -/
def shift (mins is : List Nat) : List Nat := List.zipWith (· + ·) mins is

theorem carry_shift : ∀ mins ds is : List Nat, mins.length = ds.length → is.length = ds.length →
    carry mins (shift mins ds) (shift mins is) = (shift mins (MultiDim.carry ds is).1, (MultiDim.carry ds is).2)
  | [], [], [], _, _ => rfl
  | m :: ms, d :: ds, i :: is, h1, h2 => by
    have ih := carry_shift ms ds is (by simpa using h1) (by simpa using h2)
    unfold shift at ih ⊢
    simp only [List.zipWith_cons_cons, carry, MultiDim.carry]
    by_cases h : i + 1 ≥ d
    · rw [if_pos h, if_pos (show m + i + 1 ≥ m + d by omega), ih]; simp
    · rw [if_neg h, if_neg (show ¬ m + i + 1 ≥ m + d by omega)]; simp [Nat.add_assoc]

theorem carry_length : ∀ ds is : List Nat, (MultiDim.carry ds is).1.length = is.length
  | [], is => by simp [MultiDim.carry]
  | d :: ds, [] => by simp [MultiDim.carry]
  | d :: ds, i :: is => by
    simp only [MultiDim.carry]
    split
    · simp [carry_length ds is]
    · simp

theorem shift_reverse (mins is : List Nat) (h : mins.length = is.length) : (shift mins is).reverse = shift mins.reverse is.reverse := by
  unfold shift; rw [List.reverse_zipWith h]

theorem next_shift (reversed : Bool) (mins ds : List Nat) (hm : mins.length = ds.length) (s : MultiDim.State)
    (hs : s.indices.length = ds.length) (g : Nat) :
    next reversed mins (shift mins ds) { indices := shift mins s.indices, global := g, done := s.done } =
      { indices := shift mins (MultiDim.next reversed ds s).indices, global := g + 1, done := (MultiDim.next reversed ds s).done } := by
  unfold next MultiDim.next
  cases reversed
  · simp only [Bool.false_eq_true, if_false]
    rw [shift_reverse _ _ hm, shift_reverse _ _ (by omega), carry_shift _ _ _ (by simpa using hm) (by simpa using hs)]
    simp only [MultiDim.State.mk.injEq, and_self, and_true]
    rw [shift_reverse _ _ (by rw [carry_length]; simp; omega), List.reverse_reverse]
  · simp only [if_true]
    rw [carry_shift _ _ _ hm hs]

theorem next_length (reversed : Bool) (ds : List Nat) (s : MultiDim.State) :
    (MultiDim.next reversed ds s).indices.length = s.indices.length := by
  unfold MultiDim.next; cases reversed <;> simp [carry_length]

theorem run_shift (reversed : Bool) (mins ds : List Nat) (hne : ds ≠ []) (hm : mins.length = ds.length) :
    Yields (next reversed mins (shift mins ds)) atEnd value (first mins (shift mins ds))
      ((List.range ds.prod).map fun n => (shift mins (MultiDim.nth reversed ds n), n)) := by
  have hdone : (first mins (shift mins ds)).done = (MultiDim.first ds).done := by
    simp only [first, MultiDim.first]
    have h1 : mins.isEmpty = ds.isEmpty := by
      cases mins <;> cases ds <;> simp_all
    have h2 : ∀ ms es : List Nat, ms.length = es.length →
        (List.zipWith (· == ·) ms (shift ms es)).any id = es.any (· == 0) := by
      intro ms
      induction ms with
      | nil => intro es h; cases es with
        | nil => rfl
        | cons _ _ => simp at h
      | cons m ms ih =>
        intro es h
        cases es with
        | nil => simp at h
        | cons e es =>
          have := ih es (by simpa using h)
          unfold shift at this ⊢
          simp only [List.zipWith_cons_cons, List.any_cons, id, this]
          congr 1
          by_cases he : e = 0 <;> simp [he]
    rw [h1, h2 mins ds hm]
  by_cases hd : (MultiDim.first ds).done = true
  · have h0 : ds.prod = 0 := by
      apply MultiDim.prod_zero
      simp only [MultiDim.first, Bool.or_eq_true, List.isEmpty_iff, hne, false_or, List.any_eq_true, beq_iff_eq] at hd
      obtain ⟨x, hx, rfl⟩ := hd; exact hx
    rw [h0]
    exact Yields.done (by rw [atEnd, hdone]; exact hd)
  · have key := MultiDim.run_first reversed ds hne
    have := Yields.sim (next' := next reversed mins (shift mins ds)) (atEnd' := atEnd) (value' := value)
      (fun s t => s.indices.length = ds.length ∧ t = { indices := shift mins s.indices, global := s.global, done := s.done })
      (fun p => (shift mins p.1, p.2))
      (by rintro s t ⟨_, rfl⟩; exact Iff.rfl)
      (by
        rintro s t ⟨hl, rfl⟩ _
        refine ⟨by rw [next_length, hl], ?_⟩
        rw [next_shift _ _ _ hm _ hl]
        simp [MultiDim.next])
      (by rintro s t ⟨_, rfl⟩ _; rfl) key (t := first mins (shift mins ds))
      ⟨by simp [MultiDim.first], by
        have e : (first mins (shift mins ds)).done = false := by rw [hdone]; simpa using hd
        have e2 : (MultiDim.first ds).done = false := by simpa using hd
        have hz : ∀ ms : List Nat, shift ms (List.replicate ms.length 0) = ms := by
          intro ms
          induction ms with
          | nil => rfl
          | cons m ms ih => unfold shift at ih ⊢; simp [List.replicate_succ, ih]
        have : first mins (shift mins ds) = { indices := mins, global := 0, done := false } := by
          simp only [first] at e ⊢
          rw [e]; simp
        have t2 : MultiDim.first ds = { indices := List.replicate ds.length 0, global := 0, done := false } := by
          simp only [MultiDim.first] at e2 ⊢
          rw [e2]; simp
        rw [this, t2]
        simp only [MultiDim.State.mk.injEq, and_self, and_true]
        rw [← hm, hz]⟩
    rw [List.map_map] at this
    exact this

end Moment.MultiDimOffset
