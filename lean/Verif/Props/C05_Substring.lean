import Verif.Model.SubstringHash
import Verif.Proof.Hash

/-! # C05: enumerating substring hashes visits every substring once, with the right hash -/

namespace Moment.C05

open Moment.Substring

/-- The letters from position `a` up to, excluding, position `b`. -/
def slice (w : List Nat) (a b : Nat) : List Nat := (w.drop a).take (b - a)

/-- The substrings in the order visited: by end position downwards, then by start position downwards. -/
def expected (radix : UInt64) (w : List Nat) (stop start : Nat) : List (Nat × Nat × UInt64) :=
  ((List.range (start + 1)).reverse.map fun a => (a, stop, hashWord radix (slice w a stop))) ++
  ((List.range stop).reverse.flatMap fun b =>
    (List.range b).reverse.map fun a => (a, b, hashWord radix (slice w a b)))

theorem hashLoop_append (radix : UInt64) (l : List Nat) (o : Nat) : ∀ h m,
    hashLoop radix (l ++ [o]) h m = hashLoop radix l h m + (UInt64.ofNat o + 1) * (m * radix ^ l.length) := by
  induction l with
  | nil => intro h m; simp [hashLoop]
  | cons x xs ih =>
    intro h m
    simp only [List.cons_append, hashLoop, ih, List.length_cons]
    congr 2
    rw [UInt64.pow_succ, UInt64.mul_assoc, UInt64.mul_comm radix]

theorem hashWord_cons (radix : UInt64) (o : Nat) (w : List Nat) :
    hashWord radix (o :: w) = hashWord radix w + (1 + UInt64.ofNat o) * radix ^ w.length := by
  unfold hashWord
  rw [List.reverse_cons, hashLoop_append, List.length_reverse, UInt64.one_mul, UInt64.add_comm 1]

theorem slice_cons (w : List Nat) (a b : Nat) (hab : a < b) (hb : b ≤ w.length) :
    slice w a b = w.getD a 0 :: slice w (a + 1) b := by
  unfold slice
  have ha : a < w.length := by omega
  rw [List.drop_eq_getElem_cons ha, show b - a = (b - (a + 1)) + 1 by omega, List.take_succ_cons]
  simp [List.getD, ha]

theorem slice_length (w : List Nat) (a b : Nat) (hb : b ≤ w.length) : (slice w a b).length = b - a := by
  simp [slice]; omega

theorem slice_self (w : List Nat) (a : Nat) : slice w a a = [] := by simp [slice]

/-- State after reaching substring `[a, b)`. -/
def Inv (radix : UInt64) (w : List Nat) (a b : Nat) : State :=
  { start := a, stop := b, stride := radix ^ (b - a - 1), hash := hashWord radix (slice w a b) }

theorem next_inner (radix : UInt64) (w : List Nat) (a b : Nat) (hab : a + 1 < b) (hb : b ≤ w.length) :
    next radix w (Inv radix w (a + 1) b) = Inv radix w a b := by
  unfold next Inv
  have h1 : ((a + 1 : Nat) : Int) - 1 = a := by omega
  have h2 : ¬ ((a : Int) < 0) := by omega
  have h3 : (0 : Int) ≤ a := by omega
  have h4 : b - a - 1 = (b - (a + 1) - 1) + 1 := by omega
  simp only [h1, h2, if_false, h3, if_true, Int.toNat_natCast]
  congr 1
  · rw [h4, UInt64.pow_succ]
  · rw [slice_cons w a b (by omega) hb, hashWord_cons, slice_length w (a + 1) b hb]
    rw [show b - (a + 1) = (b - (a + 1) - 1) + 1 by omega, UInt64.pow_succ]
    rfl

theorem next_outer (radix : UInt64) (w : List Nat) (b : Nat) (hb0 : 0 < b) (hb : b + 1 ≤ w.length) :
    next radix w (Inv radix w 0 (b + 1)) = Inv radix w (b - 1) b := by
  unfold next Inv
  have h1 : ((0 : Nat) : Int) - 1 < 0 := by omega
  have h3 : (0 : Int) ≤ ((b + 1 : Nat) : Int) - 1 - 1 := by omega
  simp only [h1, if_true, h3]
  have e1 : ((b + 1 : Nat) : Int) - 1 - 1 = ((b - 1 : Nat) : Int) := by omega
  have e2 : ((b + 1 : Nat) : Int) - 1 = (b : Int) := by omega
  rw [e1, Int.toNat_natCast]
  congr 1
  · rw [show b - (b - 1) - 1 = 0 by omega, UInt64.pow_zero]
  · rw [slice_cons w (b - 1) b (by omega) (by omega), show b - 1 + 1 = b by omega, slice_self, hashWord_cons]
    simp [hashWord, hashLoop]

theorem next_last (radix : UInt64) (w : List Nat) : atEnd (next radix w (Inv radix w 0 1)) := by
  unfold next Inv atEnd
  simp

theorem not_atEnd (radix : UInt64) (w : List Nat) (a b : Nat) : ¬ atEnd (Inv radix w a b) := by
  unfold atEnd Inv; simp

theorem first_eq (radix : UInt64) (w : List Nat) (hw : w ≠ []) : first w = Inv radix w (w.length - 1) w.length := by
  have hl : 0 < w.length := List.length_pos_iff.mpr hw
  unfold first Inv
  have e1 : (w.length : Int) - 1 = ((w.length - 1 : Nat) : Int) := by omega
  simp only [e1]
  rw [if_pos (by omega), Int.toNat_natCast]
  congr 1
  · omega
  · rw [show w.length - (w.length - 1) - 1 = 0 by omega, UInt64.pow_zero]
  · rw [slice_cons w (w.length - 1) w.length (by omega) (by omega), show w.length - 1 + 1 = w.length by omega, slice_self,
      hashWord_cons]
    simp [hashWord, hashLoop, UInt64.add_comm, ← UInt64.add_assoc]

theorem range_succ_reverse (n : Nat) : (List.range (n + 1)).reverse = n :: (List.range n).reverse := by
  rw [List.range_succ, List.reverse_append]; rfl

/-- The C++ loop over the range visits `expected`. -/
theorem run (radix : UInt64) (w : List Nat) : ∀ b a, a < b → b ≤ w.length →
    Yields (next radix w) atEnd value (Inv radix w a b) (expected radix w b a) := by
  intro b
  induction b with
  | zero => intro a h; omega
  | succ b ihb =>
    intro a
    induction a with
    | zero =>
      intro _ hb
      unfold expected
      simp only [Nat.zero_add, range_succ_reverse b, List.range_one, List.reverse_singleton, List.map_cons, List.map_nil,
        List.flatMap_cons, List.singleton_append]
      refine Yields.step (not_atEnd _ _ _ _) ?_
      rcases Nat.eq_zero_or_pos b with h0 | h0
      · subst h0; exact Yields.done (next_last radix w)
      · rw [next_outer radix w b h0 hb]
        have := ihb (b - 1) (by omega) (by omega)
        unfold expected at this
        rwa [show b - 1 + 1 = b by omega] at this
    | succ a iha =>
      intro hab hb
      have h := iha (by omega) hb
      unfold expected
      rw [range_succ_reverse (a + 1), List.map_cons, List.cons_append]
      refine Yields.step (not_atEnd _ _ _ _) ?_
      rw [next_inner radix w a (b + 1) (by omega) hb]
      exact h

/-- Every word: the loop terminates having visited exactly the listed substrings; this list has no repeats; a triple is in it exactly when it
names a non-empty substring of the word together with the hash the word hasher gives to it. -/
theorem C05_substring_hashes (radix : UInt64) (w : List Nat) :
    ∃ l, Yields (next radix w) atEnd value (first w) l ∧ (l.map fun x => (x.1, x.2.1)).Nodup ∧
      ∀ a b h, (a, b, h) ∈ l ↔ a < b ∧ b ≤ w.length ∧ h = hashWord radix (slice w a b) := by
  rcases Nat.eq_zero_or_pos w.length with h0 | h0
  · have : w = [] := List.length_eq_zero_iff.mp h0
    subst this
    refine ⟨[], Yields.done (by simp [first, atEnd]), List.nodup_nil, ?_⟩
    intro a b h; simp; omega
  · refine ⟨expected radix w w.length (w.length - 1), ?_, ?_, ?_⟩
    · rw [first_eq radix w (by intro h; simp [h] at h0)]
      exact run radix w w.length _ (by omega) (by omega)
    · unfold expected
      rw [show w.length - 1 + 1 = w.length by omega]
      have : ((List.range w.length).reverse.map fun a => (a, w.length, hashWord radix (slice w a w.length))) ++
        ((List.range w.length).reverse.flatMap fun b =>
          (List.range b).reverse.map fun a => (a, b, hashWord radix (slice w a b))) =
        ((List.range (w.length + 1)).reverse.flatMap fun b =>
          (List.range b).reverse.map fun a => (a, b, hashWord radix (slice w a b))) := by
        rw [range_succ_reverse, List.flatMap_cons]
      rw [this, List.map_flatMap]
      rw [List.nodup_flatMap]
      constructor
      · intro b _
        rw [List.map_map]
        refine List.Nodup.map ?_ (List.nodup_reverse.mpr List.nodup_range)
        intro x y hxy; simpa using hxy
      · refine List.Nodup.pairwise_of_forall_ne (List.nodup_reverse.mpr List.nodup_range) ?_
        intro b _ c _ hbc
        simp only [Function.onFun, List.disjoint_left]
        intro x hx hy
        simp only [List.map_map, List.mem_map] at hx hy
        obtain ⟨_, _, rfl⟩ := hx
        obtain ⟨_, _, h⟩ := hy
        simp at h
        exact hbc h.2.symm
    · intro a b h
      unfold expected
      simp only [List.mem_append, List.mem_map, List.mem_flatMap, List.mem_reverse, List.mem_range, Prod.mk.injEq]
      constructor
      · rintro (⟨x, hx, rfl, rfl, rfl⟩ | ⟨c, hc, x, hx, rfl, rfl, rfl⟩)
        · exact ⟨by omega, by omega, rfl⟩
        · exact ⟨hx, by omega, rfl⟩
      · rintro ⟨h1, h2, rfl⟩
        rcases Nat.lt_or_ge b w.length with hb | hb
        · exact Or.inr ⟨b, hb, a, h1, rfl, rfl, rfl⟩
        · have : b = w.length := by omega
          subst this
          exact Or.inl ⟨a, by omega, rfl, rfl, rfl⟩

/-- The six substrings of the word `2 0 1` over four letters. -/
example : Yields (next 4 [2, 0, 1]) atEnd value (first [2, 0, 1])
    [(2, 3, 3), (1, 3, 7), (0, 3, 55), (1, 2, 2), (0, 2, 14), (0, 1, 4)] := by
  obtain ⟨l, h, -⟩ := C05_substring_hashes 4 [2, 0, 1]
  have := run 4 [2, 0, 1] 3 2 (by simp) (by simp)
  rw [first_eq 4 _ (by simp)]
  exact this

end Moment.C05
