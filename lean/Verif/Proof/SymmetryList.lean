import Verif.Spec.SymmetryRep
import Mathlib.Data.List.Sort
import Mathlib.Data.Nat.Bitwise
import Mathlib.Tactic.Ring

/-! # The list of lengths to build -/

namespace Moment.SymRep

theorem popcount_two_pow {k : Nat} (hk : k < 64) : popcount (2 ^ k) = 1 := by
  have : ∀ k < 64, popcount (2 ^ k) = 1 := by decide +kernel
  exact this k hk

theorem two_pow_log2_le {n : Nat} (h : n ≠ 0) : 2 ^ n.log2 ≤ n := Nat.log2_self_le h

theorem lt_two_pow_log2 (n : Nat) : n < 2 ^ (n.log2 + 1) := Nat.lt_log2_self

/-- A positive number of 64 bits is a power of two, or a power of two and a smaller positive number. -/
theorem pow_or_sum {n : Nat} (h0 : 0 < n) (hn : n < 2 ^ 64) : (popcount n = 1 ∧ n = 2 ^ n.log2) ∨
    (popcount n ≠ 1 ∧ ∃ s, 0 < s ∧ s < 2 ^ n.log2 ∧ n = 2 ^ n.log2 + s) := by
  have h1 := two_pow_log2_le h0.ne'
  have h2 := lt_two_pow_log2 n
  have hk : n.log2 < 64 := (Nat.log2_lt h0.ne').mpr hn
  by_cases he : n = 2 ^ n.log2
  · left
    refine ⟨?_, he⟩
    rw [he]
    exact popcount_two_pow hk
  · right
    refine ⟨?_, n - 2 ^ n.log2, by omega, by rw [Nat.pow_succ] at h2; omega, by omega⟩
    intro hc
    apply he
    -- two different bits are set
    have hbit : n.testBit n.log2 = true := by
      rw [Nat.testBit_log2]
      exact h0.ne'
    apply Nat.eq_of_testBit_eq
    intro i
    rw [Nat.testBit_two_pow]
    by_cases hi : n.log2 = i
    · rw [← hi, hbit]; simp
    · simp only [hi, decide_false]
      by_contra hb
      rw [Bool.not_eq_false] at hb
      have hi64 : i < 64 := by
        by_contra h
        rw [Nat.testBit_eq_false_of_lt (lt_of_lt_of_le hn (Nat.pow_le_pow_right (by omega) (by omega)))] at hb
        exact absurd hb (by simp)
      unfold popcount at hc
      rw [List.countP_eq_length_filter] at hc
      obtain ⟨x, hx⟩ := List.length_eq_one_iff.mp hc
      have m1 : n.log2 ∈ (List.range 64).filter fun i => n.testBit i := by simp [hbit, hk]
      have m2 : i ∈ (List.range 64).filter fun i => n.testBit i := by simp [hb, hi64]
      rw [hx, List.mem_singleton] at m1 m2
      exact hi (m1.trans m2.symm)

theorem log2_pow_add {k s : Nat} (hs : s < 2 ^ k) : (2 ^ k + s).log2 = k := by
  rw [Nat.log2_eq_iff (by have := Nat.two_pow_pos k; omega)]
  rw [Nat.pow_succ]
  omega

theorem xor_pow {k s : Nat} (hs : s < 2 ^ k) : (2 ^ k + s) ^^^ 2 ^ k = s := by
  have : 2 ^ k + s = 2 ^ k ^^^ s := by
    apply Nat.eq_of_testBit_eq
    intro i
    rw [Nat.testBit_xor, Nat.testBit_two_pow]
    rcases Nat.lt_trichotomy i k with h | h | h
    · have hki : ¬ k = i := by omega
      rw [Nat.testBit_two_pow_add_gt h]; simp only [hki, decide_false, Bool.false_bne]
    · subst h
      rw [Nat.testBit_two_pow_add_eq, Nat.testBit_eq_false_of_lt hs]; simp
    · have h1 : s < 2 ^ i := lt_trans hs (Nat.pow_lt_pow_right (by omega) h)
      have h2 : 2 ^ k + s < 2 ^ i := by
        have : 2 ^ (k + 1) ≤ 2 ^ i := Nat.pow_le_pow_right (by omega) h
        rw [Nat.pow_succ] at this
        omega
      rw [Nat.testBit_eq_false_of_lt h1, Nat.testBit_eq_false_of_lt h2]; simp; omega
  rw [this, Nat.xor_right_comm, Nat.xor_self, Nat.zero_xor]

/-- Parents, by cases. -/
theorem parents_pow {k : Nat} (hk : k + 1 < 64) : parents (2 ^ (k + 1)) = (2 ^ k, 2 ^ k) := by
  have : (2 : Nat) ^ (k + 1) >>> 1 = 2 ^ k := by rw [Nat.shiftRight_eq_div_pow, Nat.pow_succ]; omega
  rw [parents, if_pos (popcount_two_pow hk), this]

theorem parents_sum {k s : Nat} (hs : s < 2 ^ k) (hp : popcount (2 ^ k + s) ≠ 1) : parents (2 ^ k + s) = (2 ^ k, s) := by
  rw [parents, if_neg hp, bitFloor, log2_pow_add hs, xor_pow hs]

theorem parents_spec {n : Nat} (h2 : 2 ≤ n) (hn : n < 2 ^ 64) : (parents n).1 + (parents n).2 = n ∧ (parents n).2 ≤ (parents n).1 ∧ 0 < (parents n).2 := by
  rcases pow_or_sum (by omega) hn with ⟨_, h⟩ | ⟨hp, s, h0, hs, h⟩
  · have hk : n.log2 < 64 := (Nat.log2_lt (by omega)).mpr hn
    obtain ⟨k, e⟩ : ∃ k, n.log2 = k + 1 := Nat.exists_eq_succ_of_ne_zero fun h0 => by rw [h0] at h; omega
    rw [h, e, parents_pow (by omega)]
    exact ⟨by rw [Nat.pow_succ]; omega, Nat.le_refl _, Nat.two_pow_pos k⟩
  · generalize n.log2 = k at *
    subst h
    rw [parents_sum hs hp]
    exact ⟨rfl, hs.le, h0⟩

/-- The smaller powers of two above `s`, starting with the `k`th. -/
def pw (s : Nat) : Nat → List Nat
  | 0 => []
  | k + 1 => if 2 ^ (k + 1) > s then 2 ^ (k + 1) :: pw s k else []

theorem powers_eq {s : Nat} (h0 : 0 < s) : ∀ (k : Nat) (out : List Nat), powers (2 ^ k) s out = some (out ++ pw s k) := by
  intro k
  induction k with
  | zero => intro out; rw [powers.eq_def, if_neg (by simp; omega), pw, List.append_nil]
  | succ k ih =>
    intro out
    rw [powers.eq_def, pw]
    have : (2 : Nat) ^ (k + 1) >>> 1 = 2 ^ k := by rw [Nat.shiftRight_eq_div_pow, Nat.pow_succ]; omega
    by_cases h : 2 ^ (k + 1) > s
    · rw [if_pos h, if_pos h, this, ih]; simp
    · rw [if_neg h, if_neg h, List.append_nil]

theorem mem_pw {s : Nat} : ∀ {k m : Nat}, m ∈ pw s k → s < m ∧ m ≤ 2 ^ k ∧ ∃ j, j < k ∧ m = 2 ^ (j + 1) := by
  intro k
  induction k with
  | zero => intro m h; simp [pw] at h
  | succ k ih =>
    intro m h
    rw [pw] at h
    by_cases hs : 2 ^ (k + 1) > s
    · rw [if_pos hs] at h
      rcases List.mem_cons.mp h with rfl | h
      · exact ⟨hs, Nat.le_refl _, k, by omega, rfl⟩
      · obtain ⟨h1, h2, j, h3, h4⟩ := ih h
        exact ⟨h1, le_trans h2 (Nat.pow_le_pow_right (by omega) (by omega)), j, by omega, h4⟩
    · rw [if_neg hs] at h; simp at h

theorem pw_mem {s : Nat} : ∀ {k j : Nat}, j < k → s < 2 ^ (j + 1) → 2 ^ (j + 1) ∈ pw s k := by
  intro k
  induction k with
  | zero => intro j h; omega
  | succ k ih =>
    intro j hj hs
    have : 2 ^ (k + 1) > s := lt_of_lt_of_le hs (Nat.pow_le_pow_right (by omega) (by omega))
    rw [pw, if_pos this]
    by_cases h : j = k
    · subst h; simp
    · exact List.mem_cons_of_mem _ (ih (by omega) hs)

theorem pw_sorted {s : Nat} : ∀ k, (pw s k).Pairwise (· > ·) := by
  intro k
  induction k with
  | zero => simp [pw]
  | succ k ih =>
    rw [pw]
    split
    · refine List.pairwise_cons.mpr ⟨?_, ih⟩
      intro m hm
      obtain ⟨_, h2, _⟩ := mem_pw hm
      have : 2 ^ k < 2 ^ (k + 1) := Nat.pow_lt_pow_right (by omega) (by omega)
      omega
    · simp

/-- What the loop appends, in decreasing order. -/
structure Down (n : Nat) (l : List Nat) : Prop where
  head : ∃ t, l = n :: t
  sorted : l.Pairwise (· > ·)
  big : ∀ m ∈ l, 2 ≤ m
  closed : ∀ m ∈ l, ((parents m).1 = 1 ∨ (parents m).1 ∈ l) ∧ ((parents m).2 = 1 ∨ (parents m).2 ∈ l)
  floor : bitFloor n ∈ l

theorem down_le {n : Nat} {l : List Nat} (h : Down n l) {m : Nat} (hm : m ∈ l) : m ≤ n := by
  obtain ⟨t, rfl⟩ := h.head
  rcases List.mem_cons.mp hm with rfl | hm
  · exact Nat.le_refl _
  · exact ((List.pairwise_cons.mp h.sorted).1 m hm).le

theorem buildLoop_down : ∀ (n : Nat), 2 ≤ n → n < 2 ^ 64 → ∃ l, Down n l ∧ ∀ out, buildLoop n out = some (out ++ l) := by
  intro n
  induction n using Nat.strong_induction_on with
  | _ n ih =>
    intro h2 hn
    have hk : n.log2 < 64 := (Nat.log2_lt (by omega)).mpr hn
    rcases pow_or_sum (by omega) hn with ⟨hp, h⟩ | ⟨hp, s, h0, hs, h⟩
    · obtain ⟨k, e⟩ : ∃ k, n.log2 = k + 1 := Nat.exists_eq_succ_of_ne_zero fun h0 => by rw [h0] at h; omega
      rw [e] at h hk
      have hhalf : n >>> 1 = 2 ^ k := by rw [h, Nat.shiftRight_eq_div_pow, Nat.pow_succ]; omega
      have hpar : parents n = (2 ^ k, 2 ^ k) := by rw [h, parents_pow hk]
      have hfl : bitFloor n = n := by rw [bitFloor, e, h]
      by_cases hr : 2 ^ k > 1
      · have hlt : 2 ^ k < n := by rw [h]; exact Nat.pow_lt_pow_right (by omega) (by omega)
        obtain ⟨l, hd, hl⟩ := ih (2 ^ k) hlt hr (by omega)
        refine ⟨n :: l, ⟨⟨l, rfl⟩, ?_, ?_, ?_, by rw [hfl]; simp⟩, ?_⟩
        · exact List.pairwise_cons.mpr ⟨fun m hm => lt_of_le_of_lt (down_le hd hm) hlt, hd.sorted⟩
        · intro m hm
          rcases List.mem_cons.mp hm with rfl | hm
          · exact h2
          · exact hd.big m hm
        · intro m hm
          rcases List.mem_cons.mp hm with rfl | hm
          · obtain ⟨t, ht⟩ := hd.head
            rw [hpar, ht]; simp
          · obtain ⟨h1, h2⟩ := hd.closed m hm
            exact ⟨h1.imp_right (List.mem_cons_of_mem _), h2.imp_right (List.mem_cons_of_mem _)⟩
        · intro out
          rw [buildLoop.eq_def]
          dsimp only
          rw [if_pos hp, hhalf, if_pos hr, hl]
          simp
      · have hk0 : 2 ^ k = 1 := by have := Nat.two_pow_pos k; omega
        refine ⟨[n], ⟨⟨[], rfl⟩, by simp, by simpa using h2, ?_, by rw [hfl]; simp⟩, ?_⟩
        · intro m hm
          rw [List.mem_singleton.mp hm, hpar, hk0]; simp
        · intro out
          rw [buildLoop.eq_def]
          dsimp only
          rw [if_pos hp, hhalf, if_neg hr]
    · generalize hkk : n.log2 = k at *
      have hrem : n ^^^ bitFloor n = s := by rw [bitFloor, hkk, h, xor_pow hs]
      have hpar : parents n = (2 ^ k, s) := by rw [h, parents_sum hs (by rw [← h]; exact hp)]
      have hfl : bitFloor n = 2 ^ k := by rw [bitFloor, hkk]
      obtain ⟨k', rfl⟩ : ∃ k', k = k' + 1 := Nat.exists_eq_succ_of_ne_zero fun h0 => by subst h0; omega
      have hfm : 2 ^ (k' + 1) ∈ pw s (k' + 1) := pw_mem (by omega) hs
      have hpwc : ∀ m ∈ pw s (k' + 1), ∀ l : List Nat, (s = 1 ∨ bitFloor s ∈ l) →
          ((parents m).1 = 1 ∨ (parents m).1 ∈ pw s (k' + 1) ++ l) ∧ ((parents m).2 = 1 ∨ (parents m).2 ∈ pw s (k' + 1) ++ l) := by
        intro m hm l hl
        obtain ⟨h1, _, j, hj, rfl⟩ := mem_pw hm
        rw [parents_pow (by omega)]
        have : 2 ^ j = 1 ∨ 2 ^ j ∈ pw s (k' + 1) ++ l := by
          cases j with
          | zero => exact .inl rfl
          | succ j =>
            right
            by_cases hsj : s < 2 ^ (j + 1)
            · exact List.mem_append_left _ (pw_mem (by omega) hsj)
            · rcases hl with hl | hl
              · exfalso
                have : 2 ≤ 2 ^ (j + 1) := by rw [Nat.pow_succ]; have := Nat.two_pow_pos j; omega
                omega
              · have : bitFloor s = 2 ^ (j + 1) := by
                  rw [bitFloor]; congr 1
                  rw [Nat.log2_eq_iff (by omega)]
                  exact ⟨by omega, h1⟩
                rw [← this]
                exact List.mem_append_right _ hl
        exact ⟨this, this⟩
      by_cases hr : s > 1
      · obtain ⟨l, hd, hl⟩ := ih s (by omega) hr (by omega)
        refine ⟨n :: (pw s (k' + 1) ++ l), ⟨⟨_, rfl⟩, ?_, ?_, ?_, by rw [hfl]; exact List.mem_cons_of_mem _ (List.mem_append_left _ hfm)⟩, ?_⟩
        · refine List.pairwise_cons.mpr ⟨?_, List.pairwise_append.mpr ⟨pw_sorted _, hd.sorted, ?_⟩⟩
          · intro m hm
            rcases List.mem_append.mp hm with hm | hm
            · have := (mem_pw hm).2.1; omega
            · have := down_le hd hm; omega
          · intro a ha b hb
            have h1 := (mem_pw ha).1
            have h2 := down_le hd hb
            omega
        · intro m hm
          rcases List.mem_cons.mp hm with rfl | hm
          · exact h2
          · rcases List.mem_append.mp hm with hm | hm
            · have := (mem_pw hm).1; omega
            · exact hd.big m hm
        · intro m hm
          rcases List.mem_cons.mp hm with rfl | hm
          · obtain ⟨t, ht⟩ := hd.head
            rw [hpar]
            refine ⟨.inr (List.mem_cons_of_mem _ (List.mem_append_left _ hfm)), .inr (List.mem_cons_of_mem _ (List.mem_append_right _ ?_))⟩
            rw [ht]; simp
          · rcases List.mem_append.mp hm with hm | hm
            · obtain ⟨h1, h2⟩ := hpwc m hm l (.inr hd.floor)
              exact ⟨h1.imp_right (List.mem_cons_of_mem _), h2.imp_right (List.mem_cons_of_mem _)⟩
            · obtain ⟨h1, h2⟩ := hd.closed m hm
              exact ⟨h1.imp_right fun h => List.mem_cons_of_mem _ (List.mem_append_right _ h), h2.imp_right fun h => List.mem_cons_of_mem _ (List.mem_append_right _ h)⟩
        · intro out
          rw [buildLoop.eq_def]
          dsimp only
          rw [if_neg hp, hrem, hfl, powers_eq h0]
          show (if s > 1 then _ else _) = _
          rw [if_pos hr, hl]
          simp
      · have hs1 : s = 1 := by omega
        refine ⟨n :: pw s (k' + 1), ⟨⟨_, rfl⟩, ?_, ?_, ?_, by rw [hfl]; exact List.mem_cons_of_mem _ hfm⟩, ?_⟩
        · refine List.pairwise_cons.mpr ⟨?_, pw_sorted _⟩
          intro m hm
          have := (mem_pw hm).2.1; omega
        · intro m hm
          rcases List.mem_cons.mp hm with rfl | hm
          · exact h2
          · have := (mem_pw hm).1; omega
        · intro m hm
          rcases List.mem_cons.mp hm with rfl | hm
          · rw [hpar]
            exact ⟨.inr (List.mem_cons_of_mem _ hfm), .inl hs1⟩
          · obtain ⟨h1, h2⟩ := hpwc m hm [] (.inl hs1)
            rw [List.append_nil] at h1 h2
            exact ⟨h1.imp_right (List.mem_cons_of_mem _), h2.imp_right (List.mem_cons_of_mem _)⟩
        · intro out
          rw [buildLoop.eq_def]
          dsimp only
          rw [if_neg hp, hrem, hfl, powers_eq h0]
          show (if s > 1 then _ else _) = _
          rw [if_neg hr]
          simp

/-- The list in increasing order, with the parents of each entry. -/
theorem buildList_spec {n : Nat} (h2 : 2 ≤ n) (hn : n < 2 ^ 64) : ∃ l, buildList n = some l ∧ l.getLast? = some n ∧ l.Pairwise (· < ·) ∧ (∀ m ∈ l, 2 ≤ m ∧ m ≤ n) ∧
    ∀ m ∈ l, ((parents m).1 = 1 ∨ (parents m).1 ∈ l) ∧ ((parents m).2 = 1 ∨ (parents m).2 ∈ l) := by
  obtain ⟨l, hd, hl⟩ := buildLoop_down n h2 hn
  refine ⟨l.reverse, ?_, ?_, ?_, ?_, ?_⟩
  · rw [buildList, if_neg (by omega), hl]; simp
  · obtain ⟨t, rfl⟩ := hd.head; simp
  · rw [List.pairwise_reverse]; exact hd.sorted
  · intro m hm
    rw [List.mem_reverse] at hm
    exact ⟨hd.big m hm, down_le hd hm⟩
  · intro m hm
    rw [List.mem_reverse] at hm
    simpa using hd.closed m hm

end Moment.SymRep
