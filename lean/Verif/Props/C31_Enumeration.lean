import Verif.Proof.Combinations
import Verif.Proof.Multipartition
import Mathlib.Data.Nat.Choose.Basic
import Mathlib.Data.Nat.Factorial.BigOperators
import Mathlib.Data.UInt
import Mathlib.Tactic.NormNum

/-! # C31–C34: enumeration of subsets, ordered words, compositions and partitions -/

namespace Moment.C31
open Moment

/-- C31. The subset iterator stops and visits exactly the strictly increasing index lists of length `K` below `N`, each once (in order of the largest
entries first); there are `N choose K` of them. -/
theorem C31_subsets (N K : Nat) (hK : K ≤ N) :
    ∃ l, Yields (Comb.next false N K) Comb.atEnd Comb.value (Comb.first false K) l ∧
      (∀ v, v ∈ l ↔ v.length = K ∧ v.Pairwise (· < ·) ∧ ∀ x ∈ v, x < N) ∧
      l.Pairwise (fun u v => List.Lex (· < ·) u.reverse v.reverse) ∧ l.Nodup ∧ l.length = N.choose K := by
  obtain ⟨l, h1, h2, h3⟩ := Comb.exclusive_run N K hK
  have hnd : l.Nodup := h2.imp fun {a b} hab he => by subst he; exact colex_irrefl _ hab
  refine ⟨l, h1, h3, h2, hnd, ?_⟩
  have hperm : l.Perm ((List.range N).sublistsLen K) := by
    rw [List.perm_ext_iff_of_nodup hnd (List.nodup_sublistsLen K List.nodup_range)]
    intro v
    rw [h3, Comb.mem_sublists]
  rw [hperm.length_eq, List.length_sublistsLen, List.length_range]

/-- C31 for `CommutingIndexIterator`: nondecreasing lists. -/
theorem C31_commuting (N K : Nat) (hN : 0 < N ∨ K = 0) :
    ∃ l, Yields (Comb.next true N K) Comb.atEnd Comb.value (Comb.first true K) l ∧
      (∀ v, v ∈ l ↔ v.length = K ∧ v.Pairwise (· ≤ ·) ∧ ∀ x ∈ v, x < N) ∧ l.Pairwise (List.Lex (· < ·)) := by
  obtain ⟨l, h1, h2, h3⟩ := Comb.inclusive_exact N K hN
  exact ⟨l, h1, h3, h2⟩

theorem product64_eq (a : Nat) (n : Nat) (h : a.ascFactorial n < 2 ^ 64) (ha : a + n < 2 ^ 64) (hpos : 0 < a) :
    (Comb.product64 (UInt64.ofNat a) n).toNat = a.ascFactorial n := by
  induction n with
  | zero => simp [Comb.product64]
  | succ n ih =>
    have hs : a.ascFactorial (n + 1) = (a + n) * a.ascFactorial n := Nat.ascFactorial_succ
    have hle : a.ascFactorial n ≤ a.ascFactorial (n + 1) := by
      rw [hs]; exact Nat.le_mul_of_pos_left _ (by omega)
    rw [Comb.product64, UInt64.toNat_mul, ih (by omega) (by omega), UInt64.toNat_add, UInt64.toNat_ofNat', UInt64.toNat_ofNat',
      Nat.mod_eq_of_lt (show a < 2 ^ 64 by omega), Nat.mod_eq_of_lt (show n < 2 ^ 64 by omega),
      Nat.mod_eq_of_lt (show a + n < 2 ^ 64 by omega), Nat.mul_comm, ← hs, Nat.mod_eq_of_lt h]

/-- `combination_count()` of the subset iterator is the number of lists visited, provided the product `N·(N-1)⋯(N-K+1)` fits in 64 bits. -/
theorem C31_count_partial (N K : Nat) (hK : K ≤ N) (hN : N + 1 < 2 ^ 64) (h : N.descFactorial K < 2 ^ 64) :
    ∃ l, Yields (Comb.next false N K) Comb.atEnd Comb.value (Comb.first false K) l ∧ (Comb.combinations N K).toNat = l.length := by
  obtain ⟨l, h1, _, _, _, h5⟩ := C31_subsets N K hK
  refine ⟨l, h1, ?_⟩
  rw [h5]
  unfold Comb.combinations
  have e1 : UInt64.ofNat (N - K) + 1 = UInt64.ofNat (N - K + 1) := by rw [UInt64.ofNat_add]; rfl
  have e2 : (1 : UInt64) = UInt64.ofNat 1 := rfl
  have d1 : (N - K + 1).ascFactorial K = N.descFactorial K := by
    have := Nat.add_descFactorial_eq_ascFactorial (N - K) K
    rw [Nat.sub_add_cancel hK] at this
    exact this.symm
  have d2 : (1).ascFactorial K = K.factorial := Nat.one_ascFactorial K
  have hfac : K.factorial ≤ N.descFactorial K := by
    rw [Nat.descFactorial_eq_factorial_mul_choose]
    exact Nat.le_mul_of_pos_right _ (Nat.choose_pos hK)
  rw [UInt64.toNat_div, e1, e2, product64_eq _ _ (by rw [d1]; exact h) (by omega) (by omega),
    product64_eq _ _ (by rw [d2]; omega) (by omega) (by omega), d1, d2, Nat.choose_eq_descFactorial_div_factorial]

/-- Without that condition it is wrong: 231 lists are visited for 20 out of 22, the count is computed as 3. -/
theorem C31_count_refuted_overflow :
    ∃ l, Yields (Comb.next false 22 20) Comb.atEnd Comb.value (Comb.first false 20) l ∧ l.length = 231 ∧
      (Comb.combinations 22 20).toNat = 3 := by
  obtain ⟨l, h1, _, _, _, h5⟩ := C31_subsets 22 20 (by decide)
  exact ⟨l, h1, by rw [h5]; decide, by decide +kernel⟩

/-- For `CommutingIndexIterator` the count is wrong already for words of length 2 over 2 objects: three are visited, the count says one. -/
theorem C31_count_refuted_commuting :
    ∃ l, Yields (Comb.next true 2 2) Comb.atEnd Comb.value (Comb.first true 2) l ∧ l.length = 3 ∧ (Comb.combinations 2 2).toNat = 1 := by
  refine ⟨[[0, 0], [0, 1], [1, 1]], ?_, rfl, by decide⟩
  refine Yields.step (s := Comb.first true 2) (by simp [Comb.atEnd, Comb.first]) ?_
  refine Yields.step (s := (⟨[0, 1], false⟩ : Comb.State)) (by simp [Comb.atEnd]) ?_
  refine Yields.step (s := (⟨[1, 1], false⟩ : Comb.State)) (by simp [Comb.atEnd]) ?_
  exact Yields.done rfl

/-- C32. Triangular index iterator: nondecreasing (with `duplicates`) or strictly increasing words of positive length over `0..N-1`, each once, in
lexicographic order, with the running count as global index. -/
theorem C32_triangular (duplicates : Bool) (N K : Nat) (hK : 0 < K) :
    ∃ l, Yields (TriIndex.next duplicates N K) TriIndex.atEnd TriIndex.value (TriIndex.first duplicates N K) l ∧
      (∀ v, v ∈ l.map Prod.fst ↔ v.length = K ∧ v.Pairwise (if duplicates then (· ≤ ·) else (· < ·)) ∧ ∀ x ∈ v, x < N) ∧
      (l.map Prod.fst).Pairwise (List.Lex (· < ·)) ∧
      l.map Prod.snd = List.range l.length := by
  obtain ⟨l, h1, h2, h3⟩ := TriIndex.run_first duplicates N K hK
  have hg := TriIndex.globals duplicates N K _ _ h1
  have hz : (l.zip (List.range' (TriIndex.first duplicates N K).global l.length)).map Prod.fst = l := by
    rw [List.map_fst_zip]; simp
  refine ⟨_, hg, ?_, ?_, ?_⟩
  · rw [hz]; exact h3
  · rw [hz]; exact h2
  · rw [List.map_snd_zip (by simp)]
    rcases hl : l with _ | ⟨v, l'⟩
    · simp
    · have hnd : ¬ TriIndex.atEnd (TriIndex.first duplicates N K) := by
        intro he
        have := h1.unique (Yields.done he)
        rw [hl] at this; cases this
      have h0 : (TriIndex.first duplicates N K).global = 0 := by
        unfold TriIndex.atEnd TriIndex.first at hnd
        unfold TriIndex.first
        simp only at hnd ⊢
        rw [if_neg hnd]
      rw [h0, ← List.range_eq_range']
      simp

/-- C32 for `OrderedPermutationIterator`, any length, at least one object. -/
theorem C32_ordered_words (N K : Nat) (hN : 0 < N) :
    ∃ l, Yields (OrdPerm.next N K) Comb.atEnd Comb.value (OrdPerm.first K) l ∧
      (∀ v, v ∈ l ↔ v.length = K ∧ v.Pairwise (· ≤ ·) ∧ ∀ x ∈ v, x < N) ∧ l.Pairwise (List.Lex (· < ·)) := by
  obtain ⟨l, h1, h2, h3⟩ := OrdPerm.exact_run N K hN
  exact ⟨l, h1, h3, h2⟩

/-- For length zero the two disagree: there is one empty word, the triangular iterator visits none, the other visits it. -/
theorem C32_length_zero (duplicates : Bool) (N : Nat) :
    Yields (TriIndex.next duplicates N 0) TriIndex.atEnd TriIndex.value (TriIndex.first duplicates N 0) [] ∧
    Yields (OrdPerm.next N 0) Comb.atEnd Comb.value (OrdPerm.first 0) [[]] :=
  ⟨Yields.done (by simp [TriIndex.atEnd, TriIndex.first]),
    Yields.step (by simp [Comb.atEnd, OrdPerm.first]) (Yields.done (by simp [Comb.atEnd, OrdPerm.next]))⟩

/-- C33. Every way of writing `sum` as an ordered sum over the parties is visited once; in increasing lexicographic order, or decreasing if reversed. -/
theorem C33_compositions (reversed : Bool) (sum parties : Nat) (hp : 0 < parties) :
    ∃ l, Yields (Multipart.next reversed sum) Multipart.atEnd Multipart.value (Multipart.first reversed sum parties) l ∧
      (∀ v, v ∈ l ↔ v.length = parties ∧ v.sum = sum) ∧
      l.Pairwise (fun u v => if reversed then List.Lex (· < ·) v u else List.Lex (· < ·) u v) := by
  cases reversed
  · obtain ⟨l, h1, h2, h3⟩ := Multipart.forward_run sum parties hp
    exact ⟨l, h1, h3, h2⟩
  · obtain ⟨l, h1, h2, h3⟩ := Multipart.reverse_run sum parties hp
    exact ⟨l, h1, h3, h2⟩

/-- C34. The partition iterator visits every `K`-subset of `N` items once; each time the complement is exactly the increasing list of the other
items and bit `i` says whether item `i` is in the subset. -/
theorem C34_partitions (N K : Nat) (hK : K ≤ N) :
    ∃ l, Yields (Comb.pnext N K) Comb.patEnd Comb.pvalue (Comb.pfirst N K) l ∧
      (∀ v, v ∈ l.map Prod.fst ↔ v.length = K ∧ v.Pairwise (· < ·) ∧ ∀ x ∈ v, x < N) ∧ (l.map Prod.fst).Nodup ∧
      ∀ p ∈ l, (∀ x, x ∈ p.2.1 ↔ x < N ∧ x ∉ p.1) ∧ p.2.1.Pairwise (· < ·) ∧
        p.2.2.length = N ∧ ∀ i (hi : i < p.2.2.length), p.2.2[i] = true ↔ i ∈ p.1 := by
  obtain ⟨l, h1, h2, h3, h4, _⟩ := C31_subsets N K hK
  refine ⟨_, Comb.partition_run N K hK l h1 h2, ?_, ?_, ?_⟩
  · intro v
    rw [List.map_map]
    have : (Prod.fst ∘ Comb.report N) = id := rfl
    rw [this, List.map_id]
    exact h2 v
  · rw [List.map_map]
    have : (Prod.fst ∘ Comb.report N) = id := rfl
    rw [this, List.map_id]
    exact h4
  · intro p hp
    obtain ⟨v, _, rfl⟩ := List.mem_map.mp hp
    unfold Comb.report
    refine ⟨fun x => by simp, List.Pairwise.filter _ List.pairwise_lt_range, by simp, ?_⟩
    intro i hi
    simp

example : (Comb.next false 4 2 ⟨[1, 2], false⟩).indices = [0, 3] ∧ (Comb.next false 4 2 ⟨[2, 3], false⟩).done = true := by decide
example : (3 : Nat) ≤ 7 ∧ Nat.descFactorial 7 3 < 2 ^ 64 ∧ (Comb.combinations 7 3).toNat = 35 := by decide +kernel
example : (TriIndex.next false 5 3 ⟨[0, 3, 4], 0, false⟩).indices = [1, 2, 3] := by decide
example : (TriIndex.next true 5 3 ⟨[0, 4, 4], 0, false⟩).indices = [1, 1, 1] := by decide
example : Multipart.value (Multipart.next true 3 (Multipart.next true 3 (Multipart.first true 3 3))) = [2, 0, 1] := by decide
example : Multipart.value (Multipart.next false 3 (Multipart.first false 3 3)) = [0, 1, 2] := by decide
example : Comb.pvalue (Comb.pnext 4 2 (Comb.pfirst 4 2)) = ([0, 2], [1, 3], [true, false, true, false]) := by decide

end Moment.C31
