import Verif.Proof.Hash
import Mathlib.Data.Fintype.Pigeonhole
import Mathlib.Data.Fintype.List
import Mathlib.Logic.Denumerable

/-! # C02, C03: word hashes

A word over an alphabet of `r` letters is a list of numbers below `r`. `hashWord r w` is the 64-bit hash.
`List.Shortlex` is Mathlib's order: shorter words first, words of equal length lexicographically. -/

namespace Moment.C02

/-- `w` is a word over the alphabet `0, ..., r-1`. -/
def IsWord (r : Nat) (w : List Nat) : Prop := ∀ o ∈ w, o < r

/-- Main statement: as long as the number of words of length at most `L` stays below `2^64`, hashes of words of length at
most `L` are different for different words, are ordered like the words in shortlex order, are never the value 0 reserved
for the zero word, and the empty word has hash 1. -/
theorem C02_hash_shortlex_partial (r L : Nat) (hr : r < 2 ^ 64) (hL : (∑ k ∈ Finset.range (L + 1), r ^ k) < 2 ^ 64)
    (v w : List Nat) (hv : IsWord r v) (hw : IsWord r w) (hvL : v.length ≤ L) (hwL : w.length ≤ L) :
    (hashWord (UInt64.ofNat r) v = hashWord (UInt64.ofNat r) w ↔ v = w) ∧
    (hashWord (UInt64.ofNat r) v < hashWord (UInt64.ofNat r) w ↔ List.Shortlex (· < ·) v w) ∧
    hashWord (UInt64.ofNat r) v ≠ 0 ∧
    hashWord (UInt64.ofNat r) [] = 1 := by
  have e1 := hashWord_exact r L hr hL v hv hvL
  have e2 := hashWord_exact r L hr hL w hw hwL
  refine ⟨⟨fun h => ?_, fun h => by rw [h]⟩, ?_, ?_, rfl⟩
  · rw [← UInt64.toNat_inj, e1, e2] at h
    exact enc_injOn r v w hv hw (by omega)
  · rw [UInt64.lt_iff_toNat_lt, e1, e2, Nat.add_lt_add_iff_left]
    exact enc_lt_iff r v w hv hw
  · intro h
    rw [← UInt64.toNat_inj, e1] at h
    simp at h

/-- In particular all words strictly shorter than the advertised longest hashable length are safe, for every alphabet of at
least two letters. -/
theorem C02_hash_below_longest_partial (r : Nat) (hr : r < 2 ^ 64) (hr2 : 2 ≤ r)
    (v w : List Nat) (hv : IsWord r v) (hw : IsWord r w)
    (hvL : v.length < longestHashable r) (hwL : w.length < longestHashable r) :
    (hashWord (UInt64.ofNat r) v = hashWord (UInt64.ofNat r) w ↔ v = w) ∧
    (hashWord (UInt64.ofNat r) v < hashWord (UInt64.ofNat r) w ↔ List.Shortlex (· < ·) v w) ∧
    hashWord (UInt64.ofNat r) v ≠ 0 := by
  have h := longestHashable_spec r hr2
  have h2 := rep_le r hr2 (longestHashable r)
  have := C02_hash_shortlex_partial r (longestHashable r - 1) hr
    (by
      have e : longestHashable r - 1 + 1 = longestHashable r := by omega
      rw [e]; unfold rep at h2; omega) v w hv hw (by omega) (by omega)
  exact ⟨this.1, this.2.1, this.2.2.1⟩

/-- The full claim (all words up to and including the advertised length) is false: over a two-letter alphabet the advertised
length is 64, and the word of 64 letters `0` has hash 0, the value reserved for the zero word. -/
theorem C02_refuted_at_longest :
    longestHashable 2 = 64 ∧ IsWord 2 (List.replicate 64 0) ∧ (List.replicate 64 0).length = longestHashable 2 ∧
    hashWord (UInt64.ofNat 2) (List.replicate 64 0) = 0 := by
  refine ⟨by decide +kernel, by intro o ho; rw [List.eq_of_mem_replicate ho]; decide, by decide +kernel, by decide +kernel⟩

/-- Over a one-letter alphabet the advertised length is right: no wrap-around up to it. -/
theorem C02_radix_one (v w : List Nat) (hv : IsWord 1 v) (hw : IsWord 1 w)
    (hvL : v.length ≤ longestHashable 1) (hwL : w.length ≤ longestHashable 1) :
    hashWord (UInt64.ofNat 1) v = hashWord (UInt64.ofNat 1) w ↔ v = w := by
  have hl : longestHashable 1 = 2 ^ 64 - 2 := by simp [longestHashable]
  rw [hl] at hvL hwL
  exact (C02_hash_shortlex_partial 1 (2 ^ 64 - 2) (by norm_num) (by simp) v w hv hw hvL hwL).1

/-- C03 is false: for every non-empty alphabet there are two different words with the same 64-bit hash. -/
theorem C03_refuted (r : Nat) (hr : 1 ≤ r) :
    ∃ v w : List Nat, IsWord r v ∧ IsWord r w ∧ v ≠ w ∧ hashWord (UInt64.ofNat r) v = hashWord (UInt64.ofNat r) w := by
  have : Finite UInt64 := Finite.of_injective
    (fun a : UInt64 => (⟨a.toNat, a.toNat_lt⟩ : Fin (2 ^ 64))) (fun a b h => UInt64.toNat_inj.mp (Fin.ext_iff.mp h))
  obtain ⟨a, b, hab, h⟩ := Finite.exists_ne_map_eq_of_infinite
    (fun n : Nat => hashWord (UInt64.ofNat r) (List.replicate n 0))
  refine ⟨List.replicate a 0, List.replicate b 0, ?_, ?_, ?_, h⟩
  · intro o ho; rw [List.eq_of_mem_replicate ho]; omega
  · intro o ho; rw [List.eq_of_mem_replicate ho]; omega
  · intro e; exact hab (by simpa using congrArg List.length e)

/-- A hash depends on the letters modulo nothing else: single-letter shortcut agrees with the general routine. -/
theorem C02_letter_shortcut (r o : Nat) : hashLetter o = hashWord (UInt64.ofNat r) [o] := by
  simp [hashLetter, hashWord, hashLoop, UInt64.add_assoc]

example : IsWord 12 [3, 11, 0] ∧ IsWord 12 [3, 11, 1] ∧ (∑ k ∈ Finset.range (3 + 1), 12 ^ k) < 2 ^ 64 ∧
    hashWord 12 [3, 11, 0] < hashWord 12 [3, 11, 1] := by
  refine ⟨by unfold IsWord; decide, by unfold IsWord; decide, by decide, by decide⟩

example : 10 < longestHashable 6 := by decide +kernel

end Moment.C02
