import Verif.Proof.Fill
import Verif.Proof.SiteFields

/-! # C79: The list of Pauli words up to a length -/

namespace Moment.C79

open Moment.Fill
open Moment.Translate
open Moment.Pauli (Normal)
open Moment.SiteHash (Within)

/-- `permutation_fill` on distinct sites gives the words with one letter on each site and none elsewhere, in normal form and with sign `+`, each once. -/
theorem C79_sites {s : List Nat} (hs : s.Nodup) :
    (∀ e, e ∈ permutationFill s ↔ e.2 = .pos ∧ On s e.1) ∧ (permutationFill s).Nodup :=
  ⟨mem_permutationFill hs, nodup_permutationFill hs⟩

example : [2, 0, 1].Nodup ∧ ([0, 4, 8], Sign.pos) ∈ permutationFill [2, 0, 1] := by
  refine ⟨by decide, (mem_permutationFill (by decide) _).mpr ⟨rfl, ?_⟩⟩
  exact (On.self (by unfold Normal; decide)).congr (by simp; omega)

theorem on_within {n : Nat} {s w : List Nat} (h : On s w) : (∀ q ∈ s, q < n) ↔ Within n w := by
  constructor
  · intro hs q p hp
    exact hs q ((h.2 q).mp ⟨p, hp⟩)
  · intro hw q hq
    obtain ⟨p, hp⟩ := (h.2 q).mpr hq
    exact hw q p hp

/-- Without restriction to neighbours, the list of a level holds exactly the words in normal form on the qubits that are no longer than the level, with sign
`+`, each once. -/
theorem C79_all (n level : Nat) :
    (∀ w g, (w, g) ∈ allWords n level ↔ g = .pos ∧ Normal w ∧ Within n w ∧ w.length ≤ level) ∧ (allWords n level).Nodup := by
  have hle : min level n ≤ n := Nat.min_le_right _ _
  have hinc : ∀ s ∈ allShapes n (min level n), s.Pairwise (· < ·) := fun s hs => ((mem_allShapes hle s).mp hs).2.1
  rw [allWords_eq]
  refine ⟨fun w g => ?_, nodup_increasing hinc (nodup_allShapes hle)⟩
  rw [mem_shapes fun s hs => (hinc s hs).imp fun {a b} hab => Nat.ne_of_lt hab]
  refine and_congr_right fun _ => ⟨?_, ?_⟩
  · rintro ⟨s, hs, hon⟩
    obtain ⟨h1, h2, h3⟩ := (mem_allShapes hle s).mp hs
    have hl := hon.length (h2.imp fun {a b} hab => Nat.ne_of_lt hab)
    simp only at hl hon
    exact ⟨hon.1, (on_within hon).mp h3, by omega⟩
  · rintro ⟨hn, hw, hl⟩
    have hin := (on_within (On.self hn)).mpr hw
    refine ⟨w.map (· / 3), (mem_allShapes hle _).mpr ⟨?_, sites_increasing hn, hin⟩, On.self hn⟩
    rw [List.length_map, Nat.le_min]
    refine ⟨hl, ?_⟩
    refine Pauli.normal_length n w hn fun o ho => ?_
    have := hw _ _ (has_mem.mp ho)
    omega

example : Normal [0, 7, 11] ∧ Within 4 [0, 7, 11] ∧ ([0, 7, 11] : List Nat).length ≤ 3 := by
  refine ⟨by unfold Normal; decide, ?_, by decide⟩
  rintro q p ⟨hp, h⟩
  simp at h
  omega

theorem pairwise_all {α : Type} {R : α → α → Prop} {l : List α} (h : ∀ a ∈ l, ∀ b ∈ l, R a b) : l.Pairwise R :=
  List.pairwise_iff_getElem.mpr fun _ _ _ _ _ => h _ (List.getElem_mem _) _ (List.getElem_mem _)

theorem shapes_graded {n len : Nat} (h : len ≤ n) : (allShapes n len).Pairwise fun s t => s.length ≤ t.length := by
  have hlen : ∀ p s, p ≤ n → s ∈ subsets n p → s.length = p := fun p s hp hm => (((subsets_spec hp).1 s).mp hm).1
  have const : ∀ (l : List (List Nat)) (m : Nat), (∀ s ∈ l, s.length = m) → l.Pairwise fun s t => s.length ≤ t.length := fun l m hl =>
    pairwise_all fun a ha b hb => by rw [hl a ha, hl b hb]
  have top : ∀ s ∈ (List.range' 3 (len - 2)).flatMap fun parties => subsets n parties, 3 ≤ s.length := by
    intro s hs
    obtain ⟨p, hp, hm⟩ := List.mem_flatMap.mp hs
    rw [List.mem_range'_1] at hp
    rw [hlen _ _ (by omega) hm]
    exact hp.1
  have two : ∀ s ∈ (List.range (n - 1)).flatMap fun a => (List.range' (a + 1) (n - (a + 1))).map fun b => [a, b], s.length = 2 := by
    intro s hs
    obtain ⟨a, -, ha⟩ := List.mem_flatMap.mp hs
    obtain ⟨b, -, rfl⟩ := List.mem_map.mp ha
    rfl
  have one : ∀ s ∈ (List.range n).map fun q => [q], s.length = 1 := by
    intro s hs
    obtain ⟨a, -, rfl⟩ := List.mem_map.mp hs
    rfl
  unfold allShapes
  refine List.pairwise_append.mpr ⟨by simp, ?_, fun a ha b _ => by rw [List.mem_singleton] at ha; subst ha; simp⟩
  split
  · exact .nil
  refine List.pairwise_append.mpr ⟨const _ 1 one, ?_, fun a ha b hb => ?_⟩
  · split
    · exact .nil
    refine List.pairwise_append.mpr ⟨const _ 2 two, ?_, fun a ha b hb => by rw [two a ha]; have := top b hb; omega⟩
    rw [List.pairwise_flatMap]
    refine ⟨fun p hp => const _ p fun s hs => hlen p s (by rw [List.mem_range'_1] at hp; omega) hs, ?_⟩
    refine (List.pairwise_lt_range' (s := 3) (n := len - 2) (step := 1)).imp_of_mem fun {x y} hx hy hxy s hs t ht => ?_
    rw [List.mem_range'_1] at hx hy
    rw [hlen _ _ (by omega) hs, hlen _ _ (by omega) ht]
    exact Nat.le_of_lt hxy
  · rw [one a ha]
    split at hb
    · simp at hb
    rcases List.mem_append.mp hb with hb | hb
    · rw [two b hb]; decide
    · have := top b hb; omega

/-- The list starts with the identity, and shorter words come before longer ones. -/
theorem C79_graded (n level : Nat) : (∃ l, allWords n level = ([], .pos) :: l) ∧ (allWords n level).Pairwise fun a b => a.1.length ≤ b.1.length := by
  constructor
  · unfold allWords
    exact ⟨_, rfl⟩
  · have hle : min level n ≤ n := Nat.min_le_right _ _
    have hnd : ∀ s ∈ allShapes n (min level n), s.Nodup := fun s hs => ((mem_allShapes hle s).mp hs).2.1.imp fun {a b} hab => Nat.ne_of_lt hab
    have hl : ∀ s ∈ allShapes n (min level n), ∀ e ∈ permutationFill s, e.1.length = s.length := fun s hs e he =>
      ((mem_permutationFill (hnd s hs) e).mp he).2.length (hnd s hs)
    rw [allWords_eq, List.pairwise_flatMap]
    refine ⟨fun s hs => pairwise_all fun a ha b hb => by rw [hl s hs a ha, hl s hs b hb], ?_⟩
    exact (shapes_graded hle).imp_of_mem fun {s t} hs ht hst a ha b hb => by rw [hl s hs a ha, hl t ht b hb]; exact hst

end Moment.C79
