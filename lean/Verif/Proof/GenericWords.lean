import Verif.Model.GenericWords
import Verif.Proof.Fill
import Verif.Proof.Rules
import Verif.Props.C02_Hash
import Mathlib.Data.List.Shortlex
import Mathlib.Data.List.ReduceOption

/-! # The list of words of a context -/

namespace Moment.GenericWords

theorem tuples_lex {n : Nat} (hn : 0 < n) (num : Nat) : (Fill.tuples n num 0).Pairwise (List.Lex (· < ·)) := by
  obtain ⟨l, hy, hm, hl⟩ := C29.C29_operator_words n num 0 hn
  unfold Fill.tuples
  rw [Locality.collect_eq hy]
  exact hl

theorem mem_visited {num max : Nat} {w : List Nat} : w ∈ visited num max ↔ w ≠ [] ∧ C02.IsWord num w ∧ w.length ≤ max := by
  unfold visited
  rw [List.mem_flatMap]
  constructor
  · rintro ⟨n, hn, hw⟩
    rw [List.mem_range'_1] at hn
    obtain ⟨h1, h2⟩ := ((Fill.tuples_spec (by omega) num 0).1 w).mp hw
    exact ⟨fun h => by rw [h] at h1; simp at h1; omega, fun o ho => by have := h2 o ho; omega, by omega⟩
  · rintro ⟨h0, h1, h2⟩
    have := List.length_pos_iff.mpr h0
    exact ⟨w.length, List.mem_range'_1.mpr (by omega), ((Fill.tuples_spec this num 0).1 w).mpr ⟨rfl, fun o ho => ⟨Nat.zero_le _, by simpa using h1 o ho⟩⟩⟩

theorem visited_sorted (num max : Nat) : (visited num max).Pairwise (List.Shortlex (· < ·)) := by
  unfold visited
  rw [List.pairwise_flatMap]
  constructor
  · intro n hn
    rw [List.mem_range'_1] at hn
    refine (tuples_lex (by omega) num).imp_of_mem ?_
    intro a b ha hb h
    have ha' := (((Fill.tuples_spec (by omega) num 0).1 a).mp ha).1
    have hb' := (((Fill.tuples_spec (by omega) num 0).1 b).mp hb).1
    exact List.Shortlex.of_lex (ha'.trans hb'.symm) h
  · refine (List.pairwise_lt_range').imp_of_mem ?_
    intro n m hn hm h a ha b hb
    rw [List.mem_range'_1] at hn hm
    have ha' := (((Fill.tuples_spec (by omega) num 0).1 a).mp ha).1
    have hb' := (((Fill.tuples_spec (by omega) num 0).1 b).mp hb).1
    exact List.Shortlex.of_length_lt (by omega)

theorem mapM_values {α β : Type} (f : α → Option β) (g : α → β) : ∀ (l : List α), (∀ x ∈ l, f x = some (g x)) → l.mapM f = some (l.map g)
  | [], _ => rfl
  | a :: l, h => by
    rw [List.mapM_cons, h a (by simp), mapM_values f g l fun x hx => h x (by simp [hx])]
    rfl

/-- Every word is accepted or not, and an accepted one is listed as it is. -/
theorem generic_spec {get : List Nat → Option (Option HSeq)} {num max : Nat} (g : List Nat → Option HSeq)
    (hg : ∀ w, w ≠ [] → C02.IsWord num w → w.length ≤ max → get w = some (g w)) (hops : ∀ w s, w ≠ [] → C02.IsWord num w → w.length ≤ max → g w = some s → s.ops = w) :
    ∃ l, generic get num max = some l ∧ (l.map HSeq.ops).Pairwise (List.Shortlex (· < ·)) ∧
      ∀ s, s ∈ l ↔ s = HSeq.identity .pos ∨ ∃ w, w ≠ [] ∧ C02.IsWord num w ∧ w.length ≤ max ∧ g w = some s := by
  have e : (visited num max).mapM get = some ((visited num max).map g) :=
    mapM_values get g _ fun w hw => by obtain ⟨h1, h2, h3⟩ := mem_visited.mp hw; exact hg w h1 h2 h3
  refine ⟨_, by rw [generic, e]; rfl, ?_, ?_⟩
  · rw [List.map_cons, List.pairwise_cons]
    have hr : ((visited num max).map g).reduceOption = (visited num max).filterMap g := by
      unfold List.reduceOption
      rw [List.filterMap_map]; rfl
    rw [hr]
    constructor
    · intro w hw
      obtain ⟨s, hs, rfl⟩ := List.mem_map.mp hw
      obtain ⟨w, hw, hws⟩ := List.mem_filterMap.mp hs
      obtain ⟨h1, h2, h3⟩ := mem_visited.mp hw
      rw [hops w s h1 h2 h3 hws]
      exact List.Shortlex.of_length_lt (by simpa [HSeq.identity] using List.length_pos_iff.mpr h1)
    · rw [List.pairwise_map, List.pairwise_filterMap]
      refine (visited_sorted num max).imp_of_mem ?_
      intro a b ha hb h s hs t ht
      obtain ⟨a1, a2, a3⟩ := mem_visited.mp ha
      obtain ⟨b1, b2, b3⟩ := mem_visited.mp hb
      rw [hops a s a1 a2 a3 hs, hops b t b1 b2 b3 ht]
      exact h
  · intro s
    rw [List.mem_cons, List.reduceOption_mem_iff, List.mem_map]
    refine or_congr Iff.rfl ⟨?_, ?_⟩
    · rintro ⟨w, hw, h⟩
      obtain ⟨h1, h2, h3⟩ := mem_visited.mp hw
      exact ⟨w, h1, h2, h3, h⟩
    · rintro ⟨w, h1, h2, h3, h⟩
      exact ⟨w, mem_visited.mpr ⟨h1, h2, h3⟩, h⟩

end Moment.GenericWords
