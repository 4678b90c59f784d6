import Verif.Model.CollinsGisin
import Verif.Props.C94_Probability
import Verif.Props.C98_Npa

/-! # Collins-Gisin tensors of locality scenarios: words of entries -/

namespace Moment.Gisin
open Moment.Locality (Scenario SameOperator Represents)
open Moment.Probability (locate choice joint gisinChoices gisinDims)
open Moment.C94 (localityParties)

/-- The operators of choices, from party `d` on. -/
def chosen : Nat → List (Option (Nat × Nat)) → List Locality.Op
  | _, [] => []
  | d, none :: cs => chosen (d + 1) cs
  | d, some (m, k) :: cs => ⟨d, m, k⟩ :: chosen (d + 1) cs

theorem chosen_joint {A : Type} [Monoid A] (f : Locality.Op → A) : ∀ (cs : List (Option (Nat × Nat))) (d : Nat),
    ((chosen d cs).map f).prod = joint (fun d m k => f ⟨d, m, k⟩) d cs
  | [], d => rfl
  | none :: cs, d => by simp [chosen, joint, Probability.single, chosen_joint f cs]
  | some (m, k) :: cs, d => by simp [chosen, joint, Probability.single, chosen_joint f cs]

theorem chosen_party : ∀ (cs : List (Option (Nat × Nat))) (d : Nat), (∀ a ∈ chosen d cs, d ≤ a.party) ∧
    (chosen d cs).Pairwise (fun a b => a.party < b.party) ∧ (chosen d cs).length ≤ cs.length
  | [], d => by simp [chosen]
  | none :: cs, d => by
    obtain ⟨h1, h2, h3⟩ := chosen_party cs (d + 1)
    exact ⟨fun a ha => by have := h1 a ha; omega, h2, by simp only [chosen, List.length_cons]; omega⟩
  | some (m, k) :: cs, d => by
    obtain ⟨h1, h2, h3⟩ := chosen_party cs (d + 1)
    refine ⟨fun a ha => ?_, List.pairwise_cons.mpr ⟨fun a ha => ?_, h2⟩, by simpa [chosen] using h3⟩
    · rcases List.mem_cons.mp ha with rfl | ha
      · exact Nat.le_refl _
      · have := h1 a ha; omega
    · have := h1 a ha
      show d < a.party
      omega

/-- Words of operators of different parties can be put in any order. -/
theorem same_perm {u v : List Locality.Op} (h : u.Perm v) (hp : u.Pairwise fun a b => a.party ≠ b.party) : SameOperator (some u) (some v) := by
  induction h with
  | nil => exact .refl _
  | cons a _ ih => simpa using Locality.nf_sound_cons a (ih (List.pairwise_cons.mp hp).2)
  | swap a b l =>
    have := (List.pairwise_cons.mp hp).1 a (by simp)
    exact .commute [] l b a this
  | trans h1 _ ih1 ih2 => exact (ih1 hp).trans (ih2 ((h1.pairwise_iff fun h => Ne.symm h).mp hp))

/-- Such a word is in normal form if the parties ascend. -/
theorem nf_ascending {u : List Locality.Op} (hp : u.Pairwise fun a b => a.party < b.party) : Locality.nf u = some u := by
  have h1 : stableSort Locality.Op.party u = u := stableSort_of_sorted _ (hp.imp fun h => Nat.le_of_lt h)
  have h2 : uniq u = u := (uniq_eq_self u).mpr ((hp.imp fun {a b} h e => by rw [e] at h; exact Nat.lt_irrefl _ h).isChain)
  unfold Locality.nf
  dsimp only
  rw [h1, h2, if_neg]
  rw [anyNeighbours_iff]
  rintro ⟨x, a, b, y, rfl, e⟩
  have := (List.pairwise_append.mp hp).2.1
  have := (List.pairwise_cons.mp this).1 b (by simp)
  simp only [Locality.excl, Bool.and_eq_true, beq_iff_eq] at e
  omega

theorem locate_spec : ∀ (cs : List Nat) (j m k : Nat), locate cs j = some (m, k) ↔ ∃ c, cs[m]? = some c ∧ k < c ∧ j = (cs.take m).sum + k
  | [], j, m, k => by simp [locate]
  | c :: cs, j, m, k => by
    unfold locate
    split
    · rename_i h
      cases m with
      | zero =>
        simp only [Option.some.injEq, Prod.mk.injEq, true_and, List.getElem?_cons_zero, List.take_zero, List.sum_nil, Nat.zero_add]
        constructor
        · rintro rfl; exact ⟨c, rfl, h, rfl⟩
        · rintro ⟨_, -, -, h⟩; exact h
      | succ m =>
        simp only [Option.some.injEq, Prod.mk.injEq, List.take_succ_cons, List.sum_cons]
        constructor
        · rintro ⟨h, -⟩; omega
        · rintro ⟨_, -, -, h⟩; omega
    · rename_i h
      cases m with
      | zero =>
        simp only [Option.map_eq_some_iff, Prod.mk.injEq, List.getElem?_cons_zero, List.take_zero, List.sum_nil, Nat.zero_add]
        constructor
        · rintro ⟨_, -, h, -⟩; omega
        · rintro ⟨_, h1, h2, h3⟩
          rw [Option.some.injEq] at h1
          omega
      | succ m =>
        simp only [Option.map_eq_some_iff, Prod.mk.injEq, List.getElem?_cons_succ, List.take_succ_cons, List.sum_cons]
        constructor
        · rintro ⟨⟨m', k'⟩, h1, h2, rfl⟩
          dsimp only at h2
          obtain rfl : m' = m := by omega
          obtain ⟨c', g1, g2, g3⟩ := (locate_spec cs _ _ _).mp h1
          exact ⟨c', g1, g2, by omega⟩
        · rintro ⟨c', g1, g2, g3⟩
          exact ⟨(m, k), (locate_spec cs _ _ _).mpr ⟨c', g1, g2, by omega⟩, rfl, rfl⟩

theorem locate_some : ∀ (cs : List Nat) (j : Nat), j < cs.sum → ∃ x, locate cs j = some x
  | [], j, h => by simp at h
  | c :: cs, j, h => by
    unfold locate
    split
    · exact ⟨_, rfl⟩
    · rw [List.sum_cons] at h
      obtain ⟨x, hx⟩ := locate_some cs (j - c) (by omega)
      exact ⟨_, by rw [hx]; rfl⟩

theorem stored_locality (mmts : List Nat) : Probability.stored (mmts.map fun n => (n, false)) = mmts.map Locality.numOperators := by
  simp [Probability.stored, Function.comp_def, Locality.numOperators]

/-- The loop over the dimensions. -/
theorem operators_spec (s : Scenario) : ∀ (rest pre : Scenario), s = pre ++ rest → ∀ idx, List.Forall₂ (· < ·) idx (gisinDims (localityParties rest)) →
    ∃ w, operators ((List.range' pre.length rest.length).map fun d =>
        none :: (List.range' (Locality.operatorOffset s d) (Locality.partyOps (s.getD d []))).map some) idx = some w ∧
      C10.Names s (chosen pre.length (gisinChoices (localityParties rest) idx)) w
  | [], pre, _, idx, hx => by
    simp only [localityParties, List.map_nil, gisinDims] at hx
    cases hx
    exact ⟨[], rfl, by simp [gisinChoices, localityParties, chosen, C10.Names]⟩
  | mmts :: rest, pre, hs, idx, hx => by
    simp only [localityParties, List.map_cons, gisinDims] at hx
    cases hx with
    | cons hi hx =>
    rename_i i idx
    obtain ⟨w, h1, h2⟩ := operators_spec s rest (pre ++ [mmts]) (by simp [hs]) idx hx
    rw [List.length_append, List.length_singleton] at h1 h2
    rw [List.length_cons, List.range'_succ, List.map_cons]
    have hget : s[pre.length]? = some mmts := by simp [hs]
    have hgetD : s.getD pre.length [] = mmts := by simp [List.getD, hget]
    rw [stored_locality] at hi
    have hch : gisinChoices (localityParties (mmts :: rest)) (i :: idx) = choice (mmts.map Locality.numOperators) i :: gisinChoices (localityParties rest) idx := by
      simp only [localityParties, gisinChoices, List.map_cons, List.zipWith_cons_cons]
      rw [stored_locality]
    rw [hch]
    cases i with
    | zero => exact ⟨w, h1, h2⟩
    | succ i =>
      obtain ⟨⟨m, k⟩, hl⟩ := locate_some (mmts.map Locality.numOperators) i (by omega)
      have hc : choice (mmts.map Locality.numOperators) (i + 1) = some (m, k) := hl
      obtain ⟨c, g1, g2, g3⟩ := (locate_spec _ _ _ _).mp hl
      rw [List.getElem?_map, Option.map_eq_some_iff] at g1
      obtain ⟨n, g1, rfl⟩ := g1
      refine ⟨(Locality.operatorOffset s pre.length + i) :: w, ?_, ?_⟩
      · unfold operators
        rw [h1, hgetD, List.getElem?_cons_succ, List.getElem?_map, List.getElem?_range' (by unfold Locality.partyOps; omega)]
        simp
      · rw [hc]
        refine List.Forall₂.cons ?_ h2
        have hE : Locality.Exists s ⟨pre.length, m, k⟩ := ⟨mmts, hget, n, g1, by unfold Locality.numOperators at g2; show k + 1 < n; omega⟩
        rw [Locality.measurementOutcome_eq hE, Locality.enc]
        dsimp only
        rw [hgetD, g3, Locality.mmtOffset, List.map_take]

/-- The words of the entries. -/
theorem word_spec {s : Scenario} {L : Nat} (h : Locality.Room s L) (hL : s.length ≤ L) {idx : List Nat}
    (hx : List.Forall₂ (· < ·) idx (gisinDims (localityParties s))) :
    word s idx = some (C98.stored s (chosen 0 (gisinChoices (localityParties s) idx))) ∧
      C98.Word s L (chosen 0 (gisinChoices (localityParties s) idx)) := by
  obtain ⟨w, h1, h2⟩ := operators_spec s s [] rfl idx hx
  obtain ⟨h3, rfl⟩ := C10.names_iff.mp h2
  have hlen : (chosen 0 (gisinChoices (localityParties s) idx)).length ≤ s.length := by
    refine (chosen_party _ 0).2.2.trans ?_
    simp [gisinChoices, localityParties]
  have hW : C98.Word s L (chosen 0 (gisinChoices (localityParties s) idx)) := ⟨h3, hlen.trans hL⟩
  refine ⟨?_, hW⟩
  unfold word operatorIds
  rw [List.range_eq_range']
  rw [show (List.range' 0 s.length 1) = List.range' ([] : Scenario).length s.length from rfl, h1, Option.map_some, Locality.sequence]
  exact congrArg some (C98.construct_stored h hW _)

end Moment.Gisin
