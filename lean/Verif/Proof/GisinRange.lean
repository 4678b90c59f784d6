import Verif.Proof.CollinsGisin

/-! # Collins-Gisin tensors: ranges of measurements -/

namespace Moment.Gisin
open Moment.Locality (Scenario)
open Moment.Probability (locate choice)

theorem partySlots_get (p : Nat) : ∀ (mmts : List Nat) (o j : Nat),
    (partySlots p o mmts)[j]? = (mmts[j]?).map fun n => ⟨p, o + ((mmts.take j).map Locality.numOperators).sum, Locality.numOperators n⟩
  | [], _, _ => by simp [partySlots]
  | n :: mmts, o, 0 => by simp [partySlots]
  | n :: mmts, o, j + 1 => by
    rw [partySlots, List.getElem?_cons_succ, partySlots_get p mmts]
    simp [Nat.add_assoc]

theorem partySlots_length (p : Nat) : ∀ (mmts : List Nat) (o : Nat), (partySlots p o mmts).length = mmts.length
  | [], _ => rfl
  | n :: mmts, o => by simp [partySlots, partySlots_length p mmts]

theorem slotsFrom_get : ∀ (s : Scenario) (p m : Nat),
    (slotsFrom p s)[m]? = (locate (s.map List.length) m).bind fun x => (s[x.1]?).bind fun mmts => (mmts[x.2]?).map fun n =>
      ⟨p + x.1, 1 + ((mmts.take x.2).map Locality.numOperators).sum, Locality.numOperators n⟩
  | [], p, m => by simp [slotsFrom, locate]
  | mmts :: s, p, m => by
    rw [slotsFrom, List.map_cons, locate]
    split
    · rename_i h
      rw [List.getElem?_append_left (by rwa [partySlots_length]), partySlots_get]
      simp
    · rename_i h
      rw [List.getElem?_append_right (by rw [partySlots_length]; omega), partySlots_length, slotsFrom_get s]
      cases locate (s.map List.length) (m - mmts.length) with
      | none => rfl
      | some x => simp [Nat.add_assoc, Nat.add_comm, Nat.add_left_comm]

/-- The entry of the list of measurements for measurement `j` of party `p`. -/
theorem slots_get {s : Scenario} {m p j : Nat} (h : locate (s.map List.length) m = some (p, j)) :
    ∃ mmts n, s[p]? = some mmts ∧ mmts[j]? = some n ∧
      (slots s)[m]? = some ⟨p, 1 + ((mmts.map Locality.numOperators).take j).sum, Locality.numOperators n⟩ := by
  obtain ⟨c, h1, h2, -⟩ := (locate_spec _ _ _ _).mp h
  rw [List.getElem?_map, Option.map_eq_some_iff] at h1
  obtain ⟨mmts, h1, rfl⟩ := h1
  refine ⟨mmts, mmts[j], h1, List.getElem?_eq_getElem h2, ?_⟩
  unfold slots
  rw [slotsFrom_get, h]
  simp [h1, List.getElem?_eq_getElem h2, List.map_take]

theorem slots_length : ∀ (s : Scenario) (p : Nat), (slotsFrom p s).length = (s.map List.length).sum
  | [], _ => rfl
  | mmts :: s, p => by simp [slotsFrom, partySlots_length, slots_length s]

theorem ranges_append (gm : List Slot) (a b : List (Nat × Option Nat)) : ∀ lo hi,
    ranges gm (a ++ b) lo hi = (ranges gm a lo hi).bind fun r => match r with
      | none => some none
      | some (lo', hi') => ranges gm b lo' hi' := by
  induction a with
  | nil => intro lo hi; rfl
  | cons r a ih =>
    obtain ⟨m, k⟩ := r
    intro lo hi
    rw [List.cons_append, ranges, ranges]
    by_cases h1 : m > gm.length
    · rw [if_pos h1, if_pos h1]; rfl
    · rw [if_neg h1, if_neg h1]
      cases gm[m]? with
      | none => rfl
      | some g =>
        dsimp only
        by_cases h2 : lo.getD g.party 0 ≠ 0
        · rw [if_pos h2, if_pos h2]; rfl
        · rw [if_neg h2, if_neg h2]
          cases k <;> exact ih _ _

/-- Bounds of a request. -/
def Slot.lower (g : Slot) : Option Nat → Nat
  | none => g.offset
  | some k => g.offset + k

def Slot.upper (g : Slot) : Option Nat → Nat
  | none => g.offset + g.length
  | some k => g.offset + k + 1

theorem ranges_cons {gm : List Slot} {m : Nat} {k : Option Nat} {g : Slot} (hg : gm[m]? = some g) (reqs : List (Nat × Option Nat)) (lo hi : List Nat) :
    ranges gm ((m, k) :: reqs) lo hi = if lo.getD g.party 0 ≠ 0 then some none
      else ranges gm reqs (lo.set g.party (g.lower k)) (hi.set g.party (g.upper k)) := by
  have := (List.getElem?_eq_some_iff.mp hg).1
  rw [ranges, if_neg (by omega), hg]
  cases k <;> rfl

/-- Requests for different parties. -/
theorem ranges_spec {gm : List Slot} (pos : ∀ g ∈ gm, 1 ≤ g.offset) (P : Nat → Nat) : ∀ (reqs : List (Nat × Option Nat)) (lo hi : List Nat),
    lo.length = hi.length → (∀ r ∈ reqs, ∃ g, gm[r.1]? = some g ∧ g.party = P r.1 ∧ g.party < lo.length ∧ lo[g.party]? = some 0) →
    reqs.Pairwise (fun a b => P a.1 ≠ P b.1) →
    ∃ lo' hi', ranges gm reqs lo hi = some (some (lo', hi')) ∧ lo'.length = lo.length ∧ hi'.length = lo.length ∧
      (∀ d : Nat, (∀ r ∈ reqs, P r.1 ≠ d) → lo'[d]? = lo[d]? ∧ hi'[d]? = hi[d]?) ∧
      ∀ r ∈ reqs, ∀ g, gm[r.1]? = some g → lo'[g.party]? = some (g.lower r.2) ∧ hi'[g.party]? = some (g.upper r.2)
  | [], lo, hi, hl, _, _ => ⟨lo, hi, rfl, rfl, hl.symm, fun _ _ => ⟨rfl, rfl⟩, by simp⟩
  | (m, k) :: reqs, lo, hi, hl, hv, hd => by
    obtain ⟨g, hg, hgp, hlt, h0⟩ := hv (m, k) (by simp)
    have hd' := List.pairwise_cons.mp hd
    rw [ranges_cons hg, if_neg (by simp [h0])]
    obtain ⟨lo', hi', h1, h2, h3, h4, h5⟩ := ranges_spec pos P reqs (lo.set g.party (g.lower k)) (hi.set g.party (g.upper k)) (by simpa using hl) (by
      intro r hr
      obtain ⟨g', e1, e2, e3, e4⟩ := hv r (by simp [hr])
      refine ⟨g', e1, e2, by simpa using e3, ?_⟩
      have : g.party ≠ g'.party := by rw [hgp, e2]; exact hd'.1 r hr
      rw [List.getElem?_set_ne this]
      exact e4) hd'.2
    refine ⟨lo', hi', h1, by simpa using h2, by simpa using h3, fun d hx => ?_, fun r hr g' hg' => ?_⟩
    · obtain ⟨e1, e2⟩ := h4 d fun r hr => hx r (by simp [hr])
      have : g.party ≠ d := by rw [hgp]; exact hx _ (by simp)
      rw [e1, e2, List.getElem?_set_ne this, List.getElem?_set_ne this]
      exact ⟨rfl, rfl⟩
    · rcases List.mem_cons.mp hr with rfl | hr
      · dsimp only at hg' ⊢
        rw [hg, Option.some.injEq] at hg'
        subst hg'
        obtain ⟨e1, e2⟩ := h4 g.party fun r hr => by rw [hgp]; exact (hd'.1 r hr).symm
        rw [e1, e2, List.getElem?_set_self hlt, List.getElem?_set_self (by omega)]
        exact ⟨rfl, rfl⟩
      · exact h5 r hr g' hg'

/-- A second request for a party is refused. -/
theorem ranges_twice {gm : List Slot} (pos : ∀ g ∈ gm, 1 ≤ g.offset) (P : Nat → Nat) : ∀ (reqs : List (Nat × Option Nat)) (lo hi : List Nat),
    (∀ r ∈ reqs, ∃ g, gm[r.1]? = some g ∧ g.party = P r.1 ∧ g.party < lo.length) →
    ((∃ r ∈ reqs, lo.getD (P r.1) 0 ≠ 0) ∨ ¬ reqs.Pairwise (fun a b => P a.1 ≠ P b.1)) → ranges gm reqs lo hi = some none
  | [], lo, hi, _, h => by simp at h
  | (m, k) :: reqs, lo, hi, hv, h => by
    obtain ⟨g, hg, hgp, hlt⟩ := hv (m, k) (by simp)
    rw [ranges_cons hg]
    split
    · rfl
    · rename_i h0
      have hlow : 1 ≤ g.lower k := by
        have := pos g (List.mem_of_getElem? hg)
        cases k <;> simp only [Slot.lower] <;> omega
      refine ranges_twice pos P reqs _ _ (fun r hr => ?_) ?_
      · obtain ⟨g', e1, e2, e3⟩ := hv r (by simp [hr])
        exact ⟨g', e1, e2, by simpa using e3⟩
      · rcases h with ⟨r, hr, hne⟩ | h
        · rcases List.mem_cons.mp hr with rfl | hr
          · exact absurd (hgp ▸ hne) h0
          · refine Or.inl ⟨r, hr, ?_⟩
            by_cases e : P r.1 = g.party
            · rw [e, List.getD_eq_getElem?_getD, List.getElem?_set_self hlt, Option.getD_some]
              omega
            · rw [List.getD_eq_getElem?_getD, List.getElem?_set_ne (Ne.symm e), ← List.getD_eq_getElem?_getD]
              exact hne
        · rw [List.pairwise_cons] at h
          by_cases hp : reqs.Pairwise fun a b => P a.1 ≠ P b.1
          · have : ¬ ∀ r ∈ reqs, P m ≠ P r.1 := fun hx => h ⟨hx, hp⟩
            push Not at this
            obtain ⟨r, hr, e⟩ := this
            refine Or.inl ⟨r, hr, ?_⟩
            rw [← e, ← hgp, List.getD_eq_getElem?_getD, List.getElem?_set_self hlt, Option.getD_some]
            omega
          · exact Or.inr hp

end Moment.Gisin
