import Verif.Proof.Parties
import Verif.Props.C44_Helpers

/-! # C121: parties, measurements and operators of a locality context agree on one numbering, and different words have different texts -/

namespace Moment.C121
open Moment.Parties

/-! ## Specification -/

/-- All outcomes that have an operator (all but the last one of each measurement), in order: party, measurement, outcome. The place in this list is the number of
the operator. -/
def outcomes (s : Named) : List (Nat × Nat × Nat) :=
  s.zipIdx.flatMap fun x => x.1.2.zipIdx.flatMap fun y => (List.range (y.1.2 - 1)).map fun o => (x.2, y.2, o)

/-- All measurements, in order: party, measurement. The place in this list is the number of the measurement. -/
def mmts (s : Named) : List (Nat × Nat) := s.zipIdx.flatMap fun x => x.1.2.zipIdx.map fun y => (x.2, y.2)

/-- `k` is the operator of an outcome. -/
def Is (s : Named) (k p m o : Nat) : Prop := (outcomes s)[k]? = some (p, m, o)

/-- A context that was made from party objects for the scenario: each of them with any number, and moved or not. -/
def IsContext (c : Context) (s : Named) : Prop := ∃ ps, List.Forall₂ IsFor ps s ∧ Context.make ps = some c

/-- Two parties: A with measurements of three and two outcomes, B with one of two outcomes. -/
def two : Named := [("A".toList, [("x".toList, 3), ("y".toList, 2)]), ("B".toList, [("x".toList, 2)])]

theorem two_fits : Fits two := ⟨by decide, by decide, by decide, by decide⟩

/-! ## Places -/

theorem is_iff {s : Named} {k p m o : Nat} : Is s k p m o ↔ ∃ x y, s[p]? = some x ∧ x.2[m]? = some y ∧ o < y.2 - 1 ∧ k = before s p + (inside x.2 m + o) := by
  unfold Is outcomes
  rw [flat_get (fun (x : Text × Mmts) i => x.2.zipIdx.flatMap fun y => (List.range (y.1.2 - 1)).map fun o => (i, y.2, o)) (fun x => ops x.2)
    (fun a i => flat_length (fun (y : Text × Nat) j => (List.range (y.2 - 1)).map fun o => (i, j, o)) (fun y => y.2 - 1) (fun _ _ => by simp) a.2 0) s 0 k (p, m, o)]
  constructor
  · rintro ⟨i, x, r, h1, h2, h3⟩
    rw [flat_get (fun (y : Text × Nat) j => (List.range (y.2 - 1)).map fun o => (0 + i, j, o)) (fun y => y.2 - 1) (fun _ _ => by simp) x.2 0 r (p, m, o)] at h2
    obtain ⟨j, y, t, g1, g2, g3⟩ := h2
    rw [List.getElem?_map] at g2
    by_cases ht : t < y.2 - 1
    · rw [List.getElem?_range ht] at g2
      simp only [Option.map_some, Option.some.injEq, Prod.mk.injEq, Nat.zero_add] at g2
      obtain ⟨rfl, rfl, rfl⟩ := g2
      exact ⟨x, y, h1, g1, ht, by rw [h3, g3]; rfl⟩
    · rw [List.getElem?_eq_none (by simp; omega)] at g2
      exact absurd g2 (by simp)
  · rintro ⟨x, y, h1, h2, h3, h4⟩
    refine ⟨p, x, inside x.2 m + o, h1, ?_, h4⟩
    rw [flat_get (fun (y : Text × Nat) j => (List.range (y.2 - 1)).map fun o => (0 + p, j, o)) (fun y => y.2 - 1) (fun _ _ => by simp) x.2 0 _ (p, m, o)]
    exact ⟨m, y, o, h2, by simp [List.getElem?_range h3], rfl⟩

theorem mmt_iff {s : Named} {k p m : Nat} : (mmts s)[k]? = some (p, m) ↔ ∃ x, s[p]? = some x ∧ m < x.2.length ∧ k = beforeMmt s p + m := by
  unfold mmts
  rw [flat_get (fun (x : Text × Mmts) i => x.2.zipIdx.map fun y => (i, y.2)) (fun x => x.2.length) (fun _ _ => by simp) s 0 k (p, m)]
  constructor
  · rintro ⟨i, x, r, h1, h2, h3⟩
    rw [List.getElem?_map, List.getElem?_zipIdx] at h2
    by_cases hr : r < x.2.length
    · rw [List.getElem?_eq_getElem hr] at h2
      simp only [Option.map_some, Option.some.injEq, Prod.mk.injEq, Nat.zero_add] at h2
      obtain ⟨rfl, rfl⟩ := h2
      exact ⟨x, h1, hr, h3⟩
    · rw [List.getElem?_eq_none (by omega)] at h2
      exact absurd h2 (by simp)
  · rintro ⟨x, h1, h2, h3⟩
    exact ⟨p, x, m, h1, by simp [List.getElem?_zipIdx, List.getElem?_eq_getElem h2], h3⟩

theorem outcomes_length (s : Named) : (outcomes s).length = (s.map fun x => ops x.2).sum :=
  flat_length (fun (x : Text × Mmts) i => x.2.zipIdx.flatMap fun y => (List.range (y.1.2 - 1)).map fun o => (i, y.2, o)) (fun x => ops x.2)
    (fun a i => flat_length (fun (y : Text × Nat) j => (List.range (y.2 - 1)).map fun o => (i, j, o)) (fun y => y.2 - 1) (fun _ _ => by simp) a.2 0) s 0

theorem mmts_length (s : Named) : (mmts s).length = (s.map fun x => x.2.length).sum :=
  flat_length (fun (x : Text × Mmts) i => x.2.zipIdx.map fun (y : (Text × Nat) × Nat) => (i, y.2)) (fun x => x.2.length) (fun _ _ => by simp) s 0

theorem context_whole {c : Context} {s : Named} (hf : Fits s) (h : IsContext c s) : c = whole s := by
  obtain ⟨ps, h1, h2⟩ := h
  rw [context_eq h1 hf] at h2
  exact (Option.some.inj h2).symm

theorem slotList_eq (s : Named) : slotList s 0 = (outcomes s).map fun x => ⟨(x.1 : Int), (x.2.1 : Int), x.2.2⟩ := by
  simp only [slotList, outcomes, List.map_flatMap, List.map_map]
  rfl

/-! ## Making a context -/

/-- **C121** Parties of a scenario whose numbers fit into 16 bits make a context, whether they were moved or not; it has one operator for each outcome but the last ones,
and reports the numbers of measurements and operators. -/
theorem C121_made {s : Named} {ps : List Party} (hf : Fits s) (hp : List.Forall₂ IsFor ps s) : ∃ c, Context.make ps = some c ∧ c.size = (outcomes s).length ∧
    c.parties.length = s.length ∧ c.slots = ((outcomes s).map fun x => ⟨(x.1 : Int), (x.2.1 : Int), x.2.2⟩) ∧ c.mmtCount = (mmts s).length ∧
    c.mmtsPerParty = s.map (fun x => x.2.length) ∧ c.opsPerParty = s.map (fun x => (x.2.map fun y => y.2 - 1).sum) := by
  refine ⟨whole s, context_eq hp hf, (outcomes_length s).symm, ?_, slotList_eq s, (mmts_length s).symm, rfl, rfl⟩
  have : ∀ (s : Named) (a b c : Nat), (partyList s a b c).length = s.length := by
    intro s
    induction s with
    | nil => intros; rfl
    | cons x s ih => intros; simp [partyList, ih]
  exact this s 0 0 0

/-- Parties can be made for every scenario that fits. -/
theorem parties_exist {s : Named} (hf : Fits s) : ∃ ps, List.Forall₂ IsFor ps s := by
  have : ∀ t : Named, (∀ x ∈ t, x ∈ s) → ∃ ps, List.Forall₂ IsFor ps t := by
    intro t
    induction t with
    | nil => intro _; exact ⟨[], .nil⟩
    | cons x t ih =>
      intro ht
      obtain ⟨ps, hps⟩ := ih fun z hz => ht z (by simp [hz])
      obtain ⟨p, hp⟩ := List.mem_iff_getElem?.mp (ht x (by simp))
      have h1 := before_lt hp
      have h2 := beforeMmt_lt hp
      have h3 := hf.operators
      have h4 := hf.mmts
      exact ⟨fresh 0 x :: ps, .cons ⟨0, _, make_eq (hf.outcomes x (ht x (by simp))) (by omega) (by omega), .inl rfl⟩ hps⟩
  exact this s fun _ h => h

theorem two_context : ∃ c, IsContext c two := by
  obtain ⟨ps, hp⟩ := parties_exist two_fits
  exact ⟨_, ps, hp, context_eq hp two_fits⟩

example : ∃ c, IsContext c two ∧ c.size = 4 ∧ c.mmtsPerParty = [2, 1] := by
  obtain ⟨ps, hp⟩ := parties_exist two_fits
  obtain ⟨c, h1, h2, _, _, _, h3, _⟩ := C121_made two_fits hp
  exact ⟨c, ⟨ps, hp, h1⟩, h2, h3⟩

/-! ## Operators -/

theorem party_exists {c : Context} {s : Named} (hf : Fits s) (h : IsContext c s) {p : Nat} {P : Party} (hp : c.parties[p]? = some P) :
    ∃ x, s[p]? = some x ∧ P = placed x p (before s p) (beforeMmt s p) := by
  rw [context_whole hf h, whole_get] at hp
  cases e : s[p]? with
  | none => simp [e] at hp
  | some x =>
    simp only [e, Option.map_some, Option.some.injEq] at hp
    exact ⟨x, rfl, hp.symm⟩

/-- **C121** All ways to ask about an operator agree: its number, its party, its measurement and its outcome. -/
theorem C121_operator {c : Context} {s : Named} (hf : Fits s) (hc : IsContext c s) {k p m o : Nat} (h : Is s k p m o) :
    c.associatedParty k = .value p ∧ ∃ P M x y, c.parties[p]? = some P ∧ P.mmts[m]? = some M ∧ s[p]? = some x ∧ x.2[m]? = some y ∧
      P.measurementOutcome m o = .value k ∧ P.measurementOf k = .value M ∧ P.id = p ∧ P.name = x.1 ∧ M.name = y.1 ∧ M.outcomes = y.2 ∧ M.party = p ∧ M.mmt = m := by
  obtain ⟨x, y, h1, h2, h3, h4⟩ := is_iff.mp h
  have e := context_whole hf hc
  subst e
  have b1 := inside_lt h2 h3
  have b2 := before_lt h1
  have b3 := hf.operators
  have hy := hf.outcomes x (List.mem_of_getElem? h1) y (List.mem_of_getElem? h2)
  have hP : (whole s).parties[p]? = some (placed x p (before s p) (beforeMmt s p)) := by rw [whole_get, h1]; rfl
  have hM := placed_get x p (before s p) (beforeMmt s p) m
  rw [h2, Option.map_some] at hM
  refine ⟨?_, _, _, x, y, hP, hM, h1, h2, ?_, ?_, rfl, rfl, rfl, rfl, rfl, rfl⟩
  · unfold Context.associatedParty
    rw [if_neg (by omega)]
    exact at_some (opList_get.mpr ⟨p, x, inside x.2 m + o, h1, b1, by omega, rfl⟩)
  · unfold Party.measurementOutcome
    rw [if_neg (by simp [placed]), hM]
    dsimp only
    rw [numOperators_of (n := y.2) rfl hy.1 hy.2, if_neg (by simp only [Int.toNat_natCast]; omega)]
    show Res.value (i16 ((before s p : Int) + (inside x.2 m : Int) + o)) = .value (k : Int)
    rw [i16_of (by omega) (by omega), show (before s p : Int) + (inside x.2 m : Int) + o = k by omega]
  · unfold Party.measurementOf
    rw [if_neg (by simp [placed]), if_neg (by simp only [placed]; omega)]
    have : ((k : Int) - (placed x p (before s p) (beforeMmt s p)).opOffset).toNat = inside x.2 m + o := by simp only [placed]; omega
    rw [this, show (placed x p (before s p) (beforeMmt s p)).table = mmtTable x.2 from rfl, at_some (table_get.mpr ⟨m, y, o, h2, h3, rfl, rfl⟩)]
    exact at_some hM

example : ∃ c, IsContext c two ∧ c.associatedParty 2 = .value 0 ∧ ∃ P, c.parties[0]? = some P ∧ P.measurementOutcome 1 0 = .value 2 := by
  obtain ⟨c, hc⟩ := two_context
  obtain ⟨h1, P, M, x, y, h2, _, _, _, h3, _⟩ := C121_operator (k := 2) (p := 0) (m := 1) (o := 0) two_fits hc (by unfold Is; decide)
  exact ⟨c, hc, h1, P, h2, h3⟩

/-- **C121** `measurement_outcome` answers exactly for the outcomes that have an operator, and refuses all others. -/
theorem C121_outcome {c : Context} {s : Named} (hf : Fits s) (hc : IsContext c s) {p : Nat} {P : Party} (hp : c.parties[p]? = some P) (m o : Nat) :
    (∃ k, Is s k p m o ∧ P.measurementOutcome m o = .value k) ∨ ((∀ k, ¬ Is s k p m o) ∧ P.measurementOutcome m o = .outOfRange) := by
  obtain ⟨x, h1, rfl⟩ := party_exists hf hc hp
  by_cases h : ∃ y, x.2[m]? = some y ∧ o < y.2 - 1
  · obtain ⟨y, h2, h3⟩ := h
    have hi : Is s (before s p + (inside x.2 m + o)) p m o := is_iff.mpr ⟨x, y, h1, h2, h3, rfl⟩
    obtain ⟨_, P, _, _, _, g1, _, _, _, g2, _⟩ := C121_operator hf hc hi
    rw [hp, Option.some.injEq] at g1
    exact .inl ⟨_, hi, by rw [g1]; exact g2⟩
  · refine .inr ⟨fun k hk => ?_, ?_⟩
    · obtain ⟨x', y, g1, g2, g3, _⟩ := is_iff.mp hk
      rw [h1, Option.some.injEq] at g1
      subst g1
      exact h ⟨y, g2, g3⟩
    · unfold Party.measurementOutcome
      rw [if_neg (by simp [placed]), placed_get]
      cases e : x.2[m]? with
      | none => rfl
      | some y =>
        have hy := hf.outcomes x (List.mem_of_getElem? h1) y (List.mem_of_getElem? e)
        dsimp only [Option.map_some]
        rw [numOperators_of (n := y.2) rfl hy.1 hy.2, if_pos]
        simp only [Int.toNat_natCast]
        by_contra hn
        exact h ⟨y, e, by omega⟩

example : ∃ c P, IsContext c two ∧ c.parties[0]? = some P ∧ P.measurementOutcome 0 2 = .outOfRange := by
  obtain ⟨c, hc⟩ := two_context
  obtain ⟨_, P, _, _, _, h2, _⟩ := C121_operator (k := 2) (p := 0) (m := 1) (o := 0) two_fits hc (by unfold Is; decide)
  rcases C121_outcome two_fits hc h2 0 2 with ⟨k, h, _⟩ | h
  · exfalso
    obtain ⟨x, y, g1, g2, g3, _⟩ := is_iff.mp h
    simp [two] at g1
    subst g1
    simp at g2
    subst g2
    simp at g3
  · exact ⟨c, P, hc, h2, h.2⟩

/-- **C121** `measurement_of` answers exactly for the operators of the party, and refuses all others. -/
theorem C121_measurement {c : Context} {s : Named} (hf : Fits s) (hc : IsContext c s) {p : Nat} {P : Party} (hp : c.parties[p]? = some P) (op : Int) :
    (∃ k m o M, op = (k : Nat) ∧ Is s k p m o ∧ P.mmts[m]? = some M ∧ P.measurementOf op = .value M) ∨
      ((∀ k m o, op = (k : Nat) → ¬ Is s k p m o) ∧ P.measurementOf op = .outOfRange) := by
  obtain ⟨x, h1, rfl⟩ := party_exists hf hc hp
  by_cases h : op - (before s p : Int) < 0 ∨ (ops x.2 : Int) ≤ op - (before s p : Int)
  · refine .inr ⟨fun k m o hk hi => ?_, ?_⟩
    · obtain ⟨x', y, g1, g2, g3, g4⟩ := is_iff.mp hi
      rw [h1, Option.some.injEq] at g1
      subst g1
      have := inside_lt g2 g3
      omega
    · unfold Party.measurementOf
      rw [if_neg (by simp [placed]), if_pos (by simpa only [placed] using h)]
  · obtain ⟨k, rfl⟩ := Int.eq_ofNat_of_zero_le (a := op) (by omega)
    obtain ⟨m, y, o, h2, h3, h4⟩ := inside_split (l := x.2) (r := k - before s p) (by omega)
    have hi : Is s k p m o := is_iff.mpr ⟨x, y, h1, h2, h3, by omega⟩
    obtain ⟨_, P, M, _, _, g1, g2, _, _, _, g3, _⟩ := C121_operator hf hc hi
    rw [hp, Option.some.injEq] at g1
    subst g1
    exact .inl ⟨k, m, o, M, rfl, hi, g2, g3⟩

example : ∃ c P, IsContext c two ∧ c.parties[0]? = some P ∧ P.measurementOf 3 = .outOfRange := by
  obtain ⟨c, hc⟩ := two_context
  obtain ⟨_, P, _, _, _, h, _⟩ := C121_operator two_fits hc (k := 0) (p := 0) (m := 0) (o := 0) (by unfold Is; decide)
  refine ⟨c, P, hc, h, ?_⟩
  rcases C121_measurement two_fits hc h 3 with ⟨k, m, o, M, hk, hi, _⟩ | g
  · obtain rfl : k = 3 := by omega
    have e : (outcomes two)[3]? = some (1, 0, 0) := by decide
    unfold Is at hi
    rw [e] at hi
    simp at hi
  · exact g.2

/-- **C121** The operators that a party lists are exactly those of its outcomes, in increasing order, and `operator[]` gives them by place. -/
theorem C121_operators {c : Context} {s : Named} (hf : Fits s) (hc : IsContext c s) {p : Nat} {P : Party} (hp : c.parties[p]? = some P) :
    ∃ L : List Int, P.operators = .value L ∧ L.Pairwise (· < ·) ∧ (∀ op, op ∈ L ↔ ∃ k m o, op = (k : Nat) ∧ Is s k p m o) ∧
      ∀ i, P.get i = match L[i]? with | some op => .value op | none => .outOfRange := by
  obtain ⟨x, h1, rfl⟩ := party_exists hf hc hp
  refine ⟨(List.range (ops x.2)).map fun i => ((before s p + i : Nat) : Int), ?_, ?_, ?_, ?_⟩
  · unfold Party.operators
    rw [if_neg (by simp [placed])]
    rfl
  · rw [List.pairwise_map]
    exact List.pairwise_lt_range.imp fun h => by omega
  · intro op
    rw [List.mem_map]
    constructor
    · rintro ⟨i, hi, rfl⟩
      obtain ⟨m, y, o, h2, h3, h4⟩ := inside_split (List.mem_range.mp hi)
      exact ⟨_, m, o, rfl, is_iff.mpr ⟨x, y, h1, h2, h3, by omega⟩⟩
    · rintro ⟨k, m, o, rfl, hi⟩
      obtain ⟨x', y, g1, g2, g3, g4⟩ := is_iff.mp hi
      rw [h1, Option.some.injEq] at g1
      subst g1
      exact ⟨inside x.2 m + o, List.mem_range.mpr (inside_lt g2 g3), by rw [g4]⟩
  · intro i
    unfold Party.get
    show (if (ops x.2 : Int).toNat ≤ i then _ else at? ((List.range (ops x.2)).map fun i => ((before s p + i : Nat) : Int)) i) = _
    rw [Int.toNat_natCast]
    by_cases hi : ops x.2 ≤ i
    · rw [if_pos hi, List.getElem?_eq_none (by simpa using hi)]
    · rw [if_neg hi]
      have : ((List.range (ops x.2)).map fun i => ((before s p + i : Nat) : Int))[i]? = some ((before s p + i : Nat) : Int) := by
        rw [List.getElem?_map, List.getElem?_range (by omega)]
        rfl
      rw [at_some this, this]

example : ∃ c P, IsContext c two ∧ c.parties[1]? = some P ∧ P.operators = .value [3] := by
  obtain ⟨c, hc⟩ := two_context
  have e := context_whole two_fits hc
  subst e
  exact ⟨_, placed ("B".toList, [("x".toList, 2)]) 1 3 2, hc, rfl, rfl⟩

/-- **C121** Two operators of a party exclude each other if they are different outcomes of one measurement. -/
theorem C121_exclusive {c : Context} {s : Named} (hf : Fits s) (hc : IsContext c s) {k k' p m m' o o' : Nat} (h : Is s k p m o) (h' : Is s k' p m' o') :
    ∃ P, c.parties[p]? = some P ∧ P.mutuallyExclusive k k' = .value (decide (m = m' ∧ o ≠ o')) := by
  obtain ⟨x, y, h1, h2, h3, h4⟩ := is_iff.mp h
  obtain ⟨x', y', g1, g2, g3, g4⟩ := is_iff.mp h'
  rw [h1, Option.some.injEq] at g1
  subst g1
  have e := context_whole hf hc
  subst e
  refine ⟨placed x p (before s p) (beforeMmt s p), by rw [whole_get, h1]; rfl, ?_⟩
  unfold Party.mutuallyExclusive
  by_cases e : k = k'
  · subst e
    obtain ⟨rfl, rfl⟩ := inside_inj h2 g2 h3 g3 (by omega)
    simp
  · rw [if_neg (by omega), if_neg (by simp only [placed]; omega)]
    have t1 : ((k : Int) - (placed x p (before s p) (beforeMmt s p)).opOffset).toNat = inside x.2 m + o := by simp only [placed]; omega
    have t2 : ((k' : Int) - (placed x p (before s p) (beforeMmt s p)).opOffset).toNat = inside x.2 m' + o' := by simp only [placed]; omega
    rw [t1, t2, show (placed x p (before s p) (beforeMmt s p)).table = mmtTable x.2 from rfl, at_some (table_get.mpr ⟨m, y, o, h2, h3, rfl, rfl⟩),
      at_some (table_get.mpr ⟨m', y', o', g2, g3, rfl, rfl⟩)]
    dsimp only
    congr 1
    by_cases em : m = m'
    · subst em
      have : o ≠ o' := by
        rintro rfl
        omega
      simp [this]
    · simp [em]

example : ∃ c P, IsContext c two ∧ c.parties[0]? = some P ∧ P.mutuallyExclusive 0 1 = .value true := by
  obtain ⟨c, hc⟩ := two_context
  obtain ⟨P, h1, h2⟩ := C121_exclusive (k := 0) (k' := 1) (p := 0) (m := 0) (m' := 0) (o := 0) (o' := 1) two_fits hc (by unfold Is; decide) (by unfold Is; decide)
  exact ⟨c, P, hc, h1, h2⟩

/-! ## Measurements -/

/-- **C121** All ways to ask about a measurement agree: its number in the context, and its party and its place there. -/
theorem C121_index {c : Context} {s : Named} (hf : Fits s) (hc : IsContext c s) {k p m : Nat} (h : (mmts s)[k]? = some (p, m)) :
    c.globalMmt p m = .value k ∧ c.globalToPM k = .value ⟨p, m, k⟩ ∧ (∀ g, c.populate ⟨p, m, g⟩ = .value ⟨p, m, k⟩) ∧ (∀ g, c.globalOf ⟨p, m, g⟩ = .value k) ∧
      ∃ P M, c.parties[p]? = some P ∧ P.mmts[m]? = some M ∧ M.globalMmt = k ∧ ∀ g, c.outcomesOf ⟨p, m, g⟩ = .value M.outcomes.toNat := by
  obtain ⟨x, h1, h2, h3⟩ := mmt_iff.mp h
  have e := context_whole hf hc
  subst e
  have b1 := beforeMmt_lt h1
  have b2 := hf.mmts
  have hP : (whole s).parties[p]? = some (placed x p (before s p) (beforeMmt s p)) := by rw [whole_get, h1]; rfl
  have hM := placed_get x p (before s p) (beforeMmt s p) m
  rw [List.getElem?_eq_getElem h2, Option.map_some] at hM
  have hl := placed_length x p (before s p) (beforeMmt s p)
  refine ⟨?_, ?_, ?_, ?_, _, _, hP, hM, h3.symm, ?_⟩
  · unfold Context.globalMmt
    rw [if_neg (by omega), Int.toNat_natCast, at_some hP]
    dsimp only
    rw [Int.toNat_natCast, hl, if_pos h2]
    congr 1
    show ((beforeMmt s p : Int) + m).toNat = k
    omega
  · unfold Context.globalToPM
    rw [at_some (l := (whole s).mmtToParty) (mmtList_get.mpr ⟨p, x, m, h1, h2, h3, rfl⟩)]
    dsimp only
    rw [Int.toNat_natCast, at_some hP]
    dsimp only
    show Res.value (PM.mk p (i16 ((k : Int) - beforeMmt s p)) k) = .value (PM.mk p m k)
    rw [i16_of (by omega) (by omega), show (k : Int) - beforeMmt s p = m by omega]
  · intro g
    unfold Context.populate
    dsimp only
    rw [if_neg (by omega), Int.toNat_natCast, at_some hP]
    dsimp only
    rw [Int.toNat_natCast, hl, if_pos h2]
    show Res.value (PM.mk p m (i16 ((beforeMmt s p : Int) + m)).toNat) = .value (PM.mk p m k)
    rw [i16_of (by omega) (by omega), show ((beforeMmt s p : Int) + m).toNat = k by omega]
  · intro g
    unfold Context.globalOf
    dsimp only
    rw [if_neg (by omega), Int.toNat_natCast, hP]
    dsimp only
    rw [hl, Int.toNat_natCast, if_neg (by omega)]
    congr 1
    show ((beforeMmt s p : Int) + m).toNat = k
    omega
  · intro g
    unfold Context.outcomesOf
    dsimp only
    rw [if_neg (by omega), Int.toNat_natCast, hP]
    dsimp only
    rw [if_neg (by omega), Int.toNat_natCast, hM]

example : ∃ c, IsContext c two ∧ c.globalMmt 1 0 = .value 2 ∧ c.globalToPM 2 = .value ⟨1, 0, 2⟩ := by
  obtain ⟨c, hc⟩ := two_context
  obtain ⟨h1, h2, _⟩ := C121_index (k := 2) (p := 1) (m := 0) two_fits hc (by decide)
  exact ⟨c, hc, h1, h2⟩

/-- A party and a measurement that there is. -/
def Exists (s : Named) (x : PM) : Prop := ∃ k p m : Nat, x.party = p ∧ x.mmt = m ∧ (mmts s)[k]? = some (p, m)

theorem not_exists {c : Context} {s : Named} (hf : Fits s) (hc : IsContext c s) {x : PM} (h : ¬ Exists s x) : c.globalOf x = .outOfRange ∧ c.outcomesOf x = .outOfRange := by
  have e := context_whole hf hc
  subst e
  unfold Context.globalOf Context.outcomesOf
  by_cases h1 : x.party < 0
  · rw [if_pos h1, if_pos h1]
    exact ⟨rfl, rfl⟩
  · rw [if_neg h1, if_neg h1, whole_get]
    cases e : s[x.party.toNat]? with
    | none => exact ⟨rfl, rfl⟩
    | some z =>
      dsimp only [Option.map_some]
      have hm : x.mmt < 0 ∨ z.2.length ≤ x.mmt.toNat := by
        by_contra hn
        exact h ⟨beforeMmt s x.party.toNat + x.mmt.toNat, x.party.toNat, x.mmt.toNat, by omega, by omega, mmt_iff.mpr ⟨z, e, by omega, rfl⟩⟩
      refine ⟨by rw [placed_length, if_pos hm], ?_⟩
      by_cases hm' : x.mmt < 0
      · rw [if_pos hm']
      · rw [if_neg hm', placed_get, List.getElem?_eq_none (by omega)]
        rfl

theorem collect_all {α β : Type} {f : α → Res β} {good : α → Prop} {g : α → β} (hg : ∀ a, good a → f a = .value (g a)) (hb : ∀ a, ¬ good a → f a = .outOfRange) :
    ∀ l : List α, ((∀ a ∈ l, good a) → collect f l = .value (l.map g)) ∧ ((∃ a ∈ l, ¬ good a) → collect f l = .outOfRange)
  | [] => ⟨fun _ => rfl, fun ⟨a, h, _⟩ => absurd h (by simp)⟩
  | a :: l => by
    obtain ⟨h1, h2⟩ := collect_all hg hb l
    refine ⟨fun h => ?_, fun h => ?_⟩
    · simp only [collect, hg a (h a (by simp)), h1 fun b hb => h b (by simp [hb])]
      rfl
    · by_cases ha : good a
      · obtain ⟨b, hb1, hb2⟩ := h
        have : b ∈ l := by
          rcases List.mem_cons.mp hb1 with rfl | hl
          · exact absurd ha hb2
          · exact hl
        simp only [collect, hg a ha, h2 ⟨b, this, hb2⟩]
      · simp only [collect, hb a ha]

open Classical in
/-- **C121** Lists of measurements are converted if all of them exist, and refused if one of them does not. -/
theorem C121_indices {c : Context} {s : Named} (hf : Fits s) (hc : IsContext c s) (l : List PM) :
    ((∀ x ∈ l, Exists s x) → ∃ ks os, c.pmToGlobal l = .value ks ∧ c.outcomesAt l = .value os ∧
      List.Forall₂ (fun (x : PM) (k : Nat) => ∃ p m : Nat, x.party = p ∧ x.mmt = m ∧ (mmts s)[k]? = some (p, m)) l ks ∧
      List.Forall₂ (fun (x : PM) (o : Nat) => ∃ (p m : Nat) (z : Text × Mmts) (y : Text × Nat), x.party = p ∧ x.mmt = m ∧ s[p]? = some z ∧ z.2[m]? = some y ∧ o = y.2) l os) ∧
    ((∃ x ∈ l, ¬ Exists s x) → c.pmToGlobal l = .outOfRange ∧ c.outcomesAt l = .outOfRange) := by
  have hv : ∀ x, Exists s x → ∃ k o, c.globalOf x = .value k ∧ c.outcomesOf x = .value o ∧ (∃ p m : Nat, x.party = p ∧ x.mmt = m ∧ (mmts s)[k]? = some (p, m)) ∧
      ∃ (p m : Nat) (z : Text × Mmts) (y : Text × Nat), x.party = p ∧ x.mmt = m ∧ s[p]? = some z ∧ z.2[m]? = some y ∧ o = y.2 := by
    rintro ⟨_, _, g⟩ ⟨k, p, m, rfl, rfl, h⟩
    obtain ⟨_, _, _, h1, P, M, h2, h3, _, h4⟩ := C121_index hf hc h
    obtain ⟨z, hz, rfl⟩ := party_exists hf hc h2
    rw [placed_get] at h3
    cases e : z.2[m]? with
    | none => simp [e] at h3
    | some y =>
      simp only [e, Option.map_some, Option.some.injEq] at h3
      exact ⟨k, M.outcomes.toNat, h1 g, h4 g, ⟨p, m, rfl, rfl, h⟩, p, m, z, y, rfl, rfl, hz, e, by rw [← h3]; rfl⟩
  refine ⟨fun h => ?_, fun h => ?_⟩
  · have : ∀ l : List PM, (∀ x ∈ l, Exists s x) → ∃ ks os, List.Forall₂ (fun x k => c.globalOf x = .value k) l ks ∧ List.Forall₂ (fun x o => c.outcomesOf x = .value o) l os ∧
        List.Forall₂ (fun (x : PM) (k : Nat) => ∃ p m : Nat, x.party = p ∧ x.mmt = m ∧ (mmts s)[k]? = some (p, m)) l ks ∧
        List.Forall₂ (fun (x : PM) (o : Nat) => ∃ (p m : Nat) (z : Text × Mmts) (y : Text × Nat), x.party = p ∧ x.mmt = m ∧ s[p]? = some z ∧ z.2[m]? = some y ∧ o = y.2) l os := by
      intro l
      induction l with
      | nil => intro _; exact ⟨[], [], .nil, .nil, .nil, .nil⟩
      | cons x l ih =>
        intro hl
        obtain ⟨ks, os, i1, i2, i3, i4⟩ := ih fun z hz => hl z (by simp [hz])
        obtain ⟨k, o, j1, j2, j3, j4⟩ := hv x (hl x (by simp))
        exact ⟨k :: ks, o :: os, .cons j1 i1, .cons j2 i2, .cons j3 i3, .cons j4 i4⟩
    obtain ⟨ks, os, i1, i2, i3, i4⟩ := this l h
    exact ⟨ks, os, collect_value i1, collect_value i2, i3, i4⟩
  · refine ⟨(collect_all (good := Exists s) (g := fun x => if hx : Exists s x then (hv x hx).choose else 0) (fun x hx => ?_) (fun x hx => (not_exists hf hc hx).1) l).2 h,
      (collect_all (good := Exists s) (g := fun x => if hx : Exists s x then (hv x hx).choose_spec.choose else 0) (fun x hx => ?_) (fun x hx => (not_exists hf hc hx).2) l).2 h⟩
    · rw [dif_pos hx]
      exact (hv x hx).choose_spec.choose_spec.1
    · rw [dif_pos hx]
      exact (hv x hx).choose_spec.choose_spec.2.1

example : ∃ c, IsContext c two ∧ c.pmToGlobal [⟨1, 0, 0⟩, ⟨-1, 0, 0⟩] = .outOfRange := by
  obtain ⟨c, hc⟩ := two_context
  refine ⟨c, hc, ((C121_indices two_fits hc _).2 ⟨⟨-1, 0, 0⟩, by simp, ?_⟩).1⟩
  rintro ⟨k, p, m, h, _⟩
  dsimp only at h
  omega

/-- **C121** The numbers of outcomes of all measurements, and of all parties. -/
theorem C121_outcomes {c : Context} {s : Named} (hf : Fits s) (hc : IsContext c s) :
    c.outcomes = (s.flatMap fun x => x.2.map Prod.snd) ∧ c.outcomesPerParty = s.map fun x => (x.2.map Prod.snd).sum := by
  have e := context_whole hf hc
  subst e
  have hn : ∀ (l : Mmts) (a b i mm : Nat), (((numbered l a b).map fun m => ({ m with party := (i : Int), globalMmt := mm + m.mmt.toNat } : Measurement)).map fun m => m.outcomes.toNat) =
      l.map Prod.snd := by
    intro l
    induction l with
    | nil => intros; rfl
    | cons y l ih => intro a b i mm; simp only [numbered, List.map_cons]; rw [ih]; rfl
  have hp : ∀ (x : Text × Mmts) (a b d : Nat), ((placed x a b d).mmts.map fun m => m.outcomes.toNat) = x.2.map Prod.snd := fun x a b d => hn x.2 0 0 a d
  unfold Context.outcomes Context.outcomesPerParty whole
  dsimp only
  have : ∀ (s : Named) (a b d : Nat), ((partyList s a b d).flatMap fun p => p.mmts.map fun m => m.outcomes.toNat) = (s.flatMap fun x => x.2.map Prod.snd) ∧
      ((partyList s a b d).map fun p => (p.mmts.map fun m => m.outcomes.toNat).sum) = s.map fun x => (x.2.map Prod.snd).sum := by
    intro s
    induction s with
    | nil => intros; exact ⟨rfl, rfl⟩
    | cons x s ih =>
      intro a b d
      simp only [partyList, List.flatMap_cons, List.map_cons, hp, (ih _ _ _).1, (ih _ _ _).2, and_self]
  exact this s 0 0 0

example : ∃ c, IsContext c two ∧ c.outcomes = [3, 2, 2] := by
  obtain ⟨c, hc⟩ := two_context
  exact ⟨c, hc, (C121_outcomes two_fits hc).1⟩

/-! ## The scenario of numbers of outcomes -/

/-- The numbers of outcomes, from which `Model/Locality` starts. -/
def numbers (s : Named) : Locality.Scenario := s.map fun x => x.2.map Prod.snd

theorem partyOps_eq (l : Mmts) : Locality.partyOps (l.map Prod.snd) = ops l := by
  simp only [Locality.partyOps, ops, List.map_map]
  rfl

theorem offset_eq (s : Named) (p : Nat) : Locality.operatorOffset (numbers s) p = before s p := by
  simp only [Locality.operatorOffset, numbers, before, List.map_take, List.map_map]
  congr 2
  exact List.map_congr_left fun x _ => partyOps_eq x.2

/-- **C121** The objects number operators as the scenario of numbers of outcomes does, on which the other theorems about locality rest. -/
theorem C121_scenario (s : Named) : Locality.operatorCount (numbers s) = (outcomes s).length ∧
    (∀ k p m o, Is s k p m o → Locality.measurementOutcome (numbers s) p m o = some k ∧ Locality.partyOf (numbers s) k = p) ∧
    ∀ k k' p m m' o o', Is s k p m o → Is s k' p m' o' → Locality.mutuallyExclusive (numbers s) p k k' = decide (m = m' ∧ o ≠ o') := by
  have hops : (numbers s).map Locality.partyOps = s.map fun x => ops x.2 := by
    simp only [numbers, List.map_map]
    exact List.map_congr_left fun x _ => partyOps_eq x.2
  refine ⟨?_, ?_, ?_⟩
  · rw [outcomes_length]
    unfold Locality.operatorCount
    rw [hops]
  · intro k p m o h
    obtain ⟨x, y, h1, h2, h3, h4⟩ := is_iff.mp h
    have e1 : (numbers s)[p]? = some (x.2.map Prod.snd) := by simp [numbers, h1]
    have e2 : (x.2.map Prod.snd)[m]? = some y.2 := by simp [h2]
    constructor
    · unfold Locality.measurementOutcome
      rw [e1]
      dsimp only
      rw [e2]
      dsimp only
      rw [if_neg (by unfold Locality.numOperators; omega), offset_eq]
      congr 1
      have : Locality.mmtOffset (x.2.map Prod.snd) m = inside x.2 m := by
        simp only [Locality.mmtOffset, inside, List.map_take, List.map_map]
        rfl
      omega
    · unfold Locality.partyOf Locality.opToParty
      rw [hops]
      have := Locality.blockTable_get (s.map fun x => ops x.2) 0 p (inside x.2 m + o) (ops x.2) (by simp [h1]) (inside_lt h2 h3)
      rw [← List.map_take] at this
      rw [h4]
      simpa [before] using this
  · intro k k' p m m' o o' h h'
    obtain ⟨x, y, h1, h2, h3, h4⟩ := is_iff.mp h
    obtain ⟨x', y', g1, g2, g3, g4⟩ := is_iff.mp h'
    rw [h1, Option.some.injEq] at g1
    subst g1
    have e1 : (numbers s).getD p [] = x.2.map Prod.snd := by simp [numbers, List.getD_eq_getElem?_getD, h1]
    have tab : ∀ m y o, x.2[m]? = some y → o < y.2 - 1 → (Locality.offsetToMmt (x.2.map Prod.snd)).getD (inside x.2 m + o) 0 = m := by
      intro m y o a b
      have := Locality.blockTable_get (x.2.map fun y => y.2 - 1) 0 m o (y.2 - 1) (by simp [a]) b
      rw [← List.map_take, Nat.zero_add] at this
      unfold Locality.offsetToMmt
      rw [List.map_map]
      exact this
    unfold Locality.mutuallyExclusive
    by_cases e : k = k'
    · subst e
      obtain ⟨rfl, rfl⟩ := inside_inj h2 g2 h3 g3 (by omega)
      simp
    · rw [if_neg e]
      dsimp only
      rw [e1, offset_eq, show k - before s p = inside x.2 m + o by omega, show k' - before s p = inside x.2 m' + o' by omega, tab m y o h2 h3, tab m' y' o' g2 g3]
      by_cases em : m = m'
      · subst em
        have : o ≠ o' := by
          rintro rfl
          omega
        simp [this]
      · simp [em]

example : Locality.measurementOutcome (numbers two) 1 0 0 = some 3 := ((C121_scenario two).2.1 3 1 0 0 (by unfold Is; decide)).1

/-! ## Lists of parties and arguments -/

/-- The scenario with these numbers of measurements and of outcomes, and letters as names. -/
noncomputable def deal : List Nat → List Nat → Nat → Named
  | [], _, _ => []
  | n :: ns, outs, p => (letters true p, (outs.take n).zipIdx.map fun y => (letters false y.2, y.1)) :: deal ns (outs.drop n) (p + 1)

theorem deal_sums : ∀ (ns outs : List Nat) (p : Nat), (∀ x ∈ deal ns outs p, ∀ y ∈ x.2, 1 ≤ y.2 ∧ y.2 ≤ 32767) → ns.sum ≤ outs.length →
    ((deal ns outs p).map fun x => ops x.2).sum ≤ 32767 → ((deal ns outs p).map fun x => x.2.length).sum ≤ 32767 →
    ∃ ps, makeList ns outs p = .made ps ∧ List.Forall₂ IsFor ps (deal ns outs p)
  | [], _, _, _, _, _, _ => ⟨[], rfl, .nil⟩
  | n :: ns, outs, p, ho, h, h1, h2 => by
    simp only [List.sum_cons] at h
    simp only [deal, List.map_cons, List.sum_cons] at h1 h2
    have hx := ho _ (by rw [deal]; exact List.mem_cons_self)
    have ht := take_mmts n 0 outs (by omega) fun o hmem => by
      obtain ⟨i, hi⟩ := List.mem_iff_getElem?.mp hmem
      exact (hx (letters false i, o) (List.mem_map.mpr ⟨(o, i), List.mem_zipIdx_iff_getElem?.mpr hi, rfl⟩)).2
    have hm := make_eq (id := p) (x := (letters true p, (outs.take n).zipIdx.map fun y => (letters false y.2, y.1))) hx (by dsimp only; omega) (by dsimp only; omega)
    obtain ⟨ps, e1, e2⟩ := deal_sums ns (outs.drop n) (p + 1) (fun x hx' => ho x (by rw [deal]; exact List.mem_cons_of_mem _ hx')) (by simp only [List.length_drop]; omega)
      (by omega) (by omega)
    refine ⟨_ :: ps, ?_, .cons ⟨p, _, hm, .inl rfl⟩ e2⟩
    rw [makeList.eq_def]
    dsimp only
    rw [ht]
    dsimp only
    dsimp only at hm
    rw [hm]
    dsimp only
    rw [e1]

/-- **C121** The list of parties from numbers of measurements and of outcomes makes the context of that scenario, if there are enough numbers of outcomes; if there are
too few there is no context. -/
theorem C121_list {ns outs : List Nat} : (ns.sum ≤ outs.length → Fits (deal ns outs 0) → ∃ c, makeContext (ns, outs) = .made c ∧ IsContext c (deal ns outs 0)) ∧
    (outs.length < ns.sum → ∀ c, makeContext (ns, outs) ≠ .made c) := by
  refine ⟨fun h hf => ?_, fun h c => ?_⟩
  · obtain ⟨ps, e1, e2⟩ := deal_sums ns outs 0 hf.outcomes h hf.operators hf.mmts
    refine ⟨whole (deal ns outs 0), ?_, ps, e2, context_eq e2 hf⟩
    unfold makeContext
    dsimp only
    rw [e1]
    dsimp only
    rw [context_eq e2 hf]
  · unfold makeContext
    dsimp only
    cases e : makeList ns outs 0 with
    | made ps => exact absurd e (makeList_short ns outs 0 h ps)
    | undefined => simp
    | refused => simp

theorem deal_21 : Fits (deal [2, 1] [3, 2, 2] 0) :=
  ⟨by simp [deal]; rintro a b (⟨_, rfl⟩ | ⟨_, rfl⟩) <;> omega, by simp [deal, ops], by simp [deal], by simp [deal]⟩

example : ∃ c, makeContext ([2, 1], [3, 2, 2]) = .made c ∧ c.outcomes = [3, 2, 2] := by
  obtain ⟨c, h1, h2⟩ := C121_list.1 (by decide) deal_21
  exact ⟨c, h1, (C121_outcomes deal_21 h2).1⟩

/-- The scenario with equal numbers, and letters as names. -/
noncomputable def uniform (n m o : Nat) : Named := (List.range n).map fun p => (letters true p, (List.range m).map fun k => (letters false k, o))

theorem uniform_fits {n m o : Nat} (h1 : 1 ≤ o) (h2 : o ≤ 32767) (h3 : n ≤ 32767) (h4 : n * m ≤ 32767) (h5 : n * (m * (o - 1)) ≤ 32767) : Fits (uniform n m o) := by
  refine ⟨?_, ?_, ?_, by simpa [uniform] using h3⟩
  · intro x hx y hy
    obtain ⟨p, _, rfl⟩ := List.mem_map.mp hx
    obtain ⟨k, _, rfl⟩ := List.mem_map.mp hy
    exact ⟨h1, h2⟩
  · simpa [uniform, ops, Function.comp_def] using h5
  · simpa [uniform, Function.comp_def] using h4

/-- **C121** The list of parties from one number each of parties, measurements and outcomes makes the context of that scenario. -/
theorem C121_uniform {n m o : Nat} (h1 : 1 ≤ o) (h2 : o ≤ 32767) (h3 : n ≤ 32767) (h4 : n * m ≤ 32767) (h5 : n * (m * (o - 1)) ≤ 32767) :
    ∃ ps c, makeUniform n m o = some ps ∧ Context.make ps = some c ∧ IsContext c (uniform n m o) := by
  have hf := uniform_fits h1 h2 h3 h4 h5
  have hm : ∀ p < n, Party.make p (letters true p) ((List.range m).map fun k => { name := letters false k, outcomes := o }) =
      some (fresh p (letters true p, (List.range m).map fun k => (letters false k, o))) := by
    intro p hp
    have hx : (letters true p, (List.range m).map fun k => (letters false k, o)) ∈ uniform n m o := List.mem_map.mpr ⟨p, by simpa using hp, rfl⟩
    obtain ⟨i, hi⟩ := List.mem_iff_getElem?.mp hx
    have b1 := before_lt hi
    have b2 := beforeMmt_lt hi
    have b3 := hf.operators
    have b4 := hf.mmts
    have := make_eq (id := p) (x := (letters true p, (List.range m).map fun k => (letters false k, o))) (hf.outcomes _ hx) (by omega) (by omega)
    rw [List.map_map] at this
    exact this
  have hall : ∀ l : List Nat, (∀ p ∈ l, p < n) → ∃ ps, l.mapM (fun (p : Nat) =>
      Party.make p (letters true p) ((List.range m).map fun k => { name := letters false k, outcomes := o })) = some ps ∧
      List.Forall₂ IsFor ps (l.map fun p => (letters true p, (List.range m).map fun k => (letters false k, o))) := by
    intro l
    induction l with
    | nil => exact fun _ => ⟨[], rfl, .nil⟩
    | cons p l ih =>
      intro hl
      obtain ⟨ps, e1, e2⟩ := ih fun q hq => hl q (by simp [hq])
      have e := hm p (hl p (by simp))
      refine ⟨_ :: ps, ?_, .cons ⟨p, _, by rw [List.map_map]; exact e, .inl rfl⟩ e2⟩
      rw [List.mapM_cons, e, e1]
      rfl
  obtain ⟨ps, e1, e2⟩ := hall (List.range n) fun p hp => List.mem_range.mp hp
  exact ⟨ps, whole (uniform n m o), e1, context_eq e2 hf, ps, e2, context_eq e2 hf⟩

example : ∃ ps c, makeUniform 2 3 2 = some ps ∧ Context.make ps = some c ∧ c.outcomesPerParty = [6, 6] := by
  obtain ⟨ps, c, e1, e2, e3⟩ := C121_uniform (n := 2) (m := 3) (o := 2) (by omega) (by omega) (by omega) (by omega) (by omega)
  refine ⟨ps, c, e1, e2, ?_⟩
  rw [(C121_outcomes (uniform_fits (by omega) (by omega) (by omega) (by omega) (by omega)) e3).2]
  rfl

theorem readMeasurements_sum {n : Nat} {a : Arg} {r : List Nat × Nat} (h : readMeasurements n a = some r) : r.1.length = n ∧ r.1.sum = r.2 := by
  unfold readMeasurements at h
  split at h
  · simp only [Option.some.injEq] at h
    rw [← h]
    simp
  · split at h
    · simp only [Option.some.injEq] at h
      rw [← h]
      exact ⟨by simp; omega, rfl⟩
    · exact absurd h (by simp)

theorem readOutcomes_length {n : Nat} {a os : Arg} (h : readOutcomes n a = some os) : os.length = n := by
  unfold readOutcomes at h
  split at h
  · simp only [Option.some.injEq] at h
    rw [← h]
    simp
  · split at h
    · simp only [Option.some.injEq] at h
      rw [← h]
      omega
    · exact absurd h (by simp)

/-- **C121** Named arguments, and three unnamed arguments, that are accepted name one number of measurements per party and one number of outcomes per measurement, so that
the list of parties never reads behind the last one. (Partial: two unnamed arguments are refuted below.) -/
theorem C121_arguments_partial : (∀ parties measurements outs ns os, fromParams parties measurements outs = some (ns, os) → ns.length = parties.getD 1 ∧ os.length = ns.sum) ∧
    ∀ parties a outs ns os, fromInputs parties (some a) outs = some (ns, os) → ns.length = parties ∧ os.length = ns.sum := by
  have three : ∀ (n : Nat) (a outs ns os : List Nat), ((readMeasurements n a).bind fun r => (readOutcomes r.2 outs).map fun o => (r.1, o)) = some (ns, os) →
      ns.length = n ∧ os.length = ns.sum := by
    intro n a outs ns os h
    simp only [Option.bind_eq_some_iff, Option.map_eq_some_iff, Prod.mk.injEq] at h
    obtain ⟨r, h1, o, h2, rfl, rfl⟩ := h
    obtain ⟨g1, g2⟩ := readMeasurements_sum h1
    exact ⟨g1, by rw [readOutcomes_length h2, g2]⟩
  refine ⟨fun parties measurements outs ns os h => ?_, fun parties a outs ns os h => three parties a outs ns os h⟩
  cases measurements with
  | some a => exact three _ a outs ns os h
  | none =>
    simp only [fromParams, Option.map_eq_some_iff, Prod.mk.injEq] at h
    obtain ⟨o, h1, rfl, rfl⟩ := h
    simp [readOutcomes_length h1]

example : fromParams (some 2) (some [2, 1]) [3, 2, 2] = some ([2, 1], [3, 2, 2]) := by decide

theorem makeList_undefined {n p : Nat} {ns outs rest : List Nat} {ms : List Measurement} {q : Party} (h1 : takeMmts n 0 outs = some (ms, rest))
    (h2 : Party.make p (letters true p) ms = some q) (h3 : makeList ns rest (p + 1) = .undefined) : makeList (n :: ns) outs p = .undefined := by
  rw [makeList.eq_def]
  simp only [h1, h2, h3]

theorem makeList_none {p k : Nat} {ns : List Nat} : makeList ((k + 1) :: ns) [] p = .undefined := by
  rw [makeList.eq_def]
  rfl

theorem first_mmt {n : Nat} (h2 : n ≤ 32767) : takeMmts 1 0 [n] = some ([given (letters false 0, n)], []) := by
  rw [take_mmts 1 0 [n] (by simp) (by intro o ho; simp at ho; omega)]
  simp

theorem first_party {n : Nat} (h1 : 1 ≤ n) (h2 : n ≤ 32767) :
    Party.make ((0 : Nat) : Int) (letters true 0) ([(letters false 0, n)].map given) = some (fresh ((0 : Nat) : Int) (letters true 0, [(letters false 0, n)])) :=
  make_eq (x := (letters true 0, [(letters false 0, n)])) (by intro y hy; simp at hy; subst hy; exact ⟨h1, h2⟩) (by simp [ops]; omega) (by simp)

theorem list_short {n k : Nat} (h1 : 1 ≤ n) (h2 : n ≤ 32767) : makeList (1 :: 1 :: List.replicate k 1) [n] 0 = .undefined :=
  makeList_undefined (first_mmt h2) (first_party h1 h2) makeList_none

theorem context_short {x : List Nat × List Nat} (h : makeList x.1 x.2 0 = .undefined) : makeContext x = .undefined := by
  unfold makeContext
  rw [h]

/-- **C121** (refuted) Two unnamed arguments, the number of parties and the number of outcomes, should make that many parties with one measurement each. For more than one party
the argument is accepted, and then numbers of outcomes are read behind the end of a list with one element. -/
theorem C121_refuted_arguments (parties n : Nat) (h : 2 ≤ parties) (h1 : 1 ≤ n) (h2 : n ≤ 32767) : ∃ x, fromInputs parties none [n] = some x ∧ makeContext x = .undefined := by
  obtain ⟨k, rfl⟩ : ∃ k, parties = k + 2 := ⟨parties - 2, by omega⟩
  exact ⟨(1 :: 1 :: List.replicate k 1, [n]), by simp [fromInputs, readOutcomes, List.replicate_succ], context_short (list_short h1 h2)⟩

example : fromInputs 2 none [2] = some ([1, 1], [2]) := by decide

/-! ## Where the objects fail -/

/-- **C121** (refuted) Before a party belongs to a context, asking it for an operator should be refused (party.h:96-102). `operator[]` does not: for a party that was moved the
access is undefined, and for one that was not moved it gives a number. -/
theorem C121_refuted_unattached : ∃ p q x, IsFor p x ∧ IsFor q x ∧ p.attached = false ∧ q.attached = false ∧ p.get 0 = .undefined ∧ q.get 0 = .value 0 ∧ p.operators = .unattached := by
  have h : Party.make 0 "A".toList (([("x".toList, 2)] : Mmts).map given) = some (fresh 0 ("A".toList, [("x".toList, 2)])) :=
    make_eq (x := ("A".toList, [("x".toList, 2)])) (by decide) (by decide) (by decide)
  exact ⟨(fresh 0 ("A".toList, [("x".toList, 2)])).moved, fresh 0 ("A".toList, [("x".toList, 2)]), ("A".toList, [("x".toList, 2)]), ⟨0, _, h, .inr rfl⟩, ⟨0, _, h, .inl rfl⟩,
    rfl, rfl, rfl, rfl, rfl⟩

/-- A party with 32767 operators, and one with one operator. -/
def large : Named := [("A".toList, [("x".toList, 32767), ("y".toList, 2)]), ("B".toList, [("x".toList, 2)])]

/-- **C121** (refuted) With 32768 operators, each party and each measurement still within 16 bits, a context is made without complaint, but the second party lists no
operators although it has one, and access to it is undefined. -/
theorem C121_refuted_large : ∃ ps c P, List.Forall₂ IsFor ps large ∧ Context.make ps = some c ∧ c.parties[1]? = some P ∧ P.count = 1 ∧ c.opsPerParty = [32767, 1] ∧
    P.operators = .value [] ∧ P.get 0 = .undefined := by
  have h1 : Party.make 0 "A".toList (([("x".toList, 32767), ("y".toList, 2)] : Mmts).map given) = some (fresh 0 ("A".toList, [("x".toList, 32767), ("y".toList, 2)])) :=
    make_eq (x := ("A".toList, [("x".toList, 32767), ("y".toList, 2)])) (by decide) (by simp [ops]) (by decide)
  have h2 : Party.make 0 "B".toList (([("x".toList, 2)] : Mmts).map given) = some (fresh 0 ("B".toList, [("x".toList, 2)])) :=
    make_eq (x := ("B".toList, [("x".toList, 2)])) (by decide) (by decide) (by decide)
  have i1 : IsFor (fresh 0 ("A".toList, [("x".toList, 32767), ("y".toList, 2)])) ("A".toList, [("x".toList, 32767), ("y".toList, 2)]) := ⟨0, _, h1, .inl rfl⟩
  have i2 : IsFor (fresh 0 ("B".toList, [("x".toList, 2)])) ("B".toList, [("x".toList, 2)]) := ⟨0, _, h2, .inl rfl⟩
  have step := fun c : Context => loop_step (ps := [fresh 0 ("B".toList, [("x".toList, 2)])]) (index := 0) (op := 0) (c := c) i1 (by decide) (by simp [ops])
  have o1 : ops [("x".toList, 32767), ("y".toList, 2)] = 32767 := by simp [ops]
  refine ⟨[fresh 0 ("A".toList, [("x".toList, 32767), ("y".toList, 2)]), fresh 0 ("B".toList, [("x".toList, 2)])], ?_⟩
  have hm := step { size := countOperators [fresh 0 ("A".toList, [("x".toList, 32767), ("y".toList, 2)]), fresh 0 ("B".toList, [("x".toList, 2)])] } (by simp) (by omega)
  dsimp only at hm
  rw [o1] at hm
  refine ⟨_, { fresh 0 ("B".toList, [("x".toList, 2)]) with attached := true }.setOffsets 1 32767 2, .cons i1 (.cons i2 .nil), hm.trans (by
    rw [contextLoop]
    rw [if_neg (by decide)]
    dsimp only
    rw [contextLoop]), ?_, ?_, ?_, ?_, ?_⟩
  · rfl
  · rfl
  · rfl
  · rfl
  · rfl

end Moment.C121
