import Verif.Model.Parties
import Verif.Proof.Locality

/-! Proofs about parties as objects. -/

namespace Moment.Parties

theorem i16_of {z : Int} (h : -32768 ≤ z) (h' : z < 32768) : i16 z = z := by
  unfold i16 Int.bmod
  dsimp only
  split <;> omega

theorem i16_nat {n : Nat} (h : n ≤ 32767) : i16 (n : Int) = n := i16_of (by omega) (by omega)

/-! ### Lists in blocks -/

theorem flat_get {α β : Type} (f : α → Nat → List β) (w : α → Nat) (hw : ∀ a i, (f a i).length = w a) : ∀ (l : List α) (j k : Nat) (b : β),
    ((l.zipIdx j).flatMap fun x => f x.1 x.2)[k]? = some b ↔ ∃ i a r, l[i]? = some a ∧ (f a (j + i))[r]? = some b ∧ k = ((l.take i).map w).sum + r
  | [], j, k, b => by simp
  | x :: l, j, k, b => by
    simp only [List.zipIdx_cons, List.flatMap_cons]
    by_cases hk : k < w x
    · rw [List.getElem?_append_left (by rw [hw]; exact hk)]
      constructor
      · intro h
        exact ⟨0, x, k, rfl, by simpa using h, by simp⟩
      · rintro ⟨i, a, r, h1, h2, h3⟩
        cases i with
        | zero =>
          simp only [List.getElem?_cons_zero, Option.some.injEq] at h1
          subst h1
          simp only [List.take_zero, List.map_nil, List.sum_nil, Nat.zero_add] at h3
          subst h3
          simpa using h2
        | succ i =>
          simp only [List.take_succ_cons, List.map_cons, List.sum_cons] at h3
          omega
    · rw [List.getElem?_append_right (by rw [hw]; omega), hw, flat_get f w hw l (j + 1) (k - w x) b]
      constructor
      · rintro ⟨i, a, r, h1, h2, h3⟩
        refine ⟨i + 1, a, r, by simpa using h1, ?_, ?_⟩
        · rw [show j + (i + 1) = j + 1 + i by omega]
          exact h2
        · simp only [List.take_succ_cons, List.map_cons, List.sum_cons]
          omega
      · rintro ⟨i, a, r, h1, h2, h3⟩
        cases i with
        | zero =>
          simp only [List.getElem?_cons_zero, Option.some.injEq] at h1
          subst h1
          have := (List.getElem?_eq_some_iff.mp h2).1
          rw [hw] at this
          simp only [List.take_zero, List.map_nil, List.sum_nil, Nat.zero_add] at h3
          omega
        | succ i =>
          refine ⟨i, a, r, by simpa using h1, ?_, ?_⟩
          · rw [show j + 1 + i = j + (i + 1) by omega]
            exact h2
          · simp only [List.take_succ_cons, List.map_cons, List.sum_cons] at h3
            omega

theorem flat_length {α β : Type} (f : α → Nat → List β) (w : α → Nat) (hw : ∀ a i, (f a i).length = w a) : ∀ (l : List α) (j : Nat),
    ((l.zipIdx j).flatMap fun x => f x.1 x.2).length = (l.map w).sum
  | [], _ => rfl
  | x :: l, j => by simp [List.zipIdx_cons, hw, flat_length f w hw l (j + 1)]

theorem sum_take_le {α : Type} (w : α → Nat) : ∀ (l : List α) (i : Nat) (a : α), l[i]? = some a → ((l.take i).map w).sum + w a ≤ (l.map w).sum
  | [], i, _, h => by simp at h
  | x :: l, 0, a, h => by
    simp only [List.getElem?_cons_zero, Option.some.injEq] at h
    subst h
    simp
  | x :: l, i + 1, a, h => by
    have := sum_take_le w l i a (by simpa using h)
    simp only [List.take_succ_cons, List.map_cons, List.sum_cons]
    omega

theorem block_inj {α : Type} (w : α → Nat) {l : List α} {i j : Nat} {a b : α} {r t : Nat} (hi : l[i]? = some a) (hj : l[j]? = some b) (hr : r < w a) (ht : t < w b)
    (h : ((l.take i).map w).sum + r = ((l.take j).map w).sum + t) : i = j ∧ r = t := by
  have h1 : (l.map w)[i]? = some (w a) := by simp [hi]
  have h2 : (l.map w)[j]? = some (w b) := by simp [hj]
  rw [List.map_take, List.map_take] at h
  exact Locality.sum_take_inj (l.map w) i r j t (w a) (w b) h1 hr h2 ht h

/-! ### A scenario with names -/

/-- Name and number of outcomes of the measurements. -/
abbrev Mmts := List (Text × Nat)

/-- For each party its name and its measurements. -/
abbrev Named := List (Text × Mmts)

/-- The number of operators of a party. -/
def ops (l : Mmts) : Nat := (l.map fun y => y.2 - 1).sum

/-- The numbers of operators, measurements and parties, and the numbers of outcomes are stored in 16 bits; a measurement has an outcome. -/
structure Fits (s : Named) : Prop where
  outcomes : ∀ x ∈ s, ∀ y ∈ x.2, 1 ≤ y.2 ∧ y.2 ≤ 32767
  operators : (s.map fun x => ops x.2).sum ≤ 32767
  mmts : (s.map fun x => x.2.length).sum ≤ 32767
  parties : s.length ≤ 32767

/-- A measurement as it is given to a party. -/
def given (y : Text × Nat) : Measurement := { name := y.1, outcomes := y.2 }

theorem numOperators_of {m : Measurement} {n : Nat} (h : m.outcomes = n) (h1 : 1 ≤ n) (h2 : n ≤ 32767) : m.numOperators = ((n - 1 : Nat) : Int) := by
  unfold Measurement.numOperators
  rw [h, i16_of (by omega) (by omega)]
  omega

/-- The measurements of a party after its construction. -/
def numbered : Mmts → Nat → Nat → List Measurement
  | [], _, _ => []
  | y :: l, off, k => { name := y.1, outcomes := y.2, mmt := k, offset := off } :: numbered l (off + (y.2 - 1)) (k + 1)

theorem number_eq : ∀ (l : Mmts) (off k : Nat), (∀ y ∈ l, 1 ≤ y.2 ∧ y.2 ≤ 32767) → off + ops l ≤ 32767 → k + l.length ≤ 32767 →
    number (l.map given) off k = (numbered l off k, ((off + ops l : Nat) : Int))
  | [], off, k, _, _, _ => by simp [number, numbered, ops]
  | y :: l, off, k, ho, h1, h2 => by
    have hy := ho y (by simp)
    have hs : ops (y :: l) = (y.2 - 1) + ops l := by simp [ops]
    rw [hs] at h1 ⊢
    simp only [List.length_cons] at h2
    have e : (given y).numOperators = ((y.2 - 1 : Nat) : Int) := numOperators_of rfl hy.1 hy.2
    simp only [List.map_cons, number, numbered]
    rw [e, i16_of (z := (off : Int) + ((y.2 - 1 : Nat) : Int)) (by omega) (by omega), i16_of (z := (k : Int) + 1) (by omega) (by omega)]
    rw [show (off : Int) + ((y.2 - 1 : Nat) : Int) = ((off + (y.2 - 1) : Nat) : Int) by omega, show (k : Int) + 1 = ((k + 1 : Nat) : Int) by omega]
    rw [number_eq l (off + (y.2 - 1)) (k + 1) (fun z hz => ho z (by simp [hz])) (by omega) (by omega)]
    refine Prod.ext rfl ?_
    show ((off + (y.2 - 1) + ops l : Nat) : Int) = ((off + ((y.2 - 1) + ops l) : Nat) : Int)
    congr 1
    omega

theorem numbered_get : ∀ (l : Mmts) (off k m : Nat), (numbered l off k)[m]? =
    l[m]?.map fun y => { name := y.1, outcomes := y.2, mmt := ((k + m : Nat) : Int), offset := ((off + ((l.take m).map fun y => y.2 - 1).sum : Nat) : Int) }
  | [], _, _, m => by simp [numbered]
  | y :: l, off, k, 0 => by simp [numbered]
  | y :: l, off, k, m + 1 => by
    simp only [numbered, List.getElem?_cons_succ, numbered_get l, List.take_succ_cons, List.map_cons, List.sum_cons]
    congr 2
    funext z
    rw [show k + 1 + m = k + (m + 1) by omega, Nat.add_assoc]

theorem numbered_length (l : Mmts) (off k : Nat) : (numbered l off k).length = l.length := by
  induction l generalizing off k with
  | nil => rfl
  | cons y l ih => simp [numbered, ih]

/-- For each operator of the party the number of its measurement. -/
def mmtTable (l : Mmts) : List Int := (l.zipIdx 0).flatMap fun x => List.replicate (x.1.2 - 1) (x.2 : Int)

theorem numbered_table : ∀ (l : Mmts) (off k : Nat), (∀ y ∈ l, 1 ≤ y.2 ∧ y.2 ≤ 32767) →
    ((numbered l off k).flatMap fun m => List.replicate m.numOperators.toNat m.mmt) = (l.zipIdx k).flatMap fun x => List.replicate (x.1.2 - 1) (x.2 : Int)
  | [], _, _, _ => rfl
  | y :: l, off, k, ho => by
    have hy := ho y (by simp)
    simp only [numbered, List.flatMap_cons, List.zipIdx_cons]
    rw [numbered_table l _ _ (fun z hz => ho z (by simp [hz])), numOperators_of (n := y.2) rfl hy.1 hy.2]
    rfl

theorem consecutive_eq {a n : Nat} (h : a + n ≤ 32767) : consecutive a n = (List.range n).map fun i => ((a + i : Nat) : Int) := by
  unfold consecutive
  rw [i16_of (by omega) (by omega), show ((a : Int) + n - a).toNat = n by omega]
  refine List.map_congr_left fun i _ => ?_
  omega

/-- A party after its construction. -/
def fresh (id : Int) (x : Text × Mmts) : Party :=
  { id := id, name := x.1, mmts := numbered x.2 0 0, table := mmtTable x.2, mmtOffset := 0, opOffset := 0, count := (ops x.2 : Nat)
    included := (List.range (ops x.2)).map fun (i : Nat) => (i : Int), attached := false }

theorem make_eq {id : Int} {x : Text × Mmts} (ho : ∀ y ∈ x.2, 1 ≤ y.2 ∧ y.2 ≤ 32767) (h1 : ops x.2 ≤ 32767) (h2 : x.2.length ≤ 32767) :
    Party.make id x.1 (x.2.map given) = some (fresh id x) := by
  unfold Party.make
  have e := number_eq x.2 0 0 ho (by omega) (by omega)
  simp only [Nat.cast_zero, Nat.zero_add] at e
  rw [e]
  dsimp only
  rw [if_neg (by omega), numbered_table x.2 0 0 ho]
  have := consecutive_eq (a := 0) (n := ops x.2) (by omega)
  simp only [Nat.cast_zero, Nat.zero_add] at this
  rw [this]
  unfold fresh mmtTable
  rfl

/-- A party that the context has numbered. -/
def placed (x : Text × Mmts) (index op mmt : Nat) : Party :=
  { id := index, name := x.1
    mmts := (numbered x.2 0 0).map fun m => { m with party := (index : Int), globalMmt := mmt + m.mmt.toNat }
    table := mmtTable x.2, mmtOffset := mmt, opOffset := op, count := (ops x.2 : Nat)
    included := (List.range (ops x.2)).map fun i => ((op + i : Nat) : Int), attached := true }

/-- A party object for a party: made with any number, and moved or not. -/
def IsFor (p : Party) (x : Text × Mmts) : Prop := ∃ id q, Party.make id x.1 (x.2.map given) = some q ∧ (p = q ∨ p = q.moved)

theorem numbered_mem {l : Mmts} {off k : Nat} {m : Measurement} (h : m ∈ numbered l off k) : ∃ i y, l[i]? = some y ∧ m.mmt = ((k + i : Nat) : Int) ∧ m.outcomes = y.2 := by
  obtain ⟨i, hi⟩ := List.mem_iff_getElem?.mp h
  rw [numbered_get] at hi
  cases e : l[i]? with
  | none => simp [e] at hi
  | some y =>
    simp only [e, Option.map_some, Option.some.injEq] at hi
    exact ⟨i, y, e, by rw [← hi], by rw [← hi]⟩

theorem set_eq {p : Party} {x : Text × Mmts} {index op mmt : Nat} (hp : IsFor p x) (ho : ∀ y ∈ x.2, 1 ≤ y.2 ∧ y.2 ≤ 32767) (h1 : op + ops x.2 ≤ 32767)
    (h2 : mmt + x.2.length ≤ 32767) : { p with attached := true }.setOffsets index op mmt = placed x index op mmt := by
  obtain ⟨id, q, hq, e⟩ := hp
  rw [make_eq ho (by omega) (by omega), Option.some.injEq] at hq
  subst hq
  have : { p with attached := true }.setOffsets index op mmt = { fresh id x with attached := true }.setOffsets index op mmt := by
    rcases e with e | e <;> rw [e] <;> rfl
  rw [this]
  unfold Party.setOffsets fresh placed
  dsimp only
  rw [consecutive_eq h1]
  congr 1
  refine List.map_congr_left fun m hm => ?_
  obtain ⟨i, y, hi, e1, _⟩ := numbered_mem hm
  have := (List.getElem?_eq_some_iff.mp hi).1
  rw [e1, i16_of (by omega) (by omega)]
  congr 1

theorem slots_eq {party : Nat} : ∀ (l : Mmts) (off k mo : Nat), (∀ y ∈ l, 1 ≤ y.2 ∧ y.2 ≤ 32767) → k + l.length ≤ 32767 →
    partySlots party ((numbered l off k).map fun m => { m with party := (party : Int), globalMmt := mo + m.mmt.toNat }) k =
      (l.zipIdx k).flatMap fun x => (List.range (x.1.2 - 1)).map fun o => ⟨(party : Int), (x.2 : Int), o⟩
  | [], _, _, _, _, _ => rfl
  | y :: l, off, k, mo, ho, h => by
    have hy := ho y (by simp)
    simp only [List.length_cons] at h
    simp only [numbered, List.map_cons, partySlots, List.zipIdx_cons, List.flatMap_cons]
    rw [i16_of (z := (k : Int) + 1) (by omega) (by omega), show (k : Int) + 1 = ((k + 1 : Nat) : Int) by omega,
      slots_eq l _ (k + 1) mo (fun z hz => ho z (by simp [hz])) (by omega), numOperators_of (n := y.2) rfl hy.1 hy.2]
    rfl

/-! ### The context -/

def partyList : Named → Nat → Nat → Nat → List Party
  | [], _, _, _ => []
  | x :: s, index, op, mmt => placed x index op mmt :: partyList s (index + 1) (op + ops x.2) (mmt + x.2.length)

def slotList (s : Named) (j : Nat) : List Slot :=
  (s.zipIdx j).flatMap fun x => (x.1.2.zipIdx 0).flatMap fun y => (List.range (y.1.2 - 1)).map fun o => ⟨(x.2 : Int), (y.2 : Int), o⟩

def opList (s : Named) (j : Nat) : List Int := (s.zipIdx j).flatMap fun x => List.replicate (ops x.1.2) (x.2 : Int)

def mmtList (s : Named) (j : Nat) : List Int := (s.zipIdx j).flatMap fun x => List.replicate x.1.2.length (x.2 : Int)

theorem slots_length (l : Mmts) (p : Int) (k : Nat) : ((l.zipIdx k).flatMap fun x => (List.range (x.1.2 - 1)).map fun o => (⟨p, (x.2 : Int), o⟩ : Slot)).length = ops l :=
  flat_length (fun (y : Text × Nat) i => (List.range (y.2 - 1)).map fun o => (⟨p, (i : Int), o⟩ : Slot)) (fun y => y.2 - 1) (fun _ _ => by simp) l k

theorem loop_step {x : Text × Mmts} {p : Party} {ps : List Party} {index op : Nat} {c : Context} (hp : IsFor p x) (hx : ∀ y ∈ x.2, 1 ≤ y.2 ∧ y.2 ≤ 32767)
    (h1 : op + ops x.2 ≤ 32767) (h2 : c.mmtCount + x.2.length ≤ 32767) (h3 : index + 1 ≤ 32767) :
    contextLoop (p :: ps) index op c = contextLoop ps ((index + 1 : Nat) : Int) ((op + ops x.2 : Nat) : Int)
      { c with
        parties := c.parties ++ [placed x index op c.mmtCount]
        mmtCount := c.mmtCount + x.2.length
        mmtToParty := c.mmtToParty ++ List.replicate x.2.length (index : Int)
        slots := c.slots ++ (x.2.zipIdx 0).flatMap fun y => (List.range (y.1.2 - 1)).map fun o => ⟨(index : Int), (y.2 : Int), o⟩
        opToParty := c.opToParty ++ List.replicate (ops x.2) (index : Int)
        mmtsPerParty := c.mmtsPerParty ++ [x.2.length]
        opsPerParty := c.opsPerParty ++ [ops x.2] } := by
  have hset := set_eq (index := index) (op := op) (mmt := c.mmtCount) hp hx (by omega) (by omega)
  have hany : (p.mmts.any fun m => decide (m.numOperators < 0)) = false := by
    obtain ⟨id, q, hq, e⟩ := hp
    rw [make_eq hx (by omega) (by omega), Option.some.injEq] at hq
    have hm : p.mmts = numbered x.2 0 0 := by rcases e with e | e <;> rw [e, ← hq] <;> rfl
    rw [hm, List.any_eq_false]
    intro m hmem
    obtain ⟨i, y, hi, _, e2⟩ := numbered_mem hmem
    have hy := hx y (List.mem_of_getElem? hi)
    rw [numOperators_of e2 hy.1 hy.2]
    simp
  have hslots : partySlots index (placed x index op c.mmtCount).mmts 0 =
      (x.2.zipIdx 0).flatMap fun y => (List.range (y.1.2 - 1)).map fun o => ⟨(index : Int), (y.2 : Int), o⟩ :=
    slots_eq x.2 0 0 c.mmtCount hx (by omega)
  have hlen : (placed x index op c.mmtCount).mmts.length = x.2.length := by simp [placed, numbered_length]
  have hcount : (placed x index op c.mmtCount).count.toNat = ops x.2 := by simp [placed]
  rw [contextLoop]
  dsimp only
  rw [if_neg (by simp [hany]), i16_nat (by omega), hset, hslots, slots_length, hlen, hcount, i16_of (z := (index : Int) + 1) (by omega) (by omega),
    i16_of (z := (op : Int) + (ops x.2 : Nat)) (by omega) (by omega), show (index : Int) + 1 = ((index + 1 : Nat) : Int) by omega,
    show (op : Int) + (ops x.2 : Nat) = ((op + ops x.2 : Nat) : Int) by omega]

theorem loop_eq : ∀ (s : Named) (ps : List Party) (index op : Nat) (c : Context), List.Forall₂ IsFor ps s → (∀ x ∈ s, ∀ y ∈ x.2, 1 ≤ y.2 ∧ y.2 ≤ 32767) →
    op + (s.map fun x => ops x.2).sum ≤ 32767 → c.mmtCount + (s.map fun x => x.2.length).sum ≤ 32767 → index + s.length ≤ 32767 →
    contextLoop ps index op c = some
      { c with
        parties := c.parties ++ partyList s index op c.mmtCount
        mmtCount := c.mmtCount + (s.map fun x => x.2.length).sum
        mmtToParty := c.mmtToParty ++ mmtList s index
        slots := c.slots ++ slotList s index
        opToParty := c.opToParty ++ opList s index
        mmtsPerParty := c.mmtsPerParty ++ s.map fun x => x.2.length
        opsPerParty := c.opsPerParty ++ s.map fun x => ops x.2 }
  | [], ps, index, op, c, hp, _, _, _, _ => by
    cases hp
    simp [contextLoop, partyList, mmtList, slotList, opList]
  | x :: s, ps, index, op, c, hp, ho, h1, h2, h3 => by
    cases hp with
    | cons hp hps =>
      rename_i p ps
      simp only [List.map_cons, List.sum_cons, List.length_cons] at h1 h2 h3
      rw [loop_step hp (ho x (by simp)) (by omega) (by omega) (by omega)]
      rw [loop_eq s ps (index + 1) (op + ops x.2) _ hps (fun z hz => ho z (by simp [hz])) (by omega) (by dsimp only; omega) (by omega)]
      simp [partyList, mmtList, slotList, opList, List.zipIdx_cons, Nat.add_assoc]

/-- The context of a scenario. -/
def whole (s : Named) : Context :=
  { parties := partyList s 0 0 0, mmtToParty := mmtList s 0, opToParty := opList s 0, slots := slotList s 0, mmtCount := (s.map fun x => x.2.length).sum
    mmtsPerParty := s.map fun x => x.2.length, opsPerParty := s.map fun x => ops x.2, size := (s.map fun x => ops x.2).sum }

theorem context_eq {s : Named} {ps : List Party} (hp : List.Forall₂ IsFor ps s) (hf : Fits s) : Context.make ps = some (whole s) := by
  have hc : countOperators ps = (s.map fun x => ops x.2).sum := by
    have : ∀ {ps : List Party} {s : Named}, List.Forall₂ IsFor ps s → (∀ x ∈ s, ∀ y ∈ x.2, 1 ≤ y.2 ∧ y.2 ≤ 32767) → (s.map fun x => ops x.2).sum ≤ 32767 →
        (s.map fun x => x.2.length).sum ≤ 32767 → countOperators ps = (s.map fun x => ops x.2).sum := by
      intro ps s h
      induction h with
      | nil => intros; rfl
      | cons hp _ ih =>
        rename_i p x ps s _
        intro ho h1 h2
        simp only [List.map_cons, List.sum_cons] at h1 h2
        obtain ⟨id, q, hq, e⟩ := hp
        rw [make_eq (ho x (by simp)) (by omega) (by omega), Option.some.injEq] at hq
        have hcount : p.count = (ops x.2 : Nat) := by rcases e with e | e <;> rw [e, ← hq] <;> rfl
        have := ih (fun z hz => ho z (by simp [hz])) (by omega) (by omega)
        unfold countOperators at this ⊢
        simp only [List.map_cons, List.sum_cons, this, hcount]
        rfl
    exact this hp hf.outcomes hf.operators hf.mmts
  unfold Context.make
  have := loop_eq s ps 0 0 { size := countOperators ps } hp hf.outcomes (by have := hf.operators; omega) (by have := hf.mmts; dsimp only; omega)
    (by have := hf.parties; omega)
  simp only [Nat.cast_zero] at this
  rw [this, hc]
  simp [whole]

end Moment.Parties

namespace Moment.Parties

/-! ### Requests -/

/-- Operators before those of a party. -/
def before (s : Named) (p : Nat) : Nat := ((s.take p).map fun x => ops x.2).sum

/-- Measurements before those of a party. -/
def beforeMmt (s : Named) (p : Nat) : Nat := ((s.take p).map fun x => x.2.length).sum

/-- Operators of the party before those of a measurement. -/
def inside (l : Mmts) (m : Nat) : Nat := ((l.take m).map fun y => y.2 - 1).sum

theorem partyList_get : ∀ (s : Named) (j op mmt p : Nat), (partyList s j op mmt)[p]? = s[p]?.map fun x => placed x (j + p) (op + before s p) (mmt + beforeMmt s p)
  | [], _, _, _, p => by simp [partyList]
  | x :: s, j, op, mmt, 0 => by simp [partyList, before, beforeMmt]
  | x :: s, j, op, mmt, p + 1 => by
    simp only [partyList, List.getElem?_cons_succ, partyList_get s]
    congr 1
    funext z
    simp only [before, beforeMmt, List.take_succ_cons, List.map_cons, List.sum_cons]
    congr 1 <;> omega

theorem whole_get (s : Named) (p : Nat) : (whole s).parties[p]? = s[p]?.map fun x => placed x p (before s p) (beforeMmt s p) := by
  simp [whole, partyList_get]

theorem placed_get (x : Text × Mmts) (i op mm m : Nat) : (placed x i op mm).mmts[m]? = x.2[m]?.map fun y =>
    { name := y.1, outcomes := y.2, party := (i : Int), mmt := (m : Int), globalMmt := mm + m, offset := (inside x.2 m : Int) } := by
  simp only [placed, List.getElem?_map, numbered_get, Option.map_map, inside, Nat.zero_add]
  congr 1

theorem placed_length (x : Text × Mmts) (i op mm : Nat) : (placed x i op mm).mmts.length = x.2.length := by simp [placed, numbered_length]

theorem table_get {l : Mmts} {k : Nat} {b : Int} : (mmtTable l)[k]? = some b ↔ ∃ m y o, l[m]? = some y ∧ o < y.2 - 1 ∧ k = inside l m + o ∧ b = m := by
  unfold mmtTable
  rw [flat_get (fun (y : Text × Nat) i => List.replicate (y.2 - 1) (i : Int)) (fun y => y.2 - 1) (fun _ _ => by simp) l 0 k b]
  constructor
  · rintro ⟨m, y, o, h1, h2, h3⟩
    rw [List.getElem?_replicate] at h2
    split at h2
    · exact ⟨m, y, o, h1, by assumption, h3, by simpa using h2.symm⟩
    · exact absurd h2 (by simp)
  · rintro ⟨m, y, o, h1, h2, h3, h4⟩
    exact ⟨m, y, o, h1, by simp [h2, h4], h3⟩

theorem table_length (l : Mmts) : (mmtTable l).length = ops l :=
  flat_length (fun (y : Text × Nat) i => List.replicate (y.2 - 1) (i : Int)) (fun y => y.2 - 1) (fun _ _ => by simp) l 0

theorem opList_get {s : Named} {k : Nat} {b : Int} : (opList s 0)[k]? = some b ↔ ∃ p x r, s[p]? = some x ∧ r < ops x.2 ∧ k = before s p + r ∧ b = p := by
  unfold opList
  rw [flat_get (fun (x : Text × Mmts) i => List.replicate (ops x.2) (i : Int)) (fun x => ops x.2) (fun _ _ => by simp) s 0 k b]
  constructor
  · rintro ⟨m, y, o, h1, h2, h3⟩
    rw [List.getElem?_replicate] at h2
    split at h2
    · exact ⟨m, y, o, h1, by assumption, h3, by simpa using h2.symm⟩
    · exact absurd h2 (by simp)
  · rintro ⟨m, y, o, h1, h2, h3, h4⟩
    exact ⟨m, y, o, h1, by simp [h2, h4], h3⟩

theorem mmtList_get {s : Named} {k : Nat} {b : Int} : (mmtList s 0)[k]? = some b ↔ ∃ p x r, s[p]? = some x ∧ r < x.2.length ∧ k = beforeMmt s p + r ∧ b = p := by
  unfold mmtList
  rw [flat_get (fun (x : Text × Mmts) i => List.replicate x.2.length (i : Int)) (fun x => x.2.length) (fun _ _ => by simp) s 0 k b]
  constructor
  · rintro ⟨m, y, o, h1, h2, h3⟩
    rw [List.getElem?_replicate] at h2
    split at h2
    · exact ⟨m, y, o, h1, by assumption, h3, by simpa using h2.symm⟩
    · exact absurd h2 (by simp)
  · rintro ⟨m, y, o, h1, h2, h3, h4⟩
    exact ⟨m, y, o, h1, by simp [h2, h4], h3⟩

theorem inside_lt {l : Mmts} {m o : Nat} {y : Text × Nat} (h : l[m]? = some y) (ho : o < y.2 - 1) : inside l m + o < ops l := by
  have := sum_take_le (fun y : Text × Nat => y.2 - 1) l m y h
  unfold inside ops
  omega

theorem before_lt {s : Named} {p : Nat} {x : Text × Mmts} (h : s[p]? = some x) : before s p + ops x.2 ≤ (s.map fun x => ops x.2).sum :=
  sum_take_le (fun x : Text × Mmts => ops x.2) s p x h

theorem beforeMmt_lt {s : Named} {p : Nat} {x : Text × Mmts} (h : s[p]? = some x) : beforeMmt s p + x.2.length ≤ (s.map fun x => x.2.length).sum :=
  sum_take_le (fun x : Text × Mmts => x.2.length) s p x h

theorem inside_split {l : Mmts} {r : Nat} (h : r < ops l) : ∃ m y o, l[m]? = some y ∧ o < y.2 - 1 ∧ r = inside l m + o := by
  have h' : r < (mmtTable l).length := by rw [table_length]; exact h
  obtain ⟨m, y, o, h1, h2, h3, _⟩ := table_get.mp (List.getElem?_eq_getElem h')
  exact ⟨m, y, o, h1, h2, h3⟩

theorem before_inj {s : Named} {p q : Nat} {x z : Text × Mmts} {r t : Nat} (hp : s[p]? = some x) (hq : s[q]? = some z) (hr : r < ops x.2) (ht : t < ops z.2)
    (h : before s p + r = before s q + t) : p = q ∧ r = t := block_inj (fun x : Text × Mmts => ops x.2) hp hq hr ht h

theorem beforeMmt_inj {s : Named} {p q : Nat} {x z : Text × Mmts} {r t : Nat} (hp : s[p]? = some x) (hq : s[q]? = some z) (hr : r < x.2.length) (ht : t < z.2.length)
    (h : beforeMmt s p + r = beforeMmt s q + t) : p = q ∧ r = t := block_inj (fun x : Text × Mmts => x.2.length) hp hq hr ht h

theorem inside_inj {l : Mmts} {p q : Nat} {x z : Text × Nat} {r t : Nat} (hp : l[p]? = some x) (hq : l[q]? = some z) (hr : r < x.2 - 1) (ht : t < z.2 - 1)
    (h : inside l p + r = inside l q + t) : p = q ∧ r = t := block_inj (fun y : Text × Nat => y.2 - 1) hp hq hr ht h

theorem at_some {α : Type} {l : List α} {i : Nat} {a : α} (h : l[i]? = some a) : at? l i = .value a := by simp [at?, h]

theorem at_none {α : Type} {l : List α} {i : Nat} (h : l.length ≤ i) : at? l i = .undefined := by
  simp [at?, List.getElem?_eq_none h]

/-! ### Text -/

theorem intText_nat (n : Nat) : intText n = Nat.toDigits 10 n := by
  unfold intText
  rw [if_neg (by omega)]
  rfl

theorem digits_inj {m n : Nat} (h : Nat.toDigits 10 m = Nat.toDigits 10 n) : m = n := by
  have := congrArg (fun d => Nat.ofDigitChars 10 d 0) h
  simpa [Nat.ofDigitChars_ten_toDigits] using this

theorem digits_digit {n : Nat} {c : Char} (h : c ∈ Nat.toDigits 10 n) : c.isDigit = true := Nat.isDigit_of_mem_toDigits (by omega) (by omega) h

/-- Where a text is cut by a character that does not occur before. -/
theorem cut {p : Char → Prop} {a b a' b' : Text} {c c' : Char} (ha : ∀ x ∈ a, ¬ p x) (ha' : ∀ x ∈ a', ¬ p x) (hc : p c) (hc' : p c') (h : a ++ c :: b = a' ++ c' :: b') :
    a = a' ∧ c = c' ∧ b = b' := by
  induction a generalizing a' with
  | nil =>
    cases a' with
    | nil => simpa using h
    | cons x a' =>
      simp only [List.nil_append, List.cons_append, List.cons.injEq] at h
      exact absurd (h.1 ▸ hc) (ha' x (by simp))
  | cons x a ih =>
    cases a' with
    | nil =>
      simp only [List.nil_append, List.cons_append, List.cons.injEq] at h
      exact absurd (h.1 ▸ hc') (ha x (by simp))
    | cons x' a' =>
      simp only [List.cons_append, List.cons.injEq] at h
      obtain ⟨h1, h2⟩ := ih (fun y hy => ha y (by simp [hy])) (fun y hy => ha' y (by simp [hy])) h.2
      exact ⟨by rw [h.1, h1], h2⟩

theorem joined_cons {t : Text} {ts : List Text} (h : ts ≠ []) : joined (t :: ts) = t ++ ';' :: joined ts := by
  cases ts with
  | nil => exact absurd rfl h
  | cons => rfl

theorem not_mem_split {a b : Text} {c : Char} (h : c ∉ a ++ c :: b) : False := h (by simp)

theorem joined_inj : ∀ {l l' : List Text}, (∀ t ∈ l, ';' ∉ t ∧ t ≠ []) → (∀ t ∈ l', ';' ∉ t ∧ t ≠ []) → joined l = joined l' → l = l'
  | [], [], _, _, _ => rfl
  | [], t :: ts, _, h', h => by
    exfalso
    have ht := h' t (by simp)
    cases ts with
    | nil => exact ht.2 h.symm
    | cons u us =>
      rw [joined_cons (by simp)] at h
      simp [joined] at h
  | t :: ts, [], h', _, h => by
    exfalso
    have ht := h' t (by simp)
    cases ts with
    | nil => exact ht.2 h
    | cons u us =>
      rw [joined_cons (by simp)] at h
      simp [joined] at h
  | t :: ts, t' :: ts', hl, hl', h => by
    have ht := hl t (by simp)
    have ht' := hl' t' (by simp)
    cases ts with
    | nil =>
      cases ts' with
      | nil => simpa [joined] using h
      | cons u us =>
        rw [joined_cons (t := t') (by simp)] at h
        simp only [joined] at h
        exact absurd ht.1 (by rw [h]; simp)
    | cons u us =>
      cases ts' with
      | nil =>
        rw [joined_cons (t := t) (by simp)] at h
        simp only [joined] at h
        exact absurd ht'.1 (by rw [← h]; simp)
      | cons u' us' =>
        rw [joined_cons (t := t) (by simp), joined_cons (t := t') (by simp)] at h
        obtain ⟨e1, _, e2⟩ := cut (p := (· = ';')) (fun x hx e => ht.1 (e ▸ hx)) (fun x hx e => ht'.1 (e ▸ hx)) rfl rfl h
        rw [e1, joined_inj (fun z hz => hl z (by simp [List.mem_cons.mp hz])) (fun z hz => hl' z (by simp [List.mem_cons.mp hz])) e2]

theorem collect_value {α β : Type} {f : α → Res β} : ∀ {l : List α} {bs : List β}, List.Forall₂ (fun a b => f a = .value b) l bs → collect f l = .value bs
  | [], _, h => by cases h; rfl
  | a :: l, _, h => by
    cases h with
    | cons h hs =>
      simp only [collect, h, collect_value hs]

/-! ### Lists of parties -/

theorem take_mmts : ∀ (n k : Nat) (l : List Nat), n ≤ l.length → (∀ o ∈ l.take n, o ≤ 32767) →
    takeMmts n k l = some ((((l.take n).zipIdx k).map fun y => (letters false y.2, y.1)).map given, l.drop n)
  | 0, k, l, _, _ => by simp [takeMmts]
  | n + 1, k, [], h, _ => by simp at h
  | n + 1, k, o :: l, h, ho => by
    have := take_mmts n (k + 1) l (by simpa using h) (fun z hz => ho z (by simp [hz]))
    simp only [takeMmts, this, Option.map_some, List.take_succ_cons, List.zipIdx_cons, List.map_cons, List.drop_succ_cons]
    rw [i16_nat (ho o (by simp))]
    rfl

theorem take_mmts_none : ∀ (n k : Nat) (l : List Nat), l.length < n → takeMmts n k l = none
  | 0, _, _, h => by omega
  | _ + 1, _, [], _ => rfl
  | n + 1, k, o :: l, h => by
    simp only [List.length_cons] at h
    simp [takeMmts, take_mmts_none n (k + 1) l (by omega)]

theorem take_mmts_some : ∀ (n k : Nat) (l : List Nat) (r : List Measurement × List Nat), takeMmts n k l = some r → n ≤ l.length ∧ r.2.length = l.length - n
  | 0, _, _, r, h => by simp only [takeMmts, Option.some.injEq] at h; rw [← h]; simp
  | _ + 1, _, [], _, h => by simp [takeMmts] at h
  | n + 1, k, o :: l, r, h => by
    simp only [takeMmts, Option.map_eq_some_iff] at h
    obtain ⟨t, h1, rfl⟩ := h
    obtain ⟨g1, g2⟩ := take_mmts_some n (k + 1) l t h1
    simp only [List.length_cons]
    exact ⟨by omega, by omega⟩

theorem makeList_short : ∀ (ns outs : List Nat) (p : Nat), outs.length < ns.sum → ∀ ps, makeList ns outs p ≠ .made ps
  | [], _, _, h => by simp at h
  | n :: ns, outs, p, h => by
    intro ps
    rw [makeList.eq_def]
    dsimp only
    cases e : takeMmts n 0 outs with
    | none => simp
    | some r =>
      obtain ⟨ms, rest⟩ := r
      dsimp only
      cases Party.make p (letters true p) ms with
      | none => simp
      | some q =>
        dsimp only
        obtain ⟨g1, g2⟩ := take_mmts_some n 0 outs _ e
        simp only [List.sum_cons] at h
        have ih := makeList_short ns rest (p + 1) (by dsimp only at g2; omega)
        cases e' : makeList ns rest (p + 1) with
        | made qs => exact absurd e' (ih qs)
        | undefined => simp
        | refused => simp

end Moment.Parties
