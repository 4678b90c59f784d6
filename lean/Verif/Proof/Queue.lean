import Verif.Model.Queue
import Mathlib.Data.List.Basic
import Mathlib.Logic.Relation
import Mathlib.Tactic.Linarith

/-! Invariant of the concurrent queue. -/

namespace Moment.Queue

variable {T V : Type} [DecidableEq T]

/-- The nodes of a list are linked in this order and all but the last hold these values. -/
def Linked (heap : Nat → Cell V) : List Nat → List V → Prop
  | [_], [] => True
  | a :: b :: l, v :: vs => heap a = ⟨some v, some b⟩ ∧ Linked heap (b :: l) vs
  | _, _ => False

/-- The values between head and tail. -/
def Contents (s : State T V) (vals : List V) : Prop :=
  ∃ chain, Linked s.heap chain vals ∧ chain.head? = some s.head ∧ chain.getLast? = some s.tail ∧ chain.Nodup

/-- In the section protected by the tail lock. -/
def InTail : Loc V → Prop
  | .locked _ _ | .datum _ _ | .linked _ _ | .moved => True
  | _ => False

/-- In the section protected by the head lock. -/
def InHead : Loc V → Prop
  | .checking | .looking _ | .got _ _ | .flagTest | .sleepy | .flagRead | .popping _ | .leaving _ => True
  | _ => False

/-- Holds a node that is not linked yet. -/
def Owns (n : Nat) : Loc V → Prop
  | .alloc _ m | .locked _ m | .datum _ m | .linked _ m => m = n
  | _ => False

/-- What the last node looks like while a producer is at work. -/
def CellOK (c : Cell V) : Loc V → Prop
  | .locked _ _ | .moved => c = ⟨none, none⟩
  | .datum v _ => c = ⟨some v, none⟩
  | .linked v n => c = ⟨some v, some n⟩
  | _ => True

/-- What a consumer may rely on. -/
def Knows (chain : List Nat) (vals : List V) (aborted : Bool) : Loc V → Prop
  | .got _ n => n ∈ chain
  | .popping _ => vals ≠ []
  | .flagRead => aborted = true ∨ vals ≠ []
  | _ => True

structure Inv (s : State T V) (chain : List Nat) (vals : List V) : Prop where
  linked : Linked s.heap chain vals
  first : chain.head? = some s.head
  last : chain.getLast? = some s.tail
  nodup : chain.Nodup
  bound : ∀ a ∈ chain, a < s.fresh
  hist : s.pushed = s.popped ++ vals
  tailFree : s.tailLock = none → s.heap s.tail = ⟨none, none⟩
  tailHeld : ∀ t, InTail (s.loc t) ↔ s.tailLock = some t
  cell : ∀ t, CellOK (s.heap s.tail) (s.loc t)
  own : ∀ t n, Owns n (s.loc t) → n < s.fresh ∧ n ∉ chain ∧ s.heap n = ⟨none, none⟩
  ownDiff : ∀ t u n, Owns n (s.loc t) → Owns n (s.loc u) → t = u
  headHeld : ∀ t, InHead (s.loc t) ↔ s.headLock = some t
  knows : ∀ t, Knows chain vals s.aborted (s.loc t)
  nocrash : s.crashed = false

omit [DecidableEq T] in
/-- The chain is at least one node longer than the values. -/
theorem linked_length {heap : Nat → Cell V} : ∀ {chain : List Nat} {vals : List V}, Linked heap chain vals → chain.length = vals.length + 1
  | [_], [], _ => rfl
  | a :: b :: l, v :: vs, h => by
    have := linked_length h.2
    simp only [List.length_cons] at this ⊢; omega
  | [], _, h => by simp [Linked] at h
  | [_], _ :: _, h => by simp [Linked] at h
  | _ :: _ :: _, [], h => by simp [Linked] at h

/-- Changes outside the chain, or in its last node, do not matter. -/
theorem linked_update {heap heap' : Nat → Cell V} : ∀ {chain : List Nat} {vals : List V}, chain.Nodup → (∀ a ∈ chain, chain.getLast? ≠ some a → heap' a = heap a) →
    Linked heap chain vals → Linked heap' chain vals
  | [_], [], _, _, _ => trivial
  | a :: b :: l, v :: vs, hn, hh, h => by
    have hab : (a :: b :: l).getLast? ≠ some a := by
      rw [List.getLast?_cons_cons]
      intro e
      have := List.mem_of_getLast? e
      exact (List.nodup_cons.mp hn).1 this
    refine ⟨by rw [hh a (by simp) hab]; exact h.1, linked_update (List.nodup_cons.mp hn).2 (fun c hc hl => hh c (by simp [hc]) ?_) h.2⟩
    rw [List.getLast?_cons_cons]; exact hl
  | [], _, _, _, h => by simp [Linked] at h
  | [_], _ :: _, _, _, h => by simp [Linked] at h
  | _ :: _ :: _, [], _, _, h => by simp [Linked] at h

/-- Appending a node. -/
theorem linked_append {heap : Nat → Cell V} {v : V} {n : Nat} : ∀ {chain : List Nat} {vals : List V} {z : Nat}, Linked heap chain vals → chain.getLast? = some z →
    heap z = ⟨some v, some n⟩ → Linked heap (chain ++ [n]) (vals ++ [v])
  | [a], [], z, _, hl, hz => by
    simp only [List.getLast?_singleton, Option.some.injEq] at hl
    subst hl
    exact ⟨hz, trivial⟩
  | a :: b :: l, w :: vs, z, h, hl, hz => by
    rw [List.getLast?_cons_cons] at hl
    exact ⟨h.1, linked_append h.2 hl hz⟩
  | [], _, _, h, _, _ => by simp [Linked] at h
  | [_], _ :: _, _, h, _, _ => by simp [Linked] at h
  | _ :: _ :: _, [], _, h, _, _ => by simp [Linked] at h

/-- Steps that only change where one thread is, and the locks it holds. -/
theorem inv_local {s : State T V} {chain : List Nat} {vals : List V} (h : Inv s chain vals) (t : T) (l : Loc V) (hl' tl' : Option T)
    (h1 : InTail l ↔ tl' = some t) (h2 : ∀ u, u ≠ t → (tl' = some u ↔ s.tailLock = some u)) (h3 : tl' = none → s.heap s.tail = ⟨none, none⟩)
    (h4 : CellOK (s.heap s.tail) l) (h5 : ∀ n, Owns n l → Owns n (s.loc t)) (h6 : InHead l ↔ hl' = some t)
    (h7 : ∀ u, u ≠ t → (hl' = some u ↔ s.headLock = some u)) (h8 : Knows chain vals s.aborted l) :
    Inv { s with headLock := hl', tailLock := tl', loc := Function.update s.loc t l } chain vals := by
  have hother : ∀ u, u ≠ t → Function.update s.loc t l u = s.loc u := fun u hu => Function.update_of_ne hu _ _
  have hown : ∀ u n, Owns n (Function.update s.loc t l u) → Owns n (s.loc u) := by
    intro u n hu
    by_cases e : u = t
    · subst e; rw [Function.update_self] at hu; exact h5 n hu
    · rwa [hother u e] at hu
  refine ⟨h.linked, h.first, h.last, h.nodup, h.bound, h.hist, h3, fun u => ?_, fun u => ?_, fun u n hu => h.own u n (hown u n hu),
    fun u u' n hu hu' => h.ownDiff u u' n (hown u n hu) (hown u' n hu'), fun u => ?_, fun u => ?_, h.nocrash⟩ <;> dsimp only
  · by_cases e : u = t
    · subst e; rw [Function.update_self]; exact h1
    · rw [hother u e, h.tailHeld, h2 u e]
  · by_cases e : u = t
    · subst e; rw [Function.update_self]; exact h4
    · rw [hother u e]; exact h.cell u
  · by_cases e : u = t
    · subst e; rw [Function.update_self]; exact h6
    · rw [hother u e, h.headHeld, h7 u e]
  · by_cases e : u = t
    · subst e; rw [Function.update_self]; exact h8
    · rw [hother u e]; exact h.knows u

/-- The special case without changes of locks. -/
theorem inv_goto {s : State T V} {chain : List Nat} {vals : List V} (h : Inv s chain vals) (t : T) (l : Loc V) (h1 : InTail l ↔ InTail (s.loc t))
    (h4 : CellOK (s.heap s.tail) l) (h5 : ∀ n, Owns n l → Owns n (s.loc t)) (h6 : InHead l ↔ InHead (s.loc t)) (h8 : Knows chain vals s.aborted l) :
    Inv (s.goto t l) chain vals :=
  inv_local h t l s.headLock s.tailLock (h1.trans (h.tailHeld t)) (fun _ _ => Iff.rfl) h.tailFree h4 h5 (h6.trans (h.headHeld t)) (fun _ _ => Iff.rfl) h8

theorem not_tail_none {s : State T V} {chain : List Nat} {vals : List V} (h : Inv s chain vals) (hn : s.tailLock = none) (t : T) : ¬ InTail (s.loc t) := by
  rw [h.tailHeld, hn]; simp

theorem step_inv {s s' : State T V} (hs : Step s s') {chain : List Nat} {vals : List V} (h : Inv s chain vals) : ∃ chain' vals', Inv s' chain' vals' := by
  have hlast : s.tail ∈ chain := List.mem_of_getLast? h.last
  cases hs with
  | pAlloc t v hl =>
    refine ⟨chain, vals, ?_⟩
    have hne : ∀ a ∈ chain, a ≠ s.fresh := fun a ha => Nat.ne_of_lt (h.bound a ha)
    have hheap : ∀ a ∈ chain, Function.update s.heap s.fresh ⟨none, none⟩ a = s.heap a := fun a ha => Function.update_of_ne (hne a ha) _ _
    have hother : ∀ u, u ≠ t → Function.update s.loc t (.alloc v s.fresh) u = s.loc u := fun u hu => Function.update_of_ne hu _ _
    have hcase : ∀ u n, Owns n (Function.update s.loc t (.alloc v s.fresh) u) → (u = t ∧ n = s.fresh) ∨ (u ≠ t ∧ Owns n (s.loc u)) := by
      intro u n hu
      by_cases e : u = t
      · subst e; rw [Function.update_self] at hu; exact Or.inl ⟨rfl, hu.symm⟩
      · rw [hother u e] at hu; exact Or.inr ⟨e, hu⟩
    have htail : Function.update s.heap s.fresh ⟨none, none⟩ s.tail = s.heap s.tail := hheap _ hlast
    refine ⟨linked_update h.nodup (fun a ha _ => hheap a ha) h.linked, h.first, h.last, h.nodup, fun a ha => Nat.lt_succ_of_lt (h.bound a ha), h.hist,
      fun hn => htail.trans (h.tailFree hn), fun u => ?_, fun u => ?_, fun u n hu => ?_, fun u u' n hu hu' => ?_, fun u => ?_, fun u => ?_, h.nocrash⟩ <;> (try dsimp only at *)
    · by_cases e : u = t
      · subst e; rw [Function.update_self, ← h.tailHeld, hl]; simp [InTail]
      · rw [hother u e]; exact h.tailHeld u
    · rw [htail]
      by_cases e : u = t
      · subst e; rw [Function.update_self]; trivial
      · rw [hother u e]; exact h.cell u
    · rcases hcase u n hu with ⟨-, rfl⟩ | ⟨-, ho⟩
      · exact ⟨Nat.lt_succ_self _, fun hm => absurd rfl (hne _ hm), Function.update_self ..⟩
      · obtain ⟨h1, h2, h3⟩ := h.own u n ho
        exact ⟨Nat.lt_succ_of_lt h1, h2, by rw [Function.update_of_ne (Nat.ne_of_lt h1)]; exact h3⟩
    · rcases hcase u n hu with ⟨e, e2⟩ | ⟨e, ho⟩ <;> rcases hcase u' n hu' with ⟨e', e2'⟩ | ⟨e', ho'⟩
      · rw [e, e']
      · have := (h.own u' n ho').1; omega
      · have := (h.own u n ho).1; omega
      · exact h.ownDiff u u' n ho ho'
    · by_cases e : u = t
      · subst e; rw [Function.update_self, ← h.headHeld, hl]; simp [InHead]
      · rw [hother u e]; exact h.headHeld u
    · by_cases e : u = t
      · subst e; rw [Function.update_self]; trivial
      · rw [hother u e]; exact h.knows u
  | pLock t v n hl hn =>
    refine ⟨chain, vals, inv_local h t _ s.headLock (some t) (by simp [InTail]) (fun u hu => ?_) (by simp) (h.tailFree hn) (fun m hm => by rw [hl]; exact hm) ?_
      (fun _ _ => Iff.rfl) trivial⟩
    · rw [hn]; simp [Ne.symm hu]
    · rw [← h.headHeld, hl]; simp [InHead]
  | pDatum t v n hl =>
    have htl : s.tailLock = some t := (h.tailHeld t).mp (by rw [hl]; trivial)
    have hc := h.cell t
    rw [hl] at hc
    have hcell : s.heap s.tail = ⟨none, none⟩ := hc
    refine ⟨chain, vals, ?_⟩
    set heap' := Function.update s.heap s.tail ⟨some v, (s.heap s.tail).next⟩ with hh
    have h0 : Inv { s with heap := heap', loc := Function.update s.loc t (.datum v n) } chain vals := by
      have hother : ∀ u, u ≠ t → Function.update s.loc t (.datum v n) u = s.loc u := fun u hu => Function.update_of_ne hu _ _
      have hnt : ∀ u, u ≠ t → ¬ InTail (s.loc u) := by
        intro u hu hi
        have := (h.tailHeld u).mp hi
        rw [htl] at this
        exact hu (Option.some.inj this).symm
      have hown : ∀ u n', Owns n' (Function.update s.loc t (.datum v n) u) → Owns n' (s.loc u) := by
        intro u n' hu
        by_cases e : u = t
        · subst e; rw [Function.update_self] at hu; rw [hl]; exact hu
        · rwa [hother u e] at hu
      refine ⟨linked_update h.nodup (fun a ha hne => ?_) h.linked, h.first, h.last, h.nodup, h.bound, h.hist, fun hn => ?_, fun u => ?_, fun u => ?_,
        fun u n' hu => ?_, fun u u' n' hu hu' => h.ownDiff u u' n' (hown u n' hu) (hown u' n' hu'), fun u => ?_, fun u => ?_, h.nocrash⟩ <;> (try dsimp only at *)
      · rw [hh, Function.update_of_ne]
        intro e; rw [e] at hne; exact hne h.last
      · rw [htl] at hn; simp at hn
      · by_cases e : u = t
        · subst e; rw [Function.update_self, htl]; simp [InTail]
        · rw [hother u e]; exact h.tailHeld u
      · have hct : heap' s.tail = ⟨some v, none⟩ := by rw [hh, Function.update_self, hcell]
        by_cases e : u = t
        · subst e; rw [Function.update_self]; exact hct
        · rw [hother u e]
          have := hnt u e
          cases hlu : s.loc u <;> simp_all [CellOK, InTail]
      · obtain ⟨h1, h2, h3⟩ := h.own u n' (hown u n' hu)
        refine ⟨h1, h2, ?_⟩
        rw [hh, Function.update_of_ne]
        · exact h3
        · intro e; rw [e] at h2; exact h2 hlast
      · by_cases e : u = t
        · subst e; rw [Function.update_self, ← h.headHeld, hl]; simp [InHead]
        · rw [hother u e]; exact h.headHeld u
      · by_cases e : u = t
        · subst e; rw [Function.update_self]; trivial
        · rw [hother u e]; exact h.knows u
    exact h0
  | pLink t v n hl =>
    have htl : s.tailLock = some t := (h.tailHeld t).mp (by rw [hl]; trivial)
    have hc := h.cell t
    rw [hl] at hc
    have hcell : s.heap s.tail = ⟨some v, none⟩ := hc
    refine ⟨chain, vals, ?_⟩
    set heap' := Function.update s.heap s.tail ⟨(s.heap s.tail).datum, some n⟩ with hh
    have h0 : Inv { s with heap := heap', loc := Function.update s.loc t (.linked v n) } chain vals := by
      have hother : ∀ u, u ≠ t → Function.update s.loc t (.linked v n) u = s.loc u := fun u hu => Function.update_of_ne hu _ _
      have hnt : ∀ u, u ≠ t → ¬ InTail (s.loc u) := by
        intro u hu hi
        have := (h.tailHeld u).mp hi
        rw [htl] at this
        exact hu (Option.some.inj this).symm
      have hown : ∀ u n', Owns n' (Function.update s.loc t (.linked v n) u) → Owns n' (s.loc u) := by
        intro u n' hu
        by_cases e : u = t
        · subst e; rw [Function.update_self] at hu; rw [hl]; exact hu
        · rwa [hother u e] at hu
      refine ⟨linked_update h.nodup (fun a ha hne => ?_) h.linked, h.first, h.last, h.nodup, h.bound, h.hist, fun hn => ?_, fun u => ?_, fun u => ?_,
        fun u n' hu => ?_, fun u u' n' hu hu' => h.ownDiff u u' n' (hown u n' hu) (hown u' n' hu'), fun u => ?_, fun u => ?_, h.nocrash⟩ <;> (try dsimp only at *)
      · rw [hh, Function.update_of_ne]
        intro e; rw [e] at hne; exact hne h.last
      · rw [htl] at hn; simp at hn
      · by_cases e : u = t
        · subst e; rw [Function.update_self, htl]; simp [InTail]
        · rw [hother u e]; exact h.tailHeld u
      · have hct : heap' s.tail = ⟨some v, some n⟩ := by rw [hh, Function.update_self, hcell]
        by_cases e : u = t
        · subst e; rw [Function.update_self]; exact hct
        · rw [hother u e]
          have := hnt u e
          cases hlu : s.loc u <;> simp_all [CellOK, InTail]
      · obtain ⟨h1, h2, h3⟩ := h.own u n' (hown u n' hu)
        refine ⟨h1, h2, ?_⟩
        rw [hh, Function.update_of_ne]
        · exact h3
        · intro e; rw [e] at h2; exact h2 hlast
      · by_cases e : u = t
        · subst e; rw [Function.update_self, ← h.headHeld, hl]; simp [InHead]
        · rw [hother u e]; exact h.headHeld u
      · by_cases e : u = t
        · subst e; rw [Function.update_self]; trivial
        · rw [hother u e]; exact h.knows u
    exact h0
  | pMove t v n m hl hm =>
    have htl : s.tailLock = some t := (h.tailHeld t).mp (by rw [hl]; trivial)
    have hc := h.cell t
    rw [hl] at hc
    have hcell : s.heap s.tail = ⟨some v, some n⟩ := hc
    have hnm : m = n := by rw [hcell] at hm; exact (Option.some.inj hm).symm
    subst hnm
    obtain ⟨g1, g2, g3⟩ := h.own t m (by rw [hl]; rfl)
    have hother : ∀ u, u ≠ t → Function.update s.loc t .moved u = s.loc u := fun u hu => Function.update_of_ne hu _ _
    have hnt : ∀ u, u ≠ t → ¬ InTail (s.loc u) := by
      intro u hu hi
      have := (h.tailHeld u).mp hi
      rw [htl] at this
      exact hu (Option.some.inj this).symm
    have hown : ∀ u n', Owns n' (Function.update s.loc t .moved u) → u ≠ t ∧ Owns n' (s.loc u) := by
      intro u n' hu
      by_cases e : u = t
      · subst e; rw [Function.update_self] at hu; exact hu.elim
      · rw [hother u e] at hu; exact ⟨e, hu⟩
    refine ⟨chain ++ [m], vals ++ [v], ?_⟩
    refine ⟨linked_append h.linked h.last hcell, ?_, by simp, ?_, fun a ha => ?_, ?_, fun hn => ?_, fun u => ?_, fun u => ?_, fun u n' hu => ?_,
      fun u u' n' hu hu' => h.ownDiff u u' n' (hown u n' hu).2 (hown u' n' hu').2, fun u => ?_, fun u => ?_, h.nocrash⟩ <;> (try dsimp only at *)
    · rw [List.head?_append, h.first]; rfl
    · rw [List.nodup_append]
      refine ⟨h.nodup, by simp, fun a ha b hb e => ?_⟩
      simp only [List.mem_singleton] at hb
      rw [e, hb] at ha; exact g2 ha
    · rcases List.mem_append.mp ha with ha | ha
      · exact h.bound a ha
      · simp only [List.mem_singleton] at ha; rw [ha]; exact g1
    · rw [h.hist, List.append_assoc]
    · exact g3
    · by_cases e : u = t
      · subst e; rw [Function.update_self, htl]; simp [InTail]
      · rw [hother u e]; exact h.tailHeld u
    · by_cases e : u = t
      · subst e; rw [Function.update_self]; exact g3
      · rw [hother u e]
        have := hnt u e
        cases hlu : s.loc u <;> simp_all [CellOK, InTail]
    · obtain ⟨hu1, hu2⟩ := hown u n' hu
      obtain ⟨h1, h2, h3⟩ := h.own u n' hu2
      refine ⟨h1, fun hm => ?_, h3⟩
      rcases List.mem_append.mp hm with hm | hm
      · exact h2 hm
      · simp only [List.mem_singleton] at hm
        subst hm
        exact hu1 (h.ownDiff u t n' hu2 (by rw [hl]; rfl))
    · by_cases e : u = t
      · subst e; rw [Function.update_self, ← h.headHeld, hl]; simp [InHead]
      · rw [hother u e]; exact h.headHeld u
    · by_cases e : u = t
      · subst e; rw [Function.update_self]; trivial
      · rw [hother u e]
        have := h.knows u
        cases hlu : s.loc u <;> simp_all [Knows]
  | pMoveNull t v n hl hm =>
    have hc := h.cell t
    rw [hl] at hc
    have hcell : s.heap s.tail = ⟨some v, some n⟩ := hc
    rw [hcell] at hm; simp at hm
  | pUnlock t hl =>
    have htl : s.tailLock = some t := (h.tailHeld t).mp (by rw [hl]; trivial)
    have hc := h.cell t
    rw [hl] at hc
    refine ⟨chain, vals, inv_local h t _ s.headLock none (by simp [InTail]) (fun u hu => ?_) (fun _ => hc) trivial (fun m hm => hm.elim) ?_
      (fun _ _ => Iff.rfl) trivial⟩
    · rw [htl]; simp [Ne.symm hu]
    · rw [← h.headHeld, hl]; simp [InHead]
  | pNotify t u hl hu =>
    have h1 : Inv (s.goto t .idle) chain vals := inv_goto h t .idle (by rw [hl]; simp [InTail]) trivial (fun n hn => hn.elim) (by rw [hl]; simp [InHead]) trivial
    have hut : u ≠ t := fun e => by rw [e, hl] at hu; simp at hu
    have hlu : (s.goto t .idle).loc u = .asleep := by rw [State.goto]; dsimp only; rw [Function.update_of_ne hut]; exact hu
    exact ⟨chain, vals, inv_goto h1 u (.want true) (by rw [hlu]; simp [InTail]) trivial (fun n hn => hn.elim) (by rw [hlu]; simp [InHead]) trivial⟩
  | pNotifyNone t hl hno =>
    exact ⟨chain, vals, inv_goto h t .idle (by rw [hl]; simp [InTail]) trivial (fun n hn => hn.elim) (by rw [hl]; simp [InHead]) trivial⟩
  | abort t hl =>
    have h1 : Inv (s.goto t .notifyAll) chain vals := inv_goto h t .notifyAll (by rw [hl]; simp [InTail]) trivial (fun n hn => hn.elim) (by rw [hl]; simp [InHead]) trivial
    refine ⟨chain, vals, h1.linked, h1.first, h1.last, h1.nodup, h1.bound, h1.hist, h1.tailFree, h1.tailHeld, h1.cell, h1.own, h1.ownDiff, h1.headHeld, fun u => ?_,
      h1.nocrash⟩
    have := h1.knows u
    show Knows chain vals true ((s.goto t .notifyAll).loc u)
    cases hlu : (s.goto t .notifyAll).loc u <;> simp_all [Knows]
  | notifyAll t l' hl h1 h2 h3 =>
    have hl' : ∀ u, l' u = s.loc u ∨ (l' u = .idle ∧ s.loc u = .notifyAll) ∨ (l' u = .want true ∧ s.loc u = .asleep) := by
      intro u
      by_cases e : u = t
      · subst e; exact Or.inr (Or.inl ⟨h1, hl⟩)
      · by_cases ha : s.loc u = .asleep
        · exact Or.inr (Or.inr ⟨h2 u e ha, ha⟩)
        · exact Or.inl (h3 u e ha)
    have hown : ∀ u n, Owns n (l' u) → Owns n (s.loc u) := by
      intro u n hu
      rcases hl' u with e | ⟨e, -⟩ | ⟨e, -⟩ <;> rw [e] at hu
      · exact hu
      · exact hu.elim
      · exact hu.elim
    refine ⟨chain, vals, h.linked, h.first, h.last, h.nodup, h.bound, h.hist, h.tailFree, fun u => ?_, fun u => ?_, fun u n hu => h.own u n (hown u n hu),
      fun u u' n hu hu' => h.ownDiff u u' n (hown u n hu) (hown u' n hu'), fun u => ?_, fun u => ?_, h.nocrash⟩ <;> dsimp only
    · rw [← h.tailHeld]
      rcases hl' u with e | ⟨e, e'⟩ | ⟨e, e'⟩
      · rw [e]
      · rw [e, e']; simp [InTail]
      · rw [e, e']; simp [InTail]
    · rcases hl' u with e | ⟨e, e'⟩ | ⟨e, e'⟩ <;> rw [e]
      · exact h.cell u
      · trivial
      · trivial
    · rw [← h.headHeld]
      rcases hl' u with e | ⟨e, e'⟩ | ⟨e, e'⟩
      · rw [e]
      · rw [e, e']; simp [InHead]
      · rw [e, e']; simp [InHead]
    · rcases hl' u with e | ⟨e, e'⟩ | ⟨e, e'⟩ <;> rw [e]
      · exact h.knows u
      · trivial
      · trivial
  | start t w hl =>
    exact ⟨chain, vals, inv_goto h t _ (by rw [hl]; simp [InTail]) trivial (fun n hn => hn.elim) (by rw [hl]; simp [InHead]) trivial⟩
  | lockTry t hl hn =>
    refine ⟨chain, vals, inv_local h t _ (some t) s.tailLock ?_ (fun _ _ => Iff.rfl) h.tailFree trivial (fun m hm => hm.elim) (by simp [InHead]) (fun u hu => ?_) trivial⟩
    · rw [← h.tailHeld, hl]; simp [InTail]
    · rw [hn]; simp [Ne.symm hu]
  | lockWait t hl hn =>
    refine ⟨chain, vals, inv_local h t _ (some t) s.tailLock ?_ (fun _ _ => Iff.rfl) h.tailFree trivial (fun m hm => hm.elim) (by simp [InHead]) (fun u hu => ?_) trivial⟩
    · rw [← h.tailHeld, hl]; simp [InTail]
    · rw [hn]; simp [Ne.symm hu]
  | checkAbort t hl ha =>
    exact ⟨chain, vals, inv_goto h t _ (by rw [hl]; simp [InTail]) trivial (fun n hn => hn.elim) (by rw [hl]; simp [InHead]) trivial⟩
  | checkGo t hl ha =>
    exact ⟨chain, vals, inv_goto h t _ (by rw [hl]; simp [InTail]) trivial (fun n hn => hn.elim) (by rw [hl]; simp [InHead]) trivial⟩
  | look t w hl hn =>
    exact ⟨chain, vals, inv_goto h t _ (by rw [hl]; simp [InTail]) trivial (fun n hn => hn.elim) (by rw [hl]; simp [InHead]) hlast⟩
  | emptyTry t n hl hn =>
    exact ⟨chain, vals, inv_goto h t _ (by rw [hl]; simp [InTail]) trivial (fun n hn => hn.elim) (by rw [hl]; simp [InHead]) trivial⟩
  | emptyWait t n hl hn =>
    exact ⟨chain, vals, inv_goto h t _ (by rw [hl]; simp [InTail]) trivial (fun n hn => hn.elim) (by rw [hl]; simp [InHead]) trivial⟩
  | dataTry t n hl hn =>
    have hk := h.knows t
    rw [hl] at hk
    have hv : vals ≠ [] := by
      rintro rfl
      have hlen := linked_length h.linked
      obtain ⟨a, rfl⟩ := List.length_eq_one_iff.mp hlen
      have h1 := h.first
      simp only [List.head?_cons, Option.some.injEq] at h1
      have h2 : n ∈ [a] := hk
      simp only [List.mem_singleton] at h2
      exact hn (by rw [h2, h1])
    exact ⟨chain, vals, inv_goto h t _ (by rw [hl]; simp [InTail]) trivial (fun n hn => hn.elim) (by rw [hl]; simp [InHead]) hv⟩
  | dataWait t n hl hn =>
    have hk := h.knows t
    rw [hl] at hk
    have hv : vals ≠ [] := by
      rintro rfl
      have hlen := linked_length h.linked
      obtain ⟨a, rfl⟩ := List.length_eq_one_iff.mp hlen
      have h1 := h.first
      simp only [List.head?_cons, Option.some.injEq] at h1
      have h2 : n ∈ [a] := hk
      simp only [List.mem_singleton] at h2
      exact hn (by rw [h2, h1])
    exact ⟨chain, vals, inv_goto h t _ (by rw [hl]; simp [InTail]) trivial (fun n hn => hn.elim) (by rw [hl]; simp [InHead]) (Or.inr hv)⟩
  | flagUp t hl ha =>
    exact ⟨chain, vals, inv_goto h t _ (by rw [hl]; simp [InTail]) trivial (fun n hn => hn.elim) (by rw [hl]; simp [InHead]) (Or.inl ha)⟩
  | flagDown t hl ha =>
    exact ⟨chain, vals, inv_goto h t _ (by rw [hl]; simp [InTail]) trivial (fun n hn => hn.elim) (by rw [hl]; simp [InHead]) trivial⟩
  | sleep t hl =>
    have hhl : s.headLock = some t := (h.headHeld t).mp (by rw [hl]; trivial)
    refine ⟨chain, vals, inv_local h t _ none s.tailLock ?_ (fun _ _ => Iff.rfl) h.tailFree trivial (fun m hm => hm.elim) (by simp [InHead]) (fun u hu => ?_) trivial⟩
    · rw [← h.tailHeld, hl]; simp [InTail]
    · rw [hhl]; simp [Ne.symm hu]
  | spurious t hl =>
    exact ⟨chain, vals, inv_goto h t _ (by rw [hl]; simp [InTail]) trivial (fun n hn => hn.elim) (by rw [hl]; simp [InHead]) trivial⟩
  | readAbort t hl ha =>
    exact ⟨chain, vals, inv_goto h t _ (by rw [hl]; simp [InTail]) trivial (fun n hn => hn.elim) (by rw [hl]; simp [InHead]) trivial⟩
  | readGo t hl ha =>
    have hk := h.knows t
    rw [hl] at hk
    have hv : vals ≠ [] := by
      rcases hk with h1 | h1
      · rw [ha] at h1; simp at h1
      · exact h1
    exact ⟨chain, vals, inv_goto h t _ (by rw [hl]; simp [InTail]) trivial (fun n hn => hn.elim) (by rw [hl]; simp [InHead]) hv⟩
  | pop t w m v hl hm hv =>
    have hhl : s.headLock = some t := (h.headHeld t).mp (by rw [hl]; trivial)
    have hk := h.knows t
    rw [hl] at hk
    obtain ⟨x, vs, rfl⟩ := List.exists_cons_of_ne_nil (show vals ≠ [] from hk)
    have hlen := linked_length h.linked
    obtain ⟨a, b, l, rfl⟩ : ∃ a b l, chain = a :: b :: l := by
      match chain, hlen with
      | a :: b :: l, _ => exact ⟨a, b, l, rfl⟩
    have ha : a = s.head := by simpa using h.first
    subst ha
    obtain ⟨hcell, hlk⟩ := h.linked
    have hmb : m = b := by rw [hcell] at hm; exact (Option.some.inj hm).symm
    have hvx : v = x := by rw [hcell] at hv; exact (Option.some.inj hv).symm
    subst hmb hvx
    have hnd := List.nodup_cons.mp h.nodup
    have htail : s.tail ≠ s.head := by
      intro e
      have h1 := h.last
      rw [List.getLast?_cons_cons, e] at h1
      exact hnd.1 (List.mem_of_getLast? h1)
    set heap' := Function.update s.heap s.head ⟨some v, none⟩ with hh
    have hheap : ∀ a, a ≠ s.head → heap' a = s.heap a := fun a ha => by rw [hh, Function.update_of_ne ha]
    have hother : ∀ u, u ≠ t → Function.update s.loc t (.leaving (some v)) u = s.loc u := fun u hu => Function.update_of_ne hu _ _
    have hnt : ∀ u, u ≠ t → ¬ InHead (s.loc u) := by
      intro u hu hi
      have := (h.headHeld u).mp hi
      rw [hhl] at this
      exact hu (Option.some.inj this).symm
    have hown : ∀ u n', Owns n' (Function.update s.loc t (.leaving (some v)) u) → Owns n' (s.loc u) := by
      intro u n' hu
      by_cases e : u = t
      · subst e; rw [Function.update_self] at hu; exact hu.elim
      · rwa [hother u e] at hu
    refine ⟨m :: l, vs, linked_update hnd.2 (fun c hc _ => hheap c fun e => hnd.1 (e ▸ hc)) hlk, rfl, ?_, hnd.2, fun c hc => h.bound c (by simp [hc]), ?_, fun hn => ?_,
      fun u => ?_, fun u => ?_, fun u n' hu => ?_, fun u u' n' hu hu' => h.ownDiff u u' n' (hown u n' hu) (hown u' n' hu'), fun u => ?_, fun u => ?_, h.nocrash⟩ <;>
      (try dsimp only at *)
    · have h1 := h.last
      rwa [List.getLast?_cons_cons] at h1
    · rw [h.hist]; simp
    · rw [hheap _ htail]; exact h.tailFree hn
    · by_cases e : u = t
      · subst e; rw [Function.update_self, ← h.tailHeld, hl]; simp [InTail]
      · rw [hother u e]; exact h.tailHeld u
    · rw [hheap _ htail]
      by_cases e : u = t
      · subst e; rw [Function.update_self]; trivial
      · rw [hother u e]; exact h.cell u
    · obtain ⟨h1, h2, h3⟩ := h.own u n' (hown u n' hu)
      refine ⟨h1, fun hm => h2 (by simp only [List.mem_cons] at hm ⊢; exact Or.inr hm), ?_⟩
      rw [hheap]
      · exact h3
      · intro e; rw [e] at h2; simp at h2
    · by_cases e : u = t
      · subst e; rw [Function.update_self, hhl]; simp [InHead]
      · rw [hother u e]; exact h.headHeld u
    · by_cases e : u = t
      · subst e; rw [Function.update_self]; trivial
      · rw [hother u e]
        have := hnt u e
        cases hlu : s.loc u <;> simp_all [Knows, InHead]
  | popNull t w hl hm =>
    have hk := h.knows t
    rw [hl] at hk
    obtain ⟨x, vs, rfl⟩ := List.exists_cons_of_ne_nil (show vals ≠ [] from hk)
    have hlen := linked_length h.linked
    obtain ⟨a, b, l, rfl⟩ : ∃ a b l, chain = a :: b :: l := by
      match chain, hlen with
      | a :: b :: l, _ => exact ⟨a, b, l, rfl⟩
    have ha : a = s.head := by simpa using h.first
    subst ha
    have hcell := h.linked.1
    rw [hcell] at hm
    simp at hm
  | leave t r hl =>
    have hhl : s.headLock = some t := (h.headHeld t).mp (by rw [hl]; trivial)
    refine ⟨chain, vals, inv_local h t _ none s.tailLock ?_ (fun _ _ => Iff.rfl) h.tailFree trivial (fun m hm => hm.elim) (by simp [InHead]) (fun u hu => ?_) trivial⟩
    · rw [← h.tailHeld, hl]; simp [InTail]
    · rw [hhl]; simp [Ne.symm hu]

theorem initial_inv : Inv (initial : State T V) [0] [] := by
  refine ⟨trivial, rfl, rfl, by simp, by simp [initial], rfl, fun _ => rfl, fun t => by simp [initial, InTail], fun t => trivial, fun t n h => h.elim, fun t u n h => h.elim,
    fun t => by simp [initial, InHead], fun t => trivial, rfl⟩

theorem reach_inv {s : State T V} (h : Relation.ReflTransGen Step initial s) : ∃ chain vals, Inv s chain vals := by
  induction h with
  | refl => exact ⟨_, _, initial_inv⟩
  | tail _ hs ih =>
    obtain ⟨c, v, hi⟩ := ih
    exact step_inv hs hi

/-- The contents are determined. -/
theorem contents_unique {s : State T V} {a b : List V} (ha : Contents s a) (hb : Contents s b) : a = b := by
  obtain ⟨c, h1, h2, h3, h4⟩ := ha
  obtain ⟨d, g1, g2, g3, g4⟩ := hb
  have : ∀ (c d : List Nat) (a b : List V) (x z : Nat), Linked s.heap c a → Linked s.heap d b → c.head? = some x → d.head? = some x →
      c.getLast? = some z → d.getLast? = some z → c.Nodup → d.Nodup → a = b := by
    intro c
    induction c with
    | nil => intro d a b x z h; simp [Linked] at h
    | cons p c ih =>
      intro d a b x z h1 h2 h3 h4 h5 h6 h7 h8
      cases d with
      | nil => simp at h4
      | cons q d =>
        have e : p = q := by simp only [List.head?_cons, Option.some.injEq] at h3 h4; rw [h3, h4]
        subst e
        cases c with
        | nil =>
          cases a with
          | cons => simp [Linked] at h1
          | nil =>
            simp only [List.getLast?_singleton, Option.some.injEq] at h5
            subst h5
            cases d with
            | nil => cases b with
              | nil => rfl
              | cons => simp [Linked] at h2
            | cons q' d =>
              rw [List.getLast?_cons_cons] at h6
              exact absurd (List.mem_of_getLast? h6) (List.nodup_cons.mp h8).1
        | cons p' c =>
          cases a with
          | nil => simp [Linked] at h1
          | cons v a =>
            cases d with
            | nil =>
              simp only [List.getLast?_singleton, Option.some.injEq] at h6
              subst h6
              rw [List.getLast?_cons_cons] at h5
              exact absurd (List.mem_of_getLast? h5) (List.nodup_cons.mp h7).1
            | cons q' d =>
              cases b with
              | nil => simp [Linked] at h2
              | cons w b =>
                obtain ⟨k1, k2⟩ := h1
                obtain ⟨m1, m2⟩ := h2
                rw [k1] at m1
                simp only [Cell.mk.injEq, Option.some.injEq] at m1
                obtain ⟨e1, e2⟩ := m1
                subst e1 e2
                rw [List.getLast?_cons_cons] at h5 h6
                rw [ih (p' :: d) a b p' z k2 m2 rfl rfl h5 h6 (List.nodup_cons.mp h7).2 (List.nodup_cons.mp h8).2]
  exact this c d a b s.head s.tail h1 g1 h2 g2 h3 g3 h4 g4

end Moment.Queue
