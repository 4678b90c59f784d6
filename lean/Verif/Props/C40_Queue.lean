import Verif.Proof.Queue
import Mathlib.Data.Fintype.Basic
import Mathlib.Data.Fintype.Pi
import Mathlib.Algebra.BigOperators.Group.Finset.Basic
import Mathlib.Data.Fintype.BigOperators

/-! # C40: the concurrent queue is first-in first-out; C41: waiting consumers are woken -/

namespace Moment.C40

open Queue

variable {T V : Type} [DecidableEq T]

/-- States that can occur. -/
def Reachable (s : State T V) : Prop := Relation.ReflTransGen Step initial s

/-- **C40.** In every state of every execution the items taken so far followed by the items in the queue are the items added, in order. -/
theorem C40_fifo {s : State T V} (h : Reachable s) : ∃ vals, Contents s vals ∧ s.pushed = s.popped ++ vals := by
  obtain ⟨c, v, hi⟩ := reach_inv h
  exact ⟨v, ⟨c, hi.linked, hi.first, hi.last, hi.nodup⟩, hi.hist⟩

/-- **C40.** No null pointer is ever used. -/
theorem C40_no_crash {s : State T V} (h : Reachable s) : s.crashed = false := by
  obtain ⟨c, v, hi⟩ := reach_inv h
  exact hi.nocrash

/-- **C40.** A consumer about to take the first node and a producer working on the last one are never at the same node, and only one thread is in each protected section. -/
theorem C40_no_race {s : State T V} (h : Reachable s) : (∀ t w, s.loc t = .popping w → s.head ≠ s.tail) ∧
    (∀ t u, InTail (s.loc t) → InTail (s.loc u) → t = u) ∧ (∀ t u, InHead (s.loc t) → InHead (s.loc u) → t = u) := by
  obtain ⟨c, v, hi⟩ := reach_inv h
  refine ⟨fun t w ht e => ?_, fun t u ht hu => ?_, fun t u ht hu => ?_⟩
  · have hk := hi.knows t
    rw [ht] at hk
    have hv : v ≠ [] := hk
    have hlen := linked_length hi.linked
    have hl := hi.last
    have hf := hi.first
    rw [← e] at hl
    match c, hlen with
    | [], hlen => simp at hlen
    | [a], hlen =>
      cases v with
      | nil => exact hv rfl
      | cons => simp at hlen
    | a :: b :: l, _ =>
      simp only [List.head?_cons, Option.some.injEq] at hf
      subst hf
      rw [List.getLast?_cons_cons] at hl
      exact (List.nodup_cons.mp hi.nodup).1 (List.mem_of_getLast? hl)
  · have h1 := (hi.tailHeld t).mp ht
    rw [(hi.tailHeld u).mp hu] at h1
    exact (Option.some.inj h1).symm
  · have h1 := (hi.headHeld t).mp ht
    rw [(hi.headHeld u).mp hu] at h1
    exact (Option.some.inj h1).symm

/-- **C40.** The queue looks empty exactly if it is: the test of the consumers, at the moment the tail is read. -/
theorem C40_empty_test {s : State T V} (h : Reachable s) : s.head = s.tail ↔ Contents s [] := by
  obtain ⟨c, v, hi⟩ := reach_inv h
  have hc : Contents s v := ⟨c, hi.linked, hi.first, hi.last, hi.nodup⟩
  constructor
  · intro e
    have hlen := linked_length hi.linked
    have hl := hi.last
    have hf := hi.first
    rw [← e] at hl
    have : v = [] := by
      match c, v, hlen with
      | [a], [], _ => rfl
      | a :: b :: l, w :: v, _ =>
        simp only [List.head?_cons, Option.some.injEq] at hf
        subst hf
        rw [List.getLast?_cons_cons] at hl
        exact absurd (List.mem_of_getLast? hl) (List.nodup_cons.mp hi.nodup).1
    rw [← this]; exact hc
  · rintro ⟨d, h1, h2, h3, -⟩
    match d, h1 with
    | [a], _ =>
      simp only [List.head?_cons, Option.some.injEq, List.getLast?_singleton] at h2 h3
      rw [← h2, ← h3]

/-- **C40.** An item is recorded as taken exactly when a consumer gets it, and as added exactly when a producer publishes it. -/
theorem C40_steps {s s' : State T V} (h : Step s s') :
    (s'.popped = s.popped ∧ (∀ t v, s'.loc t = .leaving (some v) → s.loc t = .leaving (some v)) ∨
      ∃ t v, s'.popped = s.popped ++ [v] ∧ s'.loc t = .leaving (some v) ∧ ∀ u, u ≠ t → s'.loc u = s.loc u) ∧
    (s'.pushed = s.pushed ∨ ∃ t v n, s.loc t = .linked v n ∧ s'.loc t = .moved ∧ s'.pushed = s.pushed ++ [v]) := by
  have hup : ∀ (f : T → Loc V) (t : T) (l : Loc V), (∀ v, l ≠ .leaving (some v)) → ∀ u v, Function.update f t l u = .leaving (some v) → f u = .leaving (some v) := by
    intro f t l hl u v hu
    by_cases e : u = t
    · subst e; rw [Function.update_self] at hu; exact absurd hu (hl v)
    · rwa [Function.update_of_ne e] at hu
  cases h with
  | pop t w m v hl hm hv =>
    refine ⟨Or.inr ⟨t, v, rfl, Function.update_self .., fun u hu => Function.update_of_ne hu _ _⟩, Or.inl rfl⟩
  | pMove t v n m hl hm =>
    exact ⟨Or.inl ⟨rfl, hup _ _ _ (by simp)⟩, Or.inr ⟨t, v, n, hl, Function.update_self .., rfl⟩⟩
  | pNotify t u hl hu =>
    exact ⟨Or.inl ⟨rfl, fun x v hx => hup _ t .idle (by simp) x v (hup _ u (.want true) (by simp) x v hx)⟩, Or.inl rfl⟩
  | notifyAll t l' hl h1 h2 h3 =>
    refine ⟨Or.inl ⟨rfl, fun u v hu => ?_⟩, Or.inl rfl⟩
    dsimp only at hu
    by_cases e : u = t
    · subst e; rw [h1] at hu; simp at hu
    · by_cases ha : s.loc u = .asleep
      · rw [h2 u e ha] at hu; simp at hu
      · rwa [h3 u e ha] at hu
  | pMoveNull => exact ⟨Or.inl ⟨rfl, fun _ _ h => h⟩, Or.inl rfl⟩
  | popNull => exact ⟨Or.inl ⟨rfl, fun _ _ h => h⟩, Or.inl rfl⟩
  | _ => exact ⟨Or.inl ⟨rfl, hup _ _ _ (by simp)⟩, Or.inl rfl⟩

end Moment.C40

namespace Moment.C41

open Queue C40

variable {T V : Type} [DecidableEq T]

/-! ## Lost wake-ups -/

/-- The consumer `false` has seen an empty queue and is about to sleep. -/
def drowsy (V : Type) : State Bool V :=
  ⟨0, 0, fun _ => ⟨none, none⟩, 1, some false, none, false, fun t => if t then .idle else .sleepy, [], [], false⟩

theorem loc_ext {V : Type} (f g : Bool → Loc V) (h1 : f true = g true) (h2 : f false = g false) : f = g := by
  funext b; cases b
  · exact h2
  · exact h1

theorem drowsy_reachable (V : Type) : Reachable (drowsy V) := by
  have h0 : Reachable (initial : State Bool V) := Relation.ReflTransGen.refl
  have h1 := h0.tail (Step.start _ false true rfl)
  have h2 := h1.tail (Step.lockWait _ false rfl rfl)
  have h3 := h2.tail (Step.look _ false true rfl rfl)
  have h4 := h3.tail (Step.emptyWait _ false 0 rfl rfl)
  have h5 := h4.tail (Step.flagDown _ false rfl rfl)
  refine cast (congrArg Reachable ?_) h5
  simp only [State.goto, initial, drowsy, State.mk.injEq, true_and, and_true]
  exact loc_ext _ _ rfl rfl

/-- **C41 (violated).** The producer adds an item and notifies between the test of the consumer and its falling asleep: the consumer sleeps though there is an item,
no one else is active, and nothing will wake it. -/
theorem C41_refuted_push (v : V) : ∃ s : State Bool V, Reachable s ∧ s.loc false = .asleep ∧ s.loc true = .idle ∧ Contents s [v] ∧ s.aborted = false := by
  have h1 := (drowsy_reachable V).tail (Step.pAlloc _ true v rfl)
  have h2 := h1.tail (Step.pLock _ true v 1 rfl rfl)
  have h3 := h2.tail (Step.pDatum _ true v 1 rfl)
  have h4 := h3.tail (Step.pLink _ true v 1 rfl)
  have h5 := h4.tail (Step.pMove _ true v 1 1 rfl rfl)
  have h6 := h5.tail (Step.pUnlock _ true rfl)
  have h7 := h6.tail (Step.pNotifyNone _ true rfl (by
    intro u hu
    cases u
    · exact (by simp : (Loc.sleepy : Loc V) ≠ .asleep) hu
    · exact (by simp : (Loc.notify : Loc V) ≠ .asleep) hu))
  have h8 := h7.tail (Step.sleep _ false rfl)
  refine ⟨_, h8, rfl, rfl, ⟨[0, 1], ⟨rfl, trivial⟩, rfl, rfl, by simp⟩, rfl⟩

/-- A reachable state with an item, as in the theorems of C40. -/
example : ∃ s : State Bool Nat, Reachable s ∧ Contents s [7] ∧ s.pushed = s.popped ++ [7] := by
  obtain ⟨s, h, -, -, hc, -⟩ := C41_refuted_push 7
  obtain ⟨v, hv, e⟩ := C40_fifo h
  rw [contents_unique hv hc] at e
  exact ⟨s, h, hc, e⟩

/-- **C41 (violated).** The same with `abort`: the consumer sleeps though the queue was aborted. -/
theorem C41_refuted_abort : ∃ s : State Bool V, Reachable s ∧ s.loc false = .asleep ∧ s.loc true = .idle ∧ s.aborted = true := by
  have h1 := (drowsy_reachable V).tail (Step.abort _ true rfl)
  have h2 := h1.tail (Step.notifyAll _ true (fun t => if t then .idle else .sleepy) rfl rfl (by
    intro u hu ha
    cases u
    · exact absurd ha (by simp : (Loc.sleepy : Loc V) ≠ .asleep)
    · exact absurd rfl hu) (by
    intro u hu _
    cases u
    · rfl
    · exact absurd rfl hu))
  have h3 := h2.tail (Step.sleep _ false rfl)
  exact ⟨_, h3, rfl, rfl, rfl⟩

/-! ## Executions without this coincidence -/

/-- Between reading the tail and falling asleep. -/
def Window : Loc V → Prop
  | .got true _ | .flagTest | .sleepy => True
  | _ => False

/-- A step that adds no item and does not abort while a waiting consumer is between test and sleep, as if these were one step for the other threads. -/
def Careful (s s' : State T V) : Prop := Step s s' ∧ ((∃ t, Window (s.loc t)) → s'.tail = s.tail ∧ s'.aborted = s.aborted)

/-- Threads that will wake a consumer or are consumers that will look again. -/
def Active : Loc V → Prop
  | .moved | .notify | .notifyAll | .want true | .looking true | .got true _ | .flagTest | .sleepy | .flagRead | .popping true => True
  | _ => False

/-- One for each thread that will wake a single consumer or look again itself. -/
def weight : Loc V → Nat
  | .moved | .notify | .want true | .looking true | .got true _ | .flagTest | .sleepy | .flagRead | .popping true => 1
  | _ => 0

variable [Fintype T]

theorem sum_update (f : T → Loc V) (t : T) (l : Loc V) : ∑ u, weight (Function.update f t l u) + weight (f t) = ∑ u, weight (f u) + weight l := by
  have h1 : ∀ g : T → Loc V, ∑ u, weight (g u) = weight (g t) + ∑ u ∈ Finset.univ.erase t, weight (g u) :=
    fun g => (Finset.add_sum_erase _ _ (Finset.mem_univ t)).symm
  rw [h1, h1 f, Function.update_self]
  have h2 : ∑ u ∈ Finset.univ.erase t, weight (Function.update f t l u) = ∑ u ∈ Finset.univ.erase t, weight (f u) :=
    Finset.sum_congr rfl fun u hu => by rw [Function.update_of_ne (Finset.ne_of_mem_erase hu)]
  rw [h2]; omega

/-- Additional invariant. -/
structure Awake (s : State T V) (vals : List V) : Prop where
  got : ∀ t n, s.loc t = .got true n → n = s.tail
  test : ∀ t, s.loc t = .flagTest ∨ s.loc t = .sleepy → vals = []
  sleepy : ∀ t, s.loc t = .sleepy → s.aborted = false
  asleep : ∀ t, s.loc t = .asleep → s.aborted = false → vals.length ≤ ∑ u, weight (s.loc u)
  abort : ∀ t, s.loc t = .asleep → s.aborted = true → ∃ u, s.loc u = .notifyAll

/-- Steps of one thread that keep the items. -/
theorem awake_goto {s s' : State T V} {vals : List V} (h : Awake s vals) (t : T) (l : Loc V) (hloc : s'.loc = Function.update s.loc t l) (htail : s'.tail = s.tail)
    (hab : s'.aborted = s.aborted) (h1 : ∀ n, l = .got true n → n = s.tail) (h2 : l = .flagTest ∨ l = .sleepy → vals = []) (h3 : l = .sleepy → s.aborted = false)
    (h4 : l = .asleep → vals = [] ∧ s.aborted = false) (h5 : s.aborted = false → weight (s.loc t) ≤ weight l ∨ vals = []) (h6 : s.loc t ≠ .notifyAll) : Awake s' vals := by
  have hother : ∀ u, u ≠ t → s'.loc u = s.loc u := fun u hu => by rw [hloc, Function.update_of_ne hu]
  have hself : s'.loc t = l := by rw [hloc, Function.update_self]
  have hsum := sum_update s.loc t l
  rw [← hloc] at hsum
  refine ⟨fun u n hu => ?_, fun u hu => ?_, fun u hu => ?_, fun u hu ha => ?_, fun u hu ha => ?_⟩
  · by_cases e : u = t
    · subst e; rw [hself] at hu; rw [htail]; exact h1 n hu
    · rw [hother u e] at hu; rw [htail]; exact h.got u n hu
  · by_cases e : u = t
    · subst e; rw [hself] at hu; exact h2 hu
    · rw [hother u e] at hu; exact h.test u hu
  · rw [hab]
    by_cases e : u = t
    · subst e; rw [hself] at hu; exact h3 hu
    · rw [hother u e] at hu; exact h.sleepy u hu
  · rw [hab] at ha
    rcases h5 ha with hw | hv
    · by_cases e : u = t
      · subst e; rw [hself] at hu; rw [(h4 hu).1]; simp
      · rw [hother u e] at hu
        have := h.asleep u hu ha
        omega
    · rw [hv]; simp
  · rw [hab] at ha
    by_cases e : u = t
    · subst e
      rw [hself] at hu
      rw [(h4 hu).2] at ha; simp at ha
    · rw [hother u e] at hu
      obtain ⟨x, hx⟩ := h.abort u hu ha
      have hxt : x ≠ t := fun e' => h6 (e' ▸ hx)
      exact ⟨x, by rw [hother x hxt]; exact hx⟩

omit [DecidableEq T] [Fintype T] in
theorem head_tail_empty {s : State T V} {chain : List Nat} {vals : List V} (hi : Inv s chain vals) (e : s.head = s.tail) : vals = [] := by
  have hlen := linked_length hi.linked
  have hl := hi.last
  have hf := hi.first
  rw [← e] at hl
  match chain, vals, hlen with
  | [a], [], _ => rfl
  | a :: b :: l, w :: v, _ =>
    simp only [List.head?_cons, Option.some.injEq] at hf
    subst hf
    rw [List.getLast?_cons_cons] at hl
    exact absurd (List.mem_of_getLast? hl) (List.nodup_cons.mp hi.nodup).1

theorem awake_step {s s' : State T V} (hs : Careful s s') {chain chain' : List Nat} {vals vals' : List V} (hi : Inv s chain vals) (hi' : Inv s' chain' vals')
    (h : Awake s vals) : Awake s' vals' := by
  obtain ⟨hs, hw⟩ := hs
  -- the items change only in two steps
  have hsame : s'.pushed = s.pushed → s'.popped = s.popped → vals' = vals := by
    intro h1 h2
    have h3 := hi.hist
    have h4 := hi'.hist
    rw [h1, h2, h3] at h4
    exact (List.append_cancel_left h4).symm
  cases hs with
  | pMove t v n m hl hm =>
    have hno : ¬ ∃ t, Window (s.loc t) := by
      intro hwin
      have := (hw hwin).1
      dsimp only at this
      obtain ⟨g1, g2, g3⟩ := hi.own t n (by rw [hl]; rfl)
      have hc := hi.cell t
      rw [hl] at hc
      have hcell : s.heap s.tail = ⟨some v, some n⟩ := hc
      rw [hcell] at hm
      have : n = s.tail := by rw [← this]; exact Option.some.inj hm
      rw [this] at g2
      exact g2 (List.mem_of_getLast? hi.last)
    have hv : vals' = vals ++ [v] := by
      have h4 := hi'.hist
      dsimp only at h4
      rw [hi.hist, List.append_assoc] at h4
      exact (List.append_cancel_left h4).symm
    have hwin : ∀ u, Window (Function.update s.loc t .moved u) → False := by
      intro u hu
      by_cases e : u = t
      · subst e; rw [Function.update_self] at hu; exact hu
      · rw [Function.update_of_ne e] at hu; exact hno ⟨u, hu⟩
    have hsum := sum_update s.loc t .moved
    rw [hl, show weight (.linked v n) = 0 from rfl, show weight (.moved : Loc V) = 1 from rfl] at hsum
    refine ⟨fun u n hu => ?_, fun u hu => ?_, fun u hu => ?_, fun u hu ha => ?_, fun u hu ha => ?_⟩ <;> dsimp only at *
    · exact (hwin u (by rw [hu]; trivial)).elim
    · exact (hwin u (by rcases hu with hu | hu <;> rw [hu] <;> trivial)).elim
    · exact (hwin u (by rw [hu]; trivial)).elim
    · by_cases e : u = t
      · subst e; rw [Function.update_self] at hu; simp at hu
      · rw [Function.update_of_ne e] at hu
        have := h.asleep u hu ha
        rw [hv, List.length_append, List.length_singleton]
        omega
    · by_cases e : u = t
      · subst e; rw [Function.update_self] at hu; simp at hu
      · rw [Function.update_of_ne e] at hu
        obtain ⟨x, hx⟩ := h.abort u hu ha
        have hxt : x ≠ t := fun e' => by rw [e', hl] at hx; simp at hx
        exact ⟨x, by rw [Function.update_of_ne hxt]; exact hx⟩
  | pop t w m v hl hm hv =>
    have hhl : s.headLock = some t := (hi.headHeld t).mp (by rw [hl]; trivial)
    have hk := hi.knows t
    rw [hl] at hk
    have hne : vals ≠ [] := hk
    have hlen : vals'.length + 1 = vals.length := by
      have h4 := congrArg List.length hi'.hist
      have h3 := congrArg List.length hi.hist
      simp only [List.length_append, List.length_singleton] at h3 h4
      omega
    have hno : ∀ u, u ≠ t → ¬ InHead (s.loc u) := by
      intro u hu hh
      have := (hi.headHeld u).mp hh
      rw [hhl] at this
      exact hu (Option.some.inj this).symm
    have hwin : ∀ u, Window (Function.update s.loc t (.leaving (some v)) u) → False := by
      intro u hu
      by_cases e : u = t
      · subst e; rw [Function.update_self] at hu; exact hu
      · rw [Function.update_of_ne e] at hu
        apply hno u e
        cases hlu : s.loc u <;> simp_all [Window, InHead]
    have hsum := sum_update s.loc t (.leaving (some v))
    have hwt : weight (s.loc t) ≤ 1 := by rw [hl]; cases w <;> simp [weight]
    have hw0 : weight (.leaving (some v)) = 0 := rfl
    refine ⟨fun u n hu => ?_, fun u hu => ?_, fun u hu => ?_, fun u hu ha => ?_, fun u hu ha => ?_⟩ <;> dsimp only at *
    · exact (hwin u (by rw [hu]; trivial)).elim
    · exact (hwin u (by rcases hu with hu | hu <;> rw [hu] <;> trivial)).elim
    · exact (hwin u (by rw [hu]; trivial)).elim
    · by_cases e : u = t
      · subst e; rw [Function.update_self] at hu; simp at hu
      · rw [Function.update_of_ne e] at hu
        have := h.asleep u hu ha
        omega
    · by_cases e : u = t
      · subst e; rw [Function.update_self] at hu; simp at hu
      · rw [Function.update_of_ne e] at hu
        obtain ⟨x, hx⟩ := h.abort u hu ha
        have hxt : x ≠ t := fun e' => by rw [e', hl] at hx; simp at hx
        exact ⟨x, by rw [Function.update_of_ne hxt]; exact hx⟩
  | pAlloc t v hl => rw [hsame rfl rfl]; exact awake_goto h t _ rfl rfl rfl (by simp) (by simp) (by simp) (by simp) (fun _ => Or.inl (by rw [hl]; simp [weight])) (by rw [hl]; simp)
  | pLock t v n hl hn => rw [hsame rfl rfl]; exact awake_goto h t _ rfl rfl rfl (by simp) (by simp) (by simp) (by simp) (fun _ => Or.inl (by rw [hl]; simp [weight])) (by rw [hl]; simp)
  | pDatum t v n hl => rw [hsame rfl rfl]; exact awake_goto h t _ rfl rfl rfl (by simp) (by simp) (by simp) (by simp) (fun _ => Or.inl (by rw [hl]; simp [weight])) (by rw [hl]; simp)
  | pLink t v n hl => rw [hsame rfl rfl]; exact awake_goto h t _ rfl rfl rfl (by simp) (by simp) (by simp) (by simp) (fun _ => Or.inl (by rw [hl]; simp [weight])) (by rw [hl]; simp)
  | pMoveNull t v n hl hm => exact absurd hi'.nocrash (by simp)
  | pUnlock t hl => rw [hsame rfl rfl]; exact awake_goto h t _ rfl rfl rfl (by simp) (by simp) (by simp) (by simp) (fun _ => Or.inl (by rw [hl]; simp [weight])) (by rw [hl]; simp)
  | pNotify t u hl hu =>
    rw [hsame rfl rfl]
    have hut : u ≠ t := fun e => by rw [e, hl] at hu; simp at hu
    have hsum := sum_update s.loc t .idle
    have hsum2 := sum_update (Function.update s.loc t .idle) u (.want true)
    rw [Function.update_of_ne hut, hu] at hsum2
    rw [hl, show weight (.notify : Loc V) = 1 from rfl, show weight (.idle : Loc V) = 0 from rfl] at hsum
    rw [show weight (.asleep : Loc V) = 0 from rfl, show weight (.want true : Loc V) = 1 from rfl] at hsum2
    have hold : ∀ x l, Function.update (Function.update s.loc t .idle) u (.want true) x = l → l ≠ .idle → l ≠ .want true → s.loc x = l := by
      intro x l hx h1 h2
      by_cases e : x = u
      · subst e; rw [Function.update_self] at hx; exact absurd hx.symm h2
      · rw [Function.update_of_ne e] at hx
        by_cases e' : x = t
        · subst e'; rw [Function.update_self] at hx; exact absurd hx.symm h1
        · rwa [Function.update_of_ne e'] at hx
    refine ⟨fun x n hx => h.got x n (hold x _ hx (by simp) (by simp)), fun x hx => h.test x ?_, fun x hx => h.sleepy x (hold x _ hx (by simp) (by simp)),
      fun x hx ha => ?_, fun x hx ha => ?_⟩ <;> dsimp only at *
    · exact hx.imp (fun hx => hold x _ hx (by simp) (by simp)) fun hx => hold x _ hx (by simp) (by simp)
    · have := h.asleep x (hold x _ hx (by simp) (by simp)) ha
      omega
    · obtain ⟨y, hy⟩ := h.abort x (hold x _ hx (by simp) (by simp)) ha
      have h1 : y ≠ u := fun e => by rw [e, hu] at hy; simp at hy
      have h2 : y ≠ t := fun e => by rw [e, hl] at hy; simp at hy
      exact ⟨y, by rw [Function.update_of_ne h1, Function.update_of_ne h2]; exact hy⟩
  | pNotifyNone t hl hno =>
    rw [hsame rfl rfl]
    have hold : ∀ x l, Function.update s.loc t .idle x = l → l ≠ .idle → s.loc x = l := by
      intro x l hx h1
      by_cases e' : x = t
      · subst e'; rw [Function.update_self] at hx; exact absurd hx.symm h1
      · rwa [Function.update_of_ne e'] at hx
    exact ⟨fun x n hx => h.got x n (hold x _ hx (by simp)), fun x hx => h.test x (hx.imp (fun hx => hold x _ hx (by simp)) fun hx => hold x _ hx (by simp)),
      fun x hx => h.sleepy x (hold x _ hx (by simp)), fun x hx _ => absurd (hold x _ hx (by simp)) (hno x), fun x hx _ => absurd (hold x _ hx (by simp)) (hno x)⟩
  | abort t hl =>
    rw [hsame rfl rfl]
    have hold : ∀ x l, Function.update s.loc t .notifyAll x = l → l ≠ .notifyAll → s.loc x = l := by
      intro x l hx h1
      by_cases e' : x = t
      · subst e'; rw [Function.update_self] at hx; exact absurd hx.symm h1
      · rwa [Function.update_of_ne e'] at hx
    refine ⟨fun x n hx => h.got x n (hold x _ hx (by simp)), fun x hx => h.test x (hx.imp (fun hx => hold x _ hx (by simp)) fun hx => hold x _ hx (by simp)),
      fun x hx => ?_, fun x hx ha => ?_, fun x hx _ => ⟨t, Function.update_self ..⟩⟩
    · have hx' := hold x _ hx (by simp)
      have := (hw ⟨x, by rw [hx']; trivial⟩).2
      dsimp only at this ⊢
      rw [this]; exact h.sleepy x hx'
    · simp at ha
  | notifyAll t l' hl h1 h2 h3 =>
    rw [hsame rfl rfl]
    have hold : ∀ x l, l' x = l → l ≠ .idle → l ≠ .want true → s.loc x = l ∧ l ≠ .asleep := by
      intro x l hx g1 g2
      by_cases e : x = t
      · subst e; rw [h1] at hx; exact absurd hx.symm g1
      · by_cases ha : s.loc x = .asleep
        · rw [h2 x e ha] at hx; exact absurd hx.symm g2
        · rw [h3 x e ha] at hx
          exact ⟨hx, fun e' => ha (hx.trans e')⟩
    refine ⟨fun x n hx => h.got x n (hold x _ hx (by simp) (by simp)).1, fun x hx => h.test x ?_, fun x hx => h.sleepy x (hold x _ hx (by simp) (by simp)).1,
      fun x hx _ => absurd rfl (hold x _ hx (by simp) (by simp)).2, fun x hx _ => absurd rfl (hold x _ hx (by simp) (by simp)).2⟩
    exact hx.imp (fun hx => (hold x _ hx (by simp) (by simp)).1) fun hx => (hold x _ hx (by simp) (by simp)).1
  | start t w hl => rw [hsame rfl rfl]; exact awake_goto h t _ rfl rfl rfl (by simp) (by simp) (by simp) (by simp) (fun _ => Or.inl (by rw [hl]; simp [weight])) (by rw [hl]; simp)
  | lockTry t hl hn => rw [hsame rfl rfl]; exact awake_goto h t _ rfl rfl rfl (by simp) (by simp) (by simp) (by simp) (fun _ => Or.inl (by rw [hl]; simp [weight])) (by rw [hl]; simp)
  | lockWait t hl hn => rw [hsame rfl rfl]; exact awake_goto h t _ rfl rfl rfl (by simp) (by simp) (by simp) (by simp) (fun _ => Or.inl (by rw [hl]; simp [weight])) (by rw [hl]; simp)
  | checkAbort t hl ha => rw [hsame rfl rfl]; exact awake_goto h t _ rfl rfl rfl (by simp) (by simp) (by simp) (by simp) (fun _ => Or.inl (by rw [hl]; simp [weight])) (by rw [hl]; simp)
  | checkGo t hl ha => rw [hsame rfl rfl]; exact awake_goto h t _ rfl rfl rfl (by simp) (by simp) (by simp) (by simp) (fun _ => Or.inl (by rw [hl]; simp [weight])) (by rw [hl]; simp)
  | look t w hl hn =>
    rw [hsame rfl rfl]
    exact awake_goto h t _ rfl rfl rfl (by simp) (by simp) (by simp) (by simp) (fun _ => Or.inl (by rw [hl]; cases w <;> simp [weight])) (by rw [hl]; simp)
  | emptyTry t n hl hn => rw [hsame rfl rfl]; exact awake_goto h t _ rfl rfl rfl (by simp) (by simp) (by simp) (by simp) (fun _ => Or.inl (by rw [hl]; simp [weight])) (by rw [hl]; simp)
  | emptyWait t n hl hn =>
    rw [hsame rfl rfl]
    have hv := head_tail_empty hi (hn.trans (h.got t n hl))
    exact awake_goto h t _ rfl rfl rfl (by simp) (fun _ => hv) (by simp) (by simp) (fun _ => Or.inl (by rw [hl]; simp [weight])) (by rw [hl]; simp)
  | dataTry t n hl hn => rw [hsame rfl rfl]; exact awake_goto h t _ rfl rfl rfl (by simp) (by simp) (by simp) (by simp) (fun _ => Or.inl (by rw [hl]; simp [weight])) (by rw [hl]; simp)
  | dataWait t n hl hn => rw [hsame rfl rfl]; exact awake_goto h t _ rfl rfl rfl (by simp) (by simp) (by simp) (by simp) (fun _ => Or.inl (by rw [hl]; simp [weight])) (by rw [hl]; simp)
  | flagUp t hl ha => rw [hsame rfl rfl]; exact awake_goto h t _ rfl rfl rfl (by simp) (by simp) (by simp) (by simp) (fun _ => Or.inl (by rw [hl]; simp [weight])) (by rw [hl]; simp)
  | flagDown t hl ha =>
    rw [hsame rfl rfl]
    exact awake_goto h t _ rfl rfl rfl (by simp) (fun _ => h.test t (Or.inl hl)) (fun _ => ha) (by simp) (fun _ => Or.inl (by rw [hl]; simp [weight])) (by rw [hl]; simp)
  | sleep t hl =>
    rw [hsame rfl rfl]
    have hv := h.test t (Or.inr hl)
    exact awake_goto h t _ rfl rfl rfl (by simp) (by simp) (by simp) (fun _ => ⟨hv, h.sleepy t hl⟩) (fun _ => Or.inr hv) (by rw [hl]; simp)
  | spurious t hl => rw [hsame rfl rfl]; exact awake_goto h t _ rfl rfl rfl (by simp) (by simp) (by simp) (by simp) (fun _ => Or.inl (by rw [hl]; simp [weight])) (by rw [hl]; simp)
  | readAbort t hl ha =>
    rw [hsame rfl rfl]
    exact awake_goto h t _ rfl rfl rfl (by simp) (by simp) (by simp) (by simp) (fun hf => by rw [ha] at hf; simp at hf) (by rw [hl]; simp)
  | readGo t hl ha => rw [hsame rfl rfl]; exact awake_goto h t _ rfl rfl rfl (by simp) (by simp) (by simp) (by simp) (fun _ => Or.inl (by rw [hl]; simp [weight])) (by rw [hl]; simp)
  | popNull t w hl hm => exact absurd hi'.nocrash (by simp)
  | leave t r hl => rw [hsame rfl rfl]; exact awake_goto h t _ rfl rfl rfl (by simp) (by simp) (by simp) (by simp) (fun _ => Or.inl (by rw [hl]; simp [weight])) (by rw [hl]; simp)

theorem reach_awake {s : State T V} (h : Relation.ReflTransGen Careful initial s) : ∃ chain vals, Inv s chain vals ∧ Awake s vals := by
  induction h with
  | refl =>
    refine ⟨_, _, initial_inv, ⟨fun t n h => ?_, fun t h => ?_, fun t h => ?_, fun t h => ?_, fun t h => ?_⟩⟩ <;> simp [initial] at h
  | tail _ hs ih =>
    obtain ⟨c, v, hi, ha⟩ := ih
    obtain ⟨c', v', hi'⟩ := step_inv hs.1 hi
    exact ⟨c', v', hi', awake_step hs hi hi' ha⟩

/-- **C41 (without items added or aborts between test and sleep).** If a consumer sleeps though there are items or the queue was aborted, then some thread is about to
notify, or another waiting consumer is awake and will take an item or look again. The full statement, for all executions, fails (see above). -/
theorem C41_woken_partial {s : State T V} (h : Relation.ReflTransGen Careful initial s) (t : T) (ht : s.loc t = .asleep) (vals : List V) (hc : Contents s vals)
    (hv : vals ≠ [] ∨ s.aborted = true) : ∃ u, Active (s.loc u) := by
  obtain ⟨c, v, hi, ha⟩ := reach_awake h
  have hc' : Contents s v := ⟨c, hi.linked, hi.first, hi.last, hi.nodup⟩
  have e := contents_unique hc hc'
  subst e
  cases hab : s.aborted with
  | true =>
    obtain ⟨u, hu⟩ := ha.abort t ht hab
    exact ⟨u, by rw [hu]; trivial⟩
  | false =>
    have hne : vals ≠ [] := by
      rcases hv with h | h
      · exact h
      · rw [hab] at h; simp at h
    have hsum := ha.asleep t ht hab
    have hpos : 0 < vals.length := List.length_pos_iff.mpr hne
    have : ∃ u ∈ Finset.univ, weight (s.loc u) ≠ 0 := by
      by_contra hno
      push Not at hno
      rw [Finset.sum_eq_zero hno] at hsum
      omega
    obtain ⟨u, -, hu⟩ := this
    refine ⟨u, ?_⟩
    cases hl : s.loc u with
    | want w => cases w <;> simp_all [weight, Active]
    | looking w => cases w <;> simp_all [weight, Active]
    | got w n => cases w <;> simp_all [weight, Active]
    | popping w => cases w <;> simp_all [weight, Active]
    | _ => simp_all [weight, Active]

/-- **C41 (same restriction).** When everything has come to rest, no consumer sleeps beside an item or after an abort. -/
theorem C41_rest_partial {s : State T V} (h : Relation.ReflTransGen Careful initial s) (hrest : ∀ u, s.loc u = .idle ∨ s.loc u = .asleep) (t : T)
    (ht : s.loc t = .asleep) : Contents s [] ∧ s.aborted = false := by
  obtain ⟨c, v, hi, ha⟩ := reach_awake h
  have hc' : Contents s v := ⟨c, hi.linked, hi.first, hi.last, hi.nodup⟩
  have hno : ¬ ∃ u, Active (s.loc u) := by
    rintro ⟨u, hu⟩
    rcases hrest u with e | e <;> rw [e] at hu <;> exact hu
  have hv : v = [] := by
    by_contra hne
    exact hno (C41_woken_partial h t ht v hc' (Or.inl hne))
  refine ⟨hv ▸ hc', ?_⟩
  cases hab : s.aborted with
  | false => rfl
  | true => exact absurd (C41_woken_partial h t ht v hc' (Or.inr hab)) hno

/-- Such states exist: a consumer asleep beside an empty queue. -/
example : ∃ s : State Bool Nat, Relation.ReflTransGen Careful initial s ∧ (∀ u, s.loc u = .idle ∨ s.loc u = .asleep) ∧ s.loc false = .asleep := by
  have h1 : Relation.ReflTransGen Careful (initial : State Bool Nat) _ := Relation.ReflTransGen.single ⟨Step.start _ false true rfl, fun _ => ⟨rfl, rfl⟩⟩
  have h2 := h1.tail ⟨Step.lockWait _ false rfl rfl, fun _ => ⟨rfl, rfl⟩⟩
  have h3 := h2.tail ⟨Step.look _ false true rfl rfl, fun _ => ⟨rfl, rfl⟩⟩
  have h4 := h3.tail ⟨Step.emptyWait _ false 0 rfl rfl, fun _ => ⟨rfl, rfl⟩⟩
  have h5 := h4.tail ⟨Step.flagDown _ false rfl rfl, fun _ => ⟨rfl, rfl⟩⟩
  have h6 := h5.tail ⟨Step.sleep _ false rfl, fun _ => ⟨rfl, rfl⟩⟩
  refine ⟨_, h6, fun u => ?_, rfl⟩
  cases u
  · exact Or.inr rfl
  · exact Or.inl rfl

end Moment.C41
