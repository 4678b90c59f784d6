import Verif.Model.Refresh

/-! # C99: concurrent refreshes of tensors

Threads that refresh the tensors of a system at the same time. `RefreshCollinsGisin` does not look again after it got the write lock, so that a second thread
replaces (and destroys) the tensor to which a probability tensor already refers. If the tensor exists beforehand, or if the function looked again, then all
executions of all numbers of threads are safe. -/

namespace Moment.C99
open Moment.Refresh

/-- What must hold of the tensors: the others only exist if the Collins-Gisin tensor does, and refer to the one that exists; and tensors that claim to be
complete are. -/
structure Consistent (σ : State) : Prop where
  refs : ∀ k p, σ.poly k = some p → ∃ g, σ.gisin = some g ∧ g.addr = p.ref ∧ (p.complete = true → g.complete = true)
  full : ∀ g, σ.gisin = some g → g.complete = true → σ.full = true

/-- What must hold of a thread. -/
structure Fine (recheck : Bool) (σ : State) (th : Thread) : Prop where
  make : th.pc = .makeG → recheck = true
  gisin : th.pc = .fillG ∨ th.pc = .backG ∨ th.pc = .checkP ∨ th.pc = .makeP → σ.gisin.isSome = true
  poly : th.pc = .fillP ∨ th.pc = .backP ∨ (th.kind ≠ .gisin ∧ (th.pc = .done ∨ th.pc = .finished)) → (σ.poly th.kind).isSome = true
  last : th.kind = .gisin ∧ (th.pc = .done ∨ th.pc = .finished) → σ.gisin.isSome = true
  some : th.pc = .backG ∨ th.pc = .backP ∨ th.pc = .done ∨ th.pc = .finished → th.res.isSome = true
  true : th.res = .some true → σ.full = true

/-- All states that are safe. -/
structure Safe (recheck : Bool) (σ : State) : Prop where
  start : recheck = false → σ.gisin.isSome = true
  consistent : Consistent σ
  threads : ∀ th ∈ σ.threads, Fine recheck σ th

/-- Nothing that was there is taken away. -/
structure Grows (σ σ' : State) : Prop where
  full : σ.full = true → σ'.full = true
  gisin : σ.gisin.isSome = true → σ'.gisin.isSome = true
  poly : ∀ k, (σ.poly k).isSome = true → (σ'.poly k).isSome = true

theorem Fine.grows {recheck : Bool} {σ σ' : State} {th : Thread} (h : Fine recheck σ th) (hg : Grows σ σ') : Fine recheck σ' th :=
  ⟨h.make, fun hp => hg.gisin (h.gisin hp), fun hp => hg.poly _ (h.poly hp), fun hp => hg.gisin (h.last hp), h.some, fun hp => hg.full (h.true hp)⟩

theorem go_poly (σ : State) (i : Nat) (th : Thread) (k : Kind) : (σ.go i th).poly k = σ.poly k := by cases k <;> rfl

theorem set_poly (σ : State) (k k' : Kind) (p : Poly) :
    (σ.setPoly k p).poly k' = if (k = .corr ↔ k' = .corr) then some p else σ.poly k' := by
  cases k <;> cases k' <;> simp [State.setPoly, State.poly]

/-- What a step of a thread does. -/
structure Effect (recheck : Bool) (σ σ' : State) (i : Nat) : Prop where
  ex : ∃ th th', σ.threads[i]? = some th ∧ σ'.threads = σ.threads.set i th' ∧ th'.kind = th.kind ∧ Fine recheck σ' th'
  grows : Grows σ σ'
  consistent : Consistent σ'

theorem fine_of {recheck : Bool} {σ : State} {i : Nat} {th : Thread} (h : Safe recheck σ) (hi : σ.threads[i]? = some th) : Fine recheck σ th :=
  h.threads th (List.mem_of_getElem? hi)

theorem go_grows (σ : State) (i : Nat) (th : Thread) : Grows σ (σ.go i th) := ⟨id, id, fun k => by rw [go_poly]; exact id⟩

theorem go_consistent {σ : State} (h : Consistent σ) (i : Nat) (th : Thread) : Consistent (σ.go i th) :=
  ⟨fun k p hp => h.refs k p (by rwa [go_poly] at hp), h.full⟩

theorem effect_go {recheck : Bool} {σ : State} (h : Safe recheck σ) {i : Nat} {th th' : Thread} (hi : σ.threads[i]? = some th) (hk : th'.kind = th.kind)
    (hf : Fine recheck σ th') : Effect recheck σ (σ.go i th') i :=
  ⟨⟨th, th', hi, rfl, hk, hf.grows (go_grows σ i th')⟩, go_grows σ i th', go_consistent h.consistent i th'⟩

theorem effect_of {recheck : Bool} {σ τ : State} {i : Nat} {th th' : Thread} (hi : σ.threads[i]? = some th) (ht : τ.threads = σ.threads) (hk : th'.kind = th.kind)
    (hg : Grows σ τ) (hc : Consistent τ) (hf : Fine recheck τ th') : Effect recheck σ (τ.go i th') i := by
  refine ⟨⟨th, th', hi, by simp [State.go, ht], hk, hf.grows (go_grows τ i th')⟩, ?_, go_consistent hc i th'⟩
  have := go_grows τ i th'
  exact ⟨fun h => this.full (hg.full h), fun h => this.gisin (hg.gisin h), fun k h => this.poly k (hg.poly k h)⟩

theorem grows_set (σ : State) (k : Kind) (p : Poly) : Grows σ (σ.setPoly k p) := by
  refine ⟨by cases k <;> exact id, by cases k <;> exact id, fun k' hk' => ?_⟩
  rw [set_poly]
  split
  · rfl
  · exact hk'

theorem set_gisin (σ : State) (k : Kind) (p : Poly) : (σ.setPoly k p).gisin = σ.gisin := by cases k <;> rfl

theorem set_full (σ : State) (k : Kind) (p : Poly) : (σ.setPoly k p).full = σ.full := by cases k <;> rfl

theorem set_threads (σ : State) (k : Kind) (p : Poly) : (σ.setPoly k p).threads = σ.threads := by cases k <;> rfl

theorem consistent_set {σ : State} (h : Consistent σ) (k : Kind) {p : Poly} {g : Gisin} (hg : σ.gisin = some g) (ha : g.addr = p.ref)
    (hc : p.complete = true → g.complete = true) : Consistent (σ.setPoly k p) := by
  refine ⟨fun k' p' hp => ?_, fun g' hg' hc' => ?_⟩
  · rw [set_gisin]
    rw [set_poly] at hp
    split at hp
    · rw [Option.some.injEq] at hp
      subst hp
      exact ⟨g, hg, ha, hc⟩
    · exact h.refs k' p' hp
  · rw [set_gisin] at hg'
    rw [set_full]
    exact h.full g' hg' hc'

/-- A step of a thread is never undefined, and keeps what must hold. -/
theorem step_safe {recheck : Bool} {σ : State} (h : Safe recheck σ) (i : Nat) :
    step recheck σ i ≠ some none ∧ ∀ σ', step recheck σ i = some (some σ') → Effect recheck σ σ' i := by
  unfold step
  cases hi : σ.threads[i]? with
  | none => simp
  | some th =>
    have hf := fine_of h hi
    obtain ⟨kind, pc, res⟩ := th
    rw [Option.bind_some]
    cases pc with
    | start =>
      refine ⟨by simp, fun σ' e => ?_⟩
      simp only [Option.some.injEq] at e
      subst e
      exact effect_go h hi rfl ⟨by simp, by simp, by simp, by simp, by simp, hf.true⟩
    | checkG =>
      dsimp only
      cases hg : σ.gisin with
      | none =>
        refine ⟨by simp, fun σ' e => ?_⟩
        simp only [Option.some.injEq] at e
        subst e
        refine effect_go h hi rfl ⟨fun _ => ?_, by simp, by simp, by simp, by simp, hf.true⟩
        cases hr : recheck with
        | true => rfl
        | false => have := h.start hr; rw [hg] at this; simp at this
      | some g =>
        dsimp only
        split
        · rename_i hc
          have hfull := h.consistent.full g hg hc
          cases kind with
          | gisin =>
            refine ⟨by simp, fun σ' e => ?_⟩
            simp only [Option.some.injEq] at e
            subst e
            exact effect_go h hi rfl ⟨by simp, by simp, by simp, by simp [hg], by simp, fun _ => hfull⟩
          | prob =>
            refine ⟨by simp, fun σ' e => ?_⟩
            simp only [Option.some.injEq] at e
            subst e
            exact effect_go h hi rfl ⟨by simp, by simp [hg], by simp, by simp, by simp, hf.true⟩
          | corr =>
            refine ⟨by simp, fun σ' e => ?_⟩
            simp only [Option.some.injEq] at e
            subst e
            exact effect_go h hi rfl ⟨by simp, by simp [hg], by simp, by simp, by simp, hf.true⟩
        · refine ⟨by simp, fun σ' e => ?_⟩
          simp only [Option.some.injEq] at e
          subst e
          exact effect_go h hi rfl ⟨by simp, by simp [hg], by simp, by simp, by simp, hf.true⟩
    | makeG =>
      have hr := hf.make rfl
      subst hr
      dsimp only
      split
      · simp
      · cases hg : σ.gisin with
        | some g =>
          refine ⟨by simp, fun σ' e => ?_⟩
          simp only [Option.some.injEq] at e
          subst e
          refine effect_go h hi rfl ⟨by simp, by simp [hg], by simp, by simp, by simp, fun hc => ?_⟩
          exact h.consistent.full g hg (by simpa using hc)
        | none =>
          refine ⟨by simp, fun σ' e => ?_⟩
          simp only [Option.some.injEq] at e
          subst e
          have hnone : ∀ k, σ.poly k = none := by
            intro k
            cases hp : σ.poly k with
            | none => rfl
            | some p => obtain ⟨g, h1, -⟩ := h.consistent.refs k p hp; rw [hg] at h1; simp at h1
          refine effect_of (τ := { σ with gisin := some ⟨σ.fresh, σ.full⟩, fresh := σ.fresh + 1 }) hi rfl rfl ⟨id, by simp, fun k hk => ?_⟩
            ⟨fun k p hp => ?_, fun g hg' hc => ?_⟩ ⟨by simp, by simp, by simp, by simp, by simp, by simp⟩
          · rw [hnone] at hk; simp at hk
          · have : σ.poly k = some p := by cases k <;> exact hp
            rw [hnone] at this; simp at this
          · simp only [Option.some.injEq] at hg'
            subst hg'
            exact hc
    | fillG =>
      dsimp only
      split
      · simp
      · have := hf.gisin (.inl rfl)
        obtain ⟨g, hg⟩ := Option.isSome_iff_exists.mp this
        rw [hg]
        refine ⟨by simp, fun σ' e => ?_⟩
        simp only [Option.some.injEq] at e
        subst e
        have hcf : (g.complete || σ.full) = true → σ.full = true := by
          intro hc
          rcases Bool.or_eq_true _ _ |>.mp hc with hc | hc
          · exact h.consistent.full g hg hc
          · exact hc
        refine effect_of (τ := { σ with gisin := some ⟨g.addr, g.complete || σ.full⟩ }) hi rfl rfl ⟨id, by simp, fun k hk => ?_⟩
          ⟨fun k p hp => ?_, fun g' hg' hc => ?_⟩ ⟨by simp, by simp, by simp, by simp, by simp, fun hc => hcf (by simpa using hc)⟩
        · cases k <;> exact hk
        · have hp' : σ.poly k = some p := by cases k <;> exact hp
          obtain ⟨g0, a, b, c⟩ := h.consistent.refs k p hp'
          rw [hg, Option.some.injEq] at a
          subst a
          exact ⟨_, rfl, b, fun hc => by simp [c hc]⟩
        · simp only [Option.some.injEq] at hg'
          subst hg'
          exact hcf hc
    | backG =>
      have hg := hf.gisin (.inr (.inl rfl))
      have hs := hf.some (.inl rfl)
      cases kind with
      | gisin =>
        refine ⟨by simp, fun σ' e => ?_⟩
        simp only [Option.some.injEq] at e
        subst e
        exact effect_go h hi rfl ⟨by simp, by simp, by simp, fun _ => hg, fun _ => hs, hf.true⟩
      | prob =>
        refine ⟨by simp, fun σ' e => ?_⟩
        simp only [Option.some.injEq] at e
        subst e
        exact effect_go h hi rfl ⟨by simp, fun _ => hg, by simp, by simp, by simp, hf.true⟩
      | corr =>
        refine ⟨by simp, fun σ' e => ?_⟩
        simp only [Option.some.injEq] at e
        subst e
        exact effect_go h hi rfl ⟨by simp, fun _ => hg, by simp, by simp, by simp, hf.true⟩
    | checkP =>
      have hg := hf.gisin (.inr (.inr (.inl rfl)))
      dsimp only
      cases hp : σ.poly kind with
      | none =>
        refine ⟨by simp, fun σ' e => ?_⟩
        simp only [Option.some.injEq] at e
        subst e
        exact effect_go h hi rfl ⟨by simp, fun _ => hg, by simp, by simp, by simp, hf.true⟩
      | some p =>
        dsimp only
        split
        · rename_i hc
          refine ⟨by simp, fun σ' e => ?_⟩
          simp only [Option.some.injEq] at e
          subst e
          obtain ⟨g, a, -, c⟩ := h.consistent.refs kind p hp
          exact effect_go h hi rfl ⟨by simp, by simp, by simp [hp], fun _ => hg, by simp, fun _ => h.consistent.full g a (c hc)⟩
        · refine ⟨by simp, fun σ' e => ?_⟩
          simp only [Option.some.injEq] at e
          subst e
          exact effect_go h hi rfl ⟨by simp, by simp, by simp [hp], by simp, by simp, hf.true⟩
    | makeP =>
      have hg := hf.gisin (.inr (.inr (.inr rfl)))
      obtain ⟨g, hg⟩ := Option.isSome_iff_exists.mp hg
      dsimp only
      split
      · simp
      · cases hp : σ.poly kind with
        | some p =>
          refine ⟨by simp, fun σ' e => ?_⟩
          simp only [Option.some.injEq] at e
          subst e
          obtain ⟨g', a, -, c⟩ := h.consistent.refs kind p hp
          exact effect_go h hi rfl ⟨by simp, by simp, by simp [hp], by simp, by simp, fun hc => h.consistent.full g' a (c (by simpa using hc))⟩
        | none =>
          dsimp only
          rw [hg]
          refine ⟨by simp, fun σ' e => ?_⟩
          simp only [Option.some.injEq] at e
          subst e
          refine effect_of hi (set_threads _ _ _) rfl (grows_set _ _ _) (consistent_set h.consistent kind hg rfl id)
            ⟨by simp, by simp, by simp [set_poly], by simp, by simp, fun hc => ?_⟩
          rw [set_full]
          exact h.consistent.full g hg (by simpa using hc)
    | fillP =>
      have hp := hf.poly (.inl rfl)
      obtain ⟨p, hp⟩ := Option.isSome_iff_exists.mp hp
      dsimp only at hp ⊢
      obtain ⟨g, a, b, c⟩ := h.consistent.refs kind p hp
      split
      · simp
      · rw [hp]
        dsimp only
        split
        · rename_i hc
          refine ⟨by simp, fun σ' e => ?_⟩
          simp only [Option.some.injEq] at e
          subst e
          exact effect_go h hi rfl ⟨by simp, by simp, by simp [hp], by simp, by simp, fun _ => h.consistent.full g a (c hc)⟩
        · have hat : σ.at p.ref = some g := by simp [State.at, a, Option.filter, b]
          rw [hat]
          refine ⟨by simp, fun σ' e => ?_⟩
          simp only [Option.some.injEq] at e
          subst e
          refine effect_of hi (set_threads _ _ _) rfl (grows_set _ _ _) (consistent_set h.consistent kind a b id)
            ⟨by simp, by simp, by simp [set_poly], by simp, by simp, fun hc => ?_⟩
          rw [set_full]
          exact h.consistent.full g a (by simpa using hc)
    | backP =>
      have hp := hf.poly (.inr (.inl rfl))
      have hs := hf.some (.inr (.inl rfl))
      dsimp only at hp hs
      refine ⟨by simp, fun σ' e => ?_⟩
      simp only [Option.some.injEq] at e
      subst e
      refine effect_go h hi rfl ⟨by simp, by simp, fun _ => hp, fun _ => ?_, fun _ => hs, hf.true⟩
      obtain ⟨p, hp⟩ := Option.isSome_iff_exists.mp hp
      obtain ⟨g, a, -⟩ := h.consistent.refs kind p hp
      rw [a]
      rfl
    | done =>
      refine ⟨by simp, fun σ' e => ?_⟩
      simp only [Option.some.injEq] at e
      subst e
      have hs := hf.some (.inr (.inr (.inl rfl)))
      refine effect_go h hi rfl ⟨by simp, by simp, fun hp => ?_, fun hp => ?_, fun _ => hs, hf.true⟩
      · refine hf.poly (.inr (.inr ⟨?_, .inl rfl⟩))
        rcases hp with hp | hp | hp
        · simp at hp
        · simp at hp
        · exact hp.1
      · exact hf.last ⟨hp.1, .inl rfl⟩
    | finished => simp

theorem Effect.safe {recheck : Bool} {σ σ' : State} {i : Nat} (h : Safe recheck σ) (he : Effect recheck σ σ' i) : Safe recheck σ' := by
  obtain ⟨th, th', -, h2, -, h4⟩ := he.ex
  refine ⟨fun hr => he.grows.gisin (h.start hr), he.consistent, fun x hx => ?_⟩
  rw [h2] at hx
  rcases List.mem_or_eq_of_mem_set hx with hx | rfl
  · exact (h.threads x hx).grows he.grows
  · exact h4

theorem Steps.safe {recheck : Bool} {σ σ' : State} {n : Nat} (h : Safe recheck σ) (hs : Steps recheck σ n σ') : Safe recheck σ' := by
  induction hs with
  | refl => exact h
  | thread i _ he ih => exact ((step_safe ih i).2 _ he).safe ih
  | @symbols σ' n _ _ ih =>
    refine ⟨ih.start, ⟨fun k p hp => ih.consistent.refs k p (by cases k <;> exact hp), fun _ _ _ => rfl⟩, fun th ht => (ih.threads th ht).grows ⟨fun _ => rfl, id, fun k => ?_⟩⟩
    cases k <;> exact id

/-- States in which calls begin: no thread has done anything yet, and the tensors that exist, if any, are as they are left by earlier calls. -/
structure Initial (σ : State) : Prop where
  threads : ∀ th ∈ σ.threads, th.pc = .start ∧ th.res = none
  consistent : Consistent σ

theorem Initial.safe {recheck : Bool} {σ : State} (h : Initial σ) (hr : recheck = true ∨ σ.gisin.isSome = true) : Safe recheck σ := by
  refine ⟨fun h' => hr.resolve_left (by simp [h']), h.consistent, fun th ht => ?_⟩
  obtain ⟨h1, h2⟩ := h.threads th ht
  refine ⟨?_, ?_, ?_, ?_, ?_, ?_⟩ <;> simp [h1, h2]

/-- What is wanted of an execution: no step is undefined; tensors refer to the Collins-Gisin tensor that exists; and if a call has returned true, then all words
have symbols. -/
def Sound (recheck : Bool) (σ : State) : Prop :=
  ∀ n σ', Steps recheck σ n σ' → (∀ i, step recheck σ' i ≠ some none) ∧
    (∀ k p, σ'.poly k = some p → ∃ g, σ'.gisin = some g ∧ g.addr = p.ref) ∧
    (∀ th ∈ σ'.threads, th.pc = .finished → th.res.isSome = true ∧ (th.res = some true → σ'.full = true) ∧
      (th.kind = .gisin → σ'.gisin.isSome = true) ∧ (th.kind ≠ .gisin → (σ'.poly th.kind).isSome = true))

theorem sound_of {recheck : Bool} {σ : State} (h : Safe recheck σ) : Sound recheck σ := by
  intro n σ' hs
  have h' := Steps.safe h hs
  refine ⟨fun i => (step_safe h' i).1, fun k p hp => ?_, fun th ht hd => ?_⟩
  · obtain ⟨g, a, b, -⟩ := h'.consistent.refs k p hp
    exact ⟨g, a, b⟩
  · have hf := h'.threads th ht
    exact ⟨hf.some (.inr (.inr (.inr hd))), hf.true, fun hk => hf.last ⟨hk, .inr hd⟩, fun hk => hf.poly (.inr (.inr ⟨hk, .inr hd⟩))⟩

/-- **C99, safety.** If the Collins-Gisin tensor exists beforehand, then all executions of all numbers of threads are sound. -/
theorem C99_sound_partial (σ : State) (h : Initial σ) (hg : σ.gisin.isSome = true) : Sound false σ := sound_of (h.safe (.inr hg))

/-- If `RefreshCollinsGisin` looked again after it got the write lock, this would be so from the beginning. -/
theorem C99_sound_recheck (σ : State) (h : Initial σ) : Sound true σ := sound_of (h.safe (.inl rfl))

/-- Three threads, with a Collins-Gisin tensor that lacks symbols. -/
def three : State := ⟨false, some ⟨0, false⟩, none, none, 1, [⟨.prob, .start, none⟩, ⟨.corr, .start, none⟩, ⟨.gisin, .start, none⟩]⟩

theorem three_initial : Initial three := by
  refine ⟨by simp [three], ⟨fun k p hp => ?_, fun g hg hc => ?_⟩⟩
  · cases k <;> simp [three, State.poly] at hp
  · simp only [three, Option.some.injEq] at hg
    subst hg
    simp at hc

example : Sound false three := C99_sound_partial three three_initial rfl

/-- Two threads, and no tensors. -/
def two : State := ⟨false, none, none, none, 0, [⟨.prob, .start, none⟩, ⟨.prob, .start, none⟩]⟩

theorem two_initial : Initial two := by
  refine ⟨by simp [two], ⟨fun k p hp => ?_, fun g hg => ?_⟩⟩
  · cases k <;> simp [two, State.poly] at hp
  · simp [two] at hg

example : Sound true two := C99_sound_recheck two two_initial

/-- Steps of threads in a given order. -/
def runAll (recheck : Bool) : State → List Nat → Option State
  | σ, [] => some σ
  | σ, i :: is => match step recheck σ i with
    | some (some σ') => runAll recheck σ' is
    | _ => none

theorem runAll_steps {recheck : Bool} : ∀ {is : List Nat} {σ σ0 σ' : State} {n : Nat}, Steps recheck σ0 n σ → runAll recheck σ is = some σ' →
    ∃ n', Steps recheck σ0 n' σ'
  | [], _, _, _, _, h, e => by simp only [runAll, Option.some.injEq] at e; subst e; exact ⟨_, h⟩
  | i :: is, σ, σ0, σ', n, h, e => by
    unfold runAll at e
    split at e
    · rename_i σ1 h1
      exact runAll_steps (.thread i h h1) e
    · simp at e

/-- **C99, refuted.** Without tensors beforehand, two threads that both refresh the probability tensor can get to where one of them follows the reference to a
Collins-Gisin tensor that has been destroyed: both find that there is none; the first makes one, and a probability tensor that refers to it; the second makes another
one in its place, and then tries to fill the probability tensor. -/
theorem C99_refuted_destroyed : ∃ σ, Initial σ ∧ ¬ Sound false σ := by
  refine ⟨two, two_initial, fun hs => ?_⟩
  have key : ∃ σ', runAll false two [0, 1, 0, 1, 0, 0, 0, 0, 0, 0, 1, 1, 1] = some σ' ∧ step false σ' 1 = some none := by
    refine ⟨_, rfl, rfl⟩
  obtain ⟨σ', h1, h2⟩ := key
  obtain ⟨n, h3⟩ := runAll_steps (.refl two) h1
  exact (hs n σ' h3).1 1 h2

/-! ## Read locks -/

/-- **C99, read locks.** While a thread has the read lock, steps of other threads change no tensors. -/
theorem C99_locks {recheck : Bool} {σ σ' : State} {i j : Nat} {th : Thread} (hj : σ.threads[j]? = some th) (hr : th.pc.reads = true)
    (hs : step recheck σ i = some (some σ')) :
    σ'.gisin = σ.gisin ∧ σ'.prob = σ.prob ∧ σ'.corr = σ.corr ∧ (i ≠ j → σ'.threads[j]? = some th) := by
  have hR : σ.readers = true := List.any_eq_true.mpr ⟨th, List.mem_of_getElem? hj, hr⟩
  have key : ∀ x, σ' = σ.go i x → σ'.gisin = σ.gisin ∧ σ'.prob = σ.prob ∧ σ'.corr = σ.corr ∧ (i ≠ j → σ'.threads[j]? = some th) := by
    rintro x rfl
    exact ⟨rfl, rfl, rfl, fun hij => by simp only [State.go]; rw [List.getElem?_set_ne hij]; exact hj⟩
  unfold step at hs
  cases hi : σ.threads[i]? with
  | none => simp [hi] at hs
  | some t0 =>
    rw [hi, Option.bind_some] at hs
    obtain ⟨kind, pc, res⟩ := t0
    cases pc <;> simp only [hR, if_true] at hs
    case start => simp only [Option.some.injEq] at hs; exact key _ hs.symm
    case checkG =>
      split at hs
      · simp only [Option.some.injEq] at hs; exact key _ hs.symm
      · split at hs
        · split at hs <;> (simp only [Option.some.injEq] at hs; exact key _ hs.symm)
        · simp only [Option.some.injEq] at hs; exact key _ hs.symm
    case backG => split at hs <;> (simp only [Option.some.injEq] at hs; exact key _ hs.symm)
    case checkP =>
      split at hs
      · simp only [Option.some.injEq] at hs; exact key _ hs.symm
      · split at hs <;> (simp only [Option.some.injEq] at hs; exact key _ hs.symm)
    case backP => simp only [Option.some.injEq] at hs; exact key _ hs.symm
    case done => simp only [Option.some.injEq] at hs; exact key _ hs.symm
    all_goals simp at hs

/-- The first thread has the read lock, and the second takes it as well. -/
example : ∃ σ σ', Steps false three 1 σ ∧ step false σ 1 = some (some σ') ∧ σ.threads[0]?.map (fun th => th.pc.reads) = some true :=
  ⟨_, _, .thread 0 (.refl three) rfl, rfl, rfl⟩

/-! ## Progress -/

/-- Steps that a thread still has at most. -/
def rank : Pc → Nat
  | .start => 8
  | .checkG => 7
  | .makeG | .fillG => 6
  | .backG => 5
  | .checkP => 4
  | .makeP | .fillP => 3
  | .backP => 2
  | .done => 1
  | .finished => 0

def total (σ : State) : Nat := (σ.threads.map fun th => rank th.pc).sum

theorem sum_set : ∀ {l : List Thread} {i : Nat} {th th' : Thread}, l[i]? = some th → rank th'.pc < rank th.pc →
    ((l.set i th').map fun th => rank th.pc).sum < (l.map fun th => rank th.pc).sum
  | [], i, _, _, h, _ => by simp at h
  | x :: l, 0, th, th', h, hr => by
    simp only [List.getElem?_cons_zero, Option.some.injEq] at h
    subst h
    simp only [List.set_cons_zero, List.map_cons, List.sum_cons]
    omega
  | x :: l, i + 1, th, th', h, hr => by
    have ih := sum_set (l := l) (by simpa using h) hr
    simp only [List.set_cons_succ, List.map_cons, List.sum_cons]
    omega

/-- Every step brings its thread closer to the end. -/
theorem step_rank {recheck : Bool} {σ σ' : State} {i : Nat} (hs : step recheck σ i = some (some σ')) : total σ' < total σ := by
  unfold step at hs
  cases hi : σ.threads[i]? with
  | none => simp [hi] at hs
  | some t0 =>
    rw [hi, Option.bind_some] at hs
    have key : ∀ τ x, σ' = State.go τ i x → τ.threads = σ.threads → rank x.pc < rank t0.pc → total σ' < total σ := by
      rintro τ x rfl ht hr
      unfold total
      simp only [State.go, ht]
      exact sum_set hi hr
    obtain ⟨kind, pc, res⟩ := t0
    cases pc <;> simp only at hs key
    case start => simp only [Option.some.injEq] at hs; exact key _ _ hs.symm rfl (by simp [rank])
    case checkG =>
      split at hs
      · simp only [Option.some.injEq] at hs; exact key _ _ hs.symm rfl (by simp [rank])
      · split at hs
        · split at hs <;> (simp only [Option.some.injEq] at hs; exact key _ _ hs.symm rfl (by simp [rank]))
        · simp only [Option.some.injEq] at hs; exact key _ _ hs.symm rfl (by simp [rank])
    case makeG =>
      split at hs
      · simp at hs
      · split at hs <;> (simp only [Option.some.injEq] at hs; exact key _ _ hs.symm rfl (by simp [rank]))
    case fillG =>
      split at hs
      · simp at hs
      · split at hs
        · simp at hs
        · simp only [Option.some.injEq] at hs; exact key _ _ hs.symm rfl (by simp [rank])
    case backG => split at hs <;> (simp only [Option.some.injEq] at hs; exact key _ _ hs.symm rfl (by simp [rank]))
    case checkP =>
      split at hs
      · simp only [Option.some.injEq] at hs; exact key _ _ hs.symm rfl (by simp [rank])
      · split at hs <;> (simp only [Option.some.injEq] at hs; exact key _ _ hs.symm rfl (by simp [rank]))
    case makeP =>
      split at hs
      · simp at hs
      · split at hs
        · simp only [Option.some.injEq] at hs; exact key _ _ hs.symm rfl (by simp [rank])
        · split at hs
          · simp at hs
          · simp only [Option.some.injEq] at hs; exact key _ _ hs.symm (set_threads _ _ _) (by simp [rank])
    case fillP =>
      split at hs
      · simp at hs
      · split at hs
        · simp at hs
        · split at hs
          · simp only [Option.some.injEq] at hs; exact key _ _ hs.symm rfl (by simp [rank])
          · split at hs
            · simp at hs
            · simp only [Option.some.injEq] at hs; exact key _ _ hs.symm (set_threads _ _ _) (by simp [rank])
    case backP => simp only [Option.some.injEq] at hs; exact key _ _ hs.symm rfl (by simp [rank])
    case done => simp only [Option.some.injEq] at hs; exact key _ _ hs.symm rfl (by simp [rank])
    all_goals simp at hs

theorem rank_le (pc : Pc) : rank pc ≤ 8 := by cases pc <;> decide

theorem total_le (σ : State) : total σ ≤ 8 * σ.threads.length := by
  unfold total
  induction σ.threads with
  | nil => simp
  | cons th l ih =>
    have := rank_le th.pc
    simp only [List.map_cons, List.sum_cons, List.length_cons]
    omega

/-- A thread that has the read lock, or waits for it, can go on, and one that waits for the write lock can go on if nobody reads. -/
theorem enabled {recheck : Bool} {σ : State} {i : Nat} {th : Thread} (hi : σ.threads[i]? = some th) (hf : th.pc ≠ .finished)
    (hr : th.pc.reads = true ∨ σ.readers = false) : step recheck σ i ≠ none := by
  unfold step
  rw [hi, Option.bind_some]
  obtain ⟨kind, pc, res⟩ := th
  cases pc <;> simp only [Pc.reads, Bool.false_eq_true, false_or] at hr ⊢
  case start => simp
  case checkG => split <;> (try split) <;> (try split) <;> simp
  case makeG => simp only [hr, Bool.false_eq_true, if_false]; split <;> simp
  case fillG => simp only [hr, Bool.false_eq_true, if_false]; split <;> simp
  case backG => split <;> simp
  case checkP => split <;> (try split) <;> simp
  case makeP => simp only [hr, Bool.false_eq_true, if_false]; split <;> (try split) <;> simp
  case fillP => simp only [hr, Bool.false_eq_true, if_false]; split <;> (try split) <;> (try split) <;> simp
  case backP => simp
  case done => simp
  case finished => simp at hf

/-- **C99, progress.** There are at most 8 steps for each thread, in all executions. In safe executions, as long as a call has not returned, some thread can go on: there
is no deadlock. -/
theorem C99_progress {recheck : Bool} {σ : State} (h : Initial σ) (hr : recheck = true ∨ σ.gisin.isSome = true) {n : Nat} {σ' : State}
    (hs : Steps recheck σ n σ') : n ≤ 8 * σ.threads.length ∧ ((∃ th ∈ σ'.threads, th.pc ≠ .finished) → ∃ i σ'', step recheck σ' i = some (some σ'')) := by
  constructor
  · have key : n + total σ' ≤ total σ := by
      clear hr h
      induction hs with
      | refl => simp
      | thread i _ he ih => have := step_rank he; omega
      | symbols _ _ ih => exact ih
    have := total_le σ
    omega
  · rintro ⟨th, ht, hf⟩
    have hsafe := Steps.safe (h.safe hr) hs
    have go : ∀ {i : Nat}, step recheck σ' i ≠ none → ∃ i σ'', step recheck σ' i = some (some σ'') := by
      intro i hi
      obtain ⟨r, hr⟩ := Option.ne_none_iff_exists'.mp hi
      cases r with
      | none => exact absurd hr (step_safe hsafe i).1
      | some σ'' => exact ⟨i, σ'', hr⟩
    cases hR : σ'.readers with
    | false =>
      obtain ⟨i, hi⟩ := List.mem_iff_getElem?.mp ht
      exact go (enabled hi hf (.inr hR))
    | true =>
      obtain ⟨x, hx, hxr⟩ := List.any_eq_true.mp hR
      obtain ⟨i, hi⟩ := List.mem_iff_getElem?.mp hx
      refine go (enabled hi ?_ (.inl hxr))
      intro hc
      rw [hc] at hxr
      simp [Pc.reads] at hxr

example : ∃ i σ'', step false three i = some (some σ'') := by
  refine (C99_progress three_initial (.inr rfl) (.refl three)).2 ⟨⟨.prob, .start, none⟩, by simp [three], by simp⟩

/-! ## Calls that begin when all words have symbols -/

/-- The Collins-Gisin tensor has all symbols. -/
def Whole (σ : State) : Prop := ∃ g, σ.gisin = some g ∧ g.complete = true

/-- It has all symbols if it exists. -/
def Clean (σ : State) : Prop := ∀ g, σ.gisin = some g → g.complete = true

/-- A tensor of polynomials is complete if it exists. -/
def CleanPoly (σ : State) (k : Kind) : Prop := ∀ p, σ.poly k = some p → p.complete = true

/-- What is known of such a call. -/
def Late (σ : State) (th : Thread) : Prop :=
  match th.pc with
  | .start | .checkG | .fillG => True
  | .makeG => Clean σ
  | .backG => Whole σ ∧ th.res = some true
  | .checkP | .fillP => Whole σ
  | .makeP => Whole σ ∧ CleanPoly σ th.kind
  | .backP | .done | .finished => th.res = some true

/-- Nothing of this is lost. -/
structure Keeps (σ σ' : State) : Prop where
  whole : Whole σ → Whole σ'
  clean : Clean σ → Clean σ'
  poly : ∀ k, Whole σ → CleanPoly σ k → CleanPoly σ' k

theorem Late.keeps {σ σ' : State} {th : Thread} (h : Late σ th) (hk : Keeps σ σ') : Late σ' th := by
  obtain ⟨kind, pc, res⟩ := th
  cases pc <;> simp only [Late] at h ⊢
  case makeG => exact hk.clean h
  case backG => exact ⟨hk.whole h.1, h.2⟩
  case checkP => exact hk.whole h
  case fillP => exact hk.whole h
  case makeP => exact ⟨hk.whole h.1, hk.poly kind h.1 h.2⟩
  all_goals exact h

theorem go_keeps (σ : State) (i : Nat) (th : Thread) : Keeps σ (σ.go i th) := by
  refine ⟨id, id, fun k _ hp p he => hp p (by rwa [go_poly] at he)⟩

theorem Keeps.trans {σ σ' σ'' : State} (h : Keeps σ σ') (h' : Keeps σ' σ'') : Keeps σ σ'' :=
  ⟨fun x => h'.whole (h.whole x), fun x => h'.clean (h.clean x), fun k w x => h'.poly k (h.whole w) (h.poly k w x)⟩

theorem set_keeps {σ : State} (k : Kind) {p : Poly} (hp : Whole σ → p.complete = true) : Keeps σ (σ.setPoly k p) := by
  refine ⟨?_, ?_, fun k' w hc p' he => ?_⟩
  · unfold Whole; rw [set_gisin]; exact id
  · unfold Clean; rw [set_gisin]; exact id
  · rw [set_poly] at he
    split at he
    · rw [Option.some.injEq] at he
      subst he
      exact hp w
    · exact hc p' he

/-- What a step does to what such a call knows, and to the thread of the step. -/
theorem step_late {recheck : Bool} {σ σ' : State} (h : Safe recheck σ) (hfull : σ.full = true) {i : Nat} (hs : step recheck σ i = some (some σ')) :
    Keeps σ σ' ∧ ∃ th th', σ.threads[i]? = some th ∧ σ'.threads = σ.threads.set i th' ∧ (Late σ th → Late σ' th') := by
  unfold step at hs
  cases hi : σ.threads[i]? with
  | none => simp [hi] at hs
  | some th =>
    rw [hi, Option.bind_some] at hs
    have key : ∀ τ x, σ' = State.go τ i x → τ.threads = σ.threads → Keeps σ τ → (Late σ th → Late τ x) → Keeps σ σ' ∧
        ∃ th0 th', some th = some th0 ∧ σ'.threads = σ.threads.set i th' ∧ (Late σ th0 → Late σ' th') := by
      rintro τ x rfl ht hk hl
      exact ⟨hk.trans (go_keeps τ i x), th, x, rfl, by simp [State.go, ht], fun h0 => (hl h0).keeps (go_keeps τ i x)⟩
    have same : ∀ x, σ' = σ.go i x → (Late σ th → Late σ x) → Keeps σ σ' ∧
        ∃ th0 th', some th = some th0 ∧ σ'.threads = σ.threads.set i th' ∧ (Late σ th0 → Late σ' th') :=
      fun x e hl => key σ x e rfl ⟨id, id, fun _ _ => id⟩ hl
    obtain ⟨kind, pc, res⟩ := th
    cases pc <;> simp only at hs
    case start => simp only [Option.some.injEq] at hs; exact same _ hs.symm fun _ => trivial
    case checkG =>
      split at hs
      · rename_i hg
        simp only [Option.some.injEq] at hs
        exact same _ hs.symm fun _ g hg' => by rw [hg] at hg'; simp at hg'
      · rename_i g hg
        split at hs
        · rename_i hc
          split at hs
          · simp only [Option.some.injEq] at hs; exact same _ hs.symm fun _ => rfl
          · simp only [Option.some.injEq] at hs; exact same _ hs.symm fun _ => ⟨g, hg, hc⟩
        · simp only [Option.some.injEq] at hs; exact same _ hs.symm fun _ => trivial
    case makeG =>
      split at hs
      · simp at hs
      · split at hs
        · rename_i g hg
          simp only [Option.some.injEq] at hs
          exact same _ hs.symm fun hl => ⟨⟨g, hg, hl g hg⟩, by simp [hl g hg]⟩
        · simp only [Option.some.injEq] at hs
          have hw : Whole { σ with gisin := some ⟨σ.fresh, σ.full⟩, fresh := σ.fresh + 1 } := ⟨_, rfl, hfull⟩
          refine key { σ with gisin := some ⟨σ.fresh, σ.full⟩, fresh := σ.fresh + 1 } _ hs.symm rfl ⟨fun _ => hw, fun _ g hg => ?_, fun k _ hp p he => ?_⟩
            fun _ => ⟨hw, by simp [hfull]⟩
          · simp only [Option.some.injEq] at hg
            subst hg
            exact hfull
          · exact hp p (by cases k <;> exact he)
    case fillG =>
      split at hs
      · simp at hs
      · split at hs
        · simp at hs
        · rename_i g hg
          simp only [Option.some.injEq] at hs
          have hw : Whole { σ with gisin := some ⟨g.addr, g.complete || σ.full⟩ } := ⟨_, rfl, by simp [hfull]⟩
          refine key { σ with gisin := some ⟨g.addr, g.complete || σ.full⟩ } _ hs.symm rfl ⟨fun _ => hw, fun _ g' hg' => ?_, fun k _ hp p he => ?_⟩
            fun _ => ⟨hw, by simp [hfull]⟩
          · simp only [Option.some.injEq] at hg'
            subst hg'
            simp [hfull]
          · exact hp p (by cases k <;> exact he)
    case backG =>
      split at hs
      · simp only [Option.some.injEq] at hs; exact same _ hs.symm fun hl => hl.2
      · simp only [Option.some.injEq] at hs; exact same _ hs.symm fun hl => hl.1
    case checkP =>
      split at hs
      · rename_i hp
        simp only [Option.some.injEq] at hs
        exact same _ hs.symm fun hl => ⟨hl, fun p hp' => by dsimp only at hp'; rw [hp] at hp'; simp at hp'⟩
      · split at hs
        · simp only [Option.some.injEq] at hs; exact same _ hs.symm fun _ => rfl
        · simp only [Option.some.injEq] at hs; exact same _ hs.symm fun hl => hl
    case makeP =>
      split at hs
      · simp at hs
      · split at hs
        · rename_i p hp
          simp only [Option.some.injEq] at hs
          exact same _ hs.symm fun hl => by
            have := hl.2 p hp
            simp [Late, this]
        · split at hs
          · simp at hs
          · rename_i g hg
            simp only [Option.some.injEq] at hs
            have hc : Whole σ → g.complete = true := by
              rintro ⟨g', a, b⟩
              rw [hg, Option.some.injEq] at a
              exact a ▸ b
            exact key _ _ hs.symm (set_threads _ _ _) (set_keeps kind hc) fun hl => by simp [Late, hc hl.1]
    case fillP =>
      split at hs
      · simp at hs
      · split at hs
        · simp at hs
        · rename_i p hp
          split at hs
          · simp only [Option.some.injEq] at hs; exact same _ hs.symm fun _ => rfl
          · split at hs
            · simp at hs
            · rename_i g hg
              simp only [Option.some.injEq] at hs
              have hc : Whole σ → g.complete = true := by
                rintro ⟨g', a, b⟩
                unfold State.at at hg
                rw [a] at hg
                simp only [Option.filter] at hg
                split at hg
                · rw [Option.some.injEq] at hg; exact hg ▸ b
                · simp at hg
              exact key _ _ hs.symm (set_threads _ _ _) (set_keeps kind hc) fun hl => by simp [Late, hc hl]
    case backP => simp only [Option.some.injEq] at hs; exact same _ hs.symm fun hl => hl
    case done => simp only [Option.some.injEq] at hs; exact same _ hs.symm fun hl => hl
    all_goals simp at hs

/-- **C99, returned values.** A call that begins when all words have symbols returns true, whatever other threads do. -/
theorem C99_complete {recheck : Bool} {σ : State} (h : Initial σ) (hr : recheck = true ∨ σ.gisin.isSome = true) {n m : Nat} {σ1 σ2 : State}
    (h1 : Steps recheck σ n σ1) (hfull : σ1.full = true) {j : Nat} {th : Thread} (hj : σ1.threads[j]? = some th) (hb : th.pc = .start)
    (h2 : Steps recheck σ1 m σ2) : ∃ th', σ2.threads[j]? = some th' ∧ (th'.pc = .finished → th'.res = some true) := by
  have hsafe := Steps.safe (h.safe hr) h1
  have key : σ2.full = true ∧ ∃ th', σ2.threads[j]? = some th' ∧ Late σ2 th' := by
    induction h2 with
    | refl =>
      refine ⟨hfull, th, hj, ?_⟩
      simp [Late, hb]
    | @thread σ' σ'' n i hst he ih =>
      obtain ⟨a, th', b, c⟩ := ih
      have hs' := Steps.safe hsafe hst
      refine ⟨((step_safe hs' i).2 _ he).grows.full a, ?_⟩
      obtain ⟨hk, x, x', e1, e2, e3⟩ := step_late hs' a he
      by_cases hij : i = j
      · subst hij
        rw [b, Option.some.injEq] at e1
        subst e1
        refine ⟨x', ?_, e3 c⟩
        rw [e2, List.getElem?_set_self (List.getElem?_eq_some_iff.mp b).1]
      · refine ⟨th', ?_, c.keeps hk⟩
        rw [e2, List.getElem?_set_ne hij]
        exact b
    | symbols _ _ ih =>
      obtain ⟨a, th', b, c⟩ := ih
      refine ⟨rfl, th', b, c.keeps ⟨id, id, fun k _ hp p he => hp p (by cases k <;> exact he)⟩⟩
  obtain ⟨-, th', a, b⟩ := key
  refine ⟨th', a, fun hf => ?_⟩
  obtain ⟨kind, pc, res⟩ := th'
  dsimp only at hf
  subst hf
  exact b

/-- The symbols are added before the first thread begins. -/
example {m : Nat} {σ : State} (h : Steps false { three with full := true } m σ) :
    ∃ th, σ.threads[0]? = some th ∧ (th.pc = .finished → th.res = some true) :=
  C99_complete three_initial (.inr rfl) (.symbols (.refl three) rfl) rfl (j := 0) rfl rfl h

end Moment.C99
