import Verif.Proof.OperatorMatrix
import Mathlib.Algebra.BigOperators.Group.Finset.Basic
import Mathlib.Algebra.Order.BigOperators.Group.Finset

/-! # Proofs about the states of the threads -/

namespace Moment.OperatorMatrix

open Relation

variable {J : Job}

/-! ## Nothing throws -/

/-- The invariant of one worker. -/
def Holds (J : Job) (s : State) (w : Nat) : Prop :=
  match s.phase w with
  | .ready => s.doneOs w = none ∧ s.doneAlias w = none
  | .making => s.doneOs w = none ∧ s.doneAlias w = none ∧ s.todo w <:+ osProgram J w ∧
      Ok (osVal J) (want J) (fun x => s.os x = want J x) (s.todo w) ∧ ∀ a ∈ osProgram J w, s.os a.target = want J a.target ∨ a ∈ s.todo w
  | .waiting => J.aliases = true ∧ s.doneOs w = some true ∧ s.doneAlias w = none ∧ ∀ a ∈ osProgram J w, s.os a.target = want J a.target
  | .aliasing => s.goAlias = true ∧ s.doneOs w = some true ∧ s.doneAlias w = none ∧ (∀ a ∈ osProgram J w, s.os a.target = want J a.target) ∧
      s.todo w <:+ aliasProgram J w ∧ Ok (alVal J) (wantAlias J) (fun x => s.al x = wantAlias J x) (s.todo w) ∧
      ∀ a ∈ aliasProgram J w, s.al a.target = wantAlias J a.target ∨ a ∈ s.todo w
  | .stopped => s.doneOs w = some true ∧ (∀ a ∈ osProgram J w, s.os a.target = want J a.target) ∧
      (J.aliases = true → s.doneAlias w = some true ∧ ∀ a ∈ aliasProgram J w, s.al a.target = wantAlias J a.target)

/-- The invariant of the calling thread. -/
def MainHolds (J : Job) (s : State) : Prop :=
  match s.main with
  | .start => s.goAlias = false
  | .collect k => s.goOs = true ∧ k ≤ J.workers ∧ ∀ w < k, s.doneOs w = some true
  | .collectAlias k => s.goOs = true ∧ s.goAlias = true ∧ k ≤ J.workers ∧ (∀ w < J.workers, s.doneOs w = some true) ∧ ∀ w < k, s.doneAlias w = some true
  | .leaving b k => b = true ∧ s.goOs = true ∧ k ≤ J.workers ∧ (∀ w < J.workers, s.doneOs w = some true) ∧
      (J.aliases = true → ∀ w < J.workers, s.doneAlias w = some true)
  | .returned => (∀ w < J.workers, s.doneOs w = some true) ∧ (J.aliases = true → ∀ w < J.workers, s.doneAlias w = some true)
  | .threw => False

structure Inv (J : Job) (s : State) : Prop where
  fine : s.crashed = false ∧ s.released = false
  go : s.goAlias = true → J.aliases = true ∧ s.goOs = true ∧ ∀ w < J.workers, s.doneOs w = some true
  main : MainHolds J s
  worker : ∀ w < J.workers, Holds J s w

/-- What the other threads do keeps the invariant of a worker. -/
theorem Holds.keep {s s' : State} {w : Nat} (h : Holds J s w) (hp : s'.phase w = s.phase w) (ht : s'.todo w = s.todo w)
    (h1 : s'.doneOs w = s.doneOs w) (h2 : s'.doneAlias w = s.doneAlias w) (hg : s.goAlias = true → s'.goAlias = true)
    (ho : ∀ x, s.os x = want J x → s'.os x = want J x) (ha : ∀ x, s.al x = wantAlias J x → s'.al x = wantAlias J x) : Holds J s' w := by
  unfold Holds at h ⊢
  rw [hp, ht, h1, h2]
  cases hph : s.phase w <;> rw [hph] at h <;> dsimp only at h ⊢
  · exact h
  · exact ⟨h.1, h.2.1, h.2.2.1, h.2.2.2.1.mono ho, fun a ha => (h.2.2.2.2 a ha).imp (ho _) id⟩
  · exact ⟨h.1, h.2.1, h.2.2.1, fun a ha => ho _ (h.2.2.2 a ha)⟩
  · exact ⟨hg h.1, h.2.1, h.2.2.1, fun a ha => ho _ (h.2.2.2.1 a ha), h.2.2.2.2.1, h.2.2.2.2.2.1.mono ha, fun a h' => (h.2.2.2.2.2.2 a h').imp (ha _) id⟩
  · exact ⟨h.1, fun a ha => ho _ (h.2.1 a ha), fun hx => ⟨(h.2.2 hx).1, fun a h' => ha _ ((h.2.2 hx).2 a h')⟩⟩

/-- What the workers do keeps the invariant of the calling thread. -/
theorem MainHolds.keep {s s' : State} (h : MainHolds J s) (hm : s'.main = s.main) (h0 : s'.goOs = s.goOs) (h1 : s'.goAlias = s.goAlias)
    (h2 : ∀ w, s.doneOs w = some true → s'.doneOs w = some true) (h3 : ∀ w, s.doneAlias w = some true → s'.doneAlias w = some true) : MainHolds J s' := by
  unfold MainHolds at h ⊢
  rw [hm, h0, h1]
  cases hma : s.main <;> rw [hma] at h <;> dsimp only at h ⊢
  · exact h
  · exact ⟨h.1, h.2.1, fun w hw => h2 w (h.2.2 w hw)⟩
  · exact ⟨h.1, h.2.1, h.2.2.1, fun w hw => h2 w (h.2.2.2.1 w hw), fun w hw => h3 w (h.2.2.2.2 w hw)⟩
  · exact ⟨h.1, h.2.1, h.2.2.1, fun w hw => h2 w (h.2.2.2.1 w hw), fun ha w hw => h3 w (h.2.2.2.2 ha w hw)⟩
  · exact ⟨fun w hw => h2 w (h.1 w hw), fun ha w hw => h3 w (h.2 ha w hw)⟩

theorem Holds.os_right {s : State} {w : Nat} (h : Holds J s w) (hd : s.doneOs w = some true) : ∀ a ∈ osProgram J w, s.os a.target = want J a.target := by
  unfold Holds at h
  cases hp : s.phase w <;> rw [hp] at h <;> dsimp only at h
  · rw [h.1] at hd; simp at hd
  · rw [h.1] at hd; simp at hd
  · exact h.2.2.2
  · exact h.2.2.2.1
  · exact h.2.1

theorem Holds.alias_right {s : State} {w : Nat} (h : Holds J s w) (hx : J.aliases = true) (hd : s.doneAlias w = some true) :
    ∀ a ∈ aliasProgram J w, s.al a.target = wantAlias J a.target := by
  unfold Holds at h
  cases hp : s.phase w <;> rw [hp] at h <;> dsimp only at h
  · rw [h.2] at hd; simp at hd
  · rw [h.2.1] at hd; simp at hd
  · rw [h.2.2.1] at hd; simp at hd
  · rw [h.2.2.1] at hd; simp at hd
  · exact (h.2.2 hx).2

/-- When all workers have made their operator sequences, all cells are right. -/
theorem Inv.os_all {s : State} (h : Inv J s) (hN : 0 < J.workers) (hd : ∀ w < J.workers, s.doneOs w = some true) {r c : Nat} (hr : r < J.n) (hc : c < J.n) :
    s.os (c * J.n + r) = want J (c * J.n + r) := by
  obtain ⟨w, hw, a, ha, e⟩ := os_cover hN hr hc
  rw [← e]
  exact (h.worker w hw).os_right (hd w hw) a ha

theorem Inv.alias_all {s : State} (h : Inv J s) (hN : 0 < J.workers) (hx : J.aliases = true) (hd : ∀ w < J.workers, s.doneAlias w = some true) {r c : Nat}
    (hr : r < J.n) (hc : c < J.n) : s.al (c * J.n + r) = wantAlias J (c * J.n + r) := by
  obtain ⟨w, hw, a, ha, e⟩ := alias_cover hN hr hc
  rw [← e]
  exact (h.worker w hw).alias_right hx (hd w hw) a ha

theorem inv_initial : Inv J initial := ⟨⟨rfl, rfl⟩, fun h => by simp [initial] at h, rfl, fun _ _ => ⟨rfl, rfl⟩⟩

theorem upd_same {α : Type} (f : Nat → α) (i : Nat) (x : α) : Function.update f i x i = x := Function.update_self ..

theorem upd_ne {α : Type} (f : Nat → α) {i j : Nat} (x : α) (h : j ≠ i) : Function.update f i x j = f j := Function.update_of_ne h ..

/-- A write of what is expected spoils nothing. -/
theorem upd_right {E m : Nat → Option HSeq} {k : Nat} {v : Option HSeq} (hv : v = E k) : ∀ x, m x = E x → Function.update m k v x = E x := by
  intro x hx
  by_cases e : x = k
  · rw [e, upd_same, hv]
  · rw [upd_ne _ _ e, hx]

theorem phase_eq {s : State} {w : Nat} {p : Phase} (hp : s.phase w = p) (h : Holds J s w) : Holds J { s with phase := Function.update s.phase w p } w := by
  refine h.keep ?_ rfl rfl rfl (fun h => h) (fun _ h => h) (fun _ h => h)
  show Function.update s.phase w p w = s.phase w
  rw [upd_same, hp]

/-- One action of the first phase. -/
theorem inv_os_act {s : State} (h : Inv J s) {w : Nat} (hw : w < J.workers) (hp : s.phase w = .making) {a : Act} {l : List Act} (ht : s.todo w = a :: l) :
    Inv J { s with os := Function.update s.os a.target (osVal J a s.os), todo := Function.update s.todo w l } := by
  have hW := h.worker w hw
  unfold Holds at hW
  rw [hp] at hW
  dsimp only at hW
  obtain ⟨h1, h2, h3, h4, h5⟩ := hW
  rw [ht] at h3 h4 h5
  have hv := h4.1 s.os fun _ hx => hx
  have hr := upd_right (m := s.os) hv
  refine ⟨h.fine, h.go, h.main.keep rfl rfl rfl (fun _ h => h) (fun _ h => h), fun u hu => ?_⟩
  by_cases e : u = w
  · rw [e]
    show Holds J _ w
    unfold Holds
    dsimp only
    rw [hp, upd_same]
    dsimp only
    refine ⟨h1, h2, (List.suffix_cons a l).trans h3, h4.2.mono ?_, fun b hb => ?_⟩
    · rintro x (hx | hx)
      · exact hr x hx
      · rw [hx, upd_same, hv]
    · rcases h5 b hb with h6 | h6
      · exact .inl (hr _ h6)
      · rcases List.mem_cons.mp h6 with rfl | h6
        · exact .inl (by rw [upd_same, hv])
        · exact .inr h6
  · exact (h.worker u hu).keep rfl (upd_ne _ _ e) rfl rfl (fun h => h) hr (fun _ h => h)

/-- One action of the second phase. -/
theorem inv_alias_act {s : State} (h : Inv J s) {w : Nat} (hw : w < J.workers) (hp : s.phase w = .aliasing) {a : Act} {l : List Act}
    (ht : s.todo w = a :: l) {v : Option HSeq} (hav : v = alVal J a s.al) :
    Inv J { s with al := Function.update s.al a.target v, todo := Function.update s.todo w l } := by
  subst hav
  have hW := h.worker w hw
  unfold Holds at hW
  rw [hp] at hW
  dsimp only at hW
  obtain ⟨h0, h1, h2, h2', h3, h4, h5⟩ := hW
  rw [ht] at h3 h4 h5
  have hv := h4.1 s.al fun _ hx => hx
  have hr := upd_right (m := s.al) hv
  refine ⟨h.fine, h.go, h.main.keep rfl rfl rfl (fun _ h => h) (fun _ h => h), fun u hu => ?_⟩
  by_cases e : u = w
  · rw [e]
    unfold Holds
    dsimp only
    rw [hp, upd_same]
    dsimp only
    refine ⟨h0, h1, h2, h2', (List.suffix_cons a l).trans h3, h4.2.mono ?_, fun b hb => ?_⟩
    · rintro x (hx | hx)
      · exact hr x hx
      · rw [hx, upd_same, hv]
    · rcases h5 b hb with h6 | h6
      · exact .inl (hr _ h6)
      · rcases List.mem_cons.mp h6 with rfl | h6
        · exact .inl (by rw [upd_same, hv])
        · exact .inr h6
  · exact (h.worker u hu).keep rfl (upd_ne _ _ e) rfl rfl (fun h => h) (fun _ h => h) hr

theorem inv_step (hT : Total J) {s s' : State} (h : Inv J s) (hs : Step J s s') : Inv J s' := by
  have hM := h.main
  unfold MainHolds at hM
  cases hs with
  | start hm =>
    rw [hm] at hM
    refine ⟨h.fine, fun hg => ?_, ⟨rfl, Nat.zero_le _, fun w hw => absurd hw (Nat.not_lt_zero w)⟩, fun w hw => ?_⟩
    · have : s.goAlias = true := hg
      rw [hM] at this; simp at this
    · exact (h.worker w hw).keep rfl rfl rfl rfl (fun h => h) (fun _ h => h) (fun _ h => h)
  | begin w hw hp hg =>
    have hW := h.worker w hw
    unfold Holds at hW
    rw [hp] at hW
    refine ⟨h.fine, h.go, h.main.keep rfl rfl rfl (fun _ h => h) (fun _ h => h), fun u hu => ?_⟩
    by_cases e : u = w
    · rw [e]
      unfold Holds
      dsimp only
      rw [upd_same, upd_same]
      exact ⟨hW.1, hW.2, List.suffix_refl _, ok_os w _, fun a ha => .inr ha⟩
    · exact (h.worker u hu).keep (upd_ne _ _ e) (upd_ne _ _ e) rfl rfl (fun h => h) (fun _ h => h) (fun _ h => h)
  | put w k v l hw hp ht hr => exact inv_os_act h hw hp ht
  | throw w k l hw hp ht =>
    have hW := h.worker w hw
    unfold Holds at hW
    rw [hp] at hW
    exact absurd (hW.2.2.1.subset (by rw [ht]; simp : Act.put k none ∈ s.todo w)) (os_total hT)
  | turn w k j l hw hp ht hr => exact inv_os_act h hw hp ht
  | made w hw hp ht =>
    have hW := h.worker w hw
    unfold Holds at hW
    rw [hp] at hW
    dsimp only at hW
    obtain ⟨h1, h2, h3, h4, h5⟩ := hW
    have h6 : ∀ a ∈ osProgram J w, s.os a.target = want J a.target := fun a ha => (h5 a ha).resolve_right (by rw [ht]; simp)
    have hd : ∀ u, s.doneOs u = some true → Function.update s.doneOs w (some true) u = some true := by
      intro u hu
      by_cases e : u = w
      · rw [e, upd_same]
      · rw [upd_ne _ _ e, hu]
    refine ⟨h.fine, fun hg => ⟨(h.go hg).1, (h.go hg).2.1, fun u hu => hd u ((h.go hg).2.2 u hu)⟩, h.main.keep rfl rfl rfl hd (fun _ h => h), fun u hu => ?_⟩
    by_cases e : u = w
    · rw [e]
      unfold Holds
      dsimp only
      rw [upd_same, upd_same]
      cases hx : J.aliases
      · exact ⟨rfl, h6, fun h => absurd h (by simp)⟩
      · exact ⟨rfl, rfl, h2, h6⟩
    · exact (h.worker u hu).keep (upd_ne _ _ e) rfl (upd_ne _ _ e) rfl (fun h => h) (fun _ h => h) (fun _ h => h)
  | beginAlias w hw hp hg =>
    have hW := h.worker w hw
    unfold Holds at hW
    rw [hp] at hW
    dsimp only at hW
    refine ⟨h.fine, h.go, h.main.keep rfl rfl rfl (fun _ h => h) (fun _ h => h), fun u hu => ?_⟩
    by_cases e : u = w
    · rw [e]
      unfold Holds
      dsimp only
      rw [upd_same, upd_same]
      exact ⟨hg, hW.2.1, hW.2.2.1, hW.2.2.2, List.suffix_refl _, ok_alias w _, fun a ha => .inr ha⟩
    · exact (h.worker u hu).keep (upd_ne _ _ e) (upd_ne _ _ e) rfl rfl (fun h => h) (fun _ h => h) (fun _ h => h)
  | simplify w k l hw hp ht hr =>
    refine inv_alias_act h hw hp ht ?_
    have hW := h.worker w hw
    unfold Holds at hW
    rw [hp] at hW
    dsimp only at hW
    have hmem : Act.simplify k ∈ aliasProgram J w := hW.2.2.2.2.1.subset (by rw [ht]; simp)
    obtain ⟨c, r, hc, h1, h2, h3, -⟩ := alias_touch hmem
    have hall := (h.go hW.1).2.2
    show (s.os k).map J.simp = (want J k).map J.simp
    rcases h3 with h3 | h3 <;> (have h3' : k = _ := h3; rw [h3'])
    · exact congrArg _ (h.os_all (by omega) hall h2 (by omega))
    · exact congrArg _ (h.os_all (by omega) hall (by omega) h2)
  | turnAlias w k j l hw hp ht hr => exact inv_alias_act h hw hp ht rfl
  | aliased w hw hp ht =>
    have hW := h.worker w hw
    unfold Holds at hW
    rw [hp] at hW
    dsimp only at hW
    obtain ⟨h0, h1, h2, h2', h3, h4, h5⟩ := hW
    have h6 : ∀ a ∈ aliasProgram J w, s.al a.target = wantAlias J a.target := fun a ha => (h5 a ha).resolve_right (by rw [ht]; simp)
    have hd : ∀ u, s.doneAlias u = some true → Function.update s.doneAlias w (some true) u = some true := by
      intro u hu
      by_cases e : u = w
      · rw [e, upd_same]
      · rw [upd_ne _ _ e, hu]
    refine ⟨h.fine, h.go, h.main.keep rfl rfl rfl (fun _ h => h) hd, fun u hu => ?_⟩
    by_cases e : u = w
    · rw [e]
      unfold Holds
      dsimp only
      rw [upd_same, upd_same]
      exact ⟨h1, h2', fun _ => ⟨rfl, h6⟩⟩
    · exact (h.worker u hu).keep (upd_ne _ _ e) rfl rfl (upd_ne _ _ e) (fun h => h) (fun _ h => h) (fun _ h => h)
  | crash w a l hw hp ht ha hr =>
    rw [h.fine.2] at hr; simp at hr
  | next k hm hk hd =>
    rw [hm] at hM
    refine ⟨h.fine, h.go, ⟨hM.1, hk, fun w hw => ?_⟩, fun w hw => (h.worker w hw).keep rfl rfl rfl rfl (fun h => h) (fun _ h => h) (fun _ h => h)⟩
    rcases Nat.lt_succ_iff_lt_or_eq.mp hw with hw | rfl
    · exact hM.2.2 w hw
    · exact hd
  | rethrow k hm hk hd =>
    have hW := h.worker k hk
    unfold Holds at hW
    cases hp : s.phase k <;> rw [hp] at hW <;> dsimp only at hW
    · rw [hW.1] at hd; simp at hd
    · rw [hW.1] at hd; simp at hd
    · rw [hW.2.1] at hd; simp at hd
    · rw [hW.2.1] at hd; simp at hd
    · rw [hW.1] at hd; simp at hd
  | all hm ha =>
    rw [hm] at hM
    exact ⟨h.fine, h.go, ⟨rfl, hM.1, Nat.zero_le _, hM.2.2, fun h => absurd (ha.symm.trans h) (by simp)⟩,
      fun w hw => (h.worker w hw).keep rfl rfl rfl rfl (fun h => h) (fun _ h => h) (fun _ h => h)⟩
  | startAlias hm ha =>
    rw [hm] at hM
    exact ⟨h.fine, fun _ => ⟨ha, hM.1, hM.2.2⟩, ⟨hM.1, rfl, Nat.zero_le _, hM.2.2, fun w hw => absurd hw (Nat.not_lt_zero w)⟩,
      fun w hw => (h.worker w hw).keep rfl rfl rfl rfl (fun _ => rfl) (fun _ h => h) (fun _ h => h)⟩
  | nextAlias k hm hk hd =>
    rw [hm] at hM
    refine ⟨h.fine, h.go, ⟨hM.1, hM.2.1, hk, hM.2.2.2.1, fun w hw => ?_⟩, fun w hw => (h.worker w hw).keep rfl rfl rfl rfl (fun h => h) (fun _ h => h) (fun _ h => h)⟩
    rcases Nat.lt_succ_iff_lt_or_eq.mp hw with hw | rfl
    · exact hM.2.2.2.2 w hw
    · exact hd
  | allAlias hm =>
    rw [hm] at hM
    exact ⟨h.fine, h.go, ⟨rfl, hM.1, Nat.zero_le _, hM.2.2.2.1, fun _ => hM.2.2.2.2⟩,
      fun w hw => (h.worker w hw).keep rfl rfl rfl rfl (fun h => h) (fun _ h => h) (fun _ h => h)⟩
  | join b k hm hk hp =>
    rw [hm] at hM
    exact ⟨h.fine, h.go, ⟨hM.1, hM.2.1, hk, hM.2.2.2.1, hM.2.2.2.2⟩,
      fun w hw => (h.worker w hw).keep rfl rfl rfl rfl (fun h => h) (fun _ h => h) (fun _ h => h)⟩
  | leave b hm =>
    rw [hm] at hM
    obtain ⟨rfl, -, -, h3, h4⟩ := hM
    exact ⟨h.fine, h.go, ⟨h3, h4⟩,
      fun w hw => (h.worker w hw).keep rfl rfl rfl rfl (fun h => h) (fun _ h => h) (fun _ h => h)⟩

theorem inv_reachable (hT : Total J) {s : State} (h : Reachable J s) : Inv J s := by
  induction h with
  | refl => exact inv_initial
  | tail _ hs ih => exact inv_step hT ih hs

/-- A worker that has not delivered its operator sequences can go on. -/
theorem worker_os {s : State} (h : Inv J s) (hg : s.goOs = true) {w : Nat} (hw : w < J.workers) (hd : s.doneOs w ≠ some true) : ∃ s', Step J s s' := by
  have hW := h.worker w hw
  unfold Holds at hW
  cases hp : s.phase w <;> rw [hp] at hW <;> dsimp only at hW
  · exact ⟨_, .begin s w hw hp hg⟩
  · cases ht : s.todo w with
    | nil => exact ⟨_, .made s w hw hp ht⟩
    | cons a l =>
      rcases os_kind (hW.2.2.1.subset (by rw [ht]; simp : a ∈ s.todo w)) with ⟨k, v, rfl⟩ | ⟨k, j, rfl⟩
      · cases v with
        | none => exact ⟨_, .throw s w k l hw hp ht⟩
        | some v => exact ⟨_, .put s w k v l hw hp ht h.fine.2⟩
      · exact ⟨_, .turn s w k j l hw hp ht h.fine.2⟩
  · exact absurd hW.2.1 hd
  · exact absurd hW.2.1 hd
  · exact absurd hW.1 hd

theorem worker_alias {s : State} (h : Inv J s) (hg : s.goAlias = true) {w : Nat} (hw : w < J.workers) (hd : s.doneAlias w ≠ some true) : ∃ s', Step J s s' := by
  have hW := h.worker w hw
  have hgo := h.go hg
  unfold Holds at hW
  cases hp : s.phase w <;> rw [hp] at hW <;> dsimp only at hW
  · have := hgo.2.2 w hw; rw [hW.1] at this; simp at this
  · have := hgo.2.2 w hw; rw [hW.1] at this; simp at this
  · exact ⟨_, .beginAlias s w hw hp hg⟩
  · cases ht : s.todo w with
    | nil => exact ⟨_, .aliased s w hw hp ht⟩
    | cons a l =>
      rcases alias_kind (hW.2.2.2.2.1.subset (by rw [ht]; simp : a ∈ s.todo w)) with ⟨k, rfl⟩ | ⟨k, j, rfl⟩
      · exact ⟨_, .simplify s w k l hw hp ht h.fine.2⟩
      · exact ⟨_, .turnAlias s w k j l hw hp ht h.fine.2⟩
  · exact absurd (hW.2.2 hgo.1).1 hd

theorem inv_progress {s : State} (h : Inv J s) (hm : s.main ≠ .returned) : ∃ s', Step J s s' := by
  have hM := h.main
  unfold MainHolds at hM
  cases e : s.main with
  | start => exact ⟨_, .start s e⟩
  | collect k =>
    rw [e] at hM
    rcases hM.2.1.eq_or_lt with rfl | hk
    · cases hx : J.aliases
      · exact ⟨_, .all s e hx⟩
      · exact ⟨_, .startAlias s e hx⟩
    · by_cases hd : s.doneOs k = some true
      · exact ⟨_, .next s k e hk hd⟩
      · exact worker_os h hM.1 hk hd
  | collectAlias k =>
    rw [e] at hM
    rcases hM.2.2.1.eq_or_lt with rfl | hk
    · exact ⟨_, .allAlias s e⟩
    · by_cases hd : s.doneAlias k = some true
      · exact ⟨_, .nextAlias s k e hk hd⟩
      · exact worker_alias h hM.2.1 hk hd
  | leaving b k =>
    rw [e] at hM
    rcases hM.2.2.1.eq_or_lt with rfl | hk
    · exact ⟨_, .leave s b e⟩
    · have hW := h.worker k hk
      unfold Holds at hW
      have h1 := hM.2.2.2.1 k hk
      have h2 := fun hx => hM.2.2.2.2 hx k hk
      cases hp : s.phase k <;> rw [hp] at hW <;> dsimp only at hW
      · rw [hW.1] at h1; simp at h1
      · rw [hW.1] at h1; simp at h1
      · have := h2 hW.1; rw [hW.2.2.1] at this; simp at this
      · have := h2 (h.go hW.1).1; rw [hW.2.2.1] at this; simp at this
      · exact ⟨_, .join s b k e hk hp⟩
  | returned => exact absurd e hm
  | threw => rw [e] at hM; exact hM.elim

/-! ## Every run ends -/

/-- What a worker has left to do, at most. -/
def left (J : Job) (s : State) (w : Nat) : Nat :=
  match s.phase w with
  | .ready => 4 + (osProgram J w).length + (aliasProgram J w).length
  | .making => 3 + (s.todo w).length + (aliasProgram J w).length
  | .waiting => 2 + (aliasProgram J w).length
  | .aliasing => 1 + (s.todo w).length
  | .stopped => 0

/-- What the calling thread has left to do, at most. -/
def mainLeft (J : Job) : Main → Nat
  | .start => 3 * J.workers + 7
  | .collect k => 2 * J.workers + 6 + (J.workers - k)
  | .collectAlias k => J.workers + 4 + (J.workers - k)
  | .leaving _ k => 1 + (J.workers - k)
  | .returned => 0
  | .threw => 0

def total (J : Job) (s : State) : Nat := mainLeft J s.main + ∑ w ∈ Finset.range J.workers, left J s w

theorem total_worker {s s' : State} (w : Nat) (hw : w < J.workers) (hm : s'.main = s.main) (hl : left J s' w < left J s w)
    (ho : ∀ u, u ≠ w → left J s' u = left J s u) : total J s' < total J s := by
  unfold total
  rw [hm]
  refine Nat.add_lt_add_left (Finset.sum_lt_sum (fun u _ => ?_) ⟨w, Finset.mem_range.mpr hw, hl⟩) _
  by_cases e : u = w
  · rw [e]; exact hl.le
  · exact (ho u e).le

theorem total_main {s s' : State} (hl : mainLeft J s'.main < mainLeft J s.main) (ho : ∀ u, left J s' u = left J s u) : total J s' < total J s := by
  unfold total
  rw [Finset.sum_congr rfl fun u _ => ho u]
  exact Nat.add_lt_add_right hl _

theorem left_eq {s s' : State} {u : Nat} (hp : s'.phase u = s.phase u) (ht : s'.todo u = s.todo u) : left J s' u = left J s u := by
  unfold left
  rw [hp, ht]

theorem step_total {s s' : State} (hs : Step J s s') : total J s' < total J s := by
  cases hs with
  | start hm => exact total_main (by rw [hm]; simp only [mainLeft]; omega) fun u => rfl
  | begin w hw hp hg =>
    refine total_worker w hw rfl ?_ fun u hu => left_eq (upd_ne _ _ hu) (upd_ne _ _ hu)
    simp only [left, upd_same, hp]; omega
  | put w k v l hw hp ht hr =>
    refine total_worker w hw rfl ?_ fun u hu => left_eq rfl (upd_ne _ _ hu)
    simp only [left, upd_same, hp, ht, List.length_cons]; omega
  | throw w k l hw hp ht =>
    refine total_worker w hw rfl ?_ fun u hu => left_eq (upd_ne _ _ hu) rfl
    simp only [left, upd_same, hp]; omega
  | turn w k j l hw hp ht hr =>
    refine total_worker w hw rfl ?_ fun u hu => left_eq rfl (upd_ne _ _ hu)
    simp only [left, upd_same, hp, ht, List.length_cons]; omega
  | made w hw hp ht =>
    refine total_worker w hw rfl ?_ fun u hu => left_eq (upd_ne _ _ hu) rfl
    cases hx : J.aliases <;> simp only [left, upd_same, hp, if_true, Bool.false_eq_true, if_false] <;> omega
  | beginAlias w hw hp hg =>
    refine total_worker w hw rfl ?_ fun u hu => left_eq (upd_ne _ _ hu) (upd_ne _ _ hu)
    simp only [left, upd_same, hp]; omega
  | simplify w k l hw hp ht hr =>
    refine total_worker w hw rfl ?_ fun u hu => left_eq rfl (upd_ne _ _ hu)
    simp only [left, upd_same, hp, ht, List.length_cons]; omega
  | turnAlias w k j l hw hp ht hr =>
    refine total_worker w hw rfl ?_ fun u hu => left_eq rfl (upd_ne _ _ hu)
    simp only [left, upd_same, hp, ht, List.length_cons]; omega
  | aliased w hw hp ht =>
    refine total_worker w hw rfl ?_ fun u hu => left_eq (upd_ne _ _ hu) rfl
    simp only [left, upd_same, hp]; omega
  | crash w a l hw hp ht ha hr =>
    refine total_worker w hw rfl ?_ fun u hu => left_eq rfl (upd_ne _ _ hu)
    rcases hp with hp | hp <;> simp only [left, upd_same, hp, ht, List.length_cons] <;> omega
  | next k hm hk hd => exact total_main (by rw [hm]; simp only [mainLeft]; omega) fun u => rfl
  | rethrow k hm hk hd => exact total_main (by rw [hm]; simp only [mainLeft]; omega) fun u => rfl
  | all hm ha => exact total_main (by rw [hm]; simp only [mainLeft]; omega) fun u => rfl
  | startAlias hm ha => exact total_main (by rw [hm]; simp only [mainLeft]; omega) fun u => rfl
  | nextAlias k hm hk hd => exact total_main (by rw [hm]; simp only [mainLeft]; omega) fun u => rfl
  | allAlias hm => exact total_main (by rw [hm]; simp only [mainLeft]; omega) fun u => rfl
  | join b k hm hk hp => exact total_main (by rw [hm]; simp only [mainLeft]; omega) fun u => rfl
  | leave b hm => exact total_main (by rw [hm]; cases b <;> simp [mainLeft]) fun u => rfl

/-- Every state leads to one in which no thread can go on. -/
theorem ends (s : State) : ∃ s', ReflTransGen (Step J) s s' ∧ ∀ s'', ¬ Step J s' s'' := by
  induction h : total J s using Nat.strong_induction_on generalizing s with
  | _ n ih =>
    by_cases hs : ∃ s', Step J s s'
    · obtain ⟨s', hs⟩ := hs
      obtain ⟨e, h1, h2⟩ := ih _ (h ▸ step_total hs) s' rfl
      exact ⟨e, .head hs h1, h2⟩
    · exact ⟨s, .refl, fun s'' h => hs ⟨s'', h⟩⟩

/-! ## Something throws -/

/-- One worker meets an exception, another does not, and there are aliases: the invariant. -/
structure Hangs (J : Job) (a b : Nat) (s : State) : Prop where
  aliases : s.goAlias = false
  main : s.main = .start ∨ (∃ k ≤ a, s.main = .collect k) ∨ ∃ k ≤ b, s.main = .leaving false k
  bad : s.doneOs a ≠ some true ∧ (s.phase a = .ready ∨ s.phase a = .stopped ∨ s.phase a = .making ∧ ∃ k, Act.put k none ∈ s.todo a)
  good : s.phase b = .ready ∨ s.phase b = .waiting ∨ s.phase b = .making ∧ s.todo b <:+ osProgram J b

theorem hangs_step {a b : Nat} (ha : a < J.workers) (hb : b < J.workers) (hx : J.aliases = true) (hta : Throws J a) (htb : ¬ Throws J b) {s s' : State}
    (h : Hangs J a b s) (hs : Step J s s') : Hangs J a b s' := by
  have hab : a ≠ b := by rintro rfl; exact htb hta
  obtain ⟨h1, h2, ⟨h3, h4⟩, h5⟩ := h
  cases hs with
  | start hm => exact ⟨h1, .inr (.inl ⟨0, Nat.zero_le _, rfl⟩), ⟨h3, h4⟩, h5⟩
  | begin w hw hp hg =>
    refine ⟨h1, h2, ⟨h3, ?_⟩, ?_⟩ <;> dsimp only
    · by_cases e : a = w
      · subst e; rw [upd_same, upd_same]; exact .inr (.inr ⟨rfl, hta⟩)
      · rw [upd_ne _ _ e, upd_ne _ _ e]; exact h4
    · by_cases e : b = w
      · subst e; rw [upd_same, upd_same]; exact .inr (.inr ⟨rfl, List.suffix_refl _⟩)
      · rw [upd_ne _ _ e, upd_ne _ _ e]; exact h5
  | put w k v l hw hp ht hr =>
    refine ⟨h1, h2, ⟨h3, ?_⟩, ?_⟩ <;> dsimp only
    · by_cases e : a = w
      · subst e; rw [upd_same]
        refine h4.imp id (Or.imp id fun hm => ⟨hm.1, ?_⟩)
        obtain ⟨-, k', hk'⟩ := hm
        rw [ht] at hk'
        exact ⟨k', (List.mem_cons.mp hk').resolve_left (by simp)⟩
      · rw [upd_ne _ _ e]; exact h4
    · by_cases e : b = w
      · subst e; rw [upd_same]
        refine h5.imp id (Or.imp id fun hm => ⟨hm.1, ?_⟩)
        exact (List.suffix_cons _ l).trans (ht ▸ hm.2)
      · rw [upd_ne _ _ e]; exact h5
  | throw w k l hw hp ht =>
    refine ⟨h1, h2, ⟨?_, ?_⟩, ?_⟩ <;> dsimp only
    · by_cases e : a = w
      · subst e; rw [upd_same]; simp
      · rw [upd_ne _ _ e]; exact h3
    · by_cases e : a = w
      · subst e; rw [upd_same]; exact .inr (.inl rfl)
      · rw [upd_ne _ _ e]; exact h4
    · by_cases e : b = w
      · subst e
        rcases h5 with h5 | h5 | h5
        · rw [h5] at hp; simp at hp
        · rw [h5] at hp; simp at hp
        · exact absurd ⟨k, h5.2.subset (by rw [ht]; simp)⟩ htb
      · rw [upd_ne _ _ e]; exact h5
  | turn w k j l hw hp ht hr =>
    refine ⟨h1, h2, ⟨h3, ?_⟩, ?_⟩ <;> dsimp only
    · by_cases e : a = w
      · subst e; rw [upd_same]
        refine h4.imp id (Or.imp id fun hm => ⟨hm.1, ?_⟩)
        obtain ⟨-, k', hk'⟩ := hm
        rw [ht] at hk'
        exact ⟨k', (List.mem_cons.mp hk').resolve_left (by simp)⟩
      · rw [upd_ne _ _ e]; exact h4
    · by_cases e : b = w
      · subst e; rw [upd_same]
        refine h5.imp id (Or.imp id fun hm => ⟨hm.1, ?_⟩)
        exact (List.suffix_cons _ l).trans (ht ▸ hm.2)
      · rw [upd_ne _ _ e]; exact h5
  | made w hw hp ht =>
    have hwa : a ≠ w := by
      rintro rfl
      rcases h4 with h4 | h4 | ⟨-, k, hk⟩
      · rw [h4] at hp; simp at hp
      · rw [h4] at hp; simp at hp
      · rw [ht] at hk; simp at hk
    refine ⟨h1, h2, ⟨?_, ?_⟩, ?_⟩ <;> dsimp only
    · rw [upd_ne _ _ hwa]; exact h3
    · rw [upd_ne _ _ hwa]; exact h4
    · by_cases e : b = w
      · subst e; rw [upd_same, if_pos hx]; exact .inr (.inl rfl)
      · rw [upd_ne _ _ e]; exact h5
  | beginAlias w hw hp hg => rw [h1] at hg; simp at hg
  | simplify w k l hw hp ht hr =>
    refine ⟨h1, h2, ⟨h3, ?_⟩, ?_⟩ <;> dsimp only
    · by_cases e : a = w
      · subst e
        rcases h4 with h4 | h4 | h4
        · rw [h4] at hp; simp at hp
        · rw [h4] at hp; simp at hp
        · rw [h4.1] at hp; simp at hp
      · rw [upd_ne _ _ e]; exact h4
    · by_cases e : b = w
      · subst e
        rcases h5 with h5 | h5 | h5
        · rw [h5] at hp; simp at hp
        · rw [h5] at hp; simp at hp
        · rw [h5.1] at hp; simp at hp
      · rw [upd_ne _ _ e]; exact h5
  | turnAlias w k j l hw hp ht hr =>
    refine ⟨h1, h2, ⟨h3, ?_⟩, ?_⟩ <;> dsimp only
    · by_cases e : a = w
      · subst e
        rcases h4 with h4 | h4 | h4
        · rw [h4] at hp; simp at hp
        · rw [h4] at hp; simp at hp
        · rw [h4.1] at hp; simp at hp
      · rw [upd_ne _ _ e]; exact h4
    · by_cases e : b = w
      · subst e
        rcases h5 with h5 | h5 | h5
        · rw [h5] at hp; simp at hp
        · rw [h5] at hp; simp at hp
        · rw [h5.1] at hp; simp at hp
      · rw [upd_ne _ _ e]; exact h5
  | aliased w hw hp ht =>
    refine ⟨h1, h2, ⟨h3, ?_⟩, ?_⟩ <;> dsimp only
    · by_cases e : a = w
      · subst e; rw [upd_same]; exact .inr (.inl rfl)
      · rw [upd_ne _ _ e]; exact h4
    · by_cases e : b = w
      · subst e
        rcases h5 with h5 | h5 | h5
        · rw [h5] at hp; simp at hp
        · rw [h5] at hp; simp at hp
        · rw [h5.1] at hp; simp at hp
      · rw [upd_ne _ _ e]; exact h5
  | crash w x l hw hp ht hx' hr =>
    refine ⟨h1, h2, ⟨h3, ?_⟩, ?_⟩ <;> dsimp only
    · by_cases e : a = w
      · subst e; rw [upd_same]
        refine h4.imp id (Or.imp id fun hm => ⟨hm.1, ?_⟩)
        obtain ⟨-, k', hk'⟩ := hm
        rw [ht] at hk'
        exact ⟨k', (List.mem_cons.mp hk').resolve_left fun e => hx' k' e.symm⟩
      · rw [upd_ne _ _ e]; exact h4
    · by_cases e : b = w
      · subst e; rw [upd_same]
        refine h5.imp id (Or.imp id fun hm => ⟨hm.1, ?_⟩)
        exact (List.suffix_cons _ l).trans (ht ▸ hm.2)
      · rw [upd_ne _ _ e]; exact h5
  | next k hm hk hd =>
    refine ⟨h1, .inr (.inl ⟨k + 1, ?_, rfl⟩), ⟨h3, h4⟩, h5⟩
    rcases h2 with h2 | ⟨k', hk', h2⟩ | ⟨k', hk', h2⟩
    · rw [h2] at hm; simp at hm
    · rw [h2] at hm
      injection hm with hm
      subst hm
      rcases hk'.eq_or_lt with rfl | hlt
      · exact absurd hd h3
      · exact hlt
    · rw [h2] at hm; simp at hm
  | rethrow k hm hk hd => exact ⟨h1, .inr (.inr ⟨0, Nat.zero_le _, rfl⟩), ⟨h3, h4⟩, h5⟩
  | all hm ha' => rw [hx] at ha'; simp at ha'
  | startAlias hm ha' =>
    rcases h2 with h2 | ⟨k', hk', h2⟩ | ⟨k', hk', h2⟩
    · rw [h2] at hm; simp at hm
    · rw [h2] at hm
      injection hm with hm
      omega
    · rw [h2] at hm; simp at hm
  | nextAlias k hm hk hd =>
    rcases h2 with h2 | ⟨k', hk', h2⟩ | ⟨k', hk', h2⟩ <;> rw [h2] at hm <;> simp at hm
  | allAlias hm =>
    rcases h2 with h2 | ⟨k', hk', h2⟩ | ⟨k', hk', h2⟩ <;> rw [h2] at hm <;> simp at hm
  | join c k hm hk hp =>
    rcases h2 with h2 | ⟨k', hk', h2⟩ | ⟨k', hk', h2⟩
    · rw [h2] at hm; simp at hm
    · rw [h2] at hm; simp at hm
    · rw [h2] at hm
      injection hm with hm1 hm2
      subst hm1 hm2
      refine ⟨h1, .inr (.inr ⟨k' + 1, ?_, rfl⟩), ⟨h3, h4⟩, h5⟩
      rcases hk'.eq_or_lt with rfl | hlt
      · rcases h5 with h5 | h5 | h5
        · rw [h5] at hp; simp at hp
        · rw [h5] at hp; simp at hp
        · rw [h5.1] at hp; simp at hp
      · exact hlt
  | leave c hm =>
    rcases h2 with h2 | ⟨k', hk', h2⟩ | ⟨k', hk', h2⟩
    · rw [h2] at hm; simp at hm
    · rw [h2] at hm; simp at hm
    · rw [h2] at hm
      injection hm with hm1 hm2
      omega

theorem hangs_reachable {a b : Nat} (ha : a < J.workers) (hb : b < J.workers) (hx : J.aliases = true) (hta : Throws J a) (htb : ¬ Throws J b) {s : State}
    (h : Reachable J s) : Hangs J a b s := by
  induction h with
  | refl => exact ⟨rfl, .inl rfl, ⟨by simp [initial], .inl rfl⟩, .inl rfl⟩
  | tail _ hs ih => exact hangs_step ha hb hx hta htb ih hs

/-- A worker runs on until its exception; nothing else changes. -/
theorem run_to_throw {w : Nat} (hw : w < J.workers) : ∀ (l : List Act) (s : State), s.phase w = .making → s.todo w = l → s.released = false →
    (∀ a ∈ l, a ∈ osProgram J w) → (∃ k, Act.put k none ∈ l) →
    ∃ s', ReflTransGen (Step J) s s' ∧ s'.doneOs w = some false ∧ s'.main = s.main ∧ s'.released = false ∧
      ∀ u, u ≠ w → s'.phase u = s.phase u ∧ s'.todo u = s.todo u
  | [], _, _, _, _, _, h => by simp at h
  | a :: l, s, hp, ht, hr, hin, hex => by
    have step : ∀ s1, Step J s s1 → s1.phase w = .making → s1.todo w = l → s1.released = false → s1.main = s.main →
        (∀ u, u ≠ w → s1.phase u = s.phase u ∧ s1.todo u = s.todo u) → (∃ k, Act.put k none ∈ l) →
        ∃ s', ReflTransGen (Step J) s s' ∧ s'.doneOs w = some false ∧ s'.main = s.main ∧ s'.released = false ∧
          ∀ u, u ≠ w → s'.phase u = s.phase u ∧ s'.todo u = s.todo u := by
      intro s1 h1 h2 h3 h4 h5 h6 h7
      obtain ⟨s', g1, g2, g3, g4, g5⟩ := run_to_throw hw l s1 h2 h3 h4 (fun x hx => hin x (by simp [hx])) h7
      exact ⟨s', .head h1 g1, g2, g3.trans h5, g4, fun u hu => ⟨(g5 u hu).1.trans (h6 u hu).1, (g5 u hu).2.trans (h6 u hu).2⟩⟩
    have rest : (∀ k, a ≠ .put k none) → ∃ k, Act.put k none ∈ l := by
      intro hne
      obtain ⟨k, hk⟩ := hex
      exact ⟨k, (List.mem_cons.mp hk).resolve_left fun e => hne k e.symm⟩
    rcases os_kind (hin a (by simp)) with ⟨k, v, rfl⟩ | ⟨k, j, rfl⟩
    · cases v with
      | none =>
        exact ⟨_, .single (.throw s w k l hw hp ht), upd_same _ _ _, rfl, hr, fun u hu => ⟨upd_ne _ _ hu, rfl⟩⟩
      | some v =>
        exact step _ (.put s w k v l hw hp ht hr) hp (upd_same _ _ _) hr rfl (fun u hu => ⟨rfl, upd_ne _ _ hu⟩) (rest (by simp))
    · exact step _ (.turn s w k j l hw hp ht hr) hp (upd_same _ _ _) hr rfl (fun u hu => ⟨rfl, upd_ne _ _ hu⟩) (rest (by simp))

end Moment.OperatorMatrix
