import Verif.Proof.RepWorkers
import Verif.Props.C86_Representations

/-! # C108: threads that make representations of symmetry groups -/

namespace Moment.C108
open Moment.SymRep Moment.SymRep.Threads

section
variable {E : Type} {op : Nat → Option (E → E → E)} {size N : Nat} {build : List Nat} {rs0 rs : List (Option (List E))}

theorem run_inv (hN : 0 < N) (hs : single op size build rs0 = some rs) (hlen : ∀ n ∈ build, n - 1 < rs0.length) {blank : E} {l : List (Option Nat)} {s : State E}
    (h : Run op size build (State.start blank size build N rs0) l s) : Inv op size build rs0 N s ∧ l.length ≤ s.done size := by
  induction h with
  | nil => exact ⟨start_inv blank N, by simp⟩
  | snoc hr he ih =>
    obtain ⟨h1, h2⟩ := ih
    refine ⟨step_inv hN hs hlen h1 he, ?_⟩
    have := step_done hs hN hlen h1 he
    simp only [List.length_append, List.length_cons, List.length_nil]
    omega

/-- **C108.** If one thread makes all representations without reading null pointers, then any number of workers does, in every order of steps: no thread reads a
null pointer or out of range, and when `execute` returns, the representations are those that one thread makes. -/
theorem C108_same (hN : 0 < N) (hs : single op size build rs0 = some rs) (hlen : ∀ n ∈ build, n - 1 < rs0.length) {blank : E} {l : List (Option Nat)} {s : State E}
    (h : Run op size build (State.start blank size build N rs0) l s) : s.crash = false ∧ (s.joined = true → s.reps = rs) := by
  obtain ⟨hi, -⟩ := run_inv hN hs hlen h
  refine ⟨hi.fine, fun hj => ?_⟩
  have hg := hi.joins hj
  have hst : s.stored = false := by
    by_contra hc
    have := (hi.storing (by simpa using hc)).1
    omega
  have hr := hi.reps
  rw [hg, hst] at hr
  simp only [Bool.false_eq_true, if_false, Nat.add_zero, List.take_length] at hr
  rw [hs] at hr
  exact (Option.some.inj hr).symm

/-- **C108.** The threads never block each other for ever, and end: as long as `execute` has not returned, some thread can take a step, and the number of all steps
is bounded. -/
theorem C108_ends (hN : 0 < N) (hs : single op size build rs0 = some rs) (hlen : ∀ n ∈ build, n - 1 < rs0.length) {blank : E} {l : List (Option Nat)} {s : State E}
    (h : Run op size build (State.start blank size build N rs0) l s) :
    l.length ≤ N * (build.length + build.length * (size + N + 2)) + build.length * (N + 2) + 1 ∧ (s.joined = false → ∃ t s', s.step op size build t = some s') := by
  obtain ⟨hi, hl⟩ := run_inv hN hs hlen h
  exact ⟨le_trans hl (done_bound hi), fun hj => step_live hi hj⟩

/-- **C108.** When `execute` returns, all threads have ended. -/
theorem C108_joined (hN : 0 < N) (hs : single op size build rs0 = some rs) (hlen : ∀ n ∈ build, n - 1 < rs0.length) {blank : E} {l : List (Option Nat)} {s : State E}
    (h : Run op size build (State.start blank size build N rs0) l s) (hj : s.joined = true) (t : Option Nat) : s.step op size build t = none := by
  obtain ⟨hi, -⟩ := run_inv hN hs hlen h
  have hg := hi.joins hj
  unfold State.step
  rw [hi.fine]
  cases t with
  | none =>
    show s.main build = none
    rw [State.main, hg, List.getElem?_eq_none le_rfl]
    simp [hj]
  | some w =>
    show s.work op size build w = none
    unfold State.work
    cases hx : s.workers[w]? with
    | none => rfl
    | some x =>
      have hf := hi.fits w x hx
      obtain ⟨count, seen, phase⟩ := x
      cases phase with
      | idle =>
        have := hf.low
        dsimp only at this
        show (match build[count]? with | none => _ | some n => _) = _
        rw [List.getElem?_eq_none (by omega)]
      | busy i =>
        have := (hf.busy i rfl).2.1
        omega

/-- **C108.** There are no data races: what a thread is about to write, no other thread is about to read or write. -/
theorem C108_race (hN : 0 < N) (hs : single op size build rs0 = some rs) (hlen : ∀ n ∈ build, n - 1 < rs0.length) {blank : E} {l : List (Option Nat)} {s : State E}
    (h : Run op size build (State.start blank size build N rs0) l s) {a b : Option Nat} (hab : a ≠ b) {x : Loc} (ha : Writes size build s a x) :
    ¬ Reads size build s b x ∧ ¬ Writes size build s b x := by
  obtain ⟨hi, -⟩ := run_inv hN hs hlen h
  -- while the main thread stores, the workers wait
  have still : Stores build s → ∀ (w : Nat) (y : Worker), s.workers[w]? = some y → y.count = s.global + 1 ∧ y.seen < y.count ∧ y.phase = .idle := by
    rintro ⟨h1, h2, h3⟩ w y hy
    have hf := hi.fits w y hy
    have hw := (List.getElem?_eq_some_iff.mp hy).1
    have hc := hf.waited (Or.inl (by omega))
    have := hf.seen
    refine ⟨hc, by omega, ?_⟩
    cases hp : y.phase with
    | idle => rfl
    | busy i =>
      have := (hf.busy i hp).1
      omega
  have main_work : Stores build s → ∀ w x, ¬ Reads size build s (some w) x ∧ ¬ Writes size build s (some w) x := by
    intro hst w x
    constructor
    · cases x with
      | rep k =>
        rintro ⟨y, n, h1, h2, h3, ⟨h4, h5⟩ | ⟨i, h4, h5⟩⟩
        · have := (still hst w y h1).2.1
          omega
        · rw [(still hst w y h1).2.2] at h4
          cases h4
      | cell l i => exact id
    · cases x with
      | rep k => exact id
      | cell l i =>
        rintro ⟨y, h1, h2, -⟩
        rw [(still hst w y h1).2.2] at h2
        cases h2
  cases a with
  | none =>
    have hst : Stores build s := by
      cases x with
      | rep k => exact ha.1
      | cell l i => exact ha.1
    cases b with
    | none => exact absurd rfl hab
    | some w => exact main_work hst w x
  | some v =>
    cases b with
    | none =>
      constructor
      · intro hr
        cases x with
        | rep k => exact hr
        | cell l i => exact (main_work hr.1 v _).2 ha
      · intro hr
        cases x with
        | rep k => exact ha
        | cell l i => exact (main_work hr.1 v _).2 ha
    | some w =>
      cases x with
      | rep k => exact absurd ha id
      | cell l i =>
        refine ⟨id, ?_⟩
        rintro ⟨y, h1, h2, -⟩
        obtain ⟨z, h3, h4, -⟩ := ha
        apply hab
        rw [← ((hi.fits w y h1).busy i h2).2.2.1, ← ((hi.fits v z h3).busy i h4).2.2.1]

theorem run_run {s0 : State E} : ∀ {order : List (Option Nat)} {l : List (Option Nat)} {s : State E}, Run op size build s0 l s → ∃ l', Run op size build s0 l' (s.run op size build order)
  | [], l, s, h => ⟨l, h⟩
  | t :: order, l, s, h => by
    rw [State.run]
    cases he : s.step op size build t with
    | none => exact run_run h
    | some s' => exact run_run (h.snoc he)

end

theorem buildReps_single {ms : List (Option Mapper)} {size : Nat} : ∀ {l : List Nat} {rs : List (Option (List Entries))},
    buildReps ms size l rs = single (operation ms) size l rs
  | [], rs => rfl
  | n :: l, rs => by
    rw [buildReps, single, operation]
    cases at? rs (parents n).1 with
    | none => rfl
    | some A =>
      cases at? rs (parents n).2 with
      | none => rfl
      | some B =>
        cases at? ms n with
        | none => rfl
        | some m =>
          have : ∀ new, buildReps ms size l (rs.set (n - 1) (some new)) = single (operation ms) size l (rs.set (n - 1) (some new)) := fun new => buildReps_single
          simp only [this, Option.map_some, Option.bind_eq_bind, Option.bind_some]

/-- **C108.** A group is built with threads as without: where building with one thread is defined, building with threads is, whatever the order of their steps, and
once it has returned the group is the same. -/
theorem C108_group {c : SymRep.Ctx} {size threads : Nat} (ht : 0 < threads) {G G' : Grp} {n : Nat} (hn : n < 2 ^ 64) (h : G.build c size n = some G') (order : List (Option Nat)) :
    buildThreads c size threads order G n = some (some G') ∨ buildThreads c size threads order G n = some none := by
  unfold Grp.build at h
  unfold buildThreads
  obtain ⟨bl, hbl, h⟩ := Option.bind_eq_some_iff.mp h
  obtain ⟨ms, hms, h⟩ := Option.bind_eq_some_iff.mp h
  obtain ⟨m, hm, h⟩ := Option.bind_eq_some_iff.mp h
  obtain ⟨rs', hrs, rfl⟩ := Option.map_eq_some_iff.mp h
  simp only [hbl, hms, hm, Option.bind_eq_bind, Option.bind_some]
  by_cases hsz : size ≤ 1
  · rw [if_pos hsz, hrs]
    exact Or.inl rfl
  · rw [if_neg hsz]
    rw [buildReps_single] at hrs
    have hlen : ∀ k ∈ bl.filter fun k => (at? (grow G.reps n) k).isNone, k - 1 < (grow G.reps n).length := by
      intro k hk
      have hk' := (List.mem_filter.mp hk).1
      rw [grow_length]
      by_cases h2 : 2 ≤ n
      · obtain ⟨l, h3, -, -, h4, -⟩ := buildList_spec h2 hn
        rw [hbl] at h3
        cases h3
        have := h4 k hk'
        omega
      · rw [C86.C86_short (by omega)] at hbl
        cases hbl
        cases hk'
    have hN : 0 < workerCount threads size := by unfold workerCount; omega
    obtain ⟨l, hl⟩ := run_run (order := order) (Run.nil (op := operation ms) (size := size) (build := bl.filter fun k => (at? (grow G.reps n) k).isNone)
      (State.start (fun _ _ => (0 : ℝ)) size (bl.filter fun k => (at? (grow G.reps n) k).isNone) (workerCount threads size) (grow G.reps n)))
    obtain ⟨h1, h2⟩ := C108_same hN hrs hlen hl
    rw [h1]
    simp only [Bool.false_eq_true, if_false]
    split
    · rename_i hj
      rw [h2 hj]
      exact Or.inl rfl
    · exact Or.inr rfl

/-! ## Examples -/

/-- Three elements, lengths 2 and 3, numbers instead of matrices. -/
def sum (_ : Nat) : Option (Nat → Nat → Nat) := some (· * 10 + ·)
def given : List (Option (List Nat)) := [some [1, 2, 3], none, none]

theorem sum_single : single sum 3 [2, 3] given = some [some [1, 2, 3], some [11, 22, 33], some [111, 222, 333]] := by decide +kernel

/-- Two workers, which take turns with the main thread. -/
def turns : List (Option Nat) := (List.replicate 40 [some 1, some 0, none]).flatten

example : ((State.start 0 3 [2, 3] 2 given).run sum 3 [2, 3] turns).joined = true := by decide +kernel
example : ((State.start 0 3 [2, 3] 2 given).run sum 3 [2, 3] turns).reps = [some [1, 2, 3], some [11, 22, 33], some [111, 222, 333]] := by decide +kernel
example : ∀ n ∈ [2, 3], n - 1 < given.length := by decide

/-- After the second worker has made the second element, it waits; the main thread waits for the first worker. -/
example : ((State.start 0 3 [2, 3] 2 given).run sum 3 [2, 3] [some 1, some 1, some 1]).step sum 3 [2, 3] (some 1) = none ∧
    ((State.start 0 3 [2, 3] 2 given).run sum 3 [2, 3] [some 1, some 1, some 1]).step sum 3 [2, 3] none = none := ⟨rfl, rfl⟩

/-- Both workers are about to write: the first element and the second. -/
example : Writes 3 [2, 3] ((State.start 0 3 [2, 3] 2 given).run sum 3 [2, 3] [some 1, some 0]) (some 0) (.cell 0 0) ∧
    Writes 3 [2, 3] ((State.start 0 3 [2, 3] 2 given).run sum 3 [2, 3] [some 1, some 0]) (some 1) (.cell 0 1) :=
  ⟨⟨⟨0, 0, .busy 0⟩, by decide +kernel, rfl, rfl, by omega⟩, ⟨⟨0, 0, .busy 1⟩, by decide +kernel, rfl, rfl, by omega⟩⟩

end Moment.C108
