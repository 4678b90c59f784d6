import Verif.Spec.RepWorkers
import Mathlib.Tactic.Ring
import Mathlib.Tactic.Linarith

/-! # Threads that make representations: invariant -/

namespace Moment.SymRep.Threads

variable {E : Type} {op : Nat → Option (E → E → E)} {size : Nat} {build : List Nat} {rs0 : List (Option (List E))}

/-- The matrices of one length. -/
def fresh (op : Nat → Option (E → E → E)) (size n : Nat) (rs : List (Option (List E))) : Option (List E) :=
  (at? rs (parents n).1) >>= fun A => (at? rs (parents n).2) >>= fun B => (op n) >>= fun f =>
    (List.range size).mapM fun i => A[i]? >>= fun a => B[i]? >>= fun b => some (f a b)

theorem single_cons {n : Nat} {ns : List Nat} {rs : List (Option (List E))} :
    single op size (n :: ns) rs = (fresh op size n rs) >>= fun new => single op size ns (rs.set (n - 1) (some new)) := by
  rw [single, fresh]
  cases at? rs (parents n).1 <;> cases at? rs (parents n).2 <;> cases op n <;> rfl

theorem single_append {a b : List Nat} : ∀ {rs : List (Option (List E))}, single op size (a ++ b) rs = (single op size a rs) >>= fun r => single op size b r := by
  induction a with
  | nil => intro rs; rfl
  | cons n a ih =>
    intro rs
    rw [List.cons_append, single_cons, single_cons]
    cases fresh op size n rs with
    | none => rfl
    | some new => exact ih

theorem mapM_some {α β : Type} {f : α → Option β} : ∀ {l : List α} {r : List β}, l.mapM f = some r → r.length = l.length ∧ ∀ (i : Nat) (x : α), l[i]? = some x → ∃ y, f x = some y ∧ r[i]? = some y
  | [], r, h => by
    cases h
    exact ⟨rfl, by simp⟩
  | a :: l, r, h => by
    rw [List.mapM_cons] at h
    cases ha : f a with
    | none => rw [ha] at h; cases h
    | some y =>
      rw [ha] at h
      cases hl : l.mapM f with
      | none => rw [hl] at h; cases h
      | some ys =>
        rw [hl] at h
        cases h
        obtain ⟨h1, h2⟩ := mapM_some hl
        refine ⟨by simp [h1], fun i x hx => ?_⟩
        cases i with
        | zero => simp only [List.getElem?_cons_zero, Option.some.injEq] at hx; subst hx; exact ⟨y, ha, by simp⟩
        | succ i => simpa using h2 i x (by simpa using hx)

theorem fresh_some {n : Nat} {rs : List (Option (List E))} {new : List E} (h : fresh op size n rs = some new) :
    ∃ A B f, at? rs (parents n).1 = some A ∧ at? rs (parents n).2 = some B ∧ op n = some f ∧ new.length = size ∧
      ∀ i, i < size → ∃ a b, A[i]? = some a ∧ B[i]? = some b ∧ new[i]? = some (f a b) := by
  unfold fresh at h
  cases hA : at? rs (parents n).1 with
  | none => rw [hA] at h; cases h
  | some A =>
    cases hB : at? rs (parents n).2 with
    | none => rw [hA, hB] at h; cases h
    | some B =>
      cases hf : op n with
      | none => rw [hA, hB, hf] at h; cases h
      | some f =>
        rw [hA, hB, hf] at h
        obtain ⟨h1, h2⟩ := mapM_some (h :)
        refine ⟨A, B, f, rfl, rfl, rfl, by simpa using h1, fun i hi => ?_⟩
        obtain ⟨y, h3, h4⟩ := h2 i i (by simp [hi])
        cases ha : A[i]? with
        | none => rw [ha] at h3; cases h3
        | some a =>
          cases hb : B[i]? with
          | none => rw [ha, hb] at h3; cases h3
          | some b =>
            rw [ha, hb] at h3
            cases h3
            exact ⟨a, b, rfl, rfl, h4⟩

/-- If all representations can be made, then each of them. -/
theorem single_at {rs : List (Option (List E))} (h : single op size build rs0 = some rs) {g : Nat} {r : List (Option (List E))}
    (hg : single op size (build.take g) rs0 = some r) {n : Nat} (hn : build[g]? = some n) :
    ∃ new, fresh op size n r = some new ∧ single op size (build.take (g + 1)) rs0 = some (r.set (n - 1) (some new)) := by
  have hl := List.getElem?_eq_some_iff.mp hn
  have e1 : build = build.take g ++ n :: build.drop (g + 1) := by
    conv_lhs => rw [← List.take_append_drop g build]
    rw [List.drop_eq_getElem_cons hl.1, hl.2]
  rw [e1, single_append, hg] at h
  have h' : single op size (n :: build.drop (g + 1)) r = some rs := h
  rw [single_cons] at h'
  cases hf : fresh op size n r with
  | none => rw [hf] at h'; cases h'
  | some new =>
    refine ⟨new, rfl, ?_⟩
    rw [List.take_succ, hn, single_append, hg]
    show single op size [n] r = _
    rw [single_cons, hf]
    rfl

theorem single_length : ∀ {l : List Nat} {rs r : List (Option (List E))}, single op size l rs = some r → r.length = rs.length
  | [], rs, r, h => by cases h; rfl
  | n :: l, rs, r, h => by
    rw [single_cons] at h
    cases hf : fresh op size n rs with
    | none => rw [hf] at h; cases h
    | some new =>
      rw [hf] at h
      rw [single_length (h :)]
      simp

/-- The matrix `i` of the level that is being made is there. -/
def Right (op : Nat → Option (E → E → E)) (size : Nat) (build : List Nat) (s : State E) (i : Nat) : Prop :=
  ∃ n new d, build[s.global]? = some n ∧ fresh op size n s.reps = some new ∧ s.data[s.global]? = some d ∧ d[i]? = new[i]?

/-- What is true of worker `w`. -/
structure Fits (op : Nat → Option (E → E → E)) (size : Nat) (build : List Nat) (s : State E) (w : Nat) (x : Worker) : Prop where
  seen : x.seen ≤ s.global
  low : s.global ≤ x.count
  high : x.count ≤ s.global + 1
  most : x.count ≤ build.length
  waited : w < s.next ∨ s.stored = true → x.count = s.global + 1
  busy : ∀ i, x.phase = .busy i → x.count = s.global ∧ s.global < build.length ∧ i % s.workers.length = w ∧ i < size + s.workers.length
  made : s.stored = false → ∀ i, i < size → i % s.workers.length = w → (x.count = s.global + 1 ∨ ∃ j, x.phase = .busy j ∧ i < j) → Right op size build s i

/-- What is true between steps. -/
structure Inv (op : Nat → Option (E → E → E)) (size : Nat) (build : List Nat) (rs0 : List (Option (List E))) (N : Nat) (s : State E) : Prop where
  fine : s.crash = false
  level : s.global ≤ build.length
  count : s.workers.length = N
  storing : s.stored = true → s.global < build.length ∧ s.next = N
  reps : single op size (build.take (s.global + if s.stored then 1 else 0)) rs0 = some s.reps
  data : ∀ l, s.global + (if s.stored then 1 else 0) ≤ l → l < build.length → ∃ d, s.data[l]? = some d ∧ d.length = size
  next : s.next ≤ N
  joins : s.joined = true → s.global = build.length
  rest : s.global = build.length → s.next = 0
  fits : ∀ w x, s.workers[w]? = some x → Fits op size build s w x

theorem start_inv (blank : E) (N : Nat) : Inv op size build rs0 N (State.start blank size build N rs0) := by
  refine ⟨rfl, Nat.zero_le _, by simp [State.start], by simp [State.start], by simp [State.start, single], ?_, by simp [State.start], by simp [State.start], by simp [State.start], ?_⟩
  · intro l _ hl
    exact ⟨List.replicate size blank, by simp [State.start, hl], by simp⟩
  · intro w x hx
    simp only [State.start, List.getElem?_replicate] at hx
    split at hx
    · cases hx
      exact ⟨le_rfl, le_rfl, by simp [State.start], by simp, by simp [State.start], by simp, by simp [State.start]⟩
    · cases hx

section
variable {N : Nat} {s s' : State E} {rs : List (Option (List E))}

/-- A worker changes without changing memory. -/
theorem Inv.worker (h : Inv op size build rs0 N s) {w : Nat} {x y : Worker} (hx : s.workers[w]? = some x)
    (hy : Fits op size build s w y) : Inv op size build rs0 N { s with workers := s.workers.set w y } := by
  refine ⟨h.fine, h.level, by simpa using h.count, h.storing, h.reps, h.data, h.next, h.joins, h.rest, fun v z hz => ?_⟩
  have hf : Fits op size build s v z := by
    simp only [List.getElem?_set] at hz
    split at hz
    · rename_i hwv
      subst hwv
      split at hz
      · cases hz; exact hy
      · cases hz
    · exact h.fits v z hz
  exact ⟨hf.seen, hf.low, hf.high, hf.most, hf.waited, by simpa using hf.busy, by simpa [Right] using hf.made⟩

theorem mod_below {i j n : Nat} (hn : 0 < n) (h : i % n = j % n) (hlt : i < j + n) : i < j ∨ i = j := by
  by_contra hc
  have h1 : j < i := by omega
  have h2 : i - j < n := by omega
  have h3 := Nat.sub_mod_eq_zero_of_mod_eq h
  have := Nat.le_of_dvd (by omega) (Nat.dvd_of_mod_eq_zero h3)
  omega

theorem work_inv (hN : 0 < N) (hs : single op size build rs0 = some rs) (h : Inv op size build rs0 N s) {w : Nat}
    (he : s.work op size build w = some s') : Inv op size build rs0 N s' := by
  unfold State.work at he
  cases hx : s.workers[w]? with
  | none => rw [hx] at he; cases he
  | some x =>
    have hw : w < N := by rw [← h.count]; exact (List.getElem?_eq_some_iff.mp hx).1
    have hf := h.fits w x hx
    rw [hx] at he
    obtain ⟨count, seen, phase⟩ := x
    cases phase with
    | idle =>
      dsimp only at he
      cases hb : build[count]? with
      | none => rw [hb] at he; cases he
      | some n =>
        rw [hb] at he
        dsimp only at he
        by_cases hlt : seen < count
        · rw [if_pos hlt] at he
          by_cases hg : s.global = seen
          · rw [if_pos hg] at he; cases he
          · rw [if_neg hg] at he
            cases he
            exact h.worker hx ⟨le_rfl, hf.low, hf.high, hf.most, hf.waited, by simp, fun h1 i h2 h3 h4 => hf.made h1 i h2 h3 (by simpa using h4)⟩
        · rw [if_neg hlt] at he
          have hc : count = s.global := by
            have := hf.seen; have := hf.low
            dsimp only at *
            omega
          subst hc
          have hst : s.stored = false := by
            by_contra hc
            have := hf.waited (Or.inr (by simpa using hc))
            dsimp only at this
            omega
          have hr := h.reps
          rw [hst] at hr
          obtain ⟨new, h1, -⟩ := single_at hs (by simpa using hr) hb
          obtain ⟨A, B, f, h2, h3, h4, -⟩ := fresh_some h1
          rw [h2, h3, h4] at he
          cases he
          refine h.worker hx ⟨hf.seen, le_rfl, hf.high, hf.most, hf.waited, ?_, ?_⟩
          · rintro i hi
            cases hi
            exact ⟨rfl, (List.getElem?_eq_some_iff.mp hb).1, by rw [h.count, Nat.mod_eq_of_lt hw], by rw [h.count]; omega⟩
          · rintro - i h5 h6 (h7 | ⟨j, h7, h8⟩)
            · dsimp only at h7; omega
            · cases h7
              exfalso
              rw [h.count] at h6
              have := Nat.mod_le i N
              omega
    | busy i =>
      dsimp only at he
      obtain ⟨b1, b2, b3, b4⟩ := hf.busy i rfl
      dsimp only at b1
      subst b1
      have hst : s.stored = false := by
        by_contra hc
        have := hf.waited (Or.inr (by simpa using hc))
        dsimp only at this
        omega
      by_cases hi : i < size
      · rw [if_pos hi] at he
        have hb : build[s.global]? = some build[s.global] := List.getElem?_eq_getElem b2
        have hr := h.reps
        rw [hst] at hr
        obtain ⟨new, h1, -⟩ := single_at hs (by simpa using hr) hb
        obtain ⟨A, B, f, h2, h3, h4, h5, h6⟩ := fresh_some h1
        obtain ⟨a, b, h7, h8, h9⟩ := h6 i hi
        obtain ⟨d, hd, hdl⟩ := h.data s.global (by rw [hst]; simp) b2
        rw [hb, hd] at he
        dsimp only at he
        rw [h2, h3, h4] at he
        dsimp only at he
        rw [h7, h8, decide_eq_true (by omega)] at he
        cases he
        have hright : ∀ j, (Right op size build s j ∨ j = i) →
            Right op size build { s with data := s.data.set s.global (d.set i (f a b)), workers := s.workers.set w ⟨s.global, seen, .busy (i + s.workers.length)⟩ } j := by
          intro j hj
          have hlt : s.global < s.data.length := (List.getElem?_eq_some_iff.mp hd).1
          refine ⟨_, new, d.set i (f a b), hb, h1, by simp [hlt], ?_⟩
          by_cases hji : i = j
          · subst hji
            rw [h9, List.getElem?_set_self (by omega)]
          · rw [List.getElem?_set_ne hji]
            rcases hj with ⟨n', new', d', g1, g2, g3, g4⟩ | hj
            · rw [hb] at g1; cases g1
              rw [h1] at g2; cases g2
              rw [hd] at g3; cases g3
              exact g4
            · exact absurd hj.symm hji
        refine ⟨h.fine, h.level, by simpa using h.count, h.storing, h.reps, ?_, h.next, h.joins, h.rest, ?_⟩
        · intro l hl1 hl2
          by_cases hlg : s.global = l
          · subst hlg
            exact ⟨d.set i (f a b), by simp [(List.getElem?_eq_some_iff.mp hd).1], by simpa using hdl⟩
          · rw [show ({ s with data := s.data.set s.global (d.set i (f a b)), workers := s.workers.set w ⟨s.global, seen, .busy (i + s.workers.length)⟩ } : State E).data[l]? =
              s.data[l]? from List.getElem?_set_ne hlg]
            exact h.data l hl1 hl2
        · intro v z hz
          simp only [List.getElem?_set] at hz
          split at hz
          · rename_i hwv
            subst hwv
            split at hz
            · cases hz
              refine ⟨hf.seen, le_rfl, hf.high, hf.most, hf.waited, ?_, ?_⟩
              · intro j hj
                cases hj
                refine ⟨rfl, b2, ?_, ?_⟩
                · rw [show (i + s.workers.length) % (s.workers.set w ⟨s.global, seen, .busy (i + s.workers.length)⟩).length = i % s.workers.length by simp]
                  exact b3
                · show _ < size + (s.workers.set w _).length
                  simp only [List.length_set]
                  omega
              · rintro - j h10 h11 (h12 | ⟨k, h12, h13⟩)
                · dsimp only at h12; omega
                · cases h12
                  simp only [List.length_set] at h11
                  apply hright
                  rcases mod_below (by rw [h.count]; exact hN) (h11.trans b3.symm) h13 with h14 | h14
                  · exact Or.inl (hf.made hst j h10 h11 (Or.inr ⟨i, rfl, h14⟩))
                  · exact Or.inr h14
            · cases hz
          · have hv := h.fits v z hz
            refine ⟨hv.seen, hv.low, hv.high, hv.most, hv.waited, ?_, ?_⟩
            · simpa using hv.busy
            · intro h10 j h11 h12 h13
              exact hright j (Or.inl (hv.made h10 j h11 (by simpa using h12) h13))
      · rw [if_neg hi] at he
        cases he
        refine h.worker hx ⟨hf.seen, by dsimp only; omega, le_rfl, by dsimp only; omega, fun _ => rfl, by simp, ?_⟩
        intro h1 j h2 h3 _
        exact hf.made h1 j h2 h3 (Or.inr ⟨i, rfl, by omega⟩)

theorem main_inv (hN : 0 < N) (hs : single op size build rs0 = some rs) (hlen : ∀ n ∈ build, n - 1 < rs0.length) (h : Inv op size build rs0 N s)
    (he : s.main build = some s') : Inv op size build rs0 N s' := by
  unfold State.main at he
  cases hb : build[s.global]? with
  | none =>
    rw [hb] at he
    dsimp only at he
    split at he
    · cases he
      refine ⟨h.fine, h.level, h.count, h.storing, h.reps, h.data, h.next, fun _ => ?_, h.rest, fun v z hz => ?_⟩
      · have := List.getElem?_eq_none_iff.mp hb
        have := h.level
        dsimp only
        omega
      · have hv := h.fits v z hz
        exact ⟨hv.seen, hv.low, hv.high, hv.most, hv.waited, hv.busy, hv.made⟩
    · cases he
  | some n =>
    have hl := (List.getElem?_eq_some_iff.mp hb).1
    rw [hb] at he
    dsimp only at he
    by_cases hst : s.stored = true
    · rw [if_pos hst] at he
      cases he
      have hr := h.reps
      have hd := h.data
      rw [hst] at hr hd
      refine ⟨h.fine, hl, h.count, by simp, by simpa using hr, by simpa using hd, Nat.zero_le _, fun hj => ?_, fun _ => rfl, fun v z hz => ?_⟩
      · have := h.joins hj
        omega
      · have hv := h.fits v z hz
        have hc := hv.waited (Or.inr hst)
        refine ⟨?_, ?_, ?_, hv.most, by simp, ?_, ?_⟩
        · have := hv.seen; dsimp only; omega
        · dsimp only; omega
        · dsimp only; omega
        · intro i hi
          have := (hv.busy i hi).1
          omega
        · rintro - i h1 h2 (h3 | ⟨j, h3, h4⟩)
          · dsimp only at h3; omega
          · have := (hv.busy j h3).1
            omega
    · rw [if_neg hst] at he
      have hst' : s.stored = false := by simpa using hst
      cases hw : s.workers[s.next]? with
      | some x =>
        rw [hw] at he
        dsimp only at he
        by_cases hc : x.count ≤ s.global
        · rw [if_pos hc] at he; cases he
        · rw [if_neg hc] at he
          cases he
          refine ⟨h.fine, h.level, h.count, fun hc => absurd hc hst, h.reps, h.data, ?_, h.joins, fun hc => absurd hc (by dsimp only; omega), fun v z hz => ?_⟩
          · have := (List.getElem?_eq_some_iff.mp hw).1
            rw [h.count] at this
            exact this
          · have hv := h.fits v z hz
            refine ⟨hv.seen, hv.low, hv.high, hv.most, ?_, hv.busy, hv.made⟩
            rintro (h1 | h1)
            · dsimp only at h1
              by_cases h2 : v < s.next
              · exact hv.waited (Or.inl h2)
              · have : v = s.next := by omega
                subst this
                have hz' : s.workers[s.next]? = some z := hz
                rw [hw] at hz'; cases hz'
                have := hv.high
                dsimp only
                omega
            · exact absurd h1 hst
      | none =>
        have hnext : s.next = N := by
          have h1 := List.getElem?_eq_none_iff.mp hw
          have h2 := h.next
          rw [h.count] at h1
          omega
        obtain ⟨d, hd, hdl⟩ := h.data s.global (by rw [hst']; simp) hl
        have hr := h.reps
        rw [hst'] at hr
        obtain ⟨new, h1, h2⟩ := single_at hs (by simpa using hr) hb
        obtain ⟨A, B, f, -, -, -, h3, -⟩ := fresh_some h1
        have hdn : d = new := by
          apply List.ext_getElem?
          intro i
          by_cases hi : i < size
          · have hiN : i % N < s.workers.length := by rw [h.count]; exact Nat.mod_lt _ hN
            have hv := h.fits (i % N) _ (List.getElem?_eq_getElem hiN)
            obtain ⟨n', new', d', g1, g2, g3, g4⟩ := hv.made hst' i hi (by rw [h.count])
              (Or.inl (hv.waited (Or.inl (by rw [hnext]; exact Nat.mod_lt _ hN))))
            rw [hb] at g1; cases g1
            rw [h1] at g2; cases g2
            rw [hd] at g3; cases g3
            exact g4
          · rw [List.getElem?_eq_none (by omega), List.getElem?_eq_none (by omega)]
        subst hdn
        rw [hw, hd] at he
        dsimp only at he
        rw [if_pos (by rw [single_length hr]; exact hlen n (List.mem_of_getElem? hb))] at he
        cases he
        refine ⟨h.fine, h.level, h.count, fun _ => ⟨hl, hnext⟩, h2, ?_, h.next, h.joins, h.rest, fun v z hz => ?_⟩
        · intro l hl1 hl2
          simp only [if_true] at hl1
          rw [show ({ s with reps := s.reps.set (n - 1) (some d), data := s.data.set s.global [], stored := true } : State E).data[l]? = s.data[l]? from
            List.getElem?_set_ne (by omega)]
          exact h.data l (by rw [hst']; simp; omega) hl2
        · have hv := h.fits v z hz
          have hvN : v < s.next := by
            rw [hnext, ← h.count]
            exact (List.getElem?_eq_some_iff.mp hz).1
          exact ⟨hv.seen, hv.low, hv.high, hv.most, fun _ => hv.waited (Or.inl hvN), hv.busy, by simp⟩

theorem step_inv (hN : 0 < N) (hs : single op size build rs0 = some rs) (hlen : ∀ n ∈ build, n - 1 < rs0.length) (h : Inv op size build rs0 N s)
    {t : Option Nat} (he : s.step op size build t = some s') : Inv op size build rs0 N s' := by
  unfold State.step at he
  rw [h.fine] at he
  simp only [Bool.false_eq_true, if_false] at he
  cases t with
  | none => exact main_inv hN hs hlen h he
  | some w => exact work_inv hN hs h he

/-! ## Progress -/

/-- As long as the main thread has not joined the workers, some thread can go on. -/
theorem step_live (h : Inv op size build rs0 N s) (hj : s.joined = false) : ∃ t s', s.step op size build t = some s' := by
  suffices hsuf : (∃ s', s.main build = some s') ∨ ∃ w s', s.work op size build w = some s' by
    rcases hsuf with ⟨s', h1⟩ | ⟨w, s', h1⟩
    · exact ⟨none, s', by rw [State.step, h.fine]; exact h1⟩
    · exact ⟨some w, s', by rw [State.step, h.fine]; exact h1⟩
  unfold State.main
  cases hb : build[s.global]? with
  | none =>
    left
    have hg := List.getElem?_eq_none_iff.mp hb
    refine ⟨_, if_pos ?_⟩
    rw [hj]
    simp only [Bool.not_false, Bool.true_and, List.all_eq_true, decide_eq_true_eq]
    intro x hx
    obtain ⟨w, hw⟩ := List.mem_iff_getElem?.mp hx
    exact le_trans hg (h.fits w x hw).low
  | some n =>
    dsimp only
    by_cases hst : s.stored = true
    · exact Or.inl ⟨_, if_pos hst⟩
    · rw [if_neg hst]
      cases hw : s.workers[s.next]? with
      | none =>
        left
        dsimp only
        cases s.data[s.global]? with
        | none => exact ⟨_, rfl⟩
        | some d =>
          dsimp only
          split <;> exact ⟨_, rfl⟩
      | some x =>
        dsimp only
        by_cases hc : x.count ≤ s.global
        · right
          have hf := h.fits s.next x hw
          have hcg : x.count = s.global := le_antisymm hc hf.low
          refine ⟨s.next, ?_⟩
          unfold State.work
          rw [hw]
          obtain ⟨count, seen, phase⟩ := x
          dsimp only at hcg
          subst hcg
          cases phase with
          | idle =>
            dsimp only
            rw [hb]
            dsimp only
            by_cases hlt : seen < s.global
            · rw [if_pos hlt, if_neg (by omega)]
              exact ⟨_, rfl⟩
            · rw [if_neg hlt]
              split <;> exact ⟨_, rfl⟩
          | busy i =>
            dsimp only
            split
            · split
              · split
                · split <;> exact ⟨_, rfl⟩
                · exact ⟨_, rfl⟩
              · exact ⟨_, rfl⟩
            · exact ⟨_, rfl⟩
        · exact Or.inl ⟨_, if_neg hc⟩

/-- How far a worker is. -/
def Worker.done (size N : Nat) (x : Worker) : Nat := x.seen + x.count * (size + N + 2) + match x.phase with | .idle => 0 | .busy i => i + 1

/-- How far the threads are. -/
def State.done (size : Nat) (s : State E) : Nat :=
  (s.workers.map (Worker.done size s.workers.length)).sum + (s.global * (s.workers.length + 2) + s.next + (if s.stored then 1 else 0) + if s.joined then 1 else 0)

theorem sum_set {f : Worker → Nat} : ∀ {l : List Worker} {w : Nat} {x y : Worker}, l[w]? = some x → ((l.set w y).map f).sum + f x = (l.map f).sum + f y
  | [], w, x, y, h => by simp at h
  | a :: l, 0, x, y, h => by
    simp only [List.getElem?_cons_zero, Option.some.injEq] at h
    subst h
    simp only [List.set_cons_zero, List.map_cons, List.sum_cons]
    omega
  | a :: l, w + 1, x, y, h => by
    have := sum_set (f := f) (y := y) (show l[w]? = some x by simpa using h)
    simp only [List.set_cons_succ, List.map_cons, List.sum_cons]
    omega

theorem done_worker {w : Nat} {x y : Worker} (hx : s.workers[w]? = some x) (hlt : x.done size s.workers.length < y.done size s.workers.length) (d : List (List E)) :
    s.done size < ({ s with data := d, workers := s.workers.set w y } : State E).done size := by
  have h := sum_set (f := Worker.done size s.workers.length) (y := y) hx
  simp only [State.done, List.length_set]
  omega

theorem step_done (hs : single op size build rs0 = some rs) (hN : 0 < N) (hlen : ∀ n ∈ build, n - 1 < rs0.length) (h : Inv op size build rs0 N s) {t : Option Nat}
    (he : s.step op size build t = some s') : s.done size < s'.done size := by
  have hi := step_inv hN hs hlen h he
  unfold State.step at he
  rw [h.fine] at he
  simp only [Bool.false_eq_true, if_false] at he
  cases t with
  | none =>
    dsimp only at he
    unfold State.main at he
    split at he
    · split at he
      · rename_i hst
        cases he
        have := (h.storing hst).2
        have := h.count
        simp only [State.done, hst, if_true, Bool.false_eq_true, if_false]
        rw [Nat.add_mul]
        omega
      · rename_i hst
        split at he
        · split at he
          · cases he
          · cases he
            simp only [State.done]
            omega
        · split at he
          · split at he
            · cases he
              simp only [State.done, hst, if_true, if_false]
              simp
            · cases he
              exact absurd hi.fine (by simp)
          · cases he
            exact absurd hi.fine (by simp)
    · split at he
      · rename_i hc
        cases he
        have : s.joined = false := by
          by_contra hj
          simp [hj] at hc
        simp only [State.done, this, if_true]
        simp
      · cases he
  | some w =>
    dsimp only at he
    unfold State.work at he
    split at he
    · cases he
    · rename_i count seen hx
      split at he
      · cases he
      · split at he
        · rename_i hlt
          split at he
          · cases he
          · rename_i hg
            cases he
            refine done_worker hx ?_ s.data
            have := (h.fits w _ hx).seen
            simp only [Worker.done]
            dsimp only at this
            omega
        · split at he
          · cases he
            refine done_worker hx ?_ s.data
            simp only [Worker.done]
            omega
          · cases he
            exact absurd hi.fine (by simp)
    · rename_i count seen i hx
      split at he
      · split at he
        · split at he
          · split at he
            · cases he
              refine done_worker hx ?_ _
              simp only [Worker.done]
              rw [h.count]
              omega
            · cases he
              exact absurd hi.fine (by simp)
          · cases he
            exact absurd hi.fine (by simp)
        · cases he
          exact absurd hi.fine (by simp)
      · cases he
        refine done_worker hx ?_ s.data
        have := ((h.fits w _ hx).busy i rfl).2.2.2
        simp only [Worker.done, Nat.add_mul]
        omega

/-- The threads take at most this many steps. -/
def bound (size levels N : Nat) : Nat := N * (levels + levels * (size + N + 2)) + levels * (N + 2) + 1

theorem sum_le {f : Worker → Nat} {b : Nat} : ∀ {l : List Worker}, (∀ x ∈ l, f x ≤ b) → (l.map f).sum ≤ l.length * b
  | [], _ => by simp
  | a :: l, h => by
    have h1 := sum_le fun x hx => h x (List.mem_cons_of_mem a hx)
    have h2 := h a (by simp)
    simp only [List.map_cons, List.sum_cons, List.length_cons, Nat.add_mul]
    omega

theorem done_bound (h : Inv op size build rs0 N s) : s.done size ≤ bound size build.length N := by
  have hw : ∀ x ∈ s.workers, x.done size s.workers.length ≤ build.length + build.length * (size + N + 2) := by
    intro x hx
    obtain ⟨w, hw⟩ := List.mem_iff_getElem?.mp hx
    have hf := h.fits w x hw
    have h1 := hf.seen
    have h2 := h.level
    have h3 := hf.most
    rw [h.count]
    cases hp : x.phase with
    | idle =>
      simp only [Worker.done, hp]
      have := Nat.mul_le_mul_right (size + N + 2) h3
      omega
    | busy i =>
      obtain ⟨h4, h5, -, h6⟩ := hf.busy i hp
      rw [h.count] at h6
      have := Nat.mul_le_mul_right (size + N + 2) (show x.count + 1 ≤ build.length by omega)
      simp only [Worker.done, hp]
      rw [Nat.add_mul] at this
      omega
  have hsum := sum_le hw
  have hmain : s.global * (N + 2) + s.next + (if s.stored then 1 else 0) + (if s.joined then 1 else 0) ≤ build.length * (N + 2) + 1 := by
    by_cases hl : s.global < build.length
    · have hj : s.joined = false := by
        by_contra hj
        have := h.joins (by simpa using hj)
        omega
      have := Nat.mul_le_mul_right (N + 2) (show s.global + 1 ≤ build.length from hl)
      have hn := h.next
      rw [Nat.add_mul] at this
      rw [hj]
      simp only [Bool.false_eq_true, if_false]
      split <;> omega
    · have hg : s.global = build.length := le_antisymm h.level (by omega)
      have hst : s.stored = false := by
        by_contra hc
        exact hl (h.storing (by simpa using hc)).1
      rw [h.rest hg, hg, hst]
      simp only [Bool.false_eq_true, if_false]
      split <;> omega
  unfold State.done bound
  rw [h.count] at hsum ⊢
  omega

end

end Moment.SymRep.Threads
