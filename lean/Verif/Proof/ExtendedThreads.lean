import Verif.Proof.ExtendedWorkers
import Mathlib.Data.List.Perm.Subperm
import Mathlib.Data.List.Nodup

/-! Extensions with threads: what the workers do, and what comes of it. -/

set_option linter.unusedSectionVars false

namespace Moment.Inflation.Extend

variable {W : Type} [DecidableEq W] {sc : Scenario W} {D : W → Prop} {zero one : W} {E : Type} {mono : Nat → E}

/-! ## Columns of a worker -/

theorem strided_mem {n bound : Nat} : ∀ (fuel first i : Nat), i ∈ strided n bound fuel first → i < bound ∧ ∃ k, i = first + k * n
  | 0, _, _, h => by cases h
  | fuel + 1, first, i, h => by
    rw [strided] at h
    split at h
    · rename_i hb
      rcases List.mem_cons.mp h with rfl | h
      · exact ⟨hb, 0, by simp⟩
      · obtain ⟨h1, k, h2⟩ := strided_mem fuel (first + n) i h
        exact ⟨h1, k + 1, by rw [h2, Nat.add_mul]; omega⟩
    · cases h

theorem mem_strided {n bound : Nat} (hn : 0 < n) : ∀ (k fuel first : Nat), bound ≤ first + fuel → first + k * n < bound → first + k * n ∈ strided n bound fuel first
  | k, 0, first, h, hb => by omega
  | 0, fuel + 1, first, h, hb => by
    rw [strided, if_pos (by omega)]
    simp
  | k + 1, fuel + 1, first, h, hb => by
    have e : first + (k + 1) * n = (first + n) + k * n := by rw [Nat.add_mul]; omega
    rw [strided, if_pos (by rw [e] at hb; omega), e]
    exact List.mem_cons_of_mem _ (mem_strided hn k fuel (first + n) (by omega) (by omega))

theorem strided_sorted {n bound : Nat} (hn : 0 < n) : ∀ (fuel first : Nat), (strided n bound fuel first).Pairwise (· < ·)
  | 0, _ => List.Pairwise.nil
  | fuel + 1, first => by
    rw [strided]
    split
    · refine List.Pairwise.cons ?_ (strided_sorted hn fuel (first + n))
      intro i hi
      obtain ⟨-, k, hk⟩ := strided_mem fuel (first + n) i hi
      omega
    · exact List.Pairwise.nil

/-! ## Tasks -/

/-- The symbol of a column of the extended matrix. -/
def sideOf (sc : Scenario W) (t : Table W) (gens : List W) (dim : Nat) (scalars : List Int) (i : Nat) : Option Nat :=
  if i < dim then wordAt sc t gens i else scalarAt scalars (i - dim)

theorem side_word {t : Table W} {gens : List W} {gs : List (List Nat)} {dim : Nat} {scalars : List Int} (hd : gens.length = dim)
    (hg : List.Forall₂ (Sourced sc t) gens gs) {i : Nat} (hi : i < dim) :
    ∃ e, t.entryAt (sideOf sc t gens dim scalars i) = some e ∧ gs[i]? = some e.symbols := by
  subst hd
  have hi' : i < gs.length := by rw [← hg.length_eq]; exact hi
  obtain ⟨k, h1, e, h2, h3⟩ := (List.forall₂_iff_get.mp hg).2 i hi hi'
  simp only [List.get_eq_getElem] at h1 h3
  refine ⟨e, ?_, ?_⟩
  · rw [sideOf, if_pos hi, wordAt, List.getElem?_eq_getElem hi, Option.bind_some, h1]
    exact h2
  · rw [List.getElem?_eq_getElem hi', h3]

theorem side_scalar {t : Table W} {gens : List W} {ls : List (List Nat)} {dim : Nat} {scalars : List Int}
    (hin : ∀ s ∈ scalars, 0 ≤ s ∧ s < t.syms.length) (hl : List.Forall₂ (FactorsOf t) (scalars.map Int.toNat) ls) {j : Nat} (hj : j < scalars.length) :
    ∃ e, t.entryAt (sideOf sc t gens dim scalars (dim + j)) = some e ∧ ls[j]? = some e.symbols := by
  have hj1 : j < (scalars.map Int.toNat).length := by rw [List.length_map]; exact hj
  have hj' : j < ls.length := by rw [← hl.length_eq]; exact hj1
  obtain ⟨e, h2, h3⟩ := (List.forall₂_iff_get.mp hl).2 j hj1 hj'
  simp only [List.get_eq_getElem, List.getElem_map] at h2 h3
  refine ⟨e, ?_, ?_⟩
  · have := (hin _ (List.getElem_mem hj)).1
    rw [sideOf, if_neg (by omega), Nat.add_sub_cancel_left, scalarAt, List.getElem?_eq_getElem hj, Option.bind_some, if_neg (by omega)]
    exact h2
  · rw [List.getElem?_eq_getElem hj', h3]

section
variable {t : Table W} {gens : List W} {gs ls : List (List Nat)} {dim : Nat} {scalars : List Int}

theorem side_entry (hd : gens.length = dim) (hg : List.Forall₂ (Sourced sc t) gens gs) (hin : ∀ s ∈ scalars, 0 ≤ s ∧ s < t.syms.length)
    (hl : List.Forall₂ (FactorsOf t) (scalars.map Int.toNat) ls) {i : Nat} (hi : i < dim + scalars.length) :
    ∃ e, t.entryAt (sideOf sc t gens dim scalars i) = some e := by
  by_cases h : i < dim
  · obtain ⟨e, he, -⟩ := side_word (scalars := scalars) hd hg h
    exact ⟨e, he⟩
  · obtain ⟨e, he, -⟩ := side_scalar (sc := sc) (gens := gens) (dim := dim) hin hl (j := i - dim) (by omega)
    rw [show dim + (i - dim) = i by omega] at he
    exact ⟨e, he⟩

/-- What is in the list of tasks of a worker. -/
theorem task_cases {n w : Nat} {τ : Task} (h : τ ∈ workerTasks sc t gens dim scalars n w) :
    (∃ c, c < dim ∧ (∃ k, c = w + k * n) ∧ ((∃ r, r < dim ∧ τ = .copy c r) ∨ τ = .read (sideOf sc t gens dim scalars c) ∨
      ∃ r, dim ≤ r ∧ r < dim + scalars.length ∧ τ = .join (sideOf sc t gens dim scalars c) (sideOf sc t gens dim scalars r) c r)) ∨
    (∃ c, dim ≤ c ∧ c < dim + scalars.length ∧ (∃ k, c = dim + w + k * n) ∧
      ∃ r, c ≤ r ∧ r < dim + scalars.length ∧ τ = .join (sideOf sc t gens dim scalars c) (sideOf sc t gens dim scalars r) c r) := by
  rw [workerTasks, List.mem_append, List.mem_flatMap, List.mem_flatMap] at h
  rcases h with ⟨c, hc, hτ⟩ | ⟨c, hc, hτ⟩
  · obtain ⟨h1, h2⟩ := strided_mem _ _ _ hc
    refine Or.inl ⟨c, h1, h2, ?_⟩
    have hs : wordAt sc t gens c = sideOf sc t gens dim scalars c := by rw [sideOf, if_pos h1]
    rw [sideTasks, List.mem_append, List.mem_cons, List.mem_map, List.mem_map, hs] at hτ
    rcases hτ with ⟨r, hr, rfl⟩ | rfl | ⟨j, hj, rfl⟩
    · exact Or.inl ⟨r, List.mem_range.mp hr, rfl⟩
    · exact Or.inr (Or.inl rfl)
    · refine Or.inr (Or.inr ⟨dim + j, by omega, by have := List.mem_range.mp hj; omega, ?_⟩)
      rw [show sideOf sc t gens dim scalars (dim + j) = scalarAt scalars j by rw [sideOf, if_neg (by omega), Nat.add_sub_cancel_left]]
  · obtain ⟨h1, k, h2⟩ := strided_mem _ _ _ hc
    refine Or.inr ⟨c, by omega, h1, ⟨k, h2⟩, ?_⟩
    rw [blockTasks, List.mem_map] at hτ
    obtain ⟨r, hr, rfl⟩ := hτ
    rw [List.mem_range'_1] at hr
    refine ⟨r, hr.1, by omega, ?_⟩
    rw [sideOf, if_neg (by omega), sideOf, if_neg (by omega)]

theorem tasks_fine (hd : gens.length = dim) (hg : List.Forall₂ (Sourced sc t) gens gs) (hin : ∀ s ∈ scalars, 0 ≤ s ∧ s < t.syms.length)
    (hl : List.Forall₂ (FactorsOf t) (scalars.map Int.toNat) ls) (n w : Nat) :
    ∀ τ ∈ workerTasks sc t gens dim scalars n w, Fine t (sideOf sc t gens dim scalars) dim (dim + scalars.length) τ := by
  intro τ hτ
  have hside := fun {i : Nat} (hi : i < dim + scalars.length) => side_entry (i := i) hd hg hin hl hi
  rcases task_cases hτ with ⟨c, h1, -, ⟨r, h2, rfl⟩ | rfl | ⟨r, h2, h3, rfl⟩⟩ | ⟨c, h1, h2, -, r, h3, h4, rfl⟩
  · exact ⟨h1, h2⟩
  · exact hside (by omega)
  · obtain ⟨a, ha⟩ := hside (i := c) (by omega)
    obtain ⟨b, hb⟩ := hside (i := r) h3
    exact ⟨by omega, h2, h3, rfl, rfl, _, a, b, ha, hb, rfl⟩
  · obtain ⟨a, ha⟩ := hside (i := c) (by omega)
    obtain ⟨b, hb⟩ := hside (i := r) h4
    exact ⟨h3, by omega, h4, rfl, rfl, _, a, b, ha, hb, rfl⟩

/-- All copies are in the lists. -/
theorem copy_covered {n : Nat} (hn : 0 < n) {c r : Nat} (hc : c < dim) (hr : r < dim) :
    ∃ w, w < n ∧ Task.copy c r ∈ workerTasks sc t gens dim scalars n w := by
  refine ⟨c % n, Nat.mod_lt _ hn, ?_⟩
  have hm := Nat.mod_add_div' c n
  rw [workerTasks, List.mem_append, List.mem_flatMap]
  refine Or.inl ⟨c, ?_, ?_⟩
  · have := mem_strided hn (bound := dim) (c / n) dim (c % n) (by omega) (by omega)
    rw [hm] at this
    exact this
  · rw [sideTasks, List.mem_append, List.mem_map]
    exact Or.inl ⟨r, List.mem_range.mpr hr, rfl⟩

/-- All products are in the lists. -/
theorem join_covered {n : Nat} (hn : 0 < n) {c r : Nat} (hc : c ≤ r) (hd : dim ≤ r) (hr : r < dim + scalars.length) :
    ∃ w, w < n ∧ Task.join (sideOf sc t gens dim scalars c) (sideOf sc t gens dim scalars r) c r ∈ workerTasks sc t gens dim scalars n w := by
  by_cases h : c < dim
  · refine ⟨c % n, Nat.mod_lt _ hn, ?_⟩
    have hm := Nat.mod_add_div' c n
    rw [workerTasks, List.mem_append, List.mem_flatMap]
    refine Or.inl ⟨c, ?_, ?_⟩
    · have := mem_strided hn (bound := dim) (c / n) dim (c % n) (by omega) (by omega)
      rw [hm] at this
      exact this
    · rw [sideTasks, List.mem_append, List.mem_cons, List.mem_map, List.mem_map]
      refine Or.inr (Or.inr ⟨r - dim, List.mem_range.mpr (by omega), ?_⟩)
      rw [sideOf, if_pos h, sideOf, if_neg (by omega), show dim + (r - dim) = r by omega]
  · refine ⟨(c - dim) % n, Nat.mod_lt _ hn, ?_⟩
    have hm := Nat.mod_add_div' (c - dim) n
    rw [workerTasks, List.mem_append, List.mem_flatMap, List.mem_flatMap]
    refine Or.inr ⟨c, ?_, ?_⟩
    · have := mem_strided hn (bound := dim + scalars.length) ((c - dim) / n) (dim + scalars.length) (dim + (c - dim) % n) (by omega) (by omega)
      rw [Nat.add_assoc, hm, show dim + (c - dim) = c by omega] at this
      exact this
    · rw [blockTasks, List.mem_map]
      refine ⟨r, List.mem_range'_1.mpr ⟨hc, by omega⟩, ?_⟩
      rw [sideOf, if_neg h, sideOf, if_neg (by omega)]

/-! ## Each entry is written by one task -/

/-- The column and row that a task is about. -/
def Task.spot : Task → Option (Nat × Nat)
  | .read _ => none
  | .copy c r => some (c, r)
  | .join _ _ c r => some (c, r)

/-- The task that an entry belongs to. -/
def ownerOf (dim : Nat) (p : Nat × Nat) : Nat × Nat := if p.1 < dim ∧ p.2 < dim then p else (min p.1 p.2, max p.1 p.2)

theorem fine_owner {side : Nat → Option Nat} {full : Nat} {τ : Task} (h : Fine t side dim full τ) : ∀ p ∈ τ.cells, τ.spot = some (ownerOf dim p) := by
  intro p hp
  cases τ with
  | read x => cases hp
  | copy c r =>
    simp only [Task.cells, List.mem_singleton] at hp
    subst hp
    obtain ⟨h1, h2⟩ := h
    rw [ownerOf, if_pos ⟨h1, h2⟩]
    rfl
  | join x y c r =>
    obtain ⟨h1, h2, -⟩ := h
    simp only [Task.cells, List.mem_cons, List.not_mem_nil, or_false] at hp
    rcases hp with rfl | rfl
    · rw [ownerOf, if_neg (by dsimp only; omega), Nat.min_eq_left h1, Nat.max_eq_right h1]
      rfl
    · rw [ownerOf, if_neg (by dsimp only; omega), Nat.min_eq_right h1, Nat.max_eq_left h1]
      rfl

theorem filterMap_map_some {α β : Type} (f : α → Task) (g : α → β) (h : Task → Option β) (hh : ∀ a, h (f a) = some (g a)) (l : List α) :
    (l.map f).filterMap h = l.map g := by
  rw [List.filterMap_map, ← List.filterMap_eq_map]
  exact List.filterMap_congr fun a _ => hh a

theorem side_spots (c : Nat) : (sideTasks sc t gens dim scalars c).filterMap Task.spot = (List.range (dim + scalars.length)).map fun r => (c, r) := by
  rw [sideTasks, List.filterMap_append, List.filterMap_cons_none rfl, filterMap_map_some (g := fun r => (c, r)) (hh := fun _ => rfl),
    filterMap_map_some (g := fun j => (c, dim + j)) (hh := fun _ => rfl), List.range_add, List.map_append, List.map_map]
  rfl

theorem block_spots (c : Nat) : (blockTasks dim scalars c).filterMap Task.spot = (List.range' c (dim + scalars.length - c)).map fun r => (c, r) := by
  rw [blockTasks, filterMap_map_some (g := fun r => (c, r)) (hh := fun _ => rfl)]

theorem spots_nodup {n : Nat} (hn : 0 < n) (w : Nat) : ((workerTasks sc t gens dim scalars n w).filterMap Task.spot).Nodup := by
  rw [workerTasks, List.filterMap_append, List.filterMap_flatMap, List.filterMap_flatMap]
  simp only [side_spots, block_spots]
  have key : ∀ (cols : List Nat) (f : Nat → List Nat), cols.Pairwise (· < ·) → (∀ c, (f c).Nodup) → (cols.flatMap fun c => (f c).map fun r => (c, r)).Nodup := by
    intro cols f hc hf
    rw [List.nodup_flatMap]
    refine ⟨fun c _ => (hf c).map fun _ _ h => (Prod.mk.inj h).2, hc.imp ?_⟩
    intro a b hab p h1 h2
    obtain ⟨r, -, rfl⟩ := List.mem_map.mp h1
    obtain ⟨r', -, he⟩ := List.mem_map.mp h2
    have := (Prod.mk.inj he).1
    omega
  rw [List.nodup_append]
  refine ⟨key _ (fun _ => List.range (dim + scalars.length)) (strided_sorted hn _ _) fun _ => List.nodup_range,
    key _ (fun c => List.range' c (dim + scalars.length - c)) (strided_sorted hn _ _) fun _ => List.nodup_range', ?_⟩
  intro p hp q hq
  obtain ⟨c, hc, hp⟩ := List.mem_flatMap.mp hp
  obtain ⟨c', hc', hq⟩ := List.mem_flatMap.mp hq
  obtain ⟨r, -, rfl⟩ := List.mem_map.mp hp
  obtain ⟨r', -, rfl⟩ := List.mem_map.mp hq
  intro he
  have h1 := (strided_mem _ _ _ hc).1
  obtain ⟨-, k, h2⟩ := strided_mem _ _ _ hc'
  have := (Prod.mk.inj he).1
  omega

/-- A task determines its worker. -/
theorem spot_worker {n w w' : Nat} (hw : w < n) (hw' : w' < n) {τ τ' : Task} (h : τ ∈ workerTasks sc t gens dim scalars n w)
    (h' : τ' ∈ workerTasks sc t gens dim scalars n w') {p : Nat × Nat} (hp : τ.spot = some p) (hp' : τ'.spot = some p) : w = w' := by
  have get : ∀ {w : Nat} {τ : Task}, τ ∈ workerTasks sc t gens dim scalars n w → τ.spot = some p →
      (p.1 < dim ∧ ∃ k, p.1 = w + k * n) ∨ (dim ≤ p.1 ∧ ∃ k, p.1 = dim + w + k * n) := by
    intro w τ h hp
    rcases task_cases h with ⟨c, h1, hk, ⟨r, h2, rfl⟩ | rfl | ⟨r, h2, h3, rfl⟩⟩ | ⟨c, h1, h2, hk, r, h3, h4, rfl⟩
    · cases hp; exact Or.inl ⟨h1, hk⟩
    · cases hp
    · cases hp; exact Or.inl ⟨h1, hk⟩
    · cases hp; exact Or.inr ⟨h1, hk⟩
  have res : ∀ k w, w < n → (w + k * n) % n = w := fun k w hw => by rw [Nat.add_mul_mod_self_right, Nat.mod_eq_of_lt hw]
  rcases get h hp with ⟨a, k, e⟩ | ⟨a, k, e⟩ <;> rcases get h' hp' with ⟨a', k', e'⟩ | ⟨a', k', e'⟩
  · rw [← res k w hw, ← res k' w' hw', ← e, ← e']
  · omega
  · omega
  · rw [← res k w hw, ← res k' w' hw']
    congr 1
    omega

/-! ## The end -/

theorem start_live (hgood : Good sc D zero one t) (src : Mat E) (hd : gens.length = src.dim) (n : Nat) :
    Live sc D zero one mono t src (sideOf sc t gens src.dim scalars) (src.dim + scalars.length) (workerTasks sc t gens src.dim scalars n)
      (Pool.start sc mono t gens src.dim scalars n) t := by
  refine ⟨rfl, Bank.start hgood _, fun w v hv => ?_⟩
  rw [Pool.start] at hv
  dsimp only at hv
  rw [List.getElem?_map] at hv
  cases hr : (List.range n)[w]? with
  | none => rw [hr] at hv; cases hv
  | some w' =>
    rw [hr] at hv
    cases hv
    obtain ⟨h1, h2⟩ := List.getElem?_eq_some_iff.mp hr
    rw [List.getElem_range] at h2
    subst h2
    exact ⟨[], rfl, by simp, phase_ready _⟩

theorem step_workers {src : Mat E} {full : Nat} {s s' : Pool W E} {w : Nat} (h : s.step mono t src full w = some s') : s'.workers.length = s.workers.length := by
  rw [Pool.step] at h
  split at h
  · cases h
  · split at h
    · cases h
    · cases h
    · split at h <;> cases h <;> simp [Pool.goto]
    · cases h; simp [Pool.goto, Pool.write]
    · split at h
      · dsimp only at h
        split at h <;> cases h <;> simp [Pool.goto, Pool.put, Pool.write]
      · cases h; rfl
    · dsimp only at h
      split at h
      · split at h <;> cases h <;> simp [Pool.goto, Pool.put, Pool.write]
      · split at h <;> cases h <;> simp [Pool.goto]
    · split at h
      · cases h; rfl
      · split at h <;> cases h <;> simp [Pool.goto, Pool.put, Pool.write]

theorem run_workers {src : Mat E} {full : Nat} : ∀ (order : List Nat) (s : Pool W E), (s.run mono t src full order).workers.length = s.workers.length
  | [], _ => rfl
  | w :: order, s => by
    rw [Pool.run, run_workers order]
    cases h : s.step mono t src full w with
    | none => rfl
    | some s' => exact step_workers h

/-- When all workers are done every entry is as it should be. -/
theorem Live.all {src : Mat E} {s : Pool W E} {u : Table W} {n : Nat} (hn : 0 < n) (hlen : s.workers.length = n)
    (h : Live sc D zero one mono t src (sideOf sc t gens src.dim scalars) (src.dim + scalars.length) (workerTasks sc t gens src.dim scalars n) s u)
    (hfin : s.finished = true) {a b : Nat} (ha : a < src.dim + scalars.length) (hb : b < src.dim + scalars.length) :
    Intended mono t src (sideOf sc t gens src.dim scalars) u a b (s.out (a * (src.dim + scalars.length) + b)) := by
  rw [Pool.finished, Bool.and_eq_true, List.all_eq_true] at hfin
  have done : ∀ w, w < n → ∀ τ ∈ workerTasks sc t gens src.dim scalars n w, ∀ c ∈ τ.cells,
      Intended mono t src (sideOf sc t gens src.dim scalars) u c.1 c.2 (s.out (c.1 * (src.dim + scalars.length) + c.2)) := by
    intro w hw τ hτ
    obtain ⟨d, h1, h2, -⟩ := h.work w _ (List.getElem?_eq_getElem (by omega))
    have := hfin.2 _ (List.getElem_mem (l := s.workers) (n := w) (by omega))
    rw [List.isEmpty_iff] at this
    rw [this, List.append_nil] at h1
    rw [h1] at hτ
    exact h2 τ hτ
  by_cases hc : a < src.dim ∧ b < src.dim
  · obtain ⟨w, hw, hτ⟩ := copy_covered (sc := sc) (t := t) (gens := gens) (scalars := scalars) hn hc.1 hc.2
    exact done w hw _ hτ (a, b) (by simp [Task.cells])
  · obtain ⟨w, hw, hτ⟩ := join_covered (sc := sc) (t := t) (gens := gens) (scalars := scalars) hn (c := min a b) (r := max a b) (dim := src.dim) (by omega)
      (by omega) (by omega)
    refine done w hw _ hτ (a, b) ?_
    simp only [Task.cells, List.mem_cons, List.not_mem_nil, or_false]
    rcases Nat.le_total a b with hab | hab
    · left; rw [Nat.min_eq_left hab, Nat.max_eq_right hab]
    · right; rw [Nat.min_eq_right hab, Nat.max_eq_left hab]

/-- The tables after the workers: the same as those that the temporary tables stood for. -/
theorem register_same {all : Task → Prop} {s : Pool W E} {u : Table W} (hgood : Good sc D zero one t) (h : Bank sc D zero one t all s.tree s.news u) :
    Good sc D zero one (s.register sc t) ∧ Ext t (s.register sc t) ∧ (∀ l, (s.register sc t).find l = u.find l) ∧
      (s.register sc t).entries.length = t.entries.length + s.news.length := by
  rw [Pool.register]
  split
  · rename_i hz
    have hu : u = t := h.ext.fixed (by rw [h.entries, List.length_append, newEntries_length, hz, Nat.add_zero])
    subst hu
    exact ⟨hgood, Ext.refl _, fun _ => rfl, by omega⟩
  · rename_i hz
    dsimp only
    obtain ⟨h1, h2, h3, h4⟩ := addAll_fields (sc := sc) s.news { t with syms := t.syms ++ List.replicate s.news.length none }
    dsimp only at h1 h2 h3 h4
    have hf : ∀ p, Index.find (Index.merge t.tree s.tree) p = Index.find u.tree p := fun p => by rw [C36.merge_spec _ _ _ hgood.ordered h.ordered, h.find]
    rw [h3]
    refine ⟨h.good.same (h1.trans h.syms.symm) (h2.trans h.entries.symm) (C36.merge_ordered _ _ hgood.ordered h.ordered) hf, ?_, fun l => hf _, ?_⟩
    · refine ⟨⟨?_, ?_⟩, ?_, ?_, ?_, ?_, ?_⟩
      · rw [h1]; exact List.prefix_append _ _
      · rw [h2]; exact List.prefix_append _ _
      · intro i hi hi'
        rw [h1, ← h.syms] at hi' ⊢
        exact h.ext.fresh i hi hi'
      · intro l k hk
        rw [Table.find, hf]
        exact h.ext.finds l k hk
      · intro hle
        rw [h2, List.length_append, newEntries_length] at hle
        obtain ⟨h5, h6⟩ := h4 hle
        exact ⟨h6, h5⟩
      · intro hi
        have := h.ext.inj hi
        intro i j l hil hjl
        refine this i j l ?_ ?_
        · obtain ⟨e, he, hl⟩ := hil
          rw [h2, ← h.entries] at he
          exact ⟨e, he, hl⟩
        · obtain ⟨e, he, hl⟩ := hjl
          rw [h2, ← h.entries] at he
          exact ⟨e, he, hl⟩
      · intro hle
        rw [h2, List.length_append, newEntries_length] at hle
        omega
    · rw [h2, List.length_append, newEntries_length]

/-- All pairs of a column and a scalar. -/
def pairs (dim p : Nat) : List (Nat × Nat) :=
  ((List.range dim).flatMap fun c => (List.range p).map fun j => (c, dim + j)) ++ (List.range p).flatMap fun j => (List.range (j + 1)).map fun i => (dim + i, dim + j)

theorem pairs_length (dim p : Nat) : (pairs dim p).length = atMost dim p := by
  have h2 : ∀ p, ((List.range p).flatMap fun j => (List.range (j + 1)).map fun i => (dim + i, dim + j)).length = triangle p := by
    intro p
    induction p with
    | zero => rfl
    | succ p ih =>
      rw [List.range_succ, List.flatMap_append, List.length_append, ih, triangle]
      simp
      omega
  rw [pairs, List.length_append, h2, atMost]
  simp

theorem mem_pairs {p c r : Nat} (h1 : c ≤ r) (h2 : dim ≤ r) (h3 : r < dim + p) : (c, r) ∈ pairs dim p := by
  rw [pairs, List.mem_append, List.mem_flatMap, List.mem_flatMap]
  by_cases h : c < dim
  · exact Or.inl ⟨c, List.mem_range.mpr h, List.mem_map.mpr ⟨r - dim, List.mem_range.mpr (by omega), by rw [show dim + (r - dim) = r by omega]⟩⟩
  · exact Or.inr ⟨r - dim, List.mem_range.mpr (by omega), List.mem_map.mpr ⟨c - dim, List.mem_range.mpr (by omega), by
      rw [show dim + (r - dim) = r by omega, show dim + (c - dim) = c by omega]⟩⟩

/-- The combined factors of two columns. -/
def productAt (t : Table W) (side : Nat → Option Nat) (p : Nat × Nat) : List Nat :=
  match t.entryAt (side p.1), t.entryAt (side p.2) with
  | some a, some b => combineFactors a.symbols b.symbols
  | _, _ => []

theorem Product.at_ {side : Nat → Option Nat} {c r : Nat} {l : List Nat} (h : Product t (side c) (side r) l) : productAt t side (c, r) = l := by
  obtain ⟨a, b, h1, h2, h3⟩ := h
  rw [productAt]
  dsimp only
  rw [h1, h2]
  exact h3

theorem news_count {side : Nat → Option Nat} {p : Nat} {todo : Nat → List Task} {tree : Index.Node Nat} {news : List (List Nat × List W)} {u : Table W}
    (hf : ∀ w, ∀ τ ∈ todo w, Fine t side dim (dim + p) τ) (h : Bank sc D zero one t (fun τ => ∃ w, τ ∈ todo w) tree news u) :
    news.length ≤ atMost dim p := by
  rw [← pairs_length, ← List.length_map (f := Prod.fst), ← List.length_map (as := pairs dim p) (f := productAt t side)]
  refine (List.subperm_of_subset h.nodup ?_).length_le
  intro l hl
  obtain ⟨e, he, rfl⟩ := List.mem_map.mp hl
  obtain ⟨x, y, c, r, ⟨w, hw⟩, hp⟩ := h.wanted e he
  obtain ⟨h1, h2, h3, rfl, rfl, -⟩ := hf w _ hw
  exact List.mem_map.mpr ⟨(c, r), mem_pairs h1 h2 h3, hp.at_⟩

/-- The result of all workers. -/
theorem threads_result {src : Mat E} {s : Pool W E} {u : Table W} {n : Nat} (hn : 0 < n) (hlen : s.workers.length = n) (hd : gens.length = src.dim)
    (hg : List.Forall₂ (Sourced sc t) gens gs) (hin : ∀ s ∈ scalars, 0 ≤ s ∧ s < t.syms.length)
    (hl : List.Forall₂ (FactorsOf t) (scalars.map Int.toNat) ls)
    (h : Live sc D zero one mono t src (sideOf sc t gens src.dim scalars) (src.dim + scalars.length) (workerTasks sc t gens src.dim scalars n) s u)
    (hfin : s.finished = true) {t' : Table W} (hfind : ∀ l, t'.find l = u.find l) :
    Result mono t' src (s.matrix (src.dim + scalars.length)) gs ls := by
  have hgl := hg.length_eq
  have hll := hl.length_eq
  rw [List.length_map] at hll
  have cell : ∀ {a b : Nat} {x y : Entry W}, a ≤ b → src.dim ≤ b → b < src.dim + scalars.length →
      t.entryAt (sideOf sc t gens src.dim scalars a) = some x → t.entryAt (sideOf sc t gens src.dim scalars b) = some y →
      Holds mono t' (s.matrix (src.dim + scalars.length)) a b x.symbols y.symbols := by
    intro a b x y h1 h2 h3 hx hy
    have i1 := h.all hn hlen hfin (a := a) (b := b) (by omega) h3
    have i2 := h.all hn hlen hfin (a := b) (b := a) h3 (by omega)
    rw [Intended, if_neg (by omega)] at i1 i2
    rw [Nat.min_eq_left h1, Nat.max_eq_right h1] at i1
    rw [Nat.min_eq_right h1, Nat.max_eq_left h1] at i2
    obtain ⟨l, k, p1, k1, e1⟩ := i1
    obtain ⟨l', k', p2, k2, e2⟩ := i2
    have p0 : Product t (sideOf sc t gens src.dim scalars a) (sideOf sc t gens src.dim scalars b) (combineFactors x.symbols y.symbols) := ⟨x, y, hx, hy, rfl⟩
    rw [p1.unique p0] at k1
    rw [p2.unique p0, k1] at k2
    cases k2
    exact ⟨k, (hfind _).trans k1, e2, e1⟩
  refine ⟨by rw [← hll]; rfl, ?_, ?_, ?_⟩
  · intro i j hi hj
    have := h.all hn hlen hfin (a := j) (b := i) (by omega) (by omega)
    rw [Intended, if_pos ⟨hj, hi⟩] at this
    exact this
  · intro j g hj i l hi
    have hj' := (List.getElem?_eq_some_iff.mp hj).1
    have hi' := (List.getElem?_eq_some_iff.mp hi).1
    obtain ⟨x, hx, hxs⟩ := side_word (scalars := scalars) hd hg (i := j) (by omega)
    obtain ⟨y, hy, hys⟩ := side_scalar (sc := sc) (gens := gens) (dim := src.dim) hin hl (j := i) (by omega)
    rw [hj] at hxs
    rw [hi] at hys
    cases hxs
    cases hys
    exact cell (by omega) (by omega) (by omega) hx hy
  · intro i j a b hij hi hj
    have hi' := (List.getElem?_eq_some_iff.mp hi).1
    have hj' := (List.getElem?_eq_some_iff.mp hj).1
    obtain ⟨x, hx, hxs⟩ := side_scalar (sc := sc) (gens := gens) (dim := src.dim) hin hl (j := i) (by omega)
    obtain ⟨y, hy, hys⟩ := side_scalar (sc := sc) (gens := gens) (dim := src.dim) hin hl (j := j) (by omega)
    rw [hi] at hxs
    rw [hj] at hys
    cases hxs
    cases hys
    exact cell (by omega) (by omega) (by omega) hx hy

end

/-! ## Every execution ends -/

/-- How far a worker is. -/
def Phase.left : Phase W → Nat
  | .ready => 2
  | .missed _ => 1
  | .hinted _ _ _ => 0

/-- A bound on the steps that a worker still takes. -/
def Worker.left (v : Worker W) : Nat :=
  match v.tasks with
  | [] => 0
  | _ :: rest => v.phase.left + 1 + 3 * rest.length

theorem worker_next (rest : List Task) (τ : Task) (ph : Phase W) : (⟨rest, .ready⟩ : Worker W).left < (⟨τ :: rest, ph⟩ : Worker W).left := by
  cases rest with
  | nil => simp [Worker.left]
  | cons σ rest => simp [Worker.left, Phase.left]; omega

/-- A bound on the steps that all workers still take. -/
def Pool.left (s : Pool W E) : Nat := (s.workers.map Worker.left).sum

theorem sum_set {v v' : Worker W} : ∀ {l : List (Worker W)} {w : Nat}, l[w]? = some v → v'.left < v.left → ((l.set w v').map Worker.left).sum < (l.map Worker.left).sum
  | [], _, h, _ => by simp at h
  | x :: l, 0, h, hlt => by
    simp at h
    subst h
    simp only [List.set_cons_zero, List.map_cons, List.sum_cons]
    omega
  | x :: l, w + 1, h, hlt => by
    simp only [List.getElem?_cons_succ] at h
    have := sum_set h hlt
    simp only [List.set_cons_succ, List.map_cons, List.sum_cons]
    omega

theorem step_left {t : Table W} {src : Mat E} {full : Nat} {s s' : Pool W E} {w : Nat} (h : s.step mono t src full w = some s') :
    s.crash = none ∧ (s'.crash.isSome = true ∨ s'.left < s.left) := by
  rw [Pool.step] at h
  split at h
  · cases h
  · rename_i hc
    refine ⟨by simpa using hc, ?_⟩
    split at h
    · cases h
    · cases h
    · rename_i hw
      split at h <;> cases h
      · exact Or.inl rfl
      · exact Or.inr (sum_set hw (worker_next _ _ _))
    · rename_i hw
      cases h
      exact Or.inr (sum_set hw (worker_next _ _ _))
    · rename_i hw
      split at h
      · dsimp only at h
        split at h <;> cases h
        · exact Or.inr (sum_set hw (worker_next _ _ _))
        · exact Or.inr (sum_set hw (by simp [Worker.left, Phase.left]))
      · cases h
        exact Or.inl rfl
    · rename_i hw
      dsimp only at h
      split at h
      · split at h <;> cases h
        · exact Or.inr (sum_set hw (worker_next _ _ _))
        · exact Or.inl rfl
      · split at h <;> cases h
        · exact Or.inr (sum_set hw (by simp [Worker.left, Phase.left]))
        · exact Or.inl rfl
    · rename_i hw
      split at h
      · cases h
        exact Or.inl rfl
      · split at h <;> cases h
        · exact Or.inr (sum_set hw (worker_next _ _ _))
        · exact Or.inr (sum_set hw (worker_next _ _ _))

/-- A worker that is not done can take a step. -/
theorem step_some {t : Table W} {src : Mat E} {full : Nat} {s : Pool W E} {w : Nat} {v : Worker W} (hc : s.crash = none) (hw : s.workers[w]? = some v)
    (hv : v.tasks ≠ []) : ∃ s', s.step mono t src full w = some s' := by
  rw [Pool.step, if_neg (by rw [hc]; simp), hw]
  obtain ⟨tasks, ph⟩ := v
  cases tasks with
  | nil => exact absurd rfl hv
  | cons τ rest =>
    cases τ with
    | read x => dsimp only; split <;> exact ⟨_, rfl⟩
    | copy c r => exact ⟨_, rfl⟩
    | join x y c r =>
      cases ph with
      | ready => dsimp only; split <;> [split; skip] <;> exact ⟨_, rfl⟩
      | missed l => dsimp only; split <;> split <;> exact ⟨_, rfl⟩
      | hinted pre post ws => dsimp only; split <;> [skip; split] <;> exact ⟨_, rfl⟩

theorem stuck_iff {t : Table W} {src : Mat E} {full : Nat} {s : Pool W E} : (∀ w, s.step mono t src full w = none) ↔ s.crash.isSome = true ∨ s.finished = true := by
  constructor
  · intro h
    by_cases hc : s.crash.isSome = true
    · exact Or.inl hc
    · right
      have hc' : s.crash = none := by simpa using hc
      rw [Pool.finished, Bool.and_eq_true, List.all_eq_true]
      refine ⟨by rw [hc']; rfl, fun v hv => ?_⟩
      obtain ⟨w, hw⟩ := List.mem_iff_getElem?.mp hv
      by_contra hne
      obtain ⟨s', hs⟩ := step_some (mono := mono) (t := t) (src := src) (full := full) hc' hw (by simpa using hne)
      rw [h w] at hs
      cases hs
  · rintro (h | h) w
    · rw [Pool.step, if_pos h]
    · rw [Pool.finished, Bool.and_eq_true, List.all_eq_true] at h
      rw [Pool.step]
      split
      · rfl
      · cases hw : s.workers[w]? with
        | none => rfl
        | some v =>
          have := h.2 v (List.mem_of_getElem? hw)
          obtain ⟨tasks, ph⟩ := v
          cases tasks with
          | nil => rfl
          | cons τ rest => simp at this

end Moment.Inflation.Extend
