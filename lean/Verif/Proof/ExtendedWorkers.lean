import Verif.Proof.ExtendedValues
import Verif.Model.ExtendedWorkers

/-! Extensions with threads: the temporary tree, and an invariant of the workers. -/

set_option linter.unusedSectionVars false

namespace Moment.Inflation.Extend

/-! ## Nodes of the tree -/

theorem findNode_empty {V : Type} (q : List Int) : (Index.findNode ((none, .nil) : Index.Node V) q).isSome = true ↔ q = [] := by
  cases q with
  | nil => simp [Index.findNode]
  | cons x q => simp [Index.findNode, Index.Forest.child]

/-- Adding an entry makes the nodes of its path and keeps the others. -/
theorem findNode_add {V : Type} (e : V) : ∀ (p q : List Int) (t : Index.Node V), C36.Ordered t.2 →
    ((Index.findNode (Index.add e p t) q).isSome = true ↔ (Index.findNode t q).isSome = true ∨ q <+: p)
  | [], q, t, _ => by
    cases q with
    | nil => simp [Index.findNode]
    | cons y q => simp [Index.findNode, Index.add]
  | x :: p, q, t, ht => by
    cases q with
    | nil => simp [Index.findNode]
    | cons y q =>
      have hc : C36.Ordered ((t.2.child x).getD (none, .nil)).2 := by
        cases h : t.2.child x with
        | none => trivial
        | some n => exact C36.child_ordered ht h
      simp only [Index.findNode, Index.add]
      rw [C36.child_update ht]
      by_cases hxy : y = x
      · subst hxy
        rw [if_pos rfl]
        dsimp only
        rw [findNode_add e p q _ hc, List.cons_prefix_cons]
        cases t.2.child y with
        | none =>
          simp only [Option.getD_none, findNode_empty, Option.isSome_none, Bool.false_eq_true, false_or, true_and, or_iff_right_iff_imp]
          rintro rfl
          exact List.nil_prefix
        | some n => simp
      · rw [if_neg hxy, List.cons_prefix_cons]
        simp [hxy]

variable {W : Type} [DecidableEq W] {sc : Scenario W} {D : W → Prop} {zero one : W} {E : Type} {mono : Nat → E}

theorem path_append (l m : List Nat) : path (l ++ m) = path l ++ path m := List.map_append

/-- The hint is the longest part of the path that is there. -/
theorem hint_spec (t : Index.Node Nat) (l : List Nat) : let d := l.length - (Index.findOrHint t (path l)).2.length
    path (l.drop d) = (Index.findOrHint t (path l)).2 ∧ Index.findNode t (path (l.take d)) = some (Index.findOrHint t (path l)).1 ∧
    ((Index.findOrHint t (path l)).2 = [] → l.take d = l) := by
  intro d
  obtain ⟨pre, h1, h2, -⟩ := (C36.C36_nodes t (path l)).2
  have hl : pre.length + (Index.findOrHint t (path l)).2.length = l.length := by
    have := congrArg List.length h1
    simpa [path] using this
  have hd : d = pre.length := by omega
  have e1 : path (l.take d) = pre := by
    rw [path, List.map_take]
    change (path l).take d = pre
    rw [← h1, hd, List.take_left]
  have e2 : path (l.drop d) = (Index.findOrHint t (path l)).2 := by
    rw [path, List.map_drop]
    change (path l).drop d = _
    conv_lhs => rw [← h1]
    rw [hd, List.drop_left]
  refine ⟨e2, by rw [e1]; exact h2, fun h => ?_⟩
  rw [h] at hl
  exact List.take_of_length_le (by simp at hl; omega)

theorem wordsOf_prefix {syms syms' : List (Option W)} (h : syms <+: syms') : ∀ {l : List Nat} {ws : List W}, wordsOf syms l = .ok ws → wordsOf syms' l = .ok ws
  | [], ws, hw => hw
  | k :: l, ws, hw => by
    rw [wordsOf] at hw ⊢
    cases hk : syms[k]? with
    | none => rw [hk] at hw; cases hw
    | some x =>
      rw [hk] at hw
      rw [get_prefix h hk]
      cases x with
      | none => cases hw
      | some w =>
        dsimp only at hw ⊢
        cases hr : wordsOf syms l with
        | error e => rw [hr] at hw; cases hw
        | ok r =>
          rw [hr] at hw
          rw [wordsOf_prefix h hr]
          exact hw

/-- What holds of a table depends on its tree only through what is found. -/
theorem Good.same {t u : Table W} (h : Good sc D zero one t) (h1 : u.syms = t.syms) (h2 : u.entries = t.entries) (h3 : C36.Ordered u.tree.2)
    (h4 : ∀ p, Index.find u.tree p = Index.find t.tree p) : Good sc D zero one u := by
  obtain ⟨⟨⟨a1, a2, a3, a4, a5, a6, a7, a8, a9, a10, a11, a12, a13⟩, b⟩, c⟩ := h
  refine ⟨⟨⟨?_, ?_, ?_, ?_, ?_, ?_, ?_, ?_, ?_, ?_, h3, ?_, ?_⟩, ?_⟩, ?_⟩
  all_goals (try rw [h1]); (try rw [h2])
  all_goals (try assumption)
  · intro p k hk
    rw [h4] at hk
    exact a12 p k hk
  · intro i e he
    obtain ⟨k, hk⟩ := a13 i e he
    exact ⟨k, (h4 _).trans hk⟩

/-! ## New entries -/

/-- The entries of new lists of factors. -/
def newEntries : Nat → List (List Nat × List W) → List (Entry W)
  | _, [] => []
  | k, e :: l => ⟨k, [], e.2, e.1⟩ :: newEntries (k + 1) l

theorem newEntries_append : ∀ (k : Nat) (l m : List (List Nat × List W)), newEntries k (l ++ m) = newEntries k l ++ newEntries (k + l.length) m
  | k, [], m => by simp [newEntries]
  | k, e :: l, m => by
    rw [List.cons_append, newEntries, newEntries, newEntries_append (k + 1) l m, List.cons_append, List.length_cons]
    rw [show k + 1 + l.length = k + (l.length + 1) by omega]

theorem newEntries_length : ∀ (k : Nat) (l : List (List Nat × List W)), (newEntries k l).length = l.length
  | _, [] => rfl
  | k, _ :: l => by rw [newEntries, List.length_cons, List.length_cons, newEntries_length (k + 1) l]

theorem push_fields (t : Table W) (e : Entry W) : (t.push sc e).syms = t.syms ∧ (t.push sc e).entries = t.entries ++ [e] ∧ (t.push sc e).tree = t.tree ∧
    (t.entries.length < t.cap → (t.push sc e).cap = t.cap ∧ (t.push sc e).moves = t.moves) := by
  rw [Table.push]
  split
  · exact ⟨rfl, rfl, rfl, fun _ => ⟨rfl, rfl⟩⟩
  · exact ⟨rfl, rfl, rfl, fun h => absurd h (by assumption)⟩

theorem addAll_fields : ∀ (news : List (List Nat × List W)) (t : Table W), (t.addAll sc news).syms = t.syms ∧
    (t.addAll sc news).entries = t.entries ++ newEntries t.entries.length news ∧ (t.addAll sc news).tree = t.tree ∧
    (t.entries.length + news.length ≤ t.cap → (t.addAll sc news).cap = t.cap ∧ (t.addAll sc news).moves = t.moves)
  | [], t => ⟨rfl, by simp [Table.addAll, newEntries], rfl, fun _ => ⟨rfl, rfl⟩⟩
  | e :: news, t => by
    obtain ⟨p1, p2, p3, p4⟩ := push_fields (sc := sc) t ⟨t.entries.length, [], e.2, e.1⟩
    obtain ⟨h1, h2, h3, h4⟩ := addAll_fields news (t.push sc ⟨t.entries.length, [], e.2, e.1⟩)
    have he : t.addAll sc (e :: news) = (t.push sc ⟨t.entries.length, [], e.2, e.1⟩).addAll sc news := rfl
    rw [he]
    refine ⟨h1.trans p1, ?_, h3.trans p3, fun hc => ?_⟩
    · rw [h2, p2, newEntries]
      simp
    · simp only [List.length_cons] at hc
      obtain ⟨q1, q2⟩ := p4 (by omega)
      obtain ⟨r1, r2⟩ := h4 (by rw [p2, q1]; simp; omega)
      exact ⟨r1.trans q1, r2.trans q2⟩

/-! ## The temporary tables -/

/-- The combination of the factors of two symbols. -/
def Product (t : Table W) (x y : Option Nat) (l : List Nat) : Prop :=
  ∃ a b, t.entryAt x = some a ∧ t.entryAt y = some b ∧ combineFactors a.symbols b.symbols = l

theorem Product.unique {t : Table W} {x y : Option Nat} {l m : List Nat} (h : Product t x y l) (h' : Product t x y m) : l = m := by
  obtain ⟨a, b, h1, h2, rfl⟩ := h
  obtain ⟨a', b', h1', h2', rfl⟩ := h'
  rw [h1] at h1'
  rw [h2] at h2'
  cases h1'
  cases h2'
  rfl

theorem entryAt_factors {t : Table W} {x : Option Nat} {e : Entry W} (h : t.entryAt x = some e) : ∃ k, x = some k ∧ FactorsOf t k e.symbols := by
  cases x with
  | none => cases h
  | some k => exact ⟨k, rfl, e, h, rfl⟩

theorem Product.labels (law : Lawful sc D zero one) {t : Table W} (hg : Good sc D zero one t) {x y : Option Nat} {l : List Nat} (h : Product t x y l) :
    Labels sc t l := by
  obtain ⟨a, b, h1, h2, rfl⟩ := h
  obtain ⟨k, -, hk⟩ := entryAt_factors h1
  obtain ⟨k', -, hk'⟩ := entryAt_factors h2
  exact combine_labels law hg (factors_labels hg hk) (factors_labels hg hk')

/-- The temporary tree and the new lists stand for a table `u` that extends the table `t`; the lists are products that `all` tasks ask for. -/
structure Bank (sc : Scenario W) (D : W → Prop) (zero one : W) (t : Table W) (all : Task → Prop) (tree : Index.Node Nat) (news : List (List Nat × List W))
    (u : Table W) : Prop where
  good : Good sc D zero one u
  ext : Ext t u
  syms : u.syms = t.syms ++ List.replicate news.length none
  entries : u.entries = t.entries ++ newEntries t.entries.length news
  find : ∀ p, Index.find u.tree p = (Index.find tree p).or (Index.find t.tree p)
  apart : ∀ p k, Index.find tree p = some k → Index.find t.tree p = none
  ordered : C36.Ordered tree.2
  nodes : ∀ p, p ≠ [] → (Index.findNode tree p).isSome = true → ∃ e ∈ news, p <+: path e.1
  known : ∀ e ∈ news, ∃ k, Index.find tree (path e.1) = some k
  nodup : (news.map Prod.fst).Nodup
  wanted : ∀ e ∈ news, ∃ x y c r, all (.join x y c r) ∧ Product t x y e.1

theorem Bank.start {t : Table W} (h : Good sc D zero one t) (all : Task → Prop) : Bank sc D zero one t all (none, .nil) [] t := by
  refine ⟨h, Ext.refl t, by simp, by simp [newEntries], ?_, ?_, trivial, ?_, by simp, by simp, by simp⟩
  · intro p
    rw [C36.find_empty, Option.none_or]
  · intro p k hk
    rw [C36.find_empty] at hk
    cases hk
  · intro p hp hn
    exact absurd ((findNode_empty p).mp hn) hp

theorem Bank.add (law : Lawful sc D zero one) {t : Table W} {all : Task → Prop} {tree : Index.Node Nat} {news : List (List Nat × List W)} {u : Table W}
    (hg : Good sc D zero one t) (h : Bank sc D zero one t all tree news u) {l : List Nat} {ws : List W} {x y : Option Nat} {c r : Nat}
    (hall : all (.join x y c r)) (hp : Product t x y l) (hn : t.find l = none) (ht : Index.find tree (path l) = none) (hw : wordsOf t.syms l = .ok ws) :
    ∃ u', Bank sc D zero one t all (Index.add (t.syms.length + news.length) (path l) tree) (news ++ [(l, ws)]) u' ∧ Ext u u' ∧
      u'.find l = some (t.syms.length + news.length) := by
  have hl : Labels sc u l := (hp.labels law hg).grow h.ext.grown
  have hun : u.find l = none := by
    rw [Table.find, h.find, ht, Option.none_or]
    exact hn
  have hlen : u.syms.length = t.syms.length + news.length := by rw [h.syms]; simp
  have hel : u.entries.length = t.entries.length + news.length := by rw [h.entries, List.length_append, newEntries_length]
  obtain ⟨u', h1, h2, h3, h4, h5⟩ := register_spec law h.good hl hun
  have hw' : wordsOf (u.syms ++ [none]) l = .ok ws := wordsOf_prefix (h.ext.grown.syms.trans (List.prefix_append _ _)) hw
  rw [Table.register] at h1
  rw [hw'] at h1
  obtain ⟨cap, moves, he, -⟩ := push_index (sc := sc) { u with syms := u.syms ++ [none] } ⟨u.syms.length, [], ws, l⟩
  dsimp only at he
  simp only [Except.map] at h1
  rw [he] at h1
  have hu' : u' = ⟨u.syms ++ [none], u.entries ++ [⟨u.syms.length, [], ws, l⟩], Index.add u.syms.length (path l) u.tree, cap, moves⟩ := by
    injection h1 with h1
    injection h1 with h1
    exact h1.symm
  have hfu := (C36.add_spec u.syms.length (path l) u.tree h.good.ordered).2
  obtain ⟨ho, hft⟩ := C36.add_spec (t.syms.length + news.length) (path l) tree h.ordered
  refine ⟨u', ⟨h2, h.ext.trans h3, ?_, ?_, ?_, ?_, ho, ?_, ?_, ?_, ?_⟩, h3, by rw [h4, hlen]⟩
  · rw [hu']
    dsimp only
    rw [h.syms, List.length_append, List.length_singleton, List.replicate_succ', List.append_assoc]
  · rw [hu']
    dsimp only
    rw [h.entries, newEntries_append, hlen, List.append_assoc, hg.sync]
    rfl
  · intro p
    rw [hu']
    dsimp only
    rw [hfu, hft, hlen]
    split
    · rfl
    · exact h.find p
  · intro p k hk
    rw [hft] at hk
    split at hk
    · rename_i e
      rw [e]
      exact hn
    · exact h.apart p k hk
  · intro p hp hs
    rcases (findNode_add _ _ _ _ h.ordered).mp hs with hs | hs
    · obtain ⟨e, he, hpe⟩ := h.nodes p hp hs
      exact ⟨e, List.mem_append_left _ he, hpe⟩
    · exact ⟨(l, ws), by simp, hs⟩
  · intro e he
    rw [hft]
    split
    · exact ⟨_, rfl⟩
    · rename_i hne
      rcases List.mem_append.mp he with he | he
      · exact h.known e he
      · simp only [List.mem_singleton] at he
        subst he
        exact absurd rfl hne
  · rw [List.map_append, List.nodup_append]
    refine ⟨h.nodup, by simp, ?_⟩
    intro a ha b hb
    simp only [List.map_cons, List.map_nil, List.mem_singleton] at hb
    subst hb
    rintro rfl
    obtain ⟨e, he, hel⟩ := List.mem_map.mp ha
    obtain ⟨k, hk⟩ := h.known e he
    rw [hel, ht] at hk
    cases hk
  · intro e he
    rcases List.mem_append.mp he with he | he
    · exact h.wanted e he
    · simp only [List.mem_singleton] at he
      subst he
      exact ⟨x, y, c, r, hall, hp⟩

/-! ## Workers -/

theorem offset_inj {full a b c d : Nat} (hb : b < full) (hd : d < full) (h : a * full + b = c * full + d) : a = c ∧ b = d := by
  have h1 : (a * full + b) / full = a := by rw [Nat.mul_comm, Nat.mul_add_div (by omega), Nat.div_eq_of_lt hb, Nat.add_zero]
  have h2 : (c * full + d) / full = c := by rw [Nat.mul_comm, Nat.mul_add_div (by omega), Nat.div_eq_of_lt hd, Nat.add_zero]
  have : a = c := by rw [← h1, ← h2, h]
  subst this
  exact ⟨rfl, by omega⟩

/-- What should stand in column `a` and row `b`. -/
def Intended (mono : Nat → E) (t : Table W) (src : Mat E) (side : Nat → Option Nat) (u : Table W) (a b : Nat) (x : E) : Prop :=
  if a < src.dim ∧ b < src.dim then x = src.at_ b a
  else ∃ l k, Product t (side (min a b)) (side (max a b)) l ∧ u.find l = some k ∧ x = mono k

theorem Intended.grow {t : Table W} {src : Mat E} {side : Nat → Option Nat} {u u' : Table W} (h : Ext u u') {a b : Nat} {x : E}
    (hi : Intended mono t src side u a b x) : Intended mono t src side u' a b x := by
  rw [Intended] at hi ⊢
  split
  · rename_i hc
    rw [if_pos hc] at hi
    exact hi
  · rename_i hc
    rw [if_neg hc] at hi
    obtain ⟨l, k, h1, h2, h3⟩ := hi
    exact ⟨l, k, h1, h.finds l k h2, h3⟩

/-- The columns and rows that a task writes. -/
def Task.cells : Task → List (Nat × Nat)
  | .read _ => []
  | .copy c r => [(c, r)]
  | .join _ _ c r => [(c, r), (r, c)]

/-- A task that belongs to the extension. -/
def Fine (t : Table W) (side : Nat → Option Nat) (dim full : Nat) : Task → Prop
  | .read x => ∃ e, t.entryAt x = some e
  | .copy c r => c < dim ∧ r < dim
  | .join x y c r => c ≤ r ∧ dim ≤ r ∧ r < full ∧ x = side c ∧ y = side r ∧ ∃ l, Product t x y l

/-- The phase fits to the first task. -/
def PhaseOk (t : Table W) (tree : Index.Node Nat) : List Task → Phase W → Prop
  | .join x y _ _ :: _, .missed l => Product t x y l ∧ t.find l = none
  | .join x y _ _ :: _, .hinted pre post ws => Product t x y (pre ++ post) ∧ t.find (pre ++ post) = none ∧
      (Index.findNode tree (path pre)).isSome = true ∧ wordsOf t.syms (pre ++ post) = .ok ws
  | _, _ => True

theorem PhaseOk.grow {t : Table W} {tree tree' : Index.Node Nat} (h : ∀ q, (Index.findNode tree q).isSome = true → (Index.findNode tree' q).isSome = true) :
    ∀ {tasks : List Task} {ph : Phase W}, PhaseOk t tree tasks ph → PhaseOk t tree' tasks ph
  | [], _, _ => trivial
  | .read _ :: _, _, _ => trivial
  | .copy _ _ :: _, _, _ => trivial
  | .join _ _ _ _ :: _, .ready, _ => trivial
  | .join _ _ _ _ :: _, .missed _, hp => hp
  | .join _ _ _ _ :: _, .hinted _ _ _, hp => ⟨hp.1, hp.2.1, h _ hp.2.2.1, hp.2.2.2⟩

theorem phase_ready {t : Table W} {tree : Index.Node Nat} (tasks : List Task) : PhaseOk t tree tasks .ready := by
  cases tasks with
  | nil => trivial
  | cons τ l => cases τ <;> trivial

section
variable (sc D zero one mono) (t : Table W) (src : Mat E) (side : Nat → Option Nat) (full : Nat) (todo : Nat → List Task)

/-- The invariant of the workers, with the table `u` that the temporary tables stand for; `todo` is what each worker had to do. -/
structure Live (s : Pool W E) (u : Table W) : Prop where
  sound : s.crash = none
  bank : Bank sc D zero one t (fun τ => ∃ w, τ ∈ todo w) s.tree s.news u
  work : ∀ (w : Nat) v, s.workers[w]? = some v → ∃ done, todo w = done ++ v.tasks ∧
    (∀ τ ∈ done, ∀ c ∈ τ.cells, Intended mono t src side u c.1 c.2 (s.out (c.1 * full + c.2))) ∧ PhaseOk t s.tree v.tasks v.phase

end

section
variable {t : Table W} {src : Mat E} {side : Nat → Option Nat} {full : Nat} {todo : Nat → List Task}

/-- Writing what should stand there does not spoil anything. -/
theorem Intended.write {u : Table W} {out : Nat → E} {a b c d : Nat} {x : E} (hb : b < full) (hd : d < full)
    (hx : Intended mono t src side u a b x) (h : Intended mono t src side u c d (out (c * full + d))) :
    Intended mono t src side u c d (Function.update out (a * full + b) x (c * full + d)) := by
  by_cases hc : c * full + d = a * full + b
  · obtain ⟨rfl, rfl⟩ := offset_inj hd hb hc
    rw [Function.update_self]
    exact hx
  · rw [Function.update_of_ne hc]
    exact h

theorem Fine.cells_lt {dim : Nat} (hdf : dim ≤ full) {τ : Task} (h : Fine t side dim full τ) : ∀ c ∈ τ.cells, c.1 < full ∧ c.2 < full := by
  intro c hc
  cases τ with
  | read x => cases hc
  | copy a b =>
    simp only [Task.cells, List.mem_singleton] at hc
    subst hc
    obtain ⟨h1, h2⟩ := h
    exact ⟨by dsimp only; omega, by dsimp only; omega⟩
  | join x y a b =>
    obtain ⟨h1, h2, h3, -⟩ := h
    simp only [Task.cells, List.mem_cons, List.not_mem_nil, or_false] at hc
    rcases hc with rfl | rfl <;> exact ⟨by dsimp only; omega, by dsimp only; omega⟩

/-- A worker is done with its first task. -/
theorem Live.next {s : Pool W E} {u : Table W} (hdf : src.dim ≤ full) (h : Live sc D zero one mono t src side full todo s u)
    (hf : ∀ w, ∀ τ ∈ todo w, Fine t side src.dim full τ) {w : Nat}
    {τ : Task} {rest : List Task} {ph : Phase W} (hw : s.workers[w]? = some ⟨τ :: rest, ph⟩) (out : Nat → E)
    (hold : ∀ a b, b < full → Intended mono t src side u a b (s.out (a * full + b)) → Intended mono t src side u a b (out (a * full + b)))
    (hnew : ∀ c ∈ τ.cells, Intended mono t src side u c.1 c.2 (out (c.1 * full + c.2))) :
    Live sc D zero one mono t src side full todo ({ s with out := out }.goto w rest .ready) u := by
  refine ⟨h.sound, h.bank, fun w' v hv => ?_⟩
  have hkeep : ∀ (w'' : Nat) (done rest' : List Task), todo w'' = done ++ rest' →
      (∀ τ ∈ done, ∀ c ∈ τ.cells, Intended mono t src side u c.1 c.2 (s.out (c.1 * full + c.2))) →
      ∀ τ ∈ done, ∀ c ∈ τ.cells, Intended mono t src side u c.1 c.2 (out (c.1 * full + c.2)) := by
    intro w'' done rest' he hd τ hτ c hc
    refine hold _ _ ?_ (hd τ hτ c hc)
    exact ((hf w'' τ (by rw [he]; exact List.mem_append_left _ hτ)).cells_lt hdf c hc).2
  rw [Pool.goto] at hv
  dsimp only at hv
  by_cases hww : w' = w
  · subst hww
    rw [List.getElem?_set_self (List.getElem?_eq_some_iff.mp hw).1] at hv
    cases hv
    obtain ⟨done, h1, h2, h3⟩ := h.work w' _ hw
    refine ⟨done ++ [τ], by rw [h1]; simp, ?_, phase_ready _⟩
    intro σ hσ
    rcases List.mem_append.mp hσ with hσ | hσ
    · exact hkeep w' done _ h1 h2 σ hσ
    · simp only [List.mem_singleton] at hσ
      subst hσ
      exact hnew
  · rw [List.getElem?_set_ne (fun e => hww e.symm)] at hv
    obtain ⟨done, h1, h2, h3⟩ := h.work w' v hv
    exact ⟨done, h1, hkeep w' done _ h1 h2, h3⟩

/-- A worker goes on with its first task. -/
theorem Live.turn {s : Pool W E} {u : Table W} (h : Live sc D zero one mono t src side full todo s u) {w : Nat} {tasks : List Task} {ph ph' : Phase W}
    (hw : s.workers[w]? = some ⟨tasks, ph⟩) (hp : PhaseOk t s.tree tasks ph') : Live sc D zero one mono t src side full todo (s.goto w tasks ph') u := by
  refine ⟨h.sound, h.bank, fun w' v hv => ?_⟩
  rw [Pool.goto] at hv
  dsimp only at hv
  by_cases hww : w' = w
  · subst hww
    rw [List.getElem?_set_self (List.getElem?_eq_some_iff.mp hw).1] at hv
    cases hv
    obtain ⟨done, h1, h2, -⟩ := h.work w' _ hw
    exact ⟨done, h1, h2, hp⟩
  · rw [List.getElem?_set_ne (fun e => hww e.symm)] at hv
    exact h.work w' v hv

/-- A worker writes the symbol of a product. -/
theorem Live.put {s : Pool W E} {u : Table W} (hdf : src.dim ≤ full) (h : Live sc D zero one mono t src side full todo s u)
    (hf : ∀ w, ∀ τ ∈ todo w, Fine t side src.dim full τ) {w : Nat} {x y : Option Nat} {c r : Nat} {rest : List Task} {ph : Phase W}
    (hw : s.workers[w]? = some ⟨.join x y c r :: rest, ph⟩) {l : List Nat} {k : Nat} (hp : Product t x y l) (hk : u.find l = some k) :
    Live sc D zero one mono t src side full todo ((s.put mono full c r k).goto w rest .ready) u := by
  obtain ⟨done, h1, -⟩ := h.work w _ hw
  have hfine : Fine t side src.dim full (.join x y c r) := hf w _ (by rw [h1]; simp)
  obtain ⟨f1, f2, f3, f4, f5, -⟩ := hfine
  have i1 : Intended mono t src side u c r (mono k) := by
    rw [Intended, if_neg (by omega), Nat.min_eq_left f1, Nat.max_eq_right f1, ← f4, ← f5]
    exact ⟨l, k, hp, hk, rfl⟩
  have i2 : Intended mono t src side u r c (mono k) := by
    rw [Intended, if_neg (by omega), Nat.min_eq_right f1, Nat.max_eq_left f1, ← f4, ← f5]
    exact ⟨l, k, hp, hk, rfl⟩
  refine h.next hdf hf hw _ ?_ ?_
  · intro a b hb hi
    exact Intended.write (by omega) hb i2 (Intended.write f3 hb i1 hi)
  · intro p hp'
    simp only [Task.cells, List.mem_cons, List.not_mem_nil, or_false] at hp'
    rcases hp' with rfl | rfl
    · dsimp only
      by_cases hcr : c * full + r = r * full + c
      · rw [hcr, Function.update_self]
        exact i1
      · change Intended mono t src side u c r (Function.update (Function.update s.out (c * full + r) (mono k)) (r * full + c) (mono k) (c * full + r))
        rw [Function.update_of_ne hcr, Function.update_self]
        exact i1
    · dsimp only
      rw [Function.update_self]
      exact i2

/-- Two new products of the extension, of which one begins with the other. -/
def Clash (t : Table W) (side : Nat → Option Nat) (dim full : Nat) : Prop :=
  ∃ a b c d l m, (a ≤ b ∧ dim ≤ b ∧ b < full) ∧ (c ≤ d ∧ dim ≤ d ∧ d < full) ∧ Product t (side a) (side b) l ∧ Product t (side c) (side d) m ∧
    t.find l = none ∧ t.find m = none ∧ l <+: m ∧ l ≠ m

theorem path_prefix {l m : List Nat} (h : path l <+: path m) : l <+: m := by
  rw [List.prefix_iff_eq_take] at h ⊢
  apply path_inj
  rw [h]
  simp [path, List.map_take]

theorem find_node {V : Type} {t n : Index.Node V} {p : List Int} (h : Index.findNode t p = some n) : Index.find t p = n.1 := by
  have := C36.find_findNode t p []
  rw [List.append_nil, h] at this
  rw [this]
  rfl

/-- One step of one worker. -/
theorem Live.step (law : Lawful sc D zero one) (hg : Good sc D zero one t) (hdf : src.dim ≤ full) {s s' : Pool W E} {u : Table W}
    (h : Live sc D zero one mono t src side full todo s u) (hf : ∀ w, ∀ τ ∈ todo w, Fine t side src.dim full τ) {w : Nat}
    (hs : s.step mono t src full w = some s') :
    (∃ u', Live sc D zero one mono t src side full todo s' u') ∨ (s'.crash = some .terminated ∧ Clash t side src.dim full) := by
  rw [Pool.step, if_neg (by rw [h.sound]; simp)] at hs
  cases hw : s.workers[w]? with
  | none => rw [hw] at hs; cases hs
  | some v =>
    rw [hw] at hs
    obtain ⟨tasks, ph⟩ := v
    obtain ⟨done, hd, hdone, hph⟩ := h.work w _ hw
    dsimp only at hd hph
    cases tasks with
    | nil => cases hs
    | cons τ rest =>
      have hfine : Fine t side src.dim full τ := hf w τ (by rw [hd]; simp)
      cases τ with
      | read x =>
        obtain ⟨e, he⟩ := hfine
        dsimp only at hs
        rw [he] at hs
        cases hs
        exact Or.inl ⟨u, h.next hdf hf hw s.out (fun _ _ _ hi => hi) (fun c hc => by cases hc)⟩
      | copy c r =>
        dsimp only at hs
        cases hs
        obtain ⟨f1, f2⟩ := hfine
        have hi : Intended mono t src side u c r (src.at_ r c) := by
          rw [Intended, if_pos ⟨f1, f2⟩]
        refine Or.inl ⟨u, h.next hdf hf hw _ (fun a b hb hx => Intended.write (by omega) hb hi hx) ?_⟩
        intro p hp
        simp only [Task.cells, List.mem_singleton] at hp
        subst hp
        rw [Function.update_self]
        exact hi
      | join x y c r =>
        have hfine' := hfine
        obtain ⟨f1, f2, f3, f4, f5, lf, hlf⟩ := hfine
        cases ph with
        | ready =>
          dsimp only at hs
          obtain ⟨a, b, ha, hb, hl⟩ := hlf
          rw [ha, hb] at hs
          dsimp only at hs
          rw [hl] at hs
          have hp : Product t x y lf := ⟨a, b, ha, hb, hl⟩
          cases hk : t.find lf with
          | some k =>
            rw [hk] at hs
            cases hs
            exact Or.inl ⟨u, h.put hdf hf hw hp (h.bank.ext.finds _ _ hk)⟩
          | none =>
            rw [hk] at hs
            cases hs
            exact Or.inl ⟨u, h.turn hw ⟨hp, hk⟩⟩
        | missed l =>
          obtain ⟨hp, hn⟩ := hph
          obtain ⟨h1, h2, h3⟩ := hint_spec s.tree l
          dsimp only at hs
          by_cases hrest : (Index.findOrHint s.tree (path l)).2 = []
          · rw [if_pos hrest] at hs
            rw [h3 hrest] at h2
            have hfind := find_node h2
            cases hk : (Index.findOrHint s.tree (path l)).1.1 with
            | some k =>
              rw [hk] at hs
              cases hs
              refine Or.inl ⟨u, h.put hdf hf hw hp ?_⟩
              rw [Table.find, h.bank.find, hfind, hk]
              rfl
            | none =>
              rw [hk] at hs
              cases hs
              refine Or.inr ⟨rfl, ?_⟩
              have hne : path l ≠ [] := by
                intro he
                exact proper_ne (hp.labels law hg).1 (List.map_eq_nil_iff.mp he)
              obtain ⟨e, he, hpre⟩ := h.bank.nodes (path l) hne (by rw [h2]; rfl)
              obtain ⟨ke, hke⟩ := h.bank.known e he
              obtain ⟨x', y', c', r', ⟨w', hw'⟩, hp'⟩ := h.bank.wanted e he
              obtain ⟨g1, g2, g3, g4, g5, -⟩ := hf w' _ hw'
              refine ⟨c, r, c', r', l, e.1, ⟨f1, f2, f3⟩, ⟨g1, g2, g3⟩, by rw [← f4, ← f5]; exact hp, by rw [← g4, ← g5]; exact hp', hn,
                h.bank.apart _ _ hke, path_prefix hpre, ?_⟩
              intro hle
              rw [← hle, hfind, hk] at hke
              cases hke
          · rw [if_neg hrest] at hs
            obtain ⟨ws, hws, -⟩ := wordsOf_ok (hp.labels law hg).2
            rw [hws] at hs
            cases hs
            refine Or.inl ⟨u, h.turn hw ⟨?_, ?_, by rw [h2]; rfl, ?_⟩⟩ <;> rw [List.take_append_drop] <;> assumption
        | hinted pre post ws =>
          obtain ⟨hp, hn, hsome, hws⟩ := hph
          dsimp only at hs
          obtain ⟨node, hnode⟩ := Option.isSome_iff_exists.mp hsome
          rw [hnode] at hs
          dsimp only at hs
          have hfind : Index.find s.tree (path (pre ++ post)) = Index.find node (path post) := by
            rw [path_append, C36.find_findNode, hnode]
            rfl
          cases hk : Index.find node (path post) with
          | some k =>
            rw [hk] at hs
            cases hs
            refine Or.inl ⟨u, h.put hdf hf hw hp ?_⟩
            rw [Table.find, h.bank.find, hfind, hk]
            rfl
          | none =>
            rw [hk] at hs
            cases hs
            obtain ⟨u', b1, b2, b3⟩ := h.bank.add law hg (c := c) (r := r) ⟨w, by rw [hd]; simp⟩ hp hn (hfind.trans hk) hws
            have hlive : Live sc D zero one mono t src side full todo
                { s with tree := Index.add (t.syms.length + s.news.length) (path (pre ++ post)) s.tree, news := s.news ++ [(pre ++ post, ws)] } u' := by
              refine ⟨h.sound, b1, fun w' v hv => ?_⟩
              obtain ⟨done', e1, e2, e3⟩ := h.work w' v hv
              exact ⟨done', e1, fun τ hτ c hc => (e2 τ hτ c hc).grow b2, PhaseOk.grow (ph := v.phase) (fun q hq => (findNode_add _ _ _ _ h.bank.ordered).mpr (Or.inl hq)) e3⟩
            exact Or.inl ⟨u', hlive.put hdf hf hw hp b3⟩

/-- Every order of steps. -/
theorem Live.run (law : Lawful sc D zero one) (hg : Good sc D zero one t) (hdf : src.dim ≤ full) (hf : ∀ w, ∀ τ ∈ todo w, Fine t side src.dim full τ) :
    ∀ (order : List Nat) {s : Pool W E} {u : Table W}, Live sc D zero one mono t src side full todo s u →
      (∃ u', Live sc D zero one mono t src side full todo (s.run mono t src full order) u') ∨
        ((s.run mono t src full order).crash = some .terminated ∧ Clash t side src.dim full)
  | [], s, u, h => Or.inl ⟨u, h⟩
  | w :: order, s, u, h => by
    rw [Pool.run]
    cases hs : s.step mono t src full w with
    | none => exact Live.run law hg hdf hf order h
    | some s' =>
      rw [Option.getD_some]
      rcases h.step law hg hdf hf hs with ⟨u', h'⟩ | ⟨h1, h2⟩
      · exact Live.run law hg hdf hf order h'
      · refine Or.inr ⟨?_, h2⟩
        have hstuck : ∀ (o : List Nat), s'.run mono t src full o = s' := by
          intro o
          induction o with
          | nil => rfl
          | cons w' o ih =>
            rw [Pool.run]
            have : s'.step mono t src full w' = none := by rw [Pool.step, h1]; rfl
            rw [this, Option.getD_none, ih]
        rw [hstuck, h1]

end

end Moment.Inflation.Extend
