import Verif.Proof.RecursiveStorage

/-! # C116: recursive storage

Index sequences that reach a node, values that are set and read, and visits of all nodes. -/

namespace Moment.C116

open Recursive

variable {α S : Type}

/-- **C116 (places of chunked storage).** An index sequence selects a node exactly if it has at most `max_depth` numbers and their
chunks ascend; outside of these the code reads beyond the children. All values are `zero` at first. -/
theorem C116_chunk_places (zero : α) (d : Nat) (sizes : List Nat) (b : Nat) (idx : List Nat) :
    (((chunked zero d sizes (-(b : Int))).subtree idx).isSome ↔ Path sizes b d idx) ∧
    ∀ s, (chunked zero d sizes (-(b : Int))).subtree idx = some s → s.obj = zero :=
  ⟨(chunked_subtree zero d sizes b idx).1, fun s h => ((chunked_subtree zero d sizes b idx).2 s h).1⟩

/-- Chunks of two, one and three numbers, as in the library's own tests: 0 and 1, then 2, then 3 to 5. -/
example : (((chunked (0 : Nat) 3 [2, 1, 3] 0).subtree [0, 2, 4]).map Store.numChildren = some 0) ∧
    (((chunked (0 : Nat) 3 [2, 1, 3] 0).subtree [1]).map Store.numChildren = some 4) ∧
    (((chunked (0 : Nat) 3 [2, 1, 3] 0).subtree [0, 1]).isNone) ∧ (((chunked (0 : Nat) 2 [2, 1, 3] 0).subtree [0, 2, 4]).isNone) := by
  decide +kernel

/-- **C116 (places of wide storage).** With a width and a depth, exactly the sequences of at most `max_depth` numbers below the
width select a node, and every node above the largest depth has `width` children. -/
theorem C116_wide_places (zero : α) (w d : Nat) (idx : List Nat) :
    (((wide zero w d).subtree idx).isSome ↔ idx.length ≤ d ∧ ∀ j ∈ idx, j < w) ∧
    ∀ s, (wide zero w d).subtree idx = some s → s.obj = zero ∧ s.numChildren = if idx.length < d then w else 0 := by
  rw [wide_subtree]
  by_cases h : idx.length ≤ d ∧ ∀ j ∈ idx, j < w
  · rw [if_pos h]
    refine ⟨by simp only [Option.isSome_some, true_iff]; exact h, ?_⟩
    intro s e
    cases e
    have h1 := h.1
    cases hd : d - idx.length with
    | zero => rw [if_neg (by omega)]; exact ⟨rfl, rfl⟩
    | succ m => rw [if_pos (by omega)]; exact ⟨rfl, by simp [wide, Store.numChildren, Store.children]⟩
  · rw [if_neg h]
    refine ⟨by simp only [Option.isSome_none, Bool.false_eq_true, false_iff]; exact h, ?_⟩
    intro s e
    cases e

example : ((wide (0 : Nat) 3 2).subtree [2, 0]).isSome ∧ ((wide (0 : Nat) 3 2).subtree [2, 0, 0]).isNone ∧ ((wide (0 : Nat) 3 2).subtree [3]).isNone := by
  decide +kernel

/-- **C116 (setting values).** A value can be set exactly where there is a node. It is then read at that place, every other place
keeps its value, and no node appears or vanishes. -/
theorem C116_set (t : Store α) (idx : List Nat) (x : α) :
    ((t.set idx x).isSome ↔ (t.subtree idx).isSome) ∧
    ∀ t', t.set idx x = some t' → (t'.subtree idx).map Store.obj = some x ∧
      (∀ other, other ≠ idx → (t'.subtree other).map Store.obj = (t.subtree other).map Store.obj) ∧
      ∀ other, (t'.subtree other).map Store.numChildren = (t.subtree other).map Store.numChildren := by
  refine ⟨(set_spec idx t x).1, ?_⟩
  intro t' h
  obtain ⟨_, _, h3, h4, h5⟩ := (set_spec idx t x).2 t' h
  refine ⟨h4, h5, ?_⟩
  intro other
  have := congrArg (Option.map Prod.snd) (h3 other)
  rw [Option.map_map, Option.map_map] at this
  exact this.symm

example : (((chunked (0 : Nat) 3 [2, 1, 3] 0).set [0, 2] 7).map fun t => ((t.subtree [0, 2]).map Store.obj, (t.subtree [1, 2]).map Store.obj)) = some (some 7, some 0) := by
  decide +kernel

/-- **C116 (visits).** A visitor is called once on every value of the tree, with the indices of its place, in lexicographic order
of these. It leaves the form of the tree as it is, and the values afterwards are those the visitor left. -/
theorem C116_visit (t : Store α) (ok : ∀ idx s, t.subtree idx = some s → s.off ≤ 0) (f : S → α → List Nat → S × α) (s : S) :
    ∃ calls : List (List Nat × α), (calls.map Prod.fst).Pairwise (List.Lex (· < ·)) ∧
      (∀ idx a, (idx, a) ∈ calls ↔ (t.subtree idx).map Store.obj = some a) ∧
      (t.visit f s).2 = (runVisitor f calls s).2 ∧
      (∀ idx a, (idx, a) ∈ (runVisitor f calls s).1 ↔ ((t.visit f s).1.subtree idx).map Store.obj = some a) ∧
      ∀ idx, ((t.visit f s).1.subtree idx).map Store.numChildren = (t.subtree idx).map Store.numChildren := by
  have hv := doVisit_spec f t [] s
  have hf := doVisit_form f t [] s
  have hu : ∀ xs : List (List Nat × α), under [] xs = xs := by intro xs; simp [under]
  rw [hu, hu] at hv
  have ok' : (t.doVisit f [] s).1.Ok := by
    intro idx r hr
    have e := hf idx
    rw [hr] at e
    obtain ⟨q, hq, hqr⟩ := Option.map_eq_some_iff.mp e
    have := ok idx q hq
    simp only [Prod.mk.injEq] at hqr
    omega
  refine ⟨t.entries, entries_sorted t ok, ?_, hv.2.1, ?_, ?_⟩
  · intro idx a
    rw [mem_entries t ok, Option.map_eq_some_iff]
  · intro idx a
    rw [← hv.2.2.1, mem_entries _ ok', Option.map_eq_some_iff]
    rfl
  · intro idx
    have := congrArg (Option.map Prod.snd) (hf idx)
    rw [Option.map_map, Option.map_map] at this
    exact this.symm

/-- A visitor that counts: it stores the number of its call in each node. -/
def count (n : Nat) (_ : Nat) (_ : List Nat) : Nat × Nat := (n + 1, n)

/-- The tree of the library's own tests has 24 nodes; the node of 0, 2, 5 is visited sixth. -/
example : ((chunked (0 : Nat) 3 [2, 1, 3] 0).visit count 0).2 = 24 ∧
    ((((chunked (0 : Nat) 3 [2, 1, 3] 0).visit count 0).1.subtree [0, 2, 5]).map Store.obj) = some 5 := by
  decide +kernel

/-- A visitor that notes the indices of its calls. -/
def note (l : List (List Nat)) (a : α) (idx : List Nat) : List (List Nat) × α := (l ++ [idx], a)

theorem note_all : ∀ (xs : List (List Nat × α)) (l : List (List Nat)), (runVisitor note xs l).2 = l ++ xs.map Prod.fst := by
  intro xs
  induction xs with
  | nil => intro l; simp [runVisitor]
  | cons x xs ih => intro l; rw [runVisitor]; dsimp only; rw [ih]; simp [note]

/-- **C116 (indices of visits).** The indices with which a visitor of chunked storage is called are all sequences of at most
`max_depth` numbers of ascending chunks, each once and in lexicographic order; those of wide storage, all sequences of at most
`max_depth` numbers below the width. -/
theorem C116_visit_indices (zero : α) (d : Nat) (sizes : List Nat) (b w : Nat) :
    (((chunked zero d sizes (-(b : Int))).visit note []).2.Pairwise (List.Lex (· < ·)) ∧
      ∀ idx, idx ∈ ((chunked zero d sizes (-(b : Int))).visit note []).2 ↔ Path sizes b d idx) ∧
    (((wide zero w d).visit note []).2.Pairwise (List.Lex (· < ·)) ∧
      ∀ idx, idx ∈ ((wide zero w d).visit note []).2 ↔ idx.length ≤ d ∧ ∀ j ∈ idx, j < w) := by
  have key : ∀ t : Store α, t.Ok → (t.visit note []).2.Pairwise (List.Lex (· < ·)) ∧
      ∀ idx, idx ∈ (t.visit note []).2 ↔ (t.subtree idx).isSome := by
    intro t ok
    obtain ⟨calls, h1, h2, h3, _⟩ := C116_visit t ok note []
    rw [h3, note_all, List.nil_append]
    refine ⟨h1, ?_⟩
    intro idx
    constructor
    · intro h
      obtain ⟨⟨i, a⟩, hx, rfl⟩ := List.mem_map.mp h
      have := (h2 i a).mp hx
      cases hs : t.subtree i with
      | none => rw [hs] at this; cases this
      | some s => rfl
    · intro h
      obtain ⟨s, hs⟩ := Option.isSome_iff_exists.mp h
      exact List.mem_map.mpr ⟨(idx, s.obj), (h2 idx s.obj).mpr (by rw [hs]; rfl), rfl⟩
  refine ⟨⟨(key _ (chunked_ok zero d sizes b)).1, ?_⟩, (key _ (wide_ok zero w d)).1, ?_⟩
  · intro idx
    rw [(key _ (chunked_ok zero d sizes b)).2]
    exact (C116_chunk_places zero d sizes b idx).1
  · intro idx
    rw [(key _ (wide_ok zero w d)).2]
    exact (C116_wide_places zero w d idx).1

example : ((chunked (0 : Nat) 2 [1, 2] 0).visit note []).2 = [[], [0], [0, 1], [0, 2], [1], [2]] := by
  decide +kernel

/-- **C116 (full statement, false).** `access` with indices returns a reference to the value that is stored at the place. -/
def AccessStored : Prop :=
  ∀ (t : Store Nat) (idx : List Nat) (s : Store Nat), t.subtree idx = some s → t.accessAt idx = some (s.obj, .stored)

/-- **C116 refuted (reading by indices).** `access` with indices copies the subtree, and the reference it returns is to the value in
that copy, which is gone when the function returns. -/
theorem C116_refuted_access : ¬AccessStored := by
  intro h
  have := h (chunked 0 1 [2] 0) [1] _ rfl
  revert this
  decide +kernel

/-- Every call of it, without exception, returns such a reference. -/
theorem C116_refuted_access_always (t : Store α) (idx : List Nat) : ∀ r, t.accessAt idx = some r → r.2 = .gone := by
  intro r h
  obtain ⟨s, _, rfl⟩ := Option.map_eq_some_iff.mp h
  rfl

/-- **C116 partial (reading by indices).** The value in the copy is the stored one, and `access()` of the subtree reads the stored
value itself. Missing: a reference that stays valid. -/
theorem C116_access_partial (t : Store α) (idx : List Nat) :
    (t.accessAt idx).map Prod.fst = (t.subtree idx).map Store.obj ∧
    ∀ s, t.subtree idx = some s → s.access = (s.obj, .stored) := by
  refine ⟨?_, fun s _ => rfl⟩
  unfold Store.accessAt
  rw [Option.map_map]
  rfl

example : ((chunked (4 : Nat) 1 [2] 0).accessAt [1]).map Prod.fst = some 4 := by decide +kernel

end Moment.C116
