import Verif.Model.IndexTree
import Verif.Model.Iter
import Mathlib.Data.List.Basic
import Mathlib.Order.Basic
import Mathlib.Data.Int.Order.Basic
import Mathlib.Tactic.Linarith

/-! # C36: the index tree is a map from index lists to values -/

namespace Moment.C36

open Index

variable {V : Type}

/-! ## Specification -/

/-- Histories of a tree. -/
inductive History (V : Type) where
  | empty : History V
  | add : History V → List Int → V → History V
  | addIfNew : History V → List Int → V → History V
  | merge : History V → History V → History V

/-- What the history means: writing overwrites, writing if new does not, and in merging the other tree has precedence. -/
def History.meaning : History V → List Int → Option V
  | .empty, _ => none
  | .add h p e, q => if q = p then some e else h.meaning q
  | .addIfNew h p e, q => if q = p then some ((h.meaning p).getD e) else h.meaning q
  | .merge h h', q => (h'.meaning q).or (h.meaning q)

/-- The tree made by the code. -/
def History.tree : History V → Node V
  | .empty => (none, .nil)
  | .add h p e => Index.add e p h.tree
  | .addIfNew h p e => (Index.addIfNew e p h.tree false).1
  | .merge h h' => Index.merge h.tree h'.tree

/-! ## Ordered trees -/

/-- All children have ids above a bound. -/
def Above (lo : Int) : Forest V → Prop
  | .nil => True
  | .cons id _ _ _ => lo < id

/-- Ids ascend, at all levels. -/
def Ordered : Forest V → Prop
  | .nil => True
  | .cons id _ c s => Ordered c ∧ Ordered s ∧ Above id s

theorem child_cons (id : Int) (v : Option V) (c s : Forest V) (x : Int) :
    (Forest.cons id v c s).child x = if id < x then s.child x else if id ≠ x then none else some (v, c) := by
  rw [Forest.child]

theorem child_below {f : Forest V} {lo : Int} (hf : Ordered f) (h : Above lo f) {x : Int} (hx : x ≤ lo) : f.child x = none := by
  cases f with
  | nil => rfl
  | cons id v c s =>
    have : lo < id := h
    rw [Forest.child, if_neg (by omega), if_pos (by omega)]

theorem child_ordered {f : Forest V} (hf : Ordered f) {x : Int} {t : Node V} (h : f.child x = some t) : Ordered t.2 := by
  induction f with
  | nil => simp [Forest.child] at h
  | cons id v c s _ ihs =>
    rw [Forest.child] at h
    split at h
    · exact ihs hf.2.1 h
    · split at h
      · simp at h
      · simp only [Option.some.injEq] at h
        rw [← h]; exact hf.1

theorem above_mono {f : Forest V} {a b : Int} (h : a ≤ b) (hf : Above b f) : Above a f := by
  cases f with
  | nil => trivial
  | cons => exact lt_of_le_of_lt h hf

theorem update_ordered {f : Forest V} (hf : Ordered f) (x : Int) (g : Node V → Node V) (hg : ∀ t : Node V, Ordered t.2 → Ordered (g t).2) :
    Ordered (f.update x g) ∧ ∀ lo, lo < x → Above lo f → Above lo (f.update x g) := by
  induction f with
  | nil => exact ⟨⟨hg _ trivial, trivial, trivial⟩, fun lo h _ => h⟩
  | cons id v c s _ ihs =>
    obtain ⟨h1, h2, h3⟩ := hf
    rw [Forest.update]
    split
    · rename_i hlt
      obtain ⟨i1, i2⟩ := ihs h2
      exact ⟨⟨h1, i1, i2 id hlt h3⟩, fun lo _ h => h⟩
    · split
      · rename_i h4 h5
        exact ⟨⟨hg _ trivial, ⟨h1, h2, h3⟩, show x < id by omega⟩, fun lo h _ => h⟩
      · exact ⟨⟨hg _ h1, h2, h3⟩, fun lo _ h => h⟩

theorem child_update {f : Forest V} (hf : Ordered f) (x : Int) (g : Node V → Node V) (y : Int) :
    (f.update x g).child y = if y = x then some (g ((f.child x).getD (none, .nil))) else f.child y := by
  induction f with
  | nil =>
    simp only [Forest.update, Forest.child, Option.getD_none]
    rcases lt_trichotomy x y with h | h | h
    · rw [if_pos h, if_neg (by omega)]
    · subst h; simp
    · rw [if_neg (by omega), if_pos (by omega), if_neg (by omega)]
  | cons id v c s _ ihs =>
    obtain ⟨h1, h2, h3⟩ := hf
    have ih := ihs h2
    rw [Forest.update]
    split
    · rename_i hlt
      rw [Forest.child, ih, Forest.child, Forest.child, if_pos hlt]
      by_cases hy : y = x
      · subst hy; rw [if_pos hlt, if_pos rfl, if_pos rfl]
      · simp only [if_neg hy]
    · split
      · rename_i h4 h5
        have hxi : x < id := by omega
        rw [child_cons x, child_cons id v c s x, if_neg h4, if_pos h5, Option.getD_none]
        rcases lt_trichotomy x y with h | h | h
        · rw [if_pos h, if_neg (by omega)]
        · subst h; simp
        · rw [if_neg (by omega), if_pos (by omega), if_neg (by omega), Forest.child, if_neg (by omega), if_pos (by omega)]
      · rename_i h4 h5
        have hxi : id = x := by omega
        subst hxi
        have e : (Forest.cons id v c s).child id = some (v, c) := by rw [child_cons, if_neg h4, if_neg h5]
        rw [e, child_cons, child_cons, Option.getD_some]
        by_cases hy : y = id
        · subst hy; simp
        · rw [if_neg hy]
          split
          · rfl
          · rw [if_pos (by omega), if_pos (by omega)]

theorem find_cons (t : Node V) (x : Int) (p : List Int) : find t (x :: p) = (t.2.child x).bind fun t' => find t' p := by
  rw [find]; cases t.2.child x <;> rfl

theorem find_empty (p : List Int) : find (none, .nil) p = (none : Option V) := by
  cases p with
  | nil => rfl
  | cons x p => simp [find, Forest.child]

theorem add_spec (e : V) : ∀ (p : List Int) (t : Node V), Ordered t.2 →
    Ordered (add e p t).2 ∧ ∀ q, find (add e p t) q = if q = p then some e else find t q := by
  intro p
  induction p with
  | nil =>
    intro t ht
    refine ⟨ht, fun q => ?_⟩
    cases q with
    | nil => simp [add, find]
    | cons y q => rw [if_neg (by simp), find_cons, find_cons]; rfl
  | cons x p ih =>
    intro t ht
    refine ⟨(update_ordered ht x (add e p) fun t ht => (ih t ht).1).1, fun q => ?_⟩
    cases q with
    | nil => simp [add, find]
    | cons y q =>
      rw [find_cons, find_cons, add, child_update ht]
      by_cases hy : y = x
      · subst hy
        simp only [if_true, Option.bind_some, List.cons.injEq, true_and]
        cases hc : t.2.child y with
        | none =>
          rw [Option.getD_none, (ih (none, .nil) trivial).2, find_empty]
          rfl
        | some t' => rw [Option.getD_some, (ih t' (child_ordered ht hc)).2]; rfl
      · simp [hy]

theorem addIfNew_spec (e : V) : ∀ (p : List Int) (t : Node V) (did : Bool), Ordered t.2 → (did = true → t = (none, .nil)) →
    Ordered (addIfNew e p t did).1.2 ∧ (∀ q, find (addIfNew e p t did).1 q = if q = p then some ((find t p).getD e) else find t q) ∧
    (addIfNew e p t did).2.1 = (find t p).getD e ∧ ((addIfNew e p t did).2.2 = true ↔ find t p = none) := by
  intro p
  induction p with
  | nil =>
    intro t did ht hd
    have hq : ∀ (w : Option V) (f : Forest V) (y : Int) (q : List Int), find (w, f) (y :: q) = (f.child y).bind fun t' => find t' q := fun w f y q => find_cons _ _ _
    unfold addIfNew
    split
    · rename_i h
      have := hd h
      subst this
      refine ⟨trivial, fun q => ?_, rfl, by simp [find]⟩
      cases q with
      | nil => simp [find]
      | cons y q => simp [hq, Forest.child]
    · split
      · rename_i h1 h2
        refine ⟨ht, fun q => ?_, by simp [find, h2], by simp [find, h2]⟩
        cases q with
        | nil => simp [find, h2]
        | cons y q => rw [if_neg (by simp), hq, find_cons]
      · rename_i h1 w h2
        refine ⟨ht, fun q => ?_, by simp [find, h2], by simp [find, h2]⟩
        cases q with
        | nil => simp [find, h2]
        | cons y q => rw [if_neg (by simp)]
  | cons x p ih =>
    intro t did ht hd
    rw [addIfNew]
    dsimp only
    -- the child that is treated
    have hch : Ordered ((t.2.child x).getD (none, .nil)).2 := by
      cases hc : t.2.child x with
      | none => trivial
      | some t' => exact child_ordered ht hc
    have hdid : (did || (t.2.child x).isNone) = true → (t.2.child x).getD (none, .nil) = (none, .nil) := by
      intro h
      cases hc : t.2.child x with
      | none => rfl
      | some t' =>
        rw [hc] at h
        simp at h
        have := hd h
        subst this
        simp [Forest.child] at hc
    obtain ⟨i1, i2, i3, i4⟩ := ih _ _ hch hdid
    have hfind : ∀ q, find ((t.2.child x).getD (none, .nil)) q = find t (x :: q) := by
      intro q
      rw [find_cons]
      cases t.2.child x with
      | none => exact find_empty q
      | some t' => rfl
    refine ⟨(update_ordered ht x _ fun _ _ => i1).1, fun q => ?_, by rw [i3, hfind], by rw [i4, hfind]⟩
    cases q with
    | nil => simp [find]
    | cons y q =>
      rw [find_cons, child_update ht]
      by_cases hy : y = x
      · subst hy
        simp only [if_true, Option.bind_some, List.cons.injEq, true_and]
        rw [i2, hfind, hfind]
      · simp [hy, find_cons]

theorem merge_above : ∀ (a b : Forest V) (lo : Int), Above lo a → Above lo b → Above lo (a.merge b) := by
  intro a b lo ha hb
  cases a with
  | nil => rw [Forest.merge]; exact hb
  | cons i v c s =>
    cases b with
    | nil => rw [Forest.merge]; exact ha
    | cons j w d r =>
      rw [Forest.merge]
      split
      · exact ha
      · split
        · exact hb
        · exact ha

theorem merge_ordered (a b : Forest V) : Ordered a → Ordered b → Ordered (a.merge b) := by
  fun_induction Forest.merge a b with
  | case1 b => exact fun _ h => h
  | case2 i v c s => exact fun h _ => h
  | case3 i v c s j w d r h ih =>
    intro ha hb
    exact ⟨ha.1, ih ha.2.1 hb, merge_above _ _ _ ha.2.2 h⟩
  | case4 i v c s j w d r h h2 ih =>
    intro ha hb
    exact ⟨hb.1, ih ha hb.2.1, merge_above _ _ _ (show j < i from h2) hb.2.2⟩
  | case5 i v c s j w d r h h2 ih1 ih2 =>
    intro ha hb
    have : i = j := by omega
    subst this
    exact ⟨ih1 ha.1 hb.1, ih2 ha.2.1 hb.2.1, merge_above _ _ _ ha.2.2 hb.2.2⟩

theorem child_merge (a b : Forest V) : Ordered a → Ordered b → ∀ x, (a.merge b).child x =
    match a.child x, b.child x with
    | none, t => t
    | some t, none => some t
    | some t, some t' => some (merge t t') := by
  fun_induction Forest.merge a b with
  | case1 b => intro _ _ x; rfl
  | case2 i v c s =>
    intro _ _ x
    simp only [show ∀ x, Forest.child (Forest.nil : Forest V) x = none from fun _ => rfl]
    cases Forest.child (Forest.cons i v c s) x <;> rfl
  | case3 i v c s j w d r h ih =>
    intro ha hb x
    rw [child_cons, ih ha.2.1 hb, child_cons i]
    rcases lt_trichotomy i x with hx | hx | hx
    · rw [if_pos hx, if_pos hx]
    · subst hx
      have : (Forest.cons j w d r).child i = none := by rw [Forest.child, if_neg (by omega), if_pos (by omega)]
      rw [this]; simp
    · have : (Forest.cons j w d r).child x = none := by rw [Forest.child, if_neg (by omega), if_pos (by omega)]
      rw [this, if_neg (by omega), if_pos (by omega)]
      rw [if_neg (by omega)]
  | case4 i v c s j w d r h h2 ih =>
    intro ha hb x
    rw [child_cons, ih ha hb.2.1, child_cons j]
    rcases lt_trichotomy j x with hx | hx | hx
    · rw [if_pos hx, if_pos hx]
    · subst hx
      have : (Forest.cons i v c s).child j = none := by rw [Forest.child, if_neg (by omega), if_pos (by omega)]
      rw [this, if_neg (by omega), if_neg (by omega)]
    · have : (Forest.cons i v c s).child x = none := by rw [Forest.child, if_neg (by omega), if_pos (by omega)]
      rw [this, if_neg (by omega), if_pos (by omega)]
  | case5 i v c s j w d r h h2 ih1 ih2 =>
    intro ha hb x
    have : i = j := by omega
    subst this
    rw [Forest.child, ih2 ha.2.1 hb.2.1, Forest.child, Forest.child]
    rcases lt_trichotomy i x with hx | hx | hx
    · simp only [if_pos hx]
    · subst hx; simp [merge]
    · rw [if_neg (by omega), if_pos (by omega), if_neg (by omega), if_pos (by omega), if_neg (by omega), if_pos (by omega)]

theorem merge_spec : ∀ (p : List Int) (a b : Node V), Ordered a.2 → Ordered b.2 → find (merge a b) p = (find b p).or (find a p) := by
  intro p
  induction p with
  | nil =>
    intro a b _ _
    simp only [find, merge]
    cases b.1 <;> simp
  | cons x p ih =>
    intro a b ha hb
    rw [find_cons, find_cons, find_cons]
    show ((a.2.merge b.2).child x).bind _ = _
    rw [child_merge _ _ ha hb]
    cases h1 : a.2.child x with
    | none => simp
    | some t =>
      cases h2 : b.2.child x with
      | none => simp
      | some t' => exact ih t t' (child_ordered ha h1) (child_ordered hb h2)

theorem history_ordered (h : History V) : Ordered h.tree.2 := by
  induction h with
  | empty => trivial
  | add h p e ih => exact (add_spec e p _ ih).1
  | addIfNew h p e ih => exact (addIfNew_spec e p _ false ih (by simp)).1
  | merge h h' ih ih' => exact merge_ordered _ _ ih ih'

/-- **C36.** After every history, looking up an index list gives what the history means for it. -/
theorem C36_find (h : History V) (p : List Int) : find h.tree p = h.meaning p := by
  induction h generalizing p with
  | empty => exact find_empty p
  | add h q e ih => rw [History.tree, (add_spec e q _ (history_ordered h)).2, ih]; rfl
  | addIfNew h q e ih =>
    rw [History.tree, (addIfNew_spec e q _ false (history_ordered h) (by simp)).2.1, ih, ih]; rfl
  | merge h h' ih ih' => rw [History.tree, merge_spec _ _ _ (history_ordered h) (history_ordered h'), ih, ih']; rfl

/-- **C36.** `add_if_new` returns the value now stored, and whether it was new. -/
theorem C36_add_if_new (h : History V) (p : List Int) (e : V) :
    (addIfNew e p h.tree false).2.1 = (h.meaning p).getD e ∧ ((addIfNew e p h.tree false).2.2 = true ↔ h.meaning p = none) := by
  obtain ⟨-, -, h1, h2⟩ := addIfNew_spec e p h.tree false (history_ordered h) (by simp)
  rw [C36_find] at h1 h2
  exact ⟨h1, h2⟩

example : (History.merge (.addIfNew (.add (.add .empty [1, 2] "a") [1] "b") [1, 2] "c") (.add .empty [1] "d")).meaning [1] = some "d" ∧
    (History.merge (.addIfNew (.add (.add .empty [1, 2] "a") [1] "b") [1, 2] "c") (.add .empty [1] "d")).meaning [1, 2] = some "a" := by
  decide +kernel

theorem find_findNode (t : Node V) (p q : List Int) : find t (p ++ q) = (findNode t p).bind fun n => find n q := by
  induction p generalizing t with
  | nil => rfl
  | cons x p ih =>
    rw [List.cons_append, find_cons, findNode]
    cases t.2.child x with
    | none => rfl
    | some t' => exact ih t'

/-- **C36.** The node found for a list continues the lookup of all lists starting with it; the hint is the node of the longest known prefix, with the rest of
the list. -/
theorem C36_nodes (t : Node V) (p : List Int) : (∀ q, find t (p ++ q) = (findNode t p).bind fun n => find n q) ∧
    ∃ pre, pre ++ (findOrHint t p).2 = p ∧ findNode t pre = some (findOrHint t p).1 ∧
      ((findOrHint t p).2 = [] ∨ ∃ x q, (findOrHint t p).2 = x :: q ∧ findNode t (pre ++ [x]) = none) := by
  refine ⟨find_findNode t p, ?_⟩
  induction p generalizing t with
  | nil => exact ⟨[], rfl, rfl, Or.inl rfl⟩
  | cons x p ih =>
    rw [findOrHint]
    cases hc : t.2.child x with
    | none => exact ⟨[], rfl, rfl, Or.inr ⟨x, p, rfl, by simp [findNode, hc]⟩⟩
    | some t' =>
      obtain ⟨pre, h1, h2, h3⟩ := ih t'
      refine ⟨x :: pre, by rw [List.cons_append, h1], by rw [findNode, hc]; exact h2, ?_⟩
      refine h3.imp_right fun ⟨y, q, h4, h5⟩ => ⟨y, q, h4, ?_⟩
      rw [List.cons_append, findNode, hc]; exact h5

/-! ## Iteration -/

/-- All nodes of a forest, with the path leading to them, parents before children. -/
def nodes : List Int → Forest V → List (List Int × Option V)
  | _, .nil => []
  | pre, .cons id v c s => (pre ++ [id], v) :: (nodes (pre ++ [id]) c ++ nodes pre s)

/-- What is left to visit: the nodes below the innermost entry, then those of the outer ones. -/
def remaining : List (Frame V) → List (List Int × Option V)
  | [] => []
  | f :: st => nodes (lookupIndex (f :: st)) f.rest ++ remaining st

theorem lookup_cons (f g : Frame V) (st : List (Frame V)) : lookupIndex (f :: g :: st) = lookupIndex (g :: st) ++ [g.last] := by
  simp [lookupIndex]

theorem yields_unwind (n : Nat) : ∀ st : List (Frame V), (remaining st).length = n →
    Yields unwind (fun st => st = []) current (unwind st) (remaining st) := by
  induction n using Nat.strong_induction_on with
  | _ n ih =>
    intro st hn
    induction st with
    | nil => exact Yields.done rfl
    | cons f st ihs =>
      cases hr : f.rest with
      | nil =>
        have h1 : unwind (f :: st) = unwind st := by simp [unwind, descend, hr]
        have h2 : remaining (f :: st) = remaining st := by simp [remaining, hr, nodes]
        rw [h1, h2]
        exact ihs (by rw [← hn, h2])
      | cons id v c s =>
        have h1 : unwind (f :: st) = ⟨v, c, 0⟩ :: ⟨f.value, s, id⟩ :: st := by simp [unwind, descend, hr]
        have hl : lookupIndex (⟨v, c, 0⟩ :: ⟨f.value, s, id⟩ :: st) = lookupIndex (f :: st) ++ [id] := by
          rw [lookup_cons]; rfl
        have h2 : remaining (f :: st) = current (⟨v, c, 0⟩ :: ⟨f.value, s, id⟩ :: st) :: remaining (⟨v, c, 0⟩ :: ⟨f.value, s, id⟩ :: st) := by
          have hl2 : lookupIndex (⟨f.value, s, id⟩ :: st) = lookupIndex (f :: st) := rfl
          simp only [remaining, hr, nodes, current, hl, hl2, List.head?_cons, Option.bind_some, List.cons_append, List.append_assoc]
        rw [h1, h2]
        refine Yields.step (by simp) (ih _ ?_ _ rfl)
        rw [← hn, h2]; simp

/-- **C36.** Iterating over a tree visits the root and then all nodes, with their index lists, parents before children and siblings in order. -/
theorem C36_iteration (t : Node V) :
    Yields unwind (fun st => st = []) current [⟨t.1, t.2, 0⟩] (([], t.1) :: nodes [] t.2) := by
  have h := yields_unwind _ [⟨t.1, t.2, 0⟩] rfl
  have e : remaining [(⟨t.1, t.2, 0⟩ : Frame V)] = nodes [] t.2 := by simp [remaining, lookupIndex]
  rw [e] at h
  exact Yields.step (value := current) (by simp) h

theorem nodes_iff : ∀ (f : Forest V), Ordered f → ∀ (pre p : List Int) (w : Option V),
    ((p, w) ∈ nodes pre f ↔ ∃ q n, p = pre ++ q ∧ q ≠ [] ∧ findNode (none, f) q = some n ∧ n.1 = w) := by
  intro f
  induction f with
  | nil =>
    intro _ pre p w
    simp only [nodes, List.not_mem_nil, false_iff]
    rintro ⟨q, n, -, hq, h, -⟩
    cases q with
    | nil => exact hq rfl
    | cons x q => simp [findNode, Forest.child] at h
  | cons id v c s ihc ihs =>
    rintro ⟨h1, h2, h3⟩ pre p w
    rw [nodes, List.mem_cons, List.mem_append, ihc h1, ihs h2]
    have hnode : ∀ (w' : Option V) (f' : Forest V) q, q ≠ [] → findNode (w', f') q = findNode (none, f') q := by
      intro w' f' q hq
      cases q with
      | nil => exact absurd rfl hq
      | cons x q => rfl
    have hid : ∀ q, findNode (none, Forest.cons id v c s) (id :: q) = findNode (v, c) q := by
      intro q; rw [findNode]; simp [Forest.child]
    constructor
    · rintro (h | ⟨q, n, hp, hq, hn, hw⟩ | ⟨q, n, hp, hq, hn, hw⟩)
      · simp only [Prod.mk.injEq] at h
        exact ⟨[id], (v, c), h.1, by simp, hid [], h.2.symm⟩
      · refine ⟨id :: q, n, by rw [hp]; simp, by simp, ?_, hw⟩
        rw [hid, hnode v c q hq]; exact hn
      · cases q with
        | nil => exact absurd rfl hq
        | cons x q =>
          refine ⟨x :: q, n, hp, hq, ?_, hw⟩
          have hx : id < x := by
            by_contra hx
            have : s.child x = none := child_below h2 h3 (by omega)
            rw [findNode] at hn
            dsimp only at hn
            rw [this] at hn
            simp at hn
          rw [findNode] at hn ⊢
          dsimp only at hn ⊢
          rw [Forest.child, if_pos hx]; exact hn
    · rintro ⟨q, n, hp, hq, hn, hw⟩
      cases q with
      | nil => exact absurd rfl hq
      | cons x q =>
        rcases lt_trichotomy id x with hx | hx | hx
        · refine Or.inr (Or.inr ⟨x :: q, n, hp, hq, ?_, hw⟩)
          rw [findNode] at hn ⊢
          dsimp only at hn ⊢
          rw [Forest.child, if_pos hx] at hn; exact hn
        · subst hx
          rw [hid] at hn
          cases q with
          | nil =>
            simp only [findNode, Option.some.injEq] at hn
            left
            rw [hp, ← hw, ← hn]
          | cons y q =>
            refine Or.inr (Or.inl ⟨y :: q, n, by rw [hp]; simp, by simp, ?_, hw⟩)
            rw [← hnode v c _ (by simp)]; exact hn
        · rw [findNode] at hn
          dsimp only at hn
          rw [Forest.child, if_neg (by omega), if_pos (by omega)] at hn
          simp at hn

theorem nodes_prefix : ∀ (f : Forest V) (pre : List Int) (x : List Int × Option V), x ∈ nodes pre f → ∃ q, x.1 = pre ++ q ∧ q ≠ [] := by
  intro f
  induction f with
  | nil => intro pre x hx; simp [nodes] at hx
  | cons id v c s ihc ihs =>
    intro pre x hx
    rw [nodes, List.mem_cons, List.mem_append] at hx
    rcases hx with rfl | hx | hx
    · exact ⟨[id], rfl, by simp⟩
    · obtain ⟨q, h, _⟩ := ihc _ _ hx
      exact ⟨id :: q, by rw [h]; simp, by simp⟩
    · exact ihs _ _ hx

theorem lt_append_left (pre a b : List Int) : pre ++ a < pre ++ b ↔ a < b := by
  induction pre with
  | nil => rfl
  | cons x pre ih => rw [List.cons_append, List.cons_append, List.cons_lt_cons_iff, ih]; simp

theorem nodes_sorted : ∀ (f : Forest V), Ordered f → ∀ pre : List Int, (nodes pre f).Pairwise fun x y => x.1 < y.1 := by
  intro f
  induction f with
  | nil => intro _ _; simp [nodes]
  | cons id v c s ihc ihs =>
    rintro ⟨h1, h2, h3⟩ pre
    have hs : ∀ y ∈ nodes pre s, ∃ z q, y.1 = pre ++ z :: q ∧ id < z := by
      intro y hy
      obtain ⟨q, n, hp, hq, hn, -⟩ := (nodes_iff s h2 pre y.1 y.2).mp hy
      cases q with
      | nil => exact absurd rfl hq
      | cons z q =>
        refine ⟨z, q, hp, ?_⟩
        by_contra hz
        rw [findNode] at hn
        dsimp only at hn
        rw [child_below h2 h3 (by omega)] at hn
        simp at hn
    rw [nodes, List.pairwise_cons, List.pairwise_append]
    refine ⟨fun y hy => ?_, ihc h1 _, ihs h2 pre, fun x hx y hy => ?_⟩
    · rcases List.mem_append.mp hy with hy | hy
      · obtain ⟨q, h, hq⟩ := nodes_prefix _ _ _ hy
        rw [h, ← List.append_nil (pre ++ [id]), List.append_assoc, List.append_assoc, lt_append_left]
        cases q with
        | nil => exact absurd rfl hq
        | cons z q => simp
      · obtain ⟨z, q, h, hz⟩ := hs y hy
        dsimp only
        rw [h, lt_append_left, List.cons_lt_cons_iff]
        exact Or.inl hz
    · obtain ⟨q, h, -⟩ := nodes_prefix _ _ _ hx
      obtain ⟨z, q', h', hz⟩ := hs y hy
      rw [h, h', List.append_assoc, lt_append_left, List.singleton_append, List.cons_lt_cons_iff]
      exact Or.inl hz

/-- **C36.** For trees made by any history this visits exactly the known nodes, each once and in lexicographic order. -/
theorem C36_iteration_complete (h : History V) : ∃ l, Yields unwind (fun st => st = []) current [⟨h.tree.1, h.tree.2, 0⟩] l ∧
    (l.Pairwise fun x y => x.1 < y.1) ∧ ∀ p w, ((p, w) ∈ l ↔ ∃ n, findNode h.tree p = some n ∧ n.1 = w) := by
  refine ⟨_, C36_iteration h.tree, ?_, fun p w => ?_⟩
  · rw [List.pairwise_cons]
    refine ⟨fun y hy => ?_, nodes_sorted _ (history_ordered h) []⟩
    obtain ⟨q, hq, hne⟩ := nodes_prefix _ _ _ hy
    rw [hq, List.nil_append]
    cases q with
    | nil => exact absurd rfl hne
    | cons x q => simp
  · rw [List.mem_cons, nodes_iff _ (history_ordered h)]
    constructor
    · rintro (h' | ⟨q, n, hp, hq, hn, hw⟩)
      · simp only [Prod.mk.injEq] at h'
        rw [h'.1, h'.2]
        exact ⟨_, rfl, rfl⟩
      · rw [List.nil_append] at hp
        subst hp
        refine ⟨n, ?_, hw⟩
        cases p with
        | nil => exact absurd rfl hq
        | cons x p => exact hn
    · rintro ⟨n, hn, hw⟩
      cases p with
      | nil =>
        simp only [findNode, Option.some.injEq] at hn
        left; rw [← hw, hn]
      | cons x p => exact Or.inr ⟨x :: p, n, rfl, by simp, hn, hw⟩

end Moment.C36
