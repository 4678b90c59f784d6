import Mathlib.Data.List.Basic

/-! Model of cpp/lib_moment/utilities/index_tree.h. A node is its value and its children; the children are a list of nodes with their ids. -/

namespace Moment.Index

/-- The children of a node: id, value and children of the first one, and the further ones (index_tree.h:27-29). -/
inductive Forest (V : Type) where
  | nil : Forest V
  | cons : Int → Option V → Forest V → Forest V → Forest V

/-- A node: value and children. The id of the root plays no role. -/
abbrev Node (V : Type) := Option V × Forest V

variable {V : Type}

/-- The child with a given id: `std::lower_bound` and the test for the right id (index_tree.h:285-294, 343-354). The ids are ascending, so the lower
bound is the first child that is not below. -/
def Forest.child : Forest V → Int → Option (Node V)
  | .nil, _ => none
  | .cons id v c s, x => if id < x then s.child x else if id ≠ x then none else some (v, c)

/-- `find` (index_tree.h:278-295). -/
def find : Node V → List Int → Option V
  | t, [] => t.1
  | t, x :: p => match t.2.child x with
    | none => none
    | some t' => find t' p

/-- `find_node` (index_tree.h:326-337). -/
def findNode : Node V → List Int → Option (Node V)
  | t, [] => some t
  | t, x :: p => match t.2.child x with
    | none => none
    | some t' => findNode t' p

/-- `find_node_or_return_hint` (index_tree.h:300-321). -/
def findOrHint : Node V → List Int → Node V × List Int
  | t, [] => (t, [])
  | t, x :: p => match t.2.child x with
    | none => (t, x :: p)
    | some t' => findOrHint t' p

/-- `add_node` (index_tree.h:255-273), with what is done to the child afterwards. -/
def Forest.update : Forest V → Int → (Node V → Node V) → Forest V
  | .nil, x, g => .cons x (g (none, .nil)).1 (g (none, .nil)).2 .nil
  | .cons id v c s, x, g =>
    if id < x then .cons id v c (s.update x g)
    else if id ≠ x then .cons x (g (none, .nil)).1 (g (none, .nil)).2 (.cons id v c s)
    else .cons id (g (v, c)).1 (g (v, c)).2 s

/-- `add` (index_tree.h:203-216). -/
def add (e : V) : List Int → Node V → Node V
  | [], t => (some e, t.2)
  | x :: p, t => (t.1, t.2.update x (add e p))

/-- `add_if_new` (index_tree.h:223-247): the new tree, the value found or written, and whether it was written. -/
def addIfNew (e : V) : List Int → Node V → Bool → Node V × V × Bool
  | [], t, did =>
    if did then ((some e, t.2), e, true)
    else match t.1 with
      | none => ((some e, t.2), e, true)
      | some w => (t, w, false)
  | x :: p, t, did =>
    let child := t.2.child x
    let r := addIfNew e p (child.getD (none, .nil)) (did || child.isNone)
    ((t.1, t.2.update x fun _ => r.1), r.2)

/-- The loop over the children in `merge_in` (index_tree.h:359-391). After a child was moved across, the iterator of this tree points to it and is moved on in
the next round, because the ids of the other children are larger. -/
def Forest.merge : Forest V → Forest V → Forest V
  | .nil, b => b
  | .cons i v c s, .nil => .cons i v c s
  | .cons i v c s, .cons j w d r =>
    if i < j then .cons i v c (s.merge (.cons j w d r))
    else if i > j then .cons j w d (Forest.merge (.cons i v c s) r)
    else .cons i (if w.isSome then w else v) (c.merge d) (s.merge r)
termination_by a b => sizeOf a + sizeOf b
decreasing_by all_goals (simp_wf; try omega)

/-- `merge_in` (index_tree.h:359-391). -/
def merge (a b : Node V) : Node V := (if b.1.isSome then b.1 else a.1, a.2.merge b.2)

/-! ## Iteration -/

/-- An entry of the stack (index_tree.h:45-70): the value of the node, the children not yet visited, and the id of the child visited last. -/
structure Frame (V : Type) where
  value : Option V
  rest : Forest V
  last : Int

/-- `try_descend` (index_tree.h:166-179), innermost entry first; `none`: no more children. -/
def descend : List (Frame V) → Option (List (Frame V))
  | [] => none
  | f :: st => match f.rest with
    | .nil => none
    | .cons id v c s => some (⟨v, c, 0⟩ :: ⟨f.value, s, id⟩ :: st)

/-- `operator++` (index_tree.h:135-156). -/
def unwind : List (Frame V) → List (Frame V)
  | [] => []
  | f :: st => match descend (f :: st) with
    | some st' => st'
    | none => unwind st

/-- `lookup_index` (index_tree.h:114-123). -/
def lookupIndex (st : List (Frame V)) : List Int := (st.drop 1).reverse.map Frame.last

/-- The index and the value of the node an iterator points to. -/
def current (st : List (Frame V)) : List Int × Option V := (lookupIndex st, (st.head?.bind Frame.value))

end Moment.Index
