import Mathlib.Data.List.Basic

/-! # Model of recursive storage (cpp/lib_moment/utilities/recursive_index.h)

Trees whose nodes hold a value each. Offsets are `ptrdiff_t`, numbers of children `size_t`; overflow is left out. -/

namespace Moment.Recursive

/-- `RecursiveStorage` (recursive_index.h:23-37): `object`, `index_offset`, `subindices`. -/
inductive Store (α : Type)
  | node (obj : α) (off : Int) (children : List (Store α))

variable {α S : Type}

/-- `object` (recursive_index.h:26). -/
def Store.obj : Store α → α
  | .node o _ _ => o

/-- `index_offset` (recursive_index.h:27). -/
def Store.off : Store α → Int
  | .node _ f _ => f

/-- `subindices` (recursive_index.h:28). -/
def Store.children : Store α → List (Store α)
  | .node _ _ cs => cs

/-- `num_children` (recursive_index.h:42). -/
def Store.numChildren (t : Store α) : Nat := t.children.length

/-- The child that an index selects (recursive_index.h:54-57); `none` is a read outside `subindices` (an assertion in debug builds). -/
def Store.child (t : Store α) (j : Nat) : Option (Store α) :=
  if 0 ≤ (j : Int) + t.off then t.children[((j : Int) + t.off).toNat]? else none

/-- `subtree` (recursive_index.h:49-74). -/
def Store.subtree (t : Store α) : List Nat → Option (Store α)
  | [] => some t
  | j :: js => (t.child j).bind fun c => c.subtree js

/-- `set` (recursive_index.h:80-102). -/
def Store.set (t : Store α) : List Nat → α → Option (Store α)
  | [], x => some (.node x t.off t.children)
  | j :: js, x => (t.child j).bind fun c => (c.set js x).map fun c' =>
      .node t.obj t.off (t.children.set ((j : Int) + t.off).toNat c')

/-- Where a reference points that a function returns: into the tree, or into a local copy that no longer exists. -/
inductive Ref
  | stored
  | gone
  deriving DecidableEq

/-- `access()` (recursive_index.h:105-107). -/
def Store.access (t : Store α) : α × Ref := (t.obj, .stored)

/-- `access(indices)` (recursive_index.h:114-127): `auto place` is a copy of the subtree, and the reference is to its value. -/
def Store.accessAt (t : Store α) (idx : List Nat) : Option (α × Ref) :=
  (t.subtree idx).map fun place => (place.access.1, .gone)

mutual
/-- `do_visit` (recursive_index.h:144-169): the visitor may change the value; `indices` is a stack whose last entry is removed in the end. -/
def Store.doVisit (f : S → α → List Nat → S × α) : Store α → List Nat → S → Store α × List Nat × S
  | .node o off cs, stack, s =>
    let r := f s o stack
    let v := visitAll f off 0 cs stack r.1
    (.node r.2 off v.1, if v.2.1.isEmpty then v.2.1 else v.2.1.dropLast, v.2.2)

/-- The loop over the children (recursive_index.h:148-151, 162-165). -/
def visitAll (f : S → α → List Nat → S × α) (off : Int) : Nat → List (Store α) → List Nat → S → List (Store α) × List Nat × S
  | _, [], stack, s => ([], stack, s)
  | k, c :: cs, stack, s =>
    let r := c.doVisit f (stack ++ [((k : Int) - off).toNat]) s
    let v := visitAll f off (k + 1) cs r.2.1 r.2.2
    (r.1 :: v.1, v.2.1, v.2.2)
end

/-- `visit` (recursive_index.h:130-141): the tree afterwards, and the state of the visitor. -/
def Store.visit (f : S → α → List Nat → S × α) (t : Store α) (s : S) : Store α × S :=
  let r := t.doVisit f [] s
  (r.1, r.2.2)

/-- `WidthByDepthRecursiveStorage` (recursive_index.h:174-188). -/
def wide (zero : α) (width : Nat) : Nat → Store α
  | 0 => .node zero 0 []
  | d + 1 => .node zero 0 (List.replicate width (wide zero width d))

/-- The loop of `MonotonicChunkRecursiveStorage` over chunks (recursive_index.h:202-216); `mk` makes a node of smaller depth. -/
def chunkLoop (zero : α) (mk : List Nat → Int → Store α) : List Nat → Int → List (Store α)
  | [], _ => []
  | s :: rest, off =>
    List.replicate s (if rest.isEmpty then .node zero (off - s) [] else mk rest (off - s)) ++ chunkLoop zero mk rest (off - s)

/-- `MonotonicChunkRecursiveStorage` (recursive_index.h:190-222). -/
def chunked (zero : α) : Nat → List Nat → Int → Store α
  | 0, _, off => .node zero off []
  | d + 1, sizes, off => .node zero off (chunkLoop zero (chunked zero d) sizes off)

end Moment.Recursive
