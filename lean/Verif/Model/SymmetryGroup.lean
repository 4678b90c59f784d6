import Mathlib.Algebra.Group.Defs

/-! # Model of the generation of symmetry groups
(cpp/lib_moment/scenarios/symmetrized/group.cpp)

Matrices are elements of a monoid, and `isApprox` is equality; `pruned` does nothing. The case without generators (group.cpp:126-129) is left out, as
its result, the identity matrix of dimension one, does not depend on anything. -/

namespace Moment.SymGroup

variable {M : Type} [Monoid M] [DecidableEq M]

/-- The loop over the powers of the first generator (group.cpp:140-146): the last power, and the elements. -/
def orbit (g : M) (max : Nat) (elem : M) (index : Nat) (elements : List M) : M × List M :=
  if index < max ∧ ¬ elem = 1 then orbit g max (elem * g) (index + 1) (elements ++ [elem]) else (elem, elements)
termination_by max - index

/-- The loop over `other_gen` (group.cpp:177-193); `c` is `elements[rep_pos]`, which does not change. -/
def cosets (order : Nat) (c : M) : List M → List M → List M
  | [], elements => elements
  | o :: gens, elements =>
    if c * o ∈ elements then cosets order c gens elements
    else cosets order c gens (elements ++ (elements.take order).map (· * (c * o)))

/-- The do-while loop (group.cpp:175-194). An index that is out of range gives no result. -/
def cosetLoop (gens : List M) (order pos : Nat) (elements : List M) : Option (List M) :=
  match elements[pos]? with
  | none => none
  | some c =>
    let elements' := cosets order c gens elements
    if pos + order < elements'.length then cosetLoop gens order (pos + order) elements' else some elements'
partial_fixpoint

/-- The loop over the remaining generators (group.cpp:154-195). -/
def extend (all : List M) : List M → List M → Option (List M)
  | [], elements => some elements
  | g :: gens, elements =>
    if g ∈ elements then extend all gens elements
    else (cosetLoop all elements.length elements.length (elements ++ elements.map (· * g))) >>= extend all gens

/-- Outcomes of a call that can throw. -/
inductive Out (α : Type)
  | ok (a : α)
  | throws

/-- `Group::dimino_generation` (group.cpp:123-198) for the generators `g :: gens`. -/
def dimino (g : M) (gens : List M) (max : Nat) : Option (Out (List M)) :=
  let o := orbit g max g 0 [1]
  if o.1 = 1 then (extend (g :: gens) gens o.2).map .ok else some .throws

end Moment.SymGroup
