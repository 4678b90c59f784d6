import Verif.Model.Iter

/-! # Model of `MultiDimensionalIndexIterator` (cpp/lib_moment/tensor/multi_dimensional_index_iterator.h)
`MultiDimensionalOffsetIndexIterator`, and `MultiOperatorIterator` (cpp/lib_moment/dictionary/multi_operator_iterator.h) -/

namespace Moment.MultiDim

/-- Data members (multi_dimensional_index_iterator.h:24-28). `max_vals` and the direction are parameters below. -/
structure State where
  indices : List Nat
  global : Nat
  done : Bool

/-- Constructor with `end = false` (multi_dimensional_index_iterator.h:31-53). -/
def first (dims : List Nat) : State :=
  let done := dims.isEmpty || dims.any (· == 0)
  { indices := List.replicate dims.length 0,
    global := if done then dims.foldl (· * ·) 1 else 0,
    done }

/-- The carry loop of `operator++` for `reversed_indices` (multi_dimensional_index_iterator.h:57-72): position 0 runs fastest. The second component
is true if the last position overflowed, which sets `is_done`. -/
def carry : List Nat → List Nat → List Nat × Bool
  | d :: ds, i :: is =>
    if i + 1 ≥ d then
      let r := carry ds is
      (0 :: r.1, r.2)
    else ((i + 1) :: is, false)
  | _, is => (is, true)

/-- `operator++` (multi_dimensional_index_iterator.h:55-96). For forward indices the loop (lines 74-90) starts at the last position, that is, it
is the loop above on the reversed vectors. -/
def next (reversed : Bool) (dims : List Nat) (s : State) : State :=
  let r := if reversed then carry dims s.indices
    else
      let x := carry dims.reverse s.indices.reverse
      (x.1.reverse, x.2)
  { indices := r.1, global := s.global + 1, done := s.done || r.2 }

/-- `operator!` (multi_dimensional_index_iterator.h:152-154). -/
def atEnd (s : State) : Prop := s.done = true

/-- `operator*` and `global()` (multi_dimensional_index_iterator.h:129-131, 156-158). -/
def value (s : State) : List Nat × Nat := (s.indices, s.global)

end Moment.MultiDim

namespace Moment.MultiDimOffset

/-! `MultiDimensionalOffsetIndexIterator` (cpp/lib_moment/tensor/multi_dimensional_offset_index_iterator.h), the iterator over a sub-box of a
tensor. -/

/-- Constructor (multi_dimensional_offset_index_iterator.h:35-60). -/
def first (mins maxs : List Nat) : MultiDim.State :=
  let done := mins.isEmpty || (List.zipWith (· == ·) mins maxs).any id
  { indices := mins, global := if done then maxs.foldl (· * ·) 1 else 0, done }

/-- The carry loop of `operator++` for `reversed_indices` (multi_dimensional_offset_index_iterator.h:71-87). -/
def carry : List Nat → List Nat → List Nat → List Nat × Bool
  | m :: ms, M :: Ms, i :: is =>
    if i + 1 ≥ M then
      let r := carry ms Ms is
      (m :: r.1, r.2)
    else ((i + 1) :: is, false)
  | _, _, is => (is, true)

/-- `operator++` (multi_dimensional_offset_index_iterator.h:68-112). -/
def next (reversed : Bool) (mins maxs : List Nat) (s : MultiDim.State) : MultiDim.State :=
  let r := if reversed then carry mins maxs s.indices
    else
      let x := carry mins.reverse maxs.reverse s.indices.reverse
      (x.1.reverse, x.2)
  { indices := r.1, global := s.global + 1, done := s.done || r.2 }

/-- `operator!` (multi_dimensional_offset_index_iterator.h:172-174). -/
def atEnd (s : MultiDim.State) : Prop := s.done = true

/-- `operator*` and `global()` (multi_dimensional_offset_index_iterator.h:145-147, 176-178). -/
def value (s : MultiDim.State) : List Nat × Nat := (s.indices, s.global)

end Moment.MultiDimOffset

namespace Moment.MultiOper

/-- Data members of `MultiOperatorIterator` (multi_operator_iterator.h:21-37); word length and operator range are parameters. -/
structure State where
  indices : List Nat
  done : Bool

/-- Offset 'begin' constructor (multi_operator_iterator.h:62-71). The other constructor (46-53) is the case `offset = 0`. -/
def first (length numOps offset : Nat) : State :=
  { indices := List.replicate length offset, done := length == 0 || offset == offset + numOps }

/-- The loop of `operator++` (multi_operator_iterator.h:75-92) on the reversed vector of indices. -/
def carry (min max : Nat) : List Nat → List Nat × Bool
  | [] => ([], true)
  | i :: is =>
    if i + 1 = max then
      let r := carry min max is
      (min :: r.1, r.2)
    else ((i + 1) :: is, false)

/-- `operator++` (multi_operator_iterator.h:75-92). -/
def next (numOps offset : Nat) (s : State) : State :=
  let r := carry offset (offset + numOps) s.indices.reverse
  { indices := r.1.reverse, done := s.done || r.2 }

def atEnd (s : State) : Prop := s.done = true

/-- `raw()` (multi_operator_iterator.h:133-135). -/
def value (s : State) : List Nat := s.indices

end Moment.MultiOper
