import Verif.Model.Tensor

/-! # Model of flattened indices
(cpp/lib_moment/tensor/{index_flattener.h, index_flattener.cpp}, cpp/mex_functions/functions/utility/flatten_indices.cpp)

Sizes are natural numbers, as in Model/Tensor.lean. Numbers are exported as natural numbers, not as `double`. -/

namespace Moment.Flatten

/-- `IndexFlattener` (index_flattener.h:19-31): the dimensions of the object and the indices for each dimension. -/
structure Flattener where
  dims : List Nat
  indices : List (List Nat)

/-- `index_sizes` (index_flattener.cpp:15-23, 44-48). -/
def Flattener.sizes (f : Flattener) : List Nat := f.indices.map List.length

/-- `FlattenedIndexIter::index` (index_flattener.cpp:26-36); `none` is a read out of range. -/
def Flattener.index (f : Flattener) (s : MultiDim.State) : Option (List Nat) :=
  (List.range s.indices.length).mapM fun d => ((f.indices[d]?).bind fun l => (s.indices[d]?).bind fun i => l[i]?)

/-- `FlattenedIndexIter::operator*` (index_flattener.cpp:38-41). `inner_product` runs over the length of the index: `none` if there are fewer strides. -/
def Flattener.value (f : Flattener) (s : MultiDim.State) : Option Nat :=
  (f.index s).bind fun v => if v.length ≤ f.dims.length then some (Tensor.indexToOffsetNoChecks true f.dims v) else none

/-- `IndexFlattener::size` (index_flattener.cpp:50-56). -/
def Flattener.size (f : Flattener) : Nat := if f.sizes.isEmpty then 0 else f.sizes.foldl (· * ·) 1

/-- `IndexFlattener::empty` (index_flattener.cpp:58-66). -/
def Flattener.empty (f : Flattener) : Bool := f.sizes.isEmpty || f.sizes.any (· == 0)

/-- The loop over the iterator: it is that of `MultiDimensionalIndexIterator<true>` on `index_sizes` (index_flattener.h:44-71). -/
def Flattener.Visits (f : Flattener) (l : List (Option Nat)) : Prop :=
  Yields (MultiDim.next true f.sizes) MultiDim.atEnd f.value (MultiDim.first f.sizes) l

/-- The check and shift of one number, for indices from zero and from one (flatten_indices.cpp:68-80, 82-96); `none` is an exception. -/
def shift (zero : Bool) (bound x : Nat) : Option Nat :=
  if zero then (if bound ≤ x then none else some x) else if x < 1 ∨ bound < x then none else some (x - 1)

/-- `FlattenIndicesParams` (flatten_indices.cpp:38-98), after arrays were read: `none` is undefined behaviour, because `dimensions.begin() + (size() - 1)` is no
iterator if there are no index arrays; `some none` an exception. -/
def params (zero : Bool) (dims : List Nat) (indices : List (List Nat)) : Option (Option Flattener) :=
  if dims.length < indices.length then some none
  else if indices.length = 0 then none
  else
    let final := (dims.drop (indices.length - 1)).foldl (· * ·) 1
    let bounds := (List.range indices.length).map fun d => if d + 1 < indices.length then dims.getD d 0 else final
    some (((bounds.zip indices).mapM fun x : Nat × List Nat => x.2.mapM (shift zero x.1)).map fun l => ⟨dims, l⟩)

/-- What happens to a call of the function. -/
inductive Outcome
  | undefined
  | refused
  | array (values : List Nat)
deriving DecidableEq

/-- `exportDoubleIndices` and the call (flatten_indices.cpp:20-35, 112-115). The array has `size` elements; there is undefined behaviour if the loop writes past
them, or reads out of range; elements that are not written are zero. -/
inductive Call (zero : Bool) (dims : List Nat) (indices : List (List Nat)) : Outcome → Prop
  | undefined : params zero dims indices = none → Call zero dims indices .undefined
  | refused : params zero dims indices = some none → Call zero dims indices .refused
  | bad {f} {l : List (Option Nat)} : params zero dims indices = some (some f) → f.Visits l → none ∈ l ∨ f.size < l.length → Call zero dims indices .undefined
  | good {f} {l : List Nat} : params zero dims indices = some (some f) → f.Visits (l.map some) → l.length ≤ f.size →
      Call zero dims indices (.array (l.map (if zero then id else (· + 1)) ++ List.replicate (f.size - l.length) 0))

end Moment.Flatten
