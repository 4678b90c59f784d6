import Verif.Model.MultiDimIndex

/-! # Model of `Tensor` (cpp/lib_moment/tensor/tensor.h): strides, offsets and indices

Sizes are natural numbers; `Verif.Props.C28_Tensor` proves that nothing computed here exceeds the element count, so that there is no wrap-around
whenever the element count itself is representable. -/

namespace Moment.Tensor

/-- `std::exclusive_scan(.., 1, std::multiplies{})` as used in tensor.h:31-33 and 36-38. -/
def scan : Nat → List Nat → List Nat
  | _, [] => []
  | a, d :: ds => a :: scan (a * d) ds

/-- `StrideCalculator` (tensor.h:24-42; the array version, 46-62, does the same). -/
def strides (lastMajor : Bool) (dims : List Nat) : List Nat :=
  if lastMajor then scan 1 dims else (scan 1 dims.reverse).reverse

/-- `index_to_offset_no_checks` (tensor.h:173-176): `std::inner_product`, which runs over the length of the index; reading past the strides does
not happen for an index of the right length. -/
def innerProduct : List Nat → List Nat → Nat → Nat
  | i :: is, s :: ss, acc => innerProduct is ss (acc + i * s)
  | _, _, acc => acc

def indexToOffsetNoChecks (lastMajor : Bool) (dims index : List Nat) : Nat := innerProduct index (strides lastMajor dims) 0

/-- `validate_index` (tensor.h:191-209), for unsigned index elements. True means: does not throw. -/
def validateIndex (dims index : List Nat) : Bool :=
  index.length == dims.length && (List.zipWith (fun i d => decide (¬ i ≥ d)) index dims).all id

/-- `validate_index_inclusive` (tensor.h:215-233). -/
def validateIndexInclusive (dims index : List Nat) : Bool :=
  index.length == dims.length && (List.zipWith (fun i d => decide (¬ i > d)) index dims).all id

/-- `index_to_offset` (tensor.h:181-184); `none` means that it throws. -/
def indexToOffset (lastMajor : Bool) (dims index : List Nat) : Option Nat :=
  if validateIndex dims index then some (indexToOffsetNoChecks lastMajor dims index) else none

/-- Last-index-major branch of `IndexToOffsetCalculator` (tensor.h:81-85, array version 112-116). -/
def byDims : List Nat → Nat → List Nat
  | [], _ => []
  | d :: ds, o => o % d :: byDims ds (o / d)

/-- First-index-major branch of `IndexToOffsetCalculator` (tensor.h:86-91, array version 117-121). -/
def byStrides : List Nat → Nat → List Nat
  | [], _ => []
  | s :: ss, o => o / s :: byStrides ss (o % s)

/-- `offset_to_index_no_checks` (tensor.h:238-241). -/
def offsetToIndexNoChecks (lastMajor : Bool) (dims : List Nat) (offset : Nat) : List Nat :=
  if lastMajor then byDims dims offset else byStrides (strides false dims) offset

/-- `calculateNumberOfElements` (tensor.h:285-290). -/
def elementCount (dims : List Nat) : Nat := if dims.isEmpty then 0 else dims.foldl (· * ·) 1

/-- `validate_offset` and `offset_to_index` (tensor.h:247-257, 275-278). -/
def offsetToIndex (lastMajor : Bool) (dims : List Nat) (offset : Nat) : Option (List Nat) :=
  if offset ≥ elementCount dims then none else some (offsetToIndexNoChecks lastMajor dims offset)

/-- `validate_range` (tensor.h:262-270). -/
def validateRange (dims mins maxs : List Nat) : Bool :=
  validateIndex dims mins && validateIndexInclusive dims maxs && (List.zipWith (fun a b => decide (¬ a > b)) mins maxs).all id

end Moment.Tensor
