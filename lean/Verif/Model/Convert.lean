import Verif.Model.Tensor
import Mathlib.Data.Real.Basic
import Mathlib.Logic.Function.Basic

/-! Model of cpp/lib_moment/scenarios/locality/tensor_conversion.cpp: conversion between Collins-Gisin and full-correlator tensors. Exact real numbers
stand for `double`; a tensor is a function of the offset. -/

namespace Moment.Convert

/-- `index_to_offset` for a valid index; the tensor is column-major (tensor_conversion.h:28). -/
def off (dA i j : Nat) : Nat := Tensor.indexToOffsetNoChecks true [dA, 0] [i, j]

/-- The values of a loop counter from 1 up to the dimension (exclusive). -/
def from1 (d : Nat) : List Nat := List.range' 1 (d - 1)

/-- The marginals of a tensor (tensor_conversion.cpp:32-63 and, the same, 101-132). -/
def edgeB (t : Nat → ℝ) (dA dB : Nat) : ℝ := (from1 dB).foldl (fun acc j => acc + t (off dA 0 j)) 0

def edgeA (t : Nat → ℝ) (dA : Nat) : ℝ := (from1 dA).foldl (fun acc i => acc + t (off dA i 0)) 0

/-- The nested loop over both indices (tensor_conversion.cpp:53-60), which adds to an entry of each vector. -/
def centre (t : Nat → ℝ) (dA dB : Nat) (alice bob : Nat → ℝ) : (Nat → ℝ) × (Nat → ℝ) :=
  (from1 dA).foldl (fun ab i => (from1 dB).foldl (fun ab j =>
    (Function.update ab.1 i (ab.1 i + t (off dA i j)), Function.update ab.2 j (ab.2 j + t (off dA i j)))) ab) (alice, bob)

/-- Both vectors of marginals. -/
def marginals (t : Nat → ℝ) (dA dB : Nat) : (Nat → ℝ) × (Nat → ℝ) :=
  centre t dA dB (Function.update (fun _ => 0) 0 (edgeB t dA dB)) (Function.update (fun _ => 0) 0 (edgeA t dA))

/-- `central_sum` (tensor_conversion.cpp:63). -/
def central (alice : Nat → ℝ) (dA : Nat) : ℝ := ((from1 dA).map alice).sum

/-- Writing the result: constant, terms of the first party, terms of the second, and joint terms (tensor_conversion.cpp:65-91, 134-160). -/
def write (dA dB : Nat) (const : ℝ) (termA termB : Nat → ℝ) (termAB : Nat → Nat → ℝ) : Nat → ℝ :=
  let o0 := Function.update (fun _ => (0 : ℝ)) 0 const
  let o1 := (from1 dA).foldl (fun o i => Function.update o (off dA i 0) (termA i)) o0
  let o2 := (from1 dB).foldl (fun o j => Function.update o (off dA 0 j) (termB j)) o1
  (from1 dA).foldl (fun o i => (from1 dB).foldl (fun o j => Function.update o (off dA i j) (termAB i j)) o) o2

/-- `cg_to_fc_matrix` (tensor_conversion.cpp:29-91). -/
noncomputable def cgToFc (dA dB : Nat) (cg : Nat → ℝ) : Nat → ℝ :=
  let (alice, bob) := marginals cg dA dB
  write dA dB (cg 0 + alice 0 / 2 + bob 0 / 2 + central alice dA / 4) (fun i => cg (off dA i 0) / 2 + alice i / 4) (fun j => cg (off dA 0 j) / 2 + bob j / 4)
    (fun i j => cg (off dA i j) / 4)

/-- `fc_to_cg_matrix` (tensor_conversion.cpp:93-154). -/
noncomputable def fcToCg (dA dB : Nat) (fc : Nat → ℝ) : Nat → ℝ :=
  let (alice, bob) := marginals fc dA dB
  write dA dB (fc 0 + central alice dA - alice 0 - bob 0) (fun i => 2 * fc (off dA i 0) - 2 * alice i) (fun j => 2 * fc (off dA 0 j) - 2 * bob j)
    (fun i j => 4 * fc (off dA i j))

/-- Constructor of `TensorConvertor` (tensor_conversion.cpp:18-27, 157-172): the dimensions, or `none` when it throws. -/
def convertor (operatorsPerParty outcomesPerMeasurement : List Nat) : Option (List Nat) :=
  if ¬ outcomesPerMeasurement.all (· == 2) then none
  else if operatorsPerParty.length ≠ 2 then none
  else some (operatorsPerParty.map (· + 1))

/-- `collins_gisin_to_full_correlator` and `full_correlator_to_collins_gisin` (tensor_conversion.cpp:174-200) for a tensor with the given number of entries. -/
noncomputable def cgToFcChecked (dims : List Nat) (size : Nat) (t : Nat → ℝ) : Option (Nat → ℝ) :=
  if size ≠ Tensor.elementCount dims then none
  else match dims with
    | [dA, dB] => some (cgToFc dA dB t)
    | _ => none

noncomputable def fcToCgChecked (dims : List Nat) (size : Nat) (t : Nat → ℝ) : Option (Nat → ℝ) :=
  if size ≠ Tensor.elementCount dims then none
  else match dims with
    | [dA, dB] => some (fcToCg dA dB t)
    | _ => none

end Moment.Convert
