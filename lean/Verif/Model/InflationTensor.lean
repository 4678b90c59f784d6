import Verif.Model.InflationContext
import Verif.Model.CollinsGisin

/-! # Model of Collins-Gisin and probability tensors of inflation scenarios (cpp/lib_moment/scenarios/inflation/inflation_collins_gisin.cpp,
inflation_probability_tensor.cpp)

Every copy of every observable is a dimension of the tensors. Look-ups, storage and gaps are those of `CollinsGisin` (Model/CollinsGisin.lean). Numbers are not
bounded; 16-bit overflow of counts is left out. -/

namespace Moment.Inflation
open Moment.Symbols (Table)
open Moment.Gisin (Slot Entry)

/-- `global_variant_indices` (inflation_context.cpp:120-131): pairs of observable and variant. -/
def variants (c : Ctx) : List (Nat × Nat) :=
  c.net.observables.zipIdx.flatMap fun (ob, o) => (List.range (ob.copies c.infl)).map fun v => (o, v)

/-- `obs_variant_to_index` (inflation_context.cpp:554-559), with `variant_offset` (inflation_context.cpp:124-128); `none` if the observable does not exist,
which is undefined. The variant is not checked. -/
def globalVariant (c : Ctx) (o v : Nat) : Option Nat :=
  if o < c.net.observables.length then some (((c.net.observables.take o).map (Obs.copies c.infl)).sum + v) else none

/-- `make_dimensions` (inflation_collins_gisin.cpp:21-40). -/
def gisinDims (c : Ctx) : List Nat :=
  c.net.observables.flatMap fun ob => List.replicate (ob.copies c.infl) (if ob.projective then ob.outcomes else 2)

/-- `dimensionInfo[d].op_ids` (inflation_collins_gisin.cpp:50-76); `none` stands for -1. -/
def operatorIds (c : Ctx) : List (List (Option Nat)) :=
  c.net.observables.zipIdx.flatMap fun (ob, o) => (List.range (ob.copies c.infl)).map fun v =>
    if ob.projective then none :: (List.range (ob.outcomes - 1)).map fun k => some (variantOffset c o v + k)
    else [none, some (variantOffset c o v)]

/-- `gmIndex` (inflation_collins_gisin.cpp:62, 71): the loop counts the dimensions. -/
def gisinSlots (c : Ctx) : List Slot :=
  (c.net.observables.flatMap fun ob => List.replicate (ob.copies c.infl) (if ob.projective then ob.outcomes - 1 else 1)).zipIdx.map fun (k, d) => ⟨d, 1, k⟩

/-- `cgi_to_op_seq` (probability/collins_gisin.cpp:63-74). -/
def gisinWord (c : Ctx) (index : List Nat) : Option HSeq := (Gisin.operators (operatorIds c) index).map (sequence c)

/-- `InflationCollinsGisin::InflationCollinsGisin` (inflation_collins_gisin.cpp:43-85): storage is explicit up to 1024 elements (collins_gisin.h:55,
auto_storage_tensor.h:get_storage_type). -/
noncomputable def makeGisin (c : Ctx) (t : Table) : Option Gisin.Tensor :=
  if Tensor.elementCount (gisinDims c) > 1024 then some ⟨true, [], []⟩
  else ((Gisin.indices (gisinDims c)).mapM (gisinWord c)).map fun ws =>
    let r := Gisin.search (env c) t 0 (ws.map Entry.blank)
    ⟨false, r.1, r.2⟩

/-- The element at an index that is in range (auto_storage_tensor.h:77-85), for the table as it is now. -/
noncomputable def gisinElement (c : Ctx) (t : Table) (T : Gisin.Tensor) (index : List Nat) : Option Entry :=
  if T.isVirtual then (gisinWord c index).map (Entry.make (env c) t)
  else T.data[Tensor.indexToOffsetNoChecks true (gisinDims c) index]?

/-- The element at an offset that is in range (auto_storage_tensor.h:88-96). -/
noncomputable def gisinAt (c : Ctx) (t : Table) (T : Gisin.Tensor) (k : Nat) : Option Entry :=
  if T.isVirtual then (gisinWord c (Tensor.offsetToIndexNoChecks true (gisinDims c) k)).map (Entry.make (env c) t)
  else T.data[k]?

/-- What probability tensors read. -/
noncomputable def gisinView (c : Ctx) (t : Table) (T : Gisin.Tensor) : Probability.Gisin :=
  ⟨gisinDims c, fun k => (gisinAt c t T k).bind Entry.id⟩

/-- Outcomes per copy of the observables, 0 if it is not projective; `make_construct_info` (inflation_probability_tensor.cpp:15-33) gives
`Probability.inflationInfo` of these. -/
def variantOutcomes (c : Ctx) : List Nat := c.net.observables.flatMap fun ob => List.replicate (ob.copies c.infl) ob.outcomes

/-- Dimensions of the probability tensor (inflation_probability_tensor.cpp:18-27). -/
def fullDims (c : Ctx) : List Nat :=
  c.net.observables.flatMap fun ob => List.replicate (ob.copies c.infl) (if ob.projective then ob.outcomes + 1 else 2)

/-- The bounds that `InflationProbabilityTensor::measurement_to_range` sets (inflation_probability_tensor.cpp:46-95): 1 to the dimension. A number above
`DimensionCount` is refused, the number `DimensionCount` is read out of bounds; `Gisin.ranges` does the same with the length of this list. -/
def fullSlots (c : Ctx) : List Slot := (fullDims c).zipIdx.map fun (k, d) => ⟨d, 1, k - 1⟩

/-- Requests by observable and variant, with the outcome if it is fixed; free measurements come first. `none` is undefined. -/
def requests (c : Ctx) (reqs : List ((Nat × Nat) × Option Nat)) : Option (List (Nat × Option Nat)) :=
  reqs.mapM fun r => (globalVariant c r.1.1 r.1.2).map fun g => (g, r.2)

/-- `InflationCollinsGisin::measurement_to_range` (inflation_collins_gisin.cpp:88-139); `none` is undefined, `some none` an exception. -/
def gisinRange (c : Ctx) (reqs : List ((Nat × Nat) × Option Nat)) : Option (Option (List Nat × List Nat)) :=
  (requests c reqs).bind (Gisin.range (gisinSlots c) (gisinDims c).length)

/-- `InflationProbabilityTensor::measurement_to_range` (inflation_probability_tensor.cpp:46-95). -/
def fullRange (c : Ctx) (reqs : List ((Nat × Nat) × Option Nat)) : Option (Option (List Nat × List Nat)) :=
  (requests c reqs).bind (Gisin.range (fullSlots c) (fullDims c).length)

/-- `outcome_to_element` (inflation_probability_tensor.cpp:98-114): the index of the element, set like the lower bounds of ranges. -/
def outcomeIndex (c : Ctx) (fixed : List ((Nat × Nat) × Nat)) : Option (Option (List Nat)) :=
  (fullRange c (fixed.map fun r => (r.1, some r.2))).map fun r => r.map Prod.fst

end Moment.Inflation
