import Verif.Model.InflationTensor
import Verif.Model.Locality
import Mathlib.Data.Rat.Floor

/-! # Model of reading indices of measurements and outcomes
(cpp/mex_functions/import/read_measurement_indices.{h,cpp})

An array has dimensions, and entries by row and column. Entries are rational numbers: every finite number of any of the numeric types is one; NaN is left out, and
so are arrays of texts, which are read entry by entry. Messages are left out. Conversions of numbers of parties, measurements, variants and outcomes to the narrower
types of the library are left out. -/

namespace Moment.IndexInput

/-- What reading gives: a value, an exception, or a conversion out of range, which is undefined. -/
inductive Res (α : Type) where
  | value (a : α)
  | refused
  | undefined
  deriving DecidableEq, Repr

def Res.map {α β : Type} (f : α → β) : Res α → Res β
  | .value a => .value (f a)
  | .refused => .refused
  | .undefined => .undefined

/-- A MATLAB array. -/
structure Arr where
  dims : List Nat
  entry : Nat → Nat → ℚ

/-- `getNumberOfElements`, `isEmpty`. -/
def Arr.count (a : Arr) : Nat := a.dims.prod

/-- One row of `IndexReaderVisitor::dense` (read_measurement_indices.cpp:54-70): entries below 1 are refused, then one is taken off and the rest converted to `size_t`,
which cuts off fractions. -/
def row (cells : List ℚ) : Res (List Nat) :=
  if cells.any (· < 1) then .refused
  else if cells.any (fun x => 2 ^ 64 ≤ x - 1) then .undefined
  else .value (cells.map fun x => ⌊x - 1⌋.toNat)

/-- The loop over the rows (read_measurement_indices.cpp:53-71). -/
def rows : List (List ℚ) → Res (List (List Nat))
  | [] => .value []
  | cells :: rest => match row cells with
    | .value x => (rows rest).map (x :: ·)
    | .refused => .refused
    | .undefined => .undefined

/-- `RawIndexPair::read_list` and `RawIndexTriplet::read_list` (read_measurement_indices.cpp:43-73, 120-128), where `width` is 2 or 3. The number of columns is only
asserted. -/
def readList (width : Nat) (a : Arr) : Res (List (List Nat)) :=
  if a.count = 0 then .value []
  else rows ((List.range (a.dims.getD 0 0)).map fun i => (List.range width).map fun j => a.entry i j)

/-- `RawIndexPair` (read_measurement_indices.h:36-40). -/
def pair (l : List Nat) : Nat × Nat := (l.getD 0 0, l.getD 1 0)

/-- `RawIndexTriplet` (read_measurement_indices.h:55-59). -/
def triplet (l : List Nat) : Nat × Nat × Nat := (l.getD 0 0, l.getD 1 0, l.getD 2 0)

/-- Pairs for measurements, triplets for outcomes. -/
abbrev Lists := List (Nat × Nat) × List (Nat × Nat × Nat)

/-- `read_pairs_and_triplets` with one array (read_measurement_indices.cpp:131-149). -/
def readOne (a : Arr) : Res Lists :=
  if a.count = 0 then .value ([], [])
  else if a.dims.length ≠ 2 then .refused
  else if a.dims.getD 1 0 = 2 then (readList 2 a).map fun l => (l.map pair, [])
  else if a.dims.getD 1 0 = 3 then (readList 3 a).map fun l => ([], l.map triplet)
  else .refused

/-- `read_pairs_and_triplets` with two arrays (read_measurement_indices.cpp:151-170). The order in which the two lists are read is not specified; where one is refused
and the other undefined, the model takes the first. -/
def readTwo (a b : Arr) : Res Lists :=
  if a.count ≠ 0 ∧ (a.dims.length ≠ 2 ∨ a.dims.getD 1 0 ≠ 2) then .refused
  else if b.count ≠ 0 ∧ (b.dims.length ≠ 2 ∨ b.dims.getD 1 0 ≠ 3) then .refused
  else match readList 2 a with
    | .value l => (readList 3 b).map fun m => (l.map pair, m.map triplet)
    | .refused => .refused
    | .undefined => .undefined

/-- `PMConvertor::read_pm_index` (read_measurement_indices.cpp:173-189). A scenario lists the outcome counts of the measurements of the parties. -/
def readPM (s : Locality.Scenario) (x : Nat × Nat) : Option (Nat × Nat) :=
  if x.1 ≥ s.length then none
  else if x.2 ≥ (s.getD x.1 []).length then none
  else some x

/-- `PMConvertor::read_pmo_index` (read_measurement_indices.cpp:191-217), with `num_operators` (measurement.h: one less than the outcomes). -/
def readPMO (s : Locality.Scenario) (inclusive : Bool) (x : Nat × Nat × Nat) : Option (Nat × Nat × Nat) :=
  if x.1 ≥ s.length then none
  else
    let party := s.getD x.1 []
    if x.2.1 ≥ party.length then none
    else
      let outcomes := party.getD x.2.1 0
      if x.2.2 ≥ (if inclusive then outcomes else outcomes - 1) then none else some x

/-- `OVConvertor::read_ov_index` (read_measurement_indices.cpp:253-268). -/
def readOV (c : Inflation.Ctx) (x : Nat × Nat) : Option (Nat × Nat) :=
  if x.1 ≥ c.net.observables.length then none
  else if x.2 ≥ (Inflation.obsAt c x.1).copies c.infl then none
  else some x

/-- `OVConvertor::read_ovo_index` (read_measurement_indices.cpp:270-302). -/
def readOVO (c : Inflation.Ctx) (inclusive : Bool) (x : Nat × Nat × Nat) : Option (Nat × Nat × Nat) :=
  if x.1 ≥ c.net.observables.length then none
  else
    let ob := Inflation.obsAt c x.1
    if x.2.1 ≥ ob.copies c.infl then none
    else if ob.projective then
      if x.2.2 > (if inclusive then ob.outcomes else ob.outcomes - 1) then none else some x
    else if x.2.2 ≠ 0 then none else some x

/-- `read_pm_index_list`, `read_pmo_index_list`, `read_ov_index_list`, `read_ovo_index_list` (read_measurement_indices.cpp:219-251, 304-336): the first row that is
refused ends the reading with an exception. -/
def readAll {α : Type} (f : α → Option α) : List α → Option (List α)
  | [] => some []
  | x :: rest => match f x with
    | none => none
    | some y => (readAll f rest).map (y :: ·)

end Moment.IndexInput
