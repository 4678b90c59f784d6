import Verif.Model.Sorting
import Verif.Model.MultiDimIndex
import Verif.Model.Multipartition

/-! # Model of the locality scenario (cpp/lib_moment/scenarios/locality/)

Operator numbers are natural numbers here; in the source they are 16-bit integers, so scenarios with more than 32767 operators are outside
the model. -/

namespace Moment.Locality

/-- A scenario: for each party, for each of its measurements, `Measurement::num_outcomes` (measurement.h:22). The constructor requires every
number of outcomes to be at least 1 (measurement.h:38-41). -/
abbrev Scenario := List (List Nat)

/-- `Measurement::num_operators` (measurement.h:43-45). -/
def numOperators (outcomes : Nat) : Nat := outcomes - 1

/-- `Party::party_operator_count` (party.cpp:22-29). -/
def partyOps (mmts : List Nat) : Nat := (mmts.map numOperators).sum

/-- `count_operators` (locality_context.cpp:24-30), the `operator_count` of the context. -/
def operatorCount (s : Scenario) : Nat := (s.map partyOps).sum

/-- The table that `insert(end, count, index)` in a loop builds: `count` copies of the index for every item of the list. -/
def blockTable : Nat → List Nat → List Nat
  | _, [] => []
  | k, b :: bs => List.replicate b k ++ blockTable (k + 1) bs

/-- `global_op_id_to_party` (locality_context.cpp:47, 57-71). -/
def opToParty (s : Scenario) : List Nat := blockTable 0 (s.map partyOps)

/-- `Party::offset_id_to_local_mmt` (party.cpp:31-35). -/
def offsetToMmt (mmts : List Nat) : List Nat := blockTable 0 (mmts.map numOperators)

/-- `Party::global_operator_offset` (locality_context.cpp:49). -/
def operatorOffset (s : Scenario) (p : Nat) : Nat := ((s.take p).map partyOps).sum

/-- `Measurement::party_offset` (party.cpp:25). -/
def mmtOffset (mmts : List Nat) (m : Nat) : Nat := ((mmts.take m).map numOperators).sum

/-- `Party::measurement_outcome` (party.cpp:176-190) of party `p`; `none` is the exception. -/
def measurementOutcome (s : Scenario) (p m o : Nat) : Option Nat :=
  match s[p]? with
  | none => none
  | some mmts => match mmts[m]? with
    | none => none
    | some outcomes => if o ≥ numOperators outcomes then none else some (operatorOffset s p + mmtOffset mmts m + o)

/-- Look-up of the party of an operator, `global_op_id_to_party[op]`. -/
def partyOf (s : Scenario) (op : Nat) : Nat := (opToParty s).getD op 0

/-- `Party::mutually_exclusive` (party.cpp:199-207) for party number `p`. -/
def mutuallyExclusive (s : Scenario) (p lhs rhs : Nat) : Bool :=
  if lhs = rhs then false
  else
    let table := offsetToMmt (s.getD p [])
    table.getD (lhs - operatorOffset s p) 0 == table.getD (rhs - operatorOffset s p) 0

/-- What `additional_simplification` does: throws, reports zero, or leaves a word. -/
inductive Outcome
  | rangeError
  | zero
  | word (w : List Nat)
  deriving DecidableEq, Repr

/-- `LocalityContext::additional_simplification` (locality_context.cpp:82-130). The sign is not touched. -/
def simplify (s : Scenario) (w : List Nat) : Outcome :=
  if w.isEmpty then .word w
  else if w.any (fun op => decide (op ≥ operatorCount s)) then .rangeError
  else
    let sorted := stableSort (partyOf s) w
    let trimmed := uniqueBy (fun a b => a == b) sorted
    if anyNeighbours (fun a b => partyOf s a == partyOf s b && mutuallyExclusive s (partyOf s a) a b) trimmed then .zero
    else .word trimmed

/-! ## Word lists (locality_osg.cpp) -/

/-- The values an iterator visits when its loop terminates. -/
noncomputable def collect {σ α : Type} (next : σ → σ) (atEnd : σ → Prop) (value : σ → α) (s : σ) : List α :=
  open Classical in if h : ∃ l, Yields next atEnd value s l then h.choose else []

/-- `PartyOSG::operator[](wl)` (locality_osg.cpp:110-119), that is, the sequences that the constructor (84-108) adds for this length: the
identity for length 0; else the words over the operators of the party (`MultiOperatorIterator` with simplification on construction) that do
not get shorter. Signs and hashes are left out. -/
noncomputable def partyWords (s : Scenario) (p wl : Nat) : List (List Nat) :=
  if wl = 0 then [[]]
  else
    let n := partyOps (s.getD p [])
    let off := operatorOffset s p
    (collect (MultiOper.next n off) MultiOper.atEnd MultiOper.value (MultiOper.first wl n off)).filterMap fun w =>
      match simplify s w with
      | .word v => if v.length = wl then some v else none
      | _ => none

/-- `tensor_populate` (locality_osg.cpp:49-80): one word per index tuple, the concatenation of the selected constituents. -/
noncomputable def tensorWords (constituents : List (List (List Nat))) : List (List Nat) :=
  let dims := constituents.map List.length
  (collect (MultiDim.next false dims) MultiDim.atEnd MultiDim.value (MultiDim.first dims)).map fun v =>
    (List.zipWith (fun c i => c.getD i []) constituents v.1).flatten

/-- `get_party_spans` (locality_osg.cpp:26-38) and `tensor_populate` for all compositions of the length (176-184). -/
noncomputable def levelWords (s : Scenario) (wl : Nat) : List (List Nat) :=
  (collect (Multipart.next true wl) Multipart.atEnd Multipart.value (Multipart.first true wl s.length)).flatMap fun subLengths =>
    tensorWords ((List.range s.length).map fun p => partyWords s p (subLengths.getD p 0))

/-- `LocalityOperatorSequenceGenerator` (locality_osg.cpp:122-185): no party, one party, several parties. -/
noncomputable def generate (s : Scenario) (maxLength : Nat) : List (List Nat) :=
  match s with
  | [] => [[]]
  | [_] => (List.range (maxLength + 1)).flatMap fun wl => partyWords s 0 wl
  | _ =>
    if maxLength = 0 then [[]]
    else
      let one := (List.range s.length).flatMap fun p => partyWords s p 1
      if maxLength = 1 then [] :: one
      else [] :: one ++ (List.range' 2 (maxLength - 1)).flatMap fun wl => levelWords s wl

end Moment.Locality
