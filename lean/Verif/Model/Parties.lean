import Verif.Model.Sign
import Verif.Model.Utilities

/-! # Model of parties and measurements as objects, and of the text of their operators
(cpp/lib_moment/scenarios/locality/{measurement.h, party.h, party.cpp, party_measurement_index.h, locality_context.h, locality_context.cpp,
locality_operator_formatter.cpp}, cpp/mex_functions/functions/matrix_system/locality_matrix_system.cpp)

`Model/Locality` starts from a list of numbers of outcomes; here the objects are as in the source: they are made one by one, moved, numbered by the context, and
asked. Numbers of parties, measurements and operators are `int16_t` and are reduced to 16 bits whenever they are stored. Numbers of type `size_t` are natural
numbers that are not reduced. Text is a list of characters. -/

namespace Moment.Parties

abbrev Text := List Char

/-- Conversion to `int16_t` (integer_types.h:31-41). -/
def i16 (z : Int) : Int := Int.bmod z 65536

/-- What a request comes to. -/
inductive Res (α : Type)
  | undefined
  /-- `std::logic_error` -/
  | unattached
  /-- `std::range_error` -/
  | outOfRange
  | value (a : α)
  deriving DecidableEq, Repr

/-- `struct PMIndex` (party_measurement_index.h:18-31). -/
structure PM where
  party : Int
  mmt : Int
  globalMmt : Nat
  deriving DecidableEq, Repr

/-- `class Measurement` (measurement.h:16-50). The members of `index` have no value before the party sets them (party_measurement_index.h:25); they are 0 here until
then, and the constructor of `Party` and the context set all of them. -/
structure Measurement where
  name : Text
  outcomes : Int
  party : Int := 0
  mmt : Int := 0
  globalMmt : Nat := 0
  offset : Int := 0
  deriving DecidableEq, Repr

/-- `Measurement::num_operators` (measurement.h:43-45). -/
def Measurement.numOperators (m : Measurement) : Int := i16 (m.outcomes - 1)

/-- `class Party` (party.h:26-60); `attached` is `context != nullptr`. -/
structure Party where
  id : Int
  name : Text
  mmts : List Measurement
  /-- `offset_id_to_local_mmt` -/
  table : List Int
  mmtOffset : Int
  opOffset : Int
  count : Int
  /-- `included_operators` -/
  included : List Int
  attached : Bool
  deriving DecidableEq, Repr

/-- The loop that gives offsets and numbers to measurements (party.cpp:22-29): the measurements and the number of operators. -/
def number : List Measurement → Int → Int → List Measurement × Int
  | [], count, _ => ([], count)
  | m :: ms, count, id =>
    let r := number ms (i16 (count + m.numOperators)) (i16 (id + 1))
    ({ m with offset := count, mmt := id } :: r.1, r.2)

/-- `for (oper_name_t i = from; i < iMax; ++i)` with `iMax = from + count` converted to 16 bits (party.cpp:39-42, 146-149). -/
def consecutive (start count : Int) : List Int :=
  (List.range (i16 (start + count) - start).toNat).map fun (i : Nat) => start + (i : Int)

/-- `Party(id, name, measurements)` (party.cpp:18-44). `none` is `std::length_error`: `reserve` (party.cpp:32) is given a negative number. -/
def Party.make (id : Int) (name : Text) (mmts : List Measurement) : Option Party :=
  let r := number mmts 0 0
  if r.2 < 0 then none
  else some
    { id := id, name := name, mmts := r.1
      table := r.1.flatMap fun m => List.replicate m.numOperators.toNat m.mmt
      mmtOffset := 0, opOffset := 0, count := r.2
      included := consecutive 0 r.2
      attached := false }

/-- `Party(Party&&)` (party.h:65-73): `included_operators` does not move along. -/
def Party.moved (p : Party) : Party := { p with included := [] }

/-- `Party::set_offsets` (party.cpp:131-150). -/
def Party.setOffsets (p : Party) (id opOffset mmtOffset : Int) : Party :=
  { p with
    id := id, opOffset := opOffset, mmtOffset := mmtOffset
    mmts := p.mmts.map fun m => { m with party := id, globalMmt := (i16 (mmtOffset + m.mmt)).toNat }
    included := consecutive opOffset p.count }

/-- `PMOIndex` (party_measurement_index.h:33-47), as the context stores it (locality_context.cpp:61-62). -/
structure Slot where
  party : Int
  mmt : Int
  outcome : Nat
  deriving DecidableEq, Repr

/-- `class LocalityContext` (locality_context.h:45-54). -/
structure Context where
  parties : List Party := []
  mmtToParty : List Int := []
  opToParty : List Int := []
  slots : List Slot := []
  mmtCount : Nat := 0
  mmtsPerParty : List Nat := []
  opsPerParty : List Nat := []
  /-- `Context::operator_count` -/
  size : Nat := 0
  deriving DecidableEq, Repr

/-- `count_operators` (locality_context.cpp:24-30), with `Party::size` (party.h:131). -/
def countOperators (ps : List Party) : Nat := (ps.map fun p => p.count.toNat).sum

/-- The loops over measurements and their outcomes (locality_context.cpp:56-68), with `mmt_index`: the entries for one party. -/
def partySlots (party : Int) : List Measurement → Int → List Slot
  | [], _ => []
  | m :: ms, k => ((List.range m.numOperators.toNat).map fun o => ⟨party, k, o⟩) ++ partySlots party ms (i16 (k + 1))

/-- The loop over parties (locality_context.cpp:46-76). `none`: a measurement without outcomes makes the loop over outcomes (line 59), which compares `size_t` with -1,
run until there is no memory. -/
def contextLoop : List Party → Int → Int → Context → Option Context
  | [], _, _, c => some c
  | p :: ps, index, total, c =>
    if p.mmts.any fun m => decide (m.numOperators < 0) then none
    else
      let q := { p with attached := true }.setOffsets index total (i16 c.mmtCount)
      let s := partySlots index q.mmts 0
      contextLoop ps (i16 (index + 1)) (i16 (total + s.length))
        { c with
          parties := c.parties ++ [q]
          mmtCount := c.mmtCount + q.mmts.length
          mmtToParty := c.mmtToParty ++ List.replicate q.mmts.length index
          slots := c.slots ++ s
          opToParty := c.opToParty ++ List.replicate s.length index
          mmtsPerParty := c.mmtsPerParty ++ [q.mmts.length]
          opsPerParty := c.opsPerParty ++ [q.count.toNat] }

/-- `LocalityContext(std::vector<Party>&&)` (locality_context.cpp:36-80). -/
def Context.make (ps : List Party) : Option Context := contextLoop ps 0 0 { size := countOperators ps }

/-! ## Requests to a party -/

/-- `Party::operators` (party.cpp:153-161). -/
def Party.operators (p : Party) : Res (List Int) := if !p.attached then .unattached else .value p.included

/-- Access to an element of a vector. -/
def at? {α : Type} (l : List α) (i : Nat) : Res α := match l[i]? with | none => .undefined | some a => .value a

/-- `Party::operator[]` (party.cpp:192-197). -/
def Party.get (p : Party) (i : Nat) : Res Int := if p.count.toNat ≤ i then .outOfRange else at? p.included i

/-- `Party::measurement_of` (party.cpp:164-174). -/
def Party.measurementOf (p : Party) (op : Int) : Res Measurement :=
  if !p.attached then .unattached
  else if op - p.opOffset < 0 ∨ p.count ≤ op - p.opOffset then .outOfRange
  else match at? p.table (op - p.opOffset).toNat with
    | .value k => at? p.mmts k.toNat
    | _ => .undefined

/-- `Party::measurement_outcome` (party.cpp:176-190). -/
def Party.measurementOutcome (p : Party) (mmt outcome : Nat) : Res Int :=
  if !p.attached then .unattached
  else match p.mmts[mmt]? with
    | none => .outOfRange
    | some m => if m.numOperators.toNat ≤ outcome then .outOfRange else .value (i16 (p.opOffset + m.offset + outcome))

/-- `Party::mutually_exclusive` (party.cpp:199-207). Negative indices are undefined too. -/
def Party.mutuallyExclusive (p : Party) (lhs rhs : Int) : Res Bool :=
  if lhs = rhs then .value false
  else if lhs < p.opOffset ∨ rhs < p.opOffset then .undefined
  else match at? p.table (lhs - p.opOffset).toNat, at? p.table (rhs - p.opOffset).toNat with
    | .value a, .value b => .value (a == b)
    | _, _ => .undefined

/-! ## Requests to the context -/

/-- `LocalityContext::associated_party` (locality_context.h:130-133); the number of the party. -/
def Context.associatedParty (c : Context) (op : Int) : Res Int := if op < 0 then .undefined else at? c.opToParty op.toNat

/-- `get_global_mmt_index` (locality_context.h:80-86); undefined if there is no such party or measurement. -/
def Context.globalMmt (c : Context) (party mmt : Int) : Res Nat :=
  if party < 0 ∨ mmt < 0 then .undefined
  else match at? c.parties party.toNat with
    | .value p => if mmt.toNat < p.mmts.length then .value (p.mmtOffset + mmt).toNat else .undefined
    | _ => .undefined

/-- `LocalityContext::global_index_to_PM` (locality_context.cpp:132-139). -/
def Context.globalToPM (c : Context) (k : Nat) : Res PM :=
  match at? c.mmtToParty k with
  | .value p => match at? c.parties p.toNat with
    | .value q => .value ⟨p, i16 (k - q.mmtOffset), k⟩
    | _ => .undefined
  | _ => .undefined

/-- `LocalityContext::populate_global_mmt_index` (locality_context.cpp:141-147) for one index. -/
def Context.populate (c : Context) (x : PM) : Res PM :=
  if x.party < 0 ∨ x.mmt < 0 then .undefined
  else match at? c.parties x.party.toNat with
    | .value p => if x.mmt.toNat < p.mmts.length then .value { x with globalMmt := (i16 (p.mmtOffset + x.mmt)).toNat } else .undefined
    | _ => .undefined

/-- One turn of the loop of `PM_to_global_index` (locality_context.cpp:152-164). Negative numbers become large ones and are refused. -/
def Context.globalOf (c : Context) (x : PM) : Res Nat :=
  if x.party < 0 then .outOfRange
  else match c.parties[x.party.toNat]? with
    | none => .outOfRange
    | some p => if x.mmt < 0 ∨ p.mmts.length ≤ x.mmt.toNat then .outOfRange else .value (p.mmtOffset + x.mmt).toNat

/-- One turn of the loop of `outcomes_per_measurement(indices)` (locality_context.cpp:173-188). -/
def Context.outcomesOf (c : Context) (x : PM) : Res Nat :=
  if x.party < 0 then .outOfRange
  else match c.parties[x.party.toNat]? with
    | none => .outOfRange
    | some p => if x.mmt < 0 then .outOfRange else match p.mmts[x.mmt.toNat]? with
      | none => .outOfRange
      | some m => .value m.outcomes.toNat

/-- A loop that adds one value per element to the output, and stops with the first exception. -/
def collect {α β : Type} (f : α → Res β) : List α → Res (List β)
  | [] => .value []
  | a :: l => match f a with
    | .undefined => .undefined
    | .unattached => .unattached
    | .outOfRange => .outOfRange
    | .value b => match collect f l with
      | .value bs => .value (b :: bs)
      | r => r

/-- `LocalityContext::PM_to_global_index` (locality_context.cpp:149-166). -/
def Context.pmToGlobal (c : Context) (l : List PM) : Res (List Nat) := collect c.globalOf l

/-- `LocalityContext::outcomes_per_measurement(indices)` (locality_context.cpp:169-191). -/
def Context.outcomesAt (c : Context) (l : List PM) : Res (List Nat) := collect c.outcomesOf l

/-- `LocalityContext::outcomes_per_measurement()` (locality_context.cpp:194-203). -/
def Context.outcomes (c : Context) : List Nat := c.parties.flatMap fun p => p.mmts.map fun m => m.outcomes.toNat

/-- `LocalityContext::outcomes_per_party` (locality_context.cpp:205-217). -/
def Context.outcomesPerParty (c : Context) : List Nat := c.parties.map fun p => (p.mmts.map fun m => m.outcomes.toNat).sum

/-! ## Text -/

/-- A number that is written to a stream. -/
def intText (z : Int) : Text := if z < 0 then '-' :: Nat.toDigits 10 (-z).toNat else Nat.toDigits 10 z.toNat

/-- The two formatters (locality_operator_formatter.h:45-72). -/
inductive Formatter
  | natural | traditional
  deriving DecidableEq, Repr

/-- `format(os, party, mmt, outcome)` (locality_operator_formatter.cpp:33-37, 45-49). -/
def Formatter.format : Formatter → Party → Measurement → Int → Text
  | .natural, p, m, o => p.name ++ '.' :: (m.name ++ intText o)
  | .traditional, p, m, o => p.name ++ intText o ++ '|' :: intText m.mmt

/-- `Party::format_operator(ContextualOS&, op)` (party.cpp:112-129). -/
def Party.formatOperator (f : Formatter) (p : Party) (op : Int) : Res Text :=
  if op - p.opOffset < 0 ∨ p.count ≤ op - p.opOffset then .value ("[UNK#".toList ++ intText op ++ [']'])
  else match at? p.table (op - p.opOffset).toNat with
    | .value k => match at? p.mmts k.toNat with
      | .value m => .value (f.format p m (i16 (op - p.opOffset - m.offset)))
      | _ => .undefined
    | _ => .undefined

/-- The text of one operator of a sequence (locality_context.cpp:247-252). In `oper > context.size()` a negative number is converted to a large one. -/
def Context.operatorText (f : Formatter) (c : Context) (op : Int) : Res Text :=
  if op < 0 ∨ (c.size : Int) < op then .value ("[UNK:".toList ++ intText op ++ [']'])
  else match c.associatedParty op with
    | .value p => match at? c.parties p.toNat with
      | .value q => q.formatOperator f op
      | _ => .undefined
    | _ => .undefined

/-- `;` between texts. -/
def joined : List Text → Text
  | [] => []
  | [t] => t
  | t :: ts => t ++ ';' :: joined ts

/-- `is_negative` (sequence_sign_type.h), as `negated()` uses it (hashed_sequence.h:105-107). -/
def negative : Sign → Bool
  | .neg | .negImag => true
  | _ => false

/-- `do_format_sequence` (locality_context.cpp:220-260); `none` is a sequence that is zero. -/
def Context.formatSequence (f : Formatter) (braces : Bool) (c : Context) : Option (List Int × Sign) → Res Text
  | none => .value ['0']
  | some (w, s) =>
    if w = [] then .value ['1']
    else match collect (c.operatorText f) w with
      | .value ts => .value ((if negative s then ['-'] else []) ++ (if braces then ['<'] else []) ++ joined ts ++ if braces then ['>'] else [])
      | _ => .undefined

/-! ## Lists of parties -/

/-- `AlphabeticNamer` (alphabetic_namer.cpp:23-43) with letters. -/
noncomputable def letters (upper : Bool) (n : Nat) : Text := (Util.alphabeticName n).map fun d => Char.ofNat ((if upper then 65 else 97) + d)

/-- The measurements of one party (party.cpp:252-257): the next numbers of outcomes, and those that are left; `none`: reading behind the last one is undefined. -/
noncomputable def takeMmts : Nat → Nat → List Nat → Option (List Measurement × List Nat)
  | 0, _, l => some ([], l)
  | _ + 1, _, [] => none
  | n + 1, k, o :: l => (takeMmts n (k + 1) l).map fun r => ({ name := letters false k, outcomes := i16 o } :: r.1, r.2)

/-- What a list of parties comes to. -/
inductive Made (α : Type)
  | undefined
  /-- `std::length_error` -/
  | refused
  | made (a : α)
  deriving DecidableEq, Repr

/-- `Party::MakeList(mmts_per_party, outcomes_per_mmt)` (party.cpp:234-264). `output.reserve` makes sure that no party is moved. Numbers of parties and of measurements
up to 32767; with more of them the loop over `o` overflows. -/
noncomputable def makeList : List Nat → List Nat → Nat → Made (List Party)
  | [], _, _ => .made []
  | n :: ns, outcomes, p => match takeMmts n 0 outcomes with
    | none => .undefined
    | some (ms, rest) => match Party.make p (letters true p) ms with
      | none => .refused
      | some q => match makeList ns rest (p + 1) with
        | .made qs => .made (q :: qs)
        | r => r

/-- `Party::MakeList(num_parties, mmts_per_party, outcomes_per_mmt)` (party.cpp:210-231), with numbers that are not negative. -/
noncomputable def makeUniform (parties mmts outcomes : Nat) : Option (List Party) :=
  (List.range parties).mapM fun (p : Nat) =>
    Party.make p (letters true p) ((List.range mmts).map fun k => { name := letters false k, outcomes := outcomes })

/-! ## Arguments of the function that makes a locality matrix system -/

/-- An argument: numbers that were read from an array, none of them less than 1. -/
abbrev Arg := List Nat

/-- `readMeasurementSpecification` (locality_matrix_system.cpp:113-130): the numbers of measurements, and their total. `none` is an exception. -/
def readMeasurements (parties : Nat) (a : Arg) : Option (List Nat × Nat) :=
  match a with
  | [n] => some (List.replicate parties n, parties * n)
  | _ => if parties = a.length then some (a, a.sum) else none

/-- `readOutcomeSpecification` (locality_matrix_system.cpp:132-153). -/
def readOutcomes (total : Nat) (a : Arg) : Option (List Nat) :=
  match a with
  | [n] => some (List.replicate total n)
  | _ => if total = a.length then some a else none

/-- `getFromParams` (locality_matrix_system.cpp:62-85): named arguments. -/
def fromParams (parties : Option Nat) (measurements : Option Arg) (outcomes : Arg) : Option (List Nat × List Nat) :=
  let n := parties.getD 1
  match measurements with
  | some a => (readMeasurements n a).bind fun r => (readOutcomes r.2 outcomes).map fun o => (r.1, o)
  | none => (readOutcomes n outcomes).map fun o => (List.replicate n 1, o)

/-- `getFromInputs` (locality_matrix_system.cpp:88-111): unnamed arguments. With two of them `total_measurements` is 1 (line 108). -/
def fromInputs (parties : Nat) (measurements : Option Arg) (outcomes : Arg) : Option (List Nat × List Nat) :=
  match measurements with
  | some a => (readMeasurements parties a).bind fun r => (readOutcomes r.2 outcomes).map fun o => (r.1, o)
  | none => (readOutcomes 1 outcomes).map fun o => (List.replicate parties 1, o)

/-- `make_context` (locality_matrix_system.cpp:24-30). -/
noncomputable def makeContext (x : List Nat × List Nat) : Made Context :=
  match makeList x.1 x.2 0 with
  | .made ps => match Context.make ps with
    | some c => .made c
    | none => .undefined
  | .undefined => .undefined
  | .refused => .refused

end Moment.Parties
