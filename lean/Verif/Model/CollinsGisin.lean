import Verif.Model.LocalityContext
import Verif.Model.Probability

/-! # Model of Collins-Gisin tensors (cpp/lib_moment/probability/collins_gisin.cpp, scenarios/locality/locality_collins_gisin.cpp,
scenarios/inflation/inflation_collins_gisin.cpp)

Locks are left out: one caller at a time. -/

namespace Moment.Gisin
open Moment.Symbols (Table Env)
open Moment.Locality (Scenario)

/-- `GlobalMeasurementIndex` (collins_gisin.h:89-99). -/
structure Slot where
  party : Nat
  offset : Nat
  length : Nat
  deriving DecidableEq, Repr

/-- The loop over the measurements of a party (locality_collins_gisin.cpp:39-44). -/
def partySlots (party : Nat) : Nat → List Nat → List Slot
  | _, [] => []
  | offset, n :: mmts => ⟨party, offset, Locality.numOperators n⟩ :: partySlots party (offset + Locality.numOperators n) mmts

/-- The loop over the parties (locality_collins_gisin.cpp:37-44); `Party::id` is the position of the party. -/
def slotsFrom : Nat → Scenario → List Slot
  | _, [] => []
  | party, mmts :: s => partySlots party 1 mmts ++ slotsFrom (party + 1) s

/-- `gmIndex` of a locality scenario. -/
def slots (s : Scenario) : List Slot := slotsFrom 0 s

/-- `dimensionInfo[d].op_ids` of a locality scenario (locality_collins_gisin.cpp:47-53), with `Party::operators` (party.cpp:153-161); `none` stands for
-1. -/
def operatorIds (s : Scenario) : List (List (Option Nat)) :=
  (List.range s.length).map fun d => none :: (List.range' (Locality.operatorOffset s d) (Locality.partyOps (s.getD d []))).map some

/-- The loop of `cgi_to_op_seq` (collins_gisin.cpp:66-72); `none` if an index is out of range, which is undefined, or names the -1. -/
def operators : List (List (Option Nat)) → List Nat → Option (List Nat)
  | [], _ => some []
  | _ :: _, [] => none
  | _ :: ids, 0 :: index => operators ids index
  | id :: ids, (i + 1) :: index => (id[i + 1]?).join.bind fun o => (operators ids index).map (o :: ·)

/-- `cgi_to_op_seq` (collins_gisin.cpp:63-74). -/
def word (s : Scenario) (index : List Nat) : Option HSeq := (operators (operatorIds s) index).map (Locality.sequence s)

/-- `CollinsGisinEntry` (collins_gisin.h:57-74); `none` stands for -1. -/
structure Entry where
  seq : HSeq
  id : Option Nat
  re : Option Nat
  aliased : Bool

/-- `Entry` before symbols are looked up. -/
def Entry.blank (w : HSeq) : Entry := ⟨w, none, none, false⟩

/-- One look-up in `do_initial_symbol_search` and `fill_missing_symbols` (collins_gisin.cpp:111-118, 145-151): the entry with its symbol, if there is
one. -/
def Entry.find (c : Env) (t : Table) (e : Entry) : Option Entry :=
  ((t.lookup c e.seq).1.bind fun r => t.syms[r.1]?).map fun s => ⟨e.seq, some s.id, s.re, (t.lookup c e.seq).2⟩

/-- The entry that is made when asked for, in virtual mode (collins_gisin.cpp:80-92, 218-220). -/
def Entry.make (c : Env) (t : Table) (w : HSeq) : Entry :=
  ((Entry.blank w).find c t).getD ⟨w, none, none, (t.lookup c w).2⟩

/-- The tensor: `StorageType`, `data` and `missing_symbols` (a set, hence ascending). -/
structure Tensor where
  isVirtual : Bool
  data : List Entry
  missing : List Nat

/-- `do_initial_symbol_search` (collins_gisin.cpp:102-123), for explicit storage. -/
def search (c : Env) (t : Table) : Nat → List Entry → List Entry × List Nat
  | _, [] => ([], [])
  | k, e :: l =>
    let r := search c t (k + 1) l
    match e.find c t with
    | some e' => (e' :: r.1, r.2)
    | none => (e :: r.1, k :: r.2)

/-- The loop of `fill_missing_symbols` (collins_gisin.cpp:142-157). (A position outside the data would be undefined; `missing` only has positions of
data.) -/
def fillLoop (c : Env) (t : Table) : List Entry → List Nat → List Entry × List Nat
  | d, [] => (d, [])
  | d, k :: ks =>
    match (d[k]?).bind (Entry.find c t) with
    | some e => fillLoop c t (d.set k e) ks
    | none => let r := fillLoop c t d ks; (r.1, k :: r.2)

/-- `fill_missing_symbols` (collins_gisin.cpp:126-160), and what it returns. -/
def Tensor.fill (c : Env) (t : Table) (T : Tensor) : Tensor × Bool :=
  if T.isVirtual then (T, true)
  else if T.missing.isEmpty then (T, true)
  else
    let r := fillLoop c t T.data T.missing
    (⟨false, r.1, r.2⟩, r.2.isEmpty)

/-- `HasAllSymbols` (collins_gisin.cpp:162-165). -/
def Tensor.hasAllSymbols (T : Tensor) : Bool := T.missing.isEmpty

/-- The indices in storage order (`MultiDimensionalIndexRange<true>`, locality_collins_gisin.cpp:57). -/
noncomputable def indices (dims : List Nat) : List (List Nat) :=
  (Locality.collect (MultiDim.next true dims) MultiDim.atEnd MultiDim.value (MultiDim.first dims)).map Prod.fst

/-- `LocalityCollinsGisin::LocalityCollinsGisin` (locality_collins_gisin.cpp:30-64): storage is explicit up to 1024 elements (collins_gisin.h:55,
auto_storage_tensor.h:get_storage_type). -/
noncomputable def construct (s : Scenario) (t : Table) : Option Tensor :=
  let dims := Probability.localityGisinDims s
  if Tensor.elementCount dims > 1024 then some ⟨true, [], []⟩
  else ((indices dims).mapM (word s)).map fun ws =>
    let r := search (Locality.env s) t 0 (ws.map Entry.blank)
    ⟨false, r.1, r.2⟩

/-- The element at an index that is in range (auto_storage_tensor.h:77-85, `ElementView`), for the table as it is now. -/
def Tensor.element (s : Scenario) (t : Table) (T : Tensor) (index : List Nat) : Option Entry :=
  if T.isVirtual then (word s index).map (Entry.make (Locality.env s) t)
  else T.data[Tensor.indexToOffsetNoChecks true (Probability.localityGisinDims s) index]?

/-- The element at an offset that is in range (auto_storage_tensor.h:88-96). -/
def Tensor.atOffset (s : Scenario) (t : Table) (T : Tensor) (k : Nat) : Option Entry :=
  if T.isVirtual then (word s (Tensor.offsetToIndexNoChecks true (Probability.localityGisinDims s) k)).map (Entry.make (Locality.env s) t)
  else T.data[k]?

/-- What probability tensors read. -/
def Tensor.view (s : Scenario) (t : Table) (T : Tensor) : Probability.Gisin :=
  ⟨Probability.localityGisinDims s, fun k => (T.atOffset s t k).bind Entry.id⟩

/-- The loops of `measurement_to_range` (collins_gisin.cpp:167-210; locality_collins_gisin.cpp:70-113, where the fixed outcomes come after the others):
requests with global numbers of measurements, and the outcome if it is fixed. `none` is a read outside `gmIndex`, `some none` is an exception, else the lower
and upper bounds. -/
def ranges (gm : List Slot) : List (Nat × Option Nat) → List Nat → List Nat → Option (Option (List Nat × List Nat))
  | [], lo, hi => some (some (lo, hi))
  | (m, k) :: reqs, lo, hi =>
    if m > gm.length then some none
    else match gm[m]? with
      | none => none
      | some g =>
        if lo.getD g.party 0 ≠ 0 then some none
        else match k with
          | some k => ranges gm reqs (lo.set g.party (g.offset + k)) (hi.set g.party (g.offset + k + 1))
          | none => ranges gm reqs (lo.set g.party g.offset) (hi.set g.party (g.offset + g.length))

/-- `measurement_to_range` (collins_gisin.cpp:167-169, 189-190). -/
def range (gm : List Slot) (dims : Nat) (reqs : List (Nat × Option Nat)) : Option (Option (List Nat × List Nat)) :=
  ranges gm reqs (List.replicate dims 0) (List.replicate dims 1)

end Moment.Gisin
