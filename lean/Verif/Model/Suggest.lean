import Verif.Model.FactorTable

/-! # Model of the suggestion of extensions
(cpp/lib_moment/scenarios/inflation/extension_suggester.{h,cpp})

Simplifications: as in `Model/FactorTable.lean`. Sets of symbols, which are bitsets in the program (see `Model/Bitset.lean`), are lists of numbers; where the
program runs through a bitset, the list is ascending. Testing a bit beyond the size of a bitset does not happen where the tables are complete, and is not
modelled. -/

namespace Moment.Inflation.Suggest
open Moment.Inflation.Extend (Scenario Table Entry Fault place)

variable {W : Type} [DecidableEq W]

/-- `max_extensions` (extension_suggester.h:32). -/
def maxExtensions : Nat := 100

/-- `nonfundamental_symbols` (extension_suggester.cpp:96-105): the symbols of the matrix with several factors, in order. -/
def nonfundamental (t : Table W) (included : List Nat) : Except Fault (List Nat) :=
  if included.any fun k => decide (t.entries.length ≤ k) then .error .undefined
  else .ok ((List.range t.syms.length).filter fun k => included.contains k && !((t.entries[k]?).map Entry.fundamental).getD true)

/-- `get_symbol_to_test` (extension_suggester.cpp:107-124): the first factor that was not tested; `none` for -1. -/
def pick (t : Table W) (tested : List Nat) : List Nat → Except Fault (Option Nat)
  | [] => .ok none
  | k :: l => do
    let fs ← t.factors k
    match fs.find? fun f => !tested.contains f with
    | some f => .ok (some f)
    | none => pick t tested l

/-- The loop over the words (extension_suggester.cpp:61-83): the symbols still needed, and whether there was any use. -/
def tryWords (sc : Scenario W) (t : Table W) (trial : Nat) : List W → List Nat → Bool → Except Fault (List Nat × Bool)
  | [], needed, use => .ok (needed, use)
  | g :: l, needed, use =>
    match place t.syms (sc.canonical g) with
    | none => .error .undefined
    | some k => do
      let source ← t.factors k
      match t.find (combineFactors source [trial]) with
      | none => tryWords sc t trial l needed use
      | some i => if needed.contains i then tryWords sc t trial l (needed.filter (· != i)) true else tryWords sc t trial l needed use

/-- The loop (extension_suggester.cpp:53-91), with `fuel` extensions left to try. -/
def search (sc : Scenario W) (t : Table W) (gens : List W) : Nat → List Nat → List Nat → List Nat → Except Fault (List Nat)
  | 0, _, _, chosen => .ok chosen
  | fuel + 1, needed, tested, chosen =>
    if needed.isEmpty then .ok chosen
    else do
      let next ← pick t tested needed
      match next with
      | none => .ok chosen
      | some f =>
        let r ← tryWords sc t f gens needed false
        search sc t gens fuel r.1 (f :: tested) (if r.2 then f :: chosen else chosen)

/-- `ExtensionSuggester::operator()` (extension_suggester.cpp:23-94): the words of the moment matrix, if it is one of monomials, and the symbols in it. -/
def suggest (sc : Scenario W) (t : Table W) (generators : Option (List W)) (included : List Nat) : Except Fault (List Nat) :=
  match generators with
  | none => .error .invalidArgument
  | some gens => do
    let needed ← nonfundamental t included
    let chosen ← search sc t gens maxExtensions needed [] []
    .ok ((List.range t.syms.length).filter fun k => chosen.contains k)

end Moment.Inflation.Suggest
