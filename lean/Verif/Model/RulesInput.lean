import Verif.Model.PolyInput
import Verif.Model.MomentRules

/-! # Model of the creation and application of moment rules
(cpp/mex_functions/functions/moment_rules/create_moment_rules.cpp, functions/moment_rules/apply_moment_rules.cpp)

Kinds of input are as in Model/PolyInput.lean. Labels, the number under which the rulebook is stored, rules for factors (Model/FactorRules.lean) and texts for the
console are left out. The sorting of raw rules is a parameter, as in Model/MomentRules.lean. -/

namespace Moment.RulesInput
open Classical
open Moment.RuleInput (Out)
open Moment.PolyInput (Value Streams one towardsZero readComplex readTerms toPolynomial importPolynomial exportPolynomial stage supply found registerTerms)
open Moment.Poly (Mono MRule)
open Moment.Symbols (Env Table)
open Moment.SymbolText (Text Doubles)
open Moment.MatrixBasis (polyTable)

/-- `Array::isEmpty()`. -/
def empty : Value → Bool
  | .ints l => l.isEmpty
  | .bools l => l.isEmpty
  | .doubles l => l.isEmpty
  | .complexes l => l.isEmpty
  | .strings l => l.isEmpty
  | .cell l => l.isEmpty

/-- `read_as_scalar<symbol_name_t>` (read_as_scalar.cpp:62-121) for `symbol_name_t = int32_t` (integer_types.h:46), so without the check for negative
numbers; integers are cut to 32 bits, and floating point numbers that do not fit are undefined. `int` is what `std::stringstream` reads as such a number. -/
noncomputable def readSymbol (int : Text → Option Int) : Value → Out Int
  | .ints l => (one l).bind fun x => .ok (Int.bmod x 4294967296)
  | .bools l => (one l).bind fun b => .ok (if b then 1 else 0)
  | .doubles l => (one l).bind fun x => if -2147483648 ≤ towardsZero x ∧ towardsZero x < 2147483648 then .ok (towardsZero x) else .undefined
  | .strings l => (one l).bind fun t => Out.ofOption (t.bind int)
  | _ => .refused

/-- The body of the loop of `parse_as_sublist` (create_moment_rules.cpp:148-174). -/
noncomputable def readPair (int : Text → Option Int) : Value → Out (Nat × ℂ)
  | .cell [i, z] => (readSymbol int i).bind fun i => (readComplex z).bind fun z => if i < 2 then .refused else .ok (i.toNat, z)
  | _ => .refused

/-- `sub_list.emplace` for the map `sub_list` (create_moment_rules.cpp:175), which does nothing if there is an entry. The model keeps the order of the input, since the
raw rules are sorted later. -/
def emplace (m : List (Nat × ℂ)) (e : Nat × ℂ) : List (Nat × ℂ) := if m.any (fun x => x.1 == e.1) then m else m ++ [e]

/-- `parse_as_sublist` (create_moment_rules.cpp:127-177). -/
noncomputable def readPairs (int : Text → Option Int) (v : Value) : Out (List (Nat × ℂ)) :=
  if empty v then .ok []
  else match v with
    | .cell l => (Out.each (readPair int) l).bind fun l => .ok (l.foldl emplace [])
    | _ => .refused

/-- `add_raw_rules` and `complete` for a new rulebook (create_moment_rules.cpp:403-406, 445-448, 474-478, 503-507). Contradictions are exceptions. -/
noncomputable def built (t : Poly.Table) (o : Poly.Order) (sort : List (List Mono) → List (List Mono)) (raw : List (List Mono)) : Out (List MRule) :=
  match Poly.complete t o [] (sort raw) with
  | none => .undefined
  | some .contradiction => .refused
  | some (.ok b _) => .ok b

/-- Mode `list`: `create_rulebook_from_sublist` (create_moment_rules.cpp:372-407). -/
noncomputable def fromPairs (int : Text → Option Int) (t : Table) (o : Poly.Order) (sort : List (List Mono) → List (List Mono)) (v : Value) : Out (List MRule) :=
  (readPairs int v).bind fun m =>
    if ∀ e ∈ m, e.1 < t.syms.length then built (polyTable t) o sort (m.map fun e => Poly.rawOfValue (polyTable t) o e.1 e.2) else .refused

/-- Mode `symbols`: `parse_as_symbol_polynomials` and `create_rulebook_from_symbols` (create_moment_rules.cpp:179-207, 409-449). -/
noncomputable def fromSymbols (s : Streams) (D : Doubles) (t : Table) (o : Poly.Order) (sort : List (List Mono) → List (List Mono)) (v : Value) : Out (List MRule) :=
  if empty v then built (polyTable t) o sort []
  else match v with
    | .cell l => (Out.each (readTerms s D) l).bind fun l =>
      if ∀ p ∈ l, ∀ m ∈ p, m.id < t.syms.length then (Out.each (toPolynomial t o) l).bind (built (polyTable t) o sort) else .refused
    | _ => .refused

/-- Mode `sequences`: `parse_as_op_seq_polynomials` (create_moment_rules.cpp:209-236) and `supply_context` (create_moment_rules.cpp:458, 487). -/
noncomputable def readWords (s : Streams) (num : Nat) (resolve : List Nat → HSeq) (v : Value) : Out (List RawPoly.Raw) :=
  if empty v then .ok []
  else match v with
    | .cell l => (Out.each (stage s) l).bind fun l => Out.each (supply num resolve) l
    | _ => .refused

/-- `create_rulebook_from_existing_sequences` (create_moment_rules.cpp:481-508). -/
noncomputable def fromKnown (c : Env) (t : Table) (o : Poly.Order) (sort : List (List Mono) → List (List Mono)) (l : List RawPoly.Raw) : Out (List MRule) :=
  (Out.each (found c t o) l).bind (built (polyTable t) o sort)

/-- The first loop of `create_rulebook_from_new_sequences` (create_moment_rules.cpp:457-460); `none` is an exception of the table. -/
noncomputable def registerAll (c : Env) : Table → List RawPoly.Raw → Option (Table × List (List Mono))
  | t, [] => some (t, [])
  | t, r :: l => (registerTerms c t r).bind fun x => (registerAll c x.1 l).map fun y => (y.1, x.2 :: y.2)

/-- `create_rulebook_from_new_sequences` (create_moment_rules.cpp:452-479): the table and the rulebook. -/
noncomputable def fromNew (c : Env) (t : Table) (o : Poly.Order) (sort : List (List Mono) → List (List Mono)) (l : List RawPoly.Raw) : Option (Table × Out (List MRule)) :=
  (registerAll c t l).map fun x => (x.1, built (polyTable x.1) o sort (x.2.map (Poly.make (polyTable x.1) o)))

/-- `apply_moment_rules` (apply_moment_rules.cpp:72-92, 127-153) for symbols, with a rulebook that was found: cells of polynomials. -/
noncomputable def applyRules (s : Streams) (D : Doubles) (t : Table) (o : Poly.Order) (b : List MRule) : Value → Out Value
  | .cell l => (Out.each (readTerms s D) l).bind fun l => (Out.each (toPolynomial t o) l).bind fun ps =>
    .ok (.cell (ps.map fun p => exportPolynomial (Poly.reduceBook (polyTable t) o b p)))
  | _ => .refused

end Moment.RulesInput
