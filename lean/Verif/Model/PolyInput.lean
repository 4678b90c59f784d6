import Verif.Model.RuleInput
import Verif.Model.RawPoly
import Verif.Model.SymbolText

/-! # Model of the input and output of polynomials
(cpp/mex_functions/import/read_polynomial.cpp, import/read_opseq_polynomial.cpp, export/export_polynomial.cpp, export/export_operator_sequence.cpp,
utilities/read_as_scalar.cpp, utilities/read_as_vector.cpp)

Arrays of integers of all widths are lists of integers, floating point numbers are real numbers (infinities and NaN are left out), sparse arrays are left out. How
streams read numbers from strings is a parameter. The texts of exceptions are left out. -/

namespace Moment.PolyInput
open Classical
open Moment.RuleInput (Out cast16)
open Moment.Poly (Mono)
open Moment.Symbols (Env Table)
open Moment.SymbolText (Text Doubles)

/-- `matlab::data::Array` by `getType()`. -/
inductive Value
  | ints (l : List Int)
  | bools (l : List Bool)
  | doubles (l : List ℝ)
  | complexes (l : List ℂ)
  | strings (l : List (Option Text))
  | cell (l : List Value)

/-- What `std::stringstream` reads as `uint64_t` and as `int16_t`. -/
structure Streams where
  nat : Text → Option Nat
  op : Text → Option Int

/-- The check that an array has one element (read_as_scalar.cpp:64-69). -/
def one {α : Type} : List α → Out α
  | [a] => .ok a
  | _ => .refused

/-- Rounding towards zero. -/
noncomputable def towardsZero (x : ℝ) : Int := if 0 ≤ x then ⌊x⌋ else ⌈x⌉

/-- `read_as_scalar<uint64_t>` (read_as_scalar.cpp:62-121). Numbers that do not fit are undefined for floating point input. -/
noncomputable def readNat (s : Streams) : Value → Out Nat
  | .ints l => (one l).bind fun x => if x < 0 then .refused else .ok x.toNat
  | .bools l => (one l).bind fun b => .ok b.toNat
  | .doubles l => (one l).bind fun x => if x < 0 then .refused else if towardsZero x < 2 ^ 64 then .ok (towardsZero x).toNat else .undefined
  | .strings l => (one l).bind fun t => Out.ofOption (t.bind s.nat)
  | _ => .refused

/-- `read_as_complex_scalar<double>` (read_as_scalar.cpp:196-207). -/
noncomputable def readComplex : Value → Out ℂ
  | .ints l => (one l).bind fun x => .ok x
  | .bools l => (one l).bind fun b => .ok (if b then 1 else 0)
  | .doubles l => (one l).bind fun x => .ok x
  | .complexes l => one l
  | _ => .refused

/-- `read_as_boolean` (read_as_scalar.cpp:62-121, 265-267); `bool` counts as unsigned. -/
noncomputable def readBool (s : Streams) : Value → Out Bool
  | .ints l => (one l).bind fun x => if x < 0 then .refused else .ok (decide (x ≠ 0))
  | .bools l => one l
  | .doubles l => (one l).bind fun x => if x < 0 then .refused else .ok (decide (x ≠ 0))
  | .strings l => (one l).bind fun t => (Out.ofOption (t.bind s.nat)).bind fun n => if n ≤ 1 then .ok (n == 1) else .refused
  | _ => .refused

/-! ## Polynomials in symbols -/

/-- `read_raw_monomial_cell` (read_polynomial.cpp:21-46). -/
noncomputable def readTerm (s : Streams) : List Value → Out Mono
  | [i] => (readNat s i).bind fun i => .ok ⟨i, false, 1⟩
  | [i, f] => (readNat s i).bind fun i => (readComplex f).bind fun f => .ok ⟨i, false, f⟩
  | [i, f, c] => (readNat s i).bind fun i => (readComplex f).bind fun f => (readBool s c).bind fun c => .ok ⟨i, c, f⟩
  | _ => .refused

/-- `read_raw_monomial_string` (read_polynomial.cpp:48-68). Factors that are infinite or not a number are outside of this model. -/
noncomputable def readText (D : Doubles) : Option Text → Out Mono
  | none => .ok ⟨0, false, 0⟩
  | some t => match SymbolText.parse D t with
    | .undefined => .undefined
    | .refused => .refused
    | .symbol i (.finite q) c => .ok ⟨i.toNat, c, (q : ℂ)⟩
    | .symbol _ (.other _) _ => .undefined

/-- `read_raw_polynomial_data` (read_polynomial.cpp:98-167). -/
noncomputable def readTerms (s : Streams) (D : Doubles) : Value → Out (List Mono)
  | .cell l => Out.each (fun v => match v with | .cell e => readTerm s e | _ => .refused) l
  | .strings l => Out.each (readText D) l
  | _ => .refused

/-- `raw_data_to_polynomial` with `check_raw_polynomial_data` (read_polynomial.cpp:169-193). -/
noncomputable def toPolynomial (t : Table) (o : Poly.Order) (l : List Mono) : Out (List Mono) :=
  if ∀ m ∈ l, m.id < t.syms.length then .ok (Poly.make (MatrixBasis.polyTable t) o l) else .refused

/-- One after the other, as for the arguments of functions (e.g. functions/import_polynomial.cpp:40, 115). -/
noncomputable def importPolynomial (s : Streams) (D : Doubles) (t : Table) (o : Poly.Order) (v : Value) : Out (List Mono) := (readTerms s D v).bind (toPolynomial t o)

/-- `PolynomialExporter::symbol_cell` (export_polynomial.cpp:59-79), the body of the loop. -/
noncomputable def exportTerm (m : Mono) : Value :=
  .cell ([.ints [m.id], if Tolerance.real m.factor 1 then .doubles [m.factor.re] else .complexes [m.factor]] ++ if m.conj then [.bools [true]] else [])

/-- `PolynomialExporter::symbol_cell` (export_polynomial.cpp:59-79). -/
noncomputable def exportPolynomial (p : List Mono) : Value := .cell (p.map exportTerm)

/-! ## Polynomials in words -/

/-- `static_cast<int16_t>` of a floating point number (read_as_vector.cpp:69). -/
noncomputable def castReal (x : ℝ) : Out Int := if -32768 ≤ towardsZero x ∧ towardsZero x ≤ 32767 then .ok (towardsZero x) else .undefined

/-- `read_as_vector<oper_name_t>` (read_as_vector.cpp:46-120). -/
noncomputable def readOps (s : Streams) : Value → Out (List Int)
  | .ints l => .ok (l.map cast16)
  | .bools l => .ok (l.map fun b => if b then 1 else 0)
  | .doubles l => Out.each castReal l
  | .strings l => Out.each (fun t => Out.ofOption (t.bind s.op)) l
  | _ => .refused

/-- Numbers of operators from 1 to numbers from 0 (read_opseq_polynomial.cpp:162-173). -/
def fromOne (l : List Int) : Out (List Nat) := if ∀ x ∈ l, 1 ≤ x then .ok (l.map fun x => (x - 1).toNat) else .refused

/-- The body of the loop in the constructor of `StagingPolynomial` (read_opseq_polynomial.cpp:135-186). -/
noncomputable def stageTerm (s : Streams) : Value → Out (List Nat × ℂ)
  | .cell [w] => ((readOps s w).bind fromOne).bind fun w => .ok (w, 1)
  | .cell [w, f] => ((readOps s w).bind fromOne).bind fun w => (readComplex f).bind fun f => .ok (w, f)
  | _ => .refused

/-- The constructor of `StagingPolynomial` (read_opseq_polynomial.cpp:116-187). -/
noncomputable def stage (s : Streams) : Value → Out (List (List Nat × ℂ))
  | .cell l => Out.each (stageTerm s) l
  | _ => .refused

/-- `supply_context` with `raw_to_resolved` (read_opseq_polynomial.cpp:53-65, 193-200). `num` is `context.size()`, `resolve` the constructor of words
`OperatorSequence(raw, context)`. -/
noncomputable def supply (num : Nat) (resolve : List Nat → HSeq) (l : List (List Nat × ℂ)) : Out RawPoly.Raw :=
  if ∀ e ∈ l, ∀ k ∈ e.1, k < num then .ok (l.map fun e => (resolve e.1, e.2)) else .refused

/-- `find_symbols` (not quietly) with `look_up_symbol` (read_opseq_polynomial.cpp:67-82, 233-245), then `to_polynomial` (267-277). -/
noncomputable def found (c : Env) (t : Table) (o : Poly.Order) (r : RawPoly.Raw) : Out (List Mono) :=
  (Out.each (fun e => Out.ofOption ((t.lookup c e.1).1.map fun k => (⟨k.1, k.2, e.2⟩ : Mono))) r).bind fun l => .ok (Poly.make (MatrixBasis.polyTable t) o l)

/-- The loop of `find_or_register_symbols` with `look_up_or_make_symbol` (read_opseq_polynomial.cpp:100-113, 247-265); `none` is an exception of the
table. -/
noncomputable def registerTerms (c : Env) : Table → RawPoly.Raw → Option (Table × List Mono)
  | t, [] => some (t, [])
  | t, e :: r => match (t.lookup c e.1).1 with
    | some k => (registerTerms c t r).map fun x => (x.1, ⟨k.1, k.2, e.2⟩ :: x.2)
    | none => (t.mergeSeq c e.1).bind fun m => (registerTerms c m.1 r).map fun x => (x.1, ⟨m.2.1, false, e.2⟩ :: x.2)

/-- `find_or_register_symbols`, then `to_polynomial` (read_opseq_polynomial.cpp:247-277). -/
noncomputable def registered (c : Env) (t : Table) (o : Poly.Order) (r : RawPoly.Raw) : Option (Table × List Mono) :=
  (registerTerms c t r).map fun x => (x.1, Poly.make (MatrixBasis.polyTable x.1) o x.2)

/-- `PolynomialExporter::sequences` (export_polynomial.cpp:111-131): words, with operators from 1 (export_operator_sequence.cpp:14-26), and coefficients; here put
together as the input wants it. -/
def exportWords (r : RawPoly.Raw) : Value := .cell (r.map fun e => .cell [.ints (e.1.ops.map fun (k : Nat) => (k : Int) + 1), .complexes [e.2]])

end Moment.PolyInput
