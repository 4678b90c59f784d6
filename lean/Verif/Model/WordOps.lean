import Verif.Model.AlgebraicContext
import Verif.Model.LocalityContext
import Verif.Model.MonoExport
import Verif.Model.Names

/-! # Model of simplification and conjugation of words
(cpp/mex_functions/functions/algebraic/simplify.cpp, conjugate.cpp)

Arrays of numbers are given after they were read as integers (`read_integer_array`), strings as lists of texts. Locks, messages, and texts of exceptions are left out;
so is the choice between one array and a cell of arrays for the output of a single word. -/

namespace Moment.WordOps
open Moment.RuleInput (Out)
open Moment.MonoExport (Row row)
open Moment.Names (Text)

/-- What is used of a context: its number of operators, the constructor of `OperatorSequence` with positive sign (operator_sequence.cpp:33-38), `conjugate`, and
`NameTable::find` if the context is algebraic (simplify.cpp:32-37). -/
structure Host where
  size : Nat
  seq : List Nat → HSeq
  conj : HSeq → HSeq
  find : Option (Text → Option Int)

/-- The second input: a word of numbers, a cell of such words with its shape, or a word of names (simplify.cpp:97-120, conjugate.cpp:29-56). -/
inductive Input
  | numbers (l : List Int)
  | cell (shape : List Nat) (ls : List (List Int))
  | names (ts : List Text)
  | other

/-- The loop that subtracts one (simplify.cpp:127-132, 144-149, conjugate.cpp:39-44, 50-55). -/
def offset (l : List Int) : Out (List Int) := Out.each (fun o => if o < 1 then .refused else .ok (o - 1)) l

/-- The loop that checks the range (simplify.cpp:62-73, conjugate.cpp:162-173), and the copy to `sequence_storage_t` (simplify.cpp:211, 255, conjugate.cpp:84, 125). -/
def ranged (h : Host) (l : List Int) : Out (List Nat) := Out.each (fun o => if o < 0 ∨ (h.size : Int) ≤ o then .refused else .ok o.toNat) l

/-- A word of numbers: first `SimplifyParams`, later `process_input_string`. -/
def numbers (h : Host) (l : List Int) : Out (List Nat) := (offset l).bind (ranged h)

/-- `process_input_string` for names (simplify.cpp:31-51). -/
def named (h : Host) (ts : List Text) : Out (List Nat) := match h.find with
  | none => .refused
  | some f => Out.each (fun t => Out.ofOption ((f t).map Int.toNat)) ts

/-- The shape and the words of the input (simplify.cpp:122-176). -/
def words (h : Host) : Input → Out (List Nat × List (List Nat))
  | .numbers l => (numbers h l).bind fun w => .ok ([1, 1], [w])
  | .cell s ls => (Out.each (numbers h) ls).bind fun ws => .ok (s, ws)
  | .names ts => (named h ts).bind fun w => .ok ([1, 1], [w])
  | .other => .refused

/-- The three outputs for one sequence: operators, `to_scalar` of the sign, hash (simplify.cpp:222-233, 263-265, conjugate.cpp:94-105, 133-135). -/
noncomputable def output (w : HSeq) : Row := row w (SymbolMatrix.scalar w.sign)

/-- `Simplify::operator()` (simplify.cpp:189-286). -/
noncomputable def simplify (h : Host) (x : Input) : Out (List Nat × List Row) :=
  (words h x).bind fun r => .ok (r.1, r.2.map fun w => output (h.seq w))

/-- `Conjugate::operator()` (conjugate.cpp:71-158). Names cannot be given (conjugate.cpp:46-49: they are not integers). -/
noncomputable def conjugate (h : Host) (x : Input) : Out (List Nat × List Row) := match x with
  | .names _ => .refused
  | x => (words h x).bind fun r => .ok (r.1, r.2.map fun w => output (h.conj (h.seq w)))

/-- Algebraic contexts. -/
noncomputable def algebraic (a : Algebraic.Context) (T : Names.Table) : Host :=
  ⟨a.pre.num, Algebraic.sequence a, (Algebraic.env a).conj, some T.find⟩

/-- Locality contexts. -/
def locality (s : Locality.Scenario) : Host := ⟨Locality.operatorCount s, Locality.sequence s, (Locality.env s).conj, none⟩

end Moment.WordOps
