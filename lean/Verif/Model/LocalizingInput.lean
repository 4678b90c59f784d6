import Verif.Model.PolyInput
import Verif.Model.WordOps

/-! # Model of how the expression of a localizing matrix is read
(cpp/mex_functions/import/read_localizing_matrix_indices.cpp, functions/operator_matrix/localizing_matrix.cpp)

Simplified: the level and the number of neighbours are left out, as are locks and the choice of the base system for derived systems; polynomials in words are
followed up to `supply_context` (what comes after is modelled in `PolyInput`). -/

namespace Moment.LocalizingInput
open Moment.RuleInput (Out cast16)
open Moment.PolyInput
open Moment.SymbolText (Doubles)
open Moment.Symbols (Table)
open Moment.Poly (Mono)
open Moment.WordOps (Host ranged)

/-- `ExpressionType`, chosen by flags: none, `symbols`, `operators` (localizing_matrix.cpp:51-57, 79-85). -/
inductive Kind
  | sequence
  | symbols
  | operators
  deriving DecidableEq

/-- The variant `localizing_expression` (read_localizing_matrix_indices.cpp:56, 79, 82). -/
inductive Expression
  | word (l : List Int)
  | terms (l : List Mono)
  | staged (l : List (List Nat × ℂ))

/-- The offset for words of numbers, stored again with 16 bits (read_localizing_matrix_indices.cpp:58-67). -/
def offset (fromOne : Bool) (l : List Int) : Out (List Int) :=
  if fromOne then Out.each (fun o => if o = 0 then .refused else .ok (cast16 (o - 1))) l else .ok l

/-- The first branch of `read_localizing_expression` (read_localizing_matrix_indices.cpp:49-70). -/
noncomputable def readWord (s : Streams) (fromOne : Bool) (k : Kind) (v : Value) : Out Expression :=
  if k = .sequence then ((readOps s v).bind (offset fromOne)).bind fun l => .ok (.word l) else .refused

/-- `read_localizing_expression` (read_localizing_matrix_indices.cpp:31-90). `fromOne` is `matlab_indexing`. -/
noncomputable def readExpression (s : Streams) (D : Doubles) (fromOne : Bool) (k : Kind) : Value → Out Expression
  | .strings l => readWord s fromOne k (.strings l)
  | .doubles l => readWord s fromOne k (.doubles l)
  | .ints l => readWord s fromOne k (.ints l)
  | .cell l => match k with
    | .sequence => .refused
    | .symbols => (readTerms s D (.cell l)).bind fun p => .ok (.terms p)
    | .operators => (stage s (.cell l)).bind fun p => .ok (.staged p)
  | .bools _ => .refused
  | .complexes _ => .refused

/-- What localizes: a word, a polynomial in symbols, or a polynomial in words. -/
inductive Index
  | word (w : HSeq)
  | symbols (p : List Mono)
  | words (r : RawPoly.Raw)

/-- `to_monomial_index` (read_localizing_matrix_indices.cpp:180-220), `to_polynomial_index` for symbols (read_localizing_matrix_indices.cpp:240-244),
`supply_context_only` with `to_raw_polynomial_index` (read_localizing_matrix_indices.cpp:126-157, 258-267). -/
noncomputable def toIndex (h : Host) (t : Table) (o : Poly.Order) : Expression → Out Index
  | .word l => (ranged h l).bind fun w => .ok (.word (h.seq w))
  | .terms p => (toPolynomial t o p).bind fun p => .ok (.symbols p)
  | .staged p => (supply h.size h.seq p).bind fun r => .ok (.words r)

/-- One after the other, as in `LocalizingMatrix`. -/
noncomputable def localizing (s : Streams) (D : Doubles) (h : Host) (t : Table) (o : Poly.Order) (fromOne : Bool) (k : Kind) (v : Value) : Out Index :=
  (readExpression s D fromOne k v).bind (toIndex h t o)

end Moment.LocalizingInput
