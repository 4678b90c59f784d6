import Verif.Model.RuleInput
import Mathlib.Algebra.BigOperators.Group.List.Basic

/-! # Model of reading and returning matrices of numbers
(cpp/mex_functions/eigen/read_eigen_sparse.cpp, read_eigen_dense.cpp, export_eigen_sparse.cpp)

Simplified: numbers are elements of any type with zero and sum; the conversion between types of numbers is left out. Dimensions are below 2^31. A text is given by what
`std::stringstream >> double` makes of it. -/

namespace Moment.NumericInput
open Moment.RuleInput (Out)

variable {α : Type} [AddMonoid α] [DecidableEq α]

/-- What `ss >> value` does with a text (read_eigen_sparse.cpp:86-88, read_eigen_dense.cpp:83-85). Without any character that is not a blank, `value` keeps the indeterminate value it
has; if there are characters that are no number, it becomes zero. The stream does not throw, and its state is not looked at. -/
inductive Text (α : Type)
  | null
  | blank
  | junk
  | number (x : α)

/-- Matrices of MATLAB. Entries of sparse matrices: row, column, value. -/
inductive Input (α : Type)
  | dense (rows cols : Nat) (f : Nat → Nat → α)
  | sparse (rows cols : Nat) (es : List (Nat × Nat × α))
  | text (rows cols : Nat) (f : Nat → Nat → Text α)

/-- `Eigen::SparseMatrix`: the entries that are stored, column by column. -/
structure Sparse (α : Type) where
  rows : Nat
  cols : Nat
  stored : List (Nat × Nat × α)

/-- The values in a list of triplets at one position. -/
def valuesAt (es : List (Nat × Nat × α)) (r c : Nat) : List α := es.flatMap fun e => if e.1 = r ∧ e.2.1 = c then [e.2.2] else []

/-- `Eigen::SparseMatrix::coeff`: what is stored, or zero. -/
def Sparse.coeff (m : Sparse α) (r c : Nat) : α := (valuesAt m.stored r c).sum

/-- `setFromTriplets` of Eigen: triplets at the same position are summed, positions go column by column. -/
def compress (rows cols : Nat) (es : List (Nat × Nat × α)) : List (Nat × Nat × α) :=
  (List.range cols).flatMap fun c => (List.range rows).flatMap fun r => match valuesAt es r c with
    | [] => []
    | l => [(r, c, l.sum)]

/-- `triplet_to_sparse` (read_eigen_sparse.cpp:104-113). -/
def tripletToSparse (rows cols : Nat) (es : List (Nat × Nat × α)) : Sparse α := ⟨rows, cols, if es.isEmpty then [] else compress rows cols es⟩

/-- The loops over rows and columns that keep what is not zero (read_eigen_sparse.cpp:36-43, 75-91). -/
def nonZeros (rows cols : Nat) (f : Nat → Nat → α) : List (Nat × Nat × α) :=
  (List.range rows).flatMap fun r => (List.range cols).flatMap fun c => if f r c ≠ 0 then [(r, c, f r c)] else []

/-- The value taken for a text; a blank text has none (read_eigen_sparse.cpp:79-91, read_eigen_dense.cpp:75-86). -/
def Text.value : Text α → α
  | .number x => x
  | _ => 0

/-- Whether an indeterminate value is read (read_eigen_sparse.cpp:87-89, read_eigen_dense.cpp:84-86). -/
def anyBlank (rows cols : Nat) (f : Nat → Nat → Text α) : Bool :=
  (List.range rows).any fun r => (List.range cols).any fun c => match f r c with | .blank => true | _ => false

/-- `ReadNumericMatrixVisitor` (read_eigen_sparse.cpp:21-101). -/
def readSparse : Input α → Out (Sparse α)
  | .dense rows cols f => .ok (tripletToSparse rows cols (nonZeros rows cols f))
  | .sparse rows cols es => .ok (tripletToSparse rows cols es)
  | .text rows cols f => if anyBlank rows cols f then .undefined else .ok (tripletToSparse rows cols (nonZeros rows cols fun r c => (f r c).value))

/-- `ReadDenseNumericMatrixVisitor` (read_eigen_dense.cpp:25-96): rows, columns and entries. Entries of sparse matrices are written one after the other. -/
def readDense : Input α → Out (Nat × Nat × (Nat → Nat → α))
  | .dense rows cols f => .ok (rows, cols, f)
  | .sparse rows cols es => .ok (rows, cols, es.foldl (fun f e => fun r c => if r = e.1 ∧ c = e.2.1 then e.2.2 else f r c) fun _ _ => 0)
  | .text rows cols f => if anyBlank rows cols f then .undefined else .ok (rows, cols, fun r c => (f r c).value)

/-- `do_export_eigen_sparse` (export_eigen_sparse.cpp:18-54): the entries that are stored, in their order; a matrix with none is made by `sparse(rows, cols)` (make_sparse_matrix.cpp:14-22). -/
def exportSparse (m : Sparse α) : Input α := if m.stored.length = 0 then .sparse m.rows m.cols [] else .sparse m.rows m.cols m.stored

end Moment.NumericInput
