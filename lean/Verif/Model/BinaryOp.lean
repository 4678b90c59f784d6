import Verif.Model.RawPoly
import Verif.Model.MonoExport

/-! # Model of sums, products, commutators and anticommutators of arrays of polynomials
(cpp/mex_functions/functions/algebraic/binary_operation.{h,cpp}, binary_operation_impl.h, plus.cpp, multiply.cpp, commutator.cpp,
cpp/mex_functions/export/export_polynomial.cpp)

Operands are given after they were read: a single polynomial, or an array of polynomials with its shape. Operations on matrices end with the name of the
routine that is called. Tolerances are zero, since numbers are exact. Locks and the texts of exceptions are left out. -/

namespace Moment.BinaryOp
open Moment.RuleInput (Out)
open Moment.RawPoly (Raw)
open Moment.Symbols (Table)
open Moment.MonoExport (Row row partialWord partialMono)

/-- `AlgebraicOperand` by its type (cpp/mex_functions/import/algebraic_operand.h:68-80): numbers, monomials and polynomials are single, whatever they were
given as. `empty` is `EmptyObject`, which has no polynomial (algebraic_operand.cpp:538-539). -/
inductive Operand
  | unknown
  | empty
  | one (p : Raw)
  | many (shape : List Nat) (l : List Raw)
  | matrix (id : Nat)

/-- `ProductType` (binary_operation.h:33-52). -/
inductive Kind
  | incompatible | mismatched | oneOne | oneMany | manyOne | manyMany | oneMatrix | matrixOne | matrixMatrix
  deriving DecidableEq

/-- `determine_product_type` (binary_operation.cpp:51-150). -/
def kind : Operand → Operand → Kind
  | .matrix _, .unknown => .incompatible
  | .matrix _, .empty => .matrixOne
  | .matrix _, .one _ => .matrixOne
  | .matrix _, .matrix _ => .matrixMatrix
  | .matrix _, .many _ _ => .incompatible
  | .empty, .unknown => .incompatible
  | .empty, .empty => .oneOne
  | .empty, .one _ => .oneOne
  | .empty, .matrix _ => .oneMatrix
  | .empty, .many _ _ => .oneMany
  | .one _, .unknown => .incompatible
  | .one _, .empty => .oneOne
  | .one _, .one _ => .oneOne
  | .one _, .matrix _ => .oneMatrix
  | .one _, .many _ _ => .oneMany
  | .many _ _, .unknown => .incompatible
  | .many _ _, .empty => .manyOne
  | .many _ _, .one _ => .manyOne
  | .many _ _, .matrix _ => .incompatible
  | .many s _, .many s' _ => if s = s' then .manyMany else .mismatched
  | .unknown, _ => .incompatible

/-- The functions `Plus`, `Multiply`, and `Commutator` with its two flags. -/
inductive Operation
  | plus | times | commutator | anticommutator
  deriving DecidableEq

/-- The checks of `MultiplyParams` (multiply.cpp:24-36) and `CommutatorParams` (commutator.cpp:30-41); `PlusParams` checks nothing (plus.h: `using`). -/
def permitted : Operation → Kind → Bool
  | .plus, _ => true
  | .times, k => match k with
    | .oneOne => true
    | .oneMany => true
    | .manyOne => true
    | .manyMany => true
    | .oneMatrix => true
    | .matrixOne => true
    | _ => false
  | _, k => match k with
    | .oneOne => true
    | .oneMany => true
    | .manyOne => true
    | .manyMany => true
    | _ => false

/-- The context: multiplication of words, and the number of qubits if it is a Pauli context (commutator.cpp:45-50). -/
structure Ctx where
  mul : HSeq → HSeq → HSeq
  pauli : Option Nat

/-- `Plus::one_to_one` (plus.cpp:22-24), `Multiply::one_to_one` (multiply.cpp:42-45), `Commutator::one_to_one` (commutator.cpp:55-74). -/
noncomputable def oneToOne (c : Ctx) : Operation → Raw → Raw → Raw
  | .plus, p, q => RawPoly.add p q
  | .times, p, q => RawPoly.multiply c.mul p q
  | .commutator, p, q => match c.pauli with
    | some n => RawPoly.pauliCommutator n p q
    | none => RawPoly.bracket c.mul false p q
  | .anticommutator, p, q => match c.pauli with
    | some n => RawPoly.pauliAnticommutator n p q
    | none => RawPoly.bracket c.mul true p q

/-- `to_raw_polynomial` (algebraic_operand.cpp:474-541). Called for single operands only. -/
def Operand.poly : Operand → Out Raw
  | .one p => .ok p
  | _ => .refused

/-- `to_raw_polynomial_array` (algebraic_operand.cpp:543-607). Called for arrays only. -/
def Operand.polys : Operand → Out (List Raw)
  | .many _ l => .ok l
  | _ => .refused

/-- The member `shape`. -/
def Operand.shape : Operand → List Nat
  | .many s _ => s
  | _ => [1, 1]

/-- `one_to_many` (binary_operation.h:176-184). -/
def oneToMany (f : Raw → Raw → Raw) (p : Raw) (l : List Raw) : List Raw := l.map fun q => f p q

/-- `many_to_one` (binary_operation.h:190-198). -/
def manyToOne (f : Raw → Raw → Raw) (l : List Raw) (q : Raw) : List Raw := l.map fun p => f p q

/-- `many_to_many` (binary_operation.h:204-213): the loop runs over the left array; reading beyond the right one is undefined. -/
def manyToMany (f : Raw → Raw → Raw) : List Raw → List Raw → Out (List Raw)
  | [], _ => .ok []
  | _ :: _, [] => .undefined
  | p :: l, q :: l' => (manyToMany f l l').bind fun r => .ok (f p q :: r)

/-- What is given to output: one row for each entry, or a list of rows for each entry, and the shape; or a routine for matrices. -/
inductive Result
  | monomials (shape : List Nat) (rows : List Row)
  | polynomials (shape : List Nat) (rows : List (List Row))
  | polyMatrix
  | matrixMatrix

/-- The first switch of `polynomial_by_polynomial` (binary_operation_impl.h:78-102). -/
noncomputable def calculate (c : Ctx) (op : Operation) (k : Kind) (x y : Operand) : Out (List Raw × List Nat) := match k with
  | .oneOne => x.poly.bind fun p => y.poly.bind fun q => .ok ([oneToOne c op p q], [1, 1])
  | .oneMany => x.poly.bind fun p => y.polys.bind fun l => .ok (oneToMany (oneToOne c op) p l, y.shape)
  | .manyOne => x.polys.bind fun l => y.poly.bind fun q => .ok (manyToOne (oneToOne c op) l q, x.shape)
  | .manyMany => x.polys.bind fun l => y.polys.bind fun l' => (manyToMany (oneToOne c op) l l').bind fun r => .ok (r, x.shape)
  | _ => .refused

/-- `PolynomialExporter::sequences(const RawPolynomial&)` (export_polynomial.cpp:111-131). -/
def rows (p : Raw) : List Row := p.map fun e => row e.1 e.2

/-- The body of the loop of `monomial_sequence_cell_vector` (export_polynomial.cpp:297-305): zero is the symbol zero with factor zero. -/
noncomputable def monomialRow (t : Table) : Raw → Out Row
  | [] => partialMono t ⟨0, false, 0⟩
  | e :: _ => .ok (partialWord e.1 e.2)

/-- The rest of `polynomial_by_polynomial` (binary_operation_impl.h:104-124); the second output says which of the two it is. -/
noncomputable def exported (t : Table) (l : List Raw) (shape : List Nat) : Out Result :=
  if l.all fun p => p.length ≤ 1 then (Out.each (monomialRow t) l).bind fun r => .ok (.monomials shape r)
  else .ok (.polynomials shape (l.map rows))

/-- `BinaryOperation::operator()` (binary_operation_impl.h:29-66), after the checks of parameters; the polynomial is read before a routine for
matrices is called (binary_operation_impl.h:168-169). -/
noncomputable def run (c : Ctx) (t : Table) (op : Operation) (x y : Operand) : Out Result :=
  if permitted op (kind x y) then
    match kind x y with
    | .incompatible => .refused
    | .mismatched => .refused
    | .oneMatrix => x.poly.bind fun _ => .ok .polyMatrix
    | .matrixOne => y.poly.bind fun _ => .ok .polyMatrix
    | .matrixMatrix => .ok .matrixMatrix
    | k => (calculate c op k x y).bind fun r => exported t r.1 r.2
  else .refused

end Moment.BinaryOp
