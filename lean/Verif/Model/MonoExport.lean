import Verif.Model.PolyInput

/-! # Model of the export of monomials as words
(cpp/mex_functions/export/full_monomial_specification.{h,cpp}, export/export_polynomial.cpp, export/export_osg.cpp, export/export_operator_matrix.cpp)

The parallel arrays of `FullMonomialSpecification` are a list of rows; their shapes are left out. Basis elements are natural numbers, since the code adds one and
uses -1 for a missing one. The texts of exceptions are left out. -/

namespace Moment.MonoExport
open Moment.RuleInput (Out)
open Moment.Poly (Mono)
open Moment.Symbols (Env Table Sym)

/-- One entry of the arrays `operators`, `coefficients` and `hashes` (full_monomial_specification.h:39-41). -/
structure Row where
  ops : List Nat
  coefficient : ℂ
  hash : UInt64

/-- One entry of all arrays with information on symbols (full_monomial_specification.h:42-45). -/
structure FullRow extends Row where
  id : Nat
  conj : Bool
  re : Nat
  im : Nat

/-- `basis_key().first + 1`, `basis_key().second + 1` (symbol.h:109-111, full_monomial_specification.cpp:213-214). -/
def fromOne (k : Option Nat) : Nat := k.elim 0 (· + 1)

/-- A word as operators, counted from one (export_operator_sequence.cpp:14-26), coefficient and hash. -/
def row (w : HSeq) (f : ℂ) : Row := ⟨w.ops.map (· + 1), f, w.hash⟩

/-- The columns on the symbol (full_monomial_specification.cpp:211-214, 252-255). -/
def full (r : Row) (id : Nat) (conj : Bool) (s : Sym) : FullRow := ⟨r, id, conj, fromOne s.re, fromOne s.im⟩

/-- The word of a monomial (full_monomial_specification.cpp:179, 205, export_polynomial.cpp:166); `none` if it is missing. -/
def wordOf (s : Sym) (conj : Bool) : Option HSeq := if conj then SymbolMatrix.seqConj s else s.seq

/-- `PartialWriteFunctor::operator()(const Monomial&)` (full_monomial_specification.cpp:171-185). Missing words are undefined behaviour (symbol.h:78, 87): `value()` of an
empty optional in a function that must not throw. -/
def partialMono (t : Table) (m : Mono) : Out Row := match t.syms[m.id]? with
  | none => .refused
  | some s => (wordOf s m.conj).elim .undefined fun w => .ok (row w m.factor)

/-- `PartialWriteFunctor::operator()(const OperatorSequence&, std::complex<double>)` (full_monomial_specification.cpp:187-196). -/
noncomputable def partialWord (w : HSeq) (f : ℂ) : Row := row w (f * SymbolMatrix.scalar w.sign)

/-- `FullWriteFunctor::operator()(const Monomial&)` (full_monomial_specification.cpp:198-216). -/
def fullMono (t : Table) (m : Mono) : Out FullRow := match t.syms[m.id]? with
  | none => .refused
  | some s => (wordOf s m.conj).elim .undefined fun w => .ok (full (row w m.factor) m.id m.conj s)

/-- `FullWriteFunctor::operator()(const OperatorSequence&)` (full_monomial_specification.cpp:218-235); `negated()` is
`is_negative` (hashed_sequence.h:105-107). A number of a symbol beyond the table is undefined behaviour. -/
def fullWord (c : Env) (t : Table) (w : HSeq) : Out FullRow := match (t.lookup c w).1 with
  | none => .refused
  | some k => match t.syms[k.1]? with
    | none => .undefined
    | some s => .ok (full (row w (if w.sign.isNegative then -1 else 1)) s.id k.2 s)

/-- `FullWriteFunctor::operator()(std::tuple<const Monomial&, const OperatorSequence&>)` (full_monomial_specification.cpp:237-257). -/
def fullEntry (t : Table) (m : Mono) (w : HSeq) : Out FullRow := match t.syms[m.id]? with
  | none => .refused
  | some s => .ok (full (row w m.factor) m.id m.conj s)

/-- The body of the loop of `PolynomialExporter::sequences` (export_polynomial.cpp:151-195). -/
def term (t : Table) (m : Mono) : Out FullRow := match t.syms[m.id]? with
  | none => .refused
  | some s => if s.seq.isNone then .refused else (wordOf s m.conj).elim .undefined fun w => .ok (full (row w m.factor) m.id m.conj s)

/-- `PolynomialExporter::sequences` with symbols (export_polynomial.cpp:134-197). -/
def sequences (t : Table) (p : List Mono) : Out (List FullRow) := Out.each (term t) p

/-- `OSGExporter::sequences` (export_osg.cpp:36-45); the factor is one by default (full_monomial_specification.h:141-142). -/
noncomputable def wordList (l : List HSeq) : List Row := l.map fun w => partialWord w 1

/-- `OSGExporter::sequences_with_symbol_info` (export_osg.cpp:47-60). -/
def wordListFull (c : Env) (t : Table) (l : List HSeq) : Out (List FullRow) := Out.each (fullWord c t) l

/-- `OperatorMatrixExporter::monomials` (export_operator_matrix.cpp:161-180): entries of the matrix of symbols with those of the (aliased) matrix of operators. -/
def monomials (t : Table) (l : List (Mono × HSeq)) : Out (List FullRow) := Out.each (fun e => fullEntry t e.1 e.2) l

end Moment.MonoExport
