import Verif.Model.MatrixSystem
import Verif.Model.OperatorMatrix
import Verif.Model.MatrixSum
import Verif.Model.RawPoly
import Verif.Model.LocalityContext
import Verif.Model.PolyOrder

/-! # Model of the matrix system of locality scenarios
(cpp/lib_moment/scenarios/locality/locality_matrix_system.cpp, and what it inherits from cpp/lib_moment/matrix_system/)

The functions that make matrices are those of the other models, with one thread and in exact arithmetic. Terms of polynomials are ordered by the hashes of their
symbols (`ByHashPolynomialFactory`, locality_matrix_system.cpp:27): `ord` is this order, which depends on the table. The order of polynomials in the index only
compares symbols that are in the table, which keep their hashes, so that one `rank` serves for all tables. Rulebooks are parameters. -/

namespace Moment.LocalitySystem

open Moment.Symbols (Table)
open Moment.Poly (Mono)
open Moment.MatrixBasis (SymMat)
open Moment.SymbolMatrix (MonoMat)
open Moment.MatrixSum (Part)
open Moment.OperatorMatrix (createMatrix momentFn localizingFn)
open Moment.RawPoly (Raw)
open Moment.Locality (Scenario host env generate sequence)

/-- Matrices of a system: `MonomialMatrix` and `PolynomialMatrix`. -/
inductive Matrix
  | mono (M : MonoMat)
  | poly (S : SymMat (List Mono))

/-- The entries. -/
def Matrix.part : Matrix → Part
  | .mono M => .mono M.sym.mat
  | .poly S => .poly S.mat

/-- `SymbolicMatrix::Hermitian`. -/
def Matrix.hermitian : Matrix → Bool
  | .mono M => M.sym.hermitian
  | .poly S => S.hermitian

/-- `Dictionary::Level` (dictionary.cpp:29-67) with the words of `LocalityOperatorSequenceGenerator`. -/
noncomputable def level (s : Scenario) (n : Nat) : List HSeq := (generate s n).map (sequence s)

/-- The word of a term: `MonomialLMIterator::operator*` (polynomial_localizing_matrix_index.h:49-56), `Symbol::sequence_conj` (symbol.h:89-92). -/
def termWord (t : Table) (m : Mono) : Option HSeq :=
  (t.syms[m.id]?).bind fun e => if m.conj then (if e.herm then e.seq else e.conj) else e.seq

/-- `CompositeMatrixImpl::create` (composite_matrix.h:182-210), given the matrices for the terms. The dimension is that of the first of them, or the
number of words. -/
noncomputable def compose (s : Scenario) (ord : Table → Poly.Order) (t : Table) (n : Nat) (p : List Mono) (l : List Matrix) : Option (Table × Option Matrix) :=
  (MatrixSum.composite t (ord t) ⟨(l.head?).elim (level s n).length fun M => M.part.dim, (l.zip p).map fun x => (x.1.part, x.2.factor)⟩).map fun r =>
    (t, r.map .poly)

/-- The system of a scenario. `skip` says when `fill_to_word_length` returns early (symbol_table.cpp:311-313). -/
noncomputable def maker {B : Type} (s : Scenario) (ord : Table → Poly.Order) (rank : Poly.Order) (skip : Table → Nat → Bool)
    (substitute : Table → B → Matrix → Option (Table × Option Matrix)) (merge : B → B → B × Bool) :
    MatrixSystem.Maker Table HSeq (List Mono) Raw B Matrix where
  moment t n := (createMatrix (host s) t (momentFn (host s)) (level s n)).map fun r => (r.1, r.2.map .mono)
  localizing t n w := (createMatrix (host s) t (localizingFn (host s) w) (level s n)).map fun r => (r.1, r.2.map .mono)
  hash w := w.hash
  less := PolyOrder.less (PolyOrder.withCoefficients PolyOrder.compareExact rank)
  size p := p.length
  word t p k := (p[k]?).bind (termWord t)
  compose := compose s ord
  aliases := false
  register t q := (RawPoly.registerStorage (env s) t q).map fun x => (x.1, Poly.make (MatrixBasis.polyTable x.1) (ord x.1) x.2)
  rawWords q := q.map Prod.fst
  composeRaw _ _ _ _ := none
  substitute := substitute
  merge := merge
  fill t n := if skip t n then some (t, some false) else (t.fill (env s) (level s n)).map fun r => (r.1, some (r.2 != 0))

end Moment.LocalitySystem
