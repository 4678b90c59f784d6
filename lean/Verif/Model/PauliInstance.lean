import Verif.Model.PauliSystem
import Verif.Model.PauliMatrix
import Verif.Model.Fill
import Verif.Model.LocalitySystem

/-! # Model of the matrix systems of particular Pauli scenarios
(cpp/lib_moment/scenarios/pauli/{pauli_matrix_system.cpp, pauli_context.cpp, pauli_dictionary.cpp, pauli_osg.cpp, indices/polynomial_index.h,
matrices/*.h}, matrix/composite_matrix.h)

The functions that Model/PauliSystem.lean leaves open are filled in with those of the other models, with one thread and in exact arithmetic. Terms of polynomials
are ordered by the numbers of their symbols, because the constructor of the system does not choose another factory (pauli_matrix_system.cpp:18-29,
matrix_system.cpp:41-48). Rulebooks are parameters. -/

namespace Moment.PauliInstance

open Moment.Symbols (Table)
open Moment.Poly (Mono)
open Moment.PauliMatrix (Symmetry host env create)
open Moment.PauliSystem (PMaker)
open Moment.LocalitySystem (Matrix termWord)
open Moment.RawPoly (Raw)

/-- A context: qubits and what is known about their order, and the hasher of closed chains and lattices with the type that holds its hashes. -/
structure Scene where
  layout : Fill.Layout
  wide : SiteHash.Wide
  hasher : SiteHash.Hasher

/-- `qubit_size`. -/
def Scene.qubits (s : Scene) : Nat := s.layout.qubits

/-- `tx_hasher` as the constructors set it (pauli_context.cpp:71-74, 100-103; moment_simplifier.cpp:23-68). -/
def Scene.symmetry (s : Scene) : Symmetry :=
  if !s.layout.symmetric then .none else if s.layout.wrap then .closed s.wide s.hasher else if s.layout.lattice then .lattice s.layout.height else .chain

/-- The constructor of sequences with the hash of their context (operator_sequence.h:66-79, hashed_sequence.h). -/
def Scene.sequence (s : Scene) (e : Fill.Entry) : HSeq := ⟨hashWord (UInt64.ofNat (s.qubits * 3)) e.1, e.1, e.2⟩

/-- `PauliDictionary::NearestNeighbour` (pauli_dictionary.cpp:19-55), with the words of `PauliSequenceGenerator` (pauli_osg.cpp:257-277): `none` is undefined
behaviour, `some none` an exception. -/
noncomputable def Scene.words (s : Scene) (m : Nat × Nat) : Option (Option (List HSeq)) :=
  (Fill.generate s.wide s.hasher s.layout m.1 m.2).map fun r => r.map fun l => l.map s.sequence

/-- The generators for words (pauli_matrix_system.cpp:103-148). -/
def kindOf : PauliSystem.Kind → HSeq → PauliMatrix.Kind
  | .localizing, w => .localizing w
  | .commutator, w => .commutator w
  | .anticommutator, w => .anticommutator w

/-- `create_matrix` of the four kinds of matrices (operator_matrix_impl.h:122-149), which looks up the words first. -/
noncomputable def Scene.make (s : Scene) (t : Table) (k : PauliMatrix.Kind) (m : Nat × Nat) : Option (Table × Option Matrix) :=
  (s.words m).bind fun
    | none => some (t, none)
    | some ws => (create s.qubits s.symmetry t k ws).map fun r => (r.1, r.2.map .mono)

/-- The dimension of a composite matrix: that of the first of its parts, or `osg_size` (composite_matrix.h:91-108, 202-205, 256-259,
pauli_matrix_system.cpp:68-70). -/
noncomputable def Scene.dimension (s : Scene) (m : Nat × Nat) : List Matrix → Option (Option Nat)
  | M :: _ => some (some M.part.dim)
  | [] => (s.words m).map fun r => r.map List.length

/-- The order of `ByIDPolynomialFactory` (polynomial_factory.h). -/
def byId : Poly.Order := ⟨id⟩

/-- A weighted sum of matrices (composite_matrix.h:207-209, 263-266, composite_matrix.cpp:130-160). -/
noncomputable def Scene.sum (s : Scene) (t : Table) (m : Nat × Nat) (l : List Matrix) (factors : List ℂ) : Option (Table × Option Matrix) :=
  (s.dimension m l).bind fun
    | none => some (t, none)
    | some d => (MatrixSum.composite t byId ⟨d, (l.zip factors).map fun x => (x.1.part, x.2)⟩).map fun r => (t, r.map .poly)

/-- The end of `create_from_raw` in contexts with symmetries (composite_matrix.h:256-266): the polynomial in symbols is made for the index, which throws if one of
the words has no symbol (polynomial_factory.cpp:50-63). -/
noncomputable def Scene.sumRaw (s : Scene) (t : Table) (m : Nat × Nat) (q : Raw) (l : List Matrix) : Option (Table × Option Matrix) :=
  match RawPoly.construct (env s.qubits s.symmetry) t byId q with
  | none => (s.dimension m l).map fun _ => (t, none)
  | some _ => s.sum t m l (q.map Prod.snd)

/-- The system of a context. `skip` says when `fill_to_word_length` returns early (symbol_table.cpp:311-313). -/
noncomputable def Scene.maker {B : Type} (s : Scene) (skip : Table → Nat → Bool)
    (substitute : Table → B → Matrix → Option (Table × Option Matrix)) (merge : B → B → B × Bool) : PMaker Table HSeq (List Mono) Raw B Matrix where
  moment t m := s.make t .moment m
  mono k t m w := s.make t (kindOf k w) m
  hash w := w.hash
  less := PolyOrder.less (PolyOrder.withCoefficients PolyOrder.compareExact byId)
  size p := p.length
  word t p k := (p[k]?).bind (termWord t)
  compose _ t m p l := s.sum t m l (p.map Mono.factor)
  composePlain t n p l := s.sum t (n, 0) l (p.map Mono.factor)
  aliases := s.symmetry.aliases
  register t q := (RawPoly.registerStorage (env s.qubits s.symmetry) t q).map fun x => (x.1, Poly.make (MatrixBasis.polyTable x.1) byId x.2)
  rawWords q := q.map Prod.fst
  composeRaw _ t m q l := s.sumRaw t m q l
  composeRawPlain t n q l := s.sumRaw t (n, 0) q l
  substitute := substitute
  merge := merge
  fill t n := if skip t n then some (t, some false) else (s.words (n, 0)).bind fun
    | none => some (t, none)
    | some ws => (t.fill (env s.qubits s.symmetry) ws).map fun r => (r.1, some (r.2 != 0))

end Moment.PauliInstance
