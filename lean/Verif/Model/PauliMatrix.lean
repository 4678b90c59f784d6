import Verif.Model.OperatorMatrix
import Verif.Model.Pauli
import Verif.Model.SiteHash

/-! # Model of the matrices of Pauli scenarios
(cpp/lib_moment/scenarios/pauli/pauli_context.{h,cpp}, matrices/moment_matrix.h, matrices/monomial_localizing_matrix.h,
matrices/monomial_commutator_matrix.h, indices/monomial_index.h, indices/nearest_neighbour_index.h, symmetry/moment_simplifier.cpp,
cpp/lib_moment/matrix/operator_matrix/operator_matrix_impl.h)

The four generators are modelled for one thread. Word lists are those of Model/Fill. -/

namespace Moment.PauliMatrix

open Moment.SymbolMatrix (Host Out MonoMat)
open Moment.Symbols (Table)

/-- Which `MomentSimplifier` a context has (pauli_context.cpp:71-74, 100-103; moment_simplifier.cpp:23-68): none without translational symmetry, that of an open
chain, that of an open lattice with columns of height `h`, or that of a closed chain or lattice, with its hasher. -/
inductive Symmetry
  | none
  | chain
  | lattice (h : Nat)
  | closed (wide : SiteHash.Wide) (H : SiteHash.Hasher)

/-- `canonical_sequence` on words. Where shifts are undefined behaviour (see C77) the model leaves the word as it is. -/
def Symmetry.canon : Symmetry → List Nat → List Nat
  | .none, w => w
  | .chain, w => Translate.chainCanonical w
  | .lattice h, w => Translate.latticeCanonical h w
  | .closed wide H, w => (SiteHash.canonical wide H w).getD w

/-- `is_canonical` on words. -/
def Symmetry.isCanon : Symmetry → List Nat → Bool
  | .none, _ => true
  | .chain, w => Translate.chainIsCanonical w
  | .lattice h, w => Translate.latticeIsCanonical h w
  | .closed wide H, w => (SiteHash.isCanonical wide H w).getD true

/-- `can_have_aliases` (pauli_context.h:137-140). -/
def Symmetry.aliases : Symmetry → Bool
  | .none => false
  | _ => true

/-- What the symbol table uses of `PauliContext` on `n` qubits: `conjugate` (pauli_context.cpp:354-357), `simplify_as_moment` (pauli_context.cpp:478-490,
moment_simplifier.cpp:70-76) and `can_be_simplified_as_moment` (pauli_context.cpp:492-498). No words are known to be null (scenarios/context.h:137-139, not overridden). -/
def env (n : Nat) (y : Symmetry) : Symbols.Env where
  conj := Pauli.conjugate
  null _ := (false, false)
  aliases := y.aliases
  simp w := Translate.canonicalSeq (Pauli.ctx n) y.canon w
  canSimp w := !y.isCanon w.ops

/-- The members of `PauliContext` that matrices use; `can_be_nonhermitian` (pauli_context.h:129-131). -/
def host (n : Nat) (y : Symmetry) : Host where
  env := env n y
  mul := Pauli.multiply n
  canNonHerm := false

/-- Which generator, and its word. -/
inductive Kind
  | moment
  | localizing (x : HSeq)
  | commutator (x : HSeq)
  | anticommutator (x : HSeq)

/-- `operator()` of the generators (moment_matrix.h:37-40, monomial_localizing_matrix.h:38-41, monomial_commutator_matrix.h:41-48). -/
def Kind.fn (n : Nat) : Kind → HSeq → HSeq → HSeq
  | .moment, l, r => Pauli.multiply n l r
  | .localizing x, l, r => Pauli.multiply n l (Pauli.multiply n x r)
  | .commutator x, l, r => Pauli.commutator n (Pauli.multiply n l r) x
  | .anticommutator x, l, r => Pauli.anticommutator n (Pauli.multiply n l r) x

/-- `should_be_hermitian` (moment_matrix.h:43-44, monomial_localizing_matrix.h:44-47, monomial_commutator_matrix.h:54-60). -/
def Kind.shouldBeHermitian : Kind → Bool
  | .moment => true
  | .localizing x => !x.sign.isImaginary
  | .commutator x => x.sign.isImaginary
  | .anticommutator x => !x.sign.isImaginary

/-- `determine_prefactor` (moment_matrix.h:47-48, monomial_localizing_matrix.h:50-51, monomial_commutator_matrix.h:63-64). -/
noncomputable def Kind.prefactor : Kind → ℂ
  | .moment => 1
  | .localizing _ => 1
  | .commutator _ => 2
  | .anticommutator _ => 2

/-- `create_matrix` (operator_matrix_impl.h:122-149), single-threaded. The rows are the words of the columns, because words are Hermitian
(osg_pair.h:51-53). -/
noncomputable def create (n : Nat) (y : Symmetry) (t : Table) (k : Kind) (words : List HSeq) : Out MonoMat :=
  let A := OperatorMatrix.singleAliased (host n y) (k.fn n) (OperatorMatrix.rowWords (host n y) words) words
  SymbolMatrix.create (host n y) t A.1 A.2 k.prefactor

/-- `PauliMonomialIndex` (monomial_index.h:33-48): level and number of neighbours (nearest_neighbour_index.h:26-40), and the word. -/
structure Index where
  level : Nat
  neighbours : Nat
  word : HSeq

/-- `PauliMonomialIndex::operator<` (monomial_index.h:55-66); the default comparison of `NearestNeighbourIndex` goes member by member. -/
def Index.lt (a b : Index) : Bool :=
  if a.level < b.level then true else if b.level < a.level then false
  else if a.neighbours < b.neighbours then true else if b.neighbours < a.neighbours then false
  else decide (a.word.hash < b.word.hash)

/-- Two indices are one key of a `std::map`. -/
def Index.same (a b : Index) : Bool := !a.lt b && !b.lt a

end Moment.PauliMatrix
