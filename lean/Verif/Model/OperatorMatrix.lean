import Verif.Model.SymbolMatrix
import Mathlib.Logic.Function.Basic

/-! # Model of the creation of moment matrices and localizing matrices
(cpp/lib_moment/matrix/operator_matrix/operator_matrix_factory.h, operator_matrix_factory_singlethreaded.h, operator_matrix_factory_multithreaded.h,
operator_matrix_impl.h, moment_matrix.h, localizing_matrix.h, cpp/lib_moment/dictionary/dictionary.cpp, osg_pair.h, operator_sequence_generator.cpp)

In the transition system each step is one access to shared data by one thread; memory is sequentially consistent. `std::atomic_flag::wait`,
`std::future::get` and `std::thread::join` are steps that are only enabled when what they wait for has happened. Indices do not overflow. -/

namespace Moment.OperatorMatrix

open Moment.MatrixBasis (Mat)
open Moment.SymbolMatrix (Host Out MonoMat)
open Moment.Symbols (Table)

/-! ## One thread -/

/-- The row generator that goes with the words of a column generator: `OSGPair::conjugate` (osg_pair.h:51-53), `Dictionary::Level`
(dictionary.cpp:41-45), `OperatorSequenceGenerator::conjugate` (operator_sequence_generator.cpp:41-56). -/
def rowWords (h : Host) (words : List HSeq) : List HSeq := if h.canNonHerm then words.map h.env.conj else words

/-- `MomentMatrixGenerator::operator()` (moment_matrix.h:33-36). -/
def momentFn (h : Host) : HSeq → HSeq → HSeq := fun l r => h.mul l r

/-- `LocalizingMatrixGenerator::operator()` (localizing_matrix.h:31-34). -/
def localizingFn (h : Host) (x : HSeq) : HSeq → HSeq → HSeq := fun l r => h.mul l (h.mul x r)

/-- `LocalizingMatrixGenerator::should_be_hermitian` (localizing_matrix.h:37-39). That of moment matrices is always true (moment_matrix.h:39). -/
def localizingHermitian (h : Host) (x : HSeq) : Bool := !x.sign.isImaginary && x.hash == (h.env.conj x).hash

/-- `could_be_non_hermitian` (operator_matrix_factory.h:123-124), given `can_make_unexpected_nonhermitian_matrices` of the context. -/
def couldBeNonHermitian (shouldBe unexpected : Bool) : Bool := !shouldBe || unexpected

/-- `make_operator_matrix`, single-threaded (operator_matrix_factory_singlethreaded.h:59-71). -/
def single (f : HSeq → HSeq → HSeq) (rows cols : List HSeq) : Mat HSeq :=
  ⟨cols.length, cols.flatMap fun c => rows.map fun r => f r c⟩

/-- `make_aliased`, single-threaded (operator_matrix_factory_singlethreaded.h:47-55, 73-86). -/
def singleAliased (h : Host) (f : HSeq → HSeq → HSeq) (rows cols : List HSeq) : Mat HSeq × Option (Mat HSeq) :=
  let A := single f rows cols
  (A, if h.env.aliases then some ⟨A.dim, A.data.map h.env.simp⟩ else none)

/-- `create_matrix` (operator_matrix_impl.h:122-149), single-threaded; the prefactor of both kinds of matrices is one (moment_matrix.h:42-43,
localizing_matrix.h:42-43). -/
noncomputable def createMatrix (h : Host) (t : Table) (f : HSeq → HSeq → HSeq) (words : List HSeq) : Out MonoMat :=
  let A := singleAliased h f (rowWords h words) words
  SymbolMatrix.create h t A.1 A.2 1

/-! ## Several threads -/

/-- What one thread does to the shared data in one go. -/
inductive Act
  /-- `os_data_ptr[k] = functor(…)`; `none` if the functor throws -/
  | put (k : Nat) (v : Option HSeq)
  /-- `os_data_ptr[k] = os_data_ptr[j].conjugate()` -/
  | turn (k j : Nat)
  /-- `alias_data_ptr[k] = context.simplify_as_moment(os_data_ptr[k])` -/
  | simplify (k : Nat)
  /-- `alias_data_ptr[k] = alias_data_ptr[j].conjugate()` -/
  | turnAlias (k j : Nat)

/-- What the workers of `OperatorMatrixFactoryMultithreaded` are given (operator_matrix_factory_multithreaded.h:304-327, 341): the dimension, the number
of workers, `could_be_non_hermitian`, `can_have_aliases`, the value of the functor for a row and a column (`none` if it throws), the conjugation of words
and `simplify_as_moment` (which is taken not to throw). -/
structure Job where
  n : Nat
  workers : Nat
  generic : Bool
  aliases : Bool
  f : Nat → Nat → Option HSeq
  conj : HSeq → HSeq
  simp : HSeq → HSeq

/-- The job for a functor and its generators (operator_matrix_factory.h:112-124). -/
def jobOf (h : Host) (f : HSeq → HSeq → HSeq) (words : List HSeq) (shouldBe unexpected : Bool) (workers : Nat) : Job where
  n := words.length
  workers := workers
  generic := couldBeNonHermitian shouldBe unexpected
  aliases := h.env.aliases
  f r c := ((rowWords h words)[r]?).bind fun a => (words[c]?).map fun b => f a b
  conj := h.env.conj
  simp := h.env.simp

/-- The columns of a worker: `for (col_idx = c; col_idx < row_length; col_idx += max_workers)` (operator_matrix_factory_multithreaded.h:125, 158, 216,
263); without workers there is nobody to run the loop. -/
def columns (n workers c : Nat) : List Nat :=
  if c < n ∧ 0 < workers then c :: columns n workers (c + workers) else []
termination_by n - c

/-- `generate_operator_sequence_matrix` (operator_matrix_factory_multithreaded.h:116-205). The tests for Hermiticity change nothing but a
member that is not used for the result. -/
def osProgram (J : Job) (w : Nat) : List Act := (columns J.n J.workers w).flatMap fun c =>
  .put (c * J.n + c) (J.f c c) :: (List.range' (c + 1) (J.n - (c + 1))).flatMap fun r =>
    [.put (c * J.n + r) (J.f r c), if J.generic then .put (r * J.n + c) (J.f c r) else .turn (r * J.n + c) (c * J.n + r)]

/-- `generate_aliased_operator_sequence_matrix` (operator_matrix_factory_multithreaded.h:207-289). -/
def aliasProgram (J : Job) (w : Nat) : List Act := (columns J.n J.workers w).flatMap fun c =>
  .simplify (c * J.n + c) :: (List.range' (c + 1) (J.n - (c + 1))).flatMap fun r =>
    [.simplify (c * J.n + r), if J.generic then .simplify (r * J.n + c) else .turnAlias (r * J.n + c) (c * J.n + r)]

/-- Where a worker is (operator_matrix_factory_multithreaded.h:87-111): it waits for `ready_to_begin_osm_generation`; makes operator sequences; waits for
`ready_to_begin_alias_generation`; makes aliases; has left `execute`. -/
inductive Phase
  | ready | making | waiting | aliasing | stopped
deriving DecidableEq

/-- Where the calling thread is: before `generate_operator_sequence_matrix`; at the futures of worker `k` (lines 446-452 and 464-470); in the
destructor, joining worker `k` (lines 367-371), after an exception if the flag is not set; back at its caller, or having thrown. -/
inductive Main
  | start | collect (k : Nat) | collectAlias (k : Nat) | leaving (ok : Bool) (k : Nat) | returned | threw
deriving DecidableEq

/-- The shared data (`none`: not written yet), the rest of what each worker does in its phase, the promises of each worker (`some false`: an
exception), the flags, whether the data have been released, and whether released data have been accessed. -/
structure State where
  os : Nat → Option HSeq
  al : Nat → Option HSeq
  phase : Nat → Phase
  todo : Nat → List Act
  doneOs : Nat → Option Bool
  doneAlias : Nat → Option Bool
  main : Main
  goOs : Bool
  goAlias : Bool
  released : Bool
  crashed : Bool

/-- After the constructor (operator_matrix_factory_multithreaded.h:333-359) and the allocation (line 381). -/
def initial : State :=
  ⟨fun _ => none, fun _ => none, fun _ => .ready, fun _ => [], fun _ => none, fun _ => none, .start, false, false, false, false⟩

/-- The steps of the threads. -/
inductive Step (J : Job) : State → State → Prop
  /-- `ready_to_begin_osm_generation` is set (operator_matrix_factory_multithreaded.h:442-443). -/
  | start (s : State) (hm : s.main = .start) : Step J s { s with main := .collect 0, goOs := true }
  /-- A worker sees it (line 89). -/
  | begin (s : State) (w : Nat) (hw : w < J.workers) (hp : s.phase w = .ready) (hg : s.goOs = true) :
    Step J s { s with phase := Function.update s.phase w .making, todo := Function.update s.todo w (osProgram J w) }
  | put (s : State) (w k : Nat) (v : HSeq) (l : List Act) (hw : w < J.workers) (hp : s.phase w = .making) (ht : s.todo w = .put k (some v) :: l)
      (hr : s.released = false) :
    Step J s { s with os := Function.update s.os k (some v), todo := Function.update s.todo w l }
  /-- The exception is stored, and the worker leaves (lines 93-96). -/
  | throw (s : State) (w k : Nat) (l : List Act) (hw : w < J.workers) (hp : s.phase w = .making) (ht : s.todo w = .put k none :: l) :
    Step J s { s with phase := Function.update s.phase w .stopped, doneOs := Function.update s.doneOs w (some false) }
  | turn (s : State) (w k j : Nat) (l : List Act) (hw : w < J.workers) (hp : s.phase w = .making) (ht : s.todo w = .turn k j :: l)
      (hr : s.released = false) :
    Step J s { s with os := Function.update s.os k ((s.os j).map J.conj), todo := Function.update s.todo w l }
  /-- The value is stored (line 92); without aliases the worker leaves (line 99). -/
  | made (s : State) (w : Nat) (hw : w < J.workers) (hp : s.phase w = .making) (ht : s.todo w = []) :
    Step J s { s with phase := Function.update s.phase w (if J.aliases then .waiting else .stopped), doneOs := Function.update s.doneOs w (some true) }
  /-- Line 100. -/
  | beginAlias (s : State) (w : Nat) (hw : w < J.workers) (hp : s.phase w = .waiting) (hg : s.goAlias = true) :
    Step J s { s with phase := Function.update s.phase w .aliasing, todo := Function.update s.todo w (aliasProgram J w) }
  | simplify (s : State) (w k : Nat) (l : List Act) (hw : w < J.workers) (hp : s.phase w = .aliasing) (ht : s.todo w = .simplify k :: l)
      (hr : s.released = false) :
    Step J s { s with al := Function.update s.al k ((s.os k).map J.simp), todo := Function.update s.todo w l }
  | turnAlias (s : State) (w k j : Nat) (l : List Act) (hw : w < J.workers) (hp : s.phase w = .aliasing) (ht : s.todo w = .turnAlias k j :: l)
      (hr : s.released = false) :
    Step J s { s with al := Function.update s.al k ((s.al j).map J.conj), todo := Function.update s.todo w l }
  /-- Line 103. -/
  | aliased (s : State) (w : Nat) (hw : w < J.workers) (hp : s.phase w = .aliasing) (ht : s.todo w = []) :
    Step J s { s with phase := Function.update s.phase w .stopped, doneAlias := Function.update s.doneAlias w (some true) }
  /-- A worker writes to data that have been released. -/
  | crash (s : State) (w : Nat) (a : Act) (l : List Act) (hw : w < J.workers) (hp : s.phase w = .making ∨ s.phase w = .aliasing) (ht : s.todo w = a :: l)
      (ha : ∀ k, a ≠ .put k none) (hr : s.released = true) : Step J s { s with crashed := true, todo := Function.update s.todo w l }
  /-- Lines 446-452: the future holds a value. -/
  | next (s : State) (k : Nat) (hm : s.main = .collect k) (hk : k < J.workers) (hd : s.doneOs k = some true) : Step J s { s with main := .collect (k + 1) }
  /-- Line 450: `signal.get()` throws; the vector of operator sequences (line 381 or 424) is destroyed, and then the factory. -/
  | rethrow (s : State) (k : Nat) (hm : s.main = .collect k) (hk : k < J.workers) (hd : s.doneOs k = some false) :
    Step J s { s with main := .leaving false 0, released := true }
  /-- The end of `make_unaliased` (lines 429-435), or of `make_aliased` without aliases. -/
  | all (s : State) (hm : s.main = .collect J.workers) (ha : J.aliases = false) : Step J s { s with main := .leaving true 0 }
  /-- `ready_to_begin_alias_generation` is set (lines 397-401, 460-461). -/
  | startAlias (s : State) (hm : s.main = .collect J.workers) (ha : J.aliases = true) : Step J s { s with main := .collectAlias 0, goAlias := true }
  /-- Lines 464-470. -/
  | nextAlias (s : State) (k : Nat) (hm : s.main = .collectAlias k) (hk : k < J.workers) (hd : s.doneAlias k = some true) :
    Step J s { s with main := .collectAlias (k + 1) }
  | allAlias (s : State) (hm : s.main = .collectAlias J.workers) : Step J s { s with main := .leaving true 0 }
  /-- Lines 368-370. -/
  | join (s : State) (b : Bool) (k : Nat) (hm : s.main = .leaving b k) (hk : k < J.workers) (hp : s.phase k = .stopped) :
    Step J s { s with main := .leaving b (k + 1) }
  | leave (s : State) (b : Bool) (hm : s.main = .leaving b J.workers) : Step J s { s with main := if b then .returned else .threw }

end Moment.OperatorMatrix
