import Verif.Model.Utilities
import Mathlib.Data.Nat.Size
import Mathlib.Data.Nat.Log
import Mathlib.Logic.Function.Basic

/-! Model of the parallel workers: cpp/lib_moment/matrix/monomial_matrix_factory.cpp (pairwise merging of the symbols found, writing of the matrix) and
cpp/lib_moment/multithreading/matrix_transformation_worker.h.

Each step of a transition system is one access to shared data by one thread; memory is sequentially consistent. `std::atomic::wait` is a step that is only
enabled when the awaited value has been stored (the standard guarantees that no change is missed, as the value is compared again after being notified).
Numbers of workers and dimensions are natural numbers: shifts and sums of indices are taken not to overflow (`1 << n` on `int` needs fewer than 2^31 workers). -/

namespace Moment.Workers

/-- `std::bit_floor`. -/
def bitFloor (n : Nat) : Nat := if n = 0 then 0 else 2 ^ Nat.log 2 n

/-- `MonomialMatrixFactoryWorker::first_merge_level` (monomial_matrix_factory.cpp:353-379); `std::bit_width` is `Nat.size`. -/
def firstLevel (workers id : Nat) : Nat :=
  let bf := bitFloor workers
  let p := Nat.size bf - 1
  if bf = workers then p
  else if id ≥ bf then p + 1
  else if id + bf < workers then p + 1
  else p

/-- `MonomialMatrixFactoryWorker::final_merge_level` (monomial_matrix_factory.cpp:384-387). -/
def finalLevel (id : Nat) : Nat := Nat.size (bitFloor id)

/-- Initial value of `merge_level` (monomial_matrix_factory.cpp:314). -/
def maxLevel : Nat := 2 ^ 64 - 1

/-- Where a worker is. `waiting`, `merging`, `merged` carry `current_merge_level`. -/
inductive Pc
  | identify | found | loop | waiting (c : Nat) | merging (c : Nat) | merged (c : Nat) | done
deriving DecidableEq

/-- Shared state: `merge_level` and `unique_elements` of each worker (`none`: its values have been moved from). -/
structure State (V : Type) where
  level : Nat → Nat
  data : Nat → Option (List (Int × V))
  pc : Nat → Pc
  crashed : Bool

/-- The constructors have run (monomial_matrix_factory.cpp:308-315). -/
def initial {V : Type} : State V := ⟨fun _ => maxLevel, fun _ => some [], fun _ => .identify, false⟩

/-- Id of the worker waited for at a level (monomial_matrix_factory.cpp:514). -/
def partner (id c : Nat) : Nat := id + 2 ^ (c - 1)

/-- Steps of `n` workers, worker `j` finding the symbols `found j`. -/
inductive Step {V : Type} (n : Nat) (found : Nat → List (Int × V)) : State V → State V → Prop
  /-- `identify_unique_symbols` fills `unique_elements` (monomial_matrix_factory.cpp:390-433, 441-484). -/
  | identify (s : State V) (i : Nat) (hi : i < n) (hp : s.pc i = .identify) :
    Step n found s { s with data := Function.update s.data i (some (found i)), pc := Function.update s.pc i .found }
  /-- The first level is stored (monomial_matrix_factory.cpp:437-438, 488-489). -/
  | store (s : State V) (i : Nat) (hi : i < n) (hp : s.pc i = .found) :
    Step n found s { s with level := Function.update s.level i (firstLevel n i), pc := Function.update s.pc i .loop }
  /-- The last level was reached (monomial_matrix_factory.cpp:504-509). -/
  | finish (s : State V) (i : Nat) (hi : i < n) (hp : s.pc i = .loop) (hl : s.level i ≤ finalLevel i) :
    Step n found s { s with pc := Function.update s.pc i .done }
  /-- The other worker is determined (monomial_matrix_factory.cpp:504-516). -/
  | next (s : State V) (i : Nat) (hi : i < n) (hp : s.pc i = .loop) (hl : finalLevel i < s.level i) (hn : partner i (s.level i) < n) :
    Step n found s { s with pc := Function.update s.pc i (.waiting (s.level i)) }
  /-- There is no such worker: access out of range (monomial_matrix_factory.cpp:515-516). -/
  | nextOut (s : State V) (i : Nat) (hi : i < n) (hp : s.pc i = .loop) (hl : finalLevel i < s.level i) (hn : n ≤ partner i (s.level i)) :
    Step n found s { s with crashed := true }
  /-- The other worker is ready (monomial_matrix_factory.cpp:520-524). -/
  | ready (s : State V) (i c : Nat) (hi : i < n) (hp : s.pc i = .waiting c) (hl : s.level (partner i c) ≤ c) :
    Step n found s { s with pc := Function.update s.pc i (.merging c) }
  /-- `linear_map_merge` (monomial_matrix_factory.cpp:527). -/
  | merge (s : State V) (i c : Nat) (mine theirs out : List (Int × V)) (exact : Bool) (hi : i < n) (hp : s.pc i = .merging c) (hm : s.data i = some mine)
      (ht : s.data (partner i c) = some theirs) (ho : Util.linearMapMerge mine theirs = some (out, exact)) :
    Step n found s { s with data := Function.update (Function.update s.data (partner i c) none) i (some out), pc := Function.update s.pc i (.merged c) }
  /-- The symbols of a worker are taken a second time. -/
  | mergeMoved (s : State V) (i c : Nat) (hi : i < n) (hp : s.pc i = .merging c) (hm : s.data i = none ∨ s.data (partner i c) = none) :
    Step n found s { s with crashed := true }
  /-- `fetch_sub` and notification (monomial_matrix_factory.cpp:530-531). -/
  | lower (s : State V) (i c : Nat) (hi : i < n) (hp : s.pc i = .merged c) :
    Step n found s { s with level := Function.update s.level i (s.level i - 1), pc := Function.update s.pc i .loop }

/-! ## Writing matrices column by column -/

/-- Where a column worker is: about to test row `row` of column `col`; finished; or stopped by an exception. -/
inductive Pos
  | at (col row : Nat) | done | failed
deriving DecidableEq

/-- Shared output, and the position of each worker. -/
structure Grid (O : Type) where
  out : Nat → O
  pos : Nat → Pos

/-- Worker `w` starts at column `w` (matrix_transformation_worker.h:61). -/
def Grid.start {O : Type} (out : Nat → O) : Grid O := ⟨out, fun w => .at w 0⟩

/-- `matrix_transformation_worker::execute` (matrix_transformation_worker.h:60-72) for `n` workers; the functor is `f`, with `none` for an exception. -/
inductive Grid.Step {I O : Type} (n dim : Nat) (input : Nat → I) (f : I → Option O) : Grid O → Grid O → Prop
  | write (s : Grid O) (w col row : Nat) (y : O) (hw : w < n) (hp : s.pos w = .at col row) (hc : col < dim) (hr : row < dim)
      (hy : f (input (col * dim + row)) = some y) :
    Step n dim input f s ⟨Function.update s.out (col * dim + row) y, Function.update s.pos w (.at col (row + 1))⟩
  | throw (s : Grid O) (w col row : Nat) (hw : w < n) (hp : s.pos w = .at col row) (hc : col < dim) (hr : row < dim)
      (hy : f (input (col * dim + row)) = none) :
    Step n dim input f s ⟨s.out, Function.update s.pos w .failed⟩
  | column (s : Grid O) (w col row : Nat) (hw : w < n) (hp : s.pos w = .at col row) (hc : col < dim) (hr : dim ≤ row) :
    Step n dim input f s ⟨s.out, Function.update s.pos w (.at (col + n) 0)⟩
  | finish (s : Grid O) (w col row : Nat) (hw : w < n) (hp : s.pos w = .at col row) (hc : dim ≤ col) :
    Step n dim input f s ⟨s.out, Function.update s.pos w .done⟩

/-- What `transform_matrix_data` gives to its caller. -/
inductive Outcome (O : Type)
  | returned (out : Nat → O)
  | thrown

/-- The end of `transform_matrix_data` (matrix_transformation_worker.h:98-107): the operand of `noexcept` is the name of the functor and not a call, so the
expression is `true` and the branch that passes exceptions on is discarded. -/
def Grid.result {O : Type} (s : Grid O) : Outcome O :=
  let nameIsNoexcept := true
  if !nameIsNoexcept then .thrown else .returned s.out

/-- The functor applied without threads: `std::transform` stops at the first exception
(operator_matrix_transformation.h:79, substituted_matrix.cpp:37-43). -/
noncomputable def sequential {I O : Type} (dim : Nat) (input : Nat → I) (f : I → Option O) (out : Nat → O) : Outcome O :=
  open Classical in
  if ∃ k < dim * dim, f (input k) = none then .thrown
  else .returned fun k => if k < dim * dim then (f (input k)).getD (out k) else out k

/-- Offsets written by worker `w` of `n` in `generate_symbol_matrix_generic` (monomial_matrix_factory.cpp:543-574). -/
def writesGeneric (n dim w k : Nat) : Prop := ∃ j row, w + j * n < dim ∧ row < dim ∧ k = (w + j * n) * dim + row

/-- Offsets written by worker `w` of `n` in `generate_symbol_matrix_hermitian` (monomial_matrix_factory.cpp:576-620): also the transposed entry if it is another. -/
def writesHermitian (n dim w k : Nat) : Prop :=
  ∃ j row, w + j * n < dim ∧ row < dim ∧ (k = (w + j * n) * dim + row ∨
    ((w + j * n) * dim + row ≠ row * dim + (w + j * n) ∧ k = row * dim + (w + j * n)))

end Moment.Workers
