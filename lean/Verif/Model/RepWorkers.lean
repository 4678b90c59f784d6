import Verif.Model.SymmetryRep

/-! # Model of the threads that make representations of symmetry groups
(cpp/lib_moment/scenarios/symmetrized/group_rep_generation_worker.cpp, group.cpp)

A step is one access to an atomic number, or the reads and the write for one element; which thread takes the next step is arbitrary. Memory is sequentially
consistent. `wait` on an atomic number returns just if the number is not the one given. Threads that were launched late are threads that take their first step
late. The references to the parents stay valid, since a representation is not replaced once it is there; they are read again here for each element. The matrices
are of any type `E`, and `op` are the mappers: `none` for a null pointer. -/

namespace Moment.SymRep.Threads

variable {E : Type}

/-- Where a worker is: before or in the inner `while`, or in the `for` with the next element (group_rep_generation_worker.cpp:36-66). -/
inductive Phase
  | idle
  | busy (i : Nat)
  deriving DecidableEq, Repr

/-- A worker: `last_generated_index`, the last value of `global_index` that it has seen, and where it is. -/
structure Worker where
  count : Nat
  seen : Nat
  phase : Phase
  deriving DecidableEq, Repr

/-- The shared data: the representations, the data of representations to be made, `global_index`, the workers. The main thread is at level `global`; `next` is the
worker it waits for, `stored` says that the representation was stored, but the workers were not told. -/
structure State (E : Type) where
  reps : List (Option (List E))
  data : List (List E)
  global : Nat
  workers : List Worker
  next : Nat
  stored : Bool
  joined : Bool
  crash : Bool

/-- The constructor of the bundle and the start of `execute` (group_rep_generation_worker.cpp:81-110, 145-150). -/
def State.start (blank : E) (size : Nat) (build : List Nat) (n : Nat) (rs : List (Option (List E))) : State E :=
  ⟨rs, build.map fun _ => List.replicate size blank, 0, List.replicate n ⟨0, 0, .idle⟩, 0, false, false, false⟩

/-- One step of worker `w` (group_rep_generation_worker.cpp:31-71). -/
def State.work (op : Nat → Option (E → E → E)) (size : Nat) (build : List Nat) (s : State E) (w : Nat) : Option (State E) :=
  match s.workers[w]? with
  | none => none
  | some ⟨count, seen, .idle⟩ =>
    match build[count]? with
    | none => none
    | some n =>
      if seen < count then if s.global = seen then none else some { s with workers := s.workers.set w ⟨count, s.global, .idle⟩ }
      else match at? s.reps (parents n).1, at? s.reps (parents n).2, op n with
        | some _, some _, some _ => some { s with workers := s.workers.set w ⟨count, seen, .busy w⟩ }
        | _, _, _ => some { s with crash := true }
  | some ⟨count, seen, .busy i⟩ =>
    if i < size then
      match build[count]?, s.data[count]? with
      | some n, some d =>
        match at? s.reps (parents n).1, at? s.reps (parents n).2, op n with
        | some A, some B, some f =>
          match A[i]?, B[i]?, decide (i < d.length) with
          | some a, some b, true => some { s with data := s.data.set count (d.set i (f a b)), workers := s.workers.set w ⟨count, seen, .busy (i + s.workers.length)⟩ }
          | _, _, _ => some { s with crash := true }
        | _, _, _ => some { s with crash := true }
      | _, _ => some { s with crash := true }
    else some { s with workers := s.workers.set w ⟨count + 1, seen, .idle⟩ }

/-- One step of the main thread in `execute` (group_rep_generation_worker.cpp:113-139); to store the data leaves an empty vector behind. -/
def State.main (build : List Nat) (s : State E) : Option (State E) :=
  match build[s.global]? with
  | some n =>
    if s.stored then some { s with global := s.global + 1, next := 0, stored := false }
    else match s.workers[s.next]? with
      | some w => if w.count ≤ s.global then none else some { s with next := s.next + 1 }
      | none =>
        match s.data[s.global]? with
        | some d => if n - 1 < s.reps.length then some { s with reps := s.reps.set (n - 1) (some d), data := s.data.set s.global [], stored := true }
          else some { s with crash := true }
        | none => some { s with crash := true }
  | none => if !s.joined && s.workers.all (fun w => decide (build.length ≤ w.count)) then some { s with joined := true } else none

/-- One step of a thread: `none` is the main thread. -/
def State.step (op : Nat → Option (E → E → E)) (size : Nat) (build : List Nat) (s : State E) (thread : Option Nat) : Option (State E) :=
  if s.crash then none
  else match thread with
    | none => s.main build
    | some w => s.work op size build w

/-- `build_representations_single_thread` (group.cpp:51-77), with matrices of any type. -/
def single (op : Nat → Option (E → E → E)) (size : Nat) : List Nat → List (Option (List E)) → Option (List (Option (List E)))
  | [], rs => some rs
  | n :: ns, rs =>
    (at? rs (parents n).1) >>= fun A => (at? rs (parents n).2) >>= fun B => (op n) >>= fun f =>
      ((List.range size).mapM fun i => A[i]? >>= fun a => B[i]? >>= fun b => some (f a b)) >>= fun new => single op size ns (rs.set (n - 1) (some new))

/-- The threads take steps in some order. -/
def State.run (op : Nat → Option (E → E → E)) (size : Nat) (build : List Nat) (s : State E) : List (Option Nat) → State E
  | [] => s
  | t :: l => State.run op size build ((s.step op size build t).getD s) l

/-- The number of workers (group_rep_generation_worker.cpp:85); there is at least one thread (multithreading.cpp:58-73). -/
def workerCount (threads size : Nat) : Nat := min threads size

/-- The mappers as operations on matrices (group_rep_generation_worker.cpp:52-62). -/
noncomputable def operation (ms : List (Option Mapper)) (n : Nat) : Option (Entries → Entries → Entries) := (at? ms n).map Mapper.apply

/-- `identify_and_build_representations` (group.cpp:287-337) with `build_representations_multi_thread` (group.cpp:79-93): `none` for undefined behaviour,
`some none` if `execute` has not returned after the steps in `order`. -/
noncomputable def buildThreads (c : Ctx) (size threads : Nat) (order : List (Option Nat)) (G : Grp) (n : Nat) : Option (Option Grp) :=
  (buildList n) >>= fun bl => (makeMappers c bl (grow G.mappers n)) >>= fun ms =>
    let rs := grow G.reps n
    let pruned := bl.filter fun k => (at? rs k).isNone
    (ms.getLast?.join) >>= fun _ =>
      if size ≤ 1 then (buildReps ms size pruned rs).map fun rs' => some ⟨rs', ms⟩
      else
        let s := (State.start (fun _ _ => 0) size pruned (workerCount threads size) rs).run (operation ms) size pruned order
        if s.crash then none else some (if s.joined then some ⟨s.reps, ms⟩ else none)

end Moment.SymRep.Threads
