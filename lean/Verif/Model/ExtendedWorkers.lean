import Verif.Model.FactorTable
import Mathlib.Logic.Function.Basic

/-! # Model of the extension of moment matrices with threads
(cpp/lib_moment/scenarios/inflation/multithreading/extended_matrix_worker.cpp, temporary_symbols_and_factors.cpp)

A step is one section between locks of one worker, or one write into the output; which worker takes the next step is arbitrary. Memory is sequentially
consistent. The tables are not changed while workers run, so that they are read without lock. A pointer to a node of the temporary tree is the path to the
node: nodes never move (index_tree.h:29). `simplify_as_moment` is `canonical` of the scenario; in a context without aliases its documentation forbids the call
(context.h:89), what it does is the same. -/

namespace Moment.Inflation.Extend

variable {W : Type} [DecidableEq W] {E : Type}

/-- Something a worker does: read the factors of a symbol, copy an entry, or write the combination of the factors of two symbols (`none`: an id out of range). -/
inductive Task
  | read (x : Option Nat)
  | copy (col row : Nat)
  | join (x y : Option Nat) (col row : Nat)
  deriving DecidableEq, Repr

/-- The values of `for (i = first; i < bound; i += n)`, at most `fuel` of them. -/
def strided (n bound : Nat) : Nat → Nat → List Nat
  | 0, _ => []
  | fuel + 1, i => if i < bound then i :: strided n bound fuel (i + n) else []

/-- `extension_scalars[j]` as position in the factor table: a negative number is no position. -/
def scalarAt (scalars : List Int) (j : Nat) : Option Nat := (scalars[j]?).bind fun s => if s < 0 then none else some s.toNat

/-- `hash_to_index` of the canonical form of a word of the moment matrix (extended_matrix_worker.cpp:57-62). -/
def wordAt (sc : Scenario W) (t : Table W) (gens : List W) (col : Nat) : Option Nat := (gens[col]?).bind fun g => place t.syms (sc.canonical g)

/-- The first loop of `ExtendedMatrixWorker::execute` (extended_matrix_worker.cpp:47-81) for one column. -/
def sideTasks (sc : Scenario W) (t : Table W) (gens : List W) (dim : Nat) (scalars : List Int) (col : Nat) : List Task :=
  (List.range dim).map (Task.copy col) ++ Task.read (wordAt sc t gens col) ::
    (List.range scalars.length).map fun j => Task.join (wordAt sc t gens col) (scalarAt scalars j) col (dim + j)

/-- The second loop (extended_matrix_worker.cpp:84-102) for one column; the diagonal entry is the first one. -/
def blockTasks (dim : Nat) (scalars : List Int) (col : Nat) : List Task :=
  (List.range' col (dim + scalars.length - col)).map fun row => Task.join (scalarAt scalars (col - dim)) (scalarAt scalars (row - dim)) col row

/-- What worker `w` of `n` does, in order. -/
def workerTasks (sc : Scenario W) (t : Table W) (gens : List W) (dim : Nat) (scalars : List Int) (n w : Nat) : List Task :=
  (strided n dim dim w).flatMap (sideTasks sc t gens dim scalars) ++
    (strided n (dim + scalars.length) (dim + scalars.length) (dim + w)).flatMap (blockTasks dim scalars)

/-- Where a worker is in `find_or_register_factors` (temporary_symbols_and_factors.cpp:34-85): before the search in the tables; before the read lock; before
the write lock, with the hint and the words of the factors. -/
inductive Phase (W : Type)
  | ready
  | missed (l : List Nat)
  | hinted (pre rest : List Nat) (words : List W)

/-- A worker: what it still has to do, and where it is with the first of it. -/
structure Worker (W : Type) where
  tasks : List Task
  phase : Phase W

/-- How the program ends badly: undefined behaviour, or an exception in a thread. -/
inductive Crash
  | undefined
  | terminated
  deriving DecidableEq, Repr

/-- Shared data: the temporary tree, new lists of factors with their words (temporary_symbols_and_factors.h:30-35), the output, and the workers. -/
structure Pool (W E : Type) where
  tree : Index.Node Nat
  news : List (List Nat × List W)
  out : Nat → E
  workers : List (Worker W)
  crash : Option Crash

/-- The constructor of `ExtendedMatrixBundle` (extended_matrix_worker.cpp:115-134, 154-157). -/
def Pool.start (sc : Scenario W) (mono : Nat → E) (t : Table W) (gens : List W) (dim : Nat) (scalars : List Int) (n : Nat) : Pool W E :=
  ⟨(none, .nil), [], fun _ => mono 0, (List.range n).map fun w => ⟨workerTasks sc t gens dim scalars n w, .ready⟩, none⟩

/-- The entry of a symbol in the factor table. -/
def Table.entryAt (t : Table W) (x : Option Nat) : Option (Entry W) := x.bind fun k => t.entries[k]?

/-- Worker `w` goes on. -/
def Pool.goto (s : Pool W E) (w : Nat) (tasks : List Task) (phase : Phase W) : Pool W E := { s with workers := s.workers.set w ⟨tasks, phase⟩ }

/-- The output is written at one offset. -/
def Pool.write (s : Pool W E) (i : Nat) (x : E) : Pool W E := { s with out := Function.update s.out i x }

/-- The two writes of a combined symbol (extended_matrix_worker.cpp:77-79, 91, 99-100). -/
def Pool.put (mono : Nat → E) (full : Nat) (s : Pool W E) (col row k : Nat) : Pool W E :=
  (s.write (col * full + row) (mono k)).write (row * full + col) (mono k)

/-- One step of worker `w`; `none` if there is nothing for it to do, or no such worker, or the program has crashed. -/
def Pool.step (mono : Nat → E) (t : Table W) (src : Mat E) (full : Nat) (s : Pool W E) (w : Nat) : Option (Pool W E) :=
  if s.crash.isSome then none
  else match s.workers[w]? with
    | none => none
    | some ⟨[], _⟩ => none
    | some ⟨.read x :: rest, _⟩ =>
      match t.entryAt x with
      | none => some { s with crash := some .undefined }
      | some _ => some (s.goto w rest .ready)
    | some ⟨.copy col row :: rest, _⟩ => some ((s.write (col * full + row) (src.at_ row col)).goto w rest .ready)
    | some ⟨.join x y col row :: rest, .ready⟩ =>
      match t.entryAt x, t.entryAt y with
      | some a, some b =>
        let l := combineFactors a.symbols b.symbols
        match t.find l with
        | some k => some ((s.put mono full col row k).goto w rest .ready)
        | none => some (s.goto w (.join x y col row :: rest) (.missed l))
      | _, _ => some { s with crash := some .undefined }
    | some ⟨.join x y col row :: rest, .missed l⟩ =>
      let hint := Index.findOrHint s.tree (path l)
      if hint.2 = [] then
        match hint.1.1 with
        | some k => some ((s.put mono full col row k).goto w rest .ready)
        | none => some { s with crash := some .terminated }
      else
        let depth := l.length - hint.2.length
        match wordsOf t.syms l with
        | .ok ws => some (s.goto w (.join x y col row :: rest) (.hinted (l.take depth) (l.drop depth) ws))
        | .error _ => some { s with crash := some .undefined }
    | some ⟨.join _ _ col row :: rest, .hinted pre post ws⟩ =>
      match Index.findNode s.tree (path pre) with
      | none => some { s with crash := some .undefined }
      | some node =>
        match Index.find node (path post) with
        | some k => some ((s.put mono full col row k).goto w rest .ready)
        | none =>
          let k := t.syms.length + s.news.length
          some (({ s with tree := Index.add k (path (pre ++ post)) s.tree, news := s.news ++ [(pre ++ post, ws)] }.put mono full col row k).goto w rest .ready)

/-- The workers take steps in some order. -/
def Pool.run (mono : Nat → E) (t : Table W) (src : Mat E) (full : Nat) (s : Pool W E) : List Nat → Pool W E
  | [] => s
  | w :: l => Pool.run mono t src full ((s.step mono t src full w).getD s) l

/-- All threads can be joined. -/
def Pool.finished (s : Pool W E) : Bool := s.crash.isNone && s.workers.all fun w => w.tasks.isEmpty

/-- The loop of `FactorTable::register_new` (factor_table.cpp:167-179). -/
def Table.addAll (sc : Scenario W) (t : Table W) (news : List (List Nat × List W)) : Table W :=
  news.foldl (fun t e => t.push sc ⟨t.entries.length, [], e.2, e.1⟩) t

/-- `register_new_symbols_and_factors` (temporary_symbols_and_factors.cpp:87-104, symbol_table.cpp:60-79) with `FactorTable::register_new`
(factor_table.cpp:162-184). -/
def Pool.register (sc : Scenario W) (t : Table W) (s : Pool W E) : Table W :=
  if s.news.length = 0 then t
  else
    let u := ({ t with syms := t.syms ++ List.replicate s.news.length none } : Table W).addAll sc s.news
    { u with tree := Index.merge u.tree s.tree }

/-- The output as a matrix: columns one after another (extended_matrix_worker.cpp:150-151). -/
def Pool.matrix (s : Pool W E) (full : Nat) : Mat E := ⟨full, fun row col => s.out (col * full + row)⟩

/-- `make_extended_matrix` (extended_matrix.cpp:145-178) with `n` threads that take steps in the order `order`: an exception; or a crash or not yet the end;
or the result. -/
def extendThreads (sc : Scenario W) (mono : Nat → E) (t : Table W) (src : Source W E) (scalars : List Int) (n : Nat) (order : List Nat) :
    Except Fault (Except (Option Crash) (Table W × Mat E)) :=
  match src.generators with
  | none => .error .invalidArgument
  | some gens => if !src.hermitian then .error .invalidArgument else
    let full := src.mat.dim + scalars.length
    let s := (Pool.start sc mono t gens src.mat.dim scalars n).run mono t src.mat full order
    if s.finished then .ok (.ok (s.register sc t, s.matrix full)) else .ok (.error s.crash)

end Moment.Inflation.Extend
