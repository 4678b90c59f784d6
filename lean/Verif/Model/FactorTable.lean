import Verif.Model.Inflation
import Verif.Model.IndexTree

/-! # Model of the factor table and of extended matrices
(cpp/lib_moment/scenarios/inflation/factor_table.{h,cpp}, extended_matrix.cpp, extended_matrix_indices.cpp)

Simplifications: words are an abstract type, and the context is its two functions `factorize` and `canonical_moment`. The symbol table is the list of
its words (`none` for a symbol without word); looking up a word is looking for its place, what hashes have to do with it is in `Model/SymbolTable.lean`.
All symbols are Hermitian, as in every inflation scenario. Ids of symbols are natural numbers, except where they come from the user.
The count `appearances` and the text output are left out. -/

namespace Moment.Inflation.Extend

/-- What the factor table asks of the context: `InflationContext::factorize` (inflation_context.cpp:167-239) and `canonical_moment`
(inflation_context.h:255-261); and how much `std::vector` grows, which is up to the implementation. -/
structure Scenario (W : Type) where
  factorize : W → List W
  canonical : W → W
  grow : Nat → Nat

/-- `FactorEntry` (factor_table.h:43-69). -/
structure Entry (W : Type) where
  id : Nat
  raw : List W
  seqs : List W
  symbols : List Nat
  deriving DecidableEq, Repr

/-- `FactorEntry::fundamental` (factor_table.h:66). -/
def Entry.fundamental {W : Type} (e : Entry W) : Bool := decide (e.seqs.length ≤ 1)

/-- The symbol table and the factor table: words of the symbols, entries (factor_table.h:75), index tree (factor_table.h:77); and for the storage of
the entries, its capacity and how often it has moved. -/
structure Table (W : Type) where
  syms : List (Option W)
  entries : List (Entry W)
  tree : Index.Node Nat
  cap : Nat
  moves : Nat

/-- How a call can go wrong: undefined behaviour, or an exception. -/
inductive Fault
  | undefined
  | logicError
  | invalidArgument
  deriving DecidableEq, Repr

variable {W : Type} [DecidableEq W]

/-- A list of factors as a path in the tree. -/
def path (l : List Nat) : List Int := l.map Int.ofNat

/-- `find_index_by_factors` (factor_table.h:102-105). -/
def Table.find (t : Table W) (l : List Nat) : Option Nat := Index.find t.tree (path l)

/-- `SymbolTable::where` (symbol_table.cpp:251-279) and `hash_to_index` (symbol_table.cpp:293-304) for canonical words. -/
def place (syms : List (Option W)) (w : W) : Option Nat := syms.idxOf? (some w)

/-- `entries.emplace_back`: the storage moves if it is full. -/
def Table.push (sc : Scenario W) (t : Table W) (e : Entry W) : Table W :=
  if t.entries.length < t.cap then { t with entries := t.entries ++ [e] }
  else { t with entries := t.entries ++ [e], cap := max (t.entries.length + 1) (sc.grow t.cap), moves := t.moves + 1 }

/-- `index_tree.add` of an entry. -/
def Table.index (t : Table W) (l : List Nat) (k : Nat) : Table W := { t with tree := Index.add k (path l) t.tree }

/-- Insertion of `std::sort` on numbers. -/
def insertNat (x : Nat) : List Nat → List Nat
  | [] => [x]
  | y :: l => if x ≤ y then x :: y :: l else y :: insertNat x l

/-- `std::sort` of numbers. -/
def sortNat : List Nat → List Nat
  | [] => []
  | x :: l => insertNat x (sortNat l)

/-- The loop over the factors of a word (factor_table.cpp:95-110): canonical factors are looked up, and added to the symbols if they are new. -/
def resolve (sc : Scenario W) : List (Option W) → List W → List (Option W) × List Nat
  | syms, [] => (syms, [])
  | syms, f :: l =>
    let g := sc.canonical f
    match place syms g with
    | some k => let r := resolve sc syms l; (r.1, k :: r.2)
    | none => let r := resolve sc (syms ++ [some g]) l; (r.1, syms.length :: r.2)

/-- Body of the first loop of `check_for_new_factors` (factor_table.cpp:83-116) for the symbol `i`. -/
def Table.analyse (sc : Scenario W) (t : Table W) (i : Nat) : Except Fault (Table W) :=
  match t.syms[i]? with
  | some (some w) =>
    let raw := sc.factorize w
    let r := resolve sc t.syms raw
    let l := sortNat r.2
    .ok (({ t with syms := r.1 }.push sc ⟨i, raw, raw.map sc.canonical, l⟩).index l i)
  | _ => .error .undefined

/-- Body of the second loop (factor_table.cpp:118-129): symbols that were added as factors. -/
def Table.single (sc : Scenario W) (t : Table W) (i : Nat) : Except Fault (Table W) :=
  match t.syms[i]? with
  | some (some w) => .ok ((t.push sc ⟨i, [w], [w], [i]⟩).index [i] i)
  | _ => .error .undefined

/-- `on_new_symbols_added` and `check_for_new_factors` (factor_table.cpp:64-144). -/
def Table.refresh (sc : Scenario W) (t : Table W) : Except Fault (Table W) := do
  let n := t.syms.length
  let t ← (List.range' t.entries.length (n - t.entries.length)).foldlM (Table.analyse sc) t
  (List.range' n (t.syms.length - n)).foldlM (Table.single sc) t

/-- The constructor (factor_table.cpp:59-62) on a table with zero and one. -/
def Table.new (sc : Scenario W) (zero one : W) : Except Fault (Table W) :=
  Table.refresh sc ⟨[some zero, some one], [], (none, .nil), 0, 0⟩

/-- The words of some symbols; reading the word of a symbol without word is undefined behaviour by its documentation (symbol.h:76-83). -/
def wordsOf (syms : List (Option W)) : List Nat → Except Fault (List W)
  | [] => .ok []
  | k :: l => match syms[k]? with
    | some (some w) => (wordsOf syms l).map (w :: ·)
    | _ => .error .undefined

/-- `SymbolTable::create(true, false)` (symbol_table.cpp:39-58) followed by `register_new` (factor_table.cpp:146-160). -/
def Table.register (sc : Scenario W) (t : Table W) (l : List Nat) : Except Fault (Table W × Nat) :=
  let k := t.syms.length
  let syms := t.syms ++ [none]
  (wordsOf syms l).map fun ws => (({ t with syms := syms }.push sc ⟨k, [], ws, l⟩).index l k, k)

/-- `combine_and_register_factors` (extended_matrix.cpp:40-53). -/
def Table.combine (sc : Scenario W) (t : Table W) (a b : List Nat) : Except Fault (Table W × Nat) :=
  let l := combineFactors a b
  match t.find l with
  | some k => .ok (t, k)
  | none => t.register sc l

/-- `factors[k].canonical.symbols` (factor_table.h:99). -/
def Table.factors (t : Table W) (k : Nat) : Except Fault (List Nat) :=
  match t.entries[k]? with
  | some e => .ok e.symbols
  | none => .error .undefined

/-! ## Extended matrices -/

/-- A matrix of monomials `E`: dimension and entries. -/
structure Mat (E : Type) where
  dim : Nat
  at_ : Nat → Nat → E

variable {E : Type}

/-- Writing an entry. -/
def Mat.set (m : Mat E) (i j : Nat) (x : E) : Mat E := ⟨m.dim, fun a b => if a = i ∧ b = j then x else m.at_ a b⟩

/-- The source matrix: is it a moment matrix, and of which words (`to_operator_matrix_ptr`, extended_matrix.cpp:155), is it Hermitian, its symbols. -/
structure Source (W E : Type) where
  generators : Option (List W)
  hermitian : Bool
  mat : Mat E

/-- `pad(padding, Monomial{0})` (extended_matrix.cpp:73-75). -/
def Mat.pad (mono : Nat → E) (m : Mat E) (n : Nat) : Mat E := ⟨m.dim + n, fun i j => if i < m.dim ∧ j < m.dim then m.at_ i j else mono 0⟩

/-- The inner loop over the scalars for one word (extended_matrix.cpp:96-107). -/
def sideRow (sc : Scenario W) (mono : Nat → E) (row : Nat) (source : List Nat) : Table W → Mat E → Nat → List Nat → Except Fault (Table W × Mat E)
  | t, m, _, [] => .ok (t, m)
  | t, m, col, s :: l => do
    let ext ← t.factors s
    let (t, k) ← t.combine sc source ext
    sideRow sc mono row source t ((m.set row col (mono k)).set col row (mono k)) (col + 1) l

/-- The loop over the words of the moment matrix (extended_matrix.cpp:84-111). A word that is not in the table gives the position of the largest
number, and reading there is undefined. -/
def sides (sc : Scenario W) (mono : Nat → E) (scalars : List Nat) (old : Nat) : Table W → Mat E → Nat → List W → Except Fault (Table W × Mat E)
  | t, m, _, [] => .ok (t, m)
  | t, m, row, g :: l =>
    match place t.syms (sc.canonical g) with
    | none => .error .undefined
    | some k => do
      let source ← t.factors k
      let (t, m) ← sideRow sc mono row source t m old scalars
      sides sc mono scalars old t m (row + 1) l

/-- The loop to the right of the diagonal (extended_matrix.cpp:120-127). The reference `row_factors` was taken when the storage of the entries had
moved `moves` times. -/
def blockRow (sc : Scenario W) (mono : Nat → E) (row : Nat) (rowFactors : List Nat) (moves : Nat) : Table W → Mat E → Nat → List Nat →
    Except Fault (Table W × Mat E)
  | t, m, _, [] => .ok (t, m)
  | t, m, col, s :: l => do
    let colFactors ← t.factors s
    if t.moves ≠ moves then .error .undefined
    else
      let (t, k) ← t.combine sc rowFactors colFactors
      blockRow sc mono row rowFactors moves t ((m.set row col (mono k)).set col row (mono k)) (col + 1) l

/-- The bottom-right block (extended_matrix.cpp:113-128). -/
def block (sc : Scenario W) (mono : Nat → E) : Table W → Mat E → Nat → List Nat → Except Fault (Table W × Mat E)
  | t, m, _, [] => .ok (t, m)
  | t, m, row, s :: l => do
    let rowFactors ← t.factors s
    let moves := t.moves
    let (t, k) ← t.combine sc rowFactors rowFactors
    let (t, m) ← blockRow sc mono row rowFactors moves t (m.set row row (mono k)) (row + 1) l
    block sc mono t m (row + 1) l

/-- `make_extended_matrix_single_thread` (extended_matrix.cpp:56-130). -/
def single (sc : Scenario W) (mono : Nat → E) (t : Table W) (gens : List W) (src : Mat E) (scalars : List Int) : Except Fault (Table W × Mat E) :=
  if scalars.any fun s => decide (s ≥ t.syms.length) || decide (s < 0) then .error .logicError
  else do
    let l := scalars.map Int.toNat
    let (t, m) ← sides sc mono l src.dim t (src.pad mono l.length) 0 gens
    block sc mono t m src.dim l

/-- `make_extended_matrix` (extended_matrix.cpp:145-178) with one thread. -/
def extend (sc : Scenario W) (mono : Nat → E) (t : Table W) (src : Source W E) (scalars : List Int) : Except Fault (Table W × Mat E) :=
  match src.generators with
  | none => .error .invalidArgument
  | some gens => if !src.hermitian then .error .invalidArgument else single sc mono t gens src.mat scalars

/-! ## Indices of extended matrices -/

/-- `ExtendedMatrixIndexStorage::find` (extended_matrix_indices.cpp:19-32): node of the level, then the list; -1 if there is none. -/
def indexFind (t : Index.Node Int) (level : Nat) (l : List Int) : Int :=
  match Index.findNode t [(level : Int)] with
  | none => -1
  | some root => (Index.find root l).getD (-1)

/-- `contains` (extended_matrix_indices.cpp:34-44). -/
def indexContains (t : Index.Node Int) (level : Nat) (l : List Int) : Bool :=
  match Index.findNode t [(level : Int)] with
  | none => false
  | some root => (Index.find root l).isSome

/-- `insert` (extended_matrix_indices.cpp:46-51). `add_node` makes the node of the level without a value if it is not there. -/
def indexInsert (t : Index.Node Int) (level : Nat) (l : List Int) (offset : Int) : Index.Node Int × Int × Bool :=
  let r := Index.addIfNew offset l ((t.2.child level).getD (none, .nil)) false
  ((t.1, t.2.update level fun _ => r.1), r.2)

end Moment.Inflation.Extend
