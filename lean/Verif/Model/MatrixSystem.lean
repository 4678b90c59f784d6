import Mathlib.Data.List.Basic

/-! # Model of matrix systems: matrices by number and by index
(cpp/lib_moment/matrix_system/{matrix_system.cpp, matrix_indices.h, standard_matrix_indices.cpp, rulebook_storage.cpp}, index_storage/*.h, indices/*.h,
matrix/composite_matrix.h)

Symbol tables, words, polynomials, rulebooks and matrices are parameters, and so are the functions that make matrices (`Maker`): the other models have
them. A result `none` is undefined behaviour; an exception is `none` inside. The hooks `on_new_…` do nothing in `MatrixSystem` itself (matrix_system.h:270-310).
`dynamic_cast` to matrices of polynomials always succeeds here, since only their factory enters offsets in that index. Numbers of matrices stay below `2^63`. -/

namespace Moment.MatrixSystem

/-- Index of a matrix: `MomentMatrixIndex`, `LocalizingMatrixIndex`, `PolynomialLocalizingMatrixIndex`, `SubstitutedMatrixIndex` (indices/*.h). -/
inductive Index (W P : Type)
  | moment (level : Nat)
  | localizing (level : Nat) (word : W)
  | poly (level : Nat) (p : P)
  | subst (source book : Int)

/-- What matrices are made with. `R` are raw polynomials. -/
structure Maker (T W P R B M : Type) where
  /-- `create_moment_matrix`, `create_localizing_matrix` (matrix_system.cpp:110-136) -/
  moment : T → Nat → Option (T × Option M)
  localizing : T → Nat → W → Option (T × Option M)
  /-- `OperatorSequence::hash` -/
  hash : W → UInt64
  /-- `PolynomialOrderingWithCoefficients` (polynomial_ordering.h) -/
  less : P → P → Bool
  /-- number of terms of a polynomial, and the word of a term (polynomial_localizing_matrix_index.h:49-56) -/
  size : P → Nat
  word : T → P → Nat → Option W
  /-- the constructor of `CompositeMatrixImpl` with matrices for the terms (composite_matrix.h:150-162) -/
  compose : T → Nat → P → List M → Option (T × Option M)
  /-- `can_have_aliases`; `register_and_construct`; terms of raw polynomials; the constructor for these (composite_matrix.h:235-266) -/
  aliases : Bool
  register : T → R → Option (T × P)
  rawWords : R → List W
  composeRaw : T → Nat → R → List M → Option (T × Option M)
  /-- `MomentRulebook::create_substituted_matrix`, `combine_and_complete` (the rulebook afterwards, and whether there was no exception) -/
  substitute : T → B → M → Option (T × Option M)
  merge : B → B → B × Bool
  /-- `SymbolTable::fill_to_word_length` -/
  fill : T → Nat → Option (T × Option Bool)

variable {T W P R B M : Type}

/-- `class MatrixSystem` (matrix_system.h:45-76). -/
structure System (T W P B M : Type) where
  table : T
  matrices : List (Option M)
  moments : List Int
  localizing : List ((Nat × W) × Int)
  polys : List ((Nat × P) × Int)
  substituted : List ((Int × Int) × Int)
  books : List B

/-- The constructor (matrix_system.cpp:37-46). -/
def System.new (t : T) : System T W P B M := ⟨t, [], [], [], [], [], []⟩

/-! ## Index storage -/

/-- `VectorIndexStorage::find` (vector_index_storage.h:35-40). -/
def vectorFind (v : List Int) (i : Nat) : Int := if v.length ≤ i then -1 else v.getD i (-1)

/-- `VectorIndexStorage::contains` (vector_index_storage.h:42-47). -/
def vectorContains (v : List Int) (i : Nat) : Bool := if v.length ≤ i then false else v.getD i (-1) != -1

/-- `VectorIndexStorage::insert` (vector_index_storage.h:49-61). -/
def vectorInsert (v : List Int) (i : Nat) (o : Int) : List Int × Int × Bool :=
  if v.length ≤ i then (v ++ List.replicate (i - v.length) (-1) ++ [o], o, true)
  else if v.getD i (-1) ≠ -1 then (v, v.getD i (-1), false)
  else (v.set i o, o, true)

/-- `std::map::find` with a comparison: keys neither of which is less are the same. -/
def mapFind {K : Type} (less : K → K → Bool) (l : List (K × Int)) (k : K) : Int :=
  match l.find? fun e => !less e.1 k && !less k e.1 with
  | some e => e.2
  | none => -1

/-- `std::map::emplace` (map_index_storage.h:37-40), `try_emplace` (polynomial_index_storage.h:96-101). -/
def mapInsert {K : Type} (less : K → K → Bool) (l : List (K × Int)) (k : K) (o : Int) : List (K × Int) × Int × Bool :=
  match l.find? fun e => !less e.1 k && !less k e.1 with
  | some e => (l, e.2, false)
  | none => (l ++ [(k, o)], o, true)

/-- `LocalizingMatrixIndex::operator<` (localizing_matrix_index.h:35-45): by level, then by hash. -/
def lessLocalizing (hash : W → UInt64) (a b : Nat × W) : Bool :=
  if a.1 < b.1 then true else if a.1 > b.1 then false else decide (hash a.2 < hash b.2)

/-- `IndexPolyComparator::operator()` (polynomial_index_storage.h:44-51). -/
def lessPoly (less : P → P → Bool) (a b : Nat × P) : Bool :=
  if a.1 < b.1 then true else if a.1 > b.1 then false else less a.2 b.2

/-- The defaulted `operator<=>` of `SubstitutedMatrixIndex` (substituted_matrix_index.h:29-30). -/
def lessPair (a b : Int × Int) : Bool := decide (a.1 < b.1) || (a.1 == b.1 && decide (a.2 < b.2))

/-- `indices.find` for each of the indices. -/
def System.find (mk : Maker T W P R B M) (S : System T W P B M) : Index W P → Int
  | .moment n => vectorFind S.moments n
  | .localizing n w => mapFind (lessLocalizing mk.hash) S.localizing (n, w)
  | .poly n p => mapFind (lessPoly mk.less) S.polys (n, p)
  | .subst a b => mapFind lessPair S.substituted (a, b)

/-- `indices.contains` for each of the indices (also map_index_storage.h:33-35, polynomial_index_storage.h:128-131). -/
def System.contains (mk : Maker T W P R B M) (S : System T W P B M) : Index W P → Bool
  | .moment n => vectorContains S.moments n
  | .localizing n w => S.localizing.any fun e => !lessLocalizing mk.hash e.1 (n, w) && !lessLocalizing mk.hash (n, w) e.1
  | .poly n p => decide (0 ≤ mapFind (lessPoly mk.less) S.polys (n, p))
  | .subst a b => S.substituted.any fun e => !lessPair e.1 (a, b) && !lessPair (a, b) e.1

/-- `indices.insert` for each of the indices. -/
def System.insert (mk : Maker T W P R B M) (S : System T W P B M) (i : Index W P) (o : Int) : System T W P B M :=
  match i with
  | .moment n => { S with moments := (vectorInsert S.moments n o).1 }
  | .localizing n w => { S with localizing := (mapInsert (lessLocalizing mk.hash) S.localizing (n, w) o).1 }
  | .poly n p => { S with polys := (mapInsert (lessPoly mk.less) S.polys (n, p) o).1 }
  | .subst a b => { S with substituted := (mapInsert lessPair S.substituted (a, b) o).1 }

/-! ## Matrices -/

/-- `MatrixSystem::get` and `operator[]` (matrix_system.cpp:57-84); `none` is the exception `missing_component`. -/
def System.get (S : System T W P B M) (i : Int) : Option M :=
  if i < 0 ∨ (S.matrices.length : Int) ≤ i then none else (S.matrices[i.toNat]?).join

/-- `MatrixSystem::push_back` (matrix_system.cpp:86-91), and what factories do with a matrix that was made. -/
def System.push (S : System T W P B M) (m : M) : System T W P B M := { S with matrices := S.matrices ++ [some m] }

/-- The result of a request: the system afterwards, and number and matrix unless there was an exception. -/
abbrev Reply (T W P B M : Type) := Option (System T W P B M × Option (Nat × M))

/-- A matrix that was made from the table is put at the end. -/
def System.made (S : System T W P B M) (r : T × Option M) : System T W P B M × Option (Nat × M) :=
  match r.2 with
  | none => ({ S with table := r.1 }, none)
  | some m => ({ S with table := r.1 }.push m, some (S.matrices.length, m))

/-- `MatrixIndices::create` (matrix_indices.h:121-151), with the factory as parameter. -/
def System.create (mk : Maker T W P R B M) (make : System T W P B M → Reply T W P B M) (S : System T W P B M) (i : Index W P) : Reply T W P B M :=
  let o := S.find mk i
  if 0 ≤ o then some (S, (S.get o).map fun m => (o.toNat, m))
  else (make S).map fun r => match r.2 with
    | none => (r.1, none)
    | some (k, m) => (r.1.insert mk i k, some (k, m))

/-- `LocalizingMatrix.create` with `LocalizingMatrixFactory` (standard_matrix_indices.cpp:35-41). -/
def System.createLocalizing (mk : Maker T W P R B M) (S : System T W P B M) (n : Nat) (w : W) : Reply T W P B M :=
  S.create mk (fun S => (mk.localizing S.table n w).map S.made) (.localizing n w)

/-- The loop over the terms in `CompositeMatrixImpl::create` (composite_matrix.h:197-200): words are read from the table as it is at that time. -/
def System.parts (mk : Maker T W P R B M) (n : Nat) (p : P) : Nat → System T W P B M → Option (System T W P B M × Option (List M))
  | 0, S => some (S, some [])
  | k + 1, S => (mk.word S.table p (mk.size p - (k + 1))).bind fun w => (S.createLocalizing mk n w).bind fun r => match r.2 with
    | none => some (r.1, none)
    | some (_, m) => (System.parts mk n p k r.1).map fun q => (q.1, q.2.map fun l => m :: l)

/-- `CompositeMatrixImpl::create` and the end of `PolynomialLocalizingMatrixFactory` (composite_matrix.h:182-210, standard_matrix_indices.cpp:50-59). -/
def System.makePoly (mk : Maker T W P R B M) (n : Nat) (p : P) (S : System T W P B M) : Reply T W P B M :=
  (S.parts mk n p (mk.size p)).bind fun q => match q.2 with
    | none => some (q.1, none)
    | some l => (mk.compose q.1.table n p l).map q.1.made

/-- The loop over the terms in `CompositeMatrixImpl::create_from_raw` (composite_matrix.h:249-254). -/
def System.rawParts (mk : Maker T W P R B M) (n : Nat) : List W → System T W P B M → Option (System T W P B M × Option (List M))
  | [], S => some (S, some [])
  | w :: ws, S => (S.createLocalizing mk n w).bind fun r => match r.2 with
    | none => some (r.1, none)
    | some (_, m) => (System.rawParts mk n ws r.1).map fun q => (q.1, q.2.map fun l => m :: l)

/-- `MatrixSystem::create_and_register_localizing_matrix` and `CompositeMatrixImpl::create_from_raw` (matrix_system.cpp:147-156, composite_matrix.h:222-269). -/
def System.makeRaw (mk : Maker T W P R B M) (n : Nat) (q : R) (S : System T W P B M) : Reply T W P B M :=
  if mk.aliases then (S.rawParts mk n (mk.rawWords q)).bind fun x => match x.2 with
    | none => some (x.1, none)
    | some l => (mk.composeRaw x.1.table n q l).map x.1.made
  else (mk.register S.table q).bind fun r => ({ S with table := r.1 } : System T W P B M).makePoly mk n r.2

/-- `RulebookStorage::find` (rulebook_storage.cpp:95-103): the number is converted to `size_t`, so that negative ones are out of range. -/
def System.book (S : System T W P B M) (i : Int) : Option B := if i < 0 then none else S.books[i.toNat]?

/-- `SubstitutedMatrixFactory` (standard_matrix_indices.cpp:67-80). -/
def System.makeSubst (mk : Maker T W P R B M) (a b : Int) (S : System T W P B M) : Reply T W P B M :=
  match S.get a, S.book b with
  | some m, some r => (mk.substitute S.table r m).map S.made
  | _, _ => some (S, none)

/-- The factories (standard_matrix_indices.cpp). -/
def System.make (mk : Maker T W P R B M) (i : Index W P) (S : System T W P B M) : Reply T W P B M :=
  match i with
  | .moment n => (mk.moment S.table n).map S.made
  | .localizing n w => (mk.localizing S.table n w).map S.made
  | .poly n p => S.makePoly mk n p
  | .subst a b => S.makeSubst mk a b

/-- A request for the matrix of an index: `create`, or `operator()` of a system that may change (matrix_indices.h:106-151, 203-227). -/
def System.request (mk : Maker T W P R B M) (S : System T W P B M) (i : Index W P) : Reply T W P B M := S.create mk (System.make mk i) i

/-- `MatrixIndices::find` (matrix_indices.h:174-187) and the first half of `operator()` (205-221): `none` if there is no such index, `some none` for an
exception. -/
def System.look (mk : Maker T W P R B M) (S : System T W P B M) (i : Index W P) : Option (Option (Nat × M)) :=
  let o := S.find mk i
  if o < 0 then none else some ((S.get o).map fun m => (o.toNat, m))

/-- `MatrixSystem::delete_matrix` (matrix_system.cpp:93-107). The number is compared with `>`; the number after the last is used. -/
def System.delete (S : System T W P B M) (i : Int) : Option (System T W P B M × Bool) :=
  if i < 0 ∨ (S.matrices.length : Int) < i then some (S, false)
  else match S.matrices[i.toNat]? with
    | none => none
    | some none => some (S, false)
    | some (some _) => some ({ S with matrices := S.matrices.set i.toNat none }, true)

/-! ## All operations -/

/-- What can be done with a system. -/
inductive Op (W P R B : Type)
  | request (i : Index W P)
  | raw (level : Nat) (q : R)
  | delete (i : Int)
  | addBook (b : B)
  | mergeBook (i : Nat) (b : B)
  | dictionary (n : Nat)

/-- What comes of it. -/
inductive Out (M : Type)
  | threw
  | matrix (o : Nat) (m : M)
  | number (n : Nat)
  | flag (b : Bool)

def ofReply (r : System T W P B M × Option (Nat × M)) : System T W P B M × Out M := (r.1, match r.2 with | none => .threw | some (o, m) => .matrix o m)

/-- One operation. `RulebookStorage::add` and `merge_in` (rulebook_storage.cpp:23-80), `generate_dictionary` (matrix_system.cpp:159-174). -/
def System.exec (mk : Maker T W P R B M) (S : System T W P B M) : Op W P R B → Option (System T W P B M × Out M)
  | .request i => (S.request mk i).map ofReply
  | .raw n q => (S.makeRaw mk n q).map ofReply
  | .delete i => (S.delete i).map fun r => (r.1, .flag r.2)
  | .addBook b => some ({ S with books := S.books ++ [b] }, .number S.books.length)
  | .mergeBook i b => match S.books[i]? with
    | none => some (S, .threw)
    | some c => let r := mk.merge c b; some ({ S with books := S.books.set i r.1 }, if r.2 then .number i else .threw)
  | .dictionary n => (mk.fill S.table n).map fun r => ({ S with table := r.1 }, match r.2 with | none => .threw | some b => .flag b)

/-- A sequence of operations. -/
inductive Steps (mk : Maker T W P R B M) : System T W P B M → List (Op W P R B) → System T W P B M → Prop
  | refl (S : System T W P B M) : Steps mk S [] S
  | step {S S' S'' : System T W P B M} {l : List (Op W P R B)} {x : Op W P R B} {r : Out M} : Steps mk S l S' → S'.exec mk x = some (S'', r) →
      Steps mk S (l ++ [x]) S''

end Moment.MatrixSystem
