import Verif.Model.MatrixSystem

/-! # Model of matrix systems of Pauli scenarios
(cpp/lib_moment/scenarios/pauli/{pauli_matrix_system.cpp, pauli_index_collections.cpp, indices/*.h}, matrix_system/{matrix_indices.h, index_storage/*.h},
matrix/composite_matrix.h)

As for other matrix systems (Model/MatrixSystem.lean), tables, words, polynomials, rulebooks and matrices are parameters, and so are the functions that make
matrices. A result `none` is undefined behaviour or an assertion that fails; an exception is `none` inside. Matrices are of the type that their index wants, so
that `dynamic_cast` succeeds: monomial matrices and composite matrices have indices of their own, and `create_moment_matrix` makes monomial matrices. -/

namespace Moment.PauliSystem
open Moment.MatrixSystem (Maker System Index mapFind mapInsert)

/-- Localizing matrices, commutators, anticommutators. -/
inductive Kind
  | localizing | commutator | anticommutator
  deriving DecidableEq, Repr

/-- Indices of matrices: those of `MatrixSystem`, and those with a restriction to neighbours: `Pauli::MomentMatrixIndex` (nearest_neighbour_index.h:45-58),
`PauliMonomialIndex` (monomial_index.h:36-115), `PauliPolynomialIndex` (polynomial_index.h:33-126). The pair is `NearestNeighbourIndex`: level and neighbours. -/
inductive Key (W P : Type)
  | plain (i : Index W P)
  | moment (n : Nat × Nat)
  | mono (k : Kind) (n : Nat × Nat) (word : W)
  | poly (k : Kind) (n : Nat × Nat) (p : P)

/-- What matrices are made with; `R` are raw polynomials. -/
structure PMaker (T W P R B M : Type) where
  /-- `Pauli::MomentMatrix::create_matrix`, and the three for words (pauli_matrix_system.cpp:77-148) -/
  moment : T → Nat × Nat → Option (T × Option M)
  mono : Kind → T → Nat × Nat → W → Option (T × Option M)
  hash : W → UInt64
  less : P → P → Bool
  size : P → Nat
  word : T → P → Nat → Option W
  /-- the constructors of `CompositeMatrixImpl` in polynomial_matrices.h:26-38, and the one of other systems -/
  compose : Kind → T → Nat × Nat → P → List M → Option (T × Option M)
  composePlain : T → Nat → P → List M → Option (T × Option M)
  aliases : Bool
  register : T → R → Option (T × P)
  rawWords : R → List W
  composeRaw : Kind → T → Nat × Nat → R → List M → Option (T × Option M)
  composeRawPlain : T → Nat → R → List M → Option (T × Option M)
  substitute : T → B → M → Option (T × Option M)
  merge : B → B → B × Bool
  fill : T → Nat → Option (T × Option Bool)

variable {T W P R B M : Type}

/-- The virtual functions of `MatrixSystem` as they are overridden (pauli_matrix_system.cpp:69-75, 92-101). -/
def PMaker.base (mk : PMaker T W P R B M) : Maker T W P R B M where
  moment t n := mk.moment t (n, 0)
  localizing t n w := mk.mono .localizing t (n, 0) w
  hash := mk.hash
  less := mk.less
  size := mk.size
  word := mk.word
  compose t n p l := mk.compose .localizing t (n, 0) p l
  aliases := mk.aliases
  register := mk.register
  rawWords := mk.rawWords
  composeRaw := mk.composeRawPlain
  substitute := mk.substitute
  merge := mk.merge
  fill := mk.fill

/-- `class PauliMatrixSystem` (pauli_matrix_system.h:28-56): a matrix system with more indices. -/
structure PSystem (T W P B M : Type) where
  base : System T W P B M
  moments : List ((Nat × Nat) × Int)
  monos : Kind → List (((Nat × Nat) × W) × Int)
  polys : Kind → List (((Nat × Nat) × P) × Int)

/-- The constructor (pauli_matrix_system.cpp:18-29). -/
def PSystem.new (t : T) : PSystem T W P B M := ⟨System.new t, [], fun _ => [], fun _ => []⟩

/-- The defaulted `operator<=>` of `NearestNeighbourIndex` (nearest_neighbour_index.h:35), as less. -/
def lessNear (a b : Nat × Nat) : Bool := decide (a.1 < b.1) || (a.1 == b.1 && decide (a.2 < b.2))

/-- `PauliMonomialIndex::operator<` (monomial_index.h:57-68). -/
def lessMono (hash : W → UInt64) (a b : (Nat × Nat) × W) : Bool :=
  if lessNear a.1 b.1 then true else if lessNear b.1 a.1 then false else decide (hash a.2 < hash b.2)

/-- `IndexPolyComparator::operator()` (polynomial_index_storage.h:44-51) for indices with neighbours. -/
def lessPoly (less : P → P → Bool) (a b : (Nat × Nat) × P) : Bool :=
  if lessNear a.1 b.1 then true else if lessNear b.1 a.1 then false else less a.2 b.2

/-- `indices.find` for each of the indices. -/
def PSystem.find (mk : PMaker T W P R B M) (S : PSystem T W P B M) : Key W P → Int
  | .plain i => S.base.find mk.base i
  | .moment n => mapFind lessNear S.moments n
  | .mono k n w => mapFind (lessMono mk.hash) (S.monos k) (n, w)
  | .poly k n p => mapFind (lessPoly mk.less) (S.polys k) (n, p)

/-- `indices.contains` for each of the indices. -/
def PSystem.contains (mk : PMaker T W P R B M) (S : PSystem T W P B M) : Key W P → Bool
  | .plain i => S.base.contains mk.base i
  | .moment n => S.moments.any fun e => !lessNear e.1 n && !lessNear n e.1
  | .mono k n w => (S.monos k).any fun e => !lessMono mk.hash e.1 (n, w) && !lessMono mk.hash (n, w) e.1
  | .poly k n p => decide (0 ≤ mapFind (lessPoly mk.less) (S.polys k) (n, p))

/-- `indices.insert` for each of the indices. -/
def PSystem.insert (mk : PMaker T W P R B M) (S : PSystem T W P B M) (i : Key W P) (o : Int) : PSystem T W P B M :=
  match i with
  | .plain i => { S with base := S.base.insert mk.base i o }
  | .moment n => { S with moments := (mapInsert lessNear S.moments n o).1 }
  | .mono k n w => { S with monos := fun x => if x = k then (mapInsert (lessMono mk.hash) (S.monos k) (n, w) o).1 else S.monos x }
  | .poly k n p => { S with polys := fun x => if x = k then (mapInsert (lessPoly mk.less) (S.polys k) (n, p) o).1 else S.polys x }

/-- `insert_alias` with the assertions before and after it in the hooks (matrix_indices.h:156-167, pauli_matrix_system.cpp:194-198). -/
def PSystem.alias (mk : PMaker T W P R B M) (S : PSystem T W P B M) (i : Key W P) (o : Int) : Option (PSystem T W P B M) :=
  if S.contains mk i then none else some (S.insert mk i o)

/-- The hooks `on_new_…` (pauli_matrix_system.cpp:186-298): plain indices are entered without restriction, and the other way round. -/
def PSystem.notify (mk : PMaker T W P R B M) (S : PSystem T W P B M) (i : Key W P) (o : Int) : Option (PSystem T W P B M) :=
  match i with
  | .plain (.moment n) => S.alias mk (.moment (n, 0)) o
  | .plain (.localizing n w) => S.alias mk (.mono .localizing (n, 0) w) o
  | .plain (.poly n p) => S.alias mk (.poly .localizing (n, 0) p) o
  | .moment n => if n.2 = 0 then S.alias mk (.plain (.moment n.1)) o else some S
  | .mono .localizing n w => if n.2 = 0 then S.alias mk (.plain (.localizing n.1 w)) o else some S
  | .poly .localizing n p => if n.2 = 0 then S.alias mk (.plain (.poly n.1 p)) o else some S
  | _ => some S

/-- The result of a request: the system afterwards, and number and matrix unless there was an exception. -/
abbrev Reply (T W P B M : Type) := Option (PSystem T W P B M × Option (Nat × M))

/-- A matrix that was made from the table is put at the end. -/
def PSystem.made (S : PSystem T W P B M) (r : T × Option M) : PSystem T W P B M × Option (Nat × M) :=
  ({ S with base := (S.base.made r).1 }, (S.base.made r).2)

/-- `MatrixIndices::create` (matrix_indices.h:121-151), with the factory as parameter. -/
def PSystem.create (mk : PMaker T W P R B M) (make : PSystem T W P B M → Reply T W P B M) (S : PSystem T W P B M) (i : Key W P) : Reply T W P B M :=
  let o := S.find mk i
  if 0 ≤ o then some (S, (S.base.get o).map fun m => (o.toNat, m))
  else (make S).bind fun r => match r.2 with
    | none => some (r.1, none)
    | some (k, m) => if r.1.contains mk i then none else ((r.1.insert mk i k).notify mk i k).map fun S' => (S', some (k, m))

/-- `create` of the indices of monomial matrices, with their factories (pauli_index_collections.cpp:41-127, standard_matrix_indices.cpp:35-41): plain
localizing matrices are made without restriction. -/
def PSystem.createMono (mk : PMaker T W P R B M) (S : PSystem T W P B M) (k : Kind) (n : Nat × Nat) (plain : Bool) (w : W) : Reply T W P B M :=
  S.create mk (fun S => (mk.mono k S.base.table n w).map S.made) (if plain then .plain (.localizing n.1 w) else .mono k n w)

/-- The loop over the terms in `CompositeMatrixImpl::create` (composite_matrix.h:197-200). -/
def PSystem.parts (mk : PMaker T W P R B M) (kind : Kind) (n : Nat × Nat) (plain : Bool) (p : P) :
    Nat → PSystem T W P B M → Option (PSystem T W P B M × Option (List M))
  | 0, S => some (S, some [])
  | k + 1, S => (mk.word S.base.table p (mk.size p - (k + 1))).bind fun w => (S.createMono mk kind n plain w).bind fun r => match r.2 with
    | none => some (r.1, none)
    | some (_, m) => (PSystem.parts mk kind n plain p k r.1).map fun q => (q.1, q.2.map fun l => m :: l)

/-- `CompositeMatrixImpl::create` and the end of the factories (composite_matrix.h:182-210, pauli_index_collections.cpp:65-74, 128-165). -/
def PSystem.makePoly (mk : PMaker T W P R B M) (kind : Kind) (n : Nat × Nat) (plain : Bool) (p : P) (S : PSystem T W P B M) : Reply T W P B M :=
  (S.parts mk kind n plain p (mk.size p)).bind fun q => match q.2 with
    | none => some (q.1, none)
    | some l => (if plain then mk.composePlain q.1.base.table n.1 p l else mk.compose kind q.1.base.table n p l).map q.1.made

/-- The loop over the terms in `CompositeMatrixImpl::create_from_raw` (composite_matrix.h:249-254). -/
def PSystem.rawParts (mk : PMaker T W P R B M) (kind : Kind) (n : Nat × Nat) (plain : Bool) :
    List W → PSystem T W P B M → Option (PSystem T W P B M × Option (List M))
  | [], S => some (S, some [])
  | w :: ws, S => (S.createMono mk kind n plain w).bind fun r => match r.2 with
    | none => some (r.1, none)
    | some (_, m) => (PSystem.rawParts mk kind n plain ws r.1).map fun q => (q.1, q.2.map fun l => m :: l)

/-- `create_and_register_…_matrix` and `create_from_raw` (pauli_matrix_system.cpp:31-66, matrix_system.cpp:147-156, composite_matrix.h:222-269). `plain` is
the function of `MatrixSystem`, which is not overridden: it uses plain indices for the terms; then the kind is that of localizing matrices. -/
def PSystem.makeRaw (mk : PMaker T W P R B M) (kind : Kind) (n : Nat × Nat) (plain : Bool) (q : R) (S : PSystem T W P B M) : Reply T W P B M :=
  if mk.aliases then (S.rawParts mk kind n plain (mk.rawWords q)).bind fun x => match x.2 with
    | none => some (x.1, none)
    | some l => (if plain then mk.composeRawPlain x.1.base.table n.1 q l else mk.composeRaw kind x.1.base.table n q l).map x.1.made
  else (mk.register S.base.table q).bind fun r => ({ S with base := { S.base with table := r.1 } } : PSystem T W P B M).makePoly mk kind n plain r.2

/-- The factories (pauli_index_collections.cpp, standard_matrix_indices.cpp), with the overridden functions (pauli_matrix_system.cpp:69-135). -/
def PSystem.make (mk : PMaker T W P R B M) (i : Key W P) (S : PSystem T W P B M) : Reply T W P B M :=
  match i with
  | .plain (.moment n) => (mk.moment S.base.table (n, 0)).map S.made
  | .plain (.localizing n w) => (mk.mono .localizing S.base.table (n, 0) w).map S.made
  | .plain (.poly n p) => S.makePoly mk .localizing (n, 0) false p
  | .plain (.subst a b) => match S.base.get a, S.base.book b with
    | some m, some r => (mk.substitute S.base.table r m).map S.made
    | _, _ => some (S, none)
  | .moment n => (mk.moment S.base.table n).map S.made
  | .mono k n w => (mk.mono k S.base.table n w).map S.made
  | .poly k n p => S.makePoly mk k n false p

/-- A request for the matrix of an index: `create`, or `operator()` of a system that may change (matrix_indices.h:106-151, 203-227). -/
def PSystem.request (mk : PMaker T W P R B M) (S : PSystem T W P B M) (i : Key W P) : Reply T W P B M := S.create mk (PSystem.make mk i) i

/-- `MatrixIndices::find` (matrix_indices.h:174-187): `none` if there is no such index, `some none` for an exception. -/
def PSystem.look (mk : PMaker T W P R B M) (S : PSystem T W P B M) (i : Key W P) : Option (Option (Nat × M)) :=
  let o := S.find mk i
  if o < 0 then none else some ((S.base.get o).map fun m => (o.toNat, m))

/-- What can be done with a system. -/
inductive Op (W P R B : Type)
  | request (i : Key W P)
  | rawPlain (level : Nat) (q : R)
  | raw (k : Kind) (n : Nat × Nat) (q : R)
  | delete (i : Int)
  | addBook (b : B)
  | mergeBook (i : Nat) (b : B)
  | dictionary (n : Nat)

/-- One operation; what comes of it is a matrix with its number, or nothing. Rulebooks, deletions and dictionaries are those of other matrix systems. -/
def PSystem.exec (mk : PMaker T W P R B M) (S : PSystem T W P B M) : Op W P R B → Reply T W P B M
  | .request i => S.request mk i
  | .rawPlain n q => S.makeRaw mk .localizing (n, 0) true q
  | .raw k n q => S.makeRaw mk k n false q
  | .delete i => (S.base.delete i).map fun r => ({ S with base := r.1 }, none)
  | .addBook b => some ({ S with base := { S.base with books := S.base.books ++ [b] } }, none)
  | .mergeBook i b => match S.base.books[i]? with
    | none => some (S, none)
    | some c => some ({ S with base := { S.base with books := S.base.books.set i (mk.merge c b).1 } }, none)
  | .dictionary n => (mk.fill S.base.table n).map fun r => ({ S with base := { S.base with table := r.1 } }, none)

/-- A sequence of operations. -/
inductive Steps (mk : PMaker T W P R B M) : PSystem T W P B M → List (Op W P R B) → PSystem T W P B M → Prop
  | refl (S : PSystem T W P B M) : Steps mk S [] S
  | step {S S' S'' : PSystem T W P B M} {l : List (Op W P R B)} {x : Op W P R B} {r : Option (Nat × M)} : Steps mk S l S' → S'.exec mk x = some (S'', r) →
      Steps mk S (l ++ [x]) S''

end Moment.PauliSystem
