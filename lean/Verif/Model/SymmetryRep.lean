import Verif.Model.OpSeq
import Mathlib.Data.Real.Basic
import Mathlib.Algebra.BigOperators.Group.Finset.Basic

/-! # Model of the representations of symmetry groups on longer words
(cpp/lib_moment/scenarios/symmetrized/group.cpp, representation_mapper.cpp, representation.cpp)

Sparse matrices are functions of row and column, with their dimensions beside them. The words of each length are given by the context
(`operator_sequence_generator`), and so is multiplication. Locks are left out. -/

namespace Moment.SymRep

/-! ## Matrices -/

/-- Entries of a matrix. -/
abbrev Entries := Nat → Nat → ℝ

/-- Product of matrices, where the first one has `k` columns. -/
noncomputable def mulE (k : Nat) (A B : Entries) : Entries := fun i j => ∑ t ∈ Finset.range k, A i t * B t j

/-- `Eigen::kroneckerProduct`, where the second matrix has `n` rows and columns. -/
noncomputable def kron (n : Nat) (A B : Entries) : Entries := fun p q => A (p / n) (q / n) * B (p % n) (q % n)

/-- `setFromTriplets`: values at the same position are added. -/
noncomputable def fromTriplets (ts : List (Nat × Nat × ℝ)) : Entries := fun i j => ((ts.filter fun t => t.1 == i && t.2.1 == j).map fun t => t.2.2).sum

/-! ## The mapper -/

/-- What the mapper needs of the context. -/
structure Ctx where
  words : Nat → List HSeq
  mul : HSeq → HSeq → HSeq

/-- `hash_to_index` (representation_mapper.cpp:39-48): earlier entries win. -/
def hashIndex (ws : List HSeq) : List (UInt64 × Nat) := (0, 0) :: ws.zipIdx.map fun w => (w.1.hash, w.2 + 1)

/-- `hash_to_index.find` -/
def lookup (m : List (UInt64 × Nat)) (h : UInt64) : Option Nat := (m.find? fun e => e.1 == h).map Prod.snd

/-- The products of words (representation_mapper.cpp:56-58). -/
def products (c : Ctx) (a b : Nat) : List HSeq := (c.words a).flatMap fun l => (c.words b).map fun r => c.mul l r

/-- `vector_remap` (representation_mapper.cpp:33-69). A product that is not found gives no result, since then the end of the map is dereferenced. -/
def vectorRemap (c : Ctx) (a b n : Nat) : Option (List Nat) := (products c a b).mapM fun w => lookup (hashIndex (c.words n)) w.hash

/-- The triplets of `make_lhs` (representation_mapper.cpp:75-85). -/
noncomputable def lhsTriplets : Nat → List Nat → List (Nat × Nat × ℝ)
  | _, [] => []
  | p, m :: remap => if m > 0 then (m - 1, p, 1) :: lhsTriplets (p + 1) remap else lhsTriplets (p + 1) remap

/-- The triplets of `make_rhs` (representation_mapper.cpp:99-115); `done` are the columns that are set in `done_map`. -/
noncomputable def rhsTriplets : Nat → List Nat → List Nat → List (Nat × Nat × ℝ)
  | _, _, [] => []
  | p, done, m :: remap =>
    if m > 0 ∧ m - 1 ∉ done then (p, m - 1, 1) :: rhsTriplets (p + 1) ((m - 1) :: done) remap else rhsTriplets (p + 1) done remap

/-- `RepresentationMapper` -/
structure Mapper where
  target : Nat
  left : Nat
  right : Nat
  raw : Nat
  remapped : Nat
  remap : List Nat
  lhs : Entries
  rhs : Entries

/-- The mapper of words of length one (representation_mapper.cpp:125-137). -/
noncomputable def Mapper.one (c : Ctx) : Mapper :=
  let n := (c.words 1).length
  ⟨1, n, 1, n, n, (List.range n).map (· + 1), fun _ _ => 0, fun _ _ => 0⟩

/-- The mapper of words of length `n` (representation_mapper.cpp:139-168). -/
noncomputable def Mapper.make (c : Ctx) (A B : Mapper) (n : Nat) : Option Mapper :=
  (vectorRemap c A.target B.target n).map fun remap =>
    ⟨n, A.remapped, B.remapped, A.remapped * B.remapped, (c.words n).length, remap, fromTriplets (lhsTriplets 0 remap), fromTriplets (rhsTriplets 0 [] remap)⟩

/-- `RepresentationMapper::operator()` (representation_mapper.cpp:177-184). -/
noncomputable def Mapper.apply (m : Mapper) (A B : Entries) : Entries := mulE m.raw (mulE m.raw m.lhs (kron m.right A B)) m.rhs

/-! ## Which lengths to build -/

/-- `std::popcount` of a number of 64 bits -/
def popcount (n : Nat) : Nat := (List.range 64).countP fun i => n.testBit i

/-- `std::bit_floor` of a positive number -/
def bitFloor (n : Nat) : Nat := 2 ^ n.log2

/-- Lengths of the parents: `determine_parents` (group.cpp:35-49). -/
def parents (n : Nat) : Nat × Nat := if popcount n = 1 then (n >>> 1, n >>> 1) else (bitFloor n, n ^^^ bitFloor n)

/-- The loop over smaller powers of two (group.cpp:271-275). -/
def powers (bitfloor remainder : Nat) (output : List Nat) : Option (List Nat) :=
  if bitfloor > remainder then powers (bitfloor >>> 1) remainder (output ++ [bitfloor]) else some output
partial_fixpoint

/-- The do-while loop of `decompose_build_list` (group.cpp:258-280). -/
def buildLoop (remainder : Nat) (output : List Nat) : Option (List Nat) :=
  let output := output ++ [remainder]
  if popcount remainder = 1 then
    let r := remainder >>> 1
    if r > 1 then buildLoop r output else some output
  else
    let r := remainder ^^^ bitFloor remainder
    (powers (bitFloor remainder) r output) >>= fun output => if r > 1 then buildLoop r output else some output
partial_fixpoint

/-- `Group::decompose_build_list` (group.cpp:251-285). -/
def buildList (n : Nat) : Option (List Nat) := if n ≤ 1 then some [] else (buildLoop n []).map List.reverse

/-! ## The group -/

/-- The data of `Group`: for each length, the elements of the representation, and the mapper; null pointers are `none`. -/
structure Grp where
  reps : List (Option (List Entries))
  mappers : List (Option Mapper)

/-- The pointer for words of length `n`, not null. -/
def at? {α : Type} (l : List (Option α)) (n : Nat) : Option α := (l[n - 1]?).join

/-- `std::vector::resize` if the vector is too short (group.cpp:294-296, 313-315) -/
def grow {α : Type} (l : List (Option α)) (n : Nat) : List (Option α) := l ++ List.replicate (n - l.length) none

/-- Constructor (group.cpp:93-117) with a fundamental representation of the right dimension. -/
noncomputable def Grp.new (c : Ctx) (fundamental : List Entries) : Grp := ⟨[some fundamental], [some (Mapper.one c)]⟩

/-- The loop that makes mappers (group.cpp:302-311). -/
noncomputable def makeMappers (c : Ctx) : List Nat → List (Option Mapper) → Option (List (Option Mapper))
  | [], ms => some ms
  | n :: ns, ms =>
    match at? ms n with
    | some _ => makeMappers c ns ms
    | none => (at? ms (parents n).1) >>= fun A => (at? ms (parents n).2) >>= fun B => (Mapper.make c A B n) >>= fun m => makeMappers c ns (ms.set (n - 1) (some m))

/-- `build_representations_single_thread` (group.cpp:51-77). -/
noncomputable def buildReps (ms : List (Option Mapper)) (size : Nat) : List Nat → List (Option (List Entries)) → Option (List (Option (List Entries)))
  | [], rs => some rs
  | n :: ns, rs =>
    (at? rs (parents n).1) >>= fun A => (at? rs (parents n).2) >>= fun B => (at? ms n) >>= fun m =>
      ((List.range size).mapM fun i => A[i]? >>= fun a => B[i]? >>= fun b => some (m.apply a b)) >>= fun new => buildReps ms size ns (rs.set (n - 1) (some new))

/-- `identify_and_build_representations` (group.cpp:287-337), single-threaded. The last mapper is looked at to choose the number of threads. -/
noncomputable def Grp.build (c : Ctx) (size : Nat) (G : Grp) (n : Nat) : Option Grp :=
  (buildList n) >>= fun bl => (makeMappers c bl (grow G.mappers n)) >>= fun ms =>
    let rs := grow G.reps n
    let pruned := bl.filter fun k => (at? rs k).isNone
    (ms.getLast?.join) >>= fun _ => (buildReps ms size pruned rs).map fun rs' => ⟨rs', ms⟩

/-- `create_representation` (group.cpp:201-229): the group after the call, and the representation; `none` inside if the call throws. -/
noncomputable def Grp.create (c : Ctx) (size : Nat) (G : Grp) (n : Nat) : Option (Grp × Option (List Entries)) :=
  if n = 0 then some (G, none)
  else match at? G.reps n with
    | some r => some (G, some r)
    | none => (G.build c size n) >>= fun G' => (at? G'.reps n).map fun r => (G', some r)

end Moment.SymRep
