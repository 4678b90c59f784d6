import Verif.Model.Locality
import Verif.Model.Combinations
import Verif.Model.Pauli
import Verif.Model.SiteHash

/-! # Model of the lists of Pauli words
(cpp/lib_moment/scenarios/pauli/symmetry/lattice_duplicator.cpp, scenarios/pauli/pauli_osg.cpp)

An entry of a list is a word with its sign; hashes are left out (they are a function of the word, see `HSeq.constructPresorted`). Functions that append to
the vector `output` give the list of what they append. Numbers of qubits are natural numbers: contexts hold fewer than 2¹⁵ operators
(pauli_context.cpp:67-69, 89-91). -/

namespace Moment.Fill

open Moment.Locality (collect)
open Moment.SiteHash (Wide Hasher Datum)

/-- The members `ops` and `sign` of an operator sequence. -/
abbrev Entry := List Nat × Sign

/-! ## Words on given sites (lattice_duplicator.cpp) -/

/-- The letters of one word (lattice_duplicator.cpp:38-42). -/
def letters (sites raw : List Nat) : List Nat := List.zipWith (fun q p => 3 * q + p) sites raw

/-- The words that `MultiOperatorIterator{context, parties, count, offset}` visits (dictionary/multi_operator_iterator.h). -/
noncomputable def tuples (parties count offset : Nat) : List (List Nat) :=
  collect (MultiOper.next count offset) MultiOper.atEnd MultiOper.value (MultiOper.first parties count offset)

/-- `do_permutation_fill` (lattice_duplicator.cpp:28-48). The constructor simplifies. -/
noncomputable def doPermutationFill (sites : List Nat) : List Entry :=
  (tuples sites.length 3 0).map fun raw => Pauli.simplify (letters sites raw) .pos

/-- `one_qubit_fill` (lattice_duplicator.cpp:241-254). -/
def oneFill (q : Nat) : List Entry := [([3 * q], .pos), ([3 * q + 1], .pos), ([3 * q + 2], .pos)]

/-- `two_qubit_fill` (lattice_duplicator.cpp:258-282). -/
def twoFill (a b : Nat) : List Entry :=
  if 3 * a < 3 * b then (List.range' (3 * a) 3).flatMap fun x => (List.range' (3 * b) 3).map fun y => ([x, y], .pos)
  else (List.range' (3 * a) 3).flatMap fun x => (List.range' (3 * b) 3).map fun y => ([y, x], .pos)

/-- `permutation_fill` (lattice_duplicator.cpp:289-308). -/
noncomputable def permutationFill : List Nat → List Entry
  | [] => [([], .pos)]
  | [q] => oneFill q
  | [a, b] => twoFill a b
  | s => doPermutationFill s

/-! ## Translates of given sites (lattice_duplicator.cpp) -/

/-- `wrapless_symmetrical_fill` (lattice_duplicator.cpp:346-381). The simplifier has columns of height `h` and `k` columns; for a chain these are the
number of qubits and 1 (moment_simplifier_no_wrapping.cpp:79-86). Differences of unsigned numbers are not negative when the sites are in the lattice. -/
noncomputable def wraplessFill (h k : Nat) (s : List Nat) : List Entry :=
  if s.isEmpty then []
  else (List.range (1 + k - (Translate.siteSupremum h s).2)).flatMap fun col =>
    (List.range (1 + h - (Translate.siteSupremum h s).1)).flatMap fun row => permutationFill (s.map fun q => q + (col * h + row))

/-- The copies of the words `base` under one shift (lattice_duplicator.cpp:71-75, 101-105, 194-198). -/
def copies (shift : Datum → Option Datum) (slides : Nat) (base : List Entry) : Option (List Entry) :=
  base.mapM fun e => (shift (SiteHash.hash slides e.1)).map fun D => (SiteHash.unhash D, .pos)

/-- `do_unaliased_chain_symmetric_fill` (lattice_duplicator.cpp:50-78). -/
noncomputable def unaliasedChain (wide : Wide) (H : Hasher) (s : List Nat) (max : Nat) : Option (List Entry) :=
  ((List.range' 1 (max - 1)).mapM fun o => copies (SiteHash.cyclic wide H · o) H.slides (permutationFill s)).map fun l =>
    permutationFill s ++ l.flatten

/-- The shifts of `do_unaliased_lattice_symmetric_fill` (lattice_duplicator.cpp:99-100): both loops end at the number of columns. -/
def unaliasedShifts (H : Hasher) : List (Nat × Nat) :=
  (List.range H.width).flatMap fun col =>
    (List.range' (if col ≠ 0 then 0 else 1) (H.width - (if col ≠ 0 then 0 else 1))).map fun row => (row, col)

/-- `do_unaliased_lattice_symmetric_fill` (lattice_duplicator.cpp:80-110). -/
noncomputable def unaliasedLattice (wide : Wide) (H : Hasher) (s : List Nat) : Option (List Entry) :=
  ((unaliasedShifts H).mapM fun o => copies (SiteHash.latticeShift wide H · o.1 o.2) H.slides (permutationFill s)).map fun l =>
    permutationFill s ++ l.flatten

/-- `do_aliased_chain_symmetric_fill` (lattice_duplicator.cpp:112-136); `n` is the number of qubits. -/
noncomputable def aliasedChain (wide : Wide) (H : Hasher) (n : Nat) (s : List Nat) : Option (List Entry) :=
  if s.foldl Nat.max (s.headD 0) - s.foldl Nat.min (s.headD 0) < n / 2 then unaliasedChain wide H s n
  else (SiteHash.firstAlias wide H (SiteHash.hash H.slides (s.map fun q => 3 * q))).bind fun m => unaliasedChain wide H s m

/-- The insertion into `std::map`, ordered by the slides from the first to the last (lattice_duplicator.cpp:171-173, 183-184): an element that is there is kept. -/
def insertHash (D : Datum) (o : Nat × Nat) : List (Datum × (Nat × Nat)) → List (Datum × (Nat × Nat))
  | [] => [(D, o)]
  | x :: l => if SiteHash.lessRev D x.1 then (D, o) :: x :: l else if SiteHash.lessRev x.1 D then x :: insertHash D o l else x :: l

/-- All shifts (lattice_duplicator.cpp:181-182). -/
def allShifts (h k : Nat) : List (Nat × Nat) := (List.range k).flatMap fun col => (List.range h).map fun row => (row, col)

/-- The loops that fill the map (lattice_duplicator.cpp:170-186). -/
def uniquePositions (wide : Wide) (H : Hasher) (h k : Nat) (base : Datum) : Option (List (Datum × (Nat × Nat))) :=
  (allShifts h k).foldlM (fun m o => (SiteHash.latticeShift wide H base o.1 o.2).map fun D => insertHash D o m) [(base, (0, 0))]

/-- `do_aliased_lattice_symmetric_fill` (lattice_duplicator.cpp:139-203). -/
noncomputable def aliasedLattice (wide : Wide) (H : Hasher) (h k : Nat) (s : List Nat) : Option (List Entry) :=
  if (Translate.siteSupremum h s).1 ≤ H.width / 2 ∧ (Translate.siteSupremum h s).2 ≤ H.height / 2 then unaliasedLattice wide H s
  else (uniquePositions wide H h k (SiteHash.hash H.slides ((permutationFill s).headD ([], .pos)).1)).bind fun m =>
    ((m.filter fun x => decide (x.2 ≠ (0, 0))).mapM fun x =>
      copies (SiteHash.latticeShift wide H · x.2.1 x.2.2) H.slides (permutationFill s)).map fun l => permutationFill s ++ l.flatten

/-- The members of `PauliContext` (pauli_context.h:66-98): a chain of `height` qubits, or a lattice of `width` columns of height `height`. -/
structure Layout where
  lattice : Bool
  height : Nat
  width : Nat
  wrap : Bool
  symmetric : Bool

/-- `qubit_size` (pauli_context.h:71); for chains `width` is 1. -/
def Layout.qubits (L : Layout) : Nat := L.height * L.width

/-- `symmetrical_fill` (lattice_duplicator.cpp:310-344) with `do_symmetric_fill` (212-237). `none` is undefined behaviour; `some none` is an exception, of
`moment_simplifier()` on contexts without symmetry (pauli_context.cpp:500-506). The number of slides is never out of range. The construction of the
context with symmetry is not repeated here: `H` is its hasher. -/
noncomputable def symmetricalFill (wide : Wide) (H : Hasher) (L : Layout) (s : List Nat) (check : Bool) : Option (Option (List Entry)) :=
  if s.isEmpty then some (some [])
  else if L.wrap = false then some (some (wraplessFill L.height L.width s))
  else if L.symmetric = false then some none
  else (if L.lattice then
      if check then aliasedLattice wide H L.height L.width s else unaliasedLattice wide H s
    else if check then aliasedChain wide H L.qubits s else unaliasedChain wide H s L.qubits).map some

/-! ## Lists of words (pauli_osg.cpp) -/

/-- `add_length_one_sequences` (pauli_osg.cpp:279-287). -/
def lengthOne (n : Nat) : List Entry := (List.range (n * 3)).map fun o => ([o], .pos)

/-- The subsets that `PartitionIterator` visits (pauli_osg.cpp:323-327). -/
noncomputable def subsets (n parties : Nat) : List (List Nat) :=
  (collect (Comb.pnext n parties) Comb.patEnd Comb.pvalue (Comb.pfirst n parties)).map Prod.fst

/-- `compute_all_sequences` (pauli_osg.cpp:289-330) on `n` qubits. -/
noncomputable def allWords (n level : Nat) : List Entry :=
  let len := min level n
  [([], .pos)] ++ (if len < 1 then [] else lengthOne n ++ (if len < 2 then [] else
    ((List.range (n - 1)).flatMap fun a => (List.range' (a + 1) (n - (a + 1))).flatMap fun b => twoFill a b) ++
    (List.range' 3 (len - 2)).flatMap fun parties => (subsets n parties).flatMap permutationFill))

/-- `chain_nn_sequences` (pauli_osg.cpp:21-60). -/
noncomputable def chainPairs (wrapped : Bool) (n len : Nat) : List Entry :=
  (if len ≥ 2 then ((List.range (n - 2 + 1)).flatMap fun a => twoFill a (a + 1)) ++ (if wrapped then twoFill (n - 1) 0 else []) else []) ++
  (List.range' 3 (len - 2)).flatMap fun parties =>
    (List.range ((if wrapped then n - 1 else n - parties) + 1)).flatMap fun a =>
      doPermutationFill ((List.range parties).map fun i => if wrapped then (a + i) % n else a + i)

/-- The loop that adds up offsets (pauli_osg.cpp:86-103); `none` if the offsets are skipped. -/
def select (wrapped : Bool) (n a : Nat) : Nat → List Nat → Option (List Nat)
  | _, [] => some []
  | c, d :: raw =>
    if (if wrapped then c + d ≥ n else a + (c + d) ≥ n) then none
    else (select wrapped n a (c + d) raw).map fun s => (if wrapped then (a + (c + d)) % n else a + (c + d)) :: s

/-- `chain_next_nn_sequences` (pauli_osg.cpp:66-115). -/
noncomputable def chainNext (wrapped : Bool) (n len distance : Nat) : List Entry :=
  (List.range' 2 (len - 1)).flatMap fun parties =>
    (List.range ((if wrapped then n - 1 else n - parties) + 1)).flatMap fun a =>
      (tuples (parties - 1) distance 1).flatMap fun raw => match select wrapped n a 0 raw with
        | none => []
        | some s => permutationFill (a :: s)

/-- `lattice_neighbour_pairs` (pauli_osg.cpp:118-179). The counter `qubit_index` is written as column times height plus row. -/
def latticePairs (wrapped : Bool) (h k : Nat) : List Entry :=
  ((List.range (k - 1)).flatMap fun col =>
    ((List.range (h - 1)).flatMap fun row => twoFill (col * h + row) (col * h + row + 1) ++ twoFill (col * h + row) (col * h + row + h)) ++
    (if wrapped = true ∧ h > 2 then twoFill (col * h + (h - 1)) (col * h + (h - 1) + 1 - h) else []) ++
    twoFill (col * h + (h - 1)) (col * h + (h - 1) + h)) ++
  ((List.range (h - 1)).flatMap fun row => twoFill ((k - 1) * h + row) ((k - 1) * h + row + 1) ++
    (if wrapped = true ∧ k > 2 then twoFill ((k - 1) * h + row) row else [])) ++
  (if wrapped = true ∧ h > 2 then twoFill ((k - 1) * h + (h - 1)) ((k - 1) * h + (h - 1) + 1 - h) else []) ++
  (if wrapped = true ∧ k > 2 then twoFill ((k - 1) * h + (h - 1)) (h - 1) else [])

/-- The calls of `symmetrical_fill` for triplets (pauli_osg.cpp:181-212): sites and whether aliases are checked. -/
def tripletShapes (wrapped : Bool) (h k : Nat) : List (List Nat × Bool) :=
  (if k ≥ 3 then [([0, h, 2 * h], wrapped && k == 3)] else []) ++
  (if h ≥ 3 then [([0, 1, 2], wrapped && h == 3)] else []) ++
  (if k ≥ 2 ∧ h ≥ 2 then [([0, 1, h], false), ([0, h, h + 1], false), ([0, 1, h + 1], false), ([0, h, h + 1], false)] else [])

/-- The call of `symmetrical_fill` for squares (pauli_osg.cpp:214-229). -/
def squareShapes (wrapped : Bool) (h k : Nat) : List (List Nat × Bool) :=
  if k ≥ 2 ∧ h ≥ 2 then [([0, 1, h, h + 1], wrapped && (k == 2 || h == 2))] else []

/-- A sequence of calls, each of which can fail. -/
def append (a b : Option (Option (List Entry))) : Option (Option (List Entry)) :=
  a.bind fun x => match x with
    | none => some none
    | some x => b.map fun y => y.map fun y => x ++ y

/-- The sequence of calls of `symmetrical_fill` on shapes. -/
noncomputable def fillShapes (wide : Wide) (H : Hasher) (L : Layout) : List (List Nat × Bool) → Option (Option (List Entry))
  | [] => some (some [])
  | x :: l => append (symmetricalFill wide H L x.1 x.2) (fillShapes wide H L l)

/-- `add_lattice_neighbours` (pauli_osg.cpp:232-254). -/
noncomputable def latticeNeighbours (wide : Wide) (H : Hasher) (L : Layout) (len : Nat) : Option (Option (List Entry)) :=
  if len ≥ 5 then some none
  else append (some (some (latticePairs L.wrap L.height L.width)))
    (fillShapes wide H L ((if len ≥ 3 then tripletShapes L.wrap L.height L.width else []) ++
      (if len ≥ 4 then squareShapes L.wrap L.height L.width else [])))

/-- `compute_nearest_neighbour_sequences` (pauli_osg.cpp:332-389). -/
noncomputable def nearWords (wide : Wide) (H : Hasher) (L : Layout) (level neighbours : Nat) : Option (Option (List Entry)) :=
  if L.lattice = true ∧ neighbours > 1 then some none
  else
    let len := min level L.qubits
    if len < 1 then some (some [([], .pos)])
    else if len < 2 then some (some ([([], .pos)] ++ lengthOne L.qubits))
    else append (some (some ([([], .pos)] ++ lengthOne L.qubits)))
      (if neighbours = 1 then
        if L.lattice then latticeNeighbours wide H L len else some (some (chainPairs L.wrap L.qubits len))
      else some (some (chainNext L.wrap L.qubits len neighbours)))

/-- `PauliSequenceGenerator` (pauli_osg.cpp:257-277): the words of a level; `neighbours = 0` stands for no restriction. -/
noncomputable def generate (wide : Wide) (H : Hasher) (L : Layout) (level neighbours : Nat) : Option (Option (List Entry)) :=
  if neighbours ≠ 0 then nearWords wide H L level neighbours else some (some (allWords L.qubits level))

end Moment.Fill
