import Verif.Model.Iter

/-! # Models of the subset and ordered-word iterators

cpp/lib_moment/utilities/combinations.h, triangular_index_iterator.h and ordered_permutation.h. -/

namespace Moment.Comb

/-- `indices` and `endState` (combinations.h:48-53). `N` and `K` are parameters. -/
structure State where
  indices : List Nat
  done : Bool

/-- 'Begin' constructor (combinations.h:58-71). -/
def first (inclusive : Bool) (K : Nat) : State :=
  { indices := if inclusive then List.replicate K 0 else List.range K, done := false }

/-- `incIndexExclusive(J)` (combinations.h:161-173), on the part of `indices` from position `J` on. The flag is the new `endState`. -/
def incExclusive (N : Nat) : Nat → List Nat → List Nat × Bool
  | _, [] => ([], false)
  | _, [x] => ([x + 1], decide (x + 1 ≥ N))
  | J, x :: y :: rest =>
    if x + 1 ≥ y then
      let r := incExclusive N (J + 1) (y :: rest)
      (J :: r.1, r.2)
    else ((x + 1) :: y :: rest, false)

/-- `incIndexInclusive(J)` (combinations.h:146-159), on the reverse of the part of `indices` up to position `J`. -/
def incInclusive (N : Nat) : List Nat → List Nat × Bool
  | [] => ([], false)
  | [x] => ([x + 1], decide (x + 1 ≥ N))
  | x :: y :: rest =>
    if x + 1 ≥ N then
      let r := incInclusive N (y :: rest)
      (r.1.headD 0 :: r.1, r.2)
    else ((x + 1) :: y :: rest, false)

/-- `operator++` (combinations.h:78-96). -/
def next (inclusive : Bool) (N K : Nat) (s : State) : State :=
  if K = 0 then { s with done := true }
  else if inclusive then
    let r := incInclusive N s.indices.reverse
    { indices := r.1.reverse, done := s.done || r.2 }
  else
    let r := incExclusive N 0 s.indices
    { indices := r.1, done := s.done || r.2 }

/-- `done()` (combinations.h:137-139). -/
def atEnd (s : State) : Prop := s.done = true

/-- `operator*` (combinations.h:126-129). -/
def value (s : State) : List Nat := s.indices

/-- The loops of `combinations(N, K)` (combinations.h:24-35) for `int_t = size_t`: products over `n` consecutive values starting at `a`. -/
def product64 (a : UInt64) : Nat → UInt64
  | 0 => 1
  | n + 1 => product64 a n * (a + UInt64.ofNat n)

/-- `combinations(N, K)` (combinations.h:24-35), called with `K ≤ N`: the first loop runs from `N-K+1` to `N`, the second from `1` to `K`. -/
def combinations (N K : Nat) : UInt64 :=
  product64 (UInt64.ofNat (N - K) + 1) K / product64 1 K

/-- `PartitionIterator` (combinations.h:180-191): primary iterator, complement, bit field, `is_done`. -/
structure PState where
  primary : State
  complement : List Nat
  bits : List Bool
  done : Bool

/-- Constructor (combinations.h:195-206). -/
def pfirst (N K : Nat) : PState :=
  { primary := first false K, complement := List.range' K (N - K),
    bits := List.replicate K true ++ List.replicate (N - K) false, done := (first false K).done }

/-- The loop of `PartitionIterator::operator++` (combinations.h:248-271). `left` counts the complement slots not yet written (the distance from
`compIndexIter` to its end), `prim` is what remains of the primary indices, `steps` is `N - i`. Produces the values written to the complement and to
the bit field from position `i` on; the early `break` (lines 250-253) fills the rest of the bit field with `true`. -/
def scan : (steps i left : Nat) → (prim : List Nat) → List Nat × List Bool
  | 0, _, _, _ => ([], [])
  | steps + 1, _, 0, _ => ([], List.replicate (steps + 1) true)
  | steps + 1, i, left + 1, [] =>
    let r := scan steps (i + 1) left []
    (i :: r.1, false :: r.2)
  | steps + 1, i, left + 1, p :: ps =>
    if p = i then
      let r := scan steps (i + 1) (left + 1) ps
      (r.1, true :: r.2)
    else
      let r := scan steps (i + 1) left (p :: ps)
      (i :: r.1, false :: r.2)

/-- `PartitionIterator::operator++` (combinations.h:235-274). The complement keeps its old entries in the slots that are not written. -/
def pnext (N K : Nat) (s : PState) : PState :=
  let prim := next false N K s.primary
  if prim.done then { s with primary := prim, done := true }
  else
    let r := scan N 0 s.complement.length prim.indices
    { primary := prim, complement := r.1 ++ s.complement.drop r.1.length, bits := r.2, done := s.done }

def patEnd (s : PState) : Prop := s.done = true

/-- `primary()`, `complement()` and `bits()` (combinations.h:210, 216, 225). -/
def pvalue (s : PState) : List Nat × List Nat × List Bool := (s.primary.indices, s.complement, s.bits)

end Moment.Comb

namespace Moment.TriIndex

/-- `indices`, `global_index`, `is_done` (triangular_index_iterator.h:41-43). -/
structure State where
  indices : List Nat
  global : Nat
  done : Bool

/-- Constructor with `end = false` (triangular_index_iterator.h:46-69). -/
def first (duplicates : Bool) (maxIndex wordLength : Nat) : State :=
  let done := wordLength == 0 || maxIndex == 0 || (!duplicates && decide (wordLength > maxIndex))
  { indices := if done || duplicates then List.replicate wordLength 0 else List.range wordLength,
    global := if done then maxIndex ^ wordLength else 0,
    done }

/-- The 'recursing' loop of `operator++` (triangular_index_iterator.h:75-89 with duplicates, 101-116 without), on the reversed indices: how many
trailing entries overflowed, and the entries from the one that did not overflow on, or `none` if all did. `bound p` is the value at which
position `p` overflows. -/
def climb (bound : Nat → Nat) : List Nat → Option (Nat × List Nat)
  | [] => none
  | x :: rest =>
    if x + 1 ≥ bound rest.length then (climb bound rest).map fun r => (r.1 + 1, r.2)
    else some (0, (x + 1) :: rest)

/-- `operator++` (triangular_index_iterator.h:71-130). When everything overflowed the indices are left at values that are no longer used; they are
not modelled. -/
def next (duplicates : Bool) (maxIndex wordLength : Nat) (s : State) : State :=
  let bound := fun p => if duplicates then maxIndex else 1 + maxIndex + p - wordLength
  match climb bound s.indices.reverse with
  | none => { s with global := s.global + 1, done := true }
  | some (n, rem) =>
    let filler := if duplicates then List.replicate n (rem.headD 0) else List.range' (rem.headD 0 + 1) n
    { indices := rem.reverse ++ filler, global := s.global + 1, done := s.done }

/-- `operator!` (triangular_index_iterator.h:176-178). -/
def atEnd (s : State) : Prop := s.done = true

/-- `operator*` and `global()` (triangular_index_iterator.h:157-159, 180-182). -/
def value (s : State) : List Nat × Nat := (s.indices, s.global)

end Moment.TriIndex

namespace Moment.OrdPerm

/-- 'Begin' constructor of `OrderedPermutationIterator` (ordered_permutation.h:37-43), which requires `N > 0`. -/
def first (K : Nat) : Comb.State := { indices := List.replicate K 0, done := false }

/-- `inc_index` (ordered_permutation.h:109-142): the climbing loop (121-133), then filling (135-139). -/
def next (N K : Nat) (s : Comb.State) : Comb.State :=
  if K = 0 then { s with done := true }
  else match TriIndex.climb (fun _ => N) s.indices.reverse with
    | none => { s with done := true }
    | some (n, rem) => { indices := rem.reverse ++ List.replicate n (rem.headD 0), done := s.done }

end Moment.OrdPerm
