import Mathlib.Analysis.SpecialFunctions.Log.Base
import Mathlib.Algebra.Order.Round

/-! Model of small helpers in cpp/lib_moment/utilities: ipow.h, kronecker_power.cpp, linear_map_merge.h, shift_sorter.h, alphabetic_namer.cpp and
first_intersection_index.h. -/

namespace Moment.Util

/-! ## Powers -/

/-- The loop of `ipow` for `size_t` (ipow.h:44-54): products wrap modulo 2^64. -/
def ipowLoop (base exp output : UInt64) : Option UInt64 :=
  let output := if exp &&& 1 = 1 then output * base else output
  let exp := exp >>> 1
  if exp = 0 then some output else ipowLoop (base * base) exp output
partial_fixpoint

/-- `ipow<size_t>` (ipow.h:21-61); `none`: no end. -/
def ipow (base exp : UInt64) : Option UInt64 :=
  if exp = 0 then some 1 else if exp = 1 then some base else if base = 0 then some 0 else if base = 1 then some 1 else ipowLoop base exp 1

/-- Outcome of signed arithmetic: overflow is undefined behaviour. -/
inductive Signed where
  | value (z : Int)
  | overflow
deriving DecidableEq

/-- The loop for a signed type with values from -m to m - 1 (ipow.h:44-60). Signed `exp >> 1` rounds down, `exp & 1` is the lowest bit in two's complement. -/
def ipowSignedLoop (m base exp output : Int) (neg : Bool) : Option Signed :=
  let output := if exp % 2 = 1 then output * base else output
  if output ≥ m then some .overflow
  else
    let exp := exp / 2
    if exp = 0 then some (.value (if neg then -output else output))
    else if base * base ≥ m then some .overflow
    else ipowSignedLoop m (base * base) exp output neg
partial_fixpoint

/-- `ipow` for a signed type with values from -m to m - 1 (ipow.h:21-61). Line 39 overflows for the lowest value. -/
def ipowSigned (m base exp : Int) : Option Signed :=
  if exp = 0 then some (.value 1) else if exp = 1 then some (.value base) else if base = 0 then some (.value 0) else if base = 1 then some (.value 1)
  else if base < 0 then (if -base ≥ m then some .overflow else ipowSignedLoop m (-base) exp 1 (exp % 2 = 1)) else ipowSignedLoop m base exp 1 false

/-- A matrix: size and entries (only those with indices below the size count). -/
structure Mat (R : Type) where
  rows : Nat
  cols : Nat
  entry : Nat → Nat → R

/-- `Eigen::kroneckerProduct`. -/
def kron {R : Type} [Mul R] (a b : Mat R) : Mat R :=
  ⟨a.rows * b.rows, a.cols * b.cols, fun i j => a.entry (i / b.rows) (j / b.cols) * b.entry (i % b.rows) (j % b.cols)⟩

/-- `id1` (kronecker_power.cpp:15-19). -/
def id1 {R : Type} [One R] : Mat R := ⟨1, 1, fun _ _ => 1⟩

/-- The loop of `kronecker_power` (kronecker_power.cpp:38-45). -/
def kronLoop {R : Type} [Mul R] (pow2 output : Mat R) (power : Nat) : Mat R :=
  if h : power = 0 then output
  else
    let pow2 := kron pow2 pow2
    let output := if power % 2 = 1 then kron output pow2 else output
    kronLoop pow2 output (power / 2)
termination_by power
decreasing_by omega

/-- `kronecker_power` (kronecker_power.cpp:22-48), for the non-negative powers that the assertion asks for. -/
def kroneckerPower {R : Type} [Mul R] [One R] (base : Mat R) (power : Nat) : Mat R :=
  if power = 1 then base else if power = 0 then id1
  else kronLoop base (if power % 2 = 1 then base else id1) (power / 2)

/-! ## Merging maps -/

/-- `std::map::insert`: nothing happens if the key is there. The map is the list of its entries, keys ascending. -/
def mapInsert {V : Type} (k : Int) (v : V) : List (Int × V) → List (Int × V)
  | [] => [(k, v)]
  | e :: m => if k < e.1 then (k, v) :: e :: m else if e.1 < k then e :: mapInsert k v m else e :: m

/-- `++iter`; an iterator is the key it points to, none at the end. -/
def mapNext {V : Type} (m : List (Int × V)) (h : Int) : Option Int := (m.find? fun e => h < e.1).map Prod.fst

/-- Whether an insertion hint is exact: the entries before the hint are those with smaller keys. Otherwise `std::map` has to search. -/
def hintExact {V : Type} (m : List (Int × V)) (hint : Option Int) (k : Int) : Bool :=
  m.all fun e => decide (e.1 < k) == (match hint with | none => true | some h => decide (e.1 < h))

/-- Conversion of a key to `size_t` for the comparisons (linear_map_merge.h:33-39). -/
def toSize (k : Int) : Int := k % 2 ^ 64

/-- `linear_map_merge` (linear_map_merge.h:19-50). Also says if all hints were exact. -/
def mapMerge {V : Type} (lhs : List (Int × V)) (it : Option Int) (rhs : List (Int × V)) (exact : Bool) : Option (List (Int × V) × Bool) :=
  match rhs with
  | [] => some (lhs, exact)
  | (k, v) :: rest =>
    match it with
    | none => mapMerge (mapInsert k v lhs) none rest (exact && hintExact lhs none k)
    | some h =>
      if toSize h < toSize k then mapMerge lhs (mapNext lhs h) ((k, v) :: rest) exact
      else if toSize h > toSize k then mapMerge (mapInsert k v lhs) (some k) rest (exact && hintExact lhs (some h) k)
      else mapMerge lhs (mapNext lhs h) rest exact
partial_fixpoint

/-- `linear_map_merge` from the start. -/
def linearMapMerge {V : Type} (lhs rhs : List (Int × V)) : Option (List (Int × V) × Bool) := mapMerge lhs (lhs.head?.map Prod.fst) rhs true

/-! ## Least rotation -/

/-- `ComparePermutationFunctor::operator()` from `index` on (shift_sorter.h:27-41). -/
def rotationLess (data : Nat → Int) (size lhs rhs : Nat) (index : Nat) : Bool :=
  if index < size then
    let l := data ((index + lhs) % size)
    let r := data ((index + rhs) % size)
    if l < r then true else if l > r then false else rotationLess data size lhs rhs (index + 1)
  else false
termination_by size - index

/-- The loop of `ShiftSorter::operator()` (shift_sorter.h:48-52). -/
def shiftLoop (data : Nat → Int) (size optimal alternative : Nat) : Nat :=
  if alternative < size then
    shiftLoop data size (if rotationLess data size alternative optimal 0 then alternative else optimal) (alternative + 1)
  else optimal
termination_by size - alternative

/-- `ShiftSorter::operator()` (shift_sorter.h:44-54). Simplified: `int_t` holds the size of the range (shift_sorter.h:28). -/
def shiftSorter (l : List Int) : Nat := shiftLoop (fun i => l.getD i 0) l.length 0 1

/-! ## Names -/

/-- `AlphabeticNamer::strlen` (alphabetic_namer.cpp:14-17), exact instead of floating point. -/
noncomputable def nameLength (id : Nat) : Nat := 1 + ⌊1 / Real.log 26 * Real.log (id * 25 / 26 + 1)⌋₊

/-- `AlphabeticNamer::level_offset` (alphabetic_namer.cpp:19-21), exact instead of floating point. -/
noncomputable def levelOffset (level : Nat) : Nat := (round ((26 * ((26 : ℝ) ^ level - 1)) / 25)).toNat

/-- The loop filling the string from the right (alphabetic_namer.cpp:36-40); letters are numbered from 0. -/
def nameLoop : Nat → Nat → List Nat → List Nat
  | 0, _, out => out
  | n + 1, beyond, out => nameLoop n (beyond / 26) (beyond % 26 :: out)

/-- `AlphabeticNamer::operator()` (alphabetic_namer.cpp:23-43); letters are numbered from 0. -/
noncomputable def alphabeticName (id : Nat) : List Nat :=
  if id < 26 then [id] else nameLoop (nameLength id) (id - levelOffset (nameLength id - 1)) []

/-! ## First common element -/

/-- `first_intersection_index` (first_intersection_index.h:31-49). -/
def firstIntersection {α : Type} (less : α → α → Bool) : List α → List α → Nat → Option Nat
  | a :: test, b :: m, i =>
    if less a b then firstIntersection less test (b :: m) i
    else if less b a then firstIntersection less (a :: test) m (i + 1)
    else some i
  | _, _, _ => none
termination_by test m => test.length + m.length

end Moment.Util
