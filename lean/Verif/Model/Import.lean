import Verif.Model.SymbolTable
import Verif.Model.Poly

/-! # Model of importing matrices
(cpp/lib_moment/scenarios/imported/imported_matrix_system.cpp)

Factors are exact complex numbers. A matrix is its dimension and a function from pairs of indices to monomials. Only the effect on the symbol
table is modelled, not the creation of the matrix object. -/

namespace Moment.Import

open Classical Moment.Symbols
open Moment.Poly (Mono)

/-- The bit sets `can_be_real` and `can_be_imaginary` (imported_matrix_system.cpp:152-155). -/
structure Bits where
  re : Nat → Bool
  im : Nat → Bool

/-- `can_be_real.unset(id)`. -/
def Bits.noRe (b : Bits) (id : Nat) : Bits := { b with re := fun k => if k = id then false else b.re k }

/-- `can_be_imaginary.unset(id)`. -/
def Bits.noIm (b : Bits) (id : Nat) : Bits := { b with im := fun k => if k = id then false else b.im k }

/-- The test for a mismatch of an element with its mirror image (imported_matrix_system.cpp:33, 69); equality of absolute values is
written as equality of their squares. -/
def mismatch (upper lower : Mono) : Prop := upper.id ≠ lower.id ∨ Complex.normSq upper.factor ≠ Complex.normSq lower.factor

/-- The body of the inner loop of `checkIMSymmetric` (imported_matrix_system.cpp:31-52); `none` is the exception. -/
noncomputable def symPair (upper lower : Mono) (b : Bits) : Option Bits :=
  if mismatch upper lower then none
  else if upper.conj = lower.conj then
    if upper.factor = lower.factor then some b else some ((b.noRe upper.id).noIm upper.id)
  else if upper.factor = lower.factor then some (b.noIm upper.id)
  else some (b.noRe upper.id)

/-- The body of the inner loop of `checkIMHermitian` (imported_matrix_system.cpp:65-93), for `can_be_complex`: `import_matrix` calls
it for complex matrices only, which it has rejected before in a real context. -/
noncomputable def hermPair (upper lower : Mono) (b : Bits) : Option Bits :=
  if mismatch upper lower then none
  else if ¬ (upper.conj ≠ lower.conj) then
    if upper.factor = lower.factor then some (b.noIm upper.id) else some (b.noRe upper.id)
  else if upper.factor = lower.factor then some b
  else some ((b.noRe upper.id).noIm upper.id)

/-- The inner loop over `j`, `m` elements left. -/
noncomputable def rowLoop (f : Mono → Mono → Bits → Option Bits) (M : Nat → Nat → Mono) (i : Nat) : Nat → Nat → Bits → Option Bits
  | _, 0, b => some b
  | j, m + 1, b => (f (M i j) (M j i) b).bind fun b => rowLoop f M i (j + 1) m b

/-- The outer loop of `checkIMSymmetric` (imported_matrix_system.cpp:24-55), `m` rows left. -/
noncomputable def symLoop (M : Nat → Nat → Mono) : Nat → Nat → Bits → Option Bits
  | _, 0, b => some b
  | i, m + 1, b => (rowLoop symPair M i (i + 1) m b).bind fun b => symLoop M (i + 1) m b

/-- The outer loop of `checkIMHermitian` (imported_matrix_system.cpp:57-96), `m` rows left. -/
noncomputable def hermLoop (M : Nat → Nat → Mono) : Nat → Nat → Bits → Option Bits
  | _, 0, b => some b
  | i, m + 1, b => (rowLoop hermPair M i (i + 1) m (b.noIm (M i i).id)).bind fun b => hermLoop M (i + 1) m b

/-- All elements of the matrix, in the order of `for (auto& symbol: *input)`; the order does not matter for any of the uses. -/
def elems (n : Nat) (M : Nat → Nat → Mono) : List Mono := (List.range n).flatMap fun i => (List.range n).map fun j => M i j

/-- `new_max_symbol_id` (imported_matrix_system.cpp:142-149). -/
def maxId (t : Table) (n : Nat) (M : Nat → Nat → Mono) : Nat := (elems n M).foldl (fun m x => if x.id > m then x.id else m) (t.syms.length - 1)

/-- What `import_matrix` did. -/
inductive Outcome
  /-- A complex matrix for a real context (imported_matrix_system.cpp:131-133). -/
  | notReal
  /-- An element does not match its mirror image. -/
  | mismatch
  /-- `zero_symbol`: the table is left as given. -/
  | zero (t : Table) (id : Nat)
  /-- Imported; the table after it. -/
  | done (t : Table)

/-- `ImportedMatrixSystem::import_matrix` (imported_matrix_system.cpp:125-208) up to the merge into the symbol table. -/
noncomputable def importMatrix (realOnly isComplex isHermitian : Bool) (t : Table) (n : Nat) (M : Nat → Nat → Mono) : Option Outcome :=
  if realOnly && isComplex then some .notReal
  else
    let size := maxId t n M + 1
    let b0 : Bits := ⟨fun _ => true, fun _ => !realOnly⟩
    let checked := if isHermitian then (if isComplex then hermLoop M 0 n b0 else symLoop M 0 n b0) else some b0
    match checked with
    | none => some .mismatch
    | some b =>
      let b := if isComplex || realOnly then b else (elems n M).foldl (fun b x => b.noIm x.id) b
      (t.mergeBits size b.re b.im).map fun
        | .done t _ => .done t
        | .thrown t id => .zero t id

end Moment.Import
