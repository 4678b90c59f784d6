import Verif.Model.Fill
import Verif.Model.Translate
import Mathlib.Data.Complex.Basic

/-! # Model of the averages of polynomials over translations
(cpp/lib_moment/scenarios/pauli/symmetry/lattice_duplicator.cpp: `symmetrical_copy`; called by cpp/mex_functions/functions/lattice_symmetrize.cpp)

A term of a raw polynomial is a word and a weight: the constructor of terms moves the sign of the word to the weight (raw_polynomial.h:32-52). Hashes are left
out (they are a function of the word, see `HSeq.constructPresorted`); zero is not a word of a Pauli scenario. `none` is undefined behaviour of a shift. -/

namespace Moment.SymCopy

open Moment.SiteHash (Wide Hasher)
open Moment.Fill (Layout)

/-- `struct RawPolynomialElement` (raw_polynomial.h:27-59): word and weight. -/
abbrev Term := List Nat × ℂ

/-- The virtual function `chain_offset` (moment_simplifier.h:95-106) of the simplifier of the context: that of closed chains, or that of open chains. -/
def chainMove (wide : Wide) (H : Hasher) (L : Layout) (d : Nat) (w : List Nat) : Option (List Nat) :=
  if L.wrap then SiteHash.chainOffset wide H w d else some (Translate.chainOffset w d)

/-- The virtual function `lattice_offset` (moment_simplifier.h:112-126) of the simplifier of the context. -/
def latticeMove (wide : Wide) (H : Hasher) (L : Layout) (d : Nat × Nat) (w : List Nat) : Option (List Nat) :=
  if L.wrap then SiteHash.latticeOffset wide H w d.1 d.2 else some (Translate.latticeOffset L.height w d.1 d.2)

/-- The loop over the terms (lattice_duplicator.cpp:399-405 and 430-438): the term itself and its copies at the other offsets, with the new weight. -/
noncomputable def spread {σ : Type} (move : σ → List Nat → Option (List Nat)) (offsets : List σ) (prefactor : ℝ) (input : List Term) : Option (List Term) :=
  (input.mapM fun t => (offsets.mapM fun d => move d t.1).map fun l =>
    (t.1, t.2 * (prefactor : ℂ)) :: l.map fun v => (v, t.2 * (prefactor : ℂ))).map List.flatten

/-- `get_max_chain_offset` (lattice_duplicator.cpp:385-391). -/
def chainCount (L : Layout) (input : List Term) : Nat :=
  if L.wrap then L.qubits else 1 + L.qubits - Translate.chainSupremumAll (input.map fun t => t.1)

/-- `do_apply_symmetry_chain` (lattice_duplicator.cpp:393-408). -/
noncomputable def applyChain (wide : Wide) (H : Hasher) (L : Layout) (input : List Term) : Option (List Term) :=
  spread (chainMove wide H L) (List.range' 1 (chainCount L input - 1)) (1 / (chainCount L input : ℝ)) input

/-- `get_max_lattice_offset` (lattice_duplicator.cpp:410-420): numbers of rows and columns. -/
def latticeCount (L : Layout) (input : List Term) : Nat × Nat :=
  if L.wrap then (L.height, L.width)
  else (1 + L.height - (Translate.latticeSupremumAll L.height (input.map fun t => t.1)).1,
    1 + L.width - (Translate.latticeSupremumAll L.height (input.map fun t => t.1)).2)

/-- The loops over columns and rows (lattice_duplicator.cpp:433-434). -/
def otherOffsets (c : Nat × Nat) : List (Nat × Nat) :=
  (List.range c.2).flatMap fun col => (List.range' (if col = 0 then 1 else 0) (c.1 - (if col = 0 then 1 else 0))).map fun row => (row, col)

/-- `do_apply_symmetry_lattice` (lattice_duplicator.cpp:422-441). -/
noncomputable def applyLattice (wide : Wide) (H : Hasher) (L : Layout) (input : List Term) : Option (List Term) :=
  spread (latticeMove wide H L) (otherOffsets (latticeCount L input)) (1 / (((latticeCount L input).1 * (latticeCount L input).2 : Nat) : ℝ)) input

/-- `RawPolynomial::is_scalar` (raw_polynomial.cpp:57-67). -/
def isScalar (input : List Term) : Bool := input.all fun t => t.1.isEmpty

/-- `symmetrical_copy` (lattice_duplicator.cpp:445-464). -/
noncomputable def symmetricalCopy (wide : Wide) (H : Hasher) (L : Layout) (input : List Term) : Option (List Term) :=
  if L.symmetric = false ∨ isScalar input then some input
  else if L.lattice then applyLattice wide H L input
  else applyChain wide H L input

end Moment.SymCopy
