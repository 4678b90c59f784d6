import Verif.Model.OpSeq

/-! # Model of the simplifiers of Pauli words on chains and lattices that do not wrap
(cpp/lib_moment/scenarios/pauli/symmetry/moment_simplifier_no_wrapping.{h,cpp}, moment_simplifier.cpp)

Operators are natural numbers: contexts hold fewer than 2¹⁵ operators (pauli_context.cpp:67-69), so that nothing overflows. Subtraction of a number
greater than an operator gives 0 in the model; words in normal form do not lead there. A lattice holds qubit `col * h + row` in row `row` and
column `col`. -/

namespace Moment.Translate

/-! ## Chains -/

/-- `chain_minimum` (moment_simplifier_no_wrapping.h:37-39). -/
def chainMinimum (w : List Nat) : Nat := match w with
  | [] => 0
  | o :: _ => o / 3

/-- `MomentSimplifierNoWrappingChain::canonical_sequence` (moment_simplifier_no_wrapping.cpp:36-55). -/
def chainCanonical (w : List Nat) : List Nat :=
  if 3 * chainMinimum w = 0 then w else w.map fun o => o - 3 * chainMinimum w

/-- `MomentSimplifierNoWrappingChain::is_canonical` (moment_simplifier_no_wrapping.h:32-34). -/
def chainIsCanonical (w : List Nat) : Bool := match w with
  | [] => true
  | o :: _ => decide (o ≤ 2)

/-- `chain_supremum` of a word (moment_simplifier_no_wrapping.h:46-48). -/
def chainSupremum (w : List Nat) : Nat := match w.getLast? with
  | none => 0
  | some o => o / 3 + 1

/-- `chain_supremum` of a raw polynomial (moment_simplifier_no_wrapping.cpp:58-66), on its words. -/
def chainSupremumAll (l : List (List Nat)) : Nat := l.foldl (fun m w => match w.getLast? with
  | none => m
  | some o => max m (1 + o / 3)) 0

/-- `do_chain_offset` (moment_simplifier_no_wrapping.cpp:18-29). Negative results are 0 in the model. -/
def chainOffset (w : List Nat) (d : Int) : List Nat := w.map fun (o : Nat) => ((o : Int) + 3 * d).toNat

/-- `MomentSimplifierNoWrappingChain::lattice_offset` (moment_simplifier_no_wrapping.cpp:73-77) on a chain of `n` qubits. -/
def chainLatticeOffset (n : Nat) (w : List Nat) (row col : Int) : List Nat := chainOffset w (col * n + row)

/-! ## Lattices -/

/-- The scan for the minimum row (moment_simplifier_no_wrapping.cpp:142-146). -/
def minRow (h : Nat) (o : Nat) (w : List Nat) : Nat := w.foldl (fun m o => min m (o / 3 % h)) (o / 3 % h)

/-- `lattice_minimum` (moment_simplifier_no_wrapping.cpp:129-146): row and column. -/
def latticeMinimum (h : Nat) (w : List Nat) : Nat × Nat := match w with
  | [] => (0, 0)
  | o :: w => (minRow h o w, o / (h * 3))

/-- `MomentSimplifierNoWrappingLattice::canonical_sequence` (moment_simplifier_no_wrapping.cpp:88-110). -/
def latticeCanonical (h : Nat) (w : List Nat) : List Nat :=
  let m := latticeMinimum h w
  if m.1 = 0 ∧ m.2 = 0 then w else w.map fun o => o - (m.2 * (h * 3) + m.1 * 3)

/-- `MomentSimplifierNoWrappingLattice::is_canonical` (moment_simplifier_no_wrapping.cpp:112-127). -/
def latticeIsCanonical (h : Nat) (w : List Nat) : Bool := match w with
  | [] => true
  | o :: _ => if o / (h * 3) > 0 then false else w.any fun o => decide (o / 3 % h = 0)

/-- `lattice_supremum` of a list of sites (moment_simplifier_no_wrapping.cpp:167-184): rows and columns. -/
def siteSupremum (h : Nat) (s : List Nat) : Nat × Nat := match s with
  | [] => (0, 0)
  | q :: l => (l.foldl (fun m q => max m (q % h + 1)) (q % h + 1), 1 + (s.getLastD 0) / h)

/-- `lattice_supremum` of a word (moment_simplifier_no_wrapping.cpp:148-165). -/
def latticeSupremum (h : Nat) (w : List Nat) : Nat × Nat := match w with
  | [] => (0, 0)
  | o :: l => (l.foldl (fun m o => max m (1 + o / 3 % h)) (o / 3 % h + 1), 1 + (w.getLastD 0) / (h * 3))

/-- `lattice_supremum` of a raw polynomial (moment_simplifier_no_wrapping.cpp:186-194), on its words. -/
def latticeSupremumAll (h : Nat) (l : List (List Nat)) : Nat × Nat :=
  l.foldl (fun m w => (max m.1 (latticeSupremum h w).1, max m.2 (latticeSupremum h w).2)) (0, 0)

/-- `MomentSimplifierNoWrappingLattice::lattice_offset` (moment_simplifier_no_wrapping.cpp:201-205). -/
def latticeOffset (h : Nat) (w : List Nat) (row col : Int) : List Nat := chainOffset w (col * h + row)

/-! ## Operator sequences -/

/-- `MomentSimplifier::canonical_sequence(const OperatorSequence&)` (moment_simplifier.cpp:70-76), given that on words. -/
def canonicalSeq (c : Ctx) (f : List Nat → List Nat) (s : HSeq) : HSeq :=
  if s.isZero then HSeq.zero else ⟨HSeq.hashOps c (f s.ops), f s.ops, s.sign⟩

end Moment.Translate
