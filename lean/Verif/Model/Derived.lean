import Verif.Model.MatrixBasis
import Verif.Model.Substituted
import Verif.Model.SymmetryRep
import Verif.Model.DictionaryMap

/-! # Model of the maps from the symbols of one system to those of another
(cpp/lib_moment/scenarios/derived/map_core.cpp, lu_map_core_processor.cpp, symbol_table_map.cpp, derived_matrix_system.cpp,
scenarios/symmetrized/symmetrized_matrix_system.cpp)

Arithmetic is exact, as in `Model/Poly.lean`. Bit sets are the ascending lists of their elements. Where results are in `Option (Option _)`, the outer `none`
is undefined behaviour, and the inner one an exception; where they are in `Option _`, it is an exception. Sparse cores (`SparseMapCore`, which
`SymbolTableMap` never makes) and sparse solutions are left out. -/

namespace Moment.Derived

open Classical
open Moment.Symbols (Table)
open Moment.Poly (Mono)
open Moment.MatrixBasis (Mat makeMono makePoly polyTable)

/-- `Eigen::MatrixXd` -/
structure Dense where
  rows : Nat
  cols : Nat
  val : Nat → Nat → ℝ

/-- Access to an element; `none` if it is out of range. -/
noncomputable def Dense.get? (A : Dense) (i j : Nat) : Option ℝ := if i < A.rows ∧ j < A.cols then some (A.val i j) else none

/-- `Eigen::SparseMatrix<double>`: for each column, the stored rows and values, rows ascending. -/
structure Sparse where
  rows : Nat
  cols : Nat
  col : Nat → List (Nat × ℝ)

/-- `coeff` -/
noncomputable def Sparse.coeff (A : Sparse) (i j : Nat) : ℝ := ((A.col j).lookup i).getD 0

/-! ## Cores -/

/-- `DenseMapCore` (map_core.h:98-116, 152-155). -/
structure Core where
  initial : Nat
  cols : List Nat
  rows : List Nat
  constants : List (Nat × ℝ)
  offset : List ℝ
  core : Dense

/-- Not `col_has_any_non_constant` (map_core.cpp:48-58). -/
noncomputable def plainCol (R : Dense) (j : Nat) : Bool := (List.range' 1 (R.rows - 1)).all fun i => decide (R.val i j = 0)

/-- The columns after the first that are not skipped. -/
def kept (skip : Nat → Bool) (n : Nat) : List Nat := (List.range' 1 (n - 1)).filter fun j => !skip j

/-- `MapCore` and `DenseMapCore` from a dense matrix (map_core.cpp:24-36, 38-101, 239-265). -/
noncomputable def Core.ofDense (skip : Nat → Bool) (R : Dense) : Option Core :=
  if R.cols < 1 ∨ R.rows < 1 then none
  else if R.val 0 0 ≠ 1 ∨ plainCol R 0 = false then none
  else
    let cols := (kept skip R.cols).filter fun j => !plainCol R j
    let rows := (List.range' 1 (R.rows - 1)).filter fun i => cols.any fun j => decide (R.val i j ≠ 0)
    some { initial := R.cols, cols, rows
           constants := ((kept skip R.cols).filter fun j => plainCol R j).map fun j => (j, R.val 0 j)
           offset := cols.map fun j => R.val 0 j
           core := ⟨cols.length, rows.length, fun k l => R.val (rows.getD l 0) (cols.getD k 0)⟩ }

/-- Columns that `identify_nontrivial` takes for constants (map_core.cpp:122-135). -/
noncomputable def constCol (A : Sparse) (j : Nat) : Bool :=
  (A.col j).length == 0 || ((A.col j).length == 1 && decide (A.coeff 0 j > 0))

/-- The stored elements after that in the first row (map_core.cpp:297-302). -/
def rest : List (Nat × ℝ) → List (Nat × ℝ)
  | (0, _) :: l => l
  | l => l

/-- `MapCore` and `DenseMapCore` from a sparse matrix (map_core.cpp:24-36, 103-149, 268-305). -/
noncomputable def Core.ofSparse (skip : Nat → Bool) (A : Sparse) : Option Core :=
  if A.cols < 1 ∨ A.rows < 1 then none
  else if (A.col 0).length ≠ 1 ∨ A.coeff 0 0 ≠ 1 then none
  else
    let cols := (kept skip A.cols).filter fun j => !constCol A j
    let rows := (List.range' 1 (A.rows - 1)).filter fun i => cols.any fun j => (A.col j).any fun e => e.1 == i
    some { initial := A.cols, cols, rows
           constants := ((kept skip A.cols).filter fun j => constCol A j).map fun j => (j, if (A.col j).length = 0 then 0 else A.coeff 0 j)
           offset := cols.map fun j => match A.col j with
             | (0, x) :: _ => x
             | _ => 0
           core := ⟨cols.length, rows.length, fun k l => ((rest (A.col (cols.getD k 0))).lookup (rows.getD l 0)).getD 0⟩ }

/-! ## Solutions -/

/-- `SolvedMapCore` (map_core.h:28-68). -/
structure Solved where
  output : Nat
  dense : Bool
  map : Dense
  inv : Dense

/-- `do_check_solution` (map_core.cpp:164-236); false if it throws. -/
def Solved.fits (C : Core) (S : Solved) : Bool :=
  !S.dense || (C.core.rows == S.map.rows && S.map.cols == S.output && S.inv.rows == S.output && S.inv.cols == C.core.cols)

/-- `Eigen::FullPivLU`: the packed matrix, the rank, the position to which `permutationP()` brings each row, and that from which `permutationQ()` brings
each column. -/
structure LU where
  packed : Nat → Nat → ℝ
  rank : Nat
  rowTo : Nat → Nat
  colFrom : Nat → Nat

/-- The unit lower triangular part. -/
noncomputable def LU.lower (F : LU) (i j : Nat) : ℝ := if i = j then 1 else if j < i then F.packed i j else 0

/-- The upper triangular part. -/
noncomputable def LU.upper (F : LU) (i j : Nat) : ℝ := if i ≤ j then F.packed i j else 0

/-- `LUMapCoreProcessor::operator()` (lu_map_core_processor.cpp:18-48). -/
noncomputable def luSolve (C : Core) (F : LU) : Solved :=
  if C.core.cols = 0 ∨ C.core.rows = 0 then ⟨0, false, ⟨0, 0, fun _ _ => 0⟩, ⟨0, 0, fun _ _ => 0⟩⟩
  else ⟨F.rank, true, ⟨C.core.rows, F.rank, fun i j => F.lower (F.rowTo i) j⟩, ⟨F.rank, C.core.cols, fun i j => F.upper i (F.colFrom j)⟩⟩

/-! ## Maps -/

/-- `SymbolTableMap` (symbol_table_map.h:40-51). -/
structure STM where
  map : List (List Mono)
  inverse : List (List Mono)
  monomial : Bool

/-- `Polynomial::Scalar` (polynomial.h:370-372). -/
noncomputable def scalarPoly (x : ℝ) : List Mono := Poly.makeRaw Poly.byId [⟨1, false, x⟩]

/-- `map[id] = p`; writing out of range gives no result. -/
def assign (m : List (List Mono)) (id : Nat) (p : List Mono) : Option (List (List Mono)) := if id < m.length then some (m.set id p) else none

/-- The constants (symbol_table_map.cpp:103-113). `OSGIndex` does not throw for them, since `unzip_indices` has called it for every column. -/
noncomputable def writeConstants (osg : List (Nat × Bool)) : List (Nat × ℝ) → List (List Mono) → Option (List (List Mono))
  | [], m => some m
  | (j, x) :: l, m => (osg[j]?).bind fun s => (assign m s.1 (scalarPoly x)).bind fun m => writeConstants osg l m

/-- The polynomial of column `k` of the core (symbol_table_map.cpp:122-144). -/
noncomputable def forward (C : Core) (S : Solved) (k : Nat) : Option (List Mono) :=
  (C.offset[k]?).bind fun x => ((List.range S.map.cols).mapM fun c => (S.map.get? k c).map fun y => (c, y)).map fun l =>
    Poly.makeRaw Poly.byId ((if x = 0 then [] else [⟨1, false, x⟩]) ++ (l.filter fun e => decide (e.2 ≠ 0)).map fun e => ⟨e.1 + 2, false, (e.2 : ℂ)⟩)

/-- The loop over the columns of the core (symbol_table_map.cpp:118-145). -/
noncomputable def writeCore (osg : List (Nat × Bool)) (C : Core) (S : Solved) : Nat → List Nat → List (List Mono) → Option (List (List Mono))
  | _, [], m => some m
  | k, j :: l, m => (osg[j]?).bind fun s => (forward C S k).bind fun p => (assign m s.1 p).bind fun m => writeCore osg C S (k + 1) l m

/-- A polynomial of the inverse map (symbol_table_map.cpp:156-170). -/
noncomputable def backward (osg : List (Nat × Bool)) (C : Core) (S : Solved) (r : Nat) : Option (List Mono) :=
  (C.rows.zipIdx.mapM fun i => (S.inv.get? r i.2).bind fun x => if x = 0 then some [] else (osg[i.1]?).map fun s => [⟨s.1, s.2, (x : ℂ)⟩]).map fun l =>
    Poly.makeRaw Poly.byId l.flatten

/-- `construct_map` (symbol_table_map.cpp:95-172) for a table of `size` symbols. -/
noncomputable def construct (size : Nat) (osg : List (Nat × Bool)) (C : Core) (S : Solved) : Option (Option STM) :=
  if S.fits C = false then some none
  else (assign (List.replicate size []) 0 []).bind fun m => (assign m 1 (scalarPoly 1)).bind fun m => (writeConstants osg C.constants m).bind fun m =>
    (writeCore osg C S 0 C.cols m).bind fun m => ((List.range S.output).mapM (backward osg C S)).map fun l =>
      some ⟨m, [] :: scalarPoly 1 :: l, m.all fun p => decide (p.length ≤ 1)⟩

/-- `populate_target_symbols` (symbol_table_map.cpp:174-193) on a new table. -/
noncomputable def populate (t : Table) (l : List (List Mono)) : Table :=
  (l.drop 2).foldl (fun u p => (u.create true (!Poly.isHermitian (polyTable t) p)).1) Table.new

/-- `unzip_indices` (symbol_table_map.cpp:30-43); `none` if it throws. -/
def unzip (I : DictionaryMap.Index) (n : Nat) : Option (List (Nat × Bool)) := (List.range n).mapM I.get

/-- The columns that are skipped: conjugates. -/
def skipped (osg : List (Nat × Bool)) (j : Nat) : Bool := (osg[j]?).any Prod.snd

/-- The constructor from a dense matrix (symbol_table_map.cpp:70-80), with the map and the target table; `solve` is the processor. -/
noncomputable def ofDense (t : Table) (I : DictionaryMap.Index) (solve : Core → Solved) (R : Dense) : Option (Option (STM × Table)) :=
  match unzip I R.cols with
  | none => some none
  | some osg => match Core.ofDense (skipped osg) R with
    | none => some none
    | some C => (construct t.syms.length osg C (solve C)).map fun m => m.map fun m => (m, populate t m.inverse)

/-- The constructor from a sparse matrix (symbol_table_map.cpp:82-92). -/
noncomputable def ofSparse (t : Table) (I : DictionaryMap.Index) (solve : Core → Solved) (A : Sparse) : Option (Option (STM × Table)) :=
  match unzip I A.cols with
  | none => some none
  | some osg => match Core.ofSparse (skipped osg) A with
    | none => some none
    | some C => (construct t.syms.length osg C (solve C)).map fun m => m.map fun m => (m, populate t m.inverse)

/-! ## Application -/

/-- `operator()(const Monomial&)` (symbol_table_map.cpp:225-233), with the target table `u`; `none` if it throws. -/
noncomputable def STM.apply (M : STM) (u : Table) (m : Mono) : Option (List Mono) := (M.map[m.id]?).map fun p =>
  if m.conj then Poly.conjugate (polyTable u) (Poly.scale m.factor p) else Poly.scale m.factor p

/-- `operator()(const Polynomial&)` (symbol_table_map.cpp:236-244). -/
noncomputable def STM.applyPoly (M : STM) (u : Table) (p : List Mono) : Option (List Mono) := (p.mapM (M.apply u)).map fun l => Poly.makeRaw Poly.byId l.flatten

/-- `inverse(const Monomial&)` (symbol_table_map.cpp:282-293), with the table `t` of the origin. -/
noncomputable def STM.back (M : STM) (t : Table) (m : Mono) : Option (List Mono) := (M.inverse[m.id]?).map fun p =>
  if m.conj then Poly.conjugate (polyTable t) (Poly.scale m.factor p) else Poly.scale m.factor p

/-- Conversion to a monomial (polynomial.cpp:109-123). -/
def toMono : List Mono → Option Mono
  | [] => some ⟨0, false, 1⟩
  | [m] => some m
  | _ => none

/-- `do_create_transformed_matrix` (derived_matrix_system.cpp:42-78); `u` is the target table. -/
noncomputable def transform (M : STM) (u : Table) : Substituted.Matrix → Option (Option Substituted.Matrix)
  | .mono A => if M.monomial then
      match A.mat.data.mapM fun m => (M.apply u m).bind toMono with
      | none => some none
      | some d => (makeMono u A.hermitian ⟨A.mat.dim, d⟩).map fun B => some (.mono B)
    else match A.mat.data.mapM (M.apply u) with
      | none => some none
      | some d => (makePoly u ⟨A.mat.dim, d⟩).map fun B => some (.poly B)
  | .poly A => match A.mat.data.mapM (M.applyPoly u) with
      | none => some none
      | some d => (makePoly u ⟨A.mat.dim, d⟩).map fun B => some (.poly B)

/-! ## Symmetrized systems -/

/-- The sum of the elements of a representation, divided by their number (representation.cpp:37-40, symmetrized_matrix_system.cpp:38). -/
noncomputable def average (dim : Nat) (r : List SymRep.Entries) : Dense := ⟨dim, dim, fun i j => (r.map fun A => A i j).sum / r.length⟩

/-- `SymmetrizedSTMFactory::operator()` (symmetrized_matrix_system.cpp:27-42): table and index of the base system, group, length of words. `store` is how
Eigen stores the average. -/
noncomputable def symmetrized (e : Symbols.Env) (c : SymRep.Ctx) (size : Nat) (t : Table) (I : DictionaryMap.Index) (G : SymRep.Grp) (n : Nat)
    (store : Dense → Sparse) (solve : Core → Solved) : Option (Option (STM × Table)) :=
  (I.update e t c.words n).bind fun J => (G.create c size n).bind fun r => match r.2 with
    | none => some none
    | some l => ofSparse t J.1 solve (store (average (c.words n).length l))

end Moment.Derived
