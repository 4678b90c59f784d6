import Verif.Model.RawPoly

/-! # Model of matrices of numbers
(cpp/lib_moment/matrix/value_matrix.{h,cpp}, utilities/eigen_utils.{h,cpp})

Arithmetic is exact, so that approximate tests are tests for equality. Matrices of real numbers are modelled as matrices of complex numbers without
imaginary parts: for these, the tests for real and for complex matrices agree. -/

namespace Moment.ValueMatrix

open Classical
open Moment.Symbols (Table Env)
open Moment.Poly (Mono)
open Moment.MatrixBasis (Mat SymMat makeMono makePoly)
open Moment.SymbolMatrix (Host MonoMat AnyMat Out zeroMatrix scalar)
open Moment.RawPoly (Raw isScalar register)

/-- `Eigen::MatrixXd` and `Eigen::MatrixXcd`: column by column. -/
structure Dense where
  rows : Nat
  cols : Nat
  data : List ℂ

/-- `coeff`. -/
noncomputable def Dense.coeff (D : Dense) (i j : Nat) : ℂ := (D.data[i + j * D.rows]?).getD 0

/-- `Eigen::SparseMatrix`: row, column and value of the stored entries. -/
structure Sparse where
  rows : Nat
  cols : Nat
  entries : List (Nat × Nat × ℂ)

/-- `coeff`. -/
noncomputable def Sparse.coeff (D : Sparse) (i j : Nat) : ℂ := ((D.entries.find? fun e => e.1 = i ∧ e.2.1 = j).map fun e => e.2.2).getD 0

/-! ## Tests (eigen_utils.cpp) -/

/-- `is_zero` (eigen_utils.cpp:14-30). -/
noncomputable def Dense.isZero (D : Dense) : Bool := D.data.all fun x => x = 0

/-- `is_zero` (eigen_utils.cpp:32-38). -/
def Sparse.isZero (D : Sparse) : Bool := D.entries.isEmpty

/-- `is_hermitian` (eigen_utils.cpp:40-71). -/
noncomputable def Dense.isHerm (D : Dense) : Bool := decide (D.rows = D.cols) && (List.range D.cols).all fun col =>
  decide ((D.coeff col col).im = 0) &&
    (List.range' (col + 1) (D.rows - (col + 1))).all fun row => decide ((starRingEnd ℂ) (D.coeff row col) = D.coeff col row)

/-- `is_antihermitian` (eigen_utils.cpp:117-133). -/
noncomputable def Dense.isAnti (D : Dense) : Bool := decide (D.rows = D.cols) && (List.range D.cols).all fun col =>
  decide ((D.coeff col col).re = 0) &&
    (List.range' (col + 1) (D.rows - (col + 1))).all fun row => decide (-(starRingEnd ℂ) (D.coeff row col) = D.coeff col row)

/-- `is_hermitian` (eigen_utils.cpp:73-115). -/
noncomputable def Sparse.isHerm (D : Sparse) : Bool := decide (D.rows = D.cols) && D.entries.all fun e =>
  if e.1 = e.2.1 then decide (e.2.2.im = 0) else if e.2.1 < e.1 then decide ((starRingEnd ℂ) (D.coeff e.2.1 e.1) = e.2.2) else true

/-- `is_antihermitian` (eigen_utils.cpp:135-157). -/
noncomputable def Sparse.isAnti (D : Sparse) : Bool := decide (D.rows = D.cols) && D.entries.all fun e =>
  if e.1 = e.2.1 then decide (e.2.2.re = 0) else if e.2.1 < e.1 then decide (-(starRingEnd ℂ) (D.coeff e.2.1 e.1) = e.2.2) else true

/-! ## Construction -/

/-- `to_monomial_matrix` (value_matrix.cpp:28-50); `none` is the exception. -/
noncomputable def Dense.monos (D : Dense) : Option (Mat Mono) :=
  if D.rows ≠ D.cols then none else some ⟨D.rows, D.data.map fun x => if x ≠ 0 then ⟨1, false, x⟩ else ⟨0, false, 0⟩⟩

/-- `to_monomial_matrix` (value_matrix.cpp:53-74). -/
noncomputable def Sparse.monos (D : Sparse) : Option (Mat Mono) :=
  if D.rows ≠ D.cols then none else some ⟨D.rows, D.entries.foldl (fun d e => d.set (e.2.1 * D.rows + e.1) ⟨1, false, e.2.2⟩)
    (List.replicate (D.rows * D.cols) ⟨0, false, 0⟩)⟩

/-- `class ValueMatrix` (value_matrix.h:21-65). -/
structure ValMat where
  sym : SymMat Mono
  anti : Bool

/-- The flag `antihermitian` (value_matrix.cpp:90-92, 108-114, 131-133, 150-156). -/
def antiFlag (real herm zero anti : Bool) : Bool := if real || herm then zero else anti

/-- The constructors from dense matrices (value_matrix.cpp:78-116); `none` is undefined behaviour, `some none` the exception. -/
noncomputable def ofDense (t : Table) (real : Bool) (D : Dense) : Option (Option ValMat) := match D.monos with
  | none => some none
  | some A => (makeMono t D.isHerm A).map fun S => some ⟨S, antiFlag real D.isHerm D.isZero D.isAnti⟩

/-- The constructors from sparse matrices (value_matrix.cpp:119-157). -/
noncomputable def ofSparse (t : Table) (real : Bool) (D : Sparse) : Option (Option ValMat) := match D.monos with
  | none => some none
  | some A => (makeMono t D.isHerm A).map fun S => some ⟨S, antiFlag real D.isHerm D.isZero D.isAnti⟩

/-! ## Multiplication -/

/-- `monomialize` (value_matrix.cpp:160-179). -/
noncomputable def monomialize (c : Env) (t : Table) (w : HSeq) (f : ℂ) : Option (Table × Mono) :=
  let g := if w.sign = .pos then f else f * scalar w.sign
  let w := { w with sign := .pos }
  match (t.lookup c w).1 with
  | some k => some (t, ⟨k.1, k.2, g⟩)
  | none => (t.mergeSeq c w).map fun m => (m.1, ⟨m.2.1, false, g⟩)

/-- `OperatorSequence::hermitian_type` (operator_sequence.cpp:67-88). -/
def hermType (c : Env) (w : HSeq) : HSeq.HermType :=
  if w.ops.isEmpty then
    if w.isZero then .zero
    else if w.sign.isImaginary then .antiHermitian else .hermitian
  else
    let csm := HSeq.compareSameNegation w (c.conj w)
    if csm = 1 then .hermitian else if csm = -1 then .antiHermitian else .notHermitian

/-- The flag of the product (value_matrix.cpp:208-218). -/
def productFlag (c : Env) (A : ValMat) (w : HSeq) : Bool :=
  if A.sym.hermitian then hermType c w = .hermitian
  else if A.anti then hermType c w = .antiHermitian
  else false

/-- `ValueMatrix::pre_multiply(const OperatorSequence&, ...)` and `post_multiply` (value_matrix.cpp:182-233). -/
noncomputable def timesWord (h : Host) (t : Table) (w : HSeq) (f : ℂ) (A : ValMat) : Out MonoMat :=
  if f = 0 ∨ w.isZero = true then (zeroMatrix h t A.sym.mat.dim).map fun M => (t, some M)
  else (monomialize h.env t w f).bind fun r =>
    (makeMono r.1 (productFlag h.env A w) ⟨A.sym.mat.dim, A.sym.mat.data.map fun x =>
      if r.2.factor * x.factor ≠ 0 then ⟨r.2.id, r.2.conj, r.2.factor * x.factor⟩ else ⟨0, false, 0⟩⟩).map fun S => (r.1, some ⟨none, none, S, 1⟩)

/-- `ValueMatrix::pre_multiply(const RawPolynomial&, ...)` and `post_multiply` (value_matrix.cpp:235-278). -/
noncomputable def timesRaw (h : Host) (t : Table) (o : Poly.Order) (p : Raw) (A : ValMat) : Out AnyMat := match p with
  | [] => (zeroMatrix h t A.sym.mat.dim).map fun M => (t, some (.mono M))
  | [e] => (timesWord h t e.1 e.2 A).map fun r => (r.1, r.2.map .mono)
  | p =>
    if isScalar p then
      (timesWord h t (HSeq.identity .pos) (p.foldl (fun s e => s + e.2) 0) A).map fun r => (r.1, r.2.map .mono)
    else (register h.env t o p).bind fun q =>
      (makePoly q.1 ⟨A.sym.mat.dim, A.sym.mat.data.map fun x => Poly.scale x.factor q.2⟩).map fun B => (q.1, some (.poly B))

end Moment.ValueMatrix
