import Verif.Model.Basis
import Verif.Model.Triangle
import Verif.Model.Locality

/-! # Model of basis matrices
(cpp/lib_moment/matrix/monomial_matrix_basis.cpp, polynomial_matrix_basis.cpp, matrix_basis.{h,cpp}, and the constructors in monomial_matrix.cpp and
polynomial_matrix.cpp)

Arithmetic is exact. A dense Eigen matrix is a function of row and column, writes to it are checked against the dimension. A sparse matrix is the
list of its stored entries (row, column, value), column by column. `none` stands for reading or writing out of range. The vectors of real and of
imaginary basis matrices are separate objects, so the model lists the writes to each of them separately, each in the order of the code. -/

namespace Moment.MatrixBasis

open Classical
open Moment.Symbols (Sym Table)
open Moment.Poly (Mono)

/-- `SquareMatrix` (square_matrix.h:343-347): dimension and data, column by column. -/
structure Mat (α : Type) where
  dim : Nat
  data : List α

/-- `SquareMatrix::operator()`: the data at the offset row + column · dimension. -/
def Mat.get? {α : Type} (A : Mat α) (i j : Nat) : Option α := A.data[i + j * A.dim]?

/-- What the basis functions read from a `SymbolicMatrix` (symbolic_matrix.h:95-125): the entries, `Hermitian()`, `HasComplexCoefficients()` and
`HasComplexBasis()`. -/
structure SymMat (α : Type) where
  mat : Mat α
  hermitian : Bool
  complexCoefs : Bool
  complexBasis : Bool

/-! ## Constructors -/

/-- The conjugation part of `MonomialMatrix::renumerate_bases` (monomial_matrix.cpp:76-85). -/
def plainMono (t : Table) (m : Mono) : Option Mono :=
  if m.conj then (t.syms[m.id]?).map fun s =>
    if s.herm then ⟨m.id, false, m.factor⟩ else if s.anti then ⟨m.id, false, m.factor * (-1)⟩ else m
  else some m

/-- The zero part of `MonomialMatrix::renumerate_bases` (monomial_matrix.cpp:86-91). -/
noncomputable def dropZero (m : Mono) : Mono := if m.factor = 0 then ⟨0, false, 0⟩ else m

/-- `MonomialMatrix::MonomialMatrix` with `renumerate_bases` and `identify_symbols_and_basis_indices` (monomial_matrix.cpp:25-42, 74-128). -/
noncomputable def makeMono (t : Table) (herm : Bool) (A : Mat Mono) : Option (SymMat Mono) :=
  (A.data.mapM (plainMono t)).bind fun d =>
    let d := d.map dropZero
    (d.mapM fun m => t.syms[m.id]?).map fun s => ⟨⟨A.dim, d⟩, herm, d.any fun m => m.factor.im ≠ 0, s.any fun s => s.im.isSome⟩

/-- What polynomials read from the symbol table: `Symbol::is_hermitian` and `Symbol::is_antihermitian` (symbol.h:98-103). -/
def polyTable (t : Table) : Poly.Table := ⟨fun i => (t.syms[i]?).any Sym.herm, fun i => (t.syms[i]?).any Sym.anti⟩

/-- `test_hermicity` (polynomial_matrix.cpp:22-41). -/
noncomputable def testHermicity (t : Table) (A : Mat (List Mono)) : Bool := (List.range A.dim).all fun row =>
  (A.get? row row).any (Poly.isHermitian (polyTable t)) &&
    (List.range' (row + 1) (A.dim - (row + 1))).all fun col =>
      (A.get? row col).any fun u => (A.get? col row).any fun l => Poly.isConjugate (polyTable t) u l

/-- `PolynomialMatrix::PolynomialMatrix` with `identify_symbols_and_basis_indices` (polynomial_matrix.cpp:112-127, 158-193). -/
noncomputable def makePoly (t : Table) (A : Mat (List Mono)) : Option (SymMat (List Mono)) :=
  (A.data.mapM (BasisVec.maskBits t)).map fun masks =>
    ⟨A, testHermicity t A, A.data.any fun p => p.any fun m => m.factor.im ≠ 0, masks.any fun m => !m.2.isEmpty⟩

/-! ## The entries that are visited -/

/-- The loop over `UpperTriangle()` (monomial_matrix_basis.cpp:40-43, 144-147): row, column and offset. -/
noncomputable def visitUpper (n : Nat) : List ((Nat × Nat) × Nat) :=
  Locality.collect (Triangle.next true true n) (Triangle.atEnd true true n) Triangle.value (Triangle.first true true n)

/-- The loop over all entries (monomial_matrix_basis.cpp:75-76, 182-183). -/
def visitAll (n : Nat) : List ((Nat × Nat) × Nat) := ((List.range n).flatMap fun c => (List.range n).map fun r => (r, c)).zipIdx

/-- The loop of polynomial matrices (polynomial_matrix_basis.cpp:38-40, 119-121). -/
def visitPoly (sym : Bool) (n : Nat) : List ((Nat × Nat) × Nat) :=
  (List.range n).flatMap fun c => (List.range' (if sym then c else 0) (n - if sym then c else 0)).map fun r => ((r, c), c * n + r)

/-- The entries that are read; `terms` lists the terms of an entry. -/
def entries {α : Type} (terms : α → List Mono) (A : Mat α) (visit : List ((Nat × Nat) × Nat)) : Option (List ((Nat × Nat) × List Mono)) :=
  visit.mapM fun v => (A.data[v.2]?).map fun x => (v.1, terms x)

/-! ## The writes -/

/-- Element of the basis, row, column and value. -/
abbrev Write (K : Type) := Nat × Nat × Nat × K

/-- Writes for the real part of a symbol (monomial_matrix_basis.cpp:47-54, 81-84, 155-163, 188-191; polynomial_matrix_basis.cpp:58-66, 133-142). `cx`
is `get_re_factor`. -/
noncomputable def reWrites {K : Type} (cx : ℂ → K) (sym : Bool) (s : Sym) (m : Mono) (i j : Nat) : List (Write K) := match s.re with
  | some k => (k, i, j, cx m.factor) :: if sym ∧ i ≠ j then [(k, j, i, cx ((starRingEnd ℂ) m.factor))] else []
  | none => []

/-- Writes for the imaginary part of a symbol (monomial_matrix_basis.cpp:56-69, 86-93, 165-177, 193-200; polynomial_matrix_basis.cpp:68-81,
144-158). -/
noncomputable def imWrites (sym : Bool) (s : Sym) (m : Mono) (i j : Nat) : List (Write ℂ) := match s.im with
  | some k => (k, i, j, (if m.conj then -Complex.I else Complex.I) * m.factor) ::
      if sym ∧ i ≠ j then [(k, j, i, (if m.conj then Complex.I else -Complex.I) * (starRingEnd ℂ) m.factor)] else []
  | none => []

/-- All writes of the loops, in order. -/
def writes {K : Type} (t : Table) (f : Sym → Mono → Nat → Nat → List (Write K)) (es : List ((Nat × Nat) × List Mono)) : Option (List (Write K)) :=
  (es.mapM fun (e : (Nat × Nat) × List Mono) =>
    (e.2.mapM fun (m : Mono) => (t.syms[m.id]?).map fun s => f s m e.1.1 e.1.2).map List.flatten).map List.flatten

/-- A vector of dense matrices. -/
abbrev Dense (K : Type) := List (Nat → Nat → K)

/-- `assign(count, Zero(dim, dim))` (monomial_matrix_basis.cpp:108-111; polynomial_matrix_basis.cpp:96-97). -/
def zeros {K : Type} [Zero K] (count : Nat) : Dense K := List.replicate count fun _ _ => 0

/-- `store[k](i, j) = x`. -/
def setAt {K : Type} (n : Nat) (w : Write K) (st : Dense K) : Option (Dense K) :=
  if w.1 < st.length ∧ w.2.1 < n ∧ w.2.2.1 < n then
    some (st.modify w.1 fun M r c => if r = w.2.1 ∧ c = w.2.2.1 then w.2.2.2 else M r c)
  else none

/-- `store[k](i, j) += x`. -/
def addAt {K : Type} [Add K] (n : Nat) (w : Write K) (st : Dense K) : Option (Dense K) :=
  if w.1 < st.length ∧ w.2.1 < n ∧ w.2.2.1 < n then
    some (st.modify w.1 fun M r c => if r = w.2.1 ∧ c = w.2.2.1 then M r c + w.2.2.2 else M r c)
  else none

/-- `frame[k].emplace_back(i, j, x)`. -/
def pushAt {K : Type} (n : Nat) (w : Write K) (st : List (List (Nat × Nat × K))) : Option (List (List (Nat × Nat × K))) :=
  if w.1 < st.length ∧ w.2.1 < n ∧ w.2.2.1 < n then some (st.modify w.1 fun T => T ++ [(w.2.1, w.2.2.1, w.2.2.2)]) else none

/-- A run of writes. -/
def run {S K : Type} (f : Write K → S → Option S) : List (Write K) → S → Option S
  | [], st => some st
  | w :: l, st => (f w st).bind (run f l)

/-- The sum of all triplets of one place. -/
noncomputable def sumAt {K : Type} [AddCommMonoid K] (T : List (Nat × Nat × K)) (i j : Nat) : K :=
  ((T.filter fun e => e.1 = i ∧ e.2.1 = j).map fun e => e.2.2).sum

/-- `setFromTriplets`: one stored entry for each place that occurs. -/
noncomputable def fromTriplets {K : Type} [AddCommMonoid K] (n m : Nat) (T : List (Nat × Nat × K)) : List (Nat × Nat × K) :=
  (List.range m).flatMap fun j => ((List.range n).filter fun i => ∃ e ∈ T, e.1 = i ∧ e.2.1 = j).map fun i => (i, j, sumAt T i j)

/-! ## Creation -/

/-- `do_create_dense_basis` (monomial_matrix_basis.cpp:31-130). -/
noncomputable def denseMono {K : Type} [Zero K] (t : Table) (cx : ℂ → K) (A : SymMat Mono) : Option (Dense K × Dense ℂ) :=
  (entries (fun m => [m]) A.mat (if A.hermitian then visitUpper A.mat.dim else visitAll A.mat.dim)).bind fun es =>
    (writes t (reWrites cx A.hermitian) es).bind fun re =>
      (if A.complexBasis then writes t (imWrites A.hermitian) es else some []).bind fun im =>
        (run (setAt A.mat.dim) re (zeros t.basis.real.length)).bind fun R =>
          (run (setAt A.mat.dim) im (zeros t.basis.imag.length)).map fun I => (R, I)

/-- `do_create_dense_matrix` (polynomial_matrix_basis.cpp:42-116). -/
noncomputable def densePoly {K : Type} [Zero K] [Add K] (t : Table) (cx : ℂ → K) (A : SymMat (List Mono)) : Option (Dense K × Dense ℂ) :=
  (entries id A.mat (visitPoly A.hermitian A.mat.dim)).bind fun es =>
    (writes t (reWrites cx A.hermitian) es).bind fun re =>
      (if A.complexBasis then writes t (imWrites A.hermitian) es else some []).bind fun im =>
        (run (addAt A.mat.dim) re (zeros t.basis.real.length)).bind fun R =>
          (run (addAt A.mat.dim) im (zeros t.basis.imag.length)).map fun I => (R, I)

/-- The frames and the matrices made from them (monomial_matrix_basis.cpp:208-262; polynomial_matrix_basis.cpp:164-217). When the basis is not complex
the imaginary matrices are empty, as are the frames. -/
noncomputable def sparse {K : Type} [AddCommMonoid K] (t : Table) (cx : ℂ → K) (n : Nat) (sym complex : Bool) (es : List ((Nat × Nat) × List Mono)) :
    Option (List (List (Nat × Nat × K)) × List (List (Nat × Nat × ℂ))) :=
  (writes t (reWrites cx sym) es).bind fun re =>
    (if complex then writes t (imWrites sym) es else some []).bind fun im =>
      (run (pushAt n) re (List.replicate t.basis.real.length [])).bind fun R =>
        (run (pushAt n) im (List.replicate t.basis.imag.length [])).map fun I =>
          (R.map (fromTriplets n n), I.map (fromTriplets n n))

/-- `do_create_sparse_basis` for monomial matrices (monomial_matrix_basis.cpp:135-262). -/
noncomputable def sparseMono {K : Type} [AddCommMonoid K] (t : Table) (cx : ℂ → K) (A : SymMat Mono) :
    Option (List (List (Nat × Nat × K)) × List (List (Nat × Nat × ℂ))) :=
  (entries (fun m => [m]) A.mat (if A.hermitian then visitUpper A.mat.dim else visitAll A.mat.dim)).bind
    (sparse t cx A.mat.dim A.hermitian A.complexBasis)

/-- `do_create_sparse_basis` for polynomial matrices (polynomial_matrix_basis.cpp:118-217). -/
noncomputable def sparsePoly {K : Type} [AddCommMonoid K] (t : Table) (cx : ℂ → K) (A : SymMat (List Mono)) :
    Option (List (List (Nat × Nat × K)) × List (List (Nat × Nat × ℂ))) :=
  (entries id A.mat (visitPoly A.hermitian A.mat.dim)).bind (sparse t cx A.mat.dim A.hermitian A.complexBasis)

/-! ## Exceptions -/

/-- The result of asking for a basis. -/
inductive Made (β : Type)
  | badBasis
  | undefined
  | made (x : β)

/-- What the model of a creation function becomes as a result. -/
def Made.of {β : Type} : Option β → Made β
  | some x => .made x
  | none => .undefined

/-- `create_dense` and `create_sparse` (matrix_basis.cpp:161-173): the functions for real coefficients throw `bad_basis_error` when there are complex
ones. -/
def guarded {α β : Type} (A : SymMat α) (r : Option β) : Made β := if A.complexCoefs then .badBasis else .of r

/-! ## Monolithic matrices -/

/-- `do_infer_dense_monolithic` (matrix_basis.cpp:50-85): each matrix becomes a row; `reshaped()` reads column by column. -/
def denseMonolithic {K : Type} [Zero K] (n : Nat) (st : Dense K) (k c : Nat) : K := match st[k]? with
  | some M => M (c % n) (c / n)
  | none => 0

/-- The triplets of `do_infer_sparse_monolithic` (matrix_basis.cpp:101-113, 130-143). -/
def flatTriplets {K : Type} (n : Nat) (st : List (List (Nat × Nat × K))) : List (Nat × Nat × K) :=
  (st.zipIdx.map fun q => q.1.map fun e => (q.2, e.2.1 * n + e.1, e.2.2)).flatten

/-- `do_infer_sparse_monolithic` (matrix_basis.cpp:88-153). -/
noncomputable def sparseMonolithic {K : Type} [AddCommMonoid K] (n : Nat) (st : List (List (Nat × Nat × K))) : List (Nat × Nat × K) :=
  fromTriplets st.length (n * n) (flatTriplets n st)

/-! ## Cache -/

/-- `MatrixBasisImpl::operator()` (matrix_basis.h:58-77): what is stored is returned for ever; else it is made. -/
def cached {β : Type} (stored : Option β) (fresh : Made β) : Made β × Option β := match stored with
  | some x => (.made x, some x)
  | none => match fresh with
    | .made x => (.made x, some x)
    | r => (r, none)

end Moment.MatrixBasis
