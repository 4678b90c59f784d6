import Verif.Model.MatrixBasis

/-! # Model of sums of matrices of symbols
(cpp/lib_moment/matrix/composite_matrix.{h,cpp}, symbolic_matrix.cpp, monomial_matrix_arithmetic.cpp, polynomial_matrix_arithmetic.cpp)

Arithmetic is exact. A matrix always holds dimension² entries; reading out of range gives no terms in the model. The result `none` is undefined
behaviour, `some none` an exception. -/

namespace Moment.MatrixSum

open Classical
open Moment.Symbols (Table)
open Moment.Poly (Mono)
open Moment.MatrixBasis (Mat SymMat makePoly polyTable)

/-- The entries of a `MonomialMatrix` or of a `PolynomialMatrix`. -/
inductive Part
  | mono (A : Mat Mono)
  | poly (A : Mat (List Mono))

/-- `SymbolicMatrix::Dimension`. -/
def Part.dim : Part → Nat
  | .mono A => A.dim
  | .poly A => A.dim

/-- `ConstituentInfo` (composite_matrix.h:40-130): dimension and weighted matrices. -/
structure Parts where
  dim : Nat
  elements : List (Part × ℂ)

/-- `make_rescaled_matrix` with `scale_element` (composite_matrix.cpp:22-56). -/
noncomputable def rescaled (t : Table) : Part → ℂ → Mat (List Mono)
  | .mono A, f => ⟨A.dim, (A.data.map fun m => Poly.ofMono ⟨m.id, m.conj, m.factor * f⟩).map (Poly.fixCanonical (polyTable t))⟩
  | .poly A, f => ⟨A.dim, (A.data.map fun p => Poly.scale f p).map (Poly.fixCanonical (polyTable t))⟩

/-- The terms that the matrices of monomials contribute to an entry (composite_matrix.cpp:101-106). -/
noncomputable def monoTerms (l : List (Part × ℂ)) (k : Nat) : List Mono := l.flatMap fun
  | (.mono A, f) => (A.data[k]?).elim [] fun m => [⟨m.id, m.conj, m.factor * f⟩]
  | (.poly _, _) => []

/-- The terms that the matrices of polynomials contribute to an entry (composite_matrix.cpp:109-115). -/
noncomputable def polyTerms (l : List (Part × ℂ)) (k : Nat) : List Mono := l.flatMap fun
  | (.mono _, _) => []
  | (.poly A, f) => (A.data[k]?).elim [] fun p => p.map fun m => ⟨m.id, m.conj, m.factor * f⟩

/-- `make_summed_matrix` (composite_matrix.cpp:59-126). -/
noncomputable def summed (t : Table) (o : Poly.Order) (c : Parts) : Option (Mat (List Mono)) :=
  if c.elements.all fun p => decide (c.dim = p.1.dim) then
    some ⟨c.dim, (List.range (c.dim * c.dim)).map fun k => Poly.make (polyTable t) o (monoTerms c.elements k ++ polyTerms c.elements k)⟩
  else none

/-- `compile_to_polynomial_matrix_data` (composite_matrix.cpp:137-160); `none` is the exception. -/
noncomputable def compile (t : Table) (o : Poly.Order) (c : Parts) : Option (Mat (List Mono)) := match c.elements with
  | [] => some ⟨c.dim, List.replicate (c.dim * c.dim) []⟩
  | [(A, f)] => some (rescaled t A f)
  | _ => summed t o c

/-- A matrix that is made from its entries, if there are any. -/
noncomputable def finish (t : Table) : Option (Mat (List Mono)) → Option (Option (SymMat (List Mono)))
  | none => some none
  | some A => (makePoly t A).map some

/-- `CompositeMatrix::CompositeMatrix` (composite_matrix.cpp:130-135). -/
noncomputable def composite (t : Table) (o : Poly.Order) (c : Parts) : Option (Option (SymMat (List Mono))) := finish t (compile t o c)

/-- `SymbolicMatrix::add(const SymbolicMatrix&)` (symbolic_matrix.cpp:235-254). -/
noncomputable def addMatrix (t : Table) (o : Poly.Order) (A B : Part) : Option (Option (SymMat (List Mono))) :=
  if A.dim ≠ B.dim then some none else composite t o ⟨A.dim, [(A, 1), (B, 1)]⟩

/-- `MonomialMatrix::add(const Monomial&)` (monomial_matrix_arithmetic.cpp:23-44) and `PolynomialMatrix::add(const Monomial&)`
(polynomial_matrix_arithmetic.cpp:15-40). The latter calls `clone` to add zero, which polynomial matrices do not override, so that
`SymbolicMatrix::clone` throws `cannot_clone_exception` (symbolic_matrix.cpp). -/
noncomputable def addMono (t : Table) (o : Poly.Order) (m : Mono) : Part → Option (Option (SymMat (List Mono)))
  | .mono A => if m.id = 0 ∨ m.factor = 0 then composite t o ⟨A.dim, [(.mono A, 1)]⟩ else finish t (some ⟨A.dim, A.data.map fun x => Poly.sumMM o x m⟩)
  | .poly A => if m.id = 0 ∨ m.factor = 0 then some none else finish t (some ⟨A.dim, A.data.map fun p => Poly.sumPM o p m⟩)

/-- `MonomialMatrix::add(const Polynomial&)` (monomial_matrix_arithmetic.cpp:47-72) and `PolynomialMatrix::add(const Polynomial&)`
(polynomial_matrix_arithmetic.cpp:43-72). -/
noncomputable def addPoly (t : Table) (o : Poly.Order) (q : List Mono) (A : Part) : Option (Option (SymMat (List Mono))) := match q with
  | [] => match A with
    | .mono A => composite t o ⟨A.dim, [(.mono A, 1)]⟩
    | .poly _ => some none
  | [m] => addMono t o m A
  | q => match A with
    | .mono A => finish t (some ⟨A.dim, A.data.map fun x => Poly.sumPM o q x⟩)
    | .poly A => finish t (some ⟨A.dim, A.data.map fun p => Poly.sumPP o p q⟩)

end Moment.MatrixSum
