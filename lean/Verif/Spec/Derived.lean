import Verif.Model.Derived
import Verif.Spec.Substituted
import Verif.Spec.DictionaryMap

/-! # What maps between systems stand for -/

namespace Moment.Derived

open Moment.Symbols (Table)
open Moment.Poly (Mono)
open Moment.DictionaryMap (at')

/-- A sparse matrix as Eigen keeps it: rows are in range and ascend. -/
def Sparse.Fine (A : Sparse) : Prop := ∀ j, j < A.cols → ((A.col j).map Prod.fst).Pairwise (· < ·) ∧ ∀ e ∈ A.col j, e.1 < A.rows

/-- A way to store matrices: coefficients are kept, and a column that is zero but for its first element, which is one, is stored as such. -/
structure Stores (store : Dense → Sparse) : Prop where
  rows : ∀ A, (store A).rows = A.rows
  cols : ∀ A, (store A).cols = A.cols
  fine : ∀ A, (store A).Fine
  coeff : ∀ A i j, i < A.rows → j < A.cols → (store A).coeff i j = A.val i j
  first : ∀ A, 0 < A.rows → 0 < A.cols → (∀ i, i < A.rows → A.val i 0 = if i = 0 then 1 else 0) → (store A).col 0 = [(0, 1)]

/-- A solution of the right dimensions whose product is the core. -/
structure Solves (C : Core) (S : Solved) : Prop where
  fits : S.fits C = true
  width : S.map.cols = S.output
  dims : 0 < S.output → S.map.rows = C.core.rows ∧ S.inv.rows = S.output ∧ S.inv.cols = C.core.cols
  product : ∀ k l, k < C.core.rows → l < C.core.cols → C.core.val k l = ∑ c ∈ Finset.range S.output, S.map.val k c * S.inv.val c l

/-- What Eigen's decomposition with full pivoting gives, in exact arithmetic: the product of the triangular factors, permuted, is the matrix, and the rows
of the upper factor beyond the rank vanish. -/
structure LU.Factors (A : Dense) (F : LU) : Prop where
  rank : F.rank ≤ min A.rows A.cols
  product : ∀ i j, i < A.rows → j < A.cols → A.val i j = ∑ t ∈ Finset.range (min A.rows A.cols), F.lower (F.rowTo i) t * F.upper t (F.colFrom j)
  beyond : ∀ t j, F.rank ≤ t → t < min A.rows A.cols → F.upper t j = 0

/-- The values of the new symbols: those of the polynomials of the old ones that they stand for. -/
noncomputable def pulled (v : Nat → ℂ) (inverse : List (List Mono)) (c : Nat) : ℂ := Poly.value v (inverse.getD c [])

/-- The values that a map gives to the old symbols, given those of the new ones. -/
noncomputable def carried (M : STM) (y : Nat → ℂ) (i : Nat) : ℂ := Poly.value y (M.map.getD i [])

/-- What position `j` of the list of words becomes: the combination of the moments of the words that column `j` of the matrix gives. -/
noncomputable def combined (rows : Nat) (R : Nat → Nat → ℝ) (osg : List (Nat × Bool)) (v : Nat → ℂ) (j : Nat) : ℂ :=
  ∑ i ∈ Finset.range rows, (R i j : ℂ) * (osg[i]?).elim 0 (at' v)

/-- The positions of a list of words: the first is the identity, symbols are in the table, and those not flagged as conjugates occur once. -/
structure Positions (size : Nat) (osg : List (Nat × Bool)) : Prop where
  first : osg[0]? = some (1, false)
  known : ∀ r ∈ osg, r.1 < size
  two : 2 ≤ size
  once : ∀ (i j id : Nat), osg[i]? = some (id, false) → osg[j]? = some (id, false) → i = j
  nonzero : ∀ r ∈ osg, r.1 ≠ 0

/-- What a map between systems should do: it maps each symbol that occurs without flag to a polynomial of the new symbols whose value, if the new symbols
have the values of the polynomials they stand for, is the combination of moments; all other symbols to zero. -/
structure Maps (t : Table) (rows : Nat) (R : Nat → Nat → ℝ) (osg : List (Nat × Bool)) (M : STM) (u : Table) : Prop where
  size : M.map.length = t.syms.length
  target : u.syms.length = M.inverse.length
  known : ∀ p ∈ M.map, ∀ m ∈ p, m.id < u.syms.length ∧ m.conj = false
  respects : ∀ v, v 1 = 1 → Poly.Respects (MatrixBasis.polyTable t) v → Poly.Respects (MatrixBasis.polyTable u) (pulled v M.inverse)
  one : ∀ v, v 0 = 0 → v 1 = 1 → pulled v M.inverse 1 = 1
  value : ∀ v, v 0 = 0 → v 1 = 1 → ∀ (j id : Nat), osg[j]? = some (id, false) → ∃ p, M.map[id]? = some p ∧
    Poly.value (pulled v M.inverse) p = combined rows R osg v j
  other : ∀ id, id < t.syms.length → (∀ j : Nat, osg[j]? ≠ some (id, false)) → M.map[id]? = some []
  monomial : M.monomial = true → ∀ p ∈ M.map, p.length ≤ 1

end Moment.Derived
