import Verif.Model.Poly
import Verif.Model.PolyOrder
import Mathlib.Analysis.Complex.Norm

/-! # Model of comparisons with tolerance, and of polynomials with tolerance
(cpp/lib_moment/utilities/float_utils.h, symbolic/polynomial.{h,cpp}, symbolic/monomial.h, symbolic/polynomial_ordering.h)

Other models test for zero exactly. Here the tolerances are as in the code, in units of `eps`, and numbers are exact: rounding of sums and products is
not modelled. All numbers in the refutations of C102 are such that `double` computes with them exactly. -/

namespace Moment.Tolerance

open Classical
open Moment.Poly (Mono)

/-- `std::numeric_limits<double>::epsilon()`. -/
noncomputable def eps : ℝ := 1 / 2 ^ 52

/-- `approximately_equal(double, double, double)` (float_utils.h:32-35). -/
noncomputable def near (x y k : ℝ) : Bool := decide (|x - y| ≤ k * eps * max |x| |y|)

/-- `approximately_zero(double, double)` (float_utils.h:58-60). -/
noncomputable def tiny (x k : ℝ) : Bool := decide (|x| ≤ k * eps)

/-- `essentially_equal` (float_utils.h:69-72). -/
noncomputable def essentially (x y k : ℝ) : Bool := decide (|x - y| ≤ k * eps * min |x| |y|)

/-- `definitely_greater_than` (float_utils.h:79-82). -/
noncomputable def above (x y k : ℝ) : Bool := decide (x > y) && decide (x - y > k * eps * max |x| |y|)

/-- `definitely_less_than` (float_utils.h:89-92). -/
noncomputable def below (x y k : ℝ) : Bool := decide (x < y) && decide (y - x > k * eps * max |x| |y|)

/-- `approximately_compare` (float_utils.h:97-102). -/
noncomputable def ranked (x y k : ℝ) : Int := if near x y k then 0 else if x < y then -1 else 1

/-- `approximately_same_norm` (float_utils.h:43-51). -/
noncomputable def sameNorm (x y : ℂ) (k : ℝ) : Bool := decide (|Complex.normSq x - Complex.normSq y| ≤ k * eps * max (Complex.normSq x) (Complex.normSq y))

/-- `approximately_real` (float_utils.h:110-112). -/
noncomputable def real (x : ℂ) (k : ℝ) : Bool := tiny x.im k

/-- `approximately_imaginary` (float_utils.h:118-120). -/
noncomputable def imaginary (x : ℂ) (k : ℝ) : Bool := tiny x.re k

/-- `approximately_zero(std::complex<double>, double)` (float_utils.h:127-131). -/
noncomputable def small (x : ℂ) (k : ℝ) : Bool := decide (x.re * x.re + x.im * x.im < k * k * eps * eps)

/-- `approximately_equal(std::complex<double>, std::complex<double>, double)` (float_utils.h:139-143). -/
noncomputable def close (x y : ℂ) (k : ℝ) : Bool := small (x - y) k

/-- `real_or_imaginary_if_close` (float_utils.h:149-157). -/
noncomputable def clean (x : ℂ) (k : ℝ) : ℂ := if tiny x.re k then ⟨0, x.im⟩ else if tiny x.im k then ⟨x.re, 0⟩ else x

/-! ## Polynomials -/

/-- `remove_zeros` (polynomial.cpp:77-100). -/
noncomputable def removeZeros (k : ℝ) (l : List Mono) : List Mono := l.filter fun m => !(small m.factor k || m.id == 0)

/-- `Polynomial(storage_t, order, zero_tolerance)` (polynomial.h:60-70). -/
noncomputable def makeRaw (k : ℝ) (o : Poly.Order) (l : List Mono) : List Mono :=
  removeZeros k (if l.length > 1 then Poly.removeDup (stableSort o.key l) else l)

/-- `Polynomial(storage_t, table, order, zero_tolerance)` (polynomial.h:80-92). -/
noncomputable def make (k : ℝ) (t : Poly.Table) (o : Poly.Order) (l : List Mono) : List Mono := makeRaw k o (l.map (Poly.fixCC t))

/-- `Polynomial(const Monomial&, double)` (polynomial.cpp:36-40). -/
noncomputable def ofMono (k : ℝ) (m : Mono) : List Mono := if m.id ≠ 0 ∧ small m.factor k = false then [m] else []

/-- The merge loop of `append` (polynomial.h:276-299). -/
noncomputable def mergeAdd (k : ℝ) (o : Poly.Order) : List Mono → List Mono → List Mono
  | [], q => q
  | a :: p, [] => a :: p
  | a :: p, b :: q =>
    if o.less a b then a :: mergeAdd k o p (b :: q)
    else if o.less b a then b :: mergeAdd k o (a :: p) q
    else if small (a.factor + b.factor) k then mergeAdd k o p q
    else ⟨a.id, a.conj, a.factor + b.factor⟩ :: mergeAdd k o p q
termination_by p q => p.length + q.length

/-- `append` (polynomial.h:246-303). -/
noncomputable def append (k : ℝ) (o : Poly.Order) (p q : List Mono) : List Mono :=
  if q.isEmpty then p else if p.isEmpty then q else mergeAdd k o p q

/-- `scale` (polynomial.cpp:126-140). -/
noncomputable def scale (k : ℝ) (c : ℂ) (p : List Mono) : List Mono :=
  if small c k then [] else if close c 1 k then p else p.map fun m => { m with factor := m.factor * c }

/-- `Monomial::approximately_equals` (monomial.h:105-109). -/
noncomputable def monoEquals (k : ℝ) (a b : Mono) : Bool := a.id == b.id && (a.id == 0 || (a.conj == b.conj && close a.factor b.factor k))

/-- `Polynomial::approximately_equals` (polynomial.cpp:143-153). -/
noncomputable def equals (k : ℝ) : List Mono → List Mono → Bool
  | [], [] => true
  | a :: p, b :: q => monoEquals k a b && equals k p q
  | _, _ => false

/-- `Polynomial::real_or_imaginary_if_close` (polynomial.cpp:102-106): the argument is not used. -/
noncomputable def cleanPoly (_k : ℝ) (p : List Mono) : List Mono := p.map fun m => { m with factor := clean m.factor 1 }

/-- `PolynomialOrderingWithCoefficients` (polynomial_ordering.h:89-109). -/
noncomputable def less (o : Poly.Order) : List Mono → List Mono → Bool := PolyOrder.less (PolyOrder.withCoefficients (ranked · · 1) o)

end Moment.Tolerance
