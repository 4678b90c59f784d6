import Verif.Model.Poly

/-! # Model of the order of polynomials with coefficients
(cpp/lib_moment/symbolic/polynomial_ordering.h, cpp/lib_moment/utilities/float_utils.h) -/

namespace Moment.PolyOrder

open Classical
open Moment.Poly (Mono)

/-- The loop of `PolynomialOrderingBase::operator()` (polynomial_ordering.h:45-73), over the terms from the last to the first. -/
def walk (elem : Mono → Mono → Int) : List Mono → List Mono → Bool
  | a :: p, b :: q => if elem a b = 1 then true else if elem a b = -1 then false else walk elem p q
  | [], _ :: _ => true
  | _, [] => false

/-- `PolynomialOrderingBase::operator()` (polynomial_ordering.h:45-73). -/
def less (elem : Mono → Mono → Int) (p q : List Mono) : Bool := walk elem p.reverse q.reverse

/-- `CompareMonomialWithoutCoefficients` (polynomial_ordering.h:76-87). -/
def withoutCoefficients (o : Poly.Order) (a b : Mono) : Int := if o.less a b then 1 else if o.less b a then -1 else 0

/-- `CompareMonomialWithCoefficients` (polynomial_ordering.h:89-106), where `cmp` is `approximately_compare`. -/
noncomputable def withCoefficients (cmp : ℝ → ℝ → Int) (o : Poly.Order) (a b : Mono) : Int :=
  if o.less a b then 1 else if o.less b a then -1 else
    if cmp b.factor.re a.factor.re = 0 then cmp b.factor.im a.factor.im else cmp b.factor.re a.factor.re

/-- `approximately_compare` (float_utils.h:97-102) with tolerance zero. -/
noncomputable def compareExact (x y : ℝ) : Int := if x = y then 0 else if x < y then -1 else 1

end Moment.PolyOrder
