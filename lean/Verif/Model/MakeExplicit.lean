import Verif.Model.Probability
import Verif.Model.MomentRules

/-! # Model of `make_explicit`
(cpp/mex_functions/functions/probability/make_explicit.{h,cpp})

The elements of the slice and the element of the condition are given (C94, C97, C115), as well as the table of symbols and the order of the polynomial factory.
Warnings are left out, and so is the form in which polynomials are exported (C126). -/

namespace Moment.Explicit

open Moment.Probability Moment.Poly

/-- `MakeExplicitParams` (make_explicit.h, make_explicit.cpp:133-170). -/
structure Params where
  conditional : Bool
  /-- `fixed_indices` is not empty -/
  fixed : Bool
  simplify : Bool
  /-- the output is a substitution list -/
  list : Bool

/-- `check_count` (make_explicit.cpp:258-299): the values afterwards, or an exception. -/
noncomputable def checkCount (x : Params) (size : Nat) (values : List ℝ) : Option (List ℝ) :=
  if size ≠ values.length then
    if (x.conditional || !x.fixed) && size == values.length + 1 then some (values ++ [values.foldl (· + ·) 0]) else none
  else some values

/-- The rules (make_explicit.cpp:211-217; `conditional` in make_explicit.h). -/
noncomputable def rawRules (x : Params) (o : Order) (elems : List Element) (condition : Element) (values : List ℝ) : Option (Option (List (List Mono))) :=
  if x.conditional && x.fixed then conditionalRules o elems condition values else valueRules o elems values

/-- Rules in the order of their symbols (moment_rulebook.h:290-295: iterators of the map `rules`). -/
def bySymbol (b : List MRule) : List MRule := b.mergeSort fun r s => decide (r.lhs ≤ s.lhs)

/-- Simplification (make_explicit.cpp:220-235): `none` if `complete` does not end, `some none` for the exception. `sort` is the sorting in `complete`. -/
noncomputable def simplified (t : Table) (o : Order) (sort : List (List Mono) → List (List Mono)) (rules : List (List Mono)) :
    Option (Option (List (List Mono))) :=
  (complete t o [] (sort rules)).map fun
    | .contradiction => none
    | .ok b _ => some ((bySymbol b).map (MRule.asPolynomial o))

/-- `make_sub_pair` with the check before it (make_explicit.cpp:87-100, 112-125). -/
noncomputable def subPair : List Mono → Option (Nat × ℝ)
  | [m] => some (m.id, 0)
  | [a, b] => if a.id ≠ 1 then none else some (b.id, a.factor.re)
  | _ => none

/-- `try_make_substitution_list` (make_explicit.cpp:102-130). -/
noncomputable def subList (rules : List (List Mono)) : Option (List (Nat × ℝ)) := rules.mapM subPair

/-- What `make_explicit` gives. -/
inductive Out where
  | polynomials (l : List (List Mono))
  | substitutions (l : List (Nat × ℝ))
  /-- an exception: wrong number of values, unknown symbols, contradicting rules, or no substitution list -/
  | refused
  /-- too few values are read, or completion does not end -/
  | undefined

/-- The export of rules (make_explicit.cpp:243-255). -/
noncomputable def output (x : Params) (rules : List (List Mono)) : Out :=
  if x.list then match subList rules with
    | some l => .substitutions l
    | none => .refused
  else .polynomials rules

/-- `MakeExplicit::operator()` (make_explicit.cpp:196-256). -/
noncomputable def run (x : Params) (t : Table) (o : Order) (sort : List (List Mono) → List (List Mono)) (elems : List Element) (condition : Element)
    (values : List ℝ) : Out :=
  match checkCount x elems.length values with
  | none => .refused
  | some values => match rawRules x o elems condition values with
    | none => .undefined
    | some none => .refused
    | some (some rules) =>
      if x.simplify || x.list then match simplified t o sort rules with
        | none => .undefined
        | some none => .refused
        | some (some rules) => output x rules
      else output x rules

end Moment.Explicit
