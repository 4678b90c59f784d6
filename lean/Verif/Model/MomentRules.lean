import Verif.Model.Poly
import Mathlib.Analysis.SpecialFunctions.Pow.Complex

/-! # Model of moment rules and moment rulebooks
(cpp/lib_moment/symbolic/rules/moment_rule.{h,cpp}, moment_rulebook.{h,cpp}, symbolic/polynomial_ordering.h)

As in Model/Poly.lean, arithmetic is exact. A rulebook keeps its rules in two maps with the same content, one by symbol number and one in the order
of the polynomial factory; the model keeps one list in the order of the factory. Usage counters, names and the matrices made by a rulebook are
left out. -/

namespace Moment.Poly

open Classical

/-- `MomentRule` (moment_rule.h:60-80): `lhs → rhs`. -/
structure MRule where
  lhs : Nat
  rhs : List Mono
  «partial» : Bool := false
  dir : ℂ := 0

/-- `pop_back_and_normalize` (moment_rule.cpp:43-68), the polynomial that is left. -/
noncomputable def popNorm (t : Table) (p : List Mono) : List Mono :=
  match p.getLast? with
  | none => []
  | some m =>
    let q := scale (-1 / m.factor) p.dropLast
    if m.conj then conjugate t q else q

/-- `PolynomialDifficulty` (moment_rule.h:39-52). -/
inductive Difficulty
  | trivial | contradiction | simple | needsReorienting | nonorientable

/-- `MomentRule::get_difficulty` (moment_rule.cpp:132-163), on the reversed polynomial. -/
noncomputable def difficulty (rev : List Mono) : Difficulty :=
  match rev with
  | [] => .trivial
  | a :: rest =>
    if a.id = 1 then .contradiction
    else match rest with
      | [] => .simple
      | b :: _ =>
        if a.id ≠ b.id then .simple
        else if Complex.normSq a.factor ≠ Complex.normSq b.factor then .needsReorienting
        else .nonorientable

/-- `MomentRule::reorient_polynomial` (moment_rule.cpp:167-176). -/
noncomputable def reorient (t : Table) (o : Order) (p : List Mono) : List Mono :=
  append o (popNorm t p) (scale (-1) (popNorm t (conjugate t p)))

/-- The direction chosen in `resolve_nonorientable_rule` (moment_rule.cpp:199-210); `std::sqrt` is the principal square root. -/
noncomputable def direction (ratio : ℂ) : ℂ :=
  if ratio.im = 0 then (if ratio.re > 0 then 1 else Complex.I)
  else if ratio.im ≥ 0 then ratio ^ (1 / 2 : ℂ) else -ratio ^ (1 / 2 : ℂ)

/-- The unconstrained part `X/2 - d²/2 X*` that partial rules contain (moment_rule.cpp:80-82, 234-235). -/
noncomputable def freePart (lhs : Nat) (d : ℂ) : List Mono := [⟨lhs, false, 1 / 2⟩, ⟨lhs, true, -d * d * (1 / 2)⟩]

/-- `resolve_nonorientable_rule` (moment_rule.cpp:178-241) for `... + a X + b X*`. -/
noncomputable def resolveNonorientable (t : Table) (o : Order) (lhs : Nat) (rest : List Mono) (a b : ℂ) : MRule × Option (List Mono) :=
  let d := direction (b / a)
  let q := scale (-(starRingEnd ℂ) d / (2 * a)) rest
  let im := imag t o q
  let q' := if im.isEmpty then q else real t o q
  (⟨lhs, append o (scale d q') (freePart lhs d), true, d⟩, if im.isEmpty then none else some im)

/-- `split_regular_rule` (moment_rule.cpp:277-324). -/
noncomputable def splitRegular (t : Table) (o : Order) (lhs : Nat) (rhs : List Mono) : MRule × Option (List Mono) :=
  if lhs ≤ 1 then (⟨lhs, rhs, false, 0⟩, none)
  else if t.herm lhs then
    if isHermitian t rhs then (⟨lhs, rhs, false, 0⟩, none) else (⟨lhs, real t o rhs, false, 0⟩, some (imag t o rhs))
  else if t.anti lhs then
    if isAntihermitian t rhs then (⟨lhs, rhs, false, 0⟩, none) else (⟨lhs, scale Complex.I (imag t o rhs), false, 0⟩, some (real t o rhs))
  else (⟨lhs, rhs, false, 0⟩, none)

/-- `Polynomial::last_id` (polynomial.h:321-326). -/
def lastId (p : List Mono) : Nat := match p.getLast? with | none => 0 | some m => m.id

/-- `MomentRule(factory, polynomial)` with `set_up_rule` (moment_rule.cpp:89-130) and the split polynomial; `none` is the exception for
contradictions. -/
noncomputable def makeRule (t : Table) (o : Order) (p : List Mono) : Option (MRule × Option (List Mono)) :=
  match difficulty p.reverse with
  | .trivial => some (⟨lastId p, [], false, 0⟩, none)
  | .contradiction => none
  | .simple => some (splitRegular t o (lastId p) (popNorm t p))
  | .needsReorienting => some (splitRegular t o (lastId p) (popNorm t (reorient t o p)))
  | .nonorientable =>
    match p.reverse with
    | b :: a :: rest => some (resolveNonorientable t o (lastId p) rest.reverse a.factor b.factor)
    | _ => none

/-- `MomentRule(factory, lhs, direction, replacement)` (moment_rule.cpp:71-86). -/
noncomputable def MRule.ofDirection (t : Table) (o : Order) (lhs : Nat) (d : ℂ) (rhs : List Mono) : MRule :=
  ⟨lhs, append o (scale d rhs) (make t o (freePart lhs d)), true, d⟩

/-- `MomentRule::merge_partial` (moment_rule.cpp:244-264). -/
noncomputable def MRule.merge (o : Order) (r other : MRule) : MRule :=
  ⟨r.lhs, append o r.rhs.dropLast.dropLast other.rhs.dropLast.dropLast, false, 0⟩

/-- `MomentRule::as_polynomial` (moment_rule.cpp:327-336). -/
noncomputable def MRule.asPolynomial (o : Order) (r : MRule) : List Mono :=
  if r.lhs = 0 then [] else append o r.rhs (ofMono ⟨r.lhs, false, -1⟩)

/-- `MomentRule::append_transformed` (moment_rule.h:186-203). -/
noncomputable def MRule.transformed (r : MRule) (m : Mono) : List Mono :=
  if m.conj then r.rhs.map fun s => ⟨s.id, !s.conj, m.factor * (starRingEnd ℂ) s.factor⟩
  else r.rhs.map fun s => { s with factor := s.factor * m.factor }

/-- `MomentRule::match_info` and `reduce_with_hint` (moment_rule.cpp:344-368, 425-454) after the terms before the first match. -/
noncomputable def MRule.reduceRest (r : MRule) : List Mono → List Mono
  | [] => []
  | [m] => r.transformed m
  | m :: m' :: rest => if m'.id = r.lhs then r.transformed m ++ (r.transformed m' ++ rest) else r.transformed m ++ m' :: rest

/-- `MomentRule::reduce(Polynomial)` (moment_rule.cpp:370-381). -/
noncomputable def MRule.reduce (t : Table) (o : Order) (r : MRule) (p : List Mono) : List Mono :=
  if p.any (fun m => m.id == r.lhs) then
    make t o (p.takeWhile (fun m => m.id != r.lhs) ++ r.reduceRest (p.dropWhile fun m => m.id != r.lhs))
  else p

/-- `MomentRule::reduce(Monomial)` (moment_rule.cpp:383-395). -/
noncomputable def MRule.reduceOne (t : Table) (o : Order) (r : MRule) (m : Mono) : List Mono :=
  if m.id ≠ r.lhs then ofMono m else make t o (r.transformed m)

/-- `SymbolTools::make_canonical(Monomial)` (symbol_tools.cpp:15-31). -/
noncomputable def canonicalMono (t : Table) (m : Mono) : Mono :=
  fixCC t (if m.id = 0 then ⟨0, false, 0⟩ else m)

/-- `MomentRule::reduce_monomial` (moment_rule.cpp:397-423). -/
noncomputable def MRule.reduceMonomial (t : Table) (r : MRule) (m : Mono) : Mono :=
  if r.lhs ≠ m.id then m
  else match r.rhs with
    | [] => ⟨0, false, 1⟩
    | s :: _ => canonicalMono t (if m.conj then ⟨s.id, !s.conj, m.factor * (starRingEnd ℂ) s.factor⟩ else ⟨s.id, s.conj, m.factor * s.factor⟩)

/-! ## Rulebooks -/

/-- `rules.find` (moment_rulebook.h: rule_map_t). -/
def findRule (b : List MRule) (i : Nat) : Option MRule := b.find? fun r => r.lhs == i

/-- What a term is replaced by in `reduce_in_place` (moment_rulebook.cpp:329-340). -/
noncomputable def expand (b : List MRule) (m : Mono) : List Mono := match findRule b m.id with | some r => r.transformed m | none => [m]

/-- `MomentRulebook::reduce_in_place` (moment_rulebook.cpp:319-348), which is also `reduce(Polynomial)`. -/
noncomputable def reduceBook (t : Table) (o : Order) (b : List MRule) (p : List Mono) : List Mono :=
  if p.any (fun m => (findRule b m.id).isSome) then
    make t o (p.flatMap (expand b))
  else p

/-- `MomentRulebook::reduce(Monomial)` (moment_rulebook.cpp:373-382). -/
noncomputable def reduceBookOne (t : Table) (o : Order) (b : List MRule) (m : Mono) : List Mono :=
  match findRule b m.id with
  | none => ofMono m
  | some r => r.reduceOne t o m

/-- `MomentRulebook::reduce_monomial` (moment_rulebook.cpp:350-371); `none` is the exception. -/
noncomputable def reduceBookMonomial (t : Table) (b : List MRule) (m : Mono) : Option Mono :=
  match findRule b m.id with
  | none => some m
  | some r => if r.rhs.length ≤ 1 then some (r.reduceMonomial t m) else none

/-- Result of `complete()`. -/
inductive Outcome
  | ok (b : List MRule) (added : Nat)
  | contradiction

/-- The last part of the loop of `complete()` (moment_rulebook.cpp:206-219): rules after the new one are reduced with it. -/
noncomputable def updateLater (t : Table) (o : Order) (n : MRule) (b : List MRule) : List MRule :=
  b.map fun r => if o.rank n.lhs < o.rank r.lhs then { r with rhs := n.reduce t o r.rhs } else r

/-- Inserting in order (`rules_in_order.emplace`). -/
def insertRule (o : Order) (n : MRule) (b : List MRule) : List MRule :=
  b.takeWhile (fun r => decide (o.rank r.lhs < o.rank n.lhs)) ++ n :: b.dropWhile (fun r => decide (o.rank r.lhs < o.rank n.lhs))

/-- The loop of `complete()` (moment_rulebook.cpp:138-222). `raw` are the raw rules from `raw_rule_index` on; split polynomials are appended to
them. `none`: the loop does not end. -/
noncomputable def completeLoop (t : Table) (o : Order) (b : List MRule) (raw : List (List Mono)) (added : Nat) : Option Outcome :=
  match raw with
  | [] => some (.ok b added)
  | p :: rest =>
    match makeRule t o (reduceBook t o b p) with
    | none => some .contradiction
    | some (r, split) =>
      if r.lhs = 0 then completeLoop t o b rest added
      else if b.all fun s => decide (o.rank s.lhs < o.rank r.lhs) then completeLoop t o (b ++ [r]) (rest ++ split.toList) (added + 1)
      else match findRule b r.lhs with
        | some old =>
          let n := old.merge o r
          completeLoop t o (updateLater t o n (b.map fun s => if s.lhs = r.lhs then n else s)) (rest ++ split.toList) added
        | none => completeLoop t o (updateLater t o r (insertRule o r b)) (rest ++ split.toList) (added + 1)
partial_fixpoint

/-- `PolynomialOrdering` (polynomial_ordering.h:46-72) on the reversed polynomials: the last terms are compared first, without coefficients. -/
def polyLess (o : Order) : List Mono → List Mono → Bool
  | a :: p, b :: q => if o.less a b then true else if o.less b a then false else polyLess o p q
  | [], _ :: _ => true
  | _, [] => false

/-- `MomentRulebook::complete()` (moment_rulebook.cpp:121-243). The raw rules are sorted first (`std::sort` with `PolynomialOrdering`); the model is
given the rules in the order after sorting. -/
noncomputable def complete (t : Table) (o : Order) (b : List MRule) (raw : List (List Mono)) : Option Outcome := completeLoop t o b raw 0

/-- The flags of a rulebook: `monomial_rules`, `hermitian_rules` (moment_rulebook.h:105-113). -/
structure Flags where
  monomial : Bool
  hermitian : Bool

/-- The flags set by `complete()` (moment_rulebook.cpp:224-239). -/
noncomputable def flagsOf (t : Table) (b : List MRule) : Flags :=
  ⟨b.all fun r => decide (r.rhs.length ≤ 1), b.all fun r => if t.herm r.lhs then isHermitian t r.rhs else true⟩

/-- `MomentRulebook::inject` (moment_rulebook.cpp:91-119). -/
noncomputable def inject (t : Table) (o : Order) (b : List MRule) (f : Flags) (n : MRule) : List MRule × Flags × Bool :=
  let f := if n.rhs.length ≤ 1 then f else { f with monomial := false }
  let f := if t.herm n.lhs && !isHermitian t n.rhs then { f with hermitian := false } else f
  match findRule b n.lhs with
  | some _ => (b, f, false)
  | none => (insertRule o n b, f, true)

/-- `MomentRulebook::combine_and_complete` (moment_rulebook.cpp:245-305): the book afterwards, and the outcome. -/
noncomputable def combineAndComplete (t : Table) (o : Order) (b other : List MRule) (sorted : List (List Mono) → List (List Mono)) :
    Option (List MRule × Bool) :=
  if b.isEmpty then some (other, true)
  else if other.isEmpty then some (b, true)
  else (complete t o b (sorted (other.map (MRule.asPolynomial o)))).map fun
    | .ok b' _ => (b', true)
    | .contradiction => (b, false)

/-- `add_raw_rules` for `symbol = value` (moment_rulebook.cpp:52-81), for complex values. -/
noncomputable def rawOfValue (t : Table) (o : Order) (i : Nat) (z : ℂ) : List Mono :=
  if z = 0 then ofMono ⟨i, false, 1⟩ else make t o [⟨i, false, 1⟩, ⟨1, false, -z⟩]

/-- `first_noncontained_rule` (moment_rulebook.cpp:405-430). The program runs through the rules by symbol number, the model in the order of the
factory; this only matters for which rule is returned if there are several. -/
noncomputable def firstNoncontained (t : Table) (o : Order) (b other : List MRule) : Option MRule :=
  if other.isEmpty then none
  else if b.isEmpty then other.head?
  else other.find? fun r => !(reduceBook t o b (r.asPolynomial o)).isEmpty

/-- `RulebookComparisonResult` (moment_rulebook.h:49-58). -/
inductive Comparison
  | equal | aContainsB | bContainsA | disjoint
  deriving DecidableEq

/-- `compare_rulebooks` (moment_rulebook.cpp:432-454). -/
noncomputable def compareBooks (t : Table) (o : Order) (a b : List MRule) : Comparison :=
  let inB := firstNoncontained t o a b
  let inA := firstNoncontained t o b a
  if inA.isNone then (if inB.isNone then .equal else .bContainsA) else if inB.isNone then .aContainsB else .disjoint

end Moment.Poly
