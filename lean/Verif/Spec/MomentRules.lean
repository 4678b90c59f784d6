import Verif.Model.MomentRules
import Verif.Spec.Poly

/-! # Specification: solutions of rules and equations

A rule is an equation between the value of its symbol and the value of its right side; a raw rule is a polynomial that has to be zero. -/

namespace Moment.Poly

/-- The assignment satisfies the rule. -/
def Holds (v : Nat → ℂ) (r : MRule) : Prop := v r.lhs = value v r.rhs

/-- Assignments that count: they respect the symbol table and give the identity the value one. -/
def Assignment (t : Table) (v : Nat → ℂ) : Prop := Respects t v ∧ v 1 = 1

/-- The solutions of a rulebook. -/
def Solves (t : Table) (b : List MRule) (v : Nat → ℂ) : Prop := Assignment t v ∧ ∀ r ∈ b, Holds v r

/-- The polynomials are all zero. -/
def Zero (v : Nat → ℂ) (raw : List (List Mono)) : Prop := ∀ p ∈ raw, value v p = 0

/-- Orders in which the identity is the least symbol. -/
structure Order.Good (o : Order) : Prop where
  injective : Function.Injective o.rank
  one : ∀ i, i > 1 → o.rank 1 < o.rank i

/-- The rulebooks that come from completing raw rules and combining rulebooks. `sort` stands for `std::sort`: any rearrangement. -/
inductive Book (t : Table) (o : Order) : List MRule → Prop
  | empty : Book t o []
  | complete {b b' : List MRule} {raw : List (List Mono)} {k : Nat} : Book t o b → (∀ p ∈ raw, Canonical t o p) →
      Poly.complete t o b raw = some (.ok b' k) → Book t o b'
  | combine {b c b' : List MRule} {sort : List (List Mono) → List (List Mono)} {ok : Bool} : Book t o b → Book t o c → (∀ l, (sort l).Perm l) →
      combineAndComplete t o b c sort = some (b', ok) → Book t o b'

end Moment.Poly
