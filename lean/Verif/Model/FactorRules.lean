import Verif.Model.FactorTable
import Verif.Model.MomentRules

/-! # Model of products of symbols and of rules for products in inflation scenarios
(cpp/lib_moment/scenarios/inflation/factor_table.cpp, inflation_matrix_system.cpp, symbolic/rules/moment_rulebook.{h,cpp},
matrix_system/rulebook_storage.cpp)

Simplifications: as in `Model/FactorTable.lean` and `Model/MomentRules.lean`. What a rulebook is like after `complete()` has found a contradiction is not
modelled. The counts of usages and the names of rulebooks are left out, except whether a rulebook is in use. -/

namespace Moment.Inflation.Expand
open Moment.Poly (Mono MRule ofMono scale make append findRule Order complete combineAndComplete)
open Moment.Inflation.Extend (Table Entry)

/-- All symbols of an inflation scenario are Hermitian; zero is anti-Hermitian as well. -/
def flags : Poly.Table := ⟨fun _ => true, fun i => i == 0⟩

/-- How a call can go wrong: undefined behaviour, the exceptions `unknown_symbol` and `already_in_use`, or it never ends. -/
inductive Stop
  | undefined
  | unknownSymbol
  | alreadyInUse
  | endless
  deriving DecidableEq, Repr

section
variable {W : Type} [DecidableEq W]

/-- What `try_multiply` reads of an entry (factor_table.cpp:204, 255-260, 265-275). -/
def factorsAt (t : Table W) (k : Nat) : Factors :=
  match t.entries[k]? with
  | some e => ⟨e.fundamental, e.symbols⟩
  | none => ⟨true, []⟩

/-- `find_index_by_factors`, the check of its result and the id of the entry (factor_table.cpp:210-223, 293-306). -/
def lookup (t : Table W) (l : List Nat) : Option Nat := (t.find l).bind fun k => t.entries[k]?.map (·.id)

/-- `try_multiply(lhs, rhs)` (factor_table.cpp:187-224). Entries are read unless one of the symbols is zero or one; reading beyond the last one is
undefined. -/
def times (t : Table W) (a b : Nat) : Except Stop Nat :=
  if 1 < a ∧ 1 < b ∧ (t.entries.length ≤ a ∨ t.entries.length ≤ b) then .error .undefined
  else match tryMultiply2 (factorsAt t) (lookup t) a b with
    | some k => .ok k
    | none => .error .unknownSymbol

/-- Body of the loops of `try_multiply` for polynomials (factor_table.cpp:330-341). -/
noncomputable def timesMono (t : Table W) (m n : Mono) : Except Stop Mono :=
  if m.conj || n.conj then .error .unknownSymbol
  else (times t m.id n.id).map fun k => ⟨k, false, m.factor * n.factor⟩

/-- The inner loop. -/
noncomputable def timesRow (t : Table W) (m : Mono) : List Mono → Except Stop (List Mono)
  | [] => .ok []
  | n :: q => do
    let x ← timesMono t m n
    let l ← timesRow t m q
    .ok (x :: l)

/-- The outer loop. -/
noncomputable def timesAll (t : Table W) (q : List Mono) : List Mono → Except Stop (List Mono)
  | [] => .ok []
  | m :: p => do
    let x ← timesRow t m q
    let l ← timesAll t q p
    .ok (x ++ l)

/-- `try_multiply(factory, lhs, rhs)` (factor_table.cpp:309-345). -/
noncomputable def timesPoly (t : Table W) (o : Order) (p q : List Mono) : Except Stop (List Mono) :=
  match q with
  | [] => .ok []
  | [n] => if n.id = 1 then .ok (scale n.factor p) else (timesAll t q p).map (make flags o)
  | _ => (timesAll t q p).map (make flags o)

/-- `get_as_poly` (inflation_matrix_system.cpp:154-160). -/
noncomputable def replacement (b : List MRule) (k : Nat) : List Mono :=
  match findRule b k with
  | some r => r.rhs
  | none => ofMono ⟨k, false, 1⟩

/-- The loop that multiplies (inflation_matrix_system.cpp:162-167). -/
noncomputable def multiplyAll (t : Table W) (o : Order) (b : List MRule) : List Mono → List Nat → Except Stop (List Mono)
  | p, [] => .ok p
  | p, k :: l => if p.isEmpty then .ok p else do
    let q ← timesPoly t o p (replacement b k)
    multiplyAll t o b q l

/-- The new rule for an entry of the factor table, if there is one (inflation_matrix_system.cpp:128-173). -/
noncomputable def ruleFor (t : Table W) (o : Order) (b : List MRule) (e : Entry W) : Except Stop (Option (List Mono)) :=
  if e.fundamental then .ok none
  else match e.symbols with
    | [] => .ok none
    | k :: l =>
      if (k :: l).all fun i => (findRule b i).isNone then .ok none
      else (multiplyAll t o b (replacement b k) l).map fun p => some (append o p [⟨e.id, false, -1⟩])

/-- The loop over the entries (inflation_matrix_system.cpp:125-175). -/
noncomputable def rulesFor (t : Table W) (o : Order) (b : List MRule) : List (Entry W) → Except Stop (List (List Mono))
  | [] => .ok []
  | e :: l => do
    let x ← ruleFor t o b e
    let r ← rulesFor t o b l
    .ok (x.toList ++ r)

/-- A rulebook (moment_rulebook.h:80-126). -/
structure Book where
  rules : List MRule
  raw : List (List Mono)
  used : Bool
  safe : Bool
  expansion : Bool

/-- `add_raw_rules` (moment_rulebook.cpp:38-50). -/
def Book.add (b : Book) (l : List (List Mono)) : Except Stop Book :=
  if !b.expansion && b.used then .error .alreadyInUse else .ok { b with raw := b.raw ++ l }

/-- What comes of an expansion: the rulebook and the number returned; an exception other than a contradiction, and the rulebook after it; a contradiction. -/
inductive Expansion
  | done (b : Book) (count : Int)
  | stopped (b : Book) (why : Stop)
  | contradiction

/-- The second half of `expand_rulebook` (inflation_matrix_system.cpp:177-185) with `complete` (moment_rulebook.cpp:121-243): `add_raw_rules` and `complete`
do not throw `already_in_use` in expansion mode; without raw rules `complete` returns zero. `sort` stands for `std::sort`. -/
noncomputable def Book.finish (o : Order) (sort : List (List Mono) → List (List Mono)) (b : Book) (new : List (List Mono)) : Expansion :=
  match b.add new with
  | .error e => .stopped b e
  | .ok b' =>
    if b'.raw.isEmpty then .done { b' with expansion := false } (0 - b.rules.length)
    else match complete flags o b'.rules (sort b'.raw) with
      | some (.ok r k) => .done { b' with rules := r, raw := [], expansion := false } (k - b.rules.length)
      | some .contradiction => .contradiction
      | none => .stopped b' .endless

/-- `expand_rulebook` (inflation_matrix_system.cpp:109-186). -/
noncomputable def expand (t : Table W) (o : Order) (sort : List (List Mono) → List (List Mono)) (b : Book) (first : Nat) : Expansion :=
  if !b.safe then .done b 0
  else
    let b := { b with expansion := true }
    if b.rules.isEmpty then .done b 0
    else if t.entries.length < first then .stopped b .undefined
    else match rulesFor t o b.rules (t.entries.drop first) with
      | .error e => .stopped b e
      | .ok new => b.finish o sort new

/-! ## Rulebooks of a system -/

/-- `refreshAll` (rulebook_storage.cpp:87-93): the rulebooks afterwards, and whether there was no exception. After a contradiction the content of that
rulebook is not modelled: `none`. -/
noncomputable def refreshAll (t : Table W) (o : Order) (sort : List (List Mono) → List (List Mono)) (first : Nat) : List Book → Option (List Book × Bool)
  | [] => some ([], true)
  | b :: l => match expand t o sort b first with
    | .done b' _ => (refreshAll t o sort first l).map fun r => (b' :: r.1, r.2)
    | .stopped b' _ => some (b' :: l, false)
    | .contradiction => none

/-- `RulebookStorage::add` (rulebook_storage.cpp:23-58): the rulebooks afterwards, and whether there was no exception. -/
noncomputable def addBook (t : Table W) (o : Order) (sort : List (List Mono) → List (List Mono)) (books : List Book) (b : Book) : List Book × Bool :=
  match expand t o sort b 0 with
  | .done b' _ => (books ++ [b'], true)
  | _ => (books, false)

/-- What comes of `merge_in`: it is refused and the rulebook is as before; it is merged, and the expansion ends with or without an exception. -/
inductive Merging
  | refused
  | merged (b : Book) (ok : Bool)
  | contradiction
  | endless

/-- `RulebookStorage::merge_in` (rulebook_storage.cpp:66-82) with `combine_and_complete` (moment_rulebook.cpp:245-305), for the rulebook `b`. After a
contradiction in the expansion the content of the rulebook is not modelled. -/
noncomputable def mergeBook (t : Table W) (o : Order) (sort : List (List Mono) → List (List Mono)) (b other : Book) : Merging :=
  if (!b.expansion && b.used) || other.used then .refused
  else if !b.raw.isEmpty || !other.raw.isEmpty then .refused
  else match combineAndComplete flags o b.rules other.rules sort with
    | none => .endless
    | some (_, false) => .refused
    | some (r, true) => match expand t o sort { b with rules := r } 0 with
      | .done b' _ => .merged b' true
      | .stopped b' _ => .merged b' false
      | .contradiction => .contradiction

end

end Moment.Inflation.Expand
