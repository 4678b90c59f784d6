import Verif.Model.OpSeq
import Verif.Model.SubstringHash

/-! # Model of operator rules and rulebooks
(cpp/lib_moment/scenarios/algebraic/operator_rule.{h,cpp}, operator_rulebook.{h,cpp}, algebraic_precontext.{h,cpp},
algebraic_context.cpp, and the matching functions of hashed_sequence.cpp)

Functions that may loop or throw return `Option`: `none` stands for "does not return normally" (runs forever, throws, or runs into undefined
behaviour). Loops whose end is not obvious are defined by `partial_fixpoint`: an endless loop is `none`. Logging is left out. -/

namespace Moment.Rules

/-! ## Matching (hashed_sequence.cpp) -/

/-- `HashedSequence::matches_anywhere` (hashed_sequence.cpp:13-37): first place where the pattern is a prefix of the rest; the end position is
never a match, so the empty pattern does not match the empty word. `i` counts the places already passed. -/
def matchesAnywhere (pat : List Nat) : List Nat → Nat → Option Nat
  | [], _ => none
  | a :: w, i => if pat.isPrefixOf (a :: w) then some i else matchesAnywhere pat w (i + 1)

/-- The loop of `HashedSequence::suffix_prefix_overlap` (hashed_sequence.cpp:48-60): `n` is `match_count`. -/
def overlapLoop (a b : List Nat) : Nat → Nat
  | 0 => 0
  | n + 1 => if (a.drop (a.length - (n + 1))).isPrefixOf b then n + 1 else overlapLoop a b n

/-- `HashedSequence::suffix_prefix_overlap` (hashed_sequence.cpp:38-61): the longest suffix of the first word that is a prefix of the second. -/
def overlap (a b : List Nat) : Nat := overlapLoop a b (min a.length b.length)

/-! ## Pre-context (algebraic_precontext.{h,cpp}) -/

/-- `AlgebraicPrecontext::ConjugateMode` (algebraic_precontext.h:25-32). -/
inductive ConjMode | selfAdjoint | bunched | interleaved
  deriving DecidableEq, Repr

/-- `AlgebraicPrecontext` (algebraic_precontext.h:16-47): number of operators before conjugates are added, and the mode. -/
structure Pre where
  raw : Nat
  mode : ConjMode
  deriving DecidableEq, Repr

/-- `num_operators` as set by the constructor (algebraic_precontext.h:37-44). -/
def Pre.num (p : Pre) : Nat := if p.mode = .selfAdjoint then p.raw else 2 * p.raw

/-- `AlgebraicPrecontext::hash` (algebraic_precontext.h:56-58). -/
def Pre.hash (p : Pre) (w : List Nat) : UInt64 := hashWord (UInt64.ofNat p.num) w

/-- `AlgebraicPrecontext::conjugate(const sequence_storage_t&)` (algebraic_precontext.cpp:11-43). -/
def Pre.conjWord (p : Pre) (w : List Nat) : List Nat :=
  match p.mode with
  | .selfAdjoint => w.reverse
  | .bunched => w.reverse.map fun o => (o + p.raw) % p.num
  | .interleaved => w.reverse.map fun o => o ^^^ 1

/-- `AlgebraicPrecontext::conjugate(const HashedSequence&)` (algebraic_precontext.cpp:45-50). -/
def Pre.conjSeq (p : Pre) (x : HSeq) : HSeq :=
  if x.isZero then HSeq.zero
  else { hash := p.hash (p.conjWord x.ops), ops := p.conjWord x.ops, sign := x.sign.conj }

/-! ## One rule (operator_rule.{h,cpp}) -/

/-- `OperatorRule` data members (operator_rule.h:44-48). -/
structure Rule where
  lhs : HSeq
  rhs : HSeq
  trivial : Bool
  toZero : Bool
  delta : Int
  deriving DecidableEq, Repr

/-- `OperatorRule(lhs, rhs)` (operator_rule.cpp:70-88). `rhs.zero()` is read after the move, but only the list of operators is changed by
moving, not the hash. `none`: throws `invalid_rule`. -/
def Rule.make (lhs rhs : HSeq) : Option Rule :=
  let sign := lhs.sign.difference rhs.sign
  if lhs.hash < rhs.hash then none
  else some { lhs := { lhs with sign := .pos }, rhs := { rhs with sign := sign },
              trivial := lhs.hash == rhs.hash && !sign.isNegative,
              toZero := rhs.isZero,
              delta := (rhs.ops.length : Int) - (lhs.ops.length : Int) }

/-- `OperatorRule::apply_match_with_hint` (operator_rule.cpp:90-125). `none`: throws `bad_hint`. -/
def Rule.apply (r : Rule) (input : List Nat) (hint : Nat) : Option (List Nat) :=
  if r.toZero then some []
  else
    let newSize : Int := (input.length : Int) + r.delta
    if newSize ≤ 0 then (if newSize < 0 then none else some [])
    else
      let output := input.take hint ++ r.rhs.ops ++ input.drop (hint + r.lhs.ops.length)
      if (output.length : Int) ≠ newSize then none else some output

/-- `OperatorRule::implies` (operator_rule.cpp:127-156). `std::equal` with four iterators compares lengths too. -/
def Rule.implies (r other : Rule) : Bool :=
  match matchesAnywhere r.lhs.ops other.lhs.ops 0 with
  | none => false
  | some i =>
    match matchesAnywhere r.rhs.ops other.rhs.ops 0 with
    | none => false
    | some j =>
      (other.lhs.ops.take i == other.rhs.ops.take j) &&
        (other.lhs.ops.drop (i + r.lhs.ops.length) == other.rhs.ops.drop (j + r.rhs.ops.length))

/-- `OperatorRule::combine` (operator_rule.cpp:158-210). Outer `none`: throws; inner `none`: no overlap. -/
def Rule.combine (p : Pre) (r other : Rule) : Option (Option Rule) :=
  let n := overlap r.lhs.ops other.lhs.ops
  if n = 0 then some none
  else
    let joined := r.lhs.ops.take (r.lhs.ops.length - n) ++ other.lhs.ops
    match r.apply joined 0, other.apply joined (joined.length - other.lhs.ops.length) with
    | some viaThis, some viaOther =>
      let hashThis := if r.toZero then 0 else p.hash viaThis
      let hashOther := if other.toZero then 0 else p.hash viaOther
      if hashThis < hashOther then
        if hashThis = 0 then
          (Rule.make ⟨hashOther, viaOther, .pos⟩ HSeq.zero).map some
        else
          (Rule.make ⟨hashOther, viaOther, .pos⟩ ⟨hashThis, viaThis, other.rhs.sign.difference r.rhs.sign⟩).map some
      else
        if hashOther = 0 then
          (Rule.make ⟨hashThis, viaThis, .pos⟩ HSeq.zero).map some
        else
          (Rule.make ⟨hashThis, viaThis, .pos⟩ ⟨hashOther, viaOther, r.rhs.sign.difference other.rhs.sign⟩).map some
    | _, _ => none

/-- `OperatorRule::conjugate` (operator_rule.cpp:212-220). -/
def Rule.conjugate (p : Pre) (r : Rule) : Option Rule :=
  let lhs := p.conjSeq r.lhs
  let rhs := p.conjSeq r.rhs
  if lhs.hash < rhs.hash then Rule.make rhs lhs else Rule.make lhs rhs

/-! ## `std::map<size_t, OperatorRule>` as a list of entries in increasing key order -/

abbrev RMap := List (UInt64 × Rule)

/-- `std::map::find`. -/
def find (k : UInt64) : RMap → Option Rule
  | [] => none
  | (k', v) :: m => if k' = k then some v else find k m

/-- `std::map::insert`: an entry with the same key is kept unchanged. -/
def insert (k : UInt64) (v : Rule) : RMap → RMap
  | [] => [(k, v)]
  | (k', v') :: m => if k < k' then (k, v) :: (k', v') :: m else if k' < k then (k', v') :: insert k v m else (k', v') :: m

/-- `std::map::erase`. -/
def erase (k : UInt64) (m : RMap) : RMap := m.filter fun e => e.1 != k

/-- The key the iterator reaches by `++` from (or after erasing) key `k`; `none` is `end()`. -/
def nextKey (k : UInt64) (m : RMap) : Option UInt64 := (m.find? fun e => k < e.1).map Prod.fst

/-- Key of `begin()`. -/
def firstKey (m : RMap) : Option UInt64 := m.head?.map Prod.fst

/-! ## Reducing words (operator_rulebook.{h,cpp}) -/

/-- `OperatorRulebook` (operator_rulebook.h:84-92): the rules and the stored magnitude. -/
structure Book where
  rules : RMap
  mag : Nat

/-- `recalculate_magnitude` (operator_rulebook.cpp:28-37); `ceil(log2(count))` computed exactly. -/
def magnitude (n : Nat) : Nat := if n = 0 then 0 else if n = 1 then 1 else Nat.log2 (n - 1) + 1

/-- `recalculate_magnitude`, applied to a book. -/
def Book.remag (b : Book) : Book := { b with mag := magnitude b.rules.length }

/-- `RawReductionResult` (operator_rulebook.h:69-76). -/
inductive Raw | noMatch | matched | setToZero
  deriving DecidableEq, Repr

/-- Walking `rule_iter` through the map until a rule matches (operator_rulebook.cpp:258-262, 277). -/
def firstMatch (w : List Nat) : RMap → Option (Rule × Nat)
  | [] => none
  | (_, r) :: m => match matchesAnywhere r.lhs.ops w 0 with
    | some i => some (r, i)
    | none => firstMatch w m

/-- Main loop of `reduce_via_iteration` (operator_rulebook.cpp:251-282); `matched` is `matched_once`. Gives the result and the final values of
the two reference arguments. -/
def iterLoop (m : RMap) (w : List Nat) (s : Sign) (matched : Bool) : Option (Raw × List Nat × Sign) :=
  match firstMatch w m with
  | none => some (if matched then .matched else .noMatch, w, s)
  | some (r, i) =>
    if r.rhs.isZero then some (.setToZero, w, .pos)
    else (r.apply w i) >>= fun w' => iterLoop m w' (s.mul r.rhs.sign) true
partial_fixpoint

/-- `reduce_via_iteration(sequence_storage_t&, SequenceSignType&)` (operator_rulebook.cpp:251-282). -/
def viaIteration (m : RMap) (w : List Nat) (s : Sign) : Option (Raw × List Nat × Sign) := iterLoop m w s false

open Classical in
/-- Inner loop of `reduce_via_search` (operator_rulebook.cpp:294-312): the first substring, in the order of `SubstringHashIter`, whose hash is a
key; gives its start. Outer `none`: the substring iterator never reaches its end. -/
noncomputable def searchSub (m : RMap) (radix : UInt64) (w : List Nat) (st : Substring.State) : Option (Option (Rule × Nat)) :=
  if Substring.atEnd st then some none
  else match find (Substring.value st).2.2 m with
    | some r => some (some (r, (Substring.value st).1))
    | none => searchSub m radix w (Substring.next radix w st)
partial_fixpoint

/-- Outer loop of `reduce_via_search` (operator_rulebook.cpp:284-321). -/
noncomputable def searchLoop (m : RMap) (radix : UInt64) (w : List Nat) (s : Sign) (matched : Bool) : Option (Raw × List Nat × Sign) :=
  (searchSub m radix w (Substring.first w)) >>= fun found =>
    match found with
    | none => some (if matched then .matched else .noMatch, w, s)
    | some (r, i) =>
      if r.rhs.isZero then some (.setToZero, w, s)
      else (r.apply w i) >>= fun w' => searchLoop m radix w' (s.mul r.rhs.sign) true
partial_fixpoint

/-- `reduce_via_search(sequence_storage_t&, SequenceSignType&)` (operator_rulebook.cpp:284-321). -/
noncomputable def viaSearch (p : Pre) (m : RMap) (w : List Nat) (s : Sign) : Option (Raw × List Nat × Sign) :=
  searchLoop m (UInt64.ofNat p.num) w s false

/-- `reduction_method` (operator_rulebook.h:139-145): `true` for `SearchRules`. -/
def Book.useSearch (b : Book) (len : Nat) : Bool := ! decide (b.rules.length ≤ (len + 1) * b.mag / 2)

/-- `reduce_in_place(sequence_storage_t&, SequenceSignType&)` (operator_rulebook.h:195-203). -/
noncomputable def Book.reduceInPlace (p : Pre) (b : Book) (w : List Nat) (s : Sign) : Option (Raw × List Nat × Sign) :=
  if w.isEmpty || b.rules.isEmpty then some (.noMatch, w, s)
  else if b.useSearch w.length then viaSearch p b.rules w s else viaIteration b.rules w s

/-- How the `HashedSequence` forms of the reductions turn a raw result into a sequence (operator_rulebook.cpp:210-219, 336-345, 360-368). -/
def fromRaw (p : Pre) (input : HSeq) : Raw × List Nat × Sign → HSeq
  | (.noMatch, _, _) => input
  | (.matched, w, s) => ⟨p.hash w, w, s⟩
  | (.setToZero, _, _) => HSeq.zero

/-- `reduce(const HashedSequence&)` (operator_rulebook.cpp:192-221). -/
noncomputable def Book.reduce (p : Pre) (b : Book) (x : HSeq) : Option HSeq :=
  if x.ops.isEmpty then some (if x.isZero then HSeq.zero else HSeq.identity .pos)
  else if b.rules.isEmpty then some x
  else (if b.useSearch x.ops.length then viaSearch p b.rules x.ops x.sign else viaIteration b.rules x.ops x.sign).map (fromRaw p x)

/-- `reduce_via_iteration(const HashedSequence&)` (operator_rulebook.cpp:324-346). -/
def Book.reduceIter (p : Pre) (b : Book) (x : HSeq) : Option HSeq :=
  if x.ops.isEmpty || b.rules.isEmpty then some x else (viaIteration b.rules x.ops x.sign).map (fromRaw p x)

/-- `reduce_via_search(const HashedSequence&)` (operator_rulebook.cpp:348-369). -/
noncomputable def Book.reduceSearch (p : Pre) (b : Book) (x : HSeq) : Option HSeq :=
  if x.ops.isEmpty || b.rules.isEmpty then some x else (viaSearch p b.rules x.ops x.sign).map (fromRaw p x)

/-- `reduce_in_place(HashedSequence&)` (operator_rulebook.cpp:224-249): the changed argument. -/
noncomputable def Book.reduceSeqInPlace (p : Pre) (b : Book) (x : HSeq) : Option (Raw × HSeq) :=
  if x.ops.isEmpty || b.rules.isEmpty then some (.noMatch, x)
  else (if b.useSearch x.ops.length then viaSearch p b.rules x.ops x.sign else viaIteration b.rules x.ops x.sign).map fun o =>
    match o with
    | (.noMatch, w, _) => (.noMatch, { x with ops := w })
    | (.matched, w, s) => (.matched, ⟨p.hash w, w, s⟩)
    | (.setToZero, _, _) => (.setToZero, { x with ops := [], hash := 0 })

/-- `can_reduce` (operator_rulebook.cpp:399-423). -/
noncomputable def Book.canReduce (p : Pre) (b : Book) (w : List Nat) : Option Bool :=
  if w.isEmpty || b.rules.isEmpty then some false
  else if b.useSearch w.length then (searchSub b.rules (UInt64.ofNat p.num) w (Substring.first w)).map Option.isSome
  else some (b.rules.any fun e => (matchesAnywhere e.2.lhs.ops w 0).isSome)

/-- `AlgebraicContext::additional_simplification` (algebraic_context.cpp:91-106) as the simplification of a context: `none` (inner) is zero. -/
noncomputable def simplify (p : Pre) (commutative : Bool) (b : Book) (w : List Nat) (s : Sign) : Option (Option (List Nat × Sign)) :=
  let w := if commutative then w.mergeSort (· ≤ ·) else w
  (b.reduceInPlace p w s).map fun o =>
    match o with
    | (.setToZero, _, _) => none
    | (_, w', s') => some (w', s')

/-! ## Changing rulebooks -/

/-- `do_add_rule` (operator_rulebook.cpp:58-150): the new map and the number of rules added. -/
def addRule (m : RMap) (r : Rule) : Option (RMap × Int) :=
  if r.trivial then some (m, 0)
  else match find r.lhs.hash m with
  | none =>
    if r.rhs.isZero && r.rhs.sign != .pos then
      (Rule.make r.lhs r.rhs) >>= fun r' => some (insert r.lhs.hash r' m, 1)
    else some (insert r.lhs.hash r m, 1)
  | some pre =>
    if pre.rhs.hash = r.rhs.hash then
      if r.rhs.sign = pre.rhs.sign then some (m, 0)
      else
        (Rule.make ⟨r.lhs.hash, r.lhs.ops, .pos⟩ HSeq.zero) >>= fun lhsZero =>
        (Rule.make ⟨r.rhs.hash, r.rhs.ops, .pos⟩ HSeq.zero) >>= fun rhsZero =>
        addRule (insert r.lhs.hash lhsZero (erase r.lhs.hash m)) rhsZero
    else if pre.rhs.hash < r.rhs.hash then
      (Rule.make r.rhs pre.rhs) >>= fun bToA => addRule m bToA
    else
      (Rule.make pre.rhs r.rhs) >>= fun bToA => addRule (insert r.lhs.hash r (erase r.lhs.hash m)) bToA
partial_fixpoint

/-- The loop of `add_rules` (operator_rulebook.cpp:39-48). -/
def addRulesLoop : List Rule → RMap → Int → Option (RMap × Int)
  | [], m, n => some (m, n)
  | r :: rs, m, n => (addRule m r) >>= fun (m', k) => addRulesLoop rs m' (n + k)

/-- `add_rules` (operator_rulebook.cpp:39-48); the magnitude is only recomputed when the count is not 0. -/
def Book.addRules (b : Book) (rs : List Rule) : Option (Book × Int) :=
  (addRulesLoop rs b.rules 0).map fun (m, n) => (if n ≠ 0 then Book.remag { b with rules := m } else { b with rules := m }, n)

/-- Constructor of a rulebook (operator_rulebook.cpp:21-26). -/
def Book.new (rs : List Rule) : Option Book := (Book.addRules ⟨[], 0⟩ rs).map fun (b, _) => b.remag

/-- `reduce(const OperatorRule&)` (operator_rulebook.cpp:372-397). -/
noncomputable def Book.reduceRule (p : Pre) (b : Book) (r : Rule) : Option Rule :=
  (b.reduce p r.lhs) >>= fun lhs => (b.reduce p r.rhs) >>= fun rhs =>
    let rel := lhs.sign.difference rhs.sign
    if lhs.hash = rhs.hash ∧ rel = .neg then Rule.make { lhs with sign := .pos } HSeq.zero
    else if rhs.hash < lhs.hash then Rule.make { lhs with sign := .pos } { rhs with sign := rel }
    else Rule.make { rhs with sign := .pos } { lhs with sign := rel.conj }

/-- The loop of `reduce_ruleset` (operator_rulebook.cpp:426-467); `it` is the key `rule_iter` points at. The count of changes is left out. -/
noncomputable def reduceRulesetLoop (p : Pre) (b : Book) (it : Option UInt64) : Option Book :=
  match it with
  | none => some b
  | some k =>
    match find k b.rules with
    | none => none
    | some r =>
      let b1 : Book := { b with rules := erase k b.rules }
      let it1 := nextKey k b1.rules
      (b1.reduceRule p r) >>= fun r' =>
        if r'.trivial then reduceRulesetLoop p b1 it1
        else reduceRulesetLoop p { b1 with rules := insert r'.lhs.hash r' b1.rules } it1
partial_fixpoint

/-- `reduce_ruleset` (operator_rulebook.cpp:426-467). -/
noncomputable def Book.reduceRuleset (p : Pre) (b : Book) : Option Book := reduceRulesetLoop p b (firstKey b.rules)

/-- All ordered pairs of different rules in the order of the two nested loops (operator_rulebook.cpp:476-483, 512-519). -/
def pairs (m : RMap) : List (Rule × Rule) :=
  m.flatMap fun a => (m.filter fun b => b.1 != a.1).map fun b => (a.2, b.2)

/-- Body of the nested loops (operator_rulebook.cpp:485-499, 521-533): the first combination that does not reduce to a trivial rule. -/
noncomputable def firstNew (p : Pre) (b : Book) : List (Rule × Rule) → Option (Option Rule)
  | [] => some none
  | (x, y) :: rest =>
    (Rule.combine p x y) >>= fun c =>
      match c with
      | none => firstNew p b rest
      | some c => (b.reduceRule p c) >>= fun c' => if c'.trivial then firstNew p b rest else some (some c')

/-- `mock_conjugate` (operator_rulebook.cpp:553-570). -/
noncomputable def mockConjugate (p : Pre) (b : Book) : RMap → Option Bool
  | [] => some false
  | (_, r) :: m =>
    (r.conjugate p) >>= fun c => (b.reduceRule p c) >>= fun c' => if c'.trivial then mockConjugate p b m else some true

/-- `is_complete(test_cc)` (operator_rulebook.cpp:469-504). -/
noncomputable def Book.isComplete (p : Pre) (b : Book) (testCC : Bool) : Option Bool :=
  (if testCC then mockConjugate p b b.rules else some false) >>= fun cc =>
    if cc then some false else (firstNew p b (pairs b.rules)).map Option.isNone

/-- `try_new_combination` (operator_rulebook.cpp:507-551). -/
noncomputable def Book.tryNewCombination (p : Pre) (b : Book) : Option (Book × Bool) :=
  (b.reduceRuleset p) >>= fun b1 => (firstNew p b1 (pairs b1.rules)) >>= fun c =>
    match c with
    | none => some (b1, false)
    | some c => (Book.reduceRuleset p { b1 with rules := insert c.lhs.hash c b1.rules }).map fun b2 => (b2, true)

/-- `try_conjugation` (operator_rulebook.cpp:591-613). -/
noncomputable def Book.tryConjugation (p : Pre) (b : Book) (r : Rule) : Option (Book × Bool) :=
  (r.conjugate p) >>= fun c => (b.reduceRule p c) >>= fun c' =>
    if c'.trivial then some (b, false)
    else (Book.reduceRuleset p { b with rules := insert c'.lhs.hash c' b.rules }).map fun b2 => (b2, true)

/-- `conjugate_ruleset` (operator_rulebook.cpp:572-589). After a rule was added the iterator is set to the beginning and then still advanced
(which for an empty map is undefined behaviour, `none`). -/
noncomputable def conjugateLoop (p : Pre) (b : Book) (it : Option UInt64) (added : Nat) : Option (Book × Nat) :=
  match it with
  | none => some (b, added)
  | some k =>
    match find k b.rules with
    | none => none
    | some r =>
      (b.tryConjugation p r) >>= fun res =>
        if res.2 then
          match firstKey res.1.rules with
          | none => none
          | some k0 => conjugateLoop p res.1 (nextKey k0 res.1.rules) (added + 1)
        else conjugateLoop p res.1 (nextKey k res.1.rules) added
partial_fixpoint

/-- `conjugate_ruleset` (operator_rulebook.cpp:572-589). -/
noncomputable def Book.conjugateRuleset (p : Pre) (b : Book) : Option (Book × Nat) := conjugateLoop p b (firstKey b.rules) 0

/-- The `while` loop of `complete` (operator_rulebook.cpp:168-177): `left` is `max_iterations - iteration`. The flag tells whether the loop was
left by `return true`. -/
noncomputable def completeLoop (p : Pre) : Nat → Book → Option (Book × Bool)
  | 0, b => some (b, false)
  | left + 1, b => (b.tryNewCombination p) >>= fun res => if res.2 then completeLoop p left res.1 else some (res.1.remag, true)

/-- `complete` (operator_rulebook.cpp:152-190). -/
noncomputable def Book.complete (p : Pre) (b : Book) (maxIter : Nat) : Option (Book × Bool) :=
  if maxIter = 0 then
    (mockConjugate p b b.rules) >>= fun cc =>
      if cc then some (b, false) else (b.isComplete p false).map fun c => (b.remag, c)
  else
    (b.conjugateRuleset p) >>= fun (b1, added) =>
      (completeLoop p (maxIter - added) b1) >>= fun (b2, done) =>
        if done then some (b2, true) else (b2.isComplete p false).map fun c => (b2.remag, c)

/-- `commutator_rules` (operator_rulebook.cpp:615-630): for all `b > a`, larger `b` and then larger `a` first. -/
def commutatorRules (p : Pre) : Option (List Rule) :=
  ((List.range p.num).reverse.flatMap fun b => (List.range b).reverse.map fun a => (b, a)).mapM fun (b, a) =>
    Rule.make ⟨p.hash [b, a], [b, a], .pos⟩ ⟨p.hash [a, b], [a, b], .pos⟩

/-- `normal_rules` (operator_rulebook.cpp:633-655). -/
def normalRules (p : Pre) : Option (List Rule) :=
  match p.mode with
  | .selfAdjoint => some []
  | .bunched => (List.range p.raw).mapM fun a =>
      Rule.make ⟨p.hash [a + p.raw, a], [a + p.raw, a], .pos⟩ ⟨p.hash [a, a + p.raw], [a, a + p.raw], .pos⟩
  | .interleaved => (List.range p.raw).mapM fun i =>
      Rule.make ⟨p.hash [2 * i + 1, 2 * i], [2 * i + 1, 2 * i], .pos⟩ ⟨p.hash [2 * i, 2 * i + 1], [2 * i, 2 * i + 1], .pos⟩

/-- `AlgebraicContext::conjugate` (algebraic_context.cpp:151-163) for a context whose simplification is `simplify`. -/
def ctxConjugate (p : Pre) (c : Ctx) (heap : Bool) (x : HSeq) : HSeq :=
  if p.mode = .selfAdjoint then HSeq.conjugate c heap x
  else if x.isZero then HSeq.zero
  else HSeq.construct c heap (p.conjWord x.ops) .pos

end Moment.Rules
