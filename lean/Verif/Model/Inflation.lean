import Verif.Model.Sorting
import Verif.Model.Combinations
import Verif.Model.Locality

/-! # Model of the inflation scenario (cpp/lib_moment/scenarios/inflation/)

Operator, observable and source numbers are natural numbers here; in the source they are 16-bit integers, so scenarios with more than 32767
operators are outside the model. A bitset of sources is the list of its members. -/

namespace Moment.Inflation

/-- `Observable` (observable.h:23-35): outcome count, connected sources in ascending order, and whether the observable had no source. The
`id` is the position in the list of observables. -/
structure Obs where
  outcomes : Nat
  sources : List Nat
  singleton : Bool
  deriving DecidableEq, Repr

/-- `CausalNetwork`: the observables and `implicit_source_index`, the number of sources that were given explicitly. -/
structure Network where
  observables : List Obs
  explicitSources : Nat
  deriving DecidableEq, Repr

/-- `reverse_observable_to_source` (causal_network.cpp:57-79): the sources of every observable, in ascending order because the code collects
them in a `std::set`; `none` is the exception for an unknown observable. -/
def reverseSources (numObservables : Nat) (sources : List (List Nat)) : Option (List (List Nat)) :=
  if sources.any (fun src => src.any fun o => decide (o ≥ numObservables)) then none
  else some ((List.range numObservables).map fun o => (List.range sources.length).filter fun s => (sources.getD s []).contains o)

/-- The loop that makes the observables (causal_network.cpp:26-39); the number is `next_implicit_source`. -/
def makeObservables : Nat → List (Nat × List Nat) → List Obs
  | _, [] => []
  | next, (outcomes, srcs) :: rest =>
    if srcs.isEmpty then ⟨outcomes, [next], true⟩ :: makeObservables (next + 1) rest
    else ⟨outcomes, srcs, false⟩ :: makeObservables next rest

/-- Constructor of `CausalNetwork` (causal_network.cpp:15-55). -/
def create (outcomes : List Nat) (sources : List (List Nat)) : Option Network :=
  (reverseSources outcomes.length sources).map fun sets => ⟨makeObservables sources.length (outcomes.zip sets), sources.length⟩

/-- `Observable::projective` (observable.h:55). -/
def Obs.projective (ob : Obs) : Bool := ob.outcomes != 0

/-- `Observable::operators` (observable.h:58-60). -/
def Obs.operators (ob : Obs) : Nat := if ob.outcomes ≠ 0 then ob.outcomes - 1 else 1

/-- `Observable::count_copies` (observable.cpp:17-19). -/
def Obs.copies (infl : Nat) (ob : Obs) : Nat := if ob.singleton then 1 else infl ^ ob.sources.length

/-- `Observable::count_operators` (observable.cpp:21-23). -/
def Obs.countOperators (infl : Nat) (ob : Obs) : Nat := ob.operators * ob.copies infl

/-- `Observable::flatten_index` (observable.cpp:25-34): the loop over the indices with `index` and `base`. -/
def flattenIndex (infl : Nat) (indices : List Nat) : Nat := go 0 1 indices
where
  go (index base : Nat) : List Nat → Nat
  | [] => index
  | i :: is => go (index + i * base) (base * infl) is

/-- `Observable::unflatten_index` (observable.cpp:44-62) for an observable with `count` sources. -/
def unflattenIndex (infl count index : Nat) : List Nat :=
  if count = 0 ∨ infl ≤ 0 then List.replicate count 0 else go count index
where
  go : Nat → Nat → List Nat
  | 0, _ => []
  | n + 1, index => index % infl :: go n (index / infl)

/-- `source_variant_to_global_source` (causal_network.h:117-125). -/
def globalSource (net : Network) (infl source variant : Nat) : Nat :=
  if source ≥ net.explicitSources then net.explicitSources * infl + (source - net.explicitSources) else source * infl + variant

/-- `global_source_to_source_variant` (causal_network.h:104-112). `1 - inflation_level` wraps around in the code; the sum is
`global - explicit * (inflation - 1)`. -/
def sourceVariant (net : Network) (infl global : Nat) : Nat × Nat :=
  if global > net.explicitSources * infl then (global - net.explicitSources * (infl - 1), 0)
  else (global / infl, global % infl)

/-- An inflation context: network and inflation level. -/
structure Ctx where
  net : Network
  infl : Nat
  deriving DecidableEq, Repr

/-- `ICOperatorInfo` (inflation_context.h:33-47); `global_id` is the position in the table. -/
structure Info where
  obs : Nat
  variant : Nat
  out : Nat
  projective : Bool
  deriving DecidableEq, Repr

/-- The table `operator_info` that the constructor fills (inflation_context.cpp:123-138). -/
def operatorInfo (c : Ctx) : List Info :=
  c.net.observables.zipIdx.flatMap fun (ob, o) =>
    (List.range (ob.copies c.infl)).flatMap fun v => (List.range ob.operators).map fun k => ⟨o, v, k, ob.projective⟩

/-- `total_operator_count` (causal_network.cpp:82-88). -/
def operatorCount (c : Ctx) : Nat := (c.net.observables.map (Obs.countOperators c.infl)).sum

/-- `ICObservable::operator_offset`: the value of `global_id` when the loop reaches the observable (inflation_context.cpp:122-138). -/
def operatorOffset (c : Ctx) (o : Nat) : Nat := ((c.net.observables.take o).map (Obs.countOperators c.infl)).sum

/-- Look-up in the list of observables; out of range is undefined behaviour in the code and gives an arbitrary observable here. -/
def obsAt (c : Ctx) (o : Nat) : Obs := c.net.observables.getD o ⟨0, [], false⟩

/-- `Variant::operator_offset` (inflation_context.cpp:42-60) of a copy of an observable. -/
def variantOffset (c : Ctx) (o v : Nat) : Nat := operatorOffset c o + v * (obsAt c o).operators

/-- `InflationContext::operator_number` (inflation_context.cpp:542-552). -/
def operatorNumber (c : Ctx) (o v out : Nat) : Nat := operatorOffset c o + v * (obsAt c o).operators + out

/-- `Variant::indices` (inflation_context.cpp:46). -/
def variantIndices (c : Ctx) (o v : Nat) : List Nat := unflattenIndex c.infl (obsAt c o).sources.length v

/-- `Variant::connected_sources` (inflation_context.cpp:49-55). -/
def variantSources (c : Ctx) (o v : Nat) : List Nat :=
  List.zipWith (globalSource c.net c.infl) (obsAt c o).sources (variantIndices c o v)

/-- `connected_sources(oper)` (inflation_context.cpp:305-310). An unknown operator is undefined behaviour in the code. -/
def opSources (c : Ctx) (n : Nat) : List Nat :=
  match (operatorInfo c)[n]? with
  | none => []
  | some i => variantSources c i.obs i.variant

/-! ## Simplification -/

/-- What `additional_simplification` does. Reading the operator table out of range is undefined behaviour. -/
inductive Outcome
  | undefinedBehaviour
  | zero
  | word (w : List Nat)
  deriving DecidableEq, Repr

/-- `IsOrthogonal` (inflation_context.h:62-71) on operator numbers; `none` if the table is read out of range. -/
def orthogonal (c : Ctx) (a b : Nat) : Option Bool :=
  match (operatorInfo c)[a]?, (operatorInfo c)[b]? with
  | some x, some y => some (if x.obs ≠ y.obs ∨ x.variant ≠ y.variant then false else a != b)
  | _, _ => none

/-- The loop over neighbours (inflation_context.cpp:246-255). -/
def orthScan (c : Ctx) : List Nat → Option Bool
  | a :: b :: w => match orthogonal c a b with
    | none => none
    | some true => some true
    | some false => orthScan c (b :: w)
  | _ => some false

/-- `operator_info[n].projective`; only used on numbers that the loop before has read. -/
def projectiveOp (c : Ctx) (n : Nat) : Bool := ((operatorInfo c)[n]?.map Info.projective).getD false

/-- `InflationContext::additional_simplification` (inflation_context.cpp:241-265). The sign is not touched. -/
def simplify (c : Ctx) (w : List Nat) : Outcome :=
  let sorted := stableSort id w
  match orthScan c sorted with
  | none => .undefinedBehaviour
  | some true => .zero
  | some false => .word (uniqueBy (fun a b => a == b && projectiveOp c a) sorted)

/-- `std::is_sorted`. -/
def isSorted : List Nat → Bool
  | a :: b :: w => decide (a ≤ b) && isSorted (b :: w)
  | _ => true

/-- The loop of `get_if_canonical` (inflation_context.cpp:276-287): `some true` if it finishes. -/
def canonicalScan (c : Ctx) : List Nat → Option Bool
  | a :: b :: w => match orthogonal c a b with
    | none => none
    | some true => some false
    | some false => if projectiveOp c a && a == b then some false else canonicalScan c (b :: w)
  | _ => some true

/-- `InflationContext::get_if_canonical` (inflation_context.cpp:268-292): whether a sequence is returned; `none` is undefined behaviour. -/
def isCanonical (c : Ctx) (w : List Nat) : Option Bool := if isSorted w then canonicalScan c w else some false

/-! ## Word lists (inflation_osg.cpp) -/

/-- The test that the generator makes on every index list (inflation_osg.cpp:50-66 and 88-104). The first of the two copies asserts instead
of returning `false` for a repeated projector, but its iterator has no repetitions. Operator numbers are in range. -/
def osgTest (c : Ctx) (w : List Nat) : Bool := canonicalScan c w == some true

/-- Words of one length (inflation_osg.cpp:42-74 without repetitions, 79-112 with repetitions). -/
noncomputable def levelWords (c : Ctx) (duplicates : Bool) (level : Nat) : List (List Nat) :=
  ((Locality.collect (TriIndex.next duplicates (operatorCount c) level) TriIndex.atEnd TriIndex.value
    (TriIndex.first duplicates (operatorCount c) level)).map Prod.fst).filter (osgTest c)

/-- `InflationOperatorSequenceGenerator` (inflation_osg.cpp:15-37). -/
noncomputable def generate (c : Ctx) (maxLength : Nat) : List (List Nat) :=
  [] :: (List.range' 1 maxLength).flatMap (levelWords c (!c.net.observables.all Obs.projective))

/-! ## Factorisation -/

/-- `(included_sources & sources).empty()` negated. -/
def overlap (a b : List Nat) : Bool := a.any fun s => b.contains s

/-- The greedy inner loop (inflation_context.cpp:202-232): the first remaining operator that shares a source with the factor is moved to it,
until there is none. The checklist is the list of the operators at its positions, in order. -/
def grow (c : Ctx) (included : List Nat) (factor rest : List Nat) : List Nat × List Nat :=
  match _h : rest.find? (fun b => overlap included (opSources c b)) with
  | none => (factor, rest)
  | some b => grow c (included ++ opSources c b) (factor ++ [b]) (rest.erase b)
termination_by rest.length
decreasing_by
  have hb := List.mem_of_find?_eq_some _h
  have := List.length_erase_of_mem hb
  have := List.length_pos_of_mem hb
  omega

theorem grow_length (c : Ctx) (included factor rest : List Nat) :
    (grow c included factor rest).1.length + (grow c included factor rest).2.length = factor.length + rest.length := by
  induction included, factor, rest using grow.induct c with
  | case1 inc f r h => rw [grow]; split <;> simp_all
  | case2 inc f r b h ih =>
    rw [grow]
    split
    · simp_all
    · rename_i b' h'
      have e : b' = b := by rw [h] at h'; exact (Option.some.inj h').symm
      subst e
      rw [ih]
      have hb := List.mem_of_find?_eq_some h
      have := List.length_erase_of_mem hb
      have := List.length_pos_of_mem hb
      simp; omega

/-- The outer loop (inflation_context.cpp:181-236), before the factors are simplified. -/
def factorGroups (c : Ctx) : List Nat → List (List Nat)
  | [] => []
  | a :: rest =>
    let g := grow c (opSources c a) [a] rest
    g.1 :: factorGroups c g.2
termination_by w => w.length
decreasing_by
  have h1 := grow_length c (opSources c a) [a] rest
  have h2 : 1 ≤ (grow c (opSources c a) [a] rest).1.length := by
    have : ∀ inc f r, f.length ≤ (grow c inc f r).1.length := by
      intro inc f r
      induction inc, f, r using grow.induct c with
      | case1 inc f r h => rw [grow]; split <;> simp_all
      | case2 inc f r b h ih =>
        rw [grow]
        split
        · simp
        · rename_i b' h'
          have e : b' = b := by rw [h] at h'; exact (Option.some.inj h').symm
          subst e
          simp at ih; omega
    exact this _ [a] _
  simp only [List.length_cons, List.length_nil] at h1 h2 ⊢
  omega

/-- `InflationContext::factorize` (inflation_context.cpp:167-239) of a word; the zero sequence has no operators and is echoed, too. -/
def factorize (c : Ctx) (w : List Nat) : List Outcome :=
  if w.length ≤ 1 then [.word w] else (factorGroups c w).map (simplify c)

/-! ## Independence maps -/

/-- `Variant::independent` (inflation_context.cpp:73-83). `source_variants` has one entry per source, so it is empty only without sources. -/
def independent (c : Ctx) (o v o' v' : Nat) : Bool :=
  if (obsAt c o).sources.isEmpty then variantOffset c o v != variantOffset c o' v'
  else !overlap (variantSources c o v) (variantSources c o' v')

/-- The bits that the constructor sets in `dependent_operators[m]` (inflation_context.cpp:142-164), in the order in which it sets them. -/
def dependentOperators (c : Ctx) (m : Nat) : List Nat :=
  match (operatorInfo c)[m]? with
  | none => []
  | some i => c.net.observables.zipIdx.flatMap fun (ob, o) =>
      (List.range (ob.copies c.infl)).flatMap fun v =>
        if independent c i.obs i.variant o v then [] else List.range' (variantOffset c o v) ob.operators

/-! ## Canonical moments -/

/-- State of `find_permutation`: `next_free_source_variant` as a function of the source, the entries of the permutation that are done (global
source, target), and the flag. -/
structure PermState where
  next : Nat → Nat
  done : List (Nat × Nat)
  nonTrivial : Bool

/-- Body of the inner loop (inflation_context.cpp:378-390) for source `s` with copy `v`. -/
def permSource (infl : Nat) (st : PermState) (sv : Nat × Nat) : PermState :=
  let global := infl * sv.1 + sv.2
  if (st.done.lookup global).isSome then st
  else
    let target := infl * sv.1 + st.next sv.1
    { next := fun s => if s = sv.1 then st.next s + 1 else st.next s
      done := (global, target) :: st.done
      nonTrivial := st.nonTrivial || global != target }

/-- Body of the outer loop (inflation_context.cpp:367-392): singletons are skipped, sources are taken from last to first. -/
def permOp (c : Ctx) (st : PermState) (n : Nat) : PermState :=
  match (operatorInfo c)[n]? with
  | none => st
  | some i =>
    if (obsAt c i.obs).singleton then st
    else (((obsAt c i.obs).sources.zip (variantIndices c i.obs i.variant)).reverse).foldl (permSource c.infl) st

/-- `InflationContext::find_permutation` (inflation_context.cpp:355-394). -/
def findPermutation (c : Ctx) (w : List Nat) : PermState := w.foldl (permOp c) ⟨fun _ => 0, [], false⟩

/-- `permute_variant` (causal_network.cpp:91-115). Entries of the permutation that were not set are stale in the code; they are not read. -/
def permuteVariant (c : Ctx) (perm : List (Nat × Nat)) (sources indices : List Nat) : List Nat :=
  List.zipWith (fun s v =>
    let global := globalSource c.net c.infl s v
    let new := (perm.lookup global).getD 0
    if global = new then v else (sourceVariant c.net c.infl new).2) sources indices

/-- Loop body of `apply_permutation` (inflation_context.cpp:400-416). -/
def permuteOp (c : Ctx) (perm : List (Nat × Nat)) (n : Nat) : Nat :=
  match (operatorInfo c)[n]? with
  | none => n
  | some i =>
    if (obsAt c i.obs).singleton then n
    else
      let permuted := permuteVariant c perm (obsAt c i.obs).sources (variantIndices c i.obs i.variant)
      variantOffset c i.obs (flattenIndex c.infl permuted) + i.out

/-- `simplify_as_moment` and `apply_permutation` (inflation_context.cpp:396-463), which call each other; the fuel bounds the depth of the
recursion and `none` means that it was not enough. The zero sequence is passed through by the caller-visible function as it is empty. -/
def simplifyAsMoment (c : Ctx) : Nat → List Nat → Option Outcome
  | 0, _ => none
  | fuel + 1, w =>
    if w.isEmpty then some (.word w)
    else
      let st := findPermutation c w
      if !st.nonTrivial then some (.word w)
      else
        let permuted := w.map (permuteOp c st.done)
        if !isSorted permuted then
          match simplify c permuted with
          | .word v => simplifyAsMoment c fuel v
          | o => some o
        else some (simplify c permuted)

/-- `can_have_aliases` (inflation_context.h:204-206). -/
def canHaveAliases (c : Ctx) : Bool := decide (c.infl > 1) && decide (c.net.explicitSources > 0)

/-- `canonical_moment` (inflation_context.h:255-261). -/
def canonicalMoment (c : Ctx) (fuel : Nat) (w : List Nat) : Option Outcome :=
  if canHaveAliases c then simplifyAsMoment c fuel w else some (.word w)

/-- State of `can_be_simplified_as_moment`: free copies, sources done, and whether `true` was returned. -/
structure AliasState where
  next : Nat → Nat
  done : List Nat
  found : Bool

/-- Body of the inner loop (inflation_context.cpp:335-348). -/
def aliasSource (infl : Nat) (st : AliasState) (sv : Nat × Nat) : AliasState :=
  if st.found then st
  else
    let global := infl * sv.1 + sv.2
    if st.done.contains global then st
    else if global ≠ infl * sv.1 + st.next sv.1 then { st with found := true }
    else { next := fun s => if s = sv.1 then st.next s + 1 else st.next s, done := global :: st.done, found := false }

/-- Body of the outer loop (inflation_context.cpp:323-350). -/
def aliasOp (c : Ctx) (st : AliasState) (n : Nat) : AliasState :=
  match (operatorInfo c)[n]? with
  | none => st
  | some i =>
    if (obsAt c i.obs).singleton then st
    else (((obsAt c i.obs).sources.zip (variantIndices c i.obs i.variant)).reverse).foldl (aliasSource c.infl) st

/-- `can_be_simplified_as_moment` (inflation_context.cpp:312-353). -/
def canBeSimplifiedAsMoment (c : Ctx) (w : List Nat) : Bool :=
  if w.isEmpty || !canHaveAliases c then false
  else (w.foldl (aliasOp c) ⟨fun _ => 0, [], false⟩).found

/-! ## Joint outcomes -/

/-- `flatten_outcome_index` (inflation_context.cpp:499-540) of (observable, copy, outcome) triples; `none` is an exception. The list is
traversed from the end with `calculated_outcome_index` and `stride`. -/
def flattenOutcome (c : Ctx) (input : List (Nat × Nat × Nat)) : Option Nat := go 0 1 input.reverse
where
  go (acc stride : Nat) : List (Nat × Nat × Nat) → Option Nat
  | [] => some acc
  | (o, v, k) :: rest => match c.net.observables[o]? with
    | none => none
    | some ob =>
      if v ≥ ob.copies c.infl then none
      else if k ≥ ob.outcomes then none
      else go (acc + stride * k) (stride * ob.outcomes) rest

/-- What `unflatten_outcome_index` does: exception, undefined behaviour (observable out of range by one, or division by zero), or a list. -/
inductive Unflattened
  | rangeError
  | undefinedBehaviour
  | triples (l : List (Nat × Nat × Nat))
  deriving DecidableEq, Repr

/-- `unflatten_outcome_index` (inflation_context.cpp:465-496). The check is `observable > size`, so the observable number `size` passes it. -/
def unflattenOutcome (c : Ctx) (input : List (Nat × Nat)) (number : Nat) : Unflattened :=
  if input.any (fun ov => decide (ov.1 > c.net.observables.length)) then .rangeError
  else match go number input.reverse with
    | none => .undefinedBehaviour
    | some l => .triples l.reverse
where
  go (number : Nat) : List (Nat × Nat) → Option (List (Nat × Nat × Nat))
  | [] => some []
  | (o, v) :: rest => match c.net.observables[o]? with
    | none => none
    | some ob => if ob.outcomes = 0 then none else (go (number / ob.outcomes) rest).map ((o, v, number % ob.outcomes) :: ·)

/-! ## Factor lists (factor_table.cpp) -/

/-- `std::merge` with an element of the first list at hand: it is taken unless the next element of the second list is smaller. `f` merges what remains of
the first list. -/
def mergeWith (x : Nat) (f : List Nat → List Nat) : List Nat → List Nat
  | [] => x :: f []
  | y :: r => if x ≤ y then x :: f (y :: r) else y :: mergeWith x f r

/-- `std::merge` of two lists. -/
def mergeNat : List Nat → List Nat → List Nat
  | [] => fun r => r
  | x :: l => mergeWith x (mergeNat l)

/-- `combine_symbolic_factors` (factor_table.cpp:348-385). `upper_bound(1)` on a sorted list without zero skips the ones. -/
def combineFactors (left right : List Nat) : List Nat :=
  if left.isEmpty && right.isEmpty then [1]
  else
    let merged := mergeNat left right
    if merged.head? = some 0 then merged ++ [0]
    else if merged.length > 1 then
      let pruned := merged.dropWhile fun x => decide (x ≤ 1)
      if pruned.isEmpty then [1] else pruned
    else merged

/-- An entry of the factor table: whether it is fundamental, and its canonical factors. -/
structure Factors where
  fundamental : Bool
  symbols : List Nat
  deriving DecidableEq, Repr

/-- `try_multiply(std::vector)` and `try_multiply_canonical` (factor_table.cpp:227-307), for a look-up function `find` (the index tree and the
range check on its result) and a table of entries; `none` is the exception `unknown_symbol`. -/
def tryMultiply (entry : Nat → Factors) (find : List Nat → Option Nat) (multiplicands : List Nat) : Option Nat :=
  match multiplicands with
  | [] => some 0
  | [x] => some x
  | _ =>
    if multiplicands.any (· == 0) then some 0
    else
      let m := multiplicands.filter (· != 1)
      match (if m.length = multiplicands.length then none else match m with | [] => some 1 | [x] => some x | _ => none) with
      | some r => some r
      | none => find (stableSort id (m.flatMap fun x => if (entry x).fundamental then [x] else (entry x).symbols))

/-- `try_multiply(lhs, rhs)` (factor_table.cpp:187-224). -/
def tryMultiply2 (entry : Nat → Factors) (find : List Nat → Option Nat) (lhs rhs : Nat) : Option Nat :=
  if lhs = 0 ∨ rhs = 0 then some 0
  else if lhs = 1 then some rhs
  else if rhs = 1 then some lhs
  else if !(entry lhs).fundamental || !(entry rhs).fundamental then tryMultiply entry find [lhs, rhs]
  else find [if lhs < rhs then lhs else rhs, if lhs < rhs then rhs else lhs]

end Moment.Inflation
