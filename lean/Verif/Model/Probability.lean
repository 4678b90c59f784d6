import Verif.Model.Poly
import Verif.Model.Tensor
import Verif.Model.Combinations
import Verif.Model.Locality

/-! # Model of the tensors of probabilities (cpp/lib_moment/probability/)

`ProbabilityTensor`, `FullCorrelator` and what they share (`PolynomialTensor`), on top of a Collins-Gisin tensor. Factors are exact numbers. An
element is made in the same way whether it is stored or made when asked for (auto_storage_tensor.h:63-100), so there is one function for both. Text
output is left out. -/

namespace Moment.Probability

open Poly

/-- What is read of a `CollinsGisin` tensor (collins_gisin.h:85-132): its dimensions, and for each offset `CollinsGisinEntry::symbol_id`, where
`none` stands for `-1`. -/
structure Gisin where
  dims : List Nat
  symbol : Nat → Option Nat

/-- `PolynomialElement` (polynomial_tensor.h:22-33); no symbol polynomial means that `hasSymbolPoly` is false. -/
structure Element where
  gisin : List Mono
  symbols : Option (List Mono)

/-- `Monomial(name, factor)` (monomial.h:76-77). -/
def term (id : Nat) (factor : ℂ) : Mono := ⟨id, false, factor⟩

/-! ## Probability tensor -/

/-- `OneDimensionInfo` (probability_tensor.h:76-96); `implicit` lists the bits that are set. -/
structure DimInfo where
  gisinIndex : List Nat
  outcome : List Nat
  implicit : List Nat

/-- The state of the loop over the measurements of a party (probability_tensor.cpp:46-57). -/
structure Build where
  info : DimInfo
  dimIndex : Nat
  next : Nat

/-- One round of that loop (probability_tensor.cpp:60-84), for a measurement with at least one outcome: with none, `outcomes - 1` wraps and the inner
loop does not end. (`Measurement` requires one, measurement.h:38-41.) -/
def addMeasurement (b : Build) (m : Nat × Bool) : Build :=
  let outcomes := m.1
  let first := b.next
  let index := b.info.gisinIndex ++ List.range' first (outcomes - 1)
  let out := b.info.outcome ++ List.range (outcomes - 1)
  let next := first + (outcomes - 1)
  let dim := b.dimIndex + outcomes
  if m.2 then ⟨⟨index ++ [next], out ++ [outcomes - 1], b.info.implicit⟩, dim, next + 1⟩
  else ⟨⟨index ++ [first], out ++ [outcomes - 1], b.info.implicit ++ [dim - 1]⟩, dim, next⟩

/-- `make_dimension_info` for one party (probability_tensor.cpp:47-86). -/
def oneDim (mmts : List (Nat × Bool)) : DimInfo := (mmts.foldl addMeasurement ⟨⟨[0], [0], []⟩, 1, 1⟩).info

/-- `make_dimension_info` (probability_tensor.cpp:43-91): the measurements are read one after the other, `mmtsPerParty[d]` of them for party `d`. The
second list has `outcomesPerMeasurement` and `fullyExplicit`. -/
def dimensionInfo : List Nat → List (Nat × Bool) → List DimInfo
  | [], _ => []
  | n :: ns, ms => oneDim (ms.take n) :: dimensionInfo ns (ms.drop n)

/-- `make_construct_info` of the locality scenario (locality_probability_tensor.cpp:17-29). -/
def localityInfo (s : Locality.Scenario) : List DimInfo := dimensionInfo (s.map List.length) (s.flatten.map fun n => (n, false))

/-- The `make_dimensions` of the locality scenario (locality_collins_gisin.cpp:20-27, 31-33). -/
def localityGisinDims (s : Locality.Scenario) : List Nat := (s.map Locality.partyOps).map (· + 1)

/-- `make_construct_info` of the inflation scenario (inflation_probability_tensor.cpp:15-33), given for each variant of each observable the number of
outcomes, 0 if it is not projective. -/
def inflationInfo (variants : List Nat) : List DimInfo :=
  dimensionInfo (variants.map fun _ => 1) (variants.map fun n => if n = 0 then (1, true) else (n, false))

/-- `element_info` (probability_tensor.cpp:180-203) from party `d` on: `baseIndex`, `finalIndex` and `implicitMmts`. -/
def elementInfo : Nat → List DimInfo → List Nat → List Nat × List Nat × List Nat
  | d, i :: is, x :: xs =>
    let r := elementInfo (d + 1) is xs
    let base := i.gisinIndex.getD x 0
    if x > 0 ∧ x ∈ i.implicit then (base :: r.1, (base + i.outcome.getD x 0) :: r.2.1, d :: r.2.2)
    else (base :: r.1, (base + 1) :: r.2.1, r.2.2)
  | _, _, _ => ([], [], [])

/-- The loop that selects a range of the Collins-Gisin tensor (probability_tensor.cpp:270-280, and for lower bounds without bits 240-244): at every
implicit position, keep the value or write another. (In the source the vectors are carried over from one round to the next; every implicit position
is written in every round.) -/
def select (value : Nat) : List Nat → List Nat → List Bool → List Nat
  | l, p :: ps, b :: bs => select value (if b then l else l.set p value) ps bs
  | l, _, _ => l

/-- The indices that `CollinsGisinIterator` visits (auto_storage_tensor.h:131-170), and their offsets. -/
noncomputable def box (dims mins maxs : List Nat) : List Nat :=
  (Locality.collect (MultiDimOffset.next true mins maxs) MultiDimOffset.atEnd MultiDimOffset.value (MultiDimOffset.first mins maxs)).map fun v =>
    Tensor.indexToOffsetNoChecks true dims v.1

/-- The bit fields that `PartitionIterator` visits. -/
noncomputable def partitions (N K : Nat) : List (List Nat × List Nat × List Bool) :=
  Locality.collect (Comb.pnext N K) Comb.patEnd Comb.pvalue (Comb.pfirst N K)

/-- The terms for `L` free indices (probability_tensor.cpp:231-299): offsets in the Collins-Gisin tensor, with `the_sign`, which alternates. -/
noncomputable def termsOf (dims base final implicit : List Nat) (L : Nat) : List (Nat × ℂ) :=
  let sign : ℂ := if L % 2 = 0 then 1 else -1
  if L = 0 then [(Tensor.indexToOffsetNoChecks true dims (select 0 base implicit (implicit.map fun _ => false)), sign)]
  else (partitions implicit.length L).flatMap fun p =>
    (box dims (select 0 base implicit p.2.2) (select 1 final implicit p.2.2)).map fun o => (o, sign)

/-- The symbols of terms: all of them, or failure (`symbol_poly_failed`, probability_tensor.cpp:223-298; polynomial_tensor.cpp:55-64). -/
def resolve (cg : Gisin) (terms : List (Nat × ℂ)) : Option (List Mono) :=
  terms.mapM fun t => (cg.symbol t.1).map fun s => term s t.2

/-- `do_make_element` (probability_tensor.cpp:210-310). `none` is the exception of `index_to_offset` in the case without implicit indices (218). Making
the polynomial of Collins-Gisin entries sorts by number (polynomial.h:60-70). -/
noncomputable def makeElement (t : Table) (o : Order) (cg : Gisin) (infos : List DimInfo) (index : List Nat) : Option Element :=
  let e := elementInfo 0 infos index
  if e.2.2.length = 0 then
    (Tensor.indexToOffset true cg.dims e.1).map fun off =>
      ⟨makeRaw byId [term (off + 1) 1], (cg.symbol off).map fun s => makeRaw byId [term s 1]⟩
  else
    let terms := (List.range (e.2.2.length + 1)).flatMap (termsOf cg.dims e.1 e.2.1 e.2.2)
    some ⟨makeRaw byId (terms.map fun x => term (x.1 + 1) x.2), (resolve cg terms).map (make t o)⟩

/-- `attempt_symbol_resolution` (polynomial_tensor.cpp:54-69): the element, with symbols if all are known. The identifiers of the terms are positive
(assertion in line 57). -/
noncomputable def attempt (t : Table) (o : Order) (cg : Gisin) (e : Element) : Element :=
  match resolve cg (e.gisin.map fun m => (m.id - 1, m.factor)) with
  | some l => ⟨e.gisin, some (make t o l)⟩
  | none => e

/-- The loop of both versions of `explicit_value_rules` (probability_tensor.cpp:119-132, 153-167), where `rhs` makes the polynomial to be appended from a
value: the polynomials, `some none` for the exception when an element has no symbols, and `none` if the values run out (only asserted, 120, 155).
The versions are called for ranges of elements (iterators: C29). -/
noncomputable def rules (o : Order) (rhs : ℝ → List Mono) : List Element → List ℝ → Option (Option (List (List Mono)))
  | [], _ => some (some [])
  | e :: es, values => match e.symbols with
    | none => some none
    | some p => match values with
      | [] => none
      | x :: xs => (rules o rhs es xs).map fun r => r.map fun l => append o p (rhs x) :: l

/-- `explicit_value_rules` (probability_tensor.cpp:115-136). -/
noncomputable def valueRules (o : Order) (elems : List Element) (values : List ℝ) : Option (Option (List (List Mono))) :=
  rules o (fun x => makeRaw byId [term 1 (-(x : ℂ))]) elems values

/-- `explicit_value_rules` with a condition (probability_tensor.cpp:138-170). -/
noncomputable def conditionalRules (o : Order) (elems : List Element) (condition : Element) (values : List ℝ) : Option (Option (List (List Mono))) :=
  match condition.symbols with
  | none => some none
  | some c => rules o (fun x => scale (-(x : ℂ)) c) elems values

/-! ## Full correlators -/

/-- The parties with an index that is not 0 (full_correlator.cpp:33-39). -/
def involved (index : List Nat) : List Nat := (List.range index.length).filter fun d => index.getD d 0 > 0

/-- The index that agrees with the given one for the listed parties, and is 0 elsewhere (full_correlator.cpp:82-88, 143-147). -/
def restrictTo (index parties : List Nat) : List Nat :=
  parties.foldl (fun l p => l.set p (index.getD p 0)) (index.map fun _ => 0)

/-- The symbols of terms when numbers have to be positive to count as known (full_correlator.cpp:65, 96). -/
def resolvePositive (cg : Gisin) (terms : List (Nat × ℂ)) : Option (List (Nat × ℂ)) :=
  terms.mapM fun t => (cg.symbol t.1).bind fun s => if s > 0 then some (s, t.2) else none

/-- `make_id` (full_correlator.cpp:54-59). -/
noncomputable def makeId : Element := ⟨makeRaw byId [term 1 1], some (makeRaw byId [term 1 1])⟩

/-- The common end of `make_one_party` and `make_two_party` (full_correlator.cpp:65-74, 96-115): terms, and a constant which is symbol 1. -/
noncomputable def withConstant (t : Table) (o : Order) (cg : Gisin) (terms : List (Nat × ℂ)) (constant : ℂ) : Element :=
  ⟨makeRaw byId (terms.map (fun x => term (x.1 + 1) x.2) ++ [term 1 constant]),
    (resolvePositive cg terms).map fun l => make t o (l.map (fun x => term x.1 x.2) ++ [term 1 constant])⟩

/-- `make_one_party` (full_correlator.cpp:61-75). -/
noncomputable def makeOne (t : Table) (o : Order) (cg : Gisin) (index : List Nat) : Element :=
  withConstant t o cg [(Tensor.indexToOffsetNoChecks true cg.dims index, 2)] (-1)

/-- `make_two_party` (full_correlator.cpp:77-116); `none` is the exception of `index_to_offset`. -/
noncomputable def makeTwo (t : Table) (o : Order) (cg : Gisin) (a b : Nat) (index : List Nat) : Option Element :=
  (Tensor.indexToOffset true cg.dims (restrictTo index [a])).bind fun offA =>
    (Tensor.indexToOffset true cg.dims (restrictTo index [b])).map fun offB =>
      withConstant t o cg [(Tensor.indexToOffsetNoChecks true cg.dims index, 4), (offA, -2), (offB, -2)] 1

/-- The values of `factor` (full_correlator.cpp:125, 134, 152): `2^n` at first, then each time multiplied by `-1/2`. -/
noncomputable def factorAt (n : Nat) : Nat → ℂ
  | 0 => 2 ^ n
  | k + 1 => factorAt n k * (-1 / 2)

/-- `make_general` (full_correlator.cpp:119-163). `dims` are the dimensions of the full-correlator tensor itself. From 31 parties on `1 << party_count` is
out of the range of `int`, which is `none` here: for 31 it is negative and `reserve` (129) throws, beyond 31 the result is undefined. -/
noncomputable def makeGeneral (t : Table) (o : Order) (cg : Gisin) (dims parties index : List Nat) : Option Element :=
  let n := parties.length
  if n ≥ 31 then none
  else
    let middle := (List.range (n - 1)).flatMap fun k => (partitions n (n - 1 - k)).map fun p =>
      (Tensor.indexToOffsetNoChecks true dims (restrictTo index (p.1.map fun i => parties.getD i 0)), factorAt n (k + 1))
    let terms := (Tensor.indexToOffsetNoChecks true dims index, (2 : ℂ) ^ n) :: middle
    some (attempt t o cg ⟨makeRaw byId (terms.map (fun x => term (x.1 + 1) x.2) ++ [term 1 (factorAt n n)]), none⟩)

/-- `FullCorrelator::make_element_no_checks` (full_correlator.cpp:32-52). -/
noncomputable def makeCorrelator (t : Table) (o : Order) (cg : Gisin) (dims index : List Nat) : Option Element :=
  match involved index with
  | [] => some makeId
  | [_] => some (makeOne t o cg index)
  | [a, b] => makeTwo t o cg a b index
  | parties => makeGeneral t o cg dims parties index

/-- `CanHaveFullCorrelator` and the dimensions of the tensor in the locality scenario (locality_matrix_system.cpp:70-77;
locality_full_correlator.cpp:15-26). -/
def canHaveCorrelators (s : Locality.Scenario) : Bool := s.all fun mmts => mmts.all (· == 2)

def correlatorDims (s : Locality.Scenario) : List Nat := s.map fun mmts => mmts.length + 1

end Moment.Probability
