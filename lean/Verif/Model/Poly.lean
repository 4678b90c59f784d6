import Verif.Model.Sorting
import Mathlib.Data.Complex.Basic

/-! # Model of monomials and polynomials of symbols
(cpp/lib_moment/symbolic/monomial.h, monomial_comparator*.{h,cpp}, polynomial.{h,cpp}, polynomial_factory.{h,cpp})

Coefficients are exact complex numbers, and the tolerance tests (`approximately_zero`, `approximately_equal`, `approximately_real`) are exact
tests; so `real_or_imaginary_if_close` does nothing. Symbol numbers are natural numbers; reading the symbol table out of range is not
modelled. -/

namespace Moment.Poly

open Classical

/-- `Monomial` (monomial.h:48-50). -/
structure Mono where
  id : Nat
  conj : Bool
  factor : ℂ

/-- What polynomials read from the symbol table: `Symbol::is_hermitian` and `Symbol::is_antihermitian` (symbol.h:98-103). -/
structure Table where
  herm : Nat → Bool
  anti : Nat → Bool

/-! ## Orders on monomials -/

/-- `IdLessComparator::operator()` (monomial_comparator.h:29-39). -/
def idLess (a b : Mono) : Bool :=
  if a.id < b.id then true else if a.id > b.id then false else if a.conj = b.conj then false else !a.conj

/-- `IdMoreComparator::operator()` (monomial_comparator.h:59-69). -/
def idMore (a b : Mono) : Bool :=
  if a.id > b.id then true else if a.id < b.id then false else if a.conj = b.conj then false else !a.conj

/-- `CompareByOpHash::key` (monomial_comparator_by_hash.cpp:26-35); `hash` gives the hash of symbols that have a sequence. -/
def hashKey (hash : Nat → Option Nat) (a : Mono) : Nat × Nat :=
  match hash a.id with
  | some h => (h, a.conj.toNat)
  | none => (2 ^ 64 - 1, a.id * 2 + a.conj.toNat)

/-- `CompareByOpHash::operator()` (monomial_comparator_by_hash.cpp:20-24): `std::pair::operator<`. -/
def hashLess (hash : Nat → Option Nat) (a b : Mono) : Bool :=
  decide ((hashKey hash a).1 < (hashKey hash b).1 ∨ ((hashKey hash a).1 = (hashKey hash b).1 ∧ (hashKey hash a).2 < (hashKey hash b).2))

/-- The order of a polynomial factory: symbols are ordered by a rank, and each symbol stands just before its conjugate. (`Order.idLess_spec`
and the theorems after it in Proof/Poly.lean show that the three comparators are of this form.) -/
structure Order where
  rank : Nat → Nat

/-- Position of a monomial in the order. -/
def Order.key (o : Order) (a : Mono) : Nat := 2 * o.rank a.id + a.conj.toNat

/-- `PolynomialFactory::less` (polynomial_factory.h:140-142). -/
def Order.less (o : Order) (a b : Mono) : Bool := decide (o.key a < o.key b)

/-- `IdLessComparator` as an order. -/
def byId : Order := ⟨id⟩

/-- `CompareByOpHash` as an order. -/
def byHash (hash : Nat → Option Nat) : Order := ⟨fun i => match hash i with | some h => h | none => 2 ^ 64 - 1 + i⟩

/-! ## Construction -/

/-- Loop body of `fix_cc_in_place` (polynomial.cpp:157-169). -/
def fixCC (t : Table) (m : Mono) : Mono :=
  let m := if t.herm m.id then { m with conj := false } else m
  if t.anti m.id && m.conj then { m with factor := m.factor * -1, conj := false } else m

/-- The loop of `remove_duplicates` (polynomial.cpp:50-75); the first argument is `*lagging_iter`. -/
def removeDupLoop (lag : Mono) : List Mono → List Mono
  | [] => [lag]
  | m :: l => if lag.id = m.id ∧ lag.conj = m.conj then removeDupLoop { lag with factor := lag.factor + m.factor } l
              else lag :: removeDupLoop m l

/-- `remove_duplicates` (polynomial.cpp:50-75); only called for more than one element. -/
def removeDup : List Mono → List Mono
  | [] => []
  | m :: l => removeDupLoop m l

/-- `remove_zeros` (polynomial.cpp:77-100). -/
noncomputable def removeZeros (l : List Mono) : List Mono := l.filter fun m => !(decide (m.factor = 0) || m.id == 0)

/-- `Polynomial(storage_t, order, zero_tolerance)` (polynomial.h:60-70): sort, join, drop zeros. `std::sort` is modelled by a stable sort;
`C21_any_sort` shows that the result does not depend on this. -/
noncomputable def makeRaw (o : Order) (l : List Mono) : List Mono :=
  removeZeros (if l.length > 1 then removeDup (stableSort o.key l) else l)

/-- `Polynomial(storage_t, table, order, zero_tolerance)` (polynomial.h:80-92), which is also `PolynomialFactory::operator()`
(polynomial_factory.h:135-138). -/
noncomputable def make (t : Table) (o : Order) (l : List Mono) : List Mono := makeRaw o (l.map (fixCC t))

/-- `Polynomial(const Monomial&)` (polynomial.cpp:36-40). -/
noncomputable def ofMono (m : Mono) : List Mono := if m.id ≠ 0 ∧ m.factor ≠ 0 then [m] else []

/-- `fix_cc_in_place` with `make_canonical` (polynomial.cpp:155-180). The flag `any_change` is set when some monomial of a Hermitian or
anti-Hermitian symbol was conjugated. -/
noncomputable def fixCanonical (t : Table) (l : List Mono) : List Mono :=
  let l' := l.map (fixCC t)
  if l.any (fun m => (t.herm m.id || t.anti m.id) && m.conj) then removeZeros (if l'.length > 1 then removeDup l' else l') else l'

/-! ## Arithmetic -/

/-- The merge loop of `append` (polynomial.h:273-300) for the two rests. -/
noncomputable def mergeAdd (o : Order) : List Mono → List Mono → List Mono
  | [], q => q
  | a :: p, [] => a :: p
  | a :: p, b :: q =>
    if o.less a b then a :: mergeAdd o p (b :: q)
    else if o.less b a then b :: mergeAdd o (a :: p) q
    else if a.factor + b.factor = 0 then mergeAdd o p q
    else ⟨a.id, a.conj, a.factor + b.factor⟩ :: mergeAdd o p q
termination_by p q => p.length + q.length

/-- `append` (polynomial.h:246-303), which is also `PolynomialFactory::append` (polynomial_factory.h:144-146). -/
noncomputable def append (o : Order) (p q : List Mono) : List Mono :=
  if q.isEmpty then p else if p.isEmpty then q else mergeAdd o p q

/-- `scale` (polynomial.cpp:126-140), which is also `operator*=` and `operator*` (polynomial.h:172-179). -/
noncomputable def scale (c : ℂ) (p : List Mono) : List Mono :=
  if c = 0 then [] else if c = 1 then p else p.map fun m => { m with factor := m.factor * c }

/-- `Monomial::approximately_equals` (monomial.h:105-109). -/
def monoEq (a b : Mono) : Prop := a.id = b.id ∧ (a.id = 0 ∨ (a.conj = b.conj ∧ a.factor = b.factor))

/-- `approximately_equals` (polynomial.cpp:143-153), which is also `operator==`. -/
noncomputable def equals : List Mono → List Mono → Bool
  | [], [] => true
  | a :: p, b :: q => decide (monoEq a b) && equals p q
  | _, _ => false

/-- First loop of `conjugate_in_place` (polynomial.cpp:185-201). -/
noncomputable def conjMono (t : Table) (m : Mono) : Mono :=
  let m := { m with factor := (starRingEnd ℂ) m.factor }
  if t.herm m.id then m
  else if t.anti m.id then { m with factor := -m.factor }
  else { m with conj := !m.conj }

/-- Second loop of `conjugate_in_place` (polynomial.cpp:204-216): neighbours with the same symbol are put in order. -/
def swapPass : List Mono → List Mono
  | [] => []
  | [a] => [a]
  | a :: b :: l => if a.id = b.id ∧ a.conj = true ∧ b.conj = false then b :: swapPass (a :: l) else a :: swapPass (b :: l)
termination_by l => l.length

/-- `conjugate` and `conjugate_in_place` (polynomial.cpp:182-218, polynomial.h:230-234). -/
noncomputable def conjugate (t : Table) (p : List Mono) : List Mono :=
  let p' := p.map (conjMono t)
  if p.any (fun m => !t.herm m.id) && decide (p.length > 1) then swapPass p' else p'

/-- `sum(Monomial, Monomial)` (polynomial_factory.cpp:96-113). -/
noncomputable def sumMM (o : Order) (a b : Mono) : List Mono :=
  if a.id = b.id ∧ a.conj = b.conj then
    if a.factor + b.factor = 0 then [] else ofMono ⟨a.id, a.conj, a.factor + b.factor⟩
  else if o.less a b then [a, b] else [b, a]

/-- `sum(Polynomial, Monomial)` (polynomial_factory.cpp:115-151). -/
noncomputable def sumPM (o : Order) : List Mono → Mono → List Mono
  | [], m => [m]
  | a :: p, m =>
    if o.less a m then a :: sumPM o p m
    else if a.id = m.id ∧ a.conj = m.conj then
      if a.factor + m.factor = 0 then p else ⟨m.id, m.conj, a.factor + m.factor⟩ :: p
    else m :: a :: p

/-- `sum(Polynomial, Polynomial)` (polynomial_factory.cpp:153-195): the same merge as in `append`. -/
noncomputable def sumPP (o : Order) (p q : List Mono) : List Mono := mergeAdd o p q

/-! ## Real and imaginary part -/

/-- The loop of `Real` (polynomial.cpp:421-463), before the factory makes a polynomial of it. -/
noncomputable def realTerms : List Mono → List Mono
  | [] => []
  | [a] =>
    let c := (starRingEnd ℂ) a.factor
    if a.conj then emit a.id ((1 / 2) * c) ((1 / 2) * a.factor) [] else emit a.id ((1 / 2) * a.factor) ((1 / 2) * c) []
  | a :: b :: l =>
    let c := (starRingEnd ℂ) a.factor
    if a.conj then emit a.id ((1 / 2) * c) ((1 / 2) * a.factor) (realTerms (b :: l))
    else if a.id = b.id then emit a.id ((1 / 2) * (a.factor + (starRingEnd ℂ) b.factor)) ((1 / 2) * (c + b.factor)) (realTerms l)
    else emit a.id ((1 / 2) * a.factor) ((1 / 2) * c) (realTerms (b :: l))
where
  /-- Appending the two terms if they are not zero (polynomial.cpp:458-463, 515-520). -/
  emit (id : Nat) (f g : ℂ) (rest : List Mono) : List Mono :=
    (if f = 0 then [] else [⟨id, false, f⟩]) ++ ((if g = 0 then [] else [⟨id, true, g⟩]) ++ rest)

/-- The loop of `Imaginary` (polynomial.cpp:477-520). -/
noncomputable def imagTerms : List Mono → List Mono
  | [] => []
  | [a] =>
    let c := (starRingEnd ℂ) a.factor
    if a.conj then realTerms.emit a.id (Complex.I / 2 * c) (-(Complex.I / 2) * a.factor) []
    else realTerms.emit a.id (-(Complex.I / 2) * a.factor) (Complex.I / 2 * c) []
  | a :: b :: l =>
    let c := (starRingEnd ℂ) a.factor
    if a.conj then realTerms.emit a.id (Complex.I / 2 * c) (-(Complex.I / 2) * a.factor) (imagTerms (b :: l))
    else if a.id = b.id then
      realTerms.emit a.id (-(Complex.I / 2) * (a.factor - (starRingEnd ℂ) b.factor)) (Complex.I / 2 * (c - b.factor)) (imagTerms l)
    else realTerms.emit a.id (-(Complex.I / 2) * a.factor) (Complex.I / 2 * c) (imagTerms (b :: l))

/-- `Real` (polynomial.cpp:412-466). -/
noncomputable def real (t : Table) (o : Order) (p : List Mono) : List Mono := if p.isEmpty then [] else make t o (realTerms p)

/-- `Imaginary` (polynomial.cpp:468-523). -/
noncomputable def imag (t : Table) (o : Order) (p : List Mono) : List Mono := if p.isEmpty then [] else make t o (imagTerms p)

/-! ## Tests -/

/-- The loop of `is_hermitian` (polynomial.cpp:221-292); `last` is `last_symbol`. -/
noncomputable def hermLoop (t : Table) (last : Option Mono) : List Mono → Bool
  | [] => last.isNone
  | m :: l =>
    if m.factor = 0 then hermLoop t last l
    else if t.herm m.id then
      if last.isSome then false else if m.factor.im ≠ 0 then false else hermLoop t none l
    else if t.anti m.id then
      if last.isSome then false else if m.factor.re ≠ 0 then false else hermLoop t none l
    else if m.conj then
      match last with
      | none => false
      | some k => if k.id ≠ m.id then false else if k.factor ≠ (starRingEnd ℂ) m.factor then false else hermLoop t none l
    else if last.isSome then false else hermLoop t (some m) l

/-- `is_hermitian` (polynomial.cpp:221-292). -/
noncomputable def isHermitian (t : Table) (p : List Mono) : Bool := hermLoop t none p

/-- The loop of `is_antihermitian` (polynomial.cpp:294-365). -/
noncomputable def antiLoop (t : Table) (last : Option Mono) : List Mono → Bool
  | [] => last.isNone
  | m :: l =>
    if m.factor = 0 then antiLoop t last l
    else if t.anti m.id then
      if last.isSome then false else if m.factor.im ≠ 0 then false else antiLoop t none l
    else if t.herm m.id then
      if last.isSome then false else if m.factor.re ≠ 0 then false else antiLoop t none l
    else if m.conj then
      match last with
      | none => false
      | some k => if k.id ≠ m.id then false else if k.factor ≠ -(starRingEnd ℂ) m.factor then false else antiLoop t none l
    else if last.isSome then false else antiLoop t (some m) l

/-- `is_antihermitian` (polynomial.cpp:294-365). -/
noncomputable def isAntihermitian (t : Table) (p : List Mono) : Bool := antiLoop t none p

/-- `is_conjugate` (polynomial.cpp:367-410). -/
noncomputable def isConjugate (t : Table) : List Mono → List Mono → Bool
  | [], [] => true
  | a :: p, b :: q =>
    if a.id ≠ b.id then false
    else if a.id = 0 then isConjugate t p q
    else if t.herm a.id then
      if a.factor ≠ (starRingEnd ℂ) b.factor then false else isConjugate t p q
    else if t.anti a.id then
      if a.factor = (starRingEnd ℂ) b.factor then
        if a.conj = b.conj then false else isConjugate t p q
      else if a.factor = -(starRingEnd ℂ) b.factor then
        if a.conj ≠ b.conj then false else isConjugate t p q
      else false
    else isConjugate t p q
  | _, _ => false

/-- `PolynomialFactory::maximum_degree` (polynomial_factory.cpp:197-209); `len` gives the length of the sequence of symbols that have one. -/
def maximumDegree (len : Nat → Option Nat) (p : List Mono) : Nat :=
  p.foldl (fun d m => if m.id > 1 then (match len m.id with | some n => max n d | none => d) else d) 0

/-- `ByHashPolynomialFactory::maximum_degree` (monomial_comparator_by_hash.cpp:37-55) on the reversed list: the iterator is never advanced,
so a last symbol without sequence makes the loop endless (`none`). -/
def maximumDegreeByHash (len : Nat → Option Nat) (rev : List Mono) : Option Nat :=
  match rev with
  | [] => some 0
  | m :: rest =>
    if m.id ≤ 1 then some 0
    else match len m.id with
      | some n => some n
      | none => maximumDegreeByHash len (m :: rest)
partial_fixpoint

end Moment.Poly
