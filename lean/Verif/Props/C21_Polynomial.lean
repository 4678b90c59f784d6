import Verif.Proof.PolyOps

/-! # C21, C22, C55: polynomials, their arithmetic, and the tests on them

An *assignment* gives every symbol a complex number and respects the symbol table (`Respects`). `value` is the sum of the terms. `Canonical` is the
form the code keeps: strictly ordered, no zeros, only symbols that are neither Hermitian nor anti-Hermitian conjugated. The order is any
injective rank on symbols with `X` before `X*`; the comparators of the code are such orders (`C21_by_id` etc.). -/

namespace Moment.C21

open Poly Classical

/-- The table used in the examples: 0 is zero, 1 is one, 2 is Hermitian, 3 is anti-Hermitian, all others are general. -/
def table : Table := ⟨fun i => i == 0 || i == 1 || i == 2, fun i => i == 0 || i == 3⟩

theorem table_good : table.Good := ⟨rfl, rfl, rfl, fun i h => by simp [table, h]; omega⟩

/-- An assignment that respects the table. -/
noncomputable def assignment : Nat → ℂ := fun i => if i = 1 then 1 else if i = 2 then -3 else if i = 3 then Complex.I else if i = 4 then 2 + Complex.I else 0

theorem assignment_respects : Respects table assignment where
  zero := by simp [assignment]
  herm := fun i h => by
    simp only [table, Bool.or_eq_true, beq_iff_eq] at h
    rcases h with (rfl | rfl) | rfl <;> simp [assignment, map_ofNat]
  anti := fun i h => by
    simp only [table, Bool.or_eq_true, beq_iff_eq] at h
    rcases h with rfl | rfl <;> simp [assignment]

theorem byId_injective : Function.Injective byId.rank := fun _ _ h => h

/-! ## C21: construction -/

/-- The factory makes a canonical polynomial of any list of monomials ... -/
theorem C21_make_canonical (t : Table) (o : Order) (ho : Function.Injective o.rank) (l : List Mono) : Canonical t o (make t o l) :=
  make_canonical t o ho l

/-- ... with the value of the list. -/
theorem C21_make_value (t : Table) (o : Order) (v : Nat → ℂ) (hv : Respects t v) (l : List Mono) : value v (make t o l) = value v l :=
  make_value hv o l

/-- A polynomial that is canonical already is not changed, so making twice is the same as making once. -/
theorem C21_make_self (t : Table) (o : Order) (ho : Function.Injective o.rank) (p : List Mono) (hp : Canonical t o p) : make t o p = p :=
  make_self ho hp

/-- The result does not depend on which sorting algorithm is used: any sorted rearrangement gives the same polynomial. -/
theorem C21_any_sort (o : Order) (ho : Function.Injective o.rank) (l l' : List Mono) (hp : l'.Perm l)
    (hs : l'.Pairwise fun a b => ¬ o.less b a = true) : removeZeros (removeDup l') = makeRaw o l := by
  have hs' : l'.Pairwise fun a b => o.key a ≤ o.key b := hs.imp fun {a b} h => by rw [less_iff] at h; omega
  refine ext_coeff ho ((removeDup_sorted o ho l' hs').filter _) (makeRaw_sorted o ho l) (fun m hm => (mem_removeZeros.mp hm).2.1)
    (fun m hm => (makeRaw_mem hm).2.1) ?_
  intro i c
  by_cases hi : i = 0
  · subst hi
    rw [coeff_eq_zero fun m hm he => (mem_removeZeros.mp hm).2.2 he.1, coeff_eq_zero fun m hm he => (makeRaw_mem hm).2.2 he.1]
  · rw [removeZeros_coeff _ _ hi, removeDup_coeff, coeff_perm hp, makeRaw_coeff o l i hi]

/-- The order in which monomials are given does not matter. -/
theorem C21_order_irrelevant (t : Table) (o : Order) (ho : Function.Injective o.rank) (l l' : List Mono) (hp : l'.Perm l) :
    make t o l' = make t o l := by
  unfold make
  refine ext_coeff ho (makeRaw_sorted o ho _) (makeRaw_sorted o ho _) (fun m hm => (makeRaw_mem hm).2.1)
    (fun m hm => (makeRaw_mem hm).2.1) ?_
  intro i c
  by_cases hi : i = 0
  · subst hi
    rw [coeff_eq_zero fun m hm he => (makeRaw_mem hm).2.2 he.1, coeff_eq_zero fun m hm he => (makeRaw_mem hm).2.2 he.1]
  · rw [makeRaw_coeff o _ i hi, makeRaw_coeff o _ i hi, coeff_perm (hp.map _)]

/-- A polynomial made of one monomial. -/
theorem C21_of_monomial (t : Table) (o : Order) (v : Nat → ℂ) (hv : Respects t v) (m : Mono)
    (hm : m.conj = true → t.herm m.id = false ∧ t.anti m.id = false) :
    value v (ofMono m) = m.value v ∧ Canonical t o (ofMono m) := by
  refine ⟨ofMono_value v hv.zero m, ?_⟩
  unfold ofMono
  split
  · rename_i h
    exact ⟨by simp, by simpa using ⟨h.2, h.1⟩, by simpa using hm⟩
  · exact ⟨by simp, by simp, by simp⟩

/-- Making a polynomial canonical again after more symbols have become Hermitian or anti-Hermitian: value and canonicity. -/
theorem C21_fix_cc (t : Table) (o : Order) (ho : Function.Injective o.rank) (t' : Table) (p : List Mono) (hp : Canonical t' o p) :
    Canonical t o (fixCanonical t p) ∧ fixCanonical t p = make t o p ∧ ∀ v, Respects t v → value v (fixCanonical t p) = value v p := by
  have key : fixCanonical t p = make t o p := by
    have hk := canonical_keys ho hp
    unfold fixCanonical
    dsimp only
    split
    · rename_i hany
      have hsorted : (p.map (fixCC t)).Pairwise fun a b => o.key a ≤ o.key b := by
        rw [List.pairwise_map]
        refine List.Pairwise.imp_of_mem ?_ hp.sorted
        intro a b ha hb h
        rcases h with h | ⟨h1, h2, h3⟩
        · unfold Order.key
          rw [fixCC_id, fixCC_id]
          have e1 : ∀ c : Bool, c.toNat ≤ 1 := fun c => by cases c <;> simp
          have := e1 (fixCC t a).conj; have := e1 (fixCC t b).conj
          omega
        · unfold Order.key
          rw [fixCC_id, fixCC_id, h1]
          have : (fixCC t a).conj = false := by
            unfold fixCC
            cases t.herm a.id <;> cases t.anti a.id <;> simp [h2]
          rw [this]
          simp
      rw [make, ← C21_any_sort o ho (p.map (fixCC t)) (p.map (fixCC t)) (List.Perm.refl _)
        (hsorted.imp fun {a b} h => by rw [less_iff]; omega)]
      split
      · rfl
      · rename_i hl
        match hq : p.map (fixCC t), hl with
        | [], _ => rfl
        | [a], _ => rfl
        | a :: b :: l, hl => simp at hl
    · rename_i hany
      have hm : ∀ m ∈ p, m.conj = true → t.herm m.id = false ∧ t.anti m.id = false := by
        intro m hm hc
        by_contra hn
        apply hany
        rw [List.any_eq_true]
        refine ⟨m, hm, ?_⟩
        rw [hc]
        cases h1 : t.herm m.id <;> cases h2 : t.anti m.id <;> simp_all
      have hid : p.map (fixCC t) = p := by
        conv_rhs => rw [← List.map_id p]
        exact List.map_congr_left fun m h => fixCC_self t m (hm m h)
      rw [hid, make_self ho ⟨hp.sorted, hp.nonzero, hm⟩]
  refine ⟨key ▸ make_canonical t o ho p, key, fun v hv => ?_⟩
  rw [key, make_value hv]

/-- The comparators of the code are orders of the kind assumed here: by symbol number, by symbol number downwards (below `2^63`, the range of
symbol numbers), and by hash (no hash is `2^64 - 1`). -/
theorem C21_comparators (hash : Nat → Option Nat) (hlt : ∀ i h, hash i = some h → h < 2 ^ 64 - 1)
    (hinj : ∀ i j h, hash i = some h → hash j = some h → i = j) :
    (∀ a b, idLess a b = byId.less a b) ∧ Function.Injective byId.rank ∧
    (∀ a b, a.id < 2 ^ 63 → b.id < 2 ^ 63 → idMore a b = (⟨fun i => 2 ^ 64 - 1 - i⟩ : Order).less a b) ∧
    (∀ a b, hashLess hash a b = (byHash hash).less a b) ∧ Function.Injective (byHash hash).rank :=
  ⟨idLess_spec, byId_injective, idMore_spec, hashLess_spec hash hlt, byHash_injective hash hlt hinj⟩

example : Respects table assignment ∧ Function.Injective byId.rank ∧
    value assignment [⟨4, true, 2⟩, ⟨2, true, 1⟩, ⟨3, true, Complex.I⟩, ⟨4, true, 1⟩] = 2 * (2 - Complex.I) + -3 + Complex.I * -Complex.I + (2 - Complex.I) := by
  refine ⟨assignment_respects, byId_injective, ?_⟩
  simp [value, Mono.value, assignment, map_ofNat]
  ring

example : ∃ hash : Nat → Option Nat, (∀ i h, hash i = some h → h < 2 ^ 64 - 1) ∧ (∀ i j h, hash i = some h → hash j = some h → i = j) ∧
    hash 5 = some 7 ∧ hash 6 = none := by
  refine ⟨fun i => if i < 6 then some (i + 2) else none, ?_, ?_, by simp, by simp⟩
  · intro i h hh
    simp only at hh
    split at hh
    · cases hh; omega
    · cases hh
  · intro i j h h1 h2
    simp only at h1 h2
    split at h1
    · split at h2
      · cases h1; cases h2; omega
      · cases h2
    · cases h1

/-- A polynomial for the examples: `2 a + i b + X + 3 X*`. -/
noncomputable def poly : List Mono := [⟨2, false, 2⟩, ⟨3, false, Complex.I⟩, ⟨4, false, 1⟩, ⟨4, true, 3⟩]

theorem poly_canonical : Canonical table byId poly := by
  refine ⟨?_, ?_, ?_⟩
  · simp [poly, byId]
  · simp [poly]
  · simp [poly, table]

example : Canonical ⟨fun i => i == 0 || i == 1, fun i => i == 0⟩ byId poly := by
  refine ⟨by simp [poly, byId], by simp [poly], by simp [poly]⟩

end Moment.C21

namespace Moment.C22

open Poly Classical C21

/-! ## C22: arithmetic -/

/-- Sums: appending, and all three sums of the factory. -/
theorem C22_sum (t : Table) (o : Order) (ho : Function.Injective o.rank) (p q : List Mono) (hp : Canonical t o p) (hq : Canonical t o q) :
    Canonical t o (append o p q) ∧ Canonical t o (sumPP o p q) ∧
    ∀ v : Nat → ℂ, value v (append o p q) = value v p + value v q ∧ value v (sumPP o p q) = value v p + value v q := by
  rw [append_eq]
  exact ⟨mergeAdd_canonical ho hp hq, mergeAdd_canonical ho hp hq, fun v => ⟨mergeAdd_value v ho p q, mergeAdd_value v ho p q⟩⟩

/-- A monomial that is not zero and is in plain form. -/
def PlainMono (t : Table) (m : Mono) : Prop :=
  m.factor ≠ 0 ∧ m.id ≠ 0 ∧ (m.conj = true → t.herm m.id = false ∧ t.anti m.id = false)

theorem single_canonical {t : Table} (o : Order) {m : Mono} (hm : PlainMono t m) : Canonical t o [m] :=
  ⟨by simp, by simpa using ⟨hm.1, hm.2.1⟩, by simpa using hm.2.2⟩

/-- Sum of a polynomial and a monomial, and of two monomials. -/
theorem C22_sum_monomial (t : Table) (o : Order) (ho : Function.Injective o.rank) (p : List Mono) (a b : Mono) (hp : Canonical t o p)
    (ha : PlainMono t a) (hb : PlainMono t b) :
    Canonical t o (sumPM o p b) ∧ Canonical t o (sumMM o a b) ∧
    ∀ v : Nat → ℂ, value v (sumPM o p b) = value v p + b.value v ∧ value v (sumMM o a b) = a.value v + b.value v := by
  have e : sumMM o a b = mergeAdd o [a] [b] := by
    unfold sumMM
    by_cases h : a.id = b.id ∧ a.conj = b.conj
    · have hk := key_congr o h.1 h.2
      have l1 : o.less a b = false := by simp [Order.less, hk]
      have l2 : o.less b a = false := by simp [Order.less, hk]
      rw [if_pos h, mergeAdd]
      by_cases h0 : a.factor + b.factor = 0
      · simp [h0, mergeAdd, l1, l2]
      · simp [h0, mergeAdd, ofMono, ha.2.1, l1, l2]
    · rw [if_neg h, mergeAdd]
      by_cases hl : o.less a b = true
      · simp [hl, mergeAdd]
      · have hl' : o.less b a = true := by
          by_contra hn
          exact h (not_less_both ho hl hn)
        simp [hl, hl', mergeAdd]
  rw [sumPM_eq ho, e]
  refine ⟨mergeAdd_canonical ho hp (single_canonical o hb), mergeAdd_canonical ho (single_canonical o ha) (single_canonical o hb), fun v => ?_⟩
  rw [mergeAdd_value v ho, mergeAdd_value v ho]
  simp

/-- Scaling; negation is scaling by −1, and a difference is a sum with a negated polynomial. -/
theorem C22_scale (t : Table) (o : Order) (p : List Mono) (hp : Canonical t o p) (c : ℂ) :
    Canonical t o (scale c p) ∧ ∀ v : Nat → ℂ, value v (scale c p) = c * value v p :=
  ⟨scale_canonical hp c, fun v => scale_value v c p⟩

theorem C22_difference (t : Table) (o : Order) (ho : Function.Injective o.rank) (p q : List Mono) (hp : Canonical t o p) (hq : Canonical t o q) :
    Canonical t o (append o p (scale (-1) q)) ∧ ∀ v : Nat → ℂ, value v (append o p (scale (-1) q)) = value v p - value v q := by
  refine ⟨(C22_sum t o ho p _ hp (scale_canonical hq _)).1, fun v => ?_⟩
  rw [((C22_sum t o ho p _ hp (scale_canonical hq (-1))).2.2 v).1, scale_value]
  ring

/-- Conjugation. -/
theorem C22_conjugate (t : Table) (o : Order) (ho : Function.Injective o.rank) (p : List Mono) (hp : Canonical t o p) :
    Canonical t o (conjugate t p) ∧ ∀ v, Respects t v → value v (conjugate t p) = (starRingEnd ℂ) (value v p) :=
  ⟨conjugate_canonical ho hp, fun _ hv => conjugate_value hv hp.plain⟩

theorem re_eq (z : ℂ) : (1 / 2) * (z + (starRingEnd ℂ) z) = (z.re : ℂ) := by
  apply Complex.ext <;> simp
  ring

theorem im_eq (z : ℂ) : -(Complex.I / 2) * (z - (starRingEnd ℂ) z) = (z.im : ℂ) := by
  rw [Complex.sub_conj]
  push_cast
  linear_combination (-(z.im : ℂ)) * Complex.I_mul_I

/-- Real part. -/
theorem C22_real (t : Table) (o : Order) (ho : Function.Injective o.rank) (p : List Mono) (hp : Canonical t o p) :
    Canonical t o (real t o p) ∧ ∀ v, Respects t v → value v (real t o p) = ((value v p).re : ℂ) := by
  unfold real
  cases p with
  | nil => exact ⟨⟨by simp, by simp, by simp⟩, fun v _ => by simp⟩
  | cons a p =>
    simp only [List.isEmpty_cons, Bool.false_eq_true, if_false]
    exact ⟨make_canonical t o ho _, fun v hv => by rw [make_value hv, realTerms_value v _ (canonical_paired hp), re_eq]⟩

/-- Imaginary part. -/
theorem C22_imaginary (t : Table) (o : Order) (ho : Function.Injective o.rank) (p : List Mono) (hp : Canonical t o p) :
    Canonical t o (imag t o p) ∧ ∀ v, Respects t v → value v (imag t o p) = ((value v p).im : ℂ) := by
  unfold imag
  cases p with
  | nil => exact ⟨⟨by simp, by simp, by simp⟩, fun v _ => by simp⟩
  | cons a p =>
    simp only [List.isEmpty_cons, Bool.false_eq_true, if_false]
    exact ⟨make_canonical t o ho _, fun v hv => by rw [make_value hv, imagTerms_value v _ (canonical_paired hp), im_eq]⟩

/-- `Polynomial::operator+` and `+=` (polynomial.h:162-170) merge in the order of symbol numbers, whatever factory made the operands. -/
noncomputable def plus (p q : List Mono) : List Mono := append byId p q

/-- What holds for `+` on polynomials of any factory: the value. Canonicity is only kept for polynomials ordered by number; full claim: the sum is canonical in the order of the operands. -/
theorem C22_plus_partial (t : Table) (p q : List Mono) :
    (∀ v : Nat → ℂ, value v (plus p q) = value v p + value v q) ∧
    (Canonical t byId p → Canonical t byId q → Canonical t byId (plus p q)) :=
  ⟨fun v => by rw [plus, append_eq]; exact mergeAdd_value v byId_injective p q,
   fun hp hq => (C22_sum t byId byId_injective p q hp hq).1⟩

/-- Hashes for the refutation: symbol 5 has a smaller hash than symbol 4. -/
def hashes : Nat → Option Nat := fun i => if i = 4 then some 9 else if i = 5 then some 8 else none

theorem hashes_injective : Function.Injective (byHash hashes).rank := by
  apply byHash_injective
  · intro i h hh
    unfold hashes at hh
    split at hh
    · cases hh; omega
    · split at hh
      · cases hh; omega
      · cases hh
  · intro i j h h1 h2
    unfold hashes at h1 h2
    split at h1 <;> split at h2 <;> simp_all <;> omega

/-- Refutation: ordered by hash, symbol 5 comes before symbol 4, and the sum of the canonical polynomials `5` and `4` is not canonical. -/
theorem C22_refuted_plus : ∃ p q : List Mono, Function.Injective (byHash hashes).rank ∧ Canonical table (byHash hashes) p ∧
    Canonical table (byHash hashes) q ∧ ¬ Canonical table (byHash hashes) (plus p q) := by
  refine ⟨[⟨5, false, 1⟩], [⟨4, false, 1⟩], hashes_injective, ⟨by simp, by simp, by simp⟩, ⟨by simp, by simp, by simp⟩, fun h => ?_⟩
  have : plus [⟨5, false, 1⟩] [⟨4, false, 1⟩] = [⟨4, false, 1⟩, ⟨5, false, 1⟩] := by
    simp [plus, append, mergeAdd, Order.less, Order.key, byId]
  rw [this] at h
  have := h.sorted
  simp [byHash, hashes] at this

example : Canonical table byId poly ∧ PlainMono table ⟨5, true, Complex.I⟩ ∧ Respects table assignment :=
  ⟨poly_canonical, ⟨Complex.I_ne_zero, by simp, by simp [table]⟩, assignment_respects⟩

end Moment.C22

namespace Moment.C55

open Poly Classical C21

/-! ## C55: equality and Hermiticity tests -/

/-- `==` compares the terms. -/
theorem equals_iff {t : Table} {o : Order} {p q : List Mono} (hp : Canonical t o p) : equals p q = true ↔ p = q := by
  have hz : ∀ m ∈ p, m.id ≠ 0 := fun m hm => (hp.nonzero m hm).2
  clear hp
  induction p generalizing q with
  | nil => cases q <;> simp [equals]
  | cons a p ih =>
    cases q with
    | nil => simp [equals]
    | cons b q =>
      have ih' := ih (q := q) fun m hm => hz m (by simp [hm])
      rw [equals, Bool.and_eq_true, List.cons.injEq, decide_eq_true_iff]
      refine and_congr ?_ ih'
      have ha := hz a (by simp)
      obtain ⟨i, c, f⟩ := a
      obtain ⟨j, d, g⟩ := b
      unfold monoEq
      simp only at ha
      simp [ha]

/-- Equality of canonical polynomials is equality of values: `==` answers true exactly if both polynomials have the same value under every
assignment that respects the table and gives the identity the value one. -/
theorem C55_equality (t : Table) (ht : t.Good) (o : Order) (ho : Function.Injective o.rank) (p q : List Mono) (hp : Canonical t o p)
    (hq : Canonical t o q) : equals p q = true ↔ ∀ v, Respects t v → v 1 = 1 → value v p = value v q := by
  rw [equals_iff hp]
  exact ⟨fun h v _ _ => by rw [h], canonical_unique ht ho hp hq⟩

/-- Two lists of monomials give the same polynomial exactly if they have the same value everywhere. -/
theorem C55_make_complete (t : Table) (ht : t.Good) (o : Order) (ho : Function.Injective o.rank) (l l' : List Mono) :
    make t o l = make t o l' ↔ ∀ v, Respects t v → v 1 = 1 → value v l = value v l' := by
  constructor
  · intro h v hv _
    rw [← make_value hv o l, h, make_value hv]
  · intro h
    refine canonical_unique ht ho (make_canonical t o ho l) (make_canonical t o ho l') fun v hv h1 => ?_
    rw [make_value hv, make_value hv]
    exact h v hv h1

/-- A polynomial has no terms exactly if it is zero everywhere. -/
theorem C55_empty (t : Table) (ht : t.Good) (o : Order) (ho : Function.Injective o.rank) (p : List Mono) (hp : Canonical t o p) :
    p = [] ↔ ∀ v, Respects t v → v 1 = 1 → value v p = 0 := by
  constructor
  · rintro rfl v _ _; rfl
  · intro h
    exact canonical_unique ht ho hp ⟨by simp, by simp, by simp⟩ fun v hv h1 => by rw [h v hv h1]; rfl

/-- The Hermitian test is exact: true if and only if the value is real under every assignment. -/
theorem C55_hermitian (t : Table) (ht : t.Good) (o : Order) (ho : Function.Injective o.rank) (p : List Mono) (hp : Canonical t o p) :
    isHermitian t p = true ↔ ∀ v, Respects t v → v 1 = 1 → (value v p).im = 0 := by
  constructor
  · intro h v hv _
    have := hermLoop_real hv p none hp.plain (by simp) h
    exact Complex.conj_eq_iff_im.mp (by simpa using this)
  · intro h
    have he : conjugate t p = p := by
      refine canonical_unique ht ho (conjugate_canonical ho hp) hp fun v hv h1 => ?_
      rw [conjugate_value hv hp.plain]
      exact Complex.conj_eq_iff_im.mpr (h v hv h1)
    refine hermLoop_of_selfConj ho p.length p le_rfl hp fun m hm => ?_
    have : conjMono t m ∈ p.map (conjMono t) := List.mem_map_of_mem hm
    rwa [← (conjugate_perm t p).mem_iff, he] at this

/-- The anti-Hermitian test is exact. -/
theorem C55_antihermitian (t : Table) (ht : t.Good) (o : Order) (ho : Function.Injective o.rank) (p : List Mono) (hp : Canonical t o p) :
    isAntihermitian t p = true ↔ ∀ v, Respects t v → v 1 = 1 → (value v p).re = 0 := by
  have hI : Complex.I ≠ 1 := fun h => by have := congrArg Complex.im h; simp at this
  have e : isAntihermitian t p = isHermitian t (scale Complex.I p) := by
    unfold isAntihermitian isHermitian scale
    rw [if_neg Complex.I_ne_zero, if_neg hI, antiLoop_eq]
    · rfl
    · exact fun m hm => ht.notBoth m.id (hp.nonzero m hm).2
  rw [e, C55_hermitian t ht o ho _ (scale_canonical hp _)]
  simp only [scale_value]
  simp

/-- What `is_conjugate` tests for two terms. -/
def Matches (t : Table) (a b : Mono) : Prop :=
  a.id = b.id ∧ (t.herm a.id = true → a.factor = (starRingEnd ℂ) b.factor) ∧
  (t.herm a.id = false → t.anti a.id = true → a.conj = b.conj ∧ a.factor = -(starRingEnd ℂ) b.factor ∧ a.factor ≠ 0)

theorem isConjugate_of_matches {t : Table} {p q : List Mono} (h : List.Forall₂ (Matches t) p q) : isConjugate t p q = true := by
  induction h with
  | nil => simp [isConjugate]
  | @cons a b p q hab _ ih =>
    obtain ⟨h1, h2, h3⟩ := hab
    rw [isConjugate]
    simp only [h1, ne_eq, not_true_eq_false, if_false, ih]
    rw [h1] at h2 h3
    by_cases h0 : b.id = 0
    · simp [h0]
    · rw [if_neg h0]
      by_cases hh : t.herm b.id = true
      · simp [hh, h2 hh]
      · by_cases ha : t.anti b.id = true
        · obtain ⟨e1, e2, e3⟩ := h3 (by simpa using hh) ha
          have hne : a.factor ≠ (starRingEnd ℂ) b.factor := by
            intro e
            apply e3
            rw [← e] at e2
            exact self_eq_neg.mp e2
          simp only [hh, ha, if_true, if_false, Bool.false_eq_true]
          rw [if_neg hne, if_pos e2, if_neg (not_not.mpr e1)]
        · simp [hh, ha]

theorem matches_swapPass {t : Table} (l : List Mono) : ∀ p, (∀ m ∈ l, m.conj = true → t.herm m.id = false ∧ t.anti m.id = false) →
    List.Forall₂ (Matches t) p l → List.Forall₂ (Matches t) p (swapPass l) := by
  induction l using swapPass.induct with
  | case1 => intro p _ h; rwa [swapPass]
  | case2 a => intro p _ h; rwa [swapPass]
  | case3 a b l he ih =>
    intro p hg h
    rw [swapPass, if_pos he]
    cases h with
    | @cons x _ p' _ hx hr =>
      cases hr with
      | @cons y _ p'' _ hy hr =>
        have g := hg a (by simp) he.2.1
        have gx : t.herm x.id = false ∧ t.anti x.id = false := by rw [hx.1]; exact g
        have gy : t.herm y.id = false ∧ t.anti y.id = false := by rw [hy.1, ← he.1]; exact g
        refine List.Forall₂.cons ⟨hx.1.trans he.1, by simp [gx], by simp [gx]⟩ (ih _ ?_ (List.Forall₂.cons ⟨hy.1.trans he.1.symm, by simp [gy], by simp [gy]⟩ hr))
        intro m hm
        exact hg m (by simp at hm ⊢; tauto)
  | case4 a b l he ih =>
    intro p hg h
    rw [swapPass, if_neg he]
    cases h with
    | cons hx hr => exact List.Forall₂.cons hx (ih _ (fun m hm => hg m (by simp at hm ⊢; tauto)) hr)

/-- `is_conjugate` never misses: it answers true for a polynomial and its conjugate. -/
theorem C55_conjugate_found (t : Table) (o : Order) (p : List Mono) (hp : Canonical t o p) : isConjugate t p (conjugate t p) = true := by
  apply isConjugate_of_matches
  have base : List.Forall₂ (Matches t) p (p.map (conjMono t)) := by
    rw [List.forall₂_map_right_iff, List.forall₂_same]
    intro m hm
    refine ⟨(conjMono_id t m).symm, ?_, ?_⟩
    · intro h; simp [conjMono, h]
    · intro h1 h2; exact ⟨by simp [conjMono, h1, h2], by simp [conjMono, h1, h2], (hp.nonzero m hm).1⟩
  unfold conjugate
  dsimp only
  split
  · apply matches_swapPass _ _ _ base
    intro m hm hc
    obtain ⟨y, hy, rfl⟩ := List.mem_map.mp hm
    rw [conjMono_id]
    rw [conjMono_conj] at hc
    split at hc
    · exact hp.plain y hy hc
    · rename_i hn; simpa using hn
  · exact base

/-- What `is_conjugate` accepts is conjugate, when the symbols of the first polynomial are Hermitian or anti-Hermitian. -/
theorem conjugate_sound {t : Table} {o : Order} {p q : List Mono} (hp : Canonical t o p) (hq : Canonical t o q)
    (hall : ∀ m ∈ p, t.herm m.id = true ∨ t.anti m.id = true) (h : isConjugate t p q = true) {v : Nat → ℂ} (hv : Respects t v) :
    value v q = (starRingEnd ℂ) (value v p) := by
  have pp := hp.plain
  have pq := hq.plain
  have pz := hp.nonzero
  clear hp hq
  induction p generalizing q with
  | nil =>
    cases q with
    | nil => simp
    | cons b q => simp [isConjugate] at h
  | cons a p ih =>
    cases q with
    | nil => simp [isConjugate] at h
    | cons b q =>
      rw [isConjugate] at h
      split at h
      · cases h
      · rename_i hid
        rw [not_ne_iff] at hid
        have rest : ∀ h : isConjugate t p q = true, value v q = (starRingEnd ℂ) (value v p) := fun h =>
          ih (fun m hm => hall m (by simp [hm])) h (fun m hm => pp m (by simp [hm])) (fun m hm => pq m (by simp [hm])) (fun m hm => pz m (by simp [hm]))
        have hab := hall a (by simp)
        have hac : a.conj = false := by
          cases hc : a.conj
          · rfl
          · have := pp a (by simp) hc; rcases hab with h | h <;> simp [h] at this
        have hbc : b.conj = false := by
          cases hc : b.conj
          · rfl
          · have := pq b (by simp) hc
            rw [← hid] at this
            rcases hab with h | h <;> simp [h] at this
        rw [if_neg (pz a (by simp)).2] at h
        rw [value_cons, value_cons, map_add]
        by_cases hh : t.herm a.id = true
        · simp only [hh, if_true] at h
          split at h
          · cases h
          · rename_i hf
            rw [not_ne_iff] at hf
            rw [rest h]
            simp [Mono.value, hac, hbc, ← hid, hf, hv.herm _ hh]
        · have ha : t.anti a.id = true := by tauto
          simp only [hh, ha, if_true, if_false, Bool.false_eq_true, hac, hbc, ne_eq, not_true_eq_false] at h
          split at h
          · cases h
          · split at h
            · rename_i hf
              rw [rest h]
              simp [Mono.value, hac, hbc, ← hid, hf, hv.anti _ ha]
            · cases h

/-- `is_conjugate` is exact for polynomials of Hermitian and anti-Hermitian symbols. Full claim: for all polynomials; this fails, see
`C55_refuted_conjugate`. -/
theorem C55_conjugate_partial (t : Table) (ht : t.Good) (o : Order) (ho : Function.Injective o.rank) (p q : List Mono) (hp : Canonical t o p)
    (hq : Canonical t o q) (hall : ∀ m ∈ p, t.herm m.id = true ∨ t.anti m.id = true) :
    isConjugate t p q = true ↔ ∀ v, Respects t v → v 1 = 1 → value v q = (starRingEnd ℂ) (value v p) := by
  constructor
  · exact fun h v hv _ => conjugate_sound hp hq hall h hv
  · intro h
    have : q = conjugate t p := canonical_unique ht ho hq (conjugate_canonical ho hp) fun v hv h1 => by
      rw [h v hv h1, conjugate_value hv hp.plain]
    rw [this]
    exact C55_conjugate_found t o p hp

/-- Refutation: for a symbol `X` that is neither Hermitian nor anti-Hermitian, `is_conjugate` takes `X` and `2 X` for conjugates. -/
theorem C55_refuted_conjugate : ∃ (p q : List Mono) (v : Nat → ℂ), Canonical table byId p ∧ Canonical table byId q ∧ isConjugate table p q = true ∧
    Respects table v ∧ v 1 = 1 ∧ value v q ≠ (starRingEnd ℂ) (value v p) := by
  refine ⟨[⟨4, false, 1⟩], [⟨4, false, 2⟩], assignment, ⟨by simp, by simp, by simp⟩, ⟨by simp, by simp, by simp⟩, by simp [isConjugate, table],
    assignment_respects, by simp [assignment], ?_⟩
  intro h
  have := congrArg Complex.re h
  simp [Mono.value, assignment] at this

example : table.Good ∧ Function.Injective byId.rank ∧ Canonical table byId poly := ⟨table_good, byId_injective, poly_canonical⟩

example : ∃ p, Canonical table byId p ∧ p.length = 2 ∧ ∀ m ∈ p, table.herm m.id = true ∨ table.anti m.id = true :=
  ⟨[⟨2, false, 5⟩, ⟨3, false, Complex.I⟩], ⟨by simp [byId], by simp, by simp⟩, rfl, by simp [table]⟩

/-! ## Degree -/

/-- `maximum_degree`: no word of the polynomial is longer, and the length is reached unless it is 0. -/
theorem C55_maximum_degree (len : Nat → Option Nat) (p : List Mono) :
    (∀ m ∈ p, m.id > 1 → ∀ n, len m.id = some n → n ≤ maximumDegree len p) ∧
    (maximumDegree len p = 0 ∨ ∃ m ∈ p, m.id > 1 ∧ len m.id = some (maximumDegree len p)) := by
  unfold maximumDegree
  have gen : ∀ (p : List Mono) (d : Nat), let r := p.foldl (fun d m => if m.id > 1 then (match len m.id with | some n => max n d | none => d) else d) d
      d ≤ r ∧ (∀ m ∈ p, m.id > 1 → ∀ n, len m.id = some n → n ≤ r) ∧ (r = d ∨ ∃ m ∈ p, m.id > 1 ∧ len m.id = some r) := by
    intro p
    induction p with
    | nil => intro d; simp
    | cons a p ih =>
      intro d
      simp only [List.foldl_cons]
      by_cases h1 : a.id > 1
      · rw [if_pos h1]
        cases hl : len a.id with
        | none =>
          obtain ⟨i1, i2, i3⟩ := ih d
          refine ⟨i1, ?_, ?_⟩
          · intro m hm hm1 n hn
            rcases List.mem_cons.mp hm with rfl | hm
            · rw [hl] at hn; cases hn
            · exact i2 m hm hm1 n hn
          · rcases i3 with h | ⟨m, hm, h⟩
            · exact Or.inl h
            · exact Or.inr ⟨m, by simp [hm], h⟩
        | some k =>
          obtain ⟨i1, i2, i3⟩ := ih (max k d)
          refine ⟨le_trans (le_max_right _ _) i1, ?_, ?_⟩
          · intro m hm hm1 n hn
            rcases List.mem_cons.mp hm with rfl | hm
            · rw [hl] at hn; cases hn; exact le_trans (le_max_left _ _) i1
            · exact i2 m hm hm1 n hn
          · rcases i3 with h | ⟨m, hm, h⟩
            · rcases max_choice k d with hk | hk
              · right; exact ⟨a, by simp, h1, by simp only; rw [h, hl, hk]⟩
              · left; simp only; rw [h, hk]
            · exact Or.inr ⟨m, by simp [hm], h⟩
      · rw [if_neg h1]
        obtain ⟨i1, i2, i3⟩ := ih d
        refine ⟨i1, ?_, ?_⟩
        · intro m hm hm1 n hn
          rcases List.mem_cons.mp hm with rfl | hm
          · exact absurd hm1 h1
          · exact i2 m hm hm1 n hn
        · rcases i3 with h | ⟨m, hm, h⟩
          · exact Or.inl h
          · exact Or.inr ⟨m, by simp [hm], h⟩
  exact (gen p 0).2

/-- By hash, the last term has the longest word: if every symbol has a word, longer words have larger ranks and the identity has the least rank,
`maximum_degree` of the by-hash factory ends and agrees with the general one. Full claim: for all symbols; see `C55_refuted_degree_by_hash`. -/
theorem C55_degree_by_hash_partial (t : Table) (o : Order) (len : Nat → Option Nat) (p : List Mono) (hp : Canonical t o p)
    (hlen : ∀ m ∈ p, (len m.id).isSome = true)
    (hmono : ∀ i j a b, o.rank i ≤ o.rank j → len i = some a → len j = some b → a ≤ b) (hone : ∀ i, i > 1 → o.rank 1 < o.rank i) :
    maximumDegreeByHash len p.reverse = some (maximumDegree len p) := by
  obtain ⟨hup, hat⟩ := C55_maximum_degree len p
  rcases List.eq_nil_or_concat p with rfl | ⟨q, m, rfl⟩
  · rw [List.reverse_nil, maximumDegreeByHash]; simp [maximumDegree]
  · rw [List.concat_eq_append] at *
    have hs := hp.sorted
    rw [List.pairwise_append] at hs
    have hlast : ∀ x ∈ q ++ [m], o.rank x.id ≤ o.rank m.id := by
      intro x hx
      rcases List.mem_append.mp hx with hx | hx
      · rcases hs.2.2 x hx m (by simp) with h | h
        · exact le_of_lt h
        · rw [h.1]
      · simp at hx; rw [hx]
    rw [List.reverse_append, List.reverse_singleton, List.singleton_append, maximumDegreeByHash]
    by_cases h1 : m.id ≤ 1
    · rw [if_pos h1]
      rcases hat with h | ⟨x, hx, hx1, -⟩
      · rw [h]
      · exfalso
        have := hlast x hx
        have h0 := (hp.nonzero m (by simp)).2
        have e : m.id = 1 := by omega
        have h2 := hone x.id hx1
        rw [e] at this
        omega
    · rw [if_neg h1]
      obtain ⟨n, hn⟩ := Option.isSome_iff_exists.mp (hlen m (by simp))
      rw [hn]
      simp only [Option.some.injEq]
      refine le_antisymm (hup m (by simp) (by omega) n hn) ?_
      rcases hat with h | ⟨x, hx, hx1, hxl⟩
      · omega
      · exact hmono _ _ _ _ (hlast x hx) hxl hn

/-- Refutation: if the last symbol of the polynomial has no word, the by-hash `maximum_degree` never ends. -/
theorem C55_refuted_degree_by_hash (len : Nat → Option Nat) (m : Mono) (rest : List Mono) (h1 : m.id > 1) (hl : len m.id = none) :
    maximumDegreeByHash len (m :: rest) = none := by
  cases hr : maximumDegreeByHash len (m :: rest) with
  | none => rfl
  | some d =>
    exfalso
    refine maximumDegreeByHash.partial_correctness len (fun rev _ => ∀ m rest, rev = m :: rest → m.id > 1 → len m.id ≠ none) ?_ _ _ hr m rest rfl h1 hl
    intro f hf rev d hd m rest he h1 hl
    subst he
    simp only [show ¬ m.id ≤ 1 by omega, if_false, hl] at hd
    exact hf _ _ hd m rest rfl h1 hl

example : maximumDegreeByHash (fun i => if i < 5 then some 2 else none) [⟨7, false, 1⟩, ⟨4, false, 1⟩] = none :=
  C55_refuted_degree_by_hash _ _ _ (by simp) (by simp)

example : ∃ (len : Nat → Option Nat), Canonical table byId poly ∧ (∀ m ∈ poly, (len m.id).isSome = true) ∧
    (∀ i j a b, byId.rank i ≤ byId.rank j → len i = some a → len j = some b → a ≤ b) ∧ (∀ i, i > 1 → byId.rank 1 < byId.rank i) ∧
    maximumDegree len poly = 2 := by
  refine ⟨fun i => some (i / 2), poly_canonical, by simp, ?_, by simp [byId], by simp [maximumDegree, poly]⟩
  intro i j a b h h1 h2
  cases h1; cases h2
  exact Nat.div_le_div_right h

end Moment.C55
