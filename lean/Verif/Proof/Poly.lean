import Verif.Spec.Poly
import Verif.Proof.Sorting
import Mathlib.Tactic.Ring
import Mathlib.Tactic.LinearCombination

/-! # Lemmas about polynomials: values, coefficients, canonical form -/

namespace Moment.Poly

open Classical

/-! ## Values -/

@[simp] theorem value_nil (v : Nat → ℂ) : value v [] = 0 := rfl
@[simp] theorem value_cons (v : Nat → ℂ) (m : Mono) (p : List Mono) : value v (m :: p) = m.value v + value v p := by simp [value]
@[simp] theorem value_append (v : Nat → ℂ) (p q : List Mono) : value v (p ++ q) = value v p + value v q := by simp [value]
theorem value_perm (v : Nat → ℂ) {p q : List Mono} (h : p.Perm q) : value v p = value v q := (h.map _).sum_eq

theorem fixCC_value {t : Table} {v : Nat → ℂ} (hv : Respects t v) (m : Mono) : (fixCC t m).value v = m.value v := by
  obtain ⟨i, c, f⟩ := m
  unfold fixCC Mono.value
  cases hh : t.herm i <;> cases ha : t.anti i <;> cases c <;> simp [hh, ha]
  · rw [hv.anti i ha]; ring
  · left; exact (hv.herm i hh).symm
  · left; exact (hv.herm i hh).symm

theorem fixCC_id (t : Table) (m : Mono) : (fixCC t m).id = m.id := by
  unfold fixCC; dsimp only; split <;> split <;> rfl

theorem fixCC_plain (t : Table) (m : Mono) (h : (fixCC t m).conj = true) : t.herm (fixCC t m).id = false ∧ t.anti (fixCC t m).id = false := by
  obtain ⟨i, c, f⟩ := m
  rw [fixCC_id]
  unfold fixCC at h
  cases hh : t.herm i <;> cases ha : t.anti i <;> cases c <;> simp [hh, ha] at h ⊢

/-- Nothing to do on monomials that are already plain. -/
theorem fixCC_self (t : Table) (m : Mono) (h : m.conj = true → t.herm m.id = false ∧ t.anti m.id = false) : fixCC t m = m := by
  obtain ⟨i, c, f⟩ := m
  unfold fixCC
  cases hh : t.herm i <;> cases ha : t.anti i <;> cases c <;> simp_all

theorem value_map_fixCC {t : Table} {v : Nat → ℂ} (hv : Respects t v) (p : List Mono) : value v (p.map (fixCC t)) = value v p := by
  induction p with
  | nil => rfl
  | cons m p ih => simp [fixCC_value hv, ih]

theorem removeDupLoop_value (v : Nat → ℂ) : ∀ (l : List Mono) (m : Mono), value v (removeDupLoop m l) = m.value v + value v l
  | [], m => by simp [removeDupLoop]
  | b :: l, m => by
    unfold removeDupLoop
    split
    · rename_i h
      rw [removeDupLoop_value v l]
      simp only [Mono.value, value_cons, h.1, h.2]
      ring
    · simp [removeDupLoop_value v l]

theorem removeDup_value (v : Nat → ℂ) : ∀ l : List Mono, value v (removeDup l) = value v l
  | [] => rfl
  | m :: l => by rw [removeDup, removeDupLoop_value, value_cons]

theorem removeZeros_value (v : Nat → ℂ) (h0 : v 0 = 0) (l : List Mono) : value v (removeZeros l) = value v l := by
  unfold removeZeros
  induction l with
  | nil => rfl
  | cons m l ih =>
    rw [List.filter_cons]
    split
    · rw [value_cons, value_cons, ih]
    · rename_i h
      have : m.value v = 0 := by
        simp only [Bool.not_eq_eq_eq_not, Bool.not_true, Bool.or_eq_false_iff, decide_eq_false_iff_not, beq_eq_false_iff_ne, not_and_or, not_not] at h
        unfold Mono.value
        rcases h with h | h <;> simp [h, h0]
      rw [ih, value_cons, this, zero_add]

theorem makeRaw_value (v : Nat → ℂ) (h0 : v 0 = 0) (o : Order) (l : List Mono) : value v (makeRaw o l) = value v l := by
  unfold makeRaw
  rw [removeZeros_value v h0]
  split
  · rw [removeDup_value]; exact value_perm v (stableSort_perm _ _)
  · rfl

theorem make_value {t : Table} {v : Nat → ℂ} (hv : Respects t v) (o : Order) (l : List Mono) : value v (make t o l) = value v l := by
  rw [make, makeRaw_value v hv.zero, value_map_fixCC hv]

theorem ofMono_value (v : Nat → ℂ) (h0 : v 0 = 0) (m : Mono) : value v (ofMono m) = m.value v := by
  unfold ofMono
  split
  · simp
  · rename_i h
    rw [not_and_or, not_not, not_not] at h
    unfold Mono.value
    rcases h with h | h <;> simp [h, h0]

/-! ## Order -/

theorem key_lt {o : Order} {a b : Mono} : o.key a < o.key b ↔ o.rank a.id < o.rank b.id ∨ (o.rank a.id = o.rank b.id ∧ a.conj = false ∧ b.conj = true) := by
  unfold Order.key
  cases a.conj <;> cases b.conj <;> simp <;> omega

theorem key_eq {o : Order} (ho : Function.Injective o.rank) {a b : Mono} : o.key a = o.key b ↔ a.id = b.id ∧ a.conj = b.conj := by
  unfold Order.key
  constructor
  · intro h
    have : o.rank a.id = o.rank b.id ∧ a.conj = b.conj := by
      revert h
      cases a.conj <;> cases b.conj <;> simp <;> omega
    exact ⟨ho this.1, this.2⟩
  · rintro ⟨h, h'⟩; rw [h, h']

theorem sorted_iff {o : Order} (ho : Function.Injective o.rank) {p : List Mono} :
    (p.Pairwise fun a b => o.rank a.id < o.rank b.id ∨ (a.id = b.id ∧ a.conj = false ∧ b.conj = true)) ↔
    p.Pairwise fun a b => o.key a < o.key b := by
  have : ∀ a b : Mono, (o.rank a.id < o.rank b.id ∨ (a.id = b.id ∧ a.conj = false ∧ b.conj = true)) ↔ o.key a < o.key b := by
    intro a b
    rw [key_lt, ho.eq_iff]
  simp only [this]

theorem idLess_spec (a b : Mono) : idLess a b = byId.less a b := by
  unfold idLess Order.less byId Order.key
  obtain ⟨i, c, f⟩ := a
  obtain ⟨j, d, g⟩ := b
  simp only [id]
  rcases Nat.lt_trichotomy i j with h | h | h
  · rw [if_pos h]; cases c <;> cases d <;> simp <;> omega
  · subst h; simp; cases c <;> cases d <;> simp
  · rw [if_neg (by omega), if_pos h]; cases c <;> cases d <;> simp <;> omega

/-- `IdMoreComparator` on symbol numbers below `2^63`: the rank is the key of monomial_comparator.h:73-76. -/
theorem idMore_spec (a b : Mono) (ha : a.id < 2 ^ 63) (hb : b.id < 2 ^ 63) :
    idMore a b = (⟨fun i => 2 ^ 64 - 1 - i⟩ : Order).less a b := by
  unfold idMore Order.less Order.key
  obtain ⟨i, c, f⟩ := a
  obtain ⟨j, d, g⟩ := b
  simp only at ha hb ⊢
  rcases Nat.lt_trichotomy i j with h | h | h
  · rw [if_neg (by omega), if_pos h]; cases c <;> cases d <;> simp <;> omega
  · subst h; simp; cases c <;> cases d <;> simp
  · rw [if_pos h]; cases c <;> cases d <;> simp <;> omega

/-- `CompareByOpHash`, as long as no hash is `2^64 - 1` (the key of symbols without sequence). -/
theorem hashLess_spec (hash : Nat → Option Nat) (hlt : ∀ i h, hash i = some h → h < 2 ^ 64 - 1) (a b : Mono) :
    hashLess hash a b = (byHash hash).less a b := by
  unfold hashLess Order.less Order.key hashKey byHash
  obtain ⟨i, c, f⟩ := a
  obtain ⟨j, d, g⟩ := b
  simp only
  rw [decide_eq_decide]
  cases hi : hash i <;> cases hj : hash j <;> simp only
  · cases c <;> cases d <;> simp <;> omega
  · have := hlt j _ hj; cases c <;> cases d <;> simp <;> omega
  · have := hlt i _ hi; cases c <;> cases d <;> simp <;> omega
  · cases c <;> cases d <;> simp <;> omega

theorem byHash_injective (hash : Nat → Option Nat) (hlt : ∀ i h, hash i = some h → h < 2 ^ 64 - 1)
    (hinj : ∀ i j h, hash i = some h → hash j = some h → i = j) : Function.Injective (byHash hash).rank := by
  intro i j h
  unfold byHash at h
  simp only at h
  cases hi : hash i <;> cases hj : hash j <;> simp only [hi, hj] at h
  · omega
  · have := hlt j _ hj; omega
  · have := hlt i _ hi; omega
  · rw [← h] at hj; exact hinj _ _ _ hi hj

/-! ## Coefficients -/

/-- Coefficient of a symbol (or its conjugate). -/
noncomputable def coeff (p : List Mono) (i : Nat) (c : Bool) : ℂ := (p.map fun m => if m.id = i ∧ m.conj = c then m.factor else 0).sum

@[simp] theorem coeff_nil (i : Nat) (c : Bool) : coeff [] i c = 0 := rfl
@[simp] theorem coeff_cons (m : Mono) (p : List Mono) (i : Nat) (c : Bool) :
    coeff (m :: p) i c = (if m.id = i ∧ m.conj = c then m.factor else 0) + coeff p i c := by simp [coeff]
@[simp] theorem coeff_append (p q : List Mono) (i : Nat) (c : Bool) : coeff (p ++ q) i c = coeff p i c + coeff q i c := by simp [coeff]
theorem coeff_perm {p q : List Mono} (h : p.Perm q) (i : Nat) (c : Bool) : coeff p i c = coeff q i c := (h.map _).sum_eq

theorem coeff_eq_zero {p : List Mono} {i : Nat} {c : Bool} (h : ∀ m ∈ p, ¬ (m.id = i ∧ m.conj = c)) : coeff p i c = 0 := by
  induction p with
  | nil => rfl
  | cons m p ih => rw [coeff_cons, if_neg (h m (by simp)), ih (fun m hm => h m (by simp [hm])), add_zero]

theorem removeDupLoop_coeff (i : Nat) (c : Bool) : ∀ (l : List Mono) (m : Mono), coeff (removeDupLoop m l) i c = coeff (m :: l) i c
  | [], m => by simp [removeDupLoop]
  | b :: l, m => by
    unfold removeDupLoop
    split
    · rename_i h
      rw [removeDupLoop_coeff i c l]
      simp only [coeff_cons, ← h.1, ← h.2]
      split <;> ring
    · rw [coeff_cons, removeDupLoop_coeff i c l, ← coeff_cons]

theorem removeDup_coeff (i : Nat) (c : Bool) : ∀ l : List Mono, coeff (removeDup l) i c = coeff l i c
  | [] => rfl
  | m :: l => by rw [removeDup, removeDupLoop_coeff]

theorem removeZeros_coeff (l : List Mono) (i : Nat) (hi : i ≠ 0) (c : Bool) : coeff (removeZeros l) i c = coeff l i c := by
  unfold removeZeros
  induction l with
  | nil => rfl
  | cons m l ih =>
    rw [List.filter_cons]
    split
    · rw [coeff_cons, coeff_cons, ih]
    · rename_i h
      simp only [Bool.not_eq_eq_eq_not, Bool.not_true, Bool.or_eq_false_iff, decide_eq_false_iff_not, beq_eq_false_iff_ne, not_and_or, not_not] at h
      have : (if m.id = i ∧ m.conj = c then m.factor else 0) = 0 := by
        rcases h with h | h
        · simp [h]
        · rw [if_neg]; rintro ⟨h', -⟩; exact hi (h'.symm.trans h)
      rw [ih, coeff_cons, this, zero_add]

theorem makeRaw_coeff (o : Order) (l : List Mono) (i : Nat) (hi : i ≠ 0) (c : Bool) : coeff (makeRaw o l) i c = coeff l i c := by
  unfold makeRaw
  rw [removeZeros_coeff _ _ hi]
  split
  · rw [removeDup_coeff]; exact coeff_perm (stableSort_perm _ _) _ _
  · rfl

/-- In a strictly sorted list without zeros the monomials are the nonzero coefficients. -/
theorem mem_iff_coeff {o : Order} (ho : Function.Injective o.rank) {p : List Mono} (hs : p.Pairwise fun a b => o.key a < o.key b)
    (hz : ∀ m ∈ p, m.factor ≠ 0) (m : Mono) : m ∈ p ↔ coeff p m.id m.conj = m.factor ∧ m.factor ≠ 0 := by
  induction p with
  | nil => simp only [List.not_mem_nil, coeff_nil, false_iff, not_and, not_not]; exact fun h => h.symm
  | cons a p ih =>
    rw [List.pairwise_cons] at hs
    have ih := ih hs.2 (fun m hm => hz m (by simp [hm]))
    rw [List.mem_cons, coeff_cons]
    by_cases h : a.id = m.id ∧ a.conj = m.conj
    · have hp : coeff p m.id m.conj = 0 := by
        apply coeff_eq_zero
        rintro b hb ⟨h1, h2⟩
        have := hs.1 b hb
        rw [(key_eq ho).mpr ⟨h.1.trans h1.symm, h.2.trans h2.symm⟩] at this
        exact lt_irrefl _ this
      rw [if_pos h, hp, add_zero]
      constructor
      · rintro (rfl | hm)
        · exact ⟨rfl, hz _ (by simp)⟩
        · have := hs.1 m hm
          rw [(key_eq ho).mpr h] at this
          exact absurd this (lt_irrefl _)
      · rintro ⟨h1, -⟩
        left
        obtain ⟨i, c, f⟩ := a; obtain ⟨i', c', f'⟩ := m
        simp_all
    · rw [if_neg h, zero_add, ← ih]
      constructor
      · rintro (rfl | hm)
        · exact absurd ⟨rfl, rfl⟩ h
        · exact hm
      · exact Or.inr

/-- Strictly sorted lists without zeros are determined by their coefficients. -/
theorem ext_coeff {o : Order} (ho : Function.Injective o.rank) {p q : List Mono} (hp : p.Pairwise fun a b => o.key a < o.key b)
    (hq : q.Pairwise fun a b => o.key a < o.key b) (zp : ∀ m ∈ p, m.factor ≠ 0) (zq : ∀ m ∈ q, m.factor ≠ 0)
    (h : ∀ i c, coeff p i c = coeff q i c) : p = q := by
  have hmem : ∀ m, m ∈ p ↔ m ∈ q := fun m => by rw [mem_iff_coeff ho hp zp, mem_iff_coeff ho hq zq, h]
  have np : p.Nodup := hp.imp fun h he => by rw [he] at h; exact lt_irrefl _ h
  have nq : q.Nodup := hq.imp fun h he => by rw [he] at h; exact lt_irrefl _ h
  refine List.Perm.eq_of_pairwise (le := fun a b => o.key a < o.key b) ?_ hp hq ((List.perm_ext_iff_of_nodup np nq).mpr hmem)
  intro a b _ _ h1 h2
  exact absurd (h1.trans h2) (lt_irrefl _)

/-! ## Canonical form of what is built -/

theorem removeDupLoop_sorted (o : Order) (ho : Function.Injective o.rank) : ∀ (l : List Mono) (m : Mono),
    (m :: l).Pairwise (fun a b => o.key a ≤ o.key b) →
    (removeDupLoop m l).Pairwise (fun a b => o.key a < o.key b) ∧ ∀ x ∈ removeDupLoop m l, o.key m ≤ o.key x
  | [], m, _ => by simp [removeDupLoop]
  | b :: l, m, h => by
    rw [List.pairwise_cons] at h
    unfold removeDupLoop
    split
    · rename_i he
      have hk : o.key { m with factor := m.factor + b.factor } = o.key m := rfl
      have := removeDupLoop_sorted o ho l { m with factor := m.factor + b.factor } (by
        rw [List.pairwise_cons]
        exact ⟨fun x hx => h.1 x (by simp [hx]), (List.pairwise_cons.mp h.2).2⟩)
      exact ⟨this.1, fun x hx => this.2 x hx⟩
    · rename_i he
      have ih := removeDupLoop_sorted o ho l b h.2
      have hlt : o.key m < o.key b := lt_of_le_of_ne (h.1 b (by simp)) (fun e => he ((key_eq ho).mp e))
      refine ⟨List.pairwise_cons.mpr ⟨fun x hx => lt_of_lt_of_le hlt (ih.2 x hx), ih.1⟩, ?_⟩
      intro x hx
      rcases List.mem_cons.mp hx with rfl | hx
      · exact le_rfl
      · exact le_of_lt (lt_of_lt_of_le hlt (ih.2 x hx))

theorem removeDup_sorted (o : Order) (ho : Function.Injective o.rank) (l : List Mono) (h : l.Pairwise (fun a b => o.key a ≤ o.key b)) :
    (removeDup l).Pairwise (fun a b => o.key a < o.key b) := by
  cases l with
  | nil => simp [removeDup]
  | cons m l => exact (removeDupLoop_sorted o ho l m h).1

/-- Every monomial of the joined list has the symbol and conjugation of a monomial of the list. -/
theorem removeDupLoop_mem : ∀ (l : List Mono) (m x : Mono), x ∈ removeDupLoop m l → ∃ y ∈ m :: l, y.id = x.id ∧ y.conj = x.conj
  | [], m, x, h => ⟨m, by simp, by simp [removeDupLoop] at h; simp [h]⟩
  | b :: l, m, x, h => by
    unfold removeDupLoop at h
    split at h
    · obtain ⟨y, hy, he⟩ := removeDupLoop_mem l _ x h
      rcases List.mem_cons.mp hy with rfl | hy
      · exact ⟨m, by simp, he⟩
      · exact ⟨y, by simp [hy], he⟩
    · rcases List.mem_cons.mp h with rfl | h
      · exact ⟨x, by simp, rfl, rfl⟩
      · obtain ⟨y, hy, he⟩ := removeDupLoop_mem l b x h
        exact ⟨y, List.mem_cons_of_mem _ hy, he⟩

theorem removeDup_mem (l : List Mono) (x : Mono) (h : x ∈ removeDup l) : ∃ y ∈ l, y.id = x.id ∧ y.conj = x.conj := by
  cases l with
  | nil => simp [removeDup] at h
  | cons m l => exact removeDupLoop_mem l m x h

theorem mem_removeZeros {l : List Mono} {m : Mono} : m ∈ removeZeros l ↔ m ∈ l ∧ m.factor ≠ 0 ∧ m.id ≠ 0 := by
  unfold removeZeros
  rw [List.mem_filter]
  simp

theorem makeRaw_mem {o : Order} {l : List Mono} {x : Mono} (h : x ∈ makeRaw o l) :
    (∃ y ∈ l, y.id = x.id ∧ y.conj = x.conj) ∧ x.factor ≠ 0 ∧ x.id ≠ 0 := by
  unfold makeRaw at h
  rw [mem_removeZeros] at h
  refine ⟨?_, h.2⟩
  split at h
  · obtain ⟨y, hy, he⟩ := removeDup_mem _ _ h.1
    exact ⟨y, mem_stableSort.mp hy, he⟩
  · exact ⟨x, h.1, rfl, rfl⟩

theorem makeRaw_sorted (o : Order) (ho : Function.Injective o.rank) (l : List Mono) :
    (makeRaw o l).Pairwise (fun a b => o.key a < o.key b) := by
  unfold makeRaw
  apply List.Pairwise.filter
  split
  · exact removeDup_sorted o ho _ (stableSort_sorted _ _)
  · rename_i h
    match l, h with
    | [], _ => simp
    | [a], _ => simp
    | a :: b :: l, h => simp at h

theorem make_canonical (t : Table) (o : Order) (ho : Function.Injective o.rank) (l : List Mono) : Canonical t o (make t o l) where
  sorted := (sorted_iff ho).mpr (makeRaw_sorted o ho _)
  nonzero := fun m hm => (makeRaw_mem hm).2
  plain := fun m hm hc => by
    obtain ⟨⟨y, hy, h1, h2⟩, -⟩ := makeRaw_mem hm
    obtain ⟨z, hz, rfl⟩ := List.mem_map.mp hy
    rw [← h1]
    exact fixCC_plain t z (h2.trans hc)

theorem canonical_keys {t : Table} {o : Order} (ho : Function.Injective o.rank) {p : List Mono} (h : Canonical t o p) :
    p.Pairwise (fun a b => o.key a < o.key b) := (sorted_iff ho).mp h.sorted

/-- A canonical polynomial is what the factory makes of it. -/
theorem make_self {t : Table} {o : Order} (ho : Function.Injective o.rank) {p : List Mono} (h : Canonical t o p) : make t o p = p := by
  have hm : p.map (fixCC t) = p := by
    conv_rhs => rw [← List.map_id p]
    exact List.map_congr_left fun m hm => fixCC_self t m (h.plain m hm)
  rw [make, hm]
  refine ext_coeff ho (makeRaw_sorted o ho p) (canonical_keys ho h) (fun m hm => (makeRaw_mem hm).2.1) (fun m hm => (h.nonzero m hm).1) ?_
  intro i c
  by_cases hi : i = 0
  · subst hi
    rw [coeff_eq_zero, coeff_eq_zero]
    · exact fun m hm he => (h.nonzero m hm).2 he.1
    · exact fun m hm he => (makeRaw_mem hm).2.2 he.1
  · exact makeRaw_coeff o p i hi c

/-! ## Uniqueness from values -/

/-- Value in terms of coefficients when only one symbol besides one has a value. -/
theorem value_single (p : List Mono) (j : Nat) (z : ℂ) (hj : j ≠ 1) (hp : ∀ m ∈ p, m.id = 1 → m.conj = false) :
    value (fun i => if i = 1 then 1 else if i = j then z else 0) p = coeff p 1 false + coeff p j false * z + coeff p j true * (starRingEnd ℂ) z := by
  induction p with
  | nil => simp
  | cons m p ih =>
    rw [value_cons, ih (fun m hm => hp m (by simp [hm])), coeff_cons, coeff_cons, coeff_cons]
    have hm := hp m (by simp)
    obtain ⟨i, c, f⟩ := m
    simp only [Mono.value] at hm ⊢
    by_cases h1 : i = 1
    · subst h1
      rw [hm rfl]
      simp [Ne.symm hj]; ring
    · by_cases h2 : i = j
      · subst h2
        cases c <;> simp [h1] <;> ring
      · simp [h1, h2]

theorem respects_single {t : Table} (ht : t.Good) (j : Nat) (h0 : j ≠ 0) (z : ℂ) (hh : t.herm j = true → (starRingEnd ℂ) z = z)
    (ha : t.anti j = true → (starRingEnd ℂ) z = -z) :
    Respects t (fun i => if i = 1 then 1 else if i = j then z else 0) where
  zero := by simp [Ne.symm h0]
  herm := fun i hi => by
    by_cases h1 : i = 1
    · simp [h1]
    · by_cases h2 : i = j
      · simp only [h1, h2, if_true, if_false]; split <;> simp [hh (h2 ▸ hi)]
      · simp [h1, h2]
  anti := fun i hi => by
    by_cases h1 : i = 1
    · exact absurd ⟨ht.oneHerm, h1 ▸ hi⟩ (ht.notBoth 1 (by simp))
    · by_cases h2 : i = j
      · simp only [h2, if_true]
        split
        · rename_i h3; exact absurd (h2.trans h3) h1
        · exact ha (h2 ▸ hi)
      · simp [h1, h2]

/-- Canonical polynomials with the same values are equal. -/
theorem canonical_unique {t : Table} (ht : t.Good) {o : Order} (ho : Function.Injective o.rank) {p q : List Mono} (hp : Canonical t o p)
    (hq : Canonical t o q) (h : ∀ v, Respects t v → v 1 = 1 → value v p = value v q) : p = q := by
  have plain1 : ∀ {r : List Mono}, Canonical t o r → ∀ m ∈ r, m.id = 1 → m.conj = false := by
    intro r hr m hm h1
    cases hc : m.conj
    · rfl
    · have := (hr.plain m hm hc).1
      rw [h1, ht.oneHerm] at this
      exact absurd this (by simp)
  have key : ∀ j, j ≠ 0 → j ≠ 1 → ∀ z, (t.herm j = true → (starRingEnd ℂ) z = z) → (t.anti j = true → (starRingEnd ℂ) z = -z) →
      coeff p 1 false + coeff p j false * z + coeff p j true * (starRingEnd ℂ) z =
      coeff q 1 false + coeff q j false * z + coeff q j true * (starRingEnd ℂ) z := by
    intro j h0 h1 z hh ha
    rw [← value_single p j z h1 (plain1 hp), ← value_single q j z h1 (plain1 hq)]
    exact h _ (respects_single ht j h0 z hh ha) (by simp)
  have one : coeff p 1 false = coeff q 1 false := by
    have := key 2 (by simp) (by simp) 0 (by simp) (by simp)
    simpa using this
  have noconj : ∀ {r : List Mono}, Canonical t o r → ∀ j, (t.herm j = true ∨ t.anti j = true) → coeff r j true = 0 := by
    intro r hr j hj
    apply coeff_eq_zero
    rintro m hm ⟨h1, h2⟩
    have := hr.plain m hm h2
    rw [h1] at this
    rcases hj with hj | hj <;> simp [hj] at this
  refine ext_coeff ho (canonical_keys ho hp) (canonical_keys ho hq) (fun m hm => (hp.nonzero m hm).1) (fun m hm => (hq.nonzero m hm).1) ?_
  intro j c
  by_cases h0 : j = 0
  · subst h0
    rw [coeff_eq_zero fun m hm he => (hp.nonzero m hm).2 he.1, coeff_eq_zero fun m hm he => (hq.nonzero m hm).2 he.1]
  by_cases h1 : j = 1
  · subst h1
    cases c
    · exact one
    · rw [noconj hp 1 (Or.inl ht.oneHerm), noconj hq 1 (Or.inl ht.oneHerm)]
  by_cases hh : t.herm j = true
  · have ha : t.anti j = false := by
      cases ha : t.anti j
      · rfl
      · exact absurd ⟨hh, ha⟩ (ht.notBoth j h0)
    have := key j h0 h1 1 (by simp) (by simp [ha])
    rw [noconj hp j (Or.inl hh), noconj hq j (Or.inl hh), one] at this
    cases c
    · simpa using this
    · rw [noconj hp j (Or.inl hh), noconj hq j (Or.inl hh)]
  by_cases ha : t.anti j = true
  · have := key j h0 h1 Complex.I (fun h => absurd h hh) (by simp)
    rw [noconj hp j (Or.inr ha), noconj hq j (Or.inr ha), one] at this
    cases c
    · simpa using this
    · rw [noconj hp j (Or.inr ha), noconj hq j (Or.inr ha)]
  · have e1 := key j h0 h1 1 (fun h => absurd h hh) (fun h => absurd h ha)
    have e2 := key j h0 h1 Complex.I (fun h => absurd h hh) (fun h => absurd h ha)
    simp only [one, map_one, mul_one, Complex.conj_I] at e1 e2
    have hI : Complex.I * Complex.I = -1 := Complex.I_mul_I
    cases c
    · linear_combination (1 / 2) * e1 - (1 / 2) * Complex.I * e2 + ((1 / 2) * (coeff p j false - coeff q j false) - (1 / 2) * (coeff p j true - coeff q j true)) * hI
    · linear_combination (1 / 2) * e1 + (1 / 2) * Complex.I * e2 + (-(1 / 2) * (coeff p j false - coeff q j false) + (1 / 2) * (coeff p j true - coeff q j true)) * hI

end Moment.Poly
