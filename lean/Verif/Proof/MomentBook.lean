import Verif.Proof.MomentRuleMake

/-! # Lemmas about moment rulebooks: reduction -/

namespace Moment.Poly

open Classical

local notation "conj'" => starRingEnd ℂ

/-! ## Values by coefficients -/

theorem value_eq_sum (v : Nat → ℂ) (S : Finset Nat) (p : List Mono) (h : ∀ m ∈ p, m.id ∈ S) :
    value v p = ∑ i ∈ S, (coeff p i false * v i + coeff p i true * conj' (v i)) := by
  induction p with
  | nil => simp
  | cons m p ih =>
    rw [value_cons, ih fun m hm => h m (by simp [hm])]
    have : m.value v = ∑ i ∈ S, if m.id = i then m.value v else 0 := by
      rw [Finset.sum_ite_eq]; simp [h m (by simp)]
    rw [this, ← Finset.sum_add_distrib]
    apply Finset.sum_congr rfl
    intro i _
    rw [coeff_cons, coeff_cons]
    by_cases he : m.id = i
    · subst he
      cases hc : m.conj <;> simp [Mono.value, hc] <;> ring
    · simp [he]

/-! ## Meeting a rule -/

/-- Reduction with the rule leaves the terms of its symbol alone: there are none, or they are a multiple of the free part. -/
def Meets (r : MRule) (p : List Mono) : Prop :=
  if r.partial then coeff p r.lhs true = -(r.dir * r.dir) * coeff p r.lhs false else coeff p r.lhs false = 0 ∧ coeff p r.lhs true = 0

theorem meets_congr {r : MRule} {p q : List Mono} (h : ∀ c, coeff p r.lhs c = coeff q r.lhs c) : Meets r p ↔ Meets r q := by
  unfold Meets; rw [h, h]

theorem meets_nil (r : MRule) : Meets r [] := by unfold Meets; split <;> simp

theorem meets_append {r : MRule} {p q : List Mono} (hp : Meets r p) (hq : Meets r q) : Meets r (p ++ q) := by
  unfold Meets at *
  simp only [coeff_append]
  split
  · rename_i h; rw [if_pos h] at hp hq; rw [hp, hq]; ring
  · rename_i h; rw [if_neg h] at hp hq; simp [hp, hq]

theorem meets_of_absent {r : MRule} {p : List Mono} (h : ∀ m ∈ p, m.id ≠ r.lhs) : Meets r p := by
  rw [meets_congr (q := [])]
  · exact meets_nil r
  · intro c; rw [coeff_nil]; exact coeff_eq_zero fun m hm h' => h m hm h'.1

theorem meets_flatMap {r : MRule} {p : List Mono} {f : Mono → List Mono} (h : ∀ m ∈ p, Meets r (f m)) : Meets r (p.flatMap f) := by
  induction p with
  | nil => exact meets_nil r
  | cons m p ih => rw [List.flatMap_cons]; exact meets_append (h m (by simp)) (ih fun m hm => h m (by simp [hm]))

theorem coeff_map_scale (p : List Mono) (f : ℂ) (i : Nat) (c : Bool) :
    coeff (p.map fun s => { s with factor := s.factor * f }) i c = coeff p i c * f := by
  induction p with
  | nil => simp
  | cons m p ih => rw [List.map_cons, coeff_cons, ih, coeff_cons]; dsimp only; split <;> ring

theorem coeff_map_conj (p : List Mono) (f : ℂ) (i : Nat) (c : Bool) :
    coeff (p.map fun s => (⟨s.id, !s.conj, f * conj' s.factor⟩ : Mono)) i c = f * conj' (coeff p i !c) := by
  induction p with
  | nil => simp
  | cons m p ih =>
    rw [List.map_cons, coeff_cons, ih, coeff_cons]
    dsimp only
    by_cases h : m.id = i ∧ m.conj = !c
    · have h' : m.id = i ∧ (!m.conj) = c := ⟨h.1, by rw [h.2]; simp⟩
      rw [if_pos h, if_pos h', map_add]; ring
    · have h' : ¬ (m.id = i ∧ (!m.conj) = c) := fun e => h ⟨e.1, by rw [← e.2]; simp⟩
      rw [if_neg h, if_neg h']; simp

theorem meets_transformed {t : Table} {o : Order} {r s : MRule} (hr : r.OK t o) (h : Meets r s.rhs) (m : Mono) : Meets r (s.transformed m) := by
  unfold MRule.transformed Meets at *
  cases hp : r.partial with
  | true =>
    rw [hp, if_pos rfl] at h
    rw [if_pos rfl]
    obtain ⟨-, -, -, hd, -, -⟩ := hr.part hp
    split
    · rw [coeff_map_conj, coeff_map_conj]
      simp only [Bool.not_true, Bool.not_false]
      rw [h]
      simp only [map_mul, map_neg]
      linear_combination (-m.factor * conj' (coeff s.rhs r.lhs false)) * (1 + r.dir * conj' r.dir) * hd
    · rw [coeff_map_scale, coeff_map_scale, h]; ring
  | false =>
    rw [hp] at h
    simp only [Bool.false_eq_true, if_false] at h ⊢
    split
    · rw [coeff_map_conj, coeff_map_conj]; simp [h.1, h.2]
    · rw [coeff_map_scale, coeff_map_scale]; simp [h.1, h.2]

theorem fixCC_coeff_general {t : Table} {i : Nat} (hh : t.herm i = false) (ha : t.anti i = false) (p : List Mono) (c : Bool) :
    coeff (p.map (fixCC t)) i c = coeff p i c := by
  induction p with
  | nil => rfl
  | cons m p ih =>
    rw [List.map_cons, coeff_cons, ih, coeff_cons, fixCC_id]
    by_cases h : m.id = i
    · rw [fixCC_self t m fun _ => by rw [h]; exact ⟨hh, ha⟩]
    · simp [h]

theorem fixCC_coeff_zero {t : Table} {i : Nat} (p : List Mono) (h : coeff p i false = 0 ∧ coeff p i true = 0) :
    coeff (p.map (fixCC t)) i false = 0 ∧ coeff (p.map (fixCC t)) i true = 0 := by
  have key : ∀ p : List Mono, coeff (p.map (fixCC t)) i false =
      (if t.herm i = false ∧ t.anti i = false then coeff p i false else
        coeff p i false + (if t.herm i then 1 else -1) * coeff p i true) ∧
      coeff (p.map (fixCC t)) i true = (if t.herm i = false ∧ t.anti i = false then coeff p i true else 0) := by
    intro p
    induction p with
    | nil => simp
    | cons m p ih =>
      rw [List.map_cons, coeff_cons, coeff_cons, coeff_cons, coeff_cons, ih.1, ih.2, fixCC_id]
      by_cases he : m.id = i
      · obtain ⟨j, c, f⟩ := m
        dsimp only at he
        subst he
        unfold fixCC
        cases hh : t.herm j <;> cases ha : t.anti j <;> cases c <;> simp [hh, ha] <;> ring
      · simp [he]
  obtain ⟨k1, k2⟩ := key p
  rw [k1, k2, h.1, h.2]
  simp

theorem meets_make {t : Table} {o : Order} {r : MRule} (hr : r.OK t o) {p : List Mono} (h : Meets r p) : Meets r (make t o p) := by
  have h0 : r.lhs ≠ 0 := by have := hr.lhs; omega
  unfold Meets at *
  cases hp : r.partial with
  | true =>
    rw [hp, if_pos rfl] at h
    obtain ⟨hh, ha, -⟩ := hr.part hp
    rw [if_pos rfl, make, makeRaw_coeff _ _ _ h0, makeRaw_coeff _ _ _ h0, fixCC_coeff_general hh ha, fixCC_coeff_general hh ha, h]
  | false =>
    rw [hp] at h
    simp only [Bool.false_eq_true, if_false] at h ⊢
    rw [make, makeRaw_coeff _ _ _ h0, makeRaw_coeff _ _ _ h0]
    exact fixCC_coeff_zero p h

theorem meets_filter {r : MRule} {p : List Mono} {i : Nat} (hi : i ≠ r.lhs) (h : Meets r p) : Meets r (p.filter fun m => m.id != i) := by
  rw [meets_congr (q := p)]
  · exact h
  · intro c
    clear h
    induction p with
    | nil => rfl
    | cons m p ih =>
      rw [List.filter_cons]
      split
      · rw [coeff_cons, coeff_cons, ih]
      · rename_i he
        simp at he
        rw [ih, coeff_cons, if_neg (by rw [he]; tauto), zero_add]

/-! ## Substitution -/

/-- The assignment in which the symbols of the rules get the values of the right sides. -/
noncomputable def subst (b : List MRule) (v : Nat → ℂ) (i : Nat) : ℂ := match findRule b i with | some r => value v r.rhs | none => v i

theorem subst_some {b : List MRule} {v : Nat → ℂ} {i : Nat} {r : MRule} (h : findRule b i = some r) : subst b v i = value v r.rhs := by
  simp [subst, h]
theorem subst_none {b : List MRule} {v : Nat → ℂ} {i : Nat} (h : findRule b i = none) : subst b v i = v i := by simp [subst, h]

theorem findRule_some {b : List MRule} {i : Nat} {r : MRule} (h : findRule b i = some r) : r ∈ b ∧ r.lhs = i := by
  unfold findRule at h
  exact ⟨List.mem_of_find?_eq_some h, by simpa using List.find?_some h⟩

theorem findRule_none {b : List MRule} {i : Nat} : findRule b i = none ↔ ∀ r ∈ b, r.lhs ≠ i := by
  unfold findRule
  rw [List.find?_eq_none]; simp

/-- Rules are in order, so every symbol has at most one. -/
def Ordered (o : Order) (b : List MRule) : Prop := b.Pairwise fun r s => o.rank r.lhs < o.rank s.lhs

theorem Ordered.unique {o : Order} {b : List MRule} (h : Ordered o b) {r s : MRule} (hr : r ∈ b) (hs : s ∈ b) (e : r.lhs = s.lhs) : r = s := by
  induction b with
  | nil => simp at hr
  | cons a b ih =>
    obtain ⟨h1, h2⟩ := List.pairwise_cons.mp h
    rcases List.mem_cons.mp hr with rfl | hr' <;> rcases List.mem_cons.mp hs with rfl | hs'
    · rfl
    · have := h1 s hs'; rw [e] at this; exact absurd this (lt_irrefl _)
    · have := h1 r hr'; rw [e] at this; exact absurd this (lt_irrefl _)
    · exact ih h2 hr' hs'

theorem findRule_mem {o : Order} {b : List MRule} (h : Ordered o b) {r : MRule} (hr : r ∈ b) : findRule b r.lhs = some r := by
  cases hf : findRule b r.lhs with
  | none => exact absurd rfl (findRule_none.mp hf r hr)
  | some s =>
    obtain ⟨h1, h2⟩ := findRule_some hf
    rw [h.unique h1 hr h2]

theorem transformed_value (v : Nat → ℂ) (r : MRule) (m : Mono) :
    value v (r.transformed m) = m.factor * if m.conj then conj' (value v r.rhs) else value v r.rhs := by
  unfold MRule.transformed
  split
  · induction r.rhs with
    | nil => simp
    | cons s l ih =>
      rw [List.map_cons, value_cons, ih, value_cons]
      cases hc : s.conj <;> simp [Mono.value, hc] <;> ring
  · induction r.rhs with
    | nil => simp
    | cons s l ih =>
      rw [List.map_cons, value_cons, ih, value_cons]
      simp only [Mono.value]; ring

theorem flatMap_value (b : List MRule) (v : Nat → ℂ) (p : List Mono) :
    value v (p.flatMap (expand b)) = value (subst b v) p := by
  induction p with
  | nil => rfl
  | cons m p ih =>
    rw [List.flatMap_cons, value_append, ih, value_cons]
    congr 1
    cases hf : findRule b m.id with
    | none => simp [expand, hf, Mono.value, subst_none hf]
    | some r => simp only [expand, hf]; rw [transformed_value]; simp [Mono.value, subst_some hf]

/-- Reduction is substitution. -/
theorem reduceBook_value {t : Table} {o : Order} (b : List MRule) {v : Nat → ℂ} (hv : Respects t v) (p : List Mono) :
    value v (reduceBook t o b p) = value (subst b v) p := by
  unfold reduceBook
  split
  · rw [make_value hv, flatMap_value]
  · rename_i h
    refine value_congr fun m hm => (subst_none ?_).symm
    simp only [List.any_eq_true, not_exists, not_and, Bool.not_eq_true, Option.isSome_eq_false_iff, Option.isNone_iff_eq_none] at h
    exact h m hm

theorem reduceBook_canonical {t : Table} {o : Order} (ho : Function.Injective o.rank) (b : List MRule) {p : List Mono} (hp : Canonical t o p) :
    Canonical t o (reduceBook t o b p) := by
  unfold reduceBook
  split
  · exact make_canonical t o ho _
  · exact hp

theorem MRule.OK.rhs_le {t : Table} {o : Order} {r : MRule} (h : r.OK t o) {m : Mono} (hm : m ∈ r.rhs) : o.rank m.id ≤ o.rank r.lhs := by
  cases hp : r.partial with
  | false => rw [← core_full hp] at hm; exact (h.below m hm).le
  | true =>
    rw [(h.part hp).2.2.1] at hm
    rcases List.mem_append.mp hm with hm | hm
    · exact (h.below m hm).le
    · rw [freePart_ids hm]

theorem transformed_ids {r : MRule} {m x : Mono} (h : x ∈ r.transformed m) : ∃ y ∈ r.rhs, y.id = x.id := by
  unfold MRule.transformed at h
  split at h <;>
  · obtain ⟨y, hy, rfl⟩ := List.mem_map.mp h
    exact ⟨y, hy, rfl⟩

/-- Every symbol in the result comes from the polynomial or from a rule for one of its symbols. -/
theorem reduceBook_ids {t : Table} {o : Order} {b : List MRule} {p : List Mono} {m : Mono} (h : m ∈ reduceBook t o b p) :
    ∃ y ∈ p, (findRule b y.id = none ∧ y.id = m.id) ∨ ∃ r, findRule b y.id = some r ∧ ∃ z ∈ r.rhs, z.id = m.id := by
  unfold reduceBook at h
  split at h
  · obtain ⟨y, hy, e⟩ := make_ids h
    obtain ⟨z, hz, hy⟩ := List.mem_flatMap.mp hy
    refine ⟨z, hz, ?_⟩
    cases hf : findRule b z.id with
    | none => simp [expand, hf] at hy; subst hy; exact Or.inl ⟨rfl, e⟩
    | some r =>
      simp only [expand, hf] at hy
      obtain ⟨x, hx, e'⟩ := transformed_ids hy
      exact Or.inr ⟨r, rfl, x, hx, e'.trans e⟩
  · rename_i hn
    simp only [List.any_eq_true, not_exists, not_and, Bool.not_eq_true, Option.isSome_eq_false_iff, Option.isNone_iff_eq_none] at hn
    exact ⟨m, h, Or.inl ⟨hn m h, rfl⟩⟩

theorem reduceBook_le {t : Table} {o : Order} {b : List MRule} (hb : ∀ r ∈ b, r.OK t o) {p : List Mono} {m : Mono} (h : m ∈ reduceBook t o b p) :
    ∃ y ∈ p, o.rank m.id ≤ o.rank y.id := by
  obtain ⟨y, hy, ⟨-, e⟩ | ⟨r, hf, z, hz, e⟩⟩ := reduceBook_ids h
  · exact ⟨y, hy, by rw [e]⟩
  · obtain ⟨h1, h2⟩ := findRule_some hf
    exact ⟨y, hy, by rw [← e, ← h2]; exact (hb r h1).rhs_le hz⟩

theorem below_reduceBook {t : Table} {o : Order} {b : List MRule} (hb : ∀ r ∈ b, r.OK t o) {p : List Mono} {i : Nat} (h : Below o i p) :
    Below o i (reduceBook t o b p) := fun m hm => by
  obtain ⟨y, hy, hle⟩ := reduceBook_le hb hm
  exact lt_of_le_of_lt hle (h y hy)

theorem meets_reduceBook_in {t : Table} {o : Order} {b : List MRule} {r : MRule} (hr : r.OK t o) (hb : ∀ s ∈ b, Meets r s.rhs) (p : List Mono)
    (h : ∃ s ∈ b, s.lhs = r.lhs) : Meets r (reduceBook t o b p) := by
  obtain ⟨s, hs, e⟩ := h
  unfold reduceBook
  split
  · refine meets_make hr (meets_flatMap fun m _ => ?_)
    unfold expand
    cases hf : findRule b m.id with
    | none =>
      refine meets_of_absent fun x hx => ?_
      simp at hx; subst hx
      intro e'; exact findRule_none.mp hf s hs (e.trans e'.symm)
    | some s' => exact meets_transformed hr (hb s' (findRule_some hf).1) m
  · rename_i hn
    simp only [List.any_eq_true, not_exists, not_and, Bool.not_eq_true, Option.isSome_eq_false_iff, Option.isNone_iff_eq_none] at hn
    refine meets_of_absent fun x hx e' => ?_
    exact findRule_none.mp (hn x hx) s hs (e.trans e'.symm)

/-- Reduction does not bring back a symbol that the right sides avoid. -/
theorem meets_reduceBook {t : Table} {o : Order} {b : List MRule} {r : MRule} (hr : r.OK t o) (hb : ∀ s ∈ b, Meets r s.rhs) {p : List Mono}
    (h : Meets r p) : Meets r (reduceBook t o b p) := by
  by_cases hin : ∃ s ∈ b, s.lhs = r.lhs
  · exact meets_reduceBook_in hr hb p hin
  · unfold reduceBook
    split
    · refine meets_make hr ?_
      have key : ∀ q : List Mono, ∃ e : List Mono, Meets r e ∧
          ∀ c, coeff (q.flatMap (expand b)) r.lhs c = coeff e r.lhs c + coeff q r.lhs c := by
        intro q
        induction q with
        | nil => exact ⟨[], meets_nil r, by simp⟩
        | cons m q ih =>
          obtain ⟨e, he, hc⟩ := ih
          cases hf : findRule b m.id with
          | none => exact ⟨e, he, fun c => by rw [List.flatMap_cons, coeff_append, hc]; simp only [expand, hf]; rw [coeff_cons, coeff_cons, coeff_nil]; ring⟩
          | some s =>
            refine ⟨s.transformed m ++ e, meets_append (meets_transformed hr (hb s (findRule_some hf).1) m) he, fun c => ?_⟩
            rw [List.flatMap_cons, coeff_append, hc, coeff_append, coeff_cons, if_neg]
            · simp only [expand, hf]; ring
            · rintro ⟨h1, -⟩
              exact hin ⟨s, (findRule_some hf).1, (findRule_some hf).2.trans h1⟩
      obtain ⟨e, he, hc⟩ := key p
      rw [meets_congr (q := e ++ p) fun c => by rw [hc, coeff_append]]
      exact meets_append he h
    · exact h

/-! ## Good books -/

/-- The invariant of rulebooks. -/
structure Inv (t : Table) (o : Order) (b : List MRule) : Prop where
  ordered : Ordered o b
  ok : ∀ r ∈ b, r.OK t o
  meets : ∀ r ∈ b, ∀ s ∈ b, Meets s r.rhs

theorem meets_self {t : Table} {o : Order} {r : MRule} (h : r.OK t o) : Meets r r.rhs := by
  have hne : ∀ m ∈ r.core, m.id ≠ r.lhs := fun m hm e => by have := h.below m hm; rw [e] at this; exact lt_irrefl _ this
  cases hp : r.partial with
  | false => rw [← core_full hp]; exact meets_of_absent hne
  | true =>
    rw [(h.part hp).2.2.1]
    refine meets_append (meets_of_absent hne) ?_
    unfold Meets
    rw [hp, if_pos rfl]
    simp [freePart, coeff_cons]

/-- A partial rule, applied to what it leaves alone. -/
theorem free_value {x c d a : ℂ} (hd : d * conj' d = 1) (hc : conj' (conj' d * c) = conj' d * c) :
    a * (c + 1 / 2 * (x - d * d * conj' x)) + -(d * d) * a * conj' (c + 1 / 2 * (x - d * d * conj' x)) = a * x + -(d * d) * a * conj' x := by
  simp only [map_mul, Complex.conj_conj] at hc
  have hc' : d * d * conj' c = c := by linear_combination d * hc + c * hd
  simp only [map_add, map_sub, map_mul, Complex.conj_conj, map_div₀, map_one, map_ofNat]
  linear_combination (-a) * hc' + (a * x / 2) * (1 + d * conj' d) * hd

theorem subst_assignment {t : Table} {o : Order} {b : List MRule} (hb : ∀ r ∈ b, r.OK t o) {v : Nat → ℂ} (hv : Assignment t v) :
    Assignment t (subst b v) := by
  have hlow : ∀ i, i ≤ 1 → findRule b i = none := fun i hi => findRule_none.mpr fun r hr e => by have := (hb r hr).lhs; omega
  refine ⟨⟨?_, fun i hi => ?_, fun i hi => ?_⟩, ?_⟩
  · rw [subst_none (hlow 0 (by omega))]; exact hv.1.zero
  · cases hf : findRule b i with
    | none => rw [subst_none hf]; exact hv.1.herm i hi
    | some r => rw [subst_some hf]; obtain ⟨h1, rfl⟩ := findRule_some hf; exact (hb r h1).herm hi v hv
  · cases hf : findRule b i with
    | none => rw [subst_none hf]; exact hv.1.anti i hi
    | some r => rw [subst_some hf]; obtain ⟨h1, rfl⟩ := findRule_some hf; exact (hb r h1).anti hi v hv
  · rw [subst_none (hlow 1 (by omega))]; exact hv.2

theorem rhs_value {t : Table} {o : Order} {r : MRule} (h : r.OK t o) (hp : r.partial = true) (v : Nat → ℂ) :
    value v r.rhs = value v r.core + 1 / 2 * (v r.lhs - r.dir * r.dir * conj' (v r.lhs)) := by
  conv_lhs => rw [(h.part hp).2.2.1]
  rw [value_append, freePart_value]

/-- Substitution does not change polynomials that meet the rules. -/
theorem meets_value {t : Table} {o : Order} {b : List MRule} (hb : ∀ r ∈ b, r.OK t o) {p : List Mono} (h : ∀ r ∈ b, Meets r p) {v : Nat → ℂ}
    (hv : Assignment t v) : value (subst b v) p = value v p := by
  have hS : ∀ m ∈ p, m.id ∈ (p.map Mono.id).toFinset := fun m hm => by simp; exact ⟨m, hm, rfl⟩
  rw [value_eq_sum _ _ p hS, value_eq_sum _ _ p hS]
  refine Finset.sum_congr rfl fun i _ => ?_
  cases hf : findRule b i with
  | none => rw [subst_none hf]
  | some r =>
    rw [subst_some hf]
    obtain ⟨h1, rfl⟩ := findRule_some hf
    have hm := h r h1
    have ok := hb r h1
    unfold Meets at hm
    cases hp : r.partial with
    | false => rw [hp] at hm; simp only [Bool.false_eq_true, if_false] at hm; rw [hm.1, hm.2]; simp
    | true =>
      rw [hp, if_pos rfl] at hm
      obtain ⟨-, -, -, hd, -, hc⟩ := ok.part hp
      rw [hm, rhs_value ok hp]
      exact free_value hd (hc v hv)

/-- Polynomials that substitution does not change are left alone by reduction. -/
theorem reduceBook_of_value {t : Table} (ht : t.Good) {o : Order} (ho : Function.Injective o.rank) {b : List MRule} {p : List Mono} (hp : Canonical t o p)
    (h : ∀ v, Assignment t v → value (subst b v) p = value v p) : reduceBook t o b p = p :=
  canonical_unique ht ho (reduceBook_canonical ho b hp) hp fun v hv h1 => by rw [reduceBook_value b hv, h v ⟨hv, h1⟩]

theorem subst_of_solves {t : Table} {b : List MRule} {v : Nat → ℂ} (h : Solves t b v) : subst b v = v := by
  funext i
  cases hf : findRule b i with
  | none => exact subst_none hf
  | some r => rw [subst_some hf]; obtain ⟨h1, rfl⟩ := findRule_some hf; exact (h.2 r h1).symm

theorem Inv.reduce_meets {t : Table} {o : Order} {b : List MRule} (hb : Inv t o b) (p : List Mono) : ∀ r ∈ b, Meets r (reduceBook t o b p) :=
  fun r hr => meets_reduceBook_in (hb.ok r hr) (fun s hs => hb.meets s hs r hr) p ⟨r, hr, rfl⟩

theorem Inv.subst_solves {t : Table} {o : Order} {b : List MRule} (hb : Inv t o b) {v : Nat → ℂ} (hv : Assignment t v) : Solves t b (subst b v) := by
  refine ⟨subst_assignment hb.ok hv, fun r hr => ?_⟩
  unfold Holds
  rw [meets_value hb.ok (hb.meets r hr) hv, subst_some (findRule_mem hb.ordered hr)]

end Moment.Poly
