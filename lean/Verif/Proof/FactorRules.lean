import Verif.Spec.FactorRules
import Verif.Proof.ExtendedValues
import Verif.Proof.MomentUnique
import Verif.Props.C12_Inflation
import Verif.Props.C23_MomentRules

/-! # Proofs about products of symbols and rules for products -/

set_option linter.unusedSectionVars false

namespace Moment.Inflation.Expand
open Moment.Poly Classical
open Moment.Inflation.Extend (Entry Scenario Lawful Good FactorsOf find_factors respects_factors)

theorem flags_good : Poly.Table.Good flags :=
  ⟨rfl, rfl, rfl, fun i hi h => by simp [flags] at h; exact hi h⟩

theorem no_partial {o : Order} {r : MRule} (h : r.OK flags o) : r.partial = false := by
  cases hp : r.partial with
  | false => rfl
  | true => have := (h.part hp).1; simp [flags] at this

theorem rhs_canonical {o : Order} {r : MRule} (h : r.OK flags o) : Canonical flags o r.rhs := by
  rw [← core_full (no_partial h)]
  exact h.core

theorem rhs_below {o : Order} {r : MRule} (h : r.OK flags o) : Below o r.lhs r.rhs := by
  rw [← core_full (no_partial h)]
  exact h.below

section
variable {W : Type} [DecidableEq W] {sc : Scenario W} {D : W → Prop} {zero one : W} {t : Extend.Table W} {o : Order}

theorem lookup_eq (hg : Good sc D zero one t) (l : List Nat) : lookup t l = t.find l := by
  unfold lookup
  cases h : t.find l with
  | none => rfl
  | some k =>
    obtain ⟨e, h1, -⟩ := find_factors hg h
    simp [h1, hg.ids k e h1]

theorem times_value {M : Type} [CommMonoidWithZero M] (hg : Good sc D zero one t) {v : Nat → M} (hv : Extend.Respects t v) {a b k : Nat}
    (h : times t a b = .ok k) : v k = v a * v b := by
  unfold times at h
  split at h
  · cases h
  · split at h
    · rename_i hk
      cases h
      refine C12.C15_multiply_two v hv.at_zero hv.at_one (factorsAt t) (lookup t) ?_ ?_ a b _ hk
      · intro x hx
        unfold factorsAt at hx ⊢
        cases he : t.entries[x]? with
        | none => rw [he] at hx; cases hx
        | some e => exact hv.product x e he
      · intro l r _ hl
        rw [lookup_eq hg] at hl
        exact respects_factors hv (find_factors hg hl)
    · cases h

theorem times_known (hg : Good sc D zero one t) {a b k : Nat} (ha : a < t.entries.length) (hb : b < t.entries.length) (h : times t a b = .ok k) :
    k < t.entries.length := by
  have hfind : ∀ l r, lookup t l = some r → r < t.entries.length := by
    intro l r hl
    rw [lookup_eq hg] at hl
    obtain ⟨e, h1, -⟩ := find_factors hg hl
    exact (List.getElem?_eq_some_iff.mp h1).1
  unfold times at h
  split at h
  · cases h
  · split at h
    · rename_i hk
      cases h
      unfold tryMultiply2 at hk
      split at hk
      · cases hk; omega
      · split at hk
        · cases hk; exact hb
        · split at hk
          · cases hk; exact ha
          · split at hk
            · rename_i ha1 hb1 _
              unfold tryMultiply at hk
              split at hk
              · cases hk; omega
              · rename_i heq; simp at heq
              · split at hk
                · cases hk; omega
                · dsimp only at hk
                  split at hk
                  · rename_i hx
                    rw [List.filter_cons_of_pos (by simpa using ha1), List.filter_cons_of_pos (by simpa using hb1)] at hx
                    simp at hx
                  · exact hfind _ _ hk
            · exact hfind _ _ hk
    · cases h

theorem times_error {a b : Nat} (ha : a < t.entries.length) (hb : b < t.entries.length) {e : Stop} (h : times t a b = .error e) :
    e = .unknownSymbol := by
  unfold times at h
  split at h
  · rename_i hc; omega
  · split at h
    · cases h
    · cases h; rfl

theorem mono_value {m : Mono} (h : m.conj = false) (v : Nat → ℂ) : m.value v = m.factor * v m.id := by simp [Mono.value, h]

theorem timesMono_spec {m n x : Mono} (h : timesMono t m n = .ok x) :
    times t m.id n.id = .ok x.id ∧ x.conj = false ∧ x.factor = m.factor * n.factor ∧ m.conj = false ∧ n.conj = false := by
  unfold timesMono at h
  split at h
  · cases h
  · rename_i hc
    simp only [Bool.or_eq_true, not_or, Bool.not_eq_true] at hc
    cases hk : times t m.id n.id with
    | error e => rw [hk] at h; cases h
    | ok k =>
      rw [hk] at h
      cases h
      exact ⟨rfl, rfl, rfl, hc⟩

/-- The terms of a product: pairs of terms. -/
theorem timesRow_spec {m : Mono} : ∀ {q l : List Mono}, timesRow t m q = .ok l → List.Forall₂ (fun n x => timesMono t m n = .ok x) q l
  | [], l, h => by cases h; exact .nil
  | n :: q, l, h => by
    rw [timesRow] at h
    cases hx : timesMono t m n with
    | error e => rw [hx] at h; cases h
    | ok x =>
      cases hl : timesRow t m q with
      | error e => rw [hx, hl] at h; cases h
      | ok l' =>
        rw [hx, hl] at h
        cases h
        exact .cons hx (timesRow_spec hl)

theorem timesAll_spec {q : List Mono} : ∀ {p l : List Mono}, timesAll t q p = .ok l →
    ∃ rows, List.Forall₂ (fun m r => timesRow t m q = .ok r) p rows ∧ l = rows.flatten
  | [], l, h => by cases h; exact ⟨[], .nil, rfl⟩
  | m :: p, l, h => by
    rw [timesAll] at h
    cases hx : timesRow t m q with
    | error e => rw [hx] at h; cases h
    | ok x =>
      cases hl : timesAll t q p with
      | error e => rw [hx, hl] at h; cases h
      | ok l' =>
        rw [hx, hl] at h
        cases h
        obtain ⟨rows, h1, rfl⟩ := timesAll_spec hl
        exact ⟨x :: rows, .cons hx h1, rfl⟩

theorem timesRow_value (hg : Good sc D zero one t) {v : Nat → ℂ} (hv : Extend.Respects t v) {m : Mono} {q l : List Mono} (h : timesRow t m q = .ok l) :
    value v l = m.value v * value v q := by
  have h' := timesRow_spec h
  clear h
  induction h' with
  | nil => simp
  | @cons n x q l hx _ ih =>
    obtain ⟨h1, h2, h3, h4, h5⟩ := timesMono_spec hx
    rw [value_cons, value_cons, ih, mono_value h2, mono_value h4, mono_value h5, times_value hg hv h1, h3]
    ring

theorem timesAll_value (hg : Good sc D zero one t) {v : Nat → ℂ} (hv : Extend.Respects t v) {p q l : List Mono} (h : timesAll t q p = .ok l) :
    value v l = value v p * value v q := by
  obtain ⟨rows, h1, rfl⟩ := timesAll_spec h
  clear h
  induction h1 with
  | nil => simp
  | cons hx _ ih => rw [List.flatten_cons, value_append, ih, timesRow_value hg hv hx, value_cons]; ring

theorem timesAll_terms {p q l : List Mono} (h : timesAll t q p = .ok l) {x : Mono} (hx : x ∈ l) :
    ∃ m ∈ p, ∃ n ∈ q, times t m.id n.id = .ok x.id := by
  obtain ⟨rows, h1, rfl⟩ := timesAll_spec h
  obtain ⟨r, hr, hx⟩ := List.mem_flatten.mp hx
  obtain ⟨i, hi⟩ := List.mem_iff_getElem?.mp hr
  have hil := List.getElem?_eq_some_iff.mp hi
  have hm := (List.forall₂_iff_get.mp h1).2 i (by rw [h1.length_eq]; exact hil.1) hil.1
  simp only [List.get_eq_getElem, hil.2] at hm
  have h2 := timesRow_spec hm
  obtain ⟨j, hj⟩ := List.mem_iff_getElem?.mp hx
  have hjl := List.getElem?_eq_some_iff.mp hj
  have hn := (List.forall₂_iff_get.mp h2).2 j (by rw [h2.length_eq]; exact hjl.1) hjl.1
  simp only [List.get_eq_getElem, hjl.2] at hn
  exact ⟨_, List.getElem_mem _, _, List.getElem_mem _, (timesMono_spec hn).1⟩

theorem factored_flags {v : Nat → ℂ} (h : Factored t v) : Poly.Respects flags v := h.1.1

/-- The cases of a product of polynomials. -/
theorem timesPoly_cases {p q l : List Mono} (h : timesPoly t o p q = .ok l) :
    (q = [] ∧ l = []) ∨ (∃ n, q = [n] ∧ n.id = 1 ∧ l = scale n.factor p) ∨ ∃ l', timesAll t q p = .ok l' ∧ l = make flags o l' := by
  have key : ∀ q, (timesAll t q p).map (make flags o) = .ok l → ∃ l', timesAll t q p = .ok l' ∧ l = make flags o l' := by
    intro q h
    cases hl : timesAll t q p with
    | error e => rw [hl] at h; cases h
    | ok l' => rw [hl] at h; cases h; exact ⟨l', rfl, rfl⟩
  unfold timesPoly at h
  split at h
  · cases h; exact Or.inl ⟨rfl, rfl⟩
  · split at h
    · rename_i n hn
      cases h
      exact Or.inr (Or.inl ⟨n, rfl, hn, rfl⟩)
    · exact Or.inr (Or.inr (key _ h))
  · exact Or.inr (Or.inr (key _ h))

theorem timesPoly_value (hg : Good sc D zero one t) {v : Nat → ℂ} (hv : Factored t v) {p q l : List Mono} (h : timesPoly t o p q = .ok l) :
    value v l = value v p * value v q := by
  rcases timesPoly_cases h with ⟨rfl, rfl⟩ | ⟨n, rfl, hn, rfl⟩ | ⟨l', hl, rfl⟩
  · simp
  · have h1 : n.value v = n.factor := by
      have h1 := hv.1.2
      rw [← hn] at h1
      unfold Mono.value
      rw [h1]
      split <;> simp
    rw [scale_value, value_cons, value_nil, h1]
    ring
  · rw [make_value hv.1.1, timesAll_value hg hv.2 hl]

theorem timesPoly_canonical (ho : Function.Injective o.rank) {p q l : List Mono} (hp : Canonical flags o p) (h : timesPoly t o p q = .ok l) :
    Canonical flags o l := by
  rcases timesPoly_cases h with ⟨rfl, rfl⟩ | ⟨n, rfl, hn, rfl⟩ | ⟨l', hl, rfl⟩
  · exact ⟨by simp, by simp, by simp⟩
  · exact scale_canonical hp _
  · exact make_canonical _ o ho _

theorem scale_ids {c : ℂ} {p : List Mono} {x : Mono} (h : x ∈ scale c p) : ∃ m ∈ p, m.id = x.id := by
  unfold scale at h
  split at h
  · simp at h
  · split at h
    · exact ⟨x, h, rfl⟩
    · obtain ⟨m, hm, rfl⟩ := List.mem_map.mp h
      exact ⟨m, hm, rfl⟩

theorem timesPoly_terms (hg : Good sc D zero one t) {p q l : List Mono} (h : timesPoly t o p q = .ok l) {x : Mono} (hx : x ∈ l) :
    ∃ m ∈ p, ∃ n ∈ q, ∀ v, Factored t v → v x.id = v m.id * v n.id := by
  rcases timesPoly_cases h with ⟨rfl, rfl⟩ | ⟨n, rfl, hn, rfl⟩ | ⟨l', hl, rfl⟩
  · simp at hx
  · obtain ⟨m, hm, e⟩ := scale_ids hx
    exact ⟨m, hm, n, by simp, fun v hv => by rw [hn, hv.1.2, e, mul_one]⟩
  · obtain ⟨y, hy, e⟩ := make_ids hx
    obtain ⟨m, hm, n, hn, hk⟩ := timesAll_terms hl hy
    exact ⟨m, hm, n, hn, fun v hv => by rw [← e]; exact times_value hg hv.2 hk⟩

theorem timesPoly_known (hg : Good sc D zero one t) {p q l : List Mono} (h : timesPoly t o p q = .ok l) (hp : ∀ m ∈ p, m.id < t.entries.length)
    (hq : ∀ m ∈ q, m.id < t.entries.length) : ∀ x ∈ l, x.id < t.entries.length := by
  intro x hx
  rcases timesPoly_cases h with ⟨rfl, rfl⟩ | ⟨n, rfl, hn, rfl⟩ | ⟨l', hl, rfl⟩
  · simp at hx
  · obtain ⟨m, hm, e⟩ := scale_ids hx
    rw [← e]; exact hp m hm
  · obtain ⟨y, hy, e⟩ := make_ids hx
    obtain ⟨m, hm, n, hn, hk⟩ := timesAll_terms hl hy
    rw [← e]; exact times_known hg (hp m hm) (hq n hn) hk

/-- What stops a product of polynomials. -/
theorem timesRow_error {m : Mono} {e : Stop} : ∀ {q : List Mono}, timesRow t m q = .error e → ∃ n ∈ q, timesMono t m n = .error e
  | [], h => by cases h
  | n :: q, h => by
    rw [timesRow] at h
    cases hx : timesMono t m n with
    | error e' => rw [hx] at h; cases h; exact ⟨n, by simp, hx⟩
    | ok x =>
      cases hl : timesRow t m q with
      | error e' =>
        rw [hx, hl] at h
        cases h
        obtain ⟨n', hn, h'⟩ := timesRow_error hl
        exact ⟨n', by simp [hn], h'⟩
      | ok l => rw [hx, hl] at h; cases h

theorem timesAll_error {q : List Mono} {e : Stop} : ∀ {p : List Mono}, timesAll t q p = .error e → ∃ m ∈ p, ∃ n ∈ q, timesMono t m n = .error e
  | [], h => by cases h
  | m :: p, h => by
    rw [timesAll] at h
    cases hx : timesRow t m q with
    | error e' =>
      rw [hx] at h
      cases h
      obtain ⟨n, hn, h'⟩ := timesRow_error hx
      exact ⟨m, by simp, n, hn, h'⟩
    | ok x =>
      cases hl : timesAll t q p with
      | error e' =>
        rw [hx, hl] at h
        cases h
        obtain ⟨m', hm, n, hn, h'⟩ := timesAll_error hl
        exact ⟨m', by simp [hm], n, hn, h'⟩
      | ok l => rw [hx, hl] at h; cases h

theorem timesPoly_error {p q : List Mono} {e : Stop} (h : timesPoly t o p q = .error e) : ∃ m ∈ p, ∃ n ∈ q, timesMono t m n = .error e := by
  have key : ∀ q, (timesAll t q p).map (make flags o) = .error e → ∃ m ∈ p, ∃ n ∈ q, timesMono t m n = .error e := by
    intro q h
    cases hl : timesAll t q p with
    | error e' => rw [hl] at h; cases h; exact timesAll_error hl
    | ok l' => rw [hl] at h; cases h
  unfold timesPoly at h
  split at h
  · cases h
  · split at h
    · cases h
    · exact key _ h
  · exact key _ h

theorem plain_of {p : List Mono} (hp : Canonical flags o p) {m : Mono} (hm : m ∈ p) : m.conj = false := by
  cases hc : m.conj with
  | false => rfl
  | true => have := (hp.plain m hm hc).1; simp [flags] at this

/-- Two symbols of the table whose product is not there. -/
def Missing (t : Extend.Table W) (a b : Nat) : Prop := a < t.entries.length ∧ b < t.entries.length ∧ times t a b = .error .unknownSymbol

theorem timesPoly_stops {p q : List Mono} (hp : Canonical flags o p) (hq : Canonical flags o q)
    (kp : ∀ m ∈ p, m.id < t.entries.length) (kq : ∀ m ∈ q, m.id < t.entries.length) {e : Stop} (h : timesPoly t o p q = .error e) :
    e = .unknownSymbol ∧ ∃ a b, Missing t a b := by
  obtain ⟨m, hm, n, hn, h'⟩ := timesPoly_error h
  unfold timesMono at h'
  rw [plain_of hp hm, plain_of hq hn] at h'
  simp only [Bool.or_self, Bool.false_eq_true, if_false] at h'
  cases hk : times t m.id n.id with
  | ok k => rw [hk] at h'; cases h'
  | error e' =>
    rw [hk] at h'
    cases h'
    have := times_error (kp m hm) (kq n hn) hk
    subst this
    exact ⟨rfl, _, _, kp m hm, kq n hn, hk⟩

/-! ## Replacements -/

theorem replacement_value {b : List MRule} {v : Nat → ℂ} (hs : Solves flags b v) (k : Nat) : value v (replacement b k) = v k := by
  unfold replacement
  split
  · rename_i r hr
    obtain ⟨h1, rfl⟩ := findRule_some hr
    exact (hs.2 r h1).symm
  · rw [ofMono_value v hs.1.1.zero]
    simp [Mono.value]

theorem replacement_canonical {b : List MRule} (hb : ∀ r ∈ b, r.OK flags o) (k : Nat) : Canonical flags o (replacement b k) := by
  unfold replacement
  split
  · rename_i r hr
    exact rhs_canonical (hb r (findRule_some hr).1)
  · unfold ofMono
    split
    · rename_i h
      exact ⟨by simp, by simpa using h, by simp⟩
    · exact ⟨by simp, by simp, by simp⟩

theorem replacement_known {b : List MRule} {n : Nat} (hb : ∀ r ∈ b, ∀ m ∈ r.rhs, m.id < n) {k : Nat} (hk : k < n) : ∀ m ∈ replacement b k, m.id < n := by
  unfold replacement
  split
  · rename_i r hr
    exact hb r (findRule_some hr).1
  · unfold ofMono
    split <;> simp [hk]

theorem replacement_replaces (b : List MRule) (k : Nat) : Replaces b k (replacement b k) := by
  unfold replacement
  split
  · rename_i r hr
    obtain ⟨h1, h2⟩ := findRule_some hr
    exact Or.inl ⟨r, h1, h2, rfl⟩
  · rename_i hr
    refine Or.inr ⟨findRule_none.mp hr, ?_⟩
    by_cases hk : k = 0
    · exact Or.inr ⟨hk, by simp [ofMono, hk]⟩
    · exact Or.inl ⟨hk, by simp [ofMono, hk]⟩

/-! ## The product of the replacements -/

theorem multiplyAll_value (hg : Good sc D zero one t) {b : List MRule} {v : Nat → ℂ} (hv : Factored t v) (hs : Solves flags b v) :
    ∀ {l : List Nat} {p r : List Mono}, multiplyAll t o b p l = .ok r → value v r = value v p * (l.map v).prod
  | [], p, r, h => by cases h; simp
  | k :: l, p, r, h => by
    rw [multiplyAll] at h
    split at h
    · rename_i hp
      cases h
      rw [List.isEmpty_iff.mp hp]
      simp
    · cases hq : timesPoly t o p (replacement b k) with
      | error e => rw [hq] at h; cases h
      | ok q =>
        rw [hq] at h
        rw [multiplyAll_value hg hv hs h, timesPoly_value hg hv hq, replacement_value hs]
        simp [mul_assoc]

theorem multiplyAll_canonical (ho : Function.Injective o.rank) {b : List MRule} :
    ∀ {l : List Nat} {p r : List Mono}, Canonical flags o p → multiplyAll t o b p l = .ok r → Canonical flags o r
  | [], p, r, hp, h => by cases h; exact hp
  | k :: l, p, r, hp, h => by
    rw [multiplyAll] at h
    split at h
    · cases h; exact hp
    · cases hq : timesPoly t o p (replacement b k) with
      | error e => rw [hq] at h; cases h
      | ok q =>
        rw [hq] at h
        exact multiplyAll_canonical ho (timesPoly_canonical ho hp hq) h

theorem multiplyAll_terms (hg : Good sc D zero one t) {b : List MRule} :
    ∀ {l : List Nat} {qs : List (List Mono)} {p r : List Mono}, (∀ m ∈ p, ProductOf t qs m.id) → multiplyAll t o b p l = .ok r →
      ∀ m ∈ r, ProductOf t (qs ++ l.map (replacement b)) m.id
  | [], qs, p, r, hp, h => by cases h; simpa using hp
  | k :: l, qs, p, r, hp, h => by
    rw [multiplyAll] at h
    split at h
    · rename_i he
      cases h
      rw [List.isEmpty_iff.mp he]
      simp
    · cases hq : timesPoly t o p (replacement b k) with
      | error e => rw [hq] at h; cases h
      | ok q =>
        rw [hq] at h
        have := multiplyAll_terms (qs := qs ++ [replacement b k]) hg (fun m hm => ?_) h
        · rwa [List.append_assoc, List.singleton_append, ← List.map_cons] at this
        · obtain ⟨y, hy, n, hn, hv⟩ := timesPoly_terms hg hq hm
          obtain ⟨ms, h1, h2⟩ := hp y hy
          refine ⟨ms ++ [n.id], List.rel_append h1 (.cons ⟨n, hn, rfl⟩ .nil), fun v hf => ?_⟩
          rw [hv v hf, h2 v hf]
          simp

theorem multiplyAll_known (hg : Good sc D zero one t) {b : List MRule} (hb : ∀ r ∈ b, ∀ m ∈ r.rhs, m.id < t.entries.length) :
    ∀ {l : List Nat} {p r : List Mono}, (∀ k ∈ l, k < t.entries.length) → (∀ m ∈ p, m.id < t.entries.length) → multiplyAll t o b p l = .ok r →
      ∀ m ∈ r, m.id < t.entries.length
  | [], p, r, _, hp, h => by cases h; exact hp
  | k :: l, p, r, hl, hp, h => by
    rw [multiplyAll] at h
    split at h
    · cases h; exact hp
    · cases hq : timesPoly t o p (replacement b k) with
      | error e => rw [hq] at h; cases h
      | ok q =>
        rw [hq] at h
        exact multiplyAll_known hg hb (fun k hk => hl k (by simp [hk]))
          (timesPoly_known hg hq hp (replacement_known hb (hl k (by simp)))) h

theorem multiplyAll_stops (hg : Good sc D zero one t) (ho : Function.Injective o.rank) {b : List MRule} (hok : ∀ r ∈ b, r.OK flags o)
    (hb : ∀ r ∈ b, ∀ m ∈ r.rhs, m.id < t.entries.length) : ∀ {l : List Nat} {p : List Mono} {e : Stop}, (∀ k ∈ l, k < t.entries.length) →
      (∀ m ∈ p, m.id < t.entries.length) → Canonical flags o p → multiplyAll t o b p l = .error e → e = .unknownSymbol ∧ ∃ a b, Missing t a b
  | [], p, e, _, _, _, h => by cases h
  | k :: l, p, e, hl, hp, hc, h => by
    rw [multiplyAll] at h
    split at h
    · cases h
    · have hrk := replacement_known hb (hl k (by simp))
      cases hq : timesPoly t o p (replacement b k) with
      | error e' =>
        rw [hq] at h
        cases h
        exact timesPoly_stops hc (replacement_canonical hok k) hp hrk hq
      | ok q =>
        rw [hq] at h
        exact multiplyAll_stops hg ho hok hb (fun k hk => hl k (by simp [hk])) (timesPoly_known hg hq hp hrk) (timesPoly_canonical ho hc hq) h

/-! ## New rules -/

/-- The cases of the rule for an entry. -/
theorem ruleFor_some {b : List MRule} {e : Entry W} {x : Option (List Mono)} (h : ruleFor t o b e = .ok x) :
    (x = none ∧ (e.fundamental = true ∨ ∀ k ∈ e.symbols, ∀ r ∈ b, r.lhs ≠ k)) ∨
    ∃ k l p, e.fundamental = false ∧ e.symbols = k :: l ∧ multiplyAll t o b (replacement b k) l = .ok p ∧ x = some (append o p [⟨e.id, false, -1⟩]) := by
  unfold ruleFor at h
  split at h
  · rename_i hf
    cases h
    exact Or.inl ⟨rfl, Or.inl hf⟩
  · rename_i hf
    split at h
    · rename_i he
      cases h
      exact Or.inl ⟨rfl, Or.inr (by simp [he])⟩
    · rename_i k l he
      split at h
      · rename_i hn
        cases h
        refine Or.inl ⟨rfl, Or.inr fun i hi => ?_⟩
        rw [he] at hi
        rw [List.all_eq_true] at hn
        exact findRule_none.mp (Option.isNone_iff_eq_none.mp (hn i hi))
      · cases hp : multiplyAll t o b (replacement b k) l with
        | error e' => rw [hp] at h; cases h
        | ok p =>
          rw [hp] at h
          cases h
          exact Or.inr ⟨k, l, p, by simpa using hf, he, hp, rfl⟩

theorem ruleFor_error {b : List MRule} {e : Entry W} {s : Stop} (h : ruleFor t o b e = .error s) :
    ∃ k l, e.symbols = k :: l ∧ multiplyAll t o b (replacement b k) l = .error s := by
  unfold ruleFor at h
  split at h
  · cases h
  · split at h
    · cases h
    · rename_i k l he
      split at h
      · cases h
      · cases hp : multiplyAll t o b (replacement b k) l with
        | error e' => rw [hp] at h; cases h; exact ⟨k, l, he, hp⟩
        | ok p => rw [hp] at h; cases h

theorem rulesFor_spec {b : List MRule} : ∀ {es : List (Entry W)} {new : List (List Mono)}, rulesFor t o b es = .ok new →
    ∃ xs, List.Forall₂ (fun e x => ruleFor t o b e = .ok x) es xs ∧ new = xs.flatMap Option.toList
  | [], new, h => by cases h; exact ⟨[], .nil, rfl⟩
  | e :: es, new, h => by
    rw [rulesFor] at h
    cases hx : ruleFor t o b e with
    | error s => rw [hx] at h; cases h
    | ok x =>
      cases hr : rulesFor t o b es with
      | error s => rw [hx, hr] at h; cases h
      | ok r =>
        rw [hx, hr] at h
        cases h
        obtain ⟨xs, h1, rfl⟩ := rulesFor_spec hr
        exact ⟨x :: xs, .cons hx h1, by simp⟩

theorem rulesFor_mem {b : List MRule} {es : List (Entry W)} {new : List (List Mono)} (h : rulesFor t o b es = .ok new) {p : List Mono} :
    p ∈ new ↔ ∃ e ∈ es, ruleFor t o b e = .ok (some p) := by
  obtain ⟨xs, h1, rfl⟩ := rulesFor_spec h
  clear h
  induction h1 with
  | nil => simp
  | @cons e x es xs hx _ ih =>
    rw [List.flatMap_cons, List.mem_append, ih]
    simp only [List.mem_cons, exists_eq_or_imp, hx]
    simp [Option.mem_toList, eq_comm]

theorem rulesFor_error {b : List MRule} {s : Stop} : ∀ {es : List (Entry W)}, rulesFor t o b es = .error s → ∃ e ∈ es, ruleFor t o b e = .error s
  | [], h => by cases h
  | e :: es, h => by
    rw [rulesFor] at h
    cases hx : ruleFor t o b e with
    | error s' => rw [hx] at h; cases h; exact ⟨e, by simp, hx⟩
    | ok x =>
      cases hr : rulesFor t o b es with
      | error s' =>
        rw [hx, hr] at h
        cases h
        obtain ⟨e', he, h'⟩ := rulesFor_error hr
        exact ⟨e', by simp [he], h'⟩
      | ok r => rw [hx, hr] at h; cases h

/-- A symbol that is not fundamental is neither zero nor one. -/
theorem not_fundamental (law : Lawful sc D zero one) (hg : Good sc D zero one t) {i : Nat} {e : Entry W} (he : t.entries[i]? = some e)
    (hf : e.fundamental = false) : 1 < i ∧ 1 < e.symbols.length := by
  have hc := hg.count i e he
  have h2 : 1 < e.symbols.length := by
    simp only [Entry.fundamental, decide_eq_false_iff_not] at hf
    omega
  refine ⟨?_, h2⟩
  by_contra hi
  have : e.symbols = [i] := by
    have h01 : i = 0 ∨ i = 1 := by omega
    rcases h01 with rfl | rfl
    · exact Extend.fund_symbols hg (Extend.fund_zero law hg) he
    · exact Extend.fund_symbols hg (Extend.fund_one law hg) he
  rw [this] at h2
  simp at h2

theorem ruleFor_value (hg : Good sc D zero one t) (ho : Function.Injective o.rank) {b : List MRule} {i : Nat} {e : Entry W} (he : t.entries[i]? = some e)
    {p : List Mono} (h : ruleFor t o b e = .ok (some p)) {v : Nat → ℂ} (hv : Factored t v) (hs : Solves flags b v) : value v p = 0 := by
  rcases ruleFor_some h with ⟨h1, -⟩ | ⟨k, l, q, -, h2, h3, h4⟩
  · cases h1
  · cases h4
    rw [append_eq, mergeAdd_value v ho, multiplyAll_value hg hv hs h3, replacement_value hs, hg.ids i e he]
    have := hv.2.product i e he
    rw [h2, List.map_cons, List.prod_cons] at this
    simp [Mono.value, this]

theorem ruleFor_canonical (law : Lawful sc D zero one) (hg : Good sc D zero one t) (ho : Function.Injective o.rank) {b : List MRule}
    (hok : ∀ r ∈ b, r.OK flags o) {i : Nat} {e : Entry W} (he : t.entries[i]? = some e) {p : List Mono} (h : ruleFor t o b e = .ok (some p)) :
    Canonical flags o p := by
  rcases ruleFor_some h with ⟨h1, -⟩ | ⟨k, l, q, h1, h2, h3, h4⟩
  · cases h1
  · cases h4
    rw [append_eq]
    have := (not_fundamental law hg he h1).1
    refine mergeAdd_canonical ho (multiplyAll_canonical ho (replacement_canonical hok k) h3) ⟨by simp, ?_, by simp⟩
    rw [hg.ids i e he]
    simp; omega

theorem ruleFor_known (hg : Good sc D zero one t) {b : List MRule} (hb : ∀ r ∈ b, ∀ m ∈ r.rhs, m.id < t.entries.length) {i : Nat}
    {e : Entry W} (he : t.entries[i]? = some e) {p : List Mono} (h : ruleFor t o b e = .ok (some p)) : ∀ m ∈ p, m.id < t.entries.length := by
  rcases ruleFor_some h with ⟨h1, -⟩ | ⟨k, l, q, h1, h2, h3, h4⟩
  · cases h1
  · cases h4
    have hlt : ∀ k ∈ e.symbols, k < t.entries.length := fun k hk => by
      obtain ⟨w, hw, -⟩ := hg.fund i e he k hk
      rw [hg.sync]
      exact (List.getElem?_eq_some_iff.mp hw).1
    rw [h2] at hlt
    have hq := multiplyAll_known hg hb (fun k hk => hlt k (by simp [hk])) (replacement_known hb (hlt k (by simp))) h3
    intro m hm
    rw [append_eq] at hm
    obtain ⟨y, hy, e1, -⟩ := mergeAdd_mem hm
    rcases List.mem_append.mp hy with hy | hy
    · rw [← e1]; exact hq y hy
    · simp only [List.mem_singleton] at hy
      subst hy
      rw [← e1]
      show e.id < _
      rw [hg.ids i e he]
      exact (List.getElem?_eq_some_iff.mp he).1

theorem ruleFor_stops (hg : Good sc D zero one t) (ho : Function.Injective o.rank) {b : List MRule} (hok : ∀ r ∈ b, r.OK flags o)
    (hb : ∀ r ∈ b, ∀ m ∈ r.rhs, m.id < t.entries.length) {i : Nat} {e : Entry W} (he : t.entries[i]? = some e) {s : Stop}
    (h : ruleFor t o b e = .error s) : s = .unknownSymbol ∧ ∃ a b, Missing t a b := by
  obtain ⟨k, l, h2, h3⟩ := ruleFor_error h
  have hlt : ∀ k ∈ e.symbols, k < t.entries.length := fun k hk => by
    obtain ⟨w, hw, -⟩ := hg.fund i e he k hk
    rw [hg.sync]
    exact (List.getElem?_eq_some_iff.mp hw).1
  rw [h2] at hlt
  exact multiplyAll_stops hg ho hok hb (fun k hk => hlt k (by simp [hk])) (replacement_known hb (hlt k (by simp))) (replacement_canonical hok k) h3

/-! ## Completion does not invent symbols -/

/-- Changing the value of one symbol. -/
theorem update_assignment {v : Nat → ℂ} (hv : Assignment flags v) {i : Nat} (hi : 1 < i) (x : ℝ) : Assignment flags (Function.update v i x) := by
  refine ⟨⟨by rw [Function.update_of_ne (by omega)]; exact hv.1.zero, fun j _ => ?_, fun j hj => ?_⟩, by rw [Function.update_of_ne (by omega)]; exact hv.2⟩
  · by_cases h : j = i
    · subst h; simp
    · rw [Function.update_of_ne h]; exact hv.1.herm j rfl
  · have : j = 0 := by simpa [flags] using hj
    subst this
    rw [Function.update_of_ne (by omega)]
    exact hv.1.anti 0 rfl

theorem value_update {v : Nat → ℂ} {i : Nat} {x : ℂ} {p : List Mono} (h : ∀ m ∈ p, m.id ≠ i) : value (Function.update v i x) p = value v p := by
  unfold value
  congr 1
  refine List.map_congr_left fun m hm => ?_
  unfold Mono.value
  rw [Function.update_of_ne (h m hm)]

/-- Left sides of a completed rulebook come from the old rules and equations. -/
theorem complete_known (ho : o.Good) {b b' : List MRule} (hb : Poly.Book flags o b) {raw : List (List Mono)} (hraw : ∀ p ∈ raw, Canonical flags o p) {k : Nat}
    (h : complete flags o b raw = some (.ok b' k)) {n : Nat} (h1 : ∀ r ∈ b, r.lhs < n) (h2 : ∀ r ∈ b, ∀ m ∈ r.rhs, m.id < n)
    (h3 : ∀ p ∈ raw, ∀ m ∈ p, m.id < n) : ∀ r ∈ b', r.lhs < n := by
  intro r hr
  by_contra hn
  have hb' : Poly.Book flags o b' := .complete hb hraw h
  have ok := (C56.book_inv flags_good ho hb').ok r hr
  rcases C56.C56_complete flags flags_good o ho b hb raw hraw with ⟨hc, -⟩ | ⟨c, j, hc, hs, ⟨v, hv⟩, -⟩
  · rw [hc] at h; cases h
  · rw [hc] at h
    cases h
    have key : ∀ x : ℝ, Solves flags b' (Function.update v r.lhs x) := by
      intro x
      rw [hs]
      obtain ⟨hv1, hv2⟩ := (hs v).mp hv
      refine ⟨⟨update_assignment hv1.1 ok.lhs x, fun q hq => ?_⟩, fun p hp => ?_⟩
      · unfold Holds
        rw [value_update fun m hm e => by have := h2 q hq m hm; omega, Function.update_of_ne (by have := h1 q hq; omega)]
        exact hv1.2 q hq
      · rw [value_update fun m hm e => by have := h3 p hp m hm; omega]
        exact hv2 p hp
    have hval : ∀ x : ℝ, (x : ℂ) = value v r.rhs := by
      intro x
      have := (key x).2 r hr
      unfold Holds at this
      rwa [Function.update_self, value_update fun m hm e => by have := rhs_below ok m hm; rw [e] at this; exact lt_irrefl _ this] at this
    have h0 := hval 0
    have h4 := hval 1
    rw [← h0] at h4
    norm_num at h4

/-! ## Expansion -/

theorem finish_spec (ho : o.Good) {sort : List (List Mono) → List (List Mono)} (hsort : ∀ l, (sort l).Perm l) {b : Book} (hb : b.Proper o)
    (hx : b.expansion = true) {new : List (List Mono)} (hnew : ∀ p ∈ new, Canonical flags o p) :
    (b.finish o sort new = .contradiction ∧ ∀ v, ¬ (b.Holds v ∧ Zero v new)) ∨
    ∃ b' c, b.finish o sort new = .done b' c ∧ (∀ v, b'.Holds v ↔ b.Holds v ∧ Zero v new) ∧ b'.Proper o ∧ b'.raw = [] ∧ b'.expansion = false ∧
      b'.used = b.used ∧ b'.safe = b.safe ∧ c = (b'.rules.length : Int) - b.rules.length - b.rules.length := by
  have hzero : ∀ v l l', Zero v (l ++ l') ↔ Zero v l ∧ Zero v l' := by
    intro v l l'
    simp [Poly.Zero, List.mem_append, or_imp, forall_and]
  have hadd : b.add new = .ok { b with raw := b.raw ++ new } := by simp [Book.add, hx]
  unfold Book.finish
  rw [hadd]
  dsimp only
  split
  · rename_i he
    have he : b.raw ++ new = [] := by simpa using he
    refine Or.inr ⟨_, _, rfl, fun v => ?_, ⟨hb.made, by simp [he]⟩, he, rfl, rfl, rfl, by dsimp only; omega⟩
    unfold Book.Holds
    dsimp only
    rw [hzero, and_assoc]
  · have hcan : ∀ p ∈ sort (b.raw ++ new), Canonical flags o p := by
      intro p hp
      rcases List.mem_append.mp ((hsort _).mem_iff.mp hp) with h | h
      · exact hb.raw p h
      · exact hnew p h
    have hz : ∀ v, Zero v (sort (b.raw ++ new)) ↔ Zero v b.raw ∧ Zero v new := by
      intro v
      rw [← hzero]
      unfold Poly.Zero
      simp only [(hsort (b.raw ++ new)).mem_iff]
    rcases C56.C56_complete flags flags_good o ho b.rules hb.made _ hcan with ⟨hc, hno⟩ | ⟨r, k, hc, hs, -, hk⟩
    · rw [hc]
      refine Or.inl ⟨rfl, fun v hv => hno v ?_⟩
      rw [hz]
      exact ⟨hv.1.1, hv.1.2, hv.2⟩
    · rw [hc]
      refine Or.inr ⟨_, _, rfl, fun v => ?_, ⟨.complete hb.made hcan hc, by simp⟩, rfl, rfl, rfl, rfl, by dsimp only; omega⟩
      unfold Book.Holds
      dsimp only
      rw [hs, hz]
      simp only [Poly.Zero, List.not_mem_nil, false_implies, implies_true, and_true, and_assoc]

theorem finish_known (ho : o.Good) (hid : o = byId) {sort : List (List Mono) → List (List Mono)} (hsort : ∀ l, (sort l).Perm l) {b b' : Book} (hb : b.Proper o)
    (hx : b.expansion = true) {new : List (List Mono)} (hnew : ∀ p ∈ new, Canonical flags o p) {c : Int} (h : b.finish o sort new = .done b' c) {n : Nat}
    (hk : b.Known n) (hn : ∀ p ∈ new, ∀ m ∈ p, m.id < n) : b'.Known n := by
  have hadd : b.add new = .ok { b with raw := b.raw ++ new } := by simp [Book.add, hx]
  unfold Book.finish at h
  rw [hadd] at h
  dsimp only at h
  split at h
  · rename_i he
    have he : b.raw ++ new = [] := by simpa using he
    cases h
    exact ⟨hk.lhs, hk.rhs, by simp [he]⟩
  · split at h
    · rename_i r k hc
      cases h
      have hcan : ∀ p ∈ sort (b.raw ++ new), Canonical flags o p := by
        intro p hp
        rcases List.mem_append.mp ((hsort _).mem_iff.mp hp) with h | h
        · exact hb.raw p h
        · exact hnew p h
      have hl := complete_known ho hb.made hcan hc hk.lhs hk.rhs fun p hp => by
        rcases List.mem_append.mp ((hsort _).mem_iff.mp hp) with h | h
        · exact hk.raw p h
        · exact hn p h
      refine ⟨hl, fun q hq m hm => ?_, by simp⟩
      have ok := (C56.book_inv flags_good ho (.complete hb.made hcan hc)).ok q hq
      have := rhs_below ok m hm
      rw [hid] at this
      exact lt_trans this (hl q hq)
    · cases h
    · cases h

/-! ## Which products there are -/

theorem sort_eq {l m : List Nat} (hl : l.Pairwise (· ≤ ·)) (h : l.Perm m) : stableSort id m = l :=
  List.Perm.eq_of_pairwise (le := (· ≤ ·)) (fun a b _ _ h1 h2 => Nat.le_antisymm h1 h2) (stableSort_sorted id m) hl ((stableSort_perm id m).trans h.symm)

/-- The product of two symbols is looked up by the factors of both, in order. -/
theorem times_eq (hg : Good sc D zero one t) (hs : Settled t) {a b : Nat} {la lb : List Nat} (ha : 1 < a) (hb : 1 < b) (hla : Extend.FactorsOf t a la)
    (hlb : Extend.FactorsOf t b lb) :
    times t a b = match t.find (stableSort id (la ++ lb)) with | some k => .ok k | none => .error .unknownSymbol := by
  obtain ⟨ea, ha1, ha2⟩ := hla
  obtain ⟨eb, hb1, hb2⟩ := hlb
  have hal := (List.getElem?_eq_some_iff.mp ha1).1
  have hbl := (List.getElem?_eq_some_iff.mp hb1).1
  have hfa : factorsAt t a = ⟨ea.fundamental, la⟩ := by unfold factorsAt; rw [ha1, ← ha2]
  have hfb : factorsAt t b = ⟨eb.fundamental, lb⟩ := by unfold factorsAt; rw [hb1, ← hb2]
  have hxa : (if (factorsAt t a).fundamental then [a] else (factorsAt t a).symbols) = la := by
    rw [hfa]
    split
    · rename_i h; rw [← ha2]; exact (hs a ea ha1 h).symm
    · rfl
  have hxb : (if (factorsAt t b).fundamental then [b] else (factorsAt t b).symbols) = lb := by
    rw [hfb]
    split
    · rename_i h; rw [← hb2]; exact (hs b eb hb1 h).symm
    · rfl
  have key : tryMultiply2 (factorsAt t) (lookup t) a b = t.find (stableSort id (la ++ lb)) := by
    unfold tryMultiply2
    rw [if_neg (by omega), if_neg (by omega), if_neg (by omega)]
    split
    · have hm : ([a, b].filter (· != 1)) = [a, b] := by
        rw [List.filter_cons_of_pos (by simp; omega), List.filter_cons_of_pos (by simp; omega)]; rfl
      unfold tryMultiply
      dsimp only
      rw [hm, if_neg (by simp; omega), if_pos rfl]
      dsimp only
      rw [lookup_eq hg, List.flatMap_cons, List.flatMap_cons, List.flatMap_nil, List.append_nil, hxa, hxb]
    · rename_i hf
      simp only [Bool.or_eq_true, Bool.not_eq_true', not_or, Bool.not_eq_false] at hf
      rw [if_pos hf.1] at hxa
      rw [if_pos hf.2] at hxb
      rw [lookup_eq hg, ← hxa, ← hxb]
      congr 1
      symm
      by_cases hab : a < b
      · rw [if_pos hab, if_pos hab]
        exact sort_eq (by simp; omega) (List.Perm.refl _)
      · rw [if_neg hab, if_neg hab]
        exact sort_eq (by simp; omega) (List.Perm.swap _ _ _)
  unfold times
  rw [if_neg (by omega), key]
  cases t.find (stableSort id (la ++ lb)) <;> rfl

theorem missing_absent (hg : Good sc D zero one t) (hs : Settled t) {a b : Nat} (h : Missing t a b) : Absent t a b := by
  obtain ⟨h1, h2, h3⟩ := h
  have hgt : 1 < a ∧ 1 < b := by
    unfold times tryMultiply2 at h3
    by_contra hn
    rw [if_neg (by omega)] at h3
    by_cases hz : a = 0 ∨ b = 0
    · rw [if_pos hz] at h3; cases h3
    · rw [if_neg hz] at h3
      by_cases ha : a = 1
      · rw [if_pos ha] at h3; cases h3
      · rw [if_neg ha, if_pos (by omega)] at h3; cases h3
  have hla : Extend.FactorsOf t a _ := ⟨_, List.getElem?_eq_getElem h1, rfl⟩
  have hlb : Extend.FactorsOf t b _ := ⟨_, List.getElem?_eq_getElem h2, rfl⟩
  refine ⟨_, _, hla, hlb, fun k l hk h0 hp => ?_⟩
  rw [times_eq hg hs hgt.1 hgt.2 hla hlb] at h3
  obtain ⟨e, he, rfl⟩ := hk
  have hsorted : e.symbols.Pairwise (· ≤ ·) := by
    rcases hg.proper k e he with h | h
    · exact absurd (List.mem_of_mem_head? h) h0
    · exact h.1
  obtain ⟨k', hk'⟩ := hg.kept k e he
  rw [sort_eq hsorted hp, hk'] at h3
  cases h3

/-- Words with one factor that are their own canonical forms: symbols with one factor are their own factors. -/
theorem settled_of (hg : Good sc D zero one t) (hw : ∀ x ∈ t.syms, ∃ w, x = some w) (hone : ∀ w, D w → (sc.factorize w).length = 1 → Extend.Basic sc w) :
    Settled t := by
  intro i e he hf
  have hi : i < t.syms.length := by rw [← hg.sync]; exact (List.getElem?_eq_some_iff.mp he).1
  obtain ⟨w, hwi⟩ := hw _ (List.getElem_mem hi)
  have hwi' : t.syms[i]? = some (some w) := by rw [List.getElem?_eq_getElem hi, hwi]
  refine Extend.fund_symbols hg ⟨w, hwi', hone w (hg.words i w hwi') ?_⟩ he
  obtain ⟨m, h1, h2⟩ := hg.faithful i e w he hwi'
  have hc := hg.count i e he
  have hne : e.symbols ≠ [] := by
    intro h0
    rcases hg.proper i e he with h | h
    · rw [h0] at h; cases h
    · exact h.2.2 h0
  have h3 := List.length_pos_iff.mpr hne
  have h4 := h1.length_eq
  have h5 := h2.length_eq
  simp only [Entry.fundamental, decide_eq_true_eq] at hf
  omega

/-! ## Values of the product, without the rules -/

theorem multiplyAll_replaced (hg : Good sc D zero one t) {b : List MRule} {v : Nat → ℂ} (hv : Factored t v) :
    ∀ {l : List Nat} {p r : List Mono}, multiplyAll t o b p l = .ok r → value v r = value v p * (l.map fun k => value v (replacement b k)).prod
  | [], p, r, h => by cases h; simp
  | k :: l, p, r, h => by
    rw [multiplyAll] at h
    split at h
    · rename_i hp
      cases h
      have : p = [] := by simpa using hp
      subst this
      simp
    · cases hq : timesPoly t o p (replacement b k) with
      | error e => rw [hq] at h; cases h
      | ok q =>
        rw [hq] at h
        have := multiplyAll_replaced hg hv (h : multiplyAll t o b q l = .ok r)
        rw [this, timesPoly_value hg hv hq, List.map_cons, List.prod_cons, mul_assoc]

/-! ## Rules of a rulebook, from its solutions -/

theorem replacement_subst {b : List MRule} {v : Nat → ℂ} (hv : v 0 = 0) (k : Nat) : value v (replacement b k) = subst b v k := by
  unfold replacement
  cases h : findRule b k with
  | some r => exact (subst_some h).symm
  | none =>
    rw [subst_none h]
    by_cases hk : k = 0
    · subst hk; simp [ofMono, hv]
    · simp [ofMono, hk, Mono.value]

theorem ofMono_canonical {i : Nat} (hi : i ≠ 0) (c : ℂ) : Canonical flags o (ofMono ⟨i, false, c⟩) := by
  unfold ofMono
  split
  · rename_i h
    exact ⟨by simp, by simpa [hi] using h, by simp⟩
  · exact ⟨by simp, by simp, by simp⟩

/-- A symbol with the same number in all solutions is replaced by the number. -/
theorem replacement_number (ho : o.Good) {b : List MRule} (hb : Poly.Book flags o b) {k : Nat} {c : ℂ} (h : ∀ v, Solves flags b v → v k = c) :
    replacement b k = ofMono ⟨1, false, c⟩ := by
  have inv := C56.book_inv flags_good ho hb
  refine canonical_unique flags_good ho.injective (replacement_canonical inv.ok k) (ofMono_canonical (by omega) c) fun v hv h1 => ?_
  rw [replacement_subst hv.zero, h _ (inv.subst_solves ⟨hv, h1⟩), ofMono_value v hv.zero]
  simp [Mono.value, h1]

/-- A symbol that is free has no rule. -/
theorem no_rule (ho : o.Good) {b : List MRule} (hb : Poly.Book flags o b) {k : Nat} {v : Nat → ℂ} (h0 : Solves flags b (Function.update v k (0 : ℝ)))
    (h1 : Solves flags b (Function.update v k (1 : ℝ))) : findRule b k = none := by
  rw [findRule_none]
  intro r hr e
  have ok := (C56.book_inv flags_good ho hb).ok r hr
  have hval : ∀ x : ℝ, Solves flags b (Function.update v k x) → (x : ℂ) = value v r.rhs := by
    intro x hx
    have := hx.2 r hr
    unfold Holds at this
    rwa [e, Function.update_self, value_update fun m hm e' => by have := rhs_below ok m hm; rw [e', e] at this; exact lt_irrefl _ this] at this
  have h2 := hval 0 h0
  have h3 := hval 1 h1
  rw [← h2] at h3
  norm_num at h3

end

end Moment.Inflation.Expand
