import Verif.Model.MakeExplicit
import Verif.Props.C96_ValueRules
import Verif.Props.C23_MomentRules

/-! # C128: making probabilities explicit

`make_explicit` is given values for the probabilities of all outcomes of measurements, possibly conditional on fixed outcomes of others. It gives equations for
moments, or values of moments, which hold for exactly the states with these probabilities. If one value is missing, it is to be the one that makes the sum one. -/

namespace Moment.C128

open Moment.Explicit Moment.Probability Moment.Poly Classical

local notation "conj'" => starRingEnd ℂ

/-! ## Specification -/

/-- The elements have the values, or the values times that of the condition. -/
def Wanted (x : Params) (elems : List Element) (condition : Element) (values : List ℝ) (v : Nat → ℂ) : Prop :=
  ∀ (i : Nat) (e : Element) (p : List Mono) (y : ℝ), elems[i]? = some e → e.symbols = some p → values[i]? = some y →
    if x.conditional = true ∧ x.fixed = true then ∀ c, condition.symbols = some c → value v p = y * value v c else value v p = y

/-- A symbol that is needed is not known. -/
def Unknown (x : Params) (elems : List Element) (condition : Element) : Prop :=
  (∃ e ∈ elems, e.symbols = none) ∨ (x.conditional = true ∧ x.fixed = true ∧ condition.symbols = none)

/-- A symbol of the elements or of the condition. -/
def Occurs (elems : List Element) (condition : Element) (i : Nat) : Prop :=
  ∃ e ∈ condition :: elems, ∃ p, e.symbols = some p ∧ ∃ m ∈ p, m.id = i

/-- The polynomials of elements are canonical. -/
def Regular (t : Table) (o : Order) (elems : List Element) (condition : Element) : Prop :=
  ∀ e ∈ condition :: elems, ∀ p, e.symbols = some p → Canonical t o p

/-! ## Numbers of values -/

/-- **C128.** As many values as there are outcomes are taken as they are. Other numbers of values are refused, except for one less where the probabilities add up to
one. -/
theorem C128_count (x : Params) (size : Nat) (values : List ℝ) :
    (values.length = size → checkCount x size values = some values) ∧
    (values.length ≠ size → (checkCount x size values ≠ none ↔ values.length + 1 = size ∧ (x.conditional = true ∨ x.fixed = false))) := by
  unfold checkCount
  refine ⟨fun h => by rw [if_neg (by simp [h])], fun h => ?_⟩
  rw [if_pos (Ne.symm h)]
  by_cases hs : size = values.length + 1
  · subst hs
    cases x.conditional <;> cases x.fixed <;> simp
  · have hs' : values.length + 1 ≠ size := fun e => hs e.symm
    cases x.conditional <;> cases x.fixed <;> simp [hs, hs']

example : ([1 / 4, 3 / 4] : List ℝ).length = 2 := rfl

/-! ## Rules -/

theorem rules_mem {o : Order} {rhs : ℝ → List Mono} : ∀ {elems : List Element} {values : List ℝ} {l : List (List Mono)}, rules o rhs elems values = some (some l) →
    ∀ q ∈ l, ∃ e ∈ elems, ∃ p, e.symbols = some p ∧ ∃ y, q = append o p (rhs y) := by
  intro elems
  induction elems with
  | nil => intro values l h; simp [rules] at h; subst h; simp
  | cons e es ih =>
    intro values l h
    rw [rules] at h
    cases hs : e.symbols with
    | none => rw [hs] at h; simp at h
    | some p =>
      rw [hs] at h
      cases values with
      | nil => simp at h
      | cons y ys =>
        dsimp only at h
        cases hr : rules o rhs es ys with
        | none => rw [hr] at h; simp at h
        | some r =>
          cases r with
          | none => rw [hr] at h; simp at h
          | some l' =>
            rw [hr] at h
            simp only [Option.map_some, Option.some.injEq] at h
            subst h
            intro q hq
            rcases List.mem_cons.mp hq with rfl | hq
            · exact ⟨e, by simp, p, hs, y, rfl⟩
            · obtain ⟨e', h1, h2⟩ := ih hr q hq
              exact ⟨e', by simp [h1], h2⟩

theorem single_canonical {t : Table} {o : Order} (y : ℂ) : Canonical t o (makeRaw byId [term 1 y]) := by
  unfold makeRaw removeZeros
  rw [if_neg (by simp)]
  by_cases h : y = 0
  · rw [List.filter_cons_of_neg (by simp [term, h])]
    exact canonical_nil t o
  · rw [List.filter_cons_of_pos (by simp [term, h])]
    exact ⟨by simp, by simp [term, h], by simp [term]⟩

theorem single_ids {y : ℂ} {m : Mono} (h : m ∈ makeRaw byId [term 1 y]) : m.id = 1 := by
  unfold makeRaw removeZeros at h
  rw [if_neg (by simp)] at h
  have := List.mem_of_mem_filter h
  simp at this
  subst this; rfl

theorem scale_ids {c : ℂ} {p : List Mono} {m : Mono} (h : m ∈ scale c p) : ∃ n ∈ p, n.id = m.id := by
  unfold scale at h
  split at h
  · simp at h
  · split at h
    · exact ⟨m, h, rfl⟩
    · obtain ⟨n, hn, rfl⟩ := List.mem_map.mp h
      exact ⟨n, hn, rfl⟩

/-- The rules before simplification. -/
theorem raw_spec (x : Params) {t : Table} {o : Order} (ho : Function.Injective o.rank) {elems : List Element} {condition : Element} {values : List ℝ}
    (hr : Regular t o elems condition) (hl : elems.length = values.length) :
    (rawRules x o elems condition values = some none ∧ Unknown x elems condition) ∨
    ∃ l, rawRules x o elems condition values = some (some l) ∧ ¬ Unknown x elems condition ∧
      (∀ v, Assignment t v → (Zero v l ↔ Wanted x elems condition values v)) ∧ (∀ p ∈ l, Canonical t o p) ∧
      ∀ p ∈ l, ∀ m ∈ p, m.id = 1 ∨ Occurs elems condition m.id := by
  unfold rawRules
  by_cases hcf : x.conditional = true ∧ x.fixed = true
  · rw [if_pos (by simp [hcf])]
    obtain ⟨h1, h2⟩ := C96.C96_conditional ho elems condition values hl
    cases hres : conditionalRules o elems condition values with
    | none =>
      exfalso
      unfold conditionalRules at hres
      cases hc : condition.symbols with
      | none => rw [hc] at hres; simp at hres
      | some c =>
        rw [hc] at hres
        dsimp only at hres
        rcases C96.rules_spec ho (fun x => scale (-(x : ℂ)) c) elems values (by omega) with ⟨e, _⟩ | ⟨l, e, _⟩ <;> rw [e] at hres <;> simp at hres
    | some r =>
      cases r with
      | none =>
        left
        refine ⟨rfl, ?_⟩
        rcases h1.mp hres with h | h
        · exact Or.inr ⟨hcf.1, hcf.2, h⟩
        · exact Or.inl h
      | some l =>
        right
        obtain ⟨_, c, hc, hw⟩ := h2 l hres
        have hmem : ∀ q ∈ l, ∃ e ∈ elems, ∃ p, e.symbols = some p ∧ ∃ y : ℝ, q = append o p (scale (-(y : ℂ)) c) := by
          unfold conditionalRules at hres
          rw [hc] at hres
          exact rules_mem hres
        refine ⟨l, rfl, ?_, fun v hv => ?_, fun q hq => ?_, fun q hq m hm => ?_⟩
        · rintro (h | h)
          · have := h1.mpr (Or.inr h); rw [hres] at this; simp at this
          · rw [hc] at h; simp at h
        · unfold Poly.Zero Wanted
          rw [hw v]
          simp only [hcf, and_self, if_true]
          constructor
          · intro h i e p y a b d c' hc'
            rw [hc, Option.some.injEq] at hc'
            subst hc'
            exact h i e p y a b d
          · intro h i e p y a b d
            exact h i e p y a b d c hc
        · obtain ⟨e, he, p, hp, y, rfl⟩ := hmem q hq
          rw [append_eq]
          exact mergeAdd_canonical ho (hr e (by simp [he]) p hp) (scale_canonical (hr condition (by simp) c hc) _)
        · obtain ⟨e, he, p, hp, y, rfl⟩ := hmem q hq
          rw [append_eq] at hm
          obtain ⟨n, hn, hid, _⟩ := mergeAdd_mem hm
          rcases List.mem_append.mp hn with hn | hn
          · exact Or.inr ⟨e, by simp [he], p, hp, n, hn, hid⟩
          · obtain ⟨n', hn', e'⟩ := scale_ids hn
            exact Or.inr ⟨condition, by simp, c, hc, n', hn', e'.trans hid⟩
  · rw [if_neg (by simpa using hcf)]
    obtain ⟨h1, h2⟩ := C96.C96_values ho elems values hl
    cases hres : valueRules o elems values with
    | none =>
      exfalso
      unfold valueRules at hres
      rcases C96.rules_spec ho (fun x => makeRaw byId [term 1 (-(x : ℂ))]) elems values (by omega) with ⟨e, _⟩ | ⟨l, e, _⟩ <;> rw [e] at hres <;> simp at hres
    | some r =>
      cases r with
      | none => exact Or.inl ⟨rfl, Or.inl (h1.mp hres)⟩
      | some l =>
        right
        obtain ⟨_, hw⟩ := h2 l hres
        have hmem : ∀ q ∈ l, ∃ e ∈ elems, ∃ p, e.symbols = some p ∧ ∃ y : ℝ, q = append o p (makeRaw byId [term 1 (-(y : ℂ))]) := rules_mem hres
        refine ⟨l, rfl, ?_, fun v hv => ?_, fun q hq => ?_, fun q hq m hm => ?_⟩
        · rintro (h | h)
          · have := h1.mpr h; rw [hres] at this; simp at this
          · exact hcf ⟨h.1, h.2.1⟩
        · unfold Poly.Zero Wanted
          rw [hw v hv.1.zero hv.2]
          simp only [hcf, if_false]
        · obtain ⟨e, he, p, hp, y, rfl⟩ := hmem q hq
          rw [append_eq]
          exact mergeAdd_canonical ho (hr e (by simp [he]) p hp) (single_canonical _)
        · obtain ⟨e, he, p, hp, y, rfl⟩ := hmem q hq
          rw [append_eq] at hm
          obtain ⟨n, hn, hid, _⟩ := mergeAdd_mem hm
          rcases List.mem_append.mp hn with hn | hn
          · exact Or.inr ⟨e, by simp [he], p, hp, n, hn, hid⟩
          · exact Or.inl (by rw [← hid, single_ids hn])

/-! ## Simplification -/

theorem mem_bySymbol {b : List MRule} {r : MRule} : r ∈ bySymbol b ↔ r ∈ b := by
  unfold bySymbol
  exact (List.mergeSort_perm b _).mem_iff

/-- Simplified rules have the same solutions. -/
theorem simplified_spec {t : Table} (ht : t.Good) {o : Order} (ho : o.Good) {sort : List (List Mono) → List (List Mono)} (hs : ∀ l, (sort l).Perm l)
    {raw : List (List Mono)} (hraw : ∀ p ∈ raw, Canonical t o p) :
    (simplified t o sort raw = some none ∧ ∀ v, Assignment t v → ¬ Zero v raw) ∨
    ∃ b, simplified t o sort raw = some (some ((bySymbol b).map (MRule.asPolynomial o))) ∧ Inv t o b ∧
      (∀ v, Solves t b v ↔ Assignment t v ∧ Zero v raw) ∧ ∃ v, Solves t b v := by
  have hz : ∀ v, Zero v (sort raw) ↔ Zero v raw := fun v => ⟨fun h p hp => h p ((hs raw).mem_iff.mpr hp), fun h p hp => h p ((hs raw).mem_iff.mp hp)⟩
  have hc : ∀ p ∈ sort raw, Canonical t o p := fun p hp => hraw p ((hs raw).mem_iff.mp hp)
  unfold simplified
  rcases C56.C56_complete t ht o ho [] .empty (sort raw) hc with ⟨h1, h2⟩ | ⟨b, k, h1, h2, h3, _⟩
  · left
    rw [h1]
    exact ⟨rfl, fun v hv hzero => h2 v ⟨⟨hv, by simp⟩, (hz v).mpr hzero⟩⟩
  · right
    refine ⟨b, by rw [h1]; rfl, C56.book_inv ht ho (.complete .empty hc h1), fun v => ?_, h3⟩
    rw [h2 v, hz v]
    exact ⟨fun h => ⟨h.1.1, h.2⟩, fun h => ⟨⟨h.1, by simp⟩, h.2⟩⟩

theorem zero_book {t : Table} {o : Order} (ho : o.Good) {b : List MRule} (hb : Inv t o b) {v : Nat → ℂ} (hv : Assignment t v) :
    Zero v ((bySymbol b).map (MRule.asPolynomial o)) ↔ Solves t b v := by
  unfold Poly.Zero Solves
  simp only [List.mem_map, forall_exists_index, and_imp, forall_apply_eq_imp_iff₂, mem_bySymbol]
  constructor
  · exact fun h => ⟨hv, fun r hr => (asPolynomial_zero ho.injective (hb.ok r hr).lhs v).mp (h r hr)⟩
  · exact fun h r hr => (asPolynomial_zero ho.injective (hb.ok r hr).lhs v).mpr (h.2 r hr)

/-- **C128.** With as many values as outcomes, the polynomials that are given, simplified or not, vanish exactly where all probabilities have the values. The request is
refused exactly if a symbol is not known or, for simplified polynomials, the values are contradictory. -/
theorem C128_polynomials (x : Params) (hx : x.list = false) {t : Table} (ht : t.Good) {o : Order} (ho : o.Good) (sort : List (List Mono) → List (List Mono))
    (hs : ∀ l, (sort l).Perm l) (elems : List Element) (condition : Element) (values : List ℝ) (hr : Regular t o elems condition)
    (hl : values.length = elems.length) :
    (run x t o sort elems condition values = .refused ∧
      (Unknown x elems condition ∨ (x.simplify = true ∧ ∀ v, Assignment t v → ¬ Wanted x elems condition values v))) ∨
    ∃ l, run x t o sort elems condition values = .polynomials l ∧ ¬ Unknown x elems condition ∧
      (∀ v, Assignment t v → ((∀ p ∈ l, value v p = 0) ↔ Wanted x elems condition values v)) ∧
      (x.simplify = true → ∃ v, Assignment t v ∧ Wanted x elems condition values v) := by
  unfold run
  rw [(C128_count x elems.length values).1 hl]
  dsimp only
  rcases raw_spec x (t := t) ho.injective hr hl.symm with ⟨h1, h2⟩ | ⟨l, h1, h2, h3, h4, _⟩
  · rw [h1]; exact Or.inl ⟨rfl, Or.inl h2⟩
  · rw [h1]
    dsimp only
    unfold output
    simp only [hx, Bool.or_false, Bool.false_eq_true, if_false]
    cases hsim : x.simplify with
    | false =>
      right
      exact ⟨l, by simp, h2, h3, by simp⟩
    | true =>
      simp only [if_true]
      rcases simplified_spec ht ho hs h4 with ⟨g1, g2⟩ | ⟨b, g1, g2, g3, v, g4⟩
      · left
        rw [g1]
        exact ⟨rfl, Or.inr ⟨trivial, fun v hv hw => g2 v hv ((h3 v hv).mpr hw)⟩⟩
      · right
        rw [g1]
        refine ⟨_, rfl, h2, fun v hv => ?_, fun _ => ⟨v, g4.1, (h3 v g4.1).mp ((g3 v).mp g4).2⟩⟩
        rw [← h3 v hv]
        exact (zero_book ho g2 hv).trans ((g3 v).trans ⟨fun h => h.2, fun h => ⟨hv, h⟩⟩)

/-! ## Lists of values -/

/-- Symbols with rules occur in the polynomials that were given. -/
theorem lhs_occurs {t : Table} (ht : t.Good) {o : Order} {b : List MRule} (hb : Inv t o b) {raw : List (List Mono)}
    (h : ∀ v, Solves t b v ↔ Assignment t v ∧ Zero v raw) (he : ∃ v, Solves t b v) {r : MRule} (hr : r ∈ b) : ∃ p ∈ raw, ∃ m ∈ p, m.id = r.lhs := by
  by_contra hno
  push Not at hno
  obtain ⟨v, hv⟩ := he
  have hok := hb.ok r hr
  have hmove : ∀ δ : ℂ, (t.herm r.lhs = true → conj' δ = δ) → (t.anti r.lhs = true → conj' δ = -δ) →
      Holds (fun j => if j = r.lhs then v r.lhs + δ else v j) r := by
    intro δ hh ha
    have hw := assignment_update hv.1 hok.lhs (z := v r.lhs + δ) (fun e => by rw [map_add, hv.1.1.herm _ e, hh e])
      (fun e => by rw [map_add, hv.1.1.anti _ e, ha e]; ring)
    have hz : Zero (fun j => if j = r.lhs then v r.lhs + δ else v j) raw := fun p hp => by
      rw [← ((h v).mp hv).2 p hp]
      exact value_congr fun m hm => if_neg (hno p hp m hm)
    exact ((h _).mpr ⟨hw, hz⟩).2 r hr
  have hcore : ∀ δ : ℂ, value (fun j => if j = r.lhs then v r.lhs + δ else v j) r.core = value v r.core := fun δ => value_congr fun m hm => by
    have := hok.below m hm
    exact if_neg fun e => by rw [e] at this; exact lt_irrefl _ this
  have h0 := hv.2 r hr
  cases hp : r.partial with
  | false =>
    have key : ∀ δ : ℂ, (t.herm r.lhs = true → conj' δ = δ) → (t.anti r.lhs = true → conj' δ = -δ) → δ = 0 := by
      intro δ hh ha
      have hm := hmove δ hh ha
      unfold Holds at hm h0
      rw [← core_full hp] at h0
      rw [← core_full hp, hcore δ, ← h0] at hm
      dsimp only at hm
      rw [if_pos rfl] at hm
      simpa using hm
    cases hanti : t.anti r.lhs with
    | true =>
      refine Complex.I_ne_zero (key Complex.I (fun e => absurd ⟨e, hanti⟩ (ht.notBoth r.lhs ?_)) (fun _ => by simp))
      have := hok.lhs
      omega
    | false => exact one_ne_zero (key 1 (fun _ => by simp) (fun e => by rw [hanti] at e; simp at e))
  | true =>
    obtain ⟨hh, ha, -, hd, -⟩ := hok.part hp
    have hm := hmove r.dir (fun e => by rw [hh] at e; simp at e) (fun e => by rw [ha] at e; simp at e)
    unfold Holds at hm h0
    rw [rhs_value hok hp] at h0
    rw [rhs_value hok hp, hcore] at hm
    dsimp only at hm
    rw [if_pos rfl, map_add] at hm
    have : r.dir = 0 := by
      have e : r.dir * r.dir * conj' r.dir = r.dir := by rw [mul_assoc, hd, mul_one]
      linear_combination hm - h0 - e / 2
    rw [this] at hd
    simp at hd

theorem asPolynomial_full {t : Table} {o : Order} {r : MRule} (h : r.OK t o) (hp : r.partial = false) : r.asPolynomial o = r.rhs ++ [⟨r.lhs, false, -1⟩] := by
  rw [asPolynomial_eq h.lhs]
  refine mergeAdd_below o _ _ fun a ha b hb => ?_
  rw [List.mem_singleton] at hb
  subst hb
  have := h.below a (by rw [core_full hp]; exact ha)
  unfold Order.key
  have h1 : a.conj.toNat ≤ 1 := Bool.toNat_le a.conj
  show 2 * o.rank a.id + a.conj.toNat < 2 * o.rank r.lhs + 0
  omega

/-- A pair that is exported says the same as the rule, if its symbol is Hermitian. -/
theorem subPair_holds {t : Table} (ht : t.Good) {o : Order} {r : MRule} (h : r.OK t o) (hh : t.herm r.lhs = true) {i : Nat} {y : ℝ}
    (he : subPair (r.asPolynomial o) = some (i, y)) {v : Nat → ℂ} (hv : Assignment t v) : v i = y ↔ Holds v r := by
  have hp : r.partial = false := by
    cases hp : r.partial with
    | false => rfl
    | true => rw [(h.part hp).1] at hh; simp at hh
  have hherm := h.herm hh v hv
  unfold Holds
  rw [asPolynomial_full h hp] at he
  have hcan := h.rhs_canonical
  generalize r.rhs = rhs at *
  match rhs with
  | [] =>
    simp only [List.nil_append, subPair, Option.some.injEq, Prod.mk.injEq] at he
    rw [← he.1, ← he.2]
    simp
  | [a] =>
    simp only [List.cons_append, List.nil_append, subPair, ne_eq, ite_not] at he
    split at he
    · rename_i ha
      simp only [Option.some.injEq, Prod.mk.injEq] at he
      rw [← he.1, ← he.2]
      have hac : a.conj = false := by
        cases hc : a.conj with
        | false => rfl
        | true => have := (hcan.plain a (by simp) hc).1; rw [ha, ht.oneHerm] at this; simp at this
      have hval : value v [a] = a.factor := by simp [value, Mono.value, hac, ha, hv.2]
      rw [hval] at hherm ⊢
      rw [Complex.conj_eq_iff_re.mp hherm]
    · simp at he
  | a :: b :: rest =>
    exfalso
    cases rest <;> simp [subPair] at he

/-- A rule that fixes the value of its symbol can be exported. -/
theorem subPair_some {t : Table} (ht : t.Good) {o : Order} (ho : o.Good) {r : MRule} (h : r.OK t o) (hc : ∀ v w, Assignment t v → Assignment t w → value v r.rhs = value w r.rhs) :
    subPair (r.asPolynomial o) ≠ none := by
  have h0 := zero_assignment ht
  obtain ⟨c, hcv⟩ : ∃ c, ∀ v, Assignment t v → value v r.rhs = c := ⟨_, fun v hv => hc v _ hv h0⟩
  have hrhs : r.rhs = if c = 0 then [] else [⟨1, false, c⟩] := by
    refine canonical_unique ht ho.injective h.rhs_canonical ?_ fun v hv h1 => ?_
    · split
      · exact canonical_nil t o
      · rename_i hne
        exact ⟨by simp, by simp [hne], by simp⟩
    · rw [hcv v ⟨hv, h1⟩]
      split
      · rename_i hz; simp [hz]
      · simp [value, Mono.value, h1]
  have hp : r.partial = false := by
    cases hp : r.partial with
    | false => rfl
    | true =>
      exfalso
      have h2 := (h.part hp).2.2.1
      rw [hrhs] at h2
      have := congrArg List.length h2
      rw [List.length_append] at this
      simp only [freePart, List.length_cons, List.length_nil] at this
      split at this
      · simp at this
      · simp at this
  rw [asPolynomial_full h hp, hrhs]
  split
  · simp [subPair]
  · simp [subPair]

theorem subList_some {rules : List (List Mono)} (h : ∀ p ∈ rules, subPair p ≠ none) : ∃ l, subList rules = some l := by
  unfold subList
  induction rules with
  | nil => exact ⟨[], rfl⟩
  | cons p rest ih =>
    obtain ⟨l, hl⟩ := ih fun q hq => h q (by simp [hq])
    obtain ⟨z, hz⟩ := Option.ne_none_iff_exists'.mp (h p (by simp))
    exact ⟨z :: l, by simp [List.mapM_cons, hz, hl]⟩

theorem subList_mem {rules : List (List Mono)} {l : List (Nat × ℝ)} (h : subList rules = some l) :
    (∀ z ∈ l, ∃ p ∈ rules, subPair p = some z) ∧ ∀ p ∈ rules, ∃ z ∈ l, subPair p = some z := by
  unfold subList at h
  induction rules generalizing l with
  | nil => simp at h; subst h; simp
  | cons p rest ih =>
    rw [List.mapM_cons] at h
    cases hz : subPair p with
    | none => rw [hz] at h; simp at h
    | some z =>
      cases hr : rest.mapM subPair with
      | none => rw [hz, hr] at h; simp at h
      | some l' =>
        rw [hz, hr] at h
        simp at h
        subst h
        obtain ⟨h1, h2⟩ := ih hr
        refine ⟨fun y hy => ?_, fun q hq => ?_⟩
        · rcases List.mem_cons.mp hy with rfl | hy
          · exact ⟨p, by simp, hz⟩
          · obtain ⟨q, hq, e⟩ := h1 y hy; exact ⟨q, by simp [hq], e⟩
        · rcases List.mem_cons.mp hq with rfl | hq
          · exact ⟨z, by simp, hz⟩
          · obtain ⟨y, hy, e⟩ := h2 q hq; exact ⟨y, by simp [hy], e⟩

/-- The pair that is exported is of the symbol of the rule. -/
theorem subPair_lhs {t : Table} {o : Order} {r : MRule} (h : r.OK t o) (hh : t.herm r.lhs = true) {z : Nat × ℝ} (he : subPair (r.asPolynomial o) = some z) :
    z.1 = r.lhs := by
  have hp : r.partial = false := by
    cases hp : r.partial with
    | false => rfl
    | true => rw [(h.part hp).1] at hh; simp at hh
  rw [asPolynomial_full h hp] at he
  generalize r.rhs = rhs at *
  match rhs with
  | [] =>
    simp only [List.nil_append, subPair, Option.some.injEq] at he
    rw [← he]
  | [a] =>
    simp only [List.cons_append, List.nil_append, subPair] at he
    split at he
    · simp at he
    · rw [Option.some.injEq] at he
      rw [← he]
  | a :: b :: l => cases l <;> simp [subPair] at he

theorem subList_symbols {t : Table} {o : Order} : ∀ {b : List MRule} {l : List (Nat × ℝ)}, (∀ r ∈ b, r.OK t o ∧ t.herm r.lhs = true) →
    subList (b.map (MRule.asPolynomial o)) = some l → l.map Prod.fst = b.map MRule.lhs
  | [], l, _, h => by
    simp [subList] at h
    rw [h]
    rfl
  | r :: b, l, hb, h => by
    unfold subList at h
    rw [List.map_cons, List.mapM_cons] at h
    cases hz : subPair (r.asPolynomial o) with
    | none => rw [hz] at h; simp at h
    | some z =>
      cases hr : (b.map (MRule.asPolynomial o)).mapM subPair with
      | none => rw [hz, hr] at h; simp at h
      | some l' =>
        rw [hz, hr] at h
        simp at h
        subst h
        rw [List.map_cons, List.map_cons, subPair_lhs (hb r (by simp)).1 (hb r (by simp)).2 hz, subList_symbols (fun r hr => hb r (by simp [hr])) hr]

theorem bySymbol_sorted {t : Table} {o : Order} {b : List MRule} (hb : Inv t o b) : (bySymbol b).Pairwise fun r s => r.lhs < s.lhs := by
  have hp : (bySymbol b).Perm b := List.mergeSort_perm _ _
  have hle : (bySymbol b).Pairwise fun r s => r.lhs ≤ s.lhs := by
    have := List.pairwise_mergeSort (le := fun (r s : MRule) => decide (r.lhs ≤ s.lhs)) (by intro a b c; simp; omega) (by intro a b; simp; omega) b
    simpa [bySymbol] using this
  have hne : (bySymbol b).Pairwise fun r s => r.lhs ≠ s.lhs := by
    refine (hp.pairwise_iff fun h => Ne.symm h).mpr ?_
    exact hb.ordered.imp fun h e => absurd h (by rw [e]; exact lt_irrefl _)
  exact (hle.and hne).imp fun h => by omega

/-- **C128.** With as many values as outcomes, and if the moments of the probabilities are real, the values of moments that are listed say that all probabilities have
the values, no more and no less. They are listed in the order of the symbols, with one value for each. The request is refused only if a symbol is not known, the values are contradictory, or they do not determine all moments. -/
theorem C128_list (x : Params) (hx : x.list = true) {t : Table} (ht : t.Good) {o : Order} (ho : o.Good) (sort : List (List Mono) → List (List Mono))
    (hs : ∀ l, (sort l).Perm l) (elems : List Element) (condition : Element) (values : List ℝ) (hr : Regular t o elems condition)
    (hh : ∀ i, Occurs elems condition i → t.herm i = true) (hl : values.length = elems.length) :
    (run x t o sort elems condition values = .refused ∧
      (Unknown x elems condition ∨ (∀ v, Assignment t v → ¬ Wanted x elems condition values v) ∨
        ∃ v w i, Assignment t v ∧ Wanted x elems condition values v ∧ Assignment t w ∧ Wanted x elems condition values w ∧ Occurs elems condition i ∧ v i ≠ w i)) ∨
    ∃ l, run x t o sort elems condition values = .substitutions l ∧ ¬ Unknown x elems condition ∧ (l.Pairwise fun y z => y.1 < z.1) ∧
      (∃ v, Assignment t v ∧ Wanted x elems condition values v) ∧
      ∀ v, Assignment t v → ((∀ z ∈ l, v z.1 = z.2) ↔ Wanted x elems condition values v) := by
  unfold run
  rw [(C128_count x elems.length values).1 hl]
  dsimp only
  rcases raw_spec x (t := t) ho.injective hr hl.symm with ⟨h1, h2⟩ | ⟨l, h1, h2, h3, h4, h5⟩
  · rw [h1]; exact Or.inl ⟨rfl, Or.inl h2⟩
  · rw [h1]
    dsimp only
    unfold output
    simp only [hx, Bool.or_true, if_true]
    rcases simplified_spec ht ho hs h4 with ⟨g1, g2⟩ | ⟨b, g1, g2, g3, g4⟩
    · left
      rw [g1]
      exact ⟨rfl, Or.inr (Or.inl fun v hv hw => g2 v hv ((h3 v hv).mpr hw))⟩
    · rw [g1]
      dsimp only
      have hlhs : ∀ r ∈ b, Occurs elems condition r.lhs := fun r hrb => by
        obtain ⟨p, hp, m, hm, e⟩ := lhs_occurs ht g2 g3 g4 hrb
        rcases h5 p hp m hm with e1 | e1
        · have := (g2.ok r hrb).lhs; omega
        · rw [← e]; exact e1
      have hsolve : ∀ v, Assignment t v → (Solves t b v ↔ Wanted x elems condition values v) := fun v hv => by
        rw [g3 v, h3 v hv]
        exact ⟨fun h => h.2, fun h => ⟨hv, h⟩⟩
      cases hsub : subList ((bySymbol b).map (MRule.asPolynomial o)) with
      | none =>
        left
        refine ⟨rfl, Or.inr (Or.inr ?_)⟩
        by_contra hno
        push Not at hno
        obtain ⟨l', hl'⟩ := subList_some (rules := (bySymbol b).map (MRule.asPolynomial o)) fun p hp => by
          obtain ⟨r, hrb, rfl⟩ := List.mem_map.mp hp
          rw [mem_bySymbol] at hrb
          refine subPair_some ht ho (g2.ok r hrb) fun v w hv hw => ?_
          have e := findRule_mem g2.ordered hrb
          rw [← subst_some (v := v) e, ← subst_some (v := w) e]
          have sv := g2.subst_solves hv
          have sw := g2.subst_solves hw
          exact hno _ _ _ sv.1 ((hsolve _ sv.1).mp sv) sw.1 ((hsolve _ sw.1).mp sw) (hlhs r hrb)
        rw [hl'] at hsub
        simp at hsub
      | some l' =>
        right
        obtain ⟨v0, hv0⟩ := g4
        have hsym := subList_symbols (t := t) (o := o) (b := bySymbol b) (fun r hrb => by
          rw [mem_bySymbol] at hrb
          exact ⟨g2.ok r hrb, hh _ (hlhs r hrb)⟩) hsub
        have hpw : l'.Pairwise fun y z => y.1 < z.1 := by
          have := List.pairwise_map.mpr (bySymbol_sorted g2)
          rw [← hsym] at this
          exact List.pairwise_map.mp this
        refine ⟨l', rfl, h2, hpw, ⟨v0, hv0.1, (hsolve v0 hv0.1).mp hv0⟩, fun v hv => ?_⟩
        rw [← hsolve v hv]
        obtain ⟨m1, m2⟩ := subList_mem hsub
        constructor
        · intro h
          refine ⟨hv, fun r hrb => ?_⟩
          obtain ⟨⟨i, y⟩, hz, e⟩ := m2 _ (List.mem_map.mpr ⟨r, mem_bySymbol.mpr hrb, rfl⟩)
          exact (subPair_holds ht (g2.ok r hrb) (hh _ (hlhs r hrb)) e hv).mp (h _ hz)
        · rintro h ⟨i, y⟩ hz
          obtain ⟨p, hp, e⟩ := m1 _ hz
          obtain ⟨r, hrb, rfl⟩ := List.mem_map.mp hp
          rw [mem_bySymbol] at hrb
          exact (subPair_holds ht (g2.ok r hrb) (hh _ (hlhs r hrb)) e hv).mpr (h.2 r hrb)

/-! ## The missing value -/

/-- The outcomes of a measurement with two outcomes: symbol 2, and 1 minus symbol 2. -/
noncomputable def coin : List Element := [⟨[term 2 1], some [term 2 1]⟩, ⟨[term 1 1, term 2 (-1)], some [term 1 1, term 2 (-1)]⟩]

/-- No condition. -/
noncomputable def always : Element := ⟨[term 1 1], some [term 1 1]⟩

theorem coin_regular : Regular C21.table byId coin always := by
  intro e he p hp
  simp only [coin, always, List.mem_cons, List.not_mem_nil, or_false] at he
  rcases he with rfl | rfl | rfl
  · simp only [Option.some.injEq] at hp; subst hp
    exact ⟨by simp, by simp [term], by simp [term]⟩
  · simp only [Option.some.injEq] at hp; subst hp
    exact ⟨by simp, by simp [term], by simp [term]⟩
  · simp only [Option.some.injEq] at hp; subst hp
    exact ⟨by simp [byId, term], by simp [term], by simp [term]⟩

theorem coin_hermitian : ∀ i, Occurs coin always i → C21.table.herm i = true := by
  rintro i ⟨e, he, p, hp, m, hm, rfl⟩
  simp only [coin, always, List.mem_cons, List.not_mem_nil, or_false] at he
  rcases he with rfl | rfl | rfl <;> simp only [Option.some.injEq] at hp <;> subst hp <;> simp [term] at hm
  · subst hm; rfl
  · subst hm; rfl
  · rcases hm with rfl | rfl <;> rfl

example : Regular C21.table byId coin always ∧ (∀ i, Occurs coin always i → C21.table.herm i = true) ∧ C21.table.Good ∧ byId.Good ∧
    ([1 / 4, 3 / 4] : List ℝ).length = coin.length := ⟨coin_regular, coin_hermitian, C21.table_good, C23.byId_good, rfl⟩

/-- **C128, partial: the missing value.** Where one value is missing, the request is treated as if the last value were the sum of the others. (What is missing: it
should be one minus this sum. The given values and the last one add up to one only if the given ones add up to one half.) -/
theorem C128_missing_partial (x : Params) (hx : x.conditional = true ∨ x.fixed = false) (t : Table) (o : Order) (sort : List (List Mono) → List (List Mono))
    (elems : List Element) (condition : Element) (values : List ℝ) (hl : values.length + 1 = elems.length) :
    run x t o sort elems condition values = run x t o sort elems condition (values ++ [values.sum]) ∧
    ((values ++ [values.sum]).sum = 1 ↔ values.sum = 1 / 2) := by
  constructor
  · have hfold : values.foldl (· + ·) 0 = values.sum := by rw [List.sum_eq_foldl]
    have h1 : checkCount x elems.length values = some (values ++ [values.sum]) := by
      unfold checkCount
      rw [if_pos (by omega), if_pos, hfold]
      rcases hx with h | h <;> simp [h, hl]
    have h2 : checkCount x elems.length (values ++ [values.sum]) = some (values ++ [values.sum]) :=
      (C128_count x elems.length (values ++ [values.sum])).1 (by simp [hl])
    unfold run
    rw [h1, h2]
  · rw [List.sum_append, List.sum_singleton]
    constructor
    · intro h; linarith
    · intro h; linarith

example : ([1 / 4] : List ℝ).length + 1 = coin.length := rfl

/-- **C128, refuted: the missing value.** For a measurement with two outcomes, of which the first is given the probability 1/4, the equations that are given have no
solution, and asking for a list is refused because of contradiction; although there is a state with the probabilities 1/4 and 3/4. -/
theorem C128_refuted_missing (sort : List (List Mono) → List (List Mono)) (hs : ∀ l, (sort l).Perm l) :
    (∃ l, run ⟨false, false, false, false⟩ C21.table byId sort coin always [1 / 4] = .polynomials l ∧ ∀ v, Assignment C21.table v → ∃ p ∈ l, value v p ≠ 0) ∧
    run ⟨false, false, true, false⟩ C21.table byId sort coin always [1 / 4] = .refused ∧
    run ⟨false, false, false, true⟩ C21.table byId sort coin always [1 / 4] = .refused ∧
    ∃ v, Assignment C21.table v ∧ Wanted ⟨false, false, false, false⟩ coin always [1 / 4, 3 / 4] v := by
  have hun : ∀ x, ¬ Unknown x coin always := by
    rintro x (⟨e, he, h⟩ | ⟨_, _, h⟩)
    · simp only [coin, List.mem_cons, List.not_mem_nil, or_false] at he
      rcases he with rfl | rfl <;> simp at h
    · simp [always] at h
  have hno : ∀ x : Params, x.conditional = false → ∀ v, Assignment C21.table v → ¬ Wanted x coin always ([1 / 4] ++ [([1 / 4] : List ℝ).sum]) v := by
    intro x hx v hv h
    have a := h 0 _ _ _ rfl rfl rfl
    have b := h 1 _ _ _ rfl rfl rfl
    rw [if_neg (by simp [hx])] at a b
    simp [value, Mono.value, term, hv.2] at a b
    rw [a] at b
    have := congrArg Complex.re b
    norm_num at this
  have hm := fun x hx => (C128_missing_partial x hx C21.table byId sort coin always [1 / 4] rfl).1
  refine ⟨?_, ?_, ?_, ?_⟩
  · rw [hm _ (Or.inr rfl)]
    rcases C128_polynomials ⟨false, false, false, false⟩ rfl C21.table_good C23.byId_good sort hs coin always ([1 / 4] ++ [([1 / 4] : List ℝ).sum]) coin_regular rfl with
      ⟨_, h | h⟩ | ⟨l, h1, _, h3, _⟩
    · exact absurd h (hun _)
    · simp at h
    · refine ⟨l, h1, fun v hv => ?_⟩
      by_contra hc
      push Not at hc
      exact hno _ rfl v hv ((h3 v hv).mp hc)
  · rw [hm _ (Or.inr rfl)]
    rcases C128_polynomials ⟨false, false, true, false⟩ rfl C21.table_good C23.byId_good sort hs coin always ([1 / 4] ++ [([1 / 4] : List ℝ).sum]) coin_regular rfl with
      ⟨h, _⟩ | ⟨l, _, _, _, h4⟩
    · exact h
    · obtain ⟨v, hv, hw⟩ := h4 rfl
      exact absurd hw (hno _ rfl v hv)
  · rw [hm _ (Or.inr rfl)]
    rcases C128_list ⟨false, false, false, true⟩ rfl C21.table_good C23.byId_good sort hs coin always ([1 / 4] ++ [([1 / 4] : List ℝ).sum]) coin_regular coin_hermitian rfl with
      ⟨h, _⟩ | ⟨l, _, _, _, ⟨v, hv, hw⟩, _⟩
    · exact h
    · exact absurd hw (hno _ rfl v hv)
  · refine ⟨fun i => if i = 1 then 1 else if i = 2 then (1 / 4 : ℝ) else 0, ⟨?_, by simp⟩, ?_⟩
    · exact respects_single C21.table_good 2 (by decide) ((1 / 4 : ℝ) : ℂ) (fun _ => by rw [Complex.conj_ofReal]) (by simp [C21.table])
    · intro i e p y h1 h2 h3
      rw [if_neg (by simp)]
      match i with
      | 0 =>
        simp [coin] at h1 h3; subst h1; simp at h2; subst h2; subst h3
        simp [value, Mono.value, term]
      | 1 =>
        simp [coin] at h1 h3; subst h1; simp at h2; subst h2; subst h3
        simp [value, Mono.value, term]
        norm_num
      | i + 2 => simp [coin] at h1

end Moment.C128
