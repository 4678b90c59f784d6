import Verif.Props.C94_Probability
import Verif.Proof.PolyOps

/-! # C96: rules for given probabilities

`explicit_value_rules` makes polynomials of elements of the probability tensor: one for each element, which vanishes exactly where the element has the
given value, or the given value times that of the condition. -/

namespace Moment.C96

open Moment.Probability Moment.Poly Moment.C94

/-- What the loop does: with enough values there is one polynomial for each element, or an exception if an element has no symbols. -/
theorem rules_spec {o : Order} (ho : Function.Injective o.rank) (rhs : ℝ → List Mono) : ∀ (elems : List Element) (values : List ℝ),
    elems.length ≤ values.length →
    (rules o rhs elems values = some none ∧ ∃ e ∈ elems, e.symbols = none) ∨
    ∃ l, rules o rhs elems values = some (some l) ∧ l.length = elems.length ∧
      ∀ (i : Nat) (q : List Mono), l[i]? = some q → ∃ (e : Element) (p : List Mono) (x : ℝ), elems[i]? = some e ∧ e.symbols = some p ∧ values[i]? = some x ∧
        ∀ w, value w q = value w p + value w (rhs x) := by
  intro elems
  induction elems with
  | nil => intro values _; exact Or.inr ⟨[], rfl, rfl, by simp⟩
  | cons e es ih =>
    intro values hl
    cases values with
    | nil => simp at hl
    | cons x xs =>
      rw [rules]
      cases hs : e.symbols with
      | none => exact Or.inl ⟨rfl, e, by simp, hs⟩
      | some p =>
        rcases ih xs (by simpa using hl) with ⟨h1, e', h2, h3⟩ | ⟨l, h1, h2, h3⟩
        · exact Or.inl ⟨by simp [h1], e', List.mem_cons_of_mem _ h2, h3⟩
        · refine Or.inr ⟨append o p (rhs x) :: l, by simp [h1], by simp [h2], ?_⟩
          intro i q hq
          cases i with
          | zero =>
            simp only [List.getElem?_cons_zero, Option.some.injEq] at hq
            refine ⟨e, p, x, rfl, hs, rfl, fun w => ?_⟩
            rw [← hq, append_eq, mergeAdd_value w ho]
          | succ i => simpa using h3 i q (by simpa using hq)

/-- Rules for values: they hold exactly where all elements have the given values. There is an exception exactly if an element has no symbols. -/
theorem C96_values {o : Order} (ho : Function.Injective o.rank) (elems : List Element) (values : List ℝ) (hl : elems.length = values.length) :
    (valueRules o elems values = some none ↔ ∃ e ∈ elems, e.symbols = none) ∧
    ∀ l, valueRules o elems values = some (some l) → l.length = elems.length ∧
      ∀ w, w 0 = 0 → w 1 = 1 → ((∀ q ∈ l, value w q = 0) ↔
        ∀ (i : Nat) (e : Element) (p : List Mono) (x : ℝ), elems[i]? = some e → e.symbols = some p → values[i]? = some x → value w p = x) := by
  have key : ∀ l, valueRules o elems values = some (some l) → l.length = elems.length ∧
      ∀ (i : Nat) (q : List Mono), l[i]? = some q → ∃ (e : Element) (p : List Mono) (x : ℝ), elems[i]? = some e ∧ e.symbols = some p ∧ values[i]? = some x ∧
        ∀ w, value w q = value w p + value w (makeRaw byId [term 1 (-(x : ℂ))]) := by
    intro l h
    rcases rules_spec ho (fun x => makeRaw byId [term 1 (-(x : ℂ))]) elems values (by omega) with ⟨h1, _⟩ | ⟨l', h1, h2, h3⟩
    · rw [valueRules, h1] at h; simp at h
    · rw [valueRules, h1] at h
      simp only [Option.some.injEq] at h
      subst h
      exact ⟨h2, h3⟩
  refine ⟨⟨fun h => ?_, fun ⟨e, he, hs⟩ => ?_⟩, fun l h => ?_⟩
  · rcases rules_spec ho (fun x => makeRaw byId [term 1 (-(x : ℂ))]) elems values (by omega) with ⟨_, h2⟩ | ⟨l', h1, _⟩
    · exact h2
    · rw [valueRules, h1] at h; simp at h
  · rcases rules_spec ho (fun x => makeRaw byId [term 1 (-(x : ℂ))]) elems values (by omega) with ⟨h1, _⟩ | ⟨l', h1, h2, h3⟩
    · exact h1
    · obtain ⟨i, hi⟩ := List.getElem?_of_mem he
      have hil : i < elems.length := (List.getElem?_eq_some_iff.mp hi).1
      obtain ⟨e', p, x, a1, a2, _⟩ := h3 i _ (List.getElem?_eq_getElem (by omega : i < l'.length))
      rw [hi] at a1
      simp only [Option.some.injEq] at a1
      rw [← a1, hs] at a2
      simp at a2
  · obtain ⟨h2, h3⟩ := key l h
    refine ⟨h2, fun w h0 h1 => ⟨fun hq i e p x he hp hx => ?_, fun hall q hq => ?_⟩⟩
    · have hil : i < elems.length := (List.getElem?_eq_some_iff.mp he).1
      obtain ⟨e', p', x', a1, a2, a3, a4⟩ := h3 i _ (List.getElem?_eq_getElem (by omega : i < l.length))
      rw [he] at a1
      rw [hx] at a3
      simp only [Option.some.injEq] at a1 a3
      rw [← a1, hp] at a2
      simp only [Option.some.injEq] at a2
      subst a2 a3
      have := a4 w
      rw [hq _ (List.getElem_mem _), makeRaw_value w h0] at this
      simp [value, Mono.value, term, h1] at this
      have := eq_neg_of_add_eq_zero_left this.symm
      simpa [value, Mono.value] using this
    · obtain ⟨i, hi⟩ := List.getElem?_of_mem hq
      obtain ⟨e, p, x, a1, a2, a3, a4⟩ := h3 i q hi
      rw [a4 w, hall i e p x a1 a2 a3, makeRaw_value w h0]
      simp [value, Mono.value, term, h1]

example : ∃ l, valueRules byId [⟨[term 1 1], some [term 1 1]⟩, ⟨[term 2 1], some [term 2 1]⟩] [1, 1 / 2] = some (some l) := ⟨_, rfl⟩

/-- Rules for conditional values: they hold exactly where all elements have the given values, times that of the condition. -/
theorem C96_conditional {o : Order} (ho : Function.Injective o.rank) (elems : List Element) (condition : Element) (values : List ℝ)
    (hl : elems.length = values.length) :
    (conditionalRules o elems condition values = some none ↔ condition.symbols = none ∨ ∃ e ∈ elems, e.symbols = none) ∧
    ∀ l, conditionalRules o elems condition values = some (some l) → l.length = elems.length ∧ ∃ c, condition.symbols = some c ∧
      ∀ w, (∀ q ∈ l, value w q = 0) ↔
        ∀ (i : Nat) (e : Element) (p : List Mono) (x : ℝ), elems[i]? = some e → e.symbols = some p → values[i]? = some x → value w p = x * value w c := by
  unfold conditionalRules
  cases hc : condition.symbols with
  | none => simp
  | some c =>
    dsimp only
    have key : ∀ l, rules o (fun x => scale (-(x : ℂ)) c) elems values = some (some l) → l.length = elems.length ∧
        ∀ (i : Nat) (q : List Mono), l[i]? = some q → ∃ (e : Element) (p : List Mono) (x : ℝ), elems[i]? = some e ∧ e.symbols = some p ∧ values[i]? = some x ∧
          ∀ w, value w q = value w p + value w (scale (-(x : ℂ)) c) := by
      intro l h
      rcases rules_spec ho (fun x => scale (-(x : ℂ)) c) elems values (by omega) with ⟨h1, _⟩ | ⟨l', h1, h2, h3⟩
      · rw [h1] at h; simp at h
      · rw [h1] at h
        simp only [Option.some.injEq] at h
        subst h
        exact ⟨h2, h3⟩
    refine ⟨⟨fun h => ?_, fun h => ?_⟩, fun l h => ?_⟩
    · rcases rules_spec ho (fun x => scale (-(x : ℂ)) c) elems values (by omega) with ⟨_, h2⟩ | ⟨l', h1, _⟩
      · exact Or.inr h2
      · rw [h1] at h; simp at h
    · obtain ⟨e, he, hs⟩ := h.resolve_left (by simp)
      rcases rules_spec ho (fun x => scale (-(x : ℂ)) c) elems values (by omega) with ⟨h1, _⟩ | ⟨l', h1, h2, h3⟩
      · exact h1
      · obtain ⟨i, hi⟩ := List.getElem?_of_mem he
        have hil : i < elems.length := (List.getElem?_eq_some_iff.mp hi).1
        obtain ⟨e', p, x, a1, a2, _⟩ := h3 i _ (List.getElem?_eq_getElem (by omega : i < l'.length))
        rw [hi] at a1
        simp only [Option.some.injEq] at a1
        rw [← a1, hs] at a2
        simp at a2
    · obtain ⟨h2, h3⟩ := key l h
      refine ⟨h2, c, rfl, fun w => ⟨fun hq i e p x he hp hx => ?_, fun hall q hq => ?_⟩⟩
      · have hil : i < elems.length := (List.getElem?_eq_some_iff.mp he).1
        obtain ⟨e', p', x', a1, a2, a3, a4⟩ := h3 i _ (List.getElem?_eq_getElem (by omega : i < l.length))
        rw [he] at a1
        rw [hx] at a3
        simp only [Option.some.injEq] at a1 a3
        rw [← a1, hp] at a2
        simp only [Option.some.injEq] at a2
        subst a2 a3
        have := a4 w
        rw [hq _ (List.getElem_mem _), scale_value] at this
        have := eq_neg_of_add_eq_zero_left this.symm
        rw [this]
        ring
      · obtain ⟨i, hi⟩ := List.getElem?_of_mem hq
        obtain ⟨e, p, x, a1, a2, a3, a4⟩ := h3 i q hi
        rw [a4 w, hall i e p x a1 a2 a3, scale_value]
        ring

example : ∃ l, conditionalRules byId [⟨[term 3 1], some [term 3 1]⟩] ⟨[term 2 1], some [term 2 1]⟩ [1 / 2] = some (some l) := ⟨_, rfl⟩

/-- For the tensor of a scenario: the rules hold for a state exactly if it gives the outcomes the wanted probabilities, conditional on the outcomes of the
condition. -/
theorem C96_probabilities (ps : Parties) (h1 : ∀ mm ∈ ps, ∀ m ∈ mm, 1 ≤ m.1) (t : Table) {o : Order} (ho : Function.Injective o.rank) (cg : Gisin)
    (hd : cg.dims = gisinDims ps) (given : List Nat) (indices : List (List Nat)) (hg : List.Forall₂ (· < ·) given (fullDims ps))
    (hi : ∀ x ∈ indices, List.Forall₂ (· < ·) x (fullDims ps))
    (hk : ∀ idx, List.Forall₂ (· < ·) idx (gisinDims ps) → (cg.symbol (position (gisinDims ps) idx)).isSome = true) (values : List ℝ)
    (hl : indices.length = values.length) :
    ∃ condition elems l, makeElement t o cg (dimensionInfo (ps.map List.length) ps.flatten) given = some condition ∧
      indices.mapM (makeElement t o cg (dimensionInfo (ps.map List.length) ps.flatten)) = some elems ∧
      conditionalRules o elems condition values = some (some l) ∧
      ∀ (A : Type) [Ring A] [Algebra ℂ A] (P : Nat → Nat → Nat → A) (φ : A →ₗ[ℂ] ℂ) v w, Complete ps P → Describes ps P φ v → Respects t w →
        Named ps cg P φ w → ((∀ q ∈ l, value w q = 0) ↔
          ∀ (i : Nat) idx x, indices[i]? = some idx → values[i]? = some x → φ (joint P 0 (fullChoices ps idx)) = x * φ (joint P 0 (fullChoices ps given))) := by
  obtain ⟨condition, c1, c2, c3⟩ := C94_probability ps h1 t o cg hd given hg
  have hmap : ∃ elems : List Element, indices.mapM (makeElement t o cg (dimensionInfo (ps.map List.length) ps.flatten)) = some elems ∧
      elems.length = indices.length ∧ ∀ (i : Nat) idx, indices[i]? = some idx → ∃ e, elems[i]? = some e ∧ Correct ps t cg idx e ∧ e.symbols.isSome = true := by
    clear hl
    induction indices with
    | nil => exact ⟨[], rfl, rfl, by simp⟩
    | cons idx is ih =>
      obtain ⟨elems, e1, e2, e3⟩ := ih fun x hx => hi x (List.mem_cons_of_mem _ hx)
      obtain ⟨e, f1, f2, f3⟩ := C94_probability ps h1 t o cg hd idx (hi idx (by simp))
      refine ⟨e :: elems, by rw [List.mapM_cons, f1, e1]; rfl, by simp [e2], ?_⟩
      intro i idx' hx
      cases i with
      | zero => simp at hx; subst hx; exact ⟨e, rfl, f2, f3 hk⟩
      | succ i => simpa using e3 i idx' (by simpa using hx)
  obtain ⟨elems, e1, e2, e3⟩ := hmap
  obtain ⟨g1, g2⟩ := C96_conditional ho elems condition values (by omega)
  have hsome : ∃ l, conditionalRules o elems condition values = some (some l) := by
    unfold conditionalRules
    obtain ⟨c, hc⟩ := Option.isSome_iff_exists.mp (c3 hk)
    rw [hc]
    rcases rules_spec ho (fun x => scale (-(x : ℂ)) c) elems values (by omega) with ⟨_, e, he, hn⟩ | ⟨l, h, _⟩
    · exfalso
      obtain ⟨i, hi'⟩ := List.getElem?_of_mem he
      have hil : i < elems.length := (List.getElem?_eq_some_iff.mp hi').1
      obtain ⟨e', a1, _, a3⟩ := e3 i _ (List.getElem?_eq_getElem (by omega : i < indices.length))
      rw [hi'] at a1
      simp only [Option.some.injEq] at a1
      rw [← a1, hn] at a3
      simp at a3
    · exact ⟨l, h⟩
  obtain ⟨l, hl'⟩ := hsome
  obtain ⟨_, c, hc, g3⟩ := g2 l hl'
  refine ⟨condition, elems, l, c1, e1, hl', fun A _ _ P φ v w hP hv hw hn => ?_⟩
  rw [g3 w, (c2 A P φ hP).2 v w c hv hw hn hc]
  constructor
  · intro h i idx x hx hval
    obtain ⟨e, a1, a2, a3⟩ := e3 i idx hx
    obtain ⟨p, hp⟩ := Option.isSome_iff_exists.mp a3
    rw [← (a2 A P φ hP).2 v w p hv hw hn hp]
    exact h i e p x a1 hp hval
  · intro h i e p x he hp hval
    have hil : i < elems.length := (List.getElem?_eq_some_iff.mp he).1
    have hx := List.getElem?_eq_getElem (by omega : i < indices.length)
    obtain ⟨e', a1, a2, _⟩ := e3 i _ hx
    rw [he] at a1
    simp only [Option.some.injEq] at a1
    subst a1
    rw [(a2 A P φ hP).2 v w p hv hw hn hp]
    exact h i _ x hx hval

/-- Probabilities of the outcomes of the first party, given the last outcome of the second. -/
example (t : Table) := C96_probabilities [[(3, false)], [(2, false)]] (by decide) t (o := byId) (fun _ _ h => h) ⟨[3, 2], some⟩ rfl [0, 2] [[1, 2], [2, 2], [3, 2]]
  (List.Forall₂.cons (by decide) (List.Forall₂.cons (by decide) List.Forall₂.nil))
  (by
    intro x hx
    simp only [List.mem_cons, List.not_mem_nil, or_false] at hx
    rcases hx with rfl | rfl | rfl <;> exact List.Forall₂.cons (by decide) (List.Forall₂.cons (by decide) List.Forall₂.nil))
  (fun _ _ => rfl) [1 / 2, 1 / 4, 1 / 4] rfl

end Moment.C96
