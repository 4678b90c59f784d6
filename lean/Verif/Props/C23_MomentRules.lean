import Verif.Proof.MomentUnique

/-! # C23, C24, C56 - C59: moment rules and moment rulebooks

`Assignment t v`: the values respect the symbol table and the identity is one. `Holds v r`: the assignment satisfies the rule. `Solves t b v`: it
satisfies all rules of the book. `Order.Good`: the order tells symbols apart and the identity comes first, as for both polynomial factories. -/

namespace Moment.C23

open Poly Classical C21

theorem byId_good : byId.Good := ⟨byId_injective, fun _ h => h⟩

/-- **C23.** Applying a rule keeps the value under every assignment that satisfies the rule. -/
theorem C23_reduce (t : Table) (o : Order) (r : MRule) (p : List Mono) (hp : Canonical t o p) (v : Nat → ℂ) (hv : Assignment t v) (h : Holds v r) :
    value v (r.reduce t o p) = value v p := by
  rw [reduce_eq r hp, reduceBook_value _ hv.1, subst_of_solves (t := t) ⟨hv, by simpa using h⟩]

/-- The rule 4 → 2 - 3i. -/
noncomputable def rule : MRule := ⟨4, [⟨1, false, 2 - 3 * Complex.I⟩], false, 0⟩

theorem rule_ok : rule.OK table byId where
  lhs := by decide
  core := ⟨by simp [MRule.core, rule], by
    simp only [MRule.core, rule, Bool.false_eq_true, if_false, List.mem_singleton, forall_eq]
    refine ⟨fun h => ?_, by decide⟩
    have := congrArg Complex.re h
    simp at this, by simp [MRule.core, rule]⟩
  below := by simp [Below, MRule.core, rule, byId]
  dir0 := fun _ => rfl
  herm := fun h => by simp [table, rule] at h
  anti := fun h => by simp [table, rule] at h
  part := fun h => by simp [rule] at h

/-- An assignment that satisfies the rule. -/
noncomputable def solution : Nat → ℂ := fun i => if i = 1 then 1 else if i = 4 then 2 - 3 * Complex.I else 0

theorem solution_assignment : Assignment table solution := by
  refine ⟨respects_single table_good 4 (by decide) (2 - 3 * Complex.I) (by simp [table]) (by simp [table]), by simp [solution]⟩

example : Assignment table solution ∧ Holds solution rule ∧ Canonical table byId [⟨4, false, 1⟩, ⟨4, true, 2⟩] := by
  refine ⟨solution_assignment, by simp [Holds, solution, rule, Mono.value], ⟨by simp, by simp, by simp [table]⟩⟩

/-- **C23.** Well-formed rules that fix the symbol completely remove it, conjugated or not. -/
theorem C23_removes (t : Table) (o : Order) (r : MRule) (hr : r.OK t o) (hf : r.partial = false) (p : List Mono)
    (hp : Canonical t o p) : ∀ m ∈ r.reduce t o p, m.id ≠ r.lhs := by
  rw [reduce_eq r hp]
  intro m hm e
  obtain ⟨y, hy, ⟨h1, h2⟩ | ⟨s, h1, z, hz, h2⟩⟩ := reduceBook_ids hm
  · rw [findRule_single] at h1
    by_cases h : r.lhs = y.id
    · simp [h] at h1
    · exact h (by rw [h2, e])
  · obtain ⟨h3, h4⟩ := findRule_some h1
    simp at h3; subst h3
    rw [← core_full hf] at hz
    have := hr.below z hz
    rw [h2, e] at this
    exact lt_irrefl _ this

example : rule.OK table byId ∧ rule.partial = false := ⟨rule_ok, rfl⟩

/-- **C23.** A partial rule leaves only the part of the symbol that it does not fix: the coefficients of `X` and `X*` are as in `X - d² X*`. -/
theorem C23_partial (t : Table) (o : Order) (r : MRule) (hr : r.OK t o) (hf : r.partial = true) (p : List Mono) (hp : Canonical t o p) :
    coeff (r.reduce t o p) r.lhs true = -(r.dir * r.dir) * coeff (r.reduce t o p) r.lhs false := by
  rw [reduce_eq r hp]
  have := meets_reduceBook_in (t := t) (o := o) (b := [r]) hr (by simpa using meets_self hr) p ⟨r, by simp, rfl⟩
  unfold Meets at this
  rwa [hf, if_pos rfl] at this

/-- **C23.** The result is again in canonical form. -/
theorem C23_canonical (t : Table) (o : Order) (ho : Function.Injective o.rank) (r : MRule) (p : List Mono) (hp : Canonical t o p) :
    Canonical t o (r.reduce t o p) := by
  rw [reduce_eq r hp]; exact reduceBook_canonical ho _ hp

example : Function.Injective byId.rank ∧ Canonical table byId poly := ⟨byId_injective, poly_canonical⟩

theorem canonicalMono_value {t : Table} {v : Nat → ℂ} (hv : Respects t v) (m : Mono) : (canonicalMono t m).value v = m.value v := by
  unfold canonicalMono
  rw [fixCC_value hv]
  split
  · rename_i h
    simp [Mono.value, h, hv.zero]
  · rfl

/-- **C23.** Applying a rule to one term; there the value needs no canonical form. -/
theorem C23_reduce_monomial (t : Table) (o : Order) (r : MRule) (m : Mono) (v : Nat → ℂ) (hv : Assignment t v) (h : Holds v r) :
    value v (r.reduceOne t o m) = m.value v ∧ (r.rhs.length ≤ 1 → (r.reduceMonomial t m).value v = m.value v) := by
  constructor
  · unfold MRule.reduceOne
    split
    · exact ofMono_value v hv.1.zero m
    · rename_i he
      simp only [ne_eq, not_not] at he
      rw [make_value hv.1, transformed_value]
      unfold Holds at h
      rw [← h, ← he]; rfl
  · intro hlen
    unfold MRule.reduceMonomial
    split
    · rfl
    · rename_i he
      simp only [ne_eq, not_not] at he
      unfold Holds at h
      cases hr : r.rhs with
      | nil =>
        rw [hr, he, value_nil] at h
        simp [Mono.value, h, hv.1.zero]
      | cons s l =>
        have hl : l = [] := by rw [hr] at hlen; simpa using hlen
        subst hl
        rw [hr, he] at h
        simp only [value_cons, value_nil, add_zero] at h
        dsimp only
        rw [canonicalMono_value hv.1]
        cases hc : m.conj <;> cases hc' : s.conj <;> simp only [Mono.value, hc, hc', Bool.false_eq_true, if_false, if_true, Bool.not_false,
          Bool.not_true] at h ⊢ <;> (rw [h]; try simp only [map_mul, Complex.conj_conj]) <;> ring

example : rule.rhs.length ≤ 1 := by simp [rule]

end Moment.C23

namespace Moment.C24

open Poly Classical C21 C23

/-- **C24.** The rule made from `P = 0`, together with the split equation, holds for exactly the assignments with `P = 0`; a contradiction is only
reported if no assignment has `P = 0`. -/
theorem C24_exact (t : Table) (ht : t.Good) (o : Order) (ho : o.Good) (p : List Mono) (hp : Canonical t o p) (v : Nat → ℂ) (hv : Assignment t v) :
    value v p = 0 ↔ ∃ r s, makeRule t o p = some (r, s) ∧ Holds v r ∧ ∀ q ∈ s, value v q = 0 := by
  by_cases hne : p = []
  · subst hne
    rw [makeRule_nil]
    simp [Holds, hv.1.zero]
  · rcases makeRule_spec ht ho hp hne with ⟨he, hno⟩ | ⟨r, s, he, hok⟩
    · rw [he]; simp [hno v hv]
    · rw [he, hok.exact v hv]
      constructor
      · exact fun h => ⟨r, s, rfl, h⟩
      · rintro ⟨r', s', h, h'⟩
        simp only [Option.some.injEq, Prod.mk.injEq] at h
        rw [h.1, h.2]; exact h'

example : table.Good ∧ byId.Good ∧ Canonical table byId poly ∧ Assignment table assignment :=
  ⟨table_good, byId_good, poly_canonical, assignment_respects, by simp [assignment]⟩

/-- **C24.** A contradiction is reported exactly if the polynomial is a non-zero constant. -/
theorem C24_contradiction (t : Table) (ht : t.Good) (o : Order) (ho : o.Good) (p : List Mono) (hp : Canonical t o p) :
    makeRule t o p = none ↔ ∃ c : ℂ, c ≠ 0 ∧ p = [⟨1, false, c⟩] := by
  by_cases hne : p = []
  · subst hne
    rw [makeRule_nil]; simp
  · constructor
    · intro h
      rcases makeRule_spec ht ho hp hne with ⟨he, hno⟩ | ⟨r, s, he, -⟩
      · -- all solvable shapes give a rule
        rcases canonical_cases hp with h' | ⟨P, m, rfl, hP, hb⟩ | ⟨P, i, a, b, rfl, hP, hb, ha, hb', hi, hh, hn⟩
        · exact absurd h' hne
        · have hm := hp.nonzero m (by simp)
          by_cases h1 : m.id = 1
          · have hPe : P = [] := by
              cases P with
              | nil => rfl
              | cons x P =>
                exfalso
                have hx := hb x (by simp)
                have hx0 := (hp.nonzero x (by simp)).2
                rw [h1] at hx
                by_cases hx1 : x.id = 1
                · rw [hx1] at hx; exact lt_irrefl _ hx
                · have := ho.one x.id (by omega); omega
            subst hPe
            refine ⟨m.factor, hm.1, ?_⟩
            have : m.conj = false := by
              cases hc : m.conj with
              | false => rfl
              | true => have := (hp.plain m (by simp) hc).1; rw [h1, ht.oneHerm] at this; exact absurd this (by simp)
            simp only [List.nil_append, List.cons.injEq, and_true]
            rw [← h1, ← this]
          · exfalso
            revert h
            unfold makeRule difficulty
            simp only [List.reverse_append, List.reverse_cons, List.reverse_nil, List.nil_append, List.cons_append, if_neg h1]
            cases hr : P.reverse with
            | nil => simp
            | cons x R =>
              have hx : x ∈ P := by rw [← List.mem_reverse, hr]; simp
              have : m.id ≠ x.id := fun he => by have := hb x hx; rw [he] at this; exact lt_irrefl _ this
              simp [this]
        · exfalso
          have h1 : i ≠ 1 := fun h => by rw [h, ht.oneHerm] at hh; exact absurd hh (by simp)
          revert h
          unfold makeRule difficulty
          simp only [List.reverse_append, List.reverse_cons, List.reverse_nil, List.nil_append, List.cons_append, if_neg h1]
          by_cases hnorm : Complex.normSq b = Complex.normSq a
          · simp [hnorm]
          · simp [hnorm]
      · rw [he] at h; exact absurd h (by simp)
    · rintro ⟨c, hc, rfl⟩
      simp [makeRule, difficulty]

/-- **C24.** The rule is well-formed, is about the highest symbol of the polynomial, and the split equation is about lower symbols. -/
theorem C24_well_formed (t : Table) (ht : t.Good) (o : Order) (ho : o.Good) (p : List Mono) (hp : Canonical t o p) (hne : p ≠ []) (r : MRule)
    (s : Option (List Mono)) (h : makeRule t o p = some (r, s)) :
    r.OK t o ∧ r.lhs = lastId p ∧ ∀ q ∈ s, Canonical t o q ∧ Below o r.lhs q := by
  rcases makeRule_spec ht ho hp hne with ⟨he, -⟩ | ⟨r', s', he, hok⟩
  · rw [he] at h; exact absurd h (by simp)
  · rw [he] at h
    simp only [Option.some.injEq, Prod.mk.injEq] at h
    rw [← h.1, ← h.2]
    exact ⟨hok.ok, hok.lhsEq, by rw [hok.lhsEq]; exact hok.split⟩

/-- The polynomial 4 + i 4* - (1 + i), whose equation fixes the component of 4 along one direction. -/
noncomputable def tilted : List Mono := [⟨1, false, -(1 + Complex.I)⟩, ⟨4, false, 1⟩, ⟨4, true, Complex.I⟩]

theorem tilted_canonical : Canonical table byId tilted := by
  refine ⟨by simp [tilted, byId], ?_, by simp [tilted, table]⟩
  simp only [tilted, List.mem_cons, List.not_mem_nil, or_false, forall_eq_or_imp, forall_eq]
  refine ⟨⟨fun h => ?_, by decide⟩, ⟨one_ne_zero, by decide⟩, Complex.I_ne_zero, by decide⟩
  have := congrArg Complex.re h
  simp at this

example : tilted ≠ [] ∧ ∃ r s, makeRule table byId tilted = some (r, s) ∧ r.partial = true := by
  refine ⟨by simp [tilted], ?_⟩
  rcases makeRule_spec table_good byId_good tilted_canonical (by simp [tilted]) with ⟨h, -⟩ | ⟨r, s, he, hok⟩
  · have := (C24_contradiction table table_good byId byId_good tilted tilted_canonical).mp h
    simp [tilted] at this
  · exact ⟨r, s, he, hok.full [⟨1, false, -(1 + Complex.I)⟩] 1 Complex.I (by simp [tilted, lastId]) (by simp)⟩

/-- **C24.** The raw rule `symbol = value` has the assignments giving the symbol that value. -/
theorem C24_raw_value (t : Table) (o : Order) (i : Nat) (z : ℂ) (v : Nat → ℂ) (hv : Assignment t v) :
    value v (rawOfValue t o i z) = 0 ↔ v i = z := by
  unfold rawOfValue
  split
  · rename_i hz
    rw [ofMono_value v hv.1.zero, hz]; simp [Mono.value]
  · rw [make_value hv.1]
    simp only [value_cons, value_nil, Mono.value, Bool.false_eq_true, if_false, hv.2, one_mul, mul_one, add_zero]
    rw [← sub_eq_add_neg, sub_eq_zero]

/-- **C24.** A rule given by a direction and a replacement fixes the component in that direction, and nothing else, if the direction is a unit. -/
theorem C24_direction (t : Table) (o : Order) (ho : Function.Injective o.rank) (i : Nat) (d : ℂ) (hd : d * (starRingEnd ℂ) d = 1) (q : List Mono)
    (v : Nat → ℂ) (hv : Assignment t v) :
    Holds v (MRule.ofDirection t o i d q) ↔ (((starRingEnd ℂ) d * v i).re : ℂ) = value v q := by
  unfold Holds MRule.ofDirection
  dsimp only
  rw [append_eq, mergeAdd_value v ho, scale_value, make_value hv.1, freePart_value, ← half_add_conj]
  have hd0 : d ≠ 0 := fun h => by rw [h] at hd; simp at hd
  simp only [map_mul, Complex.conj_conj]
  constructor
  · intro h
    apply mul_left_cancel₀ hd0
    linear_combination h + (1 / 2 * v i) * hd
  · intro h
    linear_combination d * h - (1 / 2 * v i) * hd

example : Complex.I * (starRingEnd ℂ) Complex.I = 1 := by simp

/-- Without unit length it does not: for direction 2 and component 1 the value 1/2 has the right component but does not satisfy the rule. -/
theorem C24_refuted_direction_length : ∃ v, Assignment table v ∧ ¬ (Holds v (MRule.ofDirection table byId 4 2 [⟨1, false, 1⟩]) ↔
    (((starRingEnd ℂ) 2 * v 4).re : ℂ) = value v [⟨1, false, 1⟩]) := by
  refine ⟨fun i => if i = 1 then 1 else if i = 4 then 1 / 2 else 0,
    ⟨respects_single table_good 4 (by decide) (1 / 2) (by simp [table]) (by simp [table]), by simp⟩, ?_⟩
  have hv : Respects table (fun i => if i = 1 then 1 else if i = 4 then (1 / 2 : ℂ) else 0) :=
    respects_single table_good 4 (by decide) (1 / 2) (by simp [table]) (by simp [table])
  unfold Holds MRule.ofDirection
  dsimp only
  rw [append_eq, mergeAdd_value _ byId_injective, scale_value, make_value hv, freePart_value]
  simp [Mono.value, map_ofNat]
  norm_num

/-- **C24.** Turning a rule back into a polynomial: zero exactly for the assignments that satisfy the rule. -/
theorem C24_as_polynomial (o : Order) (ho : Function.Injective o.rank) (r : MRule) (v : Nat → ℂ) (h : 1 < r.lhs) :
    value v (r.asPolynomial o) = 0 ↔ Holds v r := asPolynomial_zero ho h v

example : 1 < rule.lhs := by decide

end Moment.C24

namespace Moment.C56

open Poly Classical C21 C23

theorem book_inv {t : Table} (ht : t.Good) {o : Order} (ho : o.Good) {b : List MRule} (h : Book t o b) : Inv t o b := by
  induction h with
  | empty => exact ⟨by simp [Ordered], by simp, by simp⟩
  | complete _ hraw he ih =>
    obtain ⟨out, h1, h2⟩ := completeLoop_spec ht ho _ _ _ 0 le_rfl ih hraw
    have e := h1.symm.trans he
    simp only [Option.some.injEq] at e
    subst e
    exact h2.1
  | @combine b c b' sort ok hb hc hperm he ihb ihc =>
    unfold combineAndComplete at he
    split at he
    · simp at he; rw [← he.1]; exact ihc
    · split at he
      · simp at he; rw [← he.1]; exact ihb
      · have hraw : ∀ p ∈ sort (c.map (MRule.asPolynomial o)), Canonical t o p := fun p hp => by
          obtain ⟨r, hr, rfl⟩ := List.mem_map.mp ((hperm _).mem_iff.mp hp)
          exact asPolynomial_canonical ho.injective (ihc.ok r hr)
        obtain ⟨out, h1, h2⟩ := completeLoop_spec ht ho _ _ _ 0 le_rfl ihb hraw
        unfold complete at he
        rw [h1] at he
        cases out with
        | ok b'' k => simp at he; rw [← he.1]; exact h2.1
        | contradiction => simp at he; rw [← he.1]; exact ihb

/-- **C56.** Completion ends. It reports a contradiction exactly if no assignment satisfies the old rules and the new equations; otherwise the new
rulebook has exactly these assignments as solutions, and the number returned is the growth of the rulebook. -/
theorem C56_complete (t : Table) (ht : t.Good) (o : Order) (ho : o.Good) (b : List MRule) (hb : Book t o b) (raw : List (List Mono))
    (hraw : ∀ p ∈ raw, Canonical t o p) :
    (complete t o b raw = some .contradiction ∧ ∀ v, ¬ (Solves t b v ∧ Zero v raw)) ∨
    ∃ b' k, complete t o b raw = some (.ok b' k) ∧ (∀ v, Solves t b' v ↔ Solves t b v ∧ Zero v raw) ∧ (∃ v, Solves t b' v) ∧ k + b.length = b'.length := by
  obtain ⟨out, h1, h2⟩ := completeLoop_spec ht ho _ raw b 0 le_rfl (book_inv ht ho hb) hraw
  cases out with
  | contradiction => exact Or.inl ⟨h1, h2⟩
  | ok b' k => exact Or.inr ⟨b', k, h1, h2.2.1, ⟨_, h2.1.subst_solves (zero_assignment ht)⟩, by have := h2.2.2; omega⟩

/-- Three equations for symbols of the table: 4 + i 4* = 1 + i, 4 = 2 * 2 (twice the symbol 2) and 2 = 1. -/
noncomputable def equations : List (List Mono) := [C24.tilted, [⟨2, false, -2⟩, ⟨4, false, 1⟩], [⟨1, false, -1⟩, ⟨2, false, 1⟩]]

theorem equations_canonical : ∀ p ∈ equations, Canonical table byId p := by
  intro p hp
  simp only [equations, List.mem_cons, List.not_mem_nil, or_false] at hp
  rcases hp with rfl | rfl | rfl
  · exact C24.tilted_canonical
  · exact ⟨by simp [byId], by simp, by simp⟩
  · exact ⟨by simp [byId], by simp, by simp⟩

example : Book table byId [] ∧ (∀ p ∈ equations, Canonical table byId p) := ⟨.empty, equations_canonical⟩

/-- These equations have no solution. -/
example : complete table byId [] equations = some .contradiction := by
  rcases C56_complete table table_good byId byId_good [] .empty equations equations_canonical with h | ⟨b', k, h1, h2, ⟨v, hv⟩, -⟩
  · exact h.1
  · exfalso
    obtain ⟨hs, hz⟩ := (h2 v).mp hv
    have z1 := hz C24.tilted (by simp [equations])
    have z2 := hz [⟨2, false, -2⟩, ⟨4, false, 1⟩] (by simp [equations])
    have z3 := hz [⟨1, false, -1⟩, ⟨2, false, 1⟩] (by simp [equations])
    simp only [C24.tilted, value_cons, value_nil, Mono.value, hs.1.2, Bool.false_eq_true, if_false, if_true, add_zero, one_mul, mul_one] at z1 z2 z3
    have h4 : v 4 = 2 := by linear_combination z2 + 2 * z3
    rw [h4, map_ofNat] at z1
    have e1 := congrArg Complex.re z1
    norm_num at e1

/-- The first alone has one, and is completed. -/
example : ∃ b' k, complete table byId [] [C24.tilted] = some (.ok b' k) ∧ b' ≠ [] := by
  have hcan : ∀ p ∈ [C24.tilted], Canonical table byId p := by simpa using C24.tilted_canonical
  have ha : ∀ z : ℂ, Assignment table (fun i => if i = 1 then 1 else if i = 4 then z else 0) := fun z =>
    ⟨respects_single table_good 4 (by decide) _ (by simp [table]) (by simp [table]), by simp⟩
  have hz : Poly.Zero (fun i => if i = 1 then 1 else if i = 4 then 1 else 0) [C24.tilted] := by
    intro p hp
    simp at hp; subst hp
    simp [C24.tilted, Mono.value]
  have hn : ¬ Poly.Zero (fun i => if i = 1 then 1 else if i = 4 then 0 else 0) [C24.tilted] := by
    intro h
    have := congrArg Complex.re (h C24.tilted (by simp))
    simp [C24.tilted, Mono.value] at this
  rcases C56_complete table table_good byId byId_good [] .empty _ hcan with h | ⟨b', k, h1, h2, -, -⟩
  · exact absurd ⟨⟨ha 1, by simp⟩, hz⟩ (h.2 _)
  · refine ⟨b', k, h1, fun e => ?_⟩
    subst e
    exact hn ((h2 _).mp ⟨ha 0, by simp⟩).2

/-- **C56.** Combining rulebooks: the solutions are the common ones; if there are none the first rulebook is kept and the failure reported. -/
theorem C56_combine (t : Table) (ht : t.Good) (o : Order) (ho : o.Good) (b c : List MRule) (hb : Book t o b) (hc : Book t o c)
    (sort : List (List Mono) → List (List Mono)) (hs : ∀ l, (sort l).Perm l) :
    (combineAndComplete t o b c sort = some (b, false) ∧ ∀ v, ¬ (Solves t b v ∧ Solves t c v)) ∨
    ∃ b', combineAndComplete t o b c sort = some (b', true) ∧ ∀ v, Solves t b' v ↔ Solves t b v ∧ Solves t c v := by
  unfold combineAndComplete
  by_cases h1 : b = []
  · subst h1
    exact Or.inr ⟨c, by simp, fun v => ⟨fun h => ⟨⟨h.1, by simp⟩, h⟩, fun h => h.2⟩⟩
  · by_cases h2 : c = []
    · subst h2
      exact Or.inr ⟨b, by simp [h1], fun v => ⟨fun h => ⟨h, h.1, by simp⟩, fun h => h.1⟩⟩
    · have hci := book_inv ht ho hc
      have hraw : ∀ p ∈ sort (c.map (MRule.asPolynomial o)), Canonical t o p := fun p hp => by
        obtain ⟨r, hr, rfl⟩ := List.mem_map.mp ((hs _).mem_iff.mp hp)
        exact asPolynomial_canonical ho.injective (hci.ok r hr)
      have hz : ∀ v, Assignment t v → (Zero v (sort (c.map (MRule.asPolynomial o))) ↔ Solves t c v) := by
        intro v hv
        unfold Poly.Zero Solves
        constructor
        · intro h
          exact ⟨hv, fun r hr => (asPolynomial_zero ho.injective (hci.ok r hr).lhs v).mp (h _ ((hs _).mem_iff.mpr (List.mem_map.mpr ⟨r, hr, rfl⟩)))⟩
        · rintro ⟨-, h⟩ p hp
          obtain ⟨r, hr, rfl⟩ := List.mem_map.mp ((hs _).mem_iff.mp hp)
          exact (asPolynomial_zero ho.injective (hci.ok r hr).lhs v).mpr (h r hr)
      have e1 : b.isEmpty = false := by cases b with | nil => exact absurd rfl h1 | cons => rfl
      have e2 : c.isEmpty = false := by cases c with | nil => exact absurd rfl h2 | cons => rfl
      simp only [e1, e2, Bool.false_eq_true, if_false]
      rcases C56_complete t ht o ho b hb _ hraw with ⟨h, hno⟩ | ⟨b', k, h, hsol, -, -⟩
      · left
        rw [h]
        exact ⟨rfl, fun v hv => hno v ⟨hv.1, (hz v hv.1.1).mpr hv.2⟩⟩
      · right
        rw [h]
        exact ⟨b', rfl, fun v => (hsol v).trans ⟨fun h => ⟨h.1, (hz v h.1.1).mp h.2⟩, fun h => ⟨h.1, (hz v h.1.1).mpr h.2⟩⟩⟩

example : ∀ l : List (List Mono), (id l).Perm l := fun l => List.Perm.refl l

/-- **C56.** Every rule of a rulebook is well-formed: its right side is canonical and only mentions lower symbols (and, for partial rules, the free
part of the symbol itself), and its right side is not changed by any rule of the book. -/
theorem C56_interreduced (t : Table) (ht : t.Good) (o : Order) (ho : o.Good) (b : List MRule) (hb : Book t o b) :
    (b.Pairwise fun r s => o.rank r.lhs < o.rank s.lhs) ∧ (∀ r ∈ b, r.OK t o) ∧ ∀ r ∈ b, reduceBook t o b r.rhs = r.rhs := by
  have hi := book_inv ht ho hb
  exact ⟨hi.ordered, hi.ok, fun r hr => reduceBook_of_value ht ho.injective (hi.ok r hr).rhs_canonical fun v hv => meets_value hi.ok (hi.meets r hr) hv⟩

/-- **C56.** The Hermitian flag is always set by completion: no rule makes a Hermitian moment complex. -/
theorem C56_hermitian_flag (t : Table) (ht : t.Good) (o : Order) (ho : o.Good) (b : List MRule) (hb : Book t o b) :
    (flagsOf t b).hermitian = true := by
  have hi := book_inv ht ho hb
  simp only [flagsOf, List.all_eq_true]
  intro r hr
  split
  · rename_i hh
    refine (C55.C55_hermitian t ht o ho.injective _ (hi.ok r hr).rhs_canonical).mpr fun v hv h1 => ?_
    exact Complex.conj_eq_iff_im.mp ((hi.ok r hr).herm hh v ⟨hv, h1⟩)
  · rfl

/-- **C56 (violated by `inject`).** Injecting a rule for a symbol that already has one adds nothing, but takes the flags of the rejected rule: the
rulebook with the one rule 4 → 0 stops counting as monomial. -/
theorem C56_refuted_inject : (inject table byId [⟨4, [], false, 0⟩] ⟨true, true⟩ ⟨4, [⟨2, false, 1⟩, ⟨3, false, 1⟩], false, 0⟩).1 = [⟨4, [], false, 0⟩] ∧
    (inject table byId [⟨4, [], false, 0⟩] ⟨true, true⟩ ⟨4, [⟨2, false, 1⟩, ⟨3, false, 1⟩], false, 0⟩).2.1.monomial = false ∧
    (flagsOf table [⟨4, [], false, 0⟩]).monomial = true := by
  refine ⟨by simp [inject, findRule], ?_, by simp [flagsOf]⟩
  simp [inject, findRule, table]

end Moment.C56

namespace Moment.C57

open Poly Classical C21 C23 C56

/-- **C57.** Reduction by a rulebook keeps the value under every solution. -/
theorem C57_value (t : Table) (o : Order) (b : List MRule) (p : List Mono) (v : Nat → ℂ) (hv : Solves t b v) :
    value v (reduceBook t o b p) = value v p := by rw [reduceBook_value b hv.1.1, subst_of_solves hv]

example : Solves table [rule] solution := ⟨solution_assignment, by simp [Holds, solution, rule, Mono.value]⟩

/-- **C57.** Two polynomials have the same reduced form exactly if they agree for all solutions of the rulebook. -/
theorem C57_normal_form (t : Table) (ht : t.Good) (o : Order) (ho : o.Good) (b : List MRule) (hb : Book t o b) (p q : List Mono) (hp : Canonical t o p)
    (hq : Canonical t o q) : reduceBook t o b p = reduceBook t o b q ↔ ∀ v, Solves t b v → value v p = value v q :=
  reduceBook_eq_iff ht ho (book_inv ht ho hb) hp hq

/-- **C57.** In particular the reduced form is zero exactly if the polynomial vanishes for all solutions. -/
theorem C57_zero (t : Table) (ht : t.Good) (o : Order) (ho : o.Good) (b : List MRule) (hb : Book t o b) (p : List Mono) (hp : Canonical t o p) :
    reduceBook t o b p = [] ↔ ∀ v, Solves t b v → value v p = 0 := reduceBook_nil_iff ht ho (book_inv ht ho hb) hp

/-- **C57.** Reducing twice is reducing once, and the result is canonical. -/
theorem C57_idempotent (t : Table) (ht : t.Good) (o : Order) (ho : o.Good) (b : List MRule) (hb : Book t o b) (p : List Mono) (hp : Canonical t o p) :
    reduceBook t o b (reduceBook t o b p) = reduceBook t o b p ∧ Canonical t o (reduceBook t o b p) :=
  ⟨reduceBook_idem ht ho (book_inv ht ho hb) hp, reduceBook_canonical ho.injective b hp⟩

/-- A rulebook with one rule, 4 → 2 - 3i. -/
theorem rule_book : Book table byId [rule] := by
  have hc : Canonical table byId [⟨1, false, -(2 - 3 * Complex.I)⟩, ⟨4, false, 1⟩] := by
    refine ⟨by simp [byId], ?_, by simp⟩
    simp only [List.mem_cons, List.not_mem_nil, or_false, forall_eq_or_imp, forall_eq]
    refine ⟨⟨fun h => ?_, by decide⟩, one_ne_zero, by decide⟩
    have := congrArg Complex.re h
    simp at this
  refine Book.complete (b := []) (raw := [[⟨1, false, -(2 - 3 * Complex.I)⟩, ⟨4, false, 1⟩]]) (k := 1) .empty (by simpa using hc) ?_
  have hm : makeRule table byId [⟨1, false, -(2 - 3 * Complex.I)⟩, ⟨4, false, 1⟩] = some (rule, none) := by
    have h1 : (-1 : ℂ) ≠ 1 := fun h => by have := congrArg Complex.re h; norm_num at this
    simp [makeRule, difficulty, lastId, splitRegular, popNorm, table, scale, rule, h1]
  unfold complete
  rw [completeLoop.eq_def]
  simp only [reduceBook, findRule, List.find?_nil, Option.isSome_none, List.any_cons, List.any_nil, Bool.or_self, Bool.false_eq_true, if_false, hm]
  simp [rule, completeLoop]

example : Book table byId [rule] ∧ Canonical table byId poly := ⟨rule_book, poly_canonical⟩

/-- **C57.** Reducing a single term gives the same as reducing the polynomial made of it, and if all rules of the book are monomial the result is a
monomial of the right value (no exception). -/
theorem C57_monomial (t : Table) (o : Order) (b : List MRule) (m : Mono) (v : Nat → ℂ) (hv : Solves t b v) :
    value v (reduceBookOne t o b m) = m.value v ∧
    ((flagsOf t b).monomial = true → ∃ m', reduceBookMonomial t b m = some m' ∧ m'.value v = m.value v) := by
  constructor
  · unfold reduceBookOne
    cases hf : findRule b m.id with
    | none => exact ofMono_value v hv.1.1.zero m
    | some r => exact (C23_reduce_monomial t o r m v hv.1 (hv.2 r (findRule_some hf).1)).1
  · intro h
    simp only [flagsOf, List.all_eq_true, decide_eq_true_eq] at h
    unfold reduceBookMonomial
    cases hf : findRule b m.id with
    | none => exact ⟨m, rfl, rfl⟩
    | some r =>
      have hr := (findRule_some hf).1
      refine ⟨_, if_pos (h r hr), ?_⟩
      exact (C23_reduce_monomial t ⟨fun i => i⟩ r m v hv.1 (hv.2 r hr)).2 (h r hr)

example : (flagsOf table [rule]).monomial = true := by simp [flagsOf, rule]

end Moment.C57

namespace Moment.C58

open Poly Classical C21 C23 C56

theorem nonempty_not_free {t : Table} (ht : t.Good) {o : Order} {r : MRule} (hr : r.OK t o) : ∃ v, Assignment t v ∧ ¬ Holds v r := by
  by_contra hno
  push Not at hno
  obtain ⟨s, hs, -⟩ := symbol_covered ht (c := []) (o := o) ⟨by simp [Ordered], by simp, by simp⟩ hr fun v hv => hno v hv.1
  simp at hs

/-- **C58.** `first_noncontained_rule` finds no rule exactly if every solution of the first rulebook is a solution of the second; a rule it finds is
in the second rulebook and violated by some solution of the first. -/
theorem C58_contained (t : Table) (ht : t.Good) (o : Order) (ho : o.Good) (b c : List MRule) (hb : Book t o b) (hc : Book t o c) :
    (firstNoncontained t o b c = none ↔ ∀ v, Solves t b v → Solves t c v) ∧
    ∀ r, firstNoncontained t o b c = some r → r ∈ c ∧ ∃ v, Solves t b v ∧ ¬ Holds v r := by
  have hbi := book_inv ht ho hb
  have hci := book_inv ht ho hc
  have key : ∀ r ∈ c, (reduceBook t o b (r.asPolynomial o)).isEmpty = true ↔ ∀ v, Solves t b v → Holds v r := by
    intro r hr
    rw [List.isEmpty_iff, reduceBook_nil_iff ht ho hbi (asPolynomial_canonical ho.injective (hci.ok r hr))]
    exact forall_congr' fun v => imp_congr_right fun _ => asPolynomial_zero ho.injective (hci.ok r hr).lhs v
  unfold firstNoncontained
  cases c with
  | nil =>
    simp only [List.isEmpty_nil, if_true]
    exact ⟨⟨fun _ v hv => ⟨hv.1, by simp⟩, fun _ => trivial⟩, fun r h => absurd h (by simp)⟩
  | cons a c =>
    cases b with
    | nil =>
      simp only [List.isEmpty_cons, List.isEmpty_nil, Bool.false_eq_true, if_false, if_true, List.head?_cons, reduceCtorEq, false_iff, Option.some.injEq]
      obtain ⟨v, hv, hn⟩ := nonempty_not_free ht (hci.ok a (by simp))
      refine ⟨fun h => hn ((h v ⟨hv, by simp⟩).2 a (by simp)), ?_⟩
      rintro r rfl
      exact ⟨by simp, v, ⟨hv, by simp⟩, hn⟩
    | cons a' b =>
      simp only [List.isEmpty_cons, Bool.false_eq_true, if_false]
      constructor
      · rw [List.find?_eq_none]
        constructor
        · intro h v hv
          refine ⟨hv.1, fun r hr => ?_⟩
          have := h r hr
          simp only [Bool.not_eq_true, Bool.not_eq_false'] at this
          exact (key r hr).mp this v hv
        · intro h r hr
          simp only [Bool.not_eq_true, Bool.not_eq_false']
          exact (key r hr).mpr fun v hv => (h v hv).2 r hr
      · intro r h
        have h1 := List.mem_of_find?_eq_some h
        have h2 := List.find?_some h
        refine ⟨h1, ?_⟩
        by_contra hno
        push Not at hno
        have := (key r h1).mpr hno
        simp [this] at h2

example : Book table byId [rule] ∧ Book table byId [] := ⟨C57.rule_book, .empty⟩

/-- **C58.** Comparing rulebooks: equal exactly if they have the same solutions, one containing the other exactly if its solutions are strictly
fewer, disjoint otherwise. -/
theorem C58_compare (t : Table) (ht : t.Good) (o : Order) (ho : o.Good) (a b : List MRule) (ha : Book t o a) (hb : Book t o b) :
    (compareBooks t o a b = .equal ↔ (∀ v, Solves t a v ↔ Solves t b v)) ∧
    (compareBooks t o a b = .aContainsB ↔ (∀ v, Solves t a v → Solves t b v) ∧ ¬ ∀ v, Solves t b v → Solves t a v) ∧
    (compareBooks t o a b = .bContainsA ↔ (∀ v, Solves t b v → Solves t a v) ∧ ¬ ∀ v, Solves t a v → Solves t b v) ∧
    (compareBooks t o a b = .disjoint ↔ (¬ ∀ v, Solves t b v → Solves t a v) ∧ ¬ ∀ v, Solves t a v → Solves t b v) := by
  have h1 := (C58_contained t ht o ho a b ha hb).1
  have h2 := (C58_contained t ht o ho b a hb ha).1
  have h3 : (∀ v, Solves t a v ↔ Solves t b v) ↔ (∀ v, Solves t a v → Solves t b v) ∧ ∀ v, Solves t b v → Solves t a v :=
    ⟨fun h => ⟨fun v => (h v).mp, fun v => (h v).mpr⟩, fun h v => ⟨h.1 v, h.2 v⟩⟩
  rw [h3, ← h1, ← h2]
  unfold compareBooks
  cases firstNoncontained t o a b <;> cases firstNoncontained t o b a <;> simp

end Moment.C58

namespace Moment.C59

open Poly Classical C21 C23 C56

/-- **C59.** Rulebooks with the same solutions are identical. -/
theorem C59_unique (t : Table) (ht : t.Good) (o : Order) (ho : o.Good) (b c : List MRule) (hb : Book t o b) (hc : Book t o c)
    (h : ∀ v, Solves t b v ↔ Solves t c v) : b = c := inv_unique ht ho (book_inv ht ho hb) (book_inv ht ho hc) h

/-- **C59.** The completed rulebook does not depend on the order in which the equations are treated, nor on how often they are given. -/
theorem C59_order (t : Table) (ht : t.Good) (o : Order) (ho : o.Good) (b : List MRule) (hb : Book t o b) (raw raw' : List (List Mono))
    (hraw : ∀ p ∈ raw, Canonical t o p) (h : ∀ p, p ∈ raw ↔ p ∈ raw') :
    (complete t o b raw = some .contradiction ∧ complete t o b raw' = some .contradiction) ∨
    ∃ b' k, complete t o b raw = some (.ok b' k) ∧ complete t o b raw' = some (.ok b' k) := by
  have hraw' : ∀ p ∈ raw', Canonical t o p := fun p hp => hraw p ((h p).mpr hp)
  have hz : ∀ v, Zero v raw ↔ Zero v raw' := fun v => forall_congr' fun p => by rw [h p]
  rcases C56_complete t ht o ho b hb raw hraw with ⟨h1, n1⟩ | ⟨b1, k1, h1, s1, e1, l1⟩ <;>
    rcases C56_complete t ht o ho b hb raw' hraw' with ⟨h2, n2⟩ | ⟨b2, k2, h2, s2, e2, l2⟩
  · exact Or.inl ⟨h1, h2⟩
  · exfalso
    obtain ⟨v, hv⟩ := e2
    have := (s2 v).mp hv
    exact n1 v ⟨this.1, (hz v).mpr this.2⟩
  · exfalso
    obtain ⟨v, hv⟩ := e1
    have := (s1 v).mp hv
    exact n2 v ⟨this.1, (hz v).mp this.2⟩
  · have hbb : b1 = b2 := C59_unique t ht o ho b1 b2 (.complete hb hraw h1) (.complete hb hraw' h2) fun v => by
      rw [s1 v, s2 v, hz v]
    subst hbb
    exact Or.inr ⟨b1, k1, h1, by rw [h2]; congr 2; omega⟩

/-- **C59.** Nor does it matter whether equations are completed in one go or in two. -/
theorem C59_steps (t : Table) (ht : t.Good) (o : Order) (ho : o.Good) (b b1 b2 b3 : List MRule) (hb : Book t o b) (r1 r2 : List (List Mono))
    (c1 : ∀ p ∈ r1, Canonical t o p) (c2 : ∀ p ∈ r2, Canonical t o p) (k1 k2 k3 : Nat) (h1 : complete t o b r1 = some (.ok b1 k1))
    (h2 : complete t o b1 r2 = some (.ok b2 k2)) (h3 : complete t o b (r1 ++ r2) = some (.ok b3 k3)) : b2 = b3 := by
  have hb1 : Book t o b1 := .complete hb c1 h1
  have c3 : ∀ p ∈ r1 ++ r2, Canonical t o p := fun p hp => (List.mem_append.mp hp).elim (c1 p) (c2 p)
  have sol : ∀ {b b' : List MRule} {raw : List (List Mono)} {k : Nat}, Book t o b → (∀ p ∈ raw, Canonical t o p) → complete t o b raw = some (.ok b' k) →
      ∀ v, Solves t b' v ↔ Solves t b v ∧ Zero v raw := by
    intro b b' raw k hb hc h v
    rcases C56_complete t ht o ho b hb raw hc with ⟨h', -⟩ | ⟨b'', k', h', hs, -, -⟩
    · rw [h] at h'; simp at h'
    · rw [h] at h'
      simp only [Option.some.injEq, Outcome.ok.injEq] at h'
      rw [h'.1]; exact hs v
  refine C59_unique t ht o ho b2 b3 (.complete hb1 c2 h2) (.complete hb c3 h3) fun v => ?_
  rw [sol hb1 c2 h2, sol hb c1 h1, sol hb c3 h3, and_assoc]
  refine and_congr_right fun _ => ?_
  simp [Poly.Zero, or_imp, forall_and]

/-- **C59.** The comparison used for sorting raw rules is a strict weak order, as `std::sort` requires: it is the lexicographic order on the keys of
the terms, last term first. -/
theorem C59_ordering (o : Order) : ∀ p q : List Mono, polyLess o p q = true ↔ p.map o.key < q.map o.key
  | [], [] => by simp [polyLess]
  | [], b :: q => by simp [polyLess]
  | a :: p, [] => by simp [polyLess]
  | a :: p, b :: q => by
    rw [polyLess, List.map_cons, List.map_cons, List.cons_lt_cons_iff, ← C59_ordering o p q]
    have h1 := less_iff (o := o) (a := a) (b := b)
    have h2 := less_iff (o := o) (a := b) (b := a)
    split
    · rename_i h; simp [h1.mp h]
    · rename_i h
      rw [h1] at h
      split
      · rename_i h'
        rw [h2] at h'
        have : o.key a ≠ o.key b := by omega
        simp [this, h]
      · rename_i h'
        rw [h2] at h'
        have : o.key a = o.key b := by omega
        simp [this]

end Moment.C59
