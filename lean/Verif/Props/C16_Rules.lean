import Verif.Proof.RulesRun

/-! # Operator rulebooks: C16 reduction, C17 strategies, C18 completeness, C19 consequences

Words are over `p.num` operators. `Small p L` says that hashes of words of length up to `L` fit in 64 bits. `GoodMap p L m` says that `m` is the
content of a rulebook: keys are the hashes of left sides in increasing order, and every rule replaces a word by zero or by a word before it in
the order of hashes (with some phase). `rset m` is the set of rewrite rules the map stands for. -/

namespace Moment.C16
open Moment Rules Rewrite

universe u

variable {p : Pre} {L : Nat}

/-! ## C16 -/

/-- No rule with a non-empty left side applies to the word. -/
def Stuck (R : Set RRule) (w : List Nat) : Prop := ∀ rule ∈ R, rule.1 ≠ [] → ¬ rule.1 <:+: w

/-- The term a raw reduction result stands for. -/
def result : Raw × List Nat × Sign → Term
  | (.setToZero, _, _) => none
  | (_, w, s) => some (s, w)

/-- What a reduction of `s · w` may report: that nothing applies (and then nothing is changed), or a result reached by one or more replacements
which is zero or cannot be reduced further. -/
def Outcome (R : Set RRule) (w : List Nat) (s : Sign) (out : Raw × List Nat × Sign) : Prop :=
  (out.1 = .noMatch ∧ out.2 = (w, s) ∧ Stuck R w) ∨
  (out.1 = .matched ∧ Relation.TransGen (Step R) (some (s, w)) (result out) ∧ Stuck R out.2.1) ∨
  (out.1 = .setToZero ∧ Relation.TransGen (Step R) (some (s, w)) none)

theorem stuck_iff {m : RMap} {w : List Nat} : Stuck (rset m) w ↔ Irr m w := by
  constructor
  · intro h e he hne; exact h _ (mem_rset he) hne
  · rintro h rule ⟨e, he, rfl⟩ hne; exact h e he hne

theorem outcome_of_raw {m : RMap} {w : List Nat} {s : Sign} {out : Raw × List Nat × Sign} (h : RawSpec p L m w s false out) :
    Outcome (rset m) w s out := by
  rcases h with ⟨rfl, h⟩ | ⟨w', s', rfl, h1, h2, _⟩ | ⟨h1, h2⟩
  · exact Or.inl ⟨rfl, rfl, stuck_iff.mpr h⟩
  · exact Or.inr (Or.inl ⟨rfl, h1, stuck_iff.mpr h2⟩)
  · exact Or.inr (Or.inr ⟨h1, h2⟩)

/-- C16. Reduction by scanning the rules always ends, with a correct outcome. -/
theorem C16_iteration (hs : Small p L) {m : RMap} (hm : GoodMap p L m) {w : List Nat} (hw : IsWord p L w) (s : Sign) :
    ∃ out, viaIteration m w s = some out ∧ Outcome (rset m) w s out :=
  let ⟨out, h1, h2⟩ := viaIteration_spec hs hm hw s
  ⟨out, h1, outcome_of_raw h2⟩

/-- C16. Reduction by searching substring hashes always ends, with a correct outcome. -/
theorem C16_search (hs : Small p L) {m : RMap} (hm : GoodMap p L m) {w : List Nat} (hw : IsWord p L w) (s : Sign) :
    ∃ out, viaSearch p m w s = some out ∧ Outcome (rset m) w s out :=
  let ⟨out, h1, h2⟩ := viaSearch_spec hs hm hw s
  ⟨out, h1, outcome_of_raw h2⟩

/-- A correct outcome has the value of the input in every algebra where the rules hold. -/
theorem C16_outcome_sound {R : Set RRule} {w : List Nat} {s : Sign} {out : Raw × List Nat × Sign} (h : Outcome R w s out)
    {A : Type u} [Ring A] [Algebra ℂ A] (ρ : Nat → A) (hρ : Models ρ R) : eval ρ (result out) = eval ρ (some (s, w)) := by
  obtain ⟨o1, o2, o3⟩ := out
  rcases h with ⟨h1, h2, _⟩ | ⟨_, h2, _⟩ | ⟨h1, h2⟩
  · simp only [Prod.mk.injEq] at h1 h2; rw [h1, h2.1, h2.2]; rfl
  · exact (steps_sound ρ hρ h2.to_reflTransGen).symm
  · simp only at h1; subst h1; exact (steps_sound ρ hρ h2.to_reflTransGen).symm

/-- C16. `reduce_in_place` on a word, whichever strategy it picks. -/
theorem C16_reduce_in_place (hs : Small p L) {b : Book} (hb : GoodMap p L b.rules) {w : List Nat} (hw : IsWord p L w) (s : Sign) :
    ∃ out, b.reduceInPlace p w s = some out ∧ Outcome (rset b.rules) w s out := by
  unfold Book.reduceInPlace
  split
  · rename_i h
    refine ⟨_, rfl, Or.inl ⟨rfl, rfl, stuck_iff.mpr ?_⟩⟩
    simp only [Bool.or_eq_true, List.isEmpty_iff] at h
    rcases h with h | h
    · rw [h]; exact irr_nil _
    · rw [h]; intro e he; simp at he
  · split
    · exact C16_search hs hb hw s
    · exact C16_iteration hs hb hw s

/-- C16. The simplification done by a context (`additional_simplification`): `none` (inner) is zero. The value is kept in every algebra where
the rules hold and, for a commutative context, the operators commute. -/
theorem C16_context_simplification (hs : Small p L) {b : Book} (hb : GoodMap p L b.rules) {w : List Nat} (hw : IsWord p L w) (s : Sign)
    (comm : Bool) :
    ∃ out, simplify p comm b w s = some out ∧
      (∀ w' s', out = some (w', s') → Stuck (rset b.rules) w') ∧
      ∀ (A : Type u) [Ring A] [Algebra ℂ A] (ρ : Nat → A), Models ρ (rset b.rules) →
        (comm = true → ∀ i j, ρ i * ρ j = ρ j * ρ i) → eval ρ (out.map fun x => (x.2, x.1)) = eval ρ (some (s, w)) := by
  have hperm : ∀ v, (if comm then w.mergeSort (· ≤ ·) else w) = v → v.Perm w := by
    intro v h; subst h; split
    · exact List.mergeSort_perm _ _
    · exact List.Perm.refl _
  unfold simplify
  dsimp only
  generalize hv : (if comm then w.mergeSort (· ≤ ·) else w) = v
  have hp := hperm v hv
  have hvw : IsWord p L v := ⟨fun o ho => hw.1 o (hp.mem_iff.mp ho), by rw [hp.length_eq]; exact hw.2⟩
  obtain ⟨⟨o1, o2, o3⟩, h1, h2⟩ := C16_reduce_in_place hs hb hvw s
  rw [h1]
  have hval : ∀ (A : Type u) [Ring A] [Algebra ℂ A] (ρ : Nat → A), (comm = true → ∀ i j, ρ i * ρ j = ρ j * ρ i) →
      eval ρ (some (s, v)) = eval ρ (some (s, w)) := by
    intro A _ _ ρ hc
    cases comm with
    | false => simp only [Bool.false_eq_true, if_false] at hv; rw [hv]
    | true =>
      simp only [eval, evalWord]
      congr 1
      refine (hp.map ρ).prod_eq' ?_
      refine List.Pairwise.map ρ (fun a b _ => hc rfl a b) (List.pairwise_of_forall (R := fun _ _ => True) (by simp))
  refine ⟨_, rfl, ?_, ?_⟩
  · intro w' s' h
    rcases h2 with ⟨h3, h4, h5⟩ | ⟨h3, _, h5⟩ | ⟨h3, _⟩ <;> simp only at h3 <;> subst h3
    · simp only [Prod.mk.injEq] at h4
      simp only [Option.some.injEq, Prod.mk.injEq] at h
      rw [← h.1, h4.1]; exact h5
    · simp only [Option.some.injEq, Prod.mk.injEq] at h
      rw [← h.1]; exact h5
    · simp at h
  · intro A _ _ ρ hρ hc
    rw [← hval A ρ hc, ← C16_outcome_sound h2 ρ hρ]
    cases o1 <;> rfl

/-- C16, `reduce` on sequences: everything but signed identities. (`reduce` keeps the phase of an empty word only if it is `+`: see
`C16_refuted_signed_identity`.) -/
theorem C16_reduce_partial (hs : Small p L) {b : Book} (hb : GoodMap p L b.rules) {x : HSeq} (hx : GoodSeq p L x)
    (hid : x.ops = [] → x.hash ≠ 0 → x.sign = .pos) :
    ∃ y, b.reduce p x = some y ∧ Steps (rset b.rules) (term x) (term y) ∧ Stuck (rset b.rules) y.ops ∧ GoodSeq p L y ∧
      ∀ (A : Type u) [Ring A] [Algebra ℂ A] (ρ : Nat → A), Models ρ (rset b.rules) → eval ρ (term y) = eval ρ (term x) := by
  obtain ⟨y, h1, h2⟩ := reduce_spec hs hb hx
  exact ⟨y, h1, h2.steps hid, stuck_iff.mpr h2.irr, h2.good, fun A _ _ ρ hρ => (steps_sound ρ hρ (h2.steps hid)).symm⟩

/-! ### Examples -/

/-- Two self-adjoint operators. -/
abbrev p2 : Pre := ⟨2, .selfAdjoint⟩

theorem small_p2 : Small p2 20 := ⟨by decide, by decide +kernel⟩

/-- A rule from two words with a phase. -/
def mkRule (p : Pre) (l r : List Nat) (s : Sign) : Rule :=
  { lhs := ⟨p.hash l, l, .pos⟩, rhs := ⟨p.hash r, r, s⟩, trivial := false, toZero := false, delta := (r.length : Int) - (l.length : Int) }

/-- A rule from a word to zero. -/
def mkZero (p : Pre) (l : List Nat) : Rule :=
  { lhs := ⟨p.hash l, l, .pos⟩, rhs := HSeq.zero, trivial := false, toZero := true, delta := - (l.length : Int) }

theorem mkRule_good {p : Pre} {L : Nat} {l r : List Nat} (s : Sign) (hl : IsWord p L l) (hr : IsWord p L r) (h : p.hash r < p.hash l)
    (h0 : p.hash r ≠ 0) : GoodRule p L (mkRule p l r s) :=
  ⟨⟨hl, Or.inr rfl⟩, ⟨hr, Or.inr rfl⟩, rfl, h, by simpa [mkRule, HSeq.isZero] using h0, rfl, rfl⟩

theorem mkZero_good {p : Pre} {L : Nat} {l : List Nat} (hl : IsWord p L l) (h : 0 < p.hash l) : GoodRule p L (mkZero p l) :=
  ⟨⟨hl, Or.inr rfl⟩, GoodSeq.zero, rfl, h, rfl, by simp [mkZero, HSeq.zero], rfl⟩

/-- Pauli-like rules for two operators: `x x = 1`, `y y = 1`, `y x = -x y`. -/
def pauliMap : RMap :=
  [(p2.hash [0, 0], mkRule p2 [0, 0] [] .pos), (p2.hash [1, 0], mkRule p2 [1, 0] [0, 1] .neg), (p2.hash [1, 1], mkRule p2 [1, 1] [] .pos)]

theorem word_of (p : Pre) (L : Nat) (w : List Nat) (h1 : ∀ o ∈ w, o < p.num) (h2 : w.length ≤ L) : IsWord p L w := ⟨h1, h2⟩

theorem pauli_good : GoodMap p2 20 pauliMap := by
  refine ⟨?_, ?_⟩
  · intro e he
    simp only [pauliMap, List.mem_cons, List.not_mem_nil, or_false] at he
    rcases he with rfl | rfl | rfl
    · exact ⟨rfl, mkRule_good _ (word_of _ _ _ (by decide) (by decide)) (word_of _ _ _ (by decide) (by decide)) (by decide) (by decide)⟩
    · exact ⟨rfl, mkRule_good _ (word_of _ _ _ (by decide) (by decide)) (word_of _ _ _ (by decide) (by decide)) (by decide) (by decide)⟩
    · exact ⟨rfl, mkRule_good _ (word_of _ _ _ (by decide) (by decide)) (word_of _ _ _ (by decide) (by decide)) (by decide) (by decide)⟩
  · decide

/-- The hypotheses of the theorems above hold for it, and `y x y` becomes `-x`. -/
example : Small p2 20 ∧ GoodMap p2 20 pauliMap ∧ IsWord p2 20 [1, 0, 1] ∧
    viaIteration pauliMap [1, 0, 1] .pos = some (.matched, [0], .neg) :=
  ⟨small_p2, pauli_good, word_of _ _ _ (by decide) (by decide), viaIteration_of 5 (by decide)⟩

example : viaSearch p2 pauliMap [1, 0, 1] .pos = some (.matched, [0], .neg) := viaSearch_of 5 (by decide)

/-! ### What fails -/

/-- `reduce` forgets the phase of the identity: `-1` is "reduced" to `1`. -/
theorem C16_refuted_signed_identity (p : Pre) (b : Book) :
    b.reduce p (HSeq.identity .neg) = some (HSeq.identity .pos) ∧
    eval (A := ℂ) (fun _ => 0) (term (HSeq.identity .neg)) ≠ eval (A := ℂ) (fun _ => 0) (term (HSeq.identity .pos)) := by
  refine ⟨rfl, ?_⟩
  simp [term, HSeq.identity, eval, phase]
  norm_num

/-- The rule `x → -x`: both sides have the same hash, yet the rule does not count as trivial. -/
def badRule : Rule := ⟨⟨p2.hash [0], [0], .pos⟩, ⟨p2.hash [0], [0], .neg⟩, false, false, 0⟩

/-- The constructor and `add_rules` accept the rule `x → -x`; reducing `x` then never returns. -/
theorem C16_refuted_endless :
    Rule.make ⟨p2.hash [0], [0], .pos⟩ ⟨p2.hash [0], [0], .neg⟩ = some badRule ∧
    addRule [] badRule = some ([(p2.hash [0], badRule)], 1) ∧
    viaIteration [(p2.hash [0], badRule)] [0] .pos = none := by
  refine ⟨by decide, ?_, ?_⟩
  · rw [addRule]
    decide
  · cases h : viaIteration [(p2.hash [0], badRule)] [0] .pos with
    | none => rfl
    | some out =>
      exfalso
      refine iterLoop.partial_correctness [(p2.hash [0], badRule)] (motive := fun w _ _ _ => w ≠ [0]) ?_ [0] .pos false out h rfl
      rintro loop ih w s b out h rfl
      have h1 : firstMatch [0] [(p2.hash [0], badRule)] = some (badRule, 0) := by decide
      have h2 : badRule.apply [0] 0 = some [0] := by decide
      have h3 : badRule.rhs.isZero = false := by decide
      simp only [h1, h2, h3, Bool.false_eq_true, if_false, Option.bind_eq_bind, Option.bind_some] at h
      exact ih _ _ _ _ h rfl

end Moment.C16

namespace Moment.C17
open Moment Rules Rewrite C16

variable {p : Pre} {L : Nat}

/-! ## C17 -/

/-- No rule has an empty left side. -/
def NoEmpty (m : RMap) : Prop := ∀ e ∈ m, e.2.lhs.ops ≠ []

theorem irr_iff {m : RMap} (hne : NoEmpty m) {w : List Nat} : Irr m w ↔ Irreducible (rset m) w := by
  constructor
  · rintro h rule ⟨e, he, rfl⟩; exact h e he (hne e he)
  · intro h e he _; exact h _ (mem_rset he)

theorem noMatch_iff {m : RMap} (hne : NoEmpty m) {w : List Nat} {s : Sign} {out : Raw × List Nat × Sign}
    (h : Outcome (rset m) w s out) : out.1 = .noMatch ↔ Irreducible (rset m) w := by
  constructor
  · intro h1
    rcases h with ⟨_, _, h2⟩ | ⟨h2, _⟩ | ⟨h2, _⟩
    · exact (irr_iff hne).mp (stuck_iff.mp h2)
    · rw [h1] at h2; cases h2
    · rw [h1] at h2; cases h2
  · intro h1
    have hn : Normal (rset m) (some (s, w)) := normal_some.mpr h1
    rcases h with ⟨h2, _⟩ | ⟨_, h2, _⟩ | ⟨_, h2⟩
    · exact h2
    · obtain ⟨t, h3, _⟩ := Relation.TransGen.head'_iff.mp h2; exact absurd h3 (hn _)
    · obtain ⟨t, h3, _⟩ := Relation.TransGen.head'_iff.mp h2; exact absurd h3 (hn _)

/-- C17. Each strategy reports "nothing found" exactly for the words in which no left side occurs; so they agree on it. -/
theorem C17_same_matches_partial (hs : Small p L) {m : RMap} (hm : GoodMap p L m) (hne : NoEmpty m) {w : List Nat} (hw : IsWord p L w)
    (s : Sign) : ∃ a b, viaIteration m w s = some a ∧ viaSearch p m w s = some b ∧
      (a.1 = .noMatch ↔ Irreducible (rset m) w) ∧ (b.1 = .noMatch ↔ Irreducible (rset m) w) := by
  obtain ⟨a, h1, h2⟩ := C16_iteration hs hm hw s
  obtain ⟨b, h3, h4⟩ := C16_search hs hm hw s
  exact ⟨a, b, h1, h3, noMatch_iff hne h2, noMatch_iff hne h4⟩

theorem outcome_normal {m : RMap} (hne : NoEmpty m) {w : List Nat} {s : Sign} {out : Raw × List Nat × Sign}
    (h : Outcome (rset m) w s out) : Steps (rset m) (some (s, w)) (result out) ∧ Normal (rset m) (result out) := by
  obtain ⟨o1, o2, o3⟩ := out
  rcases h with ⟨h1, h2, h3⟩ | ⟨h1, h2, h3⟩ | ⟨h1, h2⟩ <;> simp only at h1 <;> subst h1
  · simp only [Prod.mk.injEq] at h2
    obtain ⟨rfl, rfl⟩ := h2
    exact ⟨.refl, normal_some.mpr ((irr_iff hne).mp (stuck_iff.mp h3))⟩
  · exact ⟨h2.to_reflTransGen, normal_some.mpr ((irr_iff hne).mp (stuck_iff.mp h3))⟩
  · exact ⟨h2.to_reflTransGen, normal_none⟩

/-- C17. Where results are unique, the two strategies give the same result, and report it in the same way. -/
theorem C17_same_result_partial (hs : Small p L) {m : RMap} (hm : GoodMap p L m) (hne : NoEmpty m) (hu : UniqueResults (rset m))
    {w : List Nat} (hw : IsWord p L w) (s : Sign) :
    ∃ a b, viaIteration m w s = some a ∧ viaSearch p m w s = some b ∧ result a = result b ∧ a.1 = b.1 := by
  obtain ⟨a, h1, h2⟩ := C16_iteration hs hm hw s
  obtain ⟨b, h3, h4⟩ := C16_search hs hm hw s
  obtain ⟨s1, n1⟩ := outcome_normal hne h2
  obtain ⟨s2, n2⟩ := outcome_normal hne h4
  have he := hu _ _ _ s1 s2 n1 n2
  refine ⟨a, b, h1, h3, he, ?_⟩
  have k := (noMatch_iff hne h2).trans (noMatch_iff hne h4).symm
  obtain ⟨a1, a2, a3⟩ := a
  obtain ⟨b1, b2, b3⟩ := b
  revert he k
  cases a1 <;> cases b1 <;> simp [result]

/-- C17. `can_reduce` answers whether some left side occurs, whichever strategy it picks. -/
theorem C17_can_reduce_partial (hs : Small p L) {b : Book} (hb : GoodMap p L b.rules) (hne : NoEmpty b.rules) {w : List Nat}
    (hw : IsWord p L w) : ∃ a, b.canReduce p w = some a ∧ (a = true ↔ ¬ Irreducible (rset b.rules) w) := by
  unfold Book.canReduce
  split
  · rename_i h
    refine ⟨false, rfl, ?_⟩
    simp only [Bool.or_eq_true, List.isEmpty_iff] at h
    simp only [Bool.false_eq_true, false_iff, not_not, ← irr_iff hne]
    rcases h with h | h
    · rw [h]; exact irr_nil _
    · rw [h]; intro e he; simp at he
  · split
    · obtain ⟨o, h1, h2⟩ := searchSub_spec hs hb hw
      refine ⟨_, by rw [h1]; rfl, ?_⟩
      rw [← irr_iff hne]
      cases o with
      | none => exact ⟨fun h => absurd h (by simp), fun h => absurd h2 h⟩
      | some x =>
        obtain ⟨r, i⟩ := x
        obtain ⟨⟨e, he, rfl⟩, hi, hpre⟩ := h2
        simp only [Option.isSome_some, true_iff]
        intro hirr
        exact hirr e he (hne e he) (hpre.isInfix.trans (List.drop_suffix _ _).isInfix)
    · refine ⟨_, rfl, ?_⟩
      rw [← irr_iff hne, List.any_eq_true]
      unfold Irr
      push Not
      constructor
      · rintro ⟨e, he, h⟩; exact ⟨e, he, hne e he, (matchesAnywhere_isSome (hne e he)).mp h⟩
      · rintro ⟨e, he, _, h⟩; exact ⟨e, he, (matchesAnywhere_isSome (hne e he)).mpr h⟩

/-- The Pauli-like rules of C16 meet the hypotheses (for a book with proved uniqueness see the example in C18). -/
example : Small p2 20 ∧ GoodMap p2 20 pauliMap ∧ NoEmpty pauliMap ∧ ¬ Irreducible (rset pauliMap) [1, 0, 1] := by
  refine ⟨small_p2, pauli_good, by unfold NoEmpty; decide, fun h => ?_⟩
  exact h ([1, 0], some (.neg, [0, 1])) ⟨_, List.mem_cons_of_mem _ (List.mem_cons_self ..), rfl⟩ ⟨[], [1], rfl⟩

/-- Without unique results the two strategies do give different answers: with the single rule `x x → y`, scanning turns `x x x` into `y x`, and
searching turns it into `x y`. -/
theorem C17_different_results :
    viaIteration [(p2.hash [0, 0], mkRule p2 [0, 0] [1] .pos)] [0, 0, 0] .pos = some (.matched, [1, 0], .pos) ∧
    viaSearch p2 [(p2.hash [0, 0], mkRule p2 [0, 0] [1] .pos)] [0, 0, 0] .pos = some (.matched, [0, 1], .pos) :=
  ⟨viaIteration_of 5 (by decide), viaSearch_of 5 (by decide)⟩

/-- A book with the rule `1 → 0` (unique results: everything is zero): scanning finds that `x` is zero, searching finds nothing. -/
theorem C17_refuted_empty :
    GoodMap p2 20 [(p2.hash [], mkZero p2 [])] ∧ UniqueResults (rset [(p2.hash [], mkZero p2 [])]) ∧
    viaIteration [(p2.hash [], mkZero p2 [])] [0] .pos = some (.setToZero, [0], .pos) ∧
    viaSearch p2 [(p2.hash [], mkZero p2 [])] [0] .pos = some (.noMatch, [0], .pos) := by
  refine ⟨⟨?_, by decide⟩, ?_, viaIteration_of 5 (by decide), viaSearch_of 5 (by decide)⟩
  · intro e he
    simp only [List.mem_cons, List.not_mem_nil, or_false] at he
    subst he
    exact ⟨rfl, mkZero_good IsWord.nil (by decide)⟩
  · intro t a b _ _ na nb
    have hz : ∀ c, Normal (rset [(p2.hash [], mkZero p2 [])]) c → c = none := by
      intro c hc
      rcases c with _ | ⟨s, w⟩
      · rfl
      · refine absurd ?_ (hc none)
        have : Step (rset [(p2.hash [], mkZero p2 [])]) (some (s, [] ++ [] ++ w)) none :=
          Step.zero ⟨_, List.mem_cons_self .., rfl⟩
        simpa using this
    rw [hz a na, hz b nb]

end Moment.C17

namespace Moment.C18
open Moment Rules Rewrite C16 C17

variable {p : Pre} {L : Nat}

/-! ## C18 -/

theorem isComplete_firstNew {b : Book} {cc : Bool} (h : b.isComplete p cc = some true) : firstNew p b (pairs b.rules) = some none := by
  unfold Book.isComplete at h
  have : ∀ o : Option Bool, (o >>= fun x => if x then some false else (firstNew p b (pairs b.rules)).map Option.isNone) = some true →
      firstNew p b (pairs b.rules) = some none := by
    intro o ho
    rcases o with _ | x
    · cases ho
    · cases x with
      | true => simp at ho
      | false =>
        simp only [Option.bind_eq_bind, Option.bind_some, Bool.false_eq_true, if_false, Option.map_eq_some_iff] at ho
        obtain ⟨a, h1, h2⟩ := ho
        rw [h1]
        cases a with
        | none => rfl
        | some _ => simp at h2
  exact this _ h

/-- C18, for books whose phases are real, whose left sides do not contain each other, do not overlap with themselves, and overlap in at most
one way. Missing: self-overlaps, several overlaps (both refuted below), imaginary phases. -/
theorem C18_complete_unique_partial (hs : Small p L) {b : Book} (hb : GoodMap p L b.rules) (hreal : ∀ e ∈ b.rules, RealSign e.2.rhs.sign)
    (hK : ∀ e ∈ b.rules, ∀ e' ∈ b.rules, e.2.lhs.ops.length + e'.2.lhs.ops.length ≤ L) (ho : SimpleOverlaps (rset b.rules))
    (cc : Bool) (h : b.isComplete p cc = some true) : UniqueResults (rset b.rules) :=
  unique_of_critical (hb.decreasing hs) (critical_of_firstNew hs hb hreal hK ho (isComplete_firstNew h))

/-- C18, converse: a book (with real phases and no left side inside another) that gives unique results is reported complete; so a report
"not complete" is always right. -/
theorem C18_unique_complete_partial (hs : Small p L) {b : Book} (hb : GoodMap p L b.rules) (hreal : ∀ e ∈ b.rules, RealSign e.2.rhs.sign)
    (hne : NoEmpty b.rules) (hnest : ∀ l ∈ rset b.rules, ∀ l' ∈ rset b.rules, l'.1 <:+: l.1 → l = l')
    (hK : ∀ e ∈ b.rules, ∀ e' ∈ b.rules, e.2.lhs.ops.length + e'.2.lhs.ops.length ≤ L)
    (hu : UniqueResults (rset b.rules)) : b.isComplete p false = some true := by
  unfold Book.isComplete
  rw [firstNew_of_unique hs hb hreal hne hnest hK hu]
  rfl

/-! ### Examples -/

/-- Three self-adjoint operators with `z y = x` and `y x = x`... chosen so that the two rules overlap once: `z y x`. -/
abbrev p3 : Pre := ⟨3, .selfAdjoint⟩

theorem small_p3 : Small p3 20 := ⟨by decide, by decide +kernel⟩

/-- Rules `y x → x` and `z y → z`. On `z y x` both ways give `z x`. -/
def exMap : RMap := [(p3.hash [1, 0], mkRule p3 [1, 0] [0] .pos), (p3.hash [2, 1], mkRule p3 [2, 1] [2] .pos)]

def exBook : Book := ⟨exMap, 1⟩

theorem ex_good : GoodMap p3 20 exMap := by
  refine ⟨?_, by decide⟩
  intro e he
  simp only [exMap, List.mem_cons, List.not_mem_nil, or_false] at he
  rcases he with rfl | rfl
  · exact ⟨rfl, mkRule_good _ (word_of _ _ _ (by decide) (by decide)) (word_of _ _ _ (by decide) (by decide)) (by decide) (by decide)⟩
  · exact ⟨rfl, mkRule_good _ (word_of _ _ _ (by decide) (by decide)) (word_of _ _ _ (by decide) (by decide)) (by decide) (by decide)⟩

theorem ex_rset {q : RRule} : q ∈ rset exMap ↔ q = ([1, 0], some (.pos, [0])) ∨ q = ([2, 1], some (.pos, [2])) := by
  constructor
  · rintro ⟨e, he, rfl⟩
    simp only [exMap, List.mem_cons, List.not_mem_nil, or_false] at he
    rcases he with rfl | rfl
    · left; decide
    · right; decide
  · rintro (rfl | rfl)
    · exact ⟨_, List.mem_cons_self .., by decide⟩
    · exact ⟨_, List.mem_cons_of_mem _ (List.mem_cons_self ..), by decide⟩

theorem split_two {a b : Nat} {x y : List Nat} (h : [a, b] = x ++ y) :
    (x = [] ∧ y = [a, b]) ∨ (x = [a] ∧ y = [b]) ∨ (x = [a, b] ∧ y = []) := by
  match x, h with
  | [], h => exact Or.inl ⟨rfl, h.symm⟩
  | [c], h =>
    simp only [List.cons_append, List.nil_append, List.cons.injEq] at h
    exact Or.inr (Or.inl ⟨by rw [h.1], h.2.symm⟩)
  | c :: d :: x, h =>
    simp only [List.cons_append, List.cons.injEq] at h
    obtain ⟨rfl, rfl, h⟩ := h
    have := List.append_eq_nil_iff.mp h.symm
    rw [this.1, this.2]
    exact Or.inr (Or.inr ⟨rfl, rfl⟩)

theorem ex_simple : SimpleOverlaps (rset exMap) := by
  refine ⟨?_, ?_, ?_⟩
  · intro l hl l' hl' x y z x' y' z' hy hy' h1 h2 h3 h4
    rcases ex_rset.mp hl with rfl | rfl <;> rcases ex_rset.mp hl' with rfl | rfl <;> simp only at h1 h2 h3 h4 <;>
    rcases split_two h1 with ⟨_, rfl⟩ | ⟨_, rfl⟩ | ⟨_, rfl⟩ <;> rcases split_two h3 with ⟨_, rfl⟩ | ⟨_, rfl⟩ | ⟨_, rfl⟩ <;>
    clear h1 h3 <;> simp at hy hy' h2 h4 ⊢
  · intro l hl x y z hx hy h1 h2
    rcases ex_rset.mp hl with rfl | rfl <;> simp only at h1 h2 <;>
    rcases split_two h1 with ⟨rfl, rfl⟩ | ⟨rfl, rfl⟩ | ⟨rfl, rfl⟩ <;> clear h1 <;> simp at hx hy h2
  · intro l hl l' hl' h
    rcases ex_rset.mp hl with rfl | rfl <;> rcases ex_rset.mp hl' with rfl | rfl
    · rfl
    · exact absurd (h.eq_of_length rfl) (by decide)
    · exact absurd (h.eq_of_length rfl) (by decide)
    · rfl

theorem ex_complete : exBook.isComplete p3 false = some true := by
  have h : firstNew p3 exBook (pairs exBook.rules) = some none := by
    rw [firstNew_none]
    have hp : pairs exBook.rules =
        [(mkRule p3 [1, 0] [0] .pos, mkRule p3 [2, 1] [2] .pos), (mkRule p3 [2, 1] [2] .pos, mkRule p3 [1, 0] [0] .pos)] := by decide
    rw [hp]
    simp only [List.forall_mem_cons]
    refine ⟨Or.inl (by decide), Or.inr ?_, by simp⟩
    have hc : Rule.combine p3 (mkRule p3 [2, 1] [2] .pos) (mkRule p3 [1, 0] [0] .pos) =
        some (some { mkRule p3 [2, 0] [2, 0] .pos with trivial := true }) := by decide
    have hr : exBook.reduce p3 ⟨p3.hash [2, 0], [2, 0], .pos⟩ = some ⟨p3.hash [2, 0], [2, 0], .pos⟩ := by
      rw [reduce_of_search 5 (out := (.noMatch, [2, 0], .pos)) (by decide) (by decide) (by decide) (by decide)]; rfl
    refine ⟨_, { mkRule p3 [2, 0] [2, 0] .pos with trivial := true }, hc, ?_, rfl⟩
    unfold Book.reduceRule
    simp only [mkRule, hr, Option.bind_eq_bind, Option.bind_some]
    decide
  unfold Book.isComplete
  rw [h]; rfl

/-- The hypotheses of both theorems hold for this book. -/
example : Small p3 20 ∧ GoodMap p3 20 exBook.rules ∧ (∀ e ∈ exBook.rules, RealSign e.2.rhs.sign) ∧
    (∀ e ∈ exBook.rules, ∀ e' ∈ exBook.rules, e.2.lhs.ops.length + e'.2.lhs.ops.length ≤ 20) ∧ SimpleOverlaps (rset exBook.rules) ∧
    exBook.isComplete p3 false = some true ∧ NoEmpty exBook.rules :=
  ⟨small_p3, ex_good, by decide, by decide, ex_simple, ex_complete, by unfold NoEmpty; decide⟩

theorem ex_unique : UniqueResults (rset exBook.rules) :=
  C18_complete_unique_partial small_p3 (b := exBook) ex_good (by decide) (by decide) ex_simple false ex_complete

/-- It also meets the hypotheses of `C17_same_result_partial`. -/
example (s : Sign) : ∃ a b, viaIteration exMap [2, 1, 0] s = some a ∧ viaSearch p3 exMap [2, 1, 0] s = some b ∧ result a = result b ∧ a.1 = b.1 :=
  C17_same_result_partial small_p3 ex_good (by unfold NoEmpty; decide) ex_unique (word_of _ _ _ (by decide) (by decide)) s

/-! ### What fails -/

/-- The book with the single rule `x x → y` reports being complete (overlaps of a rule with itself are not looked at), yet `x x x` has the two
fully reduced forms `y x` and `x y`. -/
theorem C18_refuted_self_overlap :
    GoodMap p2 20 [(p2.hash [0, 0], mkRule p2 [0, 0] [1] .pos)] ∧
    Book.isComplete p2 ⟨[(p2.hash [0, 0], mkRule p2 [0, 0] [1] .pos)], 1⟩ true = some true ∧
    ¬ UniqueResults (rset [(p2.hash [0, 0], mkRule p2 [0, 0] [1] .pos)]) := by
  set m : RMap := [(p2.hash [0, 0], mkRule p2 [0, 0] [1] .pos)] with hm
  refine ⟨⟨?_, by decide⟩, ?_, fun hu => ?_⟩
  · intro e he
    simp only [hm, List.mem_cons, List.not_mem_nil, or_false] at he
    subst he
    exact ⟨rfl, mkRule_good _ (word_of _ _ _ (by decide) (by decide)) (word_of _ _ _ (by decide) (by decide)) (by decide) (by decide)⟩
  · have r1 : Book.reduce p2 ⟨m, 1⟩ ⟨p2.hash [0, 0], [0, 0], .pos⟩ = some ⟨p2.hash [1], [1], .pos⟩ := by
      rw [reduce_of 5 (out := (.matched, [1], .pos)) (by decide) (by decide) (by decide) (by decide)]; rfl
    have r2 : Book.reduce p2 ⟨m, 1⟩ ⟨p2.hash [1], [1], .pos⟩ = some ⟨p2.hash [1], [1], .pos⟩ := by
      rw [reduce_of 5 (out := (.noMatch, [1], .pos)) (by decide) (by decide) (by decide) (by decide)]; rfl
    have hc : (mkRule p2 [0, 0] [1] .pos).conjugate p2 = some (mkRule p2 [0, 0] [1] .pos) := by decide
    have hr : Book.reduceRule p2 ⟨m, 1⟩ (mkRule p2 [0, 0] [1] .pos) = some { mkRule p2 [1] [1] .pos with trivial := true } := by
      unfold Book.reduceRule
      simp only [mkRule, r1, r2, Option.bind_eq_bind, Option.bind_some]
      decide
    have hp : pairs m = [] := by decide
    have hcc : mockConjugate p2 ⟨m, 1⟩ [(p2.hash [0, 0], mkRule p2 [0, 0] [1] .pos)] = some false := by
      rw [mockConjugate, hc]
      simp only [Option.bind_eq_bind, Option.bind_some, hr]
      rfl
    unfold Book.isComplete
    rw [if_pos rfl]
    show (mockConjugate p2 ⟨m, 1⟩ [(p2.hash [0, 0], mkRule p2 [0, 0] [1] .pos)] >>= _) = _
    rw [hcc]
    show (firstNew p2 ⟨m, 1⟩ (pairs m)).map Option.isNone = _
    rw [hp]
    rfl
  · have hmem : (([0, 0] : List Nat), some (Sign.pos, [1])) ∈ rset m := ⟨_, List.mem_cons_self .., by decide⟩
    have hstuck : ∀ w : List Nat, ¬ [0, 0] <:+: w → Irreducible (rset m) w := by
      rintro w h rule ⟨e, he, rfl⟩
      simp only [hm, List.mem_cons, List.not_mem_nil, or_false] at he
      subst he
      exact h
    have s1 : Step (rset m) (some (.pos, [0, 0, 0])) (some (.pos, [1, 0])) := Step.word (u := []) (v := [0]) hmem
    have s2 : Step (rset m) (some (.pos, [0, 0, 0])) (some (.pos, [0, 1])) := Step.word (u := [0]) (v := []) hmem
    have := hu _ _ _ (.single s1) (.single s2) (normal_some.mpr (hstuck _ (by decide))) (normal_some.mpr (hstuck _ (by decide)))
    exact absurd this (by decide)

/-- Four self-adjoint operators `a b c d`. -/
abbrev p4 : Pre := ⟨4, .selfAdjoint⟩

/-- The book `c a b a → c`, `a b a d → d`. -/
def twoWays : RMap := [(p4.hash [0, 1, 0, 3], mkRule p4 [0, 1, 0, 3] [3] .pos), (p4.hash [2, 0, 1, 0], mkRule p4 [2, 0, 1, 0] [2] .pos)]

/-- Only the longest overlap of two rules is looked at: this book is reported complete, its rules do not overlap with themselves, and
`c a b a b a d` has the two fully reduced forms `c b a d` and `c a b d`. -/
theorem C18_refuted_two_overlaps :
    GoodMap p4 20 twoWays ∧ Book.isComplete p4 ⟨twoWays, 1⟩ false = some true ∧ ¬ UniqueResults (rset twoWays) := by
  have hrs : ∀ q, q ∈ rset twoWays ↔ q = ([0, 1, 0, 3], some (.pos, [3])) ∨ q = ([2, 0, 1, 0], some (.pos, [2])) := by
    intro q
    constructor
    · rintro ⟨e, he, rfl⟩
      simp only [twoWays, List.mem_cons, List.not_mem_nil, or_false] at he
      rcases he with rfl | rfl
      · left; decide
      · right; decide
    · rintro (rfl | rfl)
      · exact ⟨_, List.mem_cons_self .., by decide⟩
      · exact ⟨_, List.mem_cons_of_mem _ (List.mem_cons_self ..), by decide⟩
  refine ⟨⟨?_, by decide⟩, ?_, fun hu => ?_⟩
  · intro e he
    simp only [twoWays, List.mem_cons, List.not_mem_nil, or_false] at he
    rcases he with rfl | rfl
    · exact ⟨rfl, mkRule_good _ (word_of _ _ _ (by decide) (by decide)) (word_of _ _ _ (by decide) (by decide)) (by decide) (by decide)⟩
    · exact ⟨rfl, mkRule_good _ (word_of _ _ _ (by decide) (by decide)) (word_of _ _ _ (by decide) (by decide)) (by decide) (by decide)⟩
  · have h : firstNew p4 ⟨twoWays, 1⟩ (pairs twoWays) = some none := by
      rw [firstNew_none]
      have hp : pairs twoWays =
          [(mkRule p4 [0, 1, 0, 3] [3] .pos, mkRule p4 [2, 0, 1, 0] [2] .pos), (mkRule p4 [2, 0, 1, 0] [2] .pos, mkRule p4 [0, 1, 0, 3] [3] .pos)] := by
        decide
      rw [hp]
      simp only [List.forall_mem_cons]
      refine ⟨Or.inl (by decide), Or.inr ?_, by simp⟩
      have hc : Rule.combine p4 (mkRule p4 [2, 0, 1, 0] [2] .pos) (mkRule p4 [0, 1, 0, 3] [3] .pos) =
          some (some { mkRule p4 [2, 3] [2, 3] .pos with trivial := true }) := by decide
      have hr : Book.reduce p4 ⟨twoWays, 1⟩ ⟨p4.hash [2, 3], [2, 3], .pos⟩ = some ⟨p4.hash [2, 3], [2, 3], .pos⟩ := by
        rw [reduce_of_search 5 (out := (.noMatch, [2, 3], .pos)) (by decide) (by decide) (by decide) (by decide)]; rfl
      refine ⟨_, { mkRule p4 [2, 3] [2, 3] .pos with trivial := true }, hc, ?_, rfl⟩
      unfold Book.reduceRule
      simp only [mkRule, hr, Option.bind_eq_bind, Option.bind_some]
      decide
    unfold Book.isComplete
    rw [h]; rfl
  · have hstuck : ∀ w : List Nat, ¬ [0, 1, 0, 3] <:+: w → ¬ [2, 0, 1, 0] <:+: w → Irreducible (rset twoWays) w := by
      intro w h1 h2 rule hr
      rcases (hrs _).mp hr with rfl | rfl
      · exact h1
      · exact h2
    have s1 : Step (rset twoWays) (some (.pos, [2, 0, 1, 0, 1, 0, 3])) (some (.pos, [2, 1, 0, 3])) :=
      Step.word (u := []) (v := [1, 0, 3]) ((hrs _).mpr (Or.inr rfl))
    have s2 : Step (rset twoWays) (some (.pos, [2, 0, 1, 0, 1, 0, 3])) (some (.pos, [2, 0, 1, 3])) :=
      Step.word (u := [2, 0, 1]) (v := []) ((hrs _).mpr (Or.inl rfl))
    have := hu _ _ _ (.single s1) (.single s2) (normal_some.mpr (hstuck _ (by decide) (by decide)))
      (normal_some.mpr (hstuck _ (by decide) (by decide)))
    exact absurd this (by decide)

end Moment.C18
