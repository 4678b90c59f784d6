import Verif.Props.C16_Rules
import Mathlib.Algebra.Algebra.Pi

/-! # C19 What the rules imply is never changed; C53 built-in commutation rules -/

namespace Moment.C19
open Moment Rules Rewrite C16

universe u

variable {p : Pre} {L : Nat}

/-- An interpretation of the operators satisfies all rules of the map. -/
abbrev Satisfies {A : Type u} [Ring A] [Algebra ℂ A] (ρ : Nat → A) (m : RMap) : Prop := Models ρ (rset m)

/-- An interpretation satisfies one rule. -/
abbrev SatisfiesRule {A : Type u} [Ring A] [Algebra ℂ A] (ρ : Nat → A) (r : Rule) : Prop := Holds ρ (den r)

/-- C19. Adding a rule always ends; the new book is well formed; its consequences are those of the old book and the rule together; and the
number reported is the growth of the book. -/
theorem C19_add_rule (hs : Small p L) {m : RMap} (hm : GoodMap p L m) {r : Rule} (hr : GoodRule p L r) :
    ∃ m' n, addRule m r = some (m', n) ∧ GoodMap p L m' ∧ (m'.length : Int) = m.length + n ∧ 0 ≤ n ∧
      ∀ (A : Type u) [Ring A] [Algebra ℂ A] (ρ : Nat → A), Satisfies ρ m' ↔ Satisfies ρ m ∧ SatisfiesRule ρ r := by
  obtain ⟨m', n, h1, h2⟩ := addRule_spec.{u} hs r hr m hm
  refine ⟨m', n, h1, h2.good, h2.count, h2.nonneg, fun A _ _ ρ => ?_⟩
  unfold Satisfies SatisfiesRule
  rw [← mapHolds_iff ρ hs h2.good, ← mapHolds_iff ρ hs hm, ← holds_iff ρ hs hr]
  exact h2.sem A ρ

/-- C19. Adding several rules. -/
theorem C19_add_rules (hs : Small p L) {b : Book} (hb : GoodMap p L b.rules) {rs : List Rule} (hr : ∀ r ∈ rs, GoodRule p L r) :
    ∃ b' n, b.addRules rs = some (b', n) ∧ GoodMap p L b'.rules ∧ (b'.rules.length : Int) = b.rules.length + n ∧
      ∀ (A : Type u) [Ring A] [Algebra ℂ A] (ρ : Nat → A), Satisfies ρ b'.rules ↔ Satisfies ρ b.rules ∧ ∀ r ∈ rs, SatisfiesRule ρ r := by
  obtain ⟨m', k, h1, h2, h3, h4, _⟩ := addRulesLoop_spec.{u} hs rs hr b.rules 0 hb
  have key : ∀ b'' : Book, b''.rules = m' → GoodMap p L b''.rules ∧ (b''.rules.length : Int) = b.rules.length + k ∧
      ∀ (A : Type u) [Ring A] [Algebra ℂ A] (ρ : Nat → A), Satisfies ρ b''.rules ↔ Satisfies ρ b.rules ∧ ∀ r ∈ rs, SatisfiesRule ρ r := by
    intro b'' e
    rw [e]
    refine ⟨h2, h3, fun A _ _ ρ => ?_⟩
    unfold Satisfies SatisfiesRule
    rw [← mapHolds_iff ρ hs h2, ← mapHolds_iff ρ hs hb, h4 A ρ]
    refine and_congr_right fun _ => forall₂_congr fun r hrs => holds_iff ρ hs (hr r hrs)
  unfold Book.addRules
  rw [h1]
  refine ⟨_, 0 + k, rfl, ?_⟩
  have e0 : (0 : Int) + k = k := by ring
  rw [e0]
  refine key _ ?_
  split <;> rfl

/-- C19. Building a book from rules: it is well formed and satisfied exactly where all rules are. -/
theorem C19_new (hs : Small p L) {rs : List Rule} (hr : ∀ r ∈ rs, GoodRule p L r) :
    ∃ b, Book.new rs = some b ∧ GoodMap p L b.rules ∧
      ∀ (A : Type u) [Ring A] [Algebra ℂ A] (ρ : Nat → A), Satisfies ρ b.rules ↔ ∀ r ∈ rs, SatisfiesRule ρ r := by
  obtain ⟨b, n, h1, h2, _, h4⟩ := C19_add_rules.{u} hs (b := ⟨[], 0⟩) ⟨by simp, List.Pairwise.nil⟩ hr
  refine ⟨b.remag, by unfold Book.new; rw [h1]; rfl, h2, fun A _ _ ρ => (h4 A ρ).trans ?_⟩
  refine ⟨fun h => h.2, fun h => ⟨?_, h⟩⟩
  rintro rule ⟨e, he, _⟩
  simp at he

/-- C19. A rule derived from an overlap is a consequence of the two rules. -/
theorem C19_combine (hs : Small p L) {r r' : Rule} (hr : GoodRule p L r) (hr' : GoodRule p L r')
    (hlen : r.lhs.ops.length + r'.lhs.ops.length ≤ L) :
    ∃ o, Rule.combine p r r' = some o ∧ ∀ c, o = some c →
      ∀ (A : Type u) [Ring A] [Algebra ℂ A] (ρ : Nat → A), SatisfiesRule ρ r → SatisfiesRule ρ r' → eval ρ (term c.lhs) = eval ρ (term c.rhs) := by
  rcases combine_total hs hr hr' hlen with h | ⟨x, y, z, c, _, e1, e2, h, hc⟩
  · exact ⟨none, h, fun c h => by cases h⟩
  · refine ⟨some c, h, fun c' e A _ _ ρ h1 h2 => ?_⟩
    cases e
    exact combined_sem hs hr hr' e1 e2 hc ρ ((holds_iff ρ hs hr).mpr h1) ((holds_iff ρ hs hr').mpr h2)

/-- C19. Reducing the rules of a book by each other, for real phases when no right side is a signed identity. -/
theorem C19_reduce_ruleset_partial (hs : Small p L) {b : Book} (hb : GoodMap p L b.rules) (hreal : ∀ e ∈ b.rules, RealSign e.2.rhs.sign)
    (hid : ∀ e ∈ b.rules, e.2.rhs.ops = [] → e.2.rhs.hash ≠ 0 → e.2.rhs.sign = .pos) :
    ∃ b', b.reduceRuleset p = some b' ∧ GoodMap p L b'.rules ∧
      ∀ (A : Type u) [Ring A] [Algebra ℂ A] (ρ : Nat → A), Satisfies ρ b'.rules ↔ Satisfies ρ b.rules := by
  obtain ⟨b', h1, h2, _⟩ := reduceRuleset_spec.{u} hs realClass (fun _ h => h) hb hreal hid
  refine ⟨b', h1, h2.good, fun A _ _ ρ => ?_⟩
  unfold Satisfies
  rw [← mapHolds_iff ρ hs h2.good, ← mapHolds_iff ρ hs hb]
  exact h2.sem A ρ

theorem Small.mono (hs : Small p L) {K : Nat} (h : K ≤ L) : Small p K :=
  ⟨hs.num, lt_of_le_of_lt (Finset.sum_le_sum_of_subset (Finset.range_subset_range.mpr (by omega))) hs.count⟩

theorem completeLoop_kept (hs : Small p L) : ∀ (n K : Nat) (b : Book), K * 2 ^ n ≤ L → GoodMap p K b.rules →
    (∀ e ∈ b.rules, e.2.rhs.sign = .pos) →
    ∃ b' f, completeLoop p n b = some (b', f) ∧ Kept.{u} p L (fun s => s = .pos) b.rules b'.rules
  | 0, K, b, hK, hg, hp => ⟨b, false, rfl, Kept.refl (hg.mono (by simpa using hK)) hp⟩
  | n + 1, K, b, hK, hg, hp => by
    have h2K : 2 * K * 2 ^ n ≤ L := by rw [pow_succ] at hK; nlinarith
    have h2 : 2 * K ≤ L := le_trans (Nat.le_mul_of_pos_right _ (Nat.two_pow_pos n)) h2K
    obtain ⟨b1, f, h1, k1⟩ := tryNewCombination_spec.{u} (Small.mono hs h2) (le_refl (2 * K)) hg hp
    rw [completeLoop]
    simp only [h1, Option.bind_eq_bind, Option.bind_some]
    have k1' : Kept.{u} p L (fun s => s = .pos) b.rules b1.rules := ⟨k1.good.mono h2, k1.signs, k1.sem⟩
    cases f with
    | false => exact ⟨b1.remag, true, rfl, k1'⟩
    | true =>
      obtain ⟨b2, f2, h2, k2⟩ := completeLoop_kept hs n (2 * K) b1 h2K k1.good k1.signs
      exact ⟨b2, f2, by simpa using h2, k1'.trans k2⟩

/-- C19. Completion of a book whose phases are all `+`: whatever it returns, in every `*`-algebra in which conjugate operators are interpreted by
adjoint elements, the new rules hold exactly where the old ones did. (`n` rounds at most double the length of left sides `n` times, so hashes
are exact if words of length `K · 2 ^ n` have hashes that fit.) Missing: other phases (see the refutations), return for certain. -/
theorem C19_complete_partial (hs : Small p L) {K n : Nat} {b b' : Book} {f : Bool} (hK : K * 2 ^ n ≤ L) (hb : GoodMap p K b.rules)
    (hpos : ∀ e ∈ b.rules, e.2.rhs.sign = .pos) (h : b.complete p n = some (b', f)) :
    GoodMap p L b'.rules ∧ ∀ (A : Type u) [Ring A] [StarRing A] [Algebra ℂ A] [StarModule ℂ A] (ρ : Nat → A),
      (∀ o < p.num, ρ (p.adj o) = star (ρ o)) → (Satisfies ρ b'.rules ↔ Satisfies ρ b.rules) := by
  have hKL : K ≤ L := le_trans (Nat.le_mul_of_pos_right _ (Nat.two_pow_pos n)) hK
  have hbL := hb.mono hKL
  have goal : KeptStar.{u} p L b.rules b'.rules → GoodMap p L b'.rules ∧
      ∀ (A : Type u) [Ring A] [StarRing A] [Algebra ℂ A] [StarModule ℂ A] (ρ : Nat → A),
        (∀ o < p.num, ρ (p.adj o) = star (ρ o)) → (Satisfies ρ b'.rules ↔ Satisfies ρ b.rules) := by
    intro k
    refine ⟨k.good, fun A _ _ _ _ ρ hρ => ?_⟩
    unfold Satisfies
    rw [← mapHolds_iff ρ hs k.good, ← mapHolds_iff ρ hs hbL]
    exact k.sem A ρ hρ
  apply goal
  unfold Book.complete at h
  split at h
  · rename_i hn
    rcases hc : mockConjugate p b b.rules with _ | cc
    · rw [hc] at h; simp at h
    · rw [hc] at h
      simp only [Option.bind_eq_bind, Option.bind_some] at h
      have hr : b'.rules = b.rules := by
        split at h
        · cases h; rfl
        · rw [Option.map_eq_some_iff] at h
          obtain ⟨a, _, e⟩ := h
          cases e; rfl
      rw [hr]; exact KeptStar.refl hbL hpos
  · rcases hc : b.conjugateRuleset p with _ | ⟨b1, added⟩
    · rw [hc] at h; simp at h
    · rw [hc] at h
      simp only [Option.bind_eq_bind, Option.bind_some] at h
      have k1 : KeptStar.{u} p K b.rules b1.rules := conjugateLoop_spec (Small.mono hs hKL) b _ _ (b1, added) hc hb hpos
      obtain ⟨b2, f2, h2, k2⟩ := completeLoop_kept.{u} hs (n - added) K b1
        (le_trans (Nat.mul_le_mul_left _ (Nat.pow_le_pow_right (by omega) (by omega))) hK) k1.good k1.signs
      rw [h2] at h
      simp only [Option.bind_some] at h
      have hr : b'.rules = b2.rules := by
        split at h
        · cases h; rfl
        · rw [Option.map_eq_some_iff] at h
          obtain ⟨a, _, e⟩ := h
          cases e; rfl
      rw [hr]
      exact KeptStar.trans ⟨k1.good.mono hKL, k1.signs, k1.sem⟩ k2.star

/-! ### Examples -/

/-- The hypotheses of `C19_add_rule` with a real merge: the book has `y y → x`, and `y y → 1` is added (giving `x → 1` as well). -/
example : Small p2 20 ∧ GoodMap p2 20 [(p2.hash [1, 1], mkRule p2 [1, 1] [0] .pos)] ∧ GoodRule p2 20 (mkRule p2 [1, 1] [] .pos) ∧
    (addRule [(p2.hash [1, 1], mkRule p2 [1, 1] [0] .pos)] (mkRule p2 [1, 1] [] .pos)).map (fun x => (x.1.map (·.1), x.2)) =
      some ([p2.hash [0], p2.hash [1, 1]], 1) := by
  refine ⟨small_p2, ⟨?_, by decide⟩, ?_, ?_⟩
  · intro e he
    simp only [List.mem_cons, List.not_mem_nil, or_false] at he
    subst he
    exact ⟨rfl, mkRule_good _ (word_of _ _ _ (by decide) (by decide)) (word_of _ _ _ (by decide) (by decide)) (by decide) (by decide)⟩
  · exact mkRule_good _ (word_of _ _ _ (by decide) (by decide)) (word_of _ _ _ (by decide) (by decide)) (by decide) (by decide)
  · have h1 : Rule.make (mkRule p2 [1, 1] [0] .pos).rhs (mkRule p2 [1, 1] [] .pos).rhs = some (mkRule p2 [0] [] .pos) := by decide
    have h2 : addRule (insert (p2.hash [1, 1]) (mkRule p2 [1, 1] [] .pos) (erase (p2.hash [1, 1]) [(p2.hash [1, 1], mkRule p2 [1, 1] [0] .pos)]))
        (mkRule p2 [0] [] .pos) = some ([(p2.hash [0], mkRule p2 [0] [] .pos), (p2.hash [1, 1], mkRule p2 [1, 1] [] .pos)], 1) := by
      rw [addRule]; decide
    rw [addRule]
    have h3 : find (mkRule p2 [1, 1] [] .pos).lhs.hash [(p2.hash [1, 1], mkRule p2 [1, 1] [0] .pos)] = some (mkRule p2 [1, 1] [0] .pos) := by decide
    simp only [h3]
    rw [if_neg (by decide), if_neg (by decide), if_neg (by decide), h1]
    show (addRule (insert (p2.hash [1, 1]) (mkRule p2 [1, 1] [] .pos) (erase (p2.hash [1, 1]) _)) _).map _ = _
    rw [h2]; decide

/-- The hypotheses of `C19_combine` and `C19_complete_partial` for the book of C18 and two rounds. -/
example : Small C18.p3 20 ∧ GoodMap C18.p3 5 C18.exBook.rules ∧ 5 * 2 ^ 2 ≤ 20 ∧ (∀ e ∈ C18.exBook.rules, e.2.rhs.sign = .pos) :=
  ⟨C18.small_p3, C18.ex_good.shrink C18.small_p3 (by decide), by decide, by decide⟩

/-! ### What fails -/

/-- `reduce_ruleset` turns the rule `x x → -1` into `x x → 1`. The old rule holds for `x = i`, the new one does not. -/
theorem C19_refuted_signed_identity :
    GoodMap p2 20 [(p2.hash [0, 0], mkRule p2 [0, 0] [] .neg)] ∧
    Book.reduceRuleset p2 ⟨[(p2.hash [0, 0], mkRule p2 [0, 0] [] .neg)], 1⟩ = some ⟨[(p2.hash [0, 0], mkRule p2 [0, 0] [] .pos)], 1⟩ ∧
    Satisfies (A := ℂ) (fun _ => Complex.I) [(p2.hash [0, 0], mkRule p2 [0, 0] [] .neg)] ∧
    ¬ Satisfies (A := ℂ) (fun _ => Complex.I) [(p2.hash [0, 0], mkRule p2 [0, 0] [] .pos)] := by
  refine ⟨⟨?_, by decide⟩, ?_, ?_, fun h => ?_⟩
  · intro e he
    simp only [List.mem_cons, List.not_mem_nil, or_false] at he
    subst he
    exact ⟨rfl, mkRule_good _ (word_of _ _ _ (by decide) (by decide)) IsWord.nil (by decide) (by decide)⟩
  · unfold Book.reduceRuleset
    have h1 : firstKey [(p2.hash [0, 0], mkRule p2 [0, 0] [] .neg)] = some (p2.hash [0, 0]) := rfl
    have h2 : find (p2.hash [0, 0]) [(p2.hash [0, 0], mkRule p2 [0, 0] [] .neg)] = some (mkRule p2 [0, 0] [] .neg) := by decide
    have h3 : erase (p2.hash [0, 0]) [(p2.hash [0, 0], mkRule p2 [0, 0] [] .neg)] = [] := by decide
    have h4 : Book.reduceRule p2 ⟨[], 1⟩ (mkRule p2 [0, 0] [] .neg) = some (mkRule p2 [0, 0] [] .pos) := by
      have r1 : Book.reduce p2 ⟨[], 1⟩ (mkRule p2 [0, 0] [] .neg).lhs = some (mkRule p2 [0, 0] [] .neg).lhs := rfl
      have r2 : Book.reduce p2 ⟨[], 1⟩ (mkRule p2 [0, 0] [] .neg).rhs = some (HSeq.identity .pos) := rfl
      unfold Book.reduceRule
      simp only [r1, r2, Option.bind_eq_bind, Option.bind_some]
      decide
    rw [h1, reduceRulesetLoop.eq_def]
    simp only [h2, h3, h4, Option.bind_eq_bind, Option.bind_some]
    rw [if_neg (by decide), reduceRulesetLoop.eq_def]
    rfl
  · rintro rule ⟨e, he, rfl⟩
    simp only [List.mem_cons, List.not_mem_nil, or_false] at he
    subst he
    have : den (mkRule p2 [0, 0] [] .neg) = ([0, 0], some (.neg, [])) := by decide
    rw [this]
    simp [Holds, evalWord, eval, phase]
  · have h1 := h _ (mem_rset (List.mem_cons_self ..))
    have : den (mkRule p2 [0, 0] [] .pos) = ([0, 0], some (.pos, [])) := by decide
    rw [this] at h1
    simp [Holds, evalWord, eval, phase] at h1
    norm_num at h1

/-- The rule `x → i x` (which says `x = 0`) counts as trivial and is dropped without notice. -/
theorem C19_refuted_imaginary :
    ∃ r, Rule.make ⟨p2.hash [0], [0], .pos⟩ ⟨p2.hash [0], [0], .imag⟩ = some r ∧ addRule [] r = some ([], 0) ∧
      ¬ SatisfiesRule (A := ℂ) (fun _ => 1) r := by
  refine ⟨⟨⟨p2.hash [0], [0], .pos⟩, ⟨p2.hash [0], [0], .imag⟩, true, false, 0⟩, by decide, by rw [addRule]; rfl, fun h => ?_⟩
  have : den ⟨⟨p2.hash [0], [0], .pos⟩, ⟨p2.hash [0], [0], .imag⟩, true, false, 0⟩ = ([0], some (.imag, [0])) := by decide
  unfold SatisfiesRule at h
  rw [this] at h
  simp [Holds, evalWord, eval, phase] at h
  have := congrArg Complex.re h
  simp at this

end Moment.C19

namespace Moment.C53
open Moment Rules Rewrite

universe u

variable {p : Pre}

/-! ## C53 Built-in rules: commutators and normality -/

theorem mapM_make {ι : Type} (f g : ι → List Nat) : ∀ l : List ι,
    (∀ i ∈ l, IsWord p 2 (f i) ∧ IsWord p 2 (g i) ∧ p.hash (g i) < p.hash (f i)) →
    ∃ rs, l.mapM (fun i => Rule.make ⟨p.hash (f i), f i, .pos⟩ ⟨p.hash (g i), g i, .pos⟩) = some rs ∧
      (∀ r ∈ rs, GoodRule p 2 r) ∧ rs.length = l.length ∧
      ∀ (A : Type u) [Ring A] [Algebra ℂ A] (ρ : Nat → A), Small p 2 →
        ((∀ r ∈ rs, Holds ρ (den r)) ↔ ∀ i ∈ l, evalWord ρ (f i) = evalWord ρ (g i))
  | [], _ => ⟨[], rfl, by simp, rfl, by simp⟩
  | i :: l, h => by
    obtain ⟨rs, h1, h2, h3, h4⟩ := mapM_make f g l fun j hj => h j (List.mem_cons_of_mem _ hj)
    obtain ⟨hf, hg, hlt⟩ := h i (by simp)
    obtain ⟨r, e, hr, el, er⟩ := goodRule_make (x := ⟨p.hash (f i), f i, .pos⟩) (y := ⟨p.hash (g i), g i, .pos⟩)
      (GoodSeq.mk _ hf _) (GoodSeq.mk _ hg _) hlt
    refine ⟨r :: rs, ?_, ?_, by simp [h3], ?_⟩
    · rw [List.mapM_cons, e, h1]; rfl
    · intro x hx
      rcases List.mem_cons.mp hx with rfl | hx
      · exact hr
      · exact h2 x hx
    · intro A _ _ ρ hs
      simp only [List.forall_mem_cons, h4 A ρ hs]
      refine and_congr_left fun _ => ?_
      unfold Holds den
      rw [el, er]
      have hd : Sign.pos.difference Sign.pos = .pos := rfl
      simp only [term, hash_ne_zero hs hg, if_false, eval, hd, phase, one_smul]

theorem hash_swap (hs : Small p 2) {a b : Nat} (hb : b < p.num) (hab : a < b) :
    IsWord p 2 [b, a] ∧ IsWord p 2 [a, b] ∧ p.hash [a, b] < p.hash [b, a] := by
  have h1 : IsWord p 2 [b, a] := ⟨by intro o ho; simp at ho; rcases ho with rfl | rfl <;> omega, by simp⟩
  have h2 : IsWord p 2 [a, b] := ⟨by intro o ho; simp at ho; rcases ho with rfl | rfl <;> omega, by simp⟩
  refine ⟨h1, h2, (hash_lt hs h2 h1).mpr ?_⟩
  rw [List.shortlex_def]
  exact Or.inr ⟨rfl, List.Lex.rel hab⟩

/-- C53. The commutator rules exist (one per pair), are well formed, and hold exactly where all operators commute. -/
theorem C53_commutator_rules (hs : Small p 2) :
    ∃ rs, commutatorRules p = some rs ∧ (∀ r ∈ rs, GoodRule p 2 r) ∧
      ∀ (A : Type u) [Ring A] [Algebra ℂ A] (ρ : Nat → A),
        (∀ r ∈ rs, Holds ρ (den r)) ↔ ∀ a < p.num, ∀ b < p.num, ρ a * ρ b = ρ b * ρ a := by
  have hmem : ∀ q : Nat × Nat, q ∈ (List.range p.num).reverse.flatMap (fun b => (List.range b).reverse.map fun a => (b, a)) ↔
      q.1 < p.num ∧ q.2 < q.1 := by
    rintro ⟨x, y⟩
    simp only [List.mem_flatMap, List.mem_reverse, List.mem_range, List.mem_map, Prod.mk.injEq]
    constructor
    · rintro ⟨b, hb, a, ha, rfl, rfl⟩; exact ⟨hb, ha⟩
    · rintro ⟨h1, h2⟩; exact ⟨x, h1, y, h2, rfl, rfl⟩
  obtain ⟨rs, h1, h2, _, h4⟩ := mapM_make.{u} (p := p) (fun q : Nat × Nat => [q.1, q.2]) (fun q => [q.2, q.1])
    ((List.range p.num).reverse.flatMap fun b => (List.range b).reverse.map fun a => (b, a))
    (fun q hq => hash_swap hs ((hmem q).mp hq).1 ((hmem q).mp hq).2)
  refine ⟨rs, h1, h2, fun A _ _ ρ => (h4 A ρ hs).trans ?_⟩
  simp only [evalWord, List.map_cons, List.map_nil, List.prod_cons, List.prod_nil, mul_one]
  constructor
  · intro h a ha b hb
    rcases Nat.lt_trichotomy a b with hab | rfl | hab
    · exact (h (b, a) ((hmem _).mpr ⟨hb, hab⟩)).symm
    · rfl
    · exact h (a, b) ((hmem _).mpr ⟨ha, hab⟩)
  · rintro h ⟨x, y⟩ hq
    have := (hmem _).mp hq
    simp only at this
    exact h x this.1 y (by omega)

/-- C53. The normality rules exist, are well formed, and hold exactly where every operator commutes with its adjoint. -/
theorem C53_normal_rules (hs : Small p 2) :
    ∃ rs, normalRules p = some rs ∧ (∀ r ∈ rs, GoodRule p 2 r) ∧
      ∀ (A : Type u) [Ring A] [Algebra ℂ A] (ρ : Nat → A),
        (∀ r ∈ rs, Holds ρ (den r)) ↔ ∀ a < p.num, ρ a * ρ (p.adj a) = ρ (p.adj a) * ρ a := by
  obtain ⟨raw, mode⟩ := p
  cases mode with
  | selfAdjoint => exact ⟨[], rfl, by simp, fun A _ _ ρ => by simp [Pre.adj]⟩
  | bunched =>
    have hn : Pre.num ⟨raw, .bunched⟩ = 2 * raw := rfl
    obtain ⟨rs, h1, h2, _, h4⟩ := mapM_make.{u} (p := ⟨raw, .bunched⟩) (fun a => [a + raw, a]) (fun a => [a, a + raw])
      (List.range raw) (fun a ha => hash_swap hs (by rw [hn]; have := List.mem_range.mp ha; omega)
        (by have := List.mem_range.mp ha; omega))
    refine ⟨rs, h1, h2, fun A _ _ ρ => (h4 A ρ hs).trans ?_⟩
    simp only [evalWord, List.map_cons, List.map_nil, List.prod_cons, List.prod_nil, mul_one, List.mem_range]
    have hadj : ∀ a, Pre.adj ⟨raw, .bunched⟩ a = (a + raw) % (2 * raw) := fun _ => rfl
    simp only [hadj, hn]
    constructor
    · intro h a ha
      rcases Nat.lt_or_ge a raw with h1 | h1
      · rw [Nat.mod_eq_of_lt (by omega)]; exact (h a h1).symm
      · have e : (a + raw) % (2 * raw) = a - raw := by
          rw [show a + raw = (a - raw) + 2 * raw by omega, Nat.add_mod_right, Nat.mod_eq_of_lt (by omega)]
        rw [e]
        have := h (a - raw) (by omega)
        rwa [Nat.sub_add_cancel h1] at this
    · intro h a ha
      have := h a (by omega)
      rw [Nat.mod_eq_of_lt (by omega)] at this
      exact this.symm
  | interleaved =>
    have hn : Pre.num ⟨raw, .interleaved⟩ = 2 * raw := rfl
    obtain ⟨rs, h1, h2, _, h4⟩ := mapM_make.{u} (p := ⟨raw, .interleaved⟩) (fun i => [2 * i + 1, 2 * i]) (fun i => [2 * i, 2 * i + 1])
      (List.range raw) (fun a ha => hash_swap hs (by rw [hn]; have := List.mem_range.mp ha; omega) (by omega))
    refine ⟨rs, h1, h2, fun A _ _ ρ => (h4 A ρ hs).trans ?_⟩
    simp only [evalWord, List.map_cons, List.map_nil, List.prod_cons, List.prod_nil, mul_one, List.mem_range]
    have hadj : ∀ a, Pre.adj ⟨raw, .interleaved⟩ a = a ^^^ 1 := fun _ => rfl
    simp only [hadj, hn]
    constructor
    · intro h a ha
      have hx := xor_one_div a
      rcases Nat.even_or_odd' a with ⟨k, rfl | rfl⟩
      · rw [show (2 * k) ^^^ 1 = 2 * k + 1 by omega]; exact (h k (by omega)).symm
      · rw [show (2 * k + 1) ^^^ 1 = 2 * k by omega]; exact h k (by omega)
    · intro h i hi
      have hx := xor_one_div (2 * i)
      have := h (2 * i) (by omega)
      rw [show (2 * i) ^^^ 1 = 2 * i + 1 by omega] at this
      exact this.symm

/-- Non-trivial instances: three operators; two operators with adjoints. -/
example : Small ⟨3, .selfAdjoint⟩ 2 ∧ Small ⟨2, .bunched⟩ 2 ∧ Small ⟨2, .interleaved⟩ 2 :=
  ⟨⟨by decide, by decide⟩, ⟨by decide, by decide⟩, ⟨by decide, by decide⟩⟩

example : (commutatorRules ⟨3, .selfAdjoint⟩).map (fun rs => rs.map fun r => (r.lhs.ops, r.rhs.ops)) =
    some [([2, 1], [1, 2]), ([2, 0], [0, 2]), ([1, 0], [0, 1])] := by decide

end Moment.C53
