import Verif.Proof.InflationLists
import Mathlib.Algebra.GroupWithZero.Pi
import Mathlib.Tactic.FinCases

/-! # Inflation scenarios: C12 simplification, C13 factorisation, C14 canonical moments, C15 factor lists, C49 numbering, C51 word lists,
C52 independence maps -/

namespace Moment.C12
open Moment Moment.Inflation

/-- `c` is the inflation context of the network `n` at some level. -/
def ContextOf (n : Causal) (c : Ctx) : Prop := create n.outcomes n.sources = some c.net

/-- The word `w` of operator numbers names the word `u` of operators of the inflation: the numbers are those of `operator_number`. -/
def Names (n : Causal) (c : Ctx) (u : List Op) (w : List Nat) : Prop :=
  List.Forall₂ (fun a m => Exists n c.infl a ∧ operatorNumber c a.obs (flattenIndex c.infl a.copy) a.out = m) u w

variable {n : Causal} {c : Ctx}

theorem names_iff {u : List Op} {w : List Nat} : Names n c u w ↔ (∀ a ∈ u, Exists n c.infl a) ∧ w = u.map (enc c) := by
  unfold Names
  induction u generalizing w with
  | nil => simp
  | cons a u ih =>
    rw [List.forall₂_cons_left_iff]
    constructor
    · rintro ⟨m, w, ⟨h1, rfl⟩, h2, rfl⟩
      obtain ⟨h3, rfl⟩ := ih.mp h2
      exact ⟨by simpa using ⟨h1, h3⟩, rfl⟩
    · rintro ⟨h1, rfl⟩
      exact ⟨enc c a, _, ⟨h1 a (by simp), rfl⟩, ih.mpr ⟨fun b hb => h1 b (by simp [hb]), rfl⟩, rfl⟩

/-- Every network whose sources feed existing observables has a context at every level. -/
theorem C12_context (n : Causal) (h : n.WellFormed) (level : Nat) : ∃ c, ContextOf n c ∧ c.infl = level := by
  obtain ⟨net, hn⟩ := create_of_wellFormed h
  exact ⟨⟨net, level⟩, hn, rfl⟩

/-! ## C12 -/

/-- C12. Two words simplify to the same result exactly when the relations make them equal. -/
theorem C12_decides (hc : ContextOf n c) {u v : List Op} {w x : List Nat} (hu : Names n c u w) (hv : Names n c v x) :
    simplify c w = simplify c x ↔ SameOperator n (some u) (some v) := by
  have hb : Built n c := ⟨hc⟩
  obtain ⟨h1, rfl⟩ := names_iff.mp hu
  obtain ⟨h2, rfl⟩ := names_iff.mp hv
  rw [simplify_enc hb h1, simplify_enc hb h2, ← nf_iff hb h1 h2]
  constructor
  · intro h
    cases hn : nf n c u with
    | none => cases hm : nf n c v with
      | none => rfl
      | some b => rw [hn, hm] at h; simp at h
    | some a => cases hm : nf n c v with
      | none => rw [hn, hm] at h; simp at h
      | some b =>
        rw [hn, hm] at h
        rw [map_enc_inj hb (fun o ho => h1 o (nf_mem hn o ho)) (fun o ho => h2 o (nf_mem hm o ho)) (Outcome.word.inj h)]
  · intro h; rw [h]

/-- C12. A word simplifies to zero exactly when the relations force it to be zero. -/
theorem C12_zero (hc : ContextOf n c) {u : List Op} {w : List Nat} (hu : Names n c u w) :
    simplify c w = .zero ↔ SameOperator n (some u) none := by
  have hb : Built n c := ⟨hc⟩
  obtain ⟨h1, rfl⟩ := names_iff.mp hu
  rw [simplify_enc hb h1, ← nf_zero_iff hb h1]
  cases nf n c u <;> simp

/-- C12. The result is zero or names a word equal to the argument, and the result is a fixed point. -/
theorem C12_sound (hc : ContextOf n c) {u : List Op} {w : List Nat} (hu : Names n c u w) :
    simplify c w = .zero ∨ ∃ v x, simplify c w = .word x ∧ Names n c v x ∧ SameOperator n (some u) (some v) ∧ simplify c x = .word x := by
  have hb : Built n c := ⟨hc⟩
  obtain ⟨h1, rfl⟩ := names_iff.mp hu
  rw [simplify_enc hb h1]
  cases hn : nf n c u with
  | none => exact Or.inl rfl
  | some a =>
    have ha : ∀ o ∈ a, Exists n c.infl o := fun o ho => h1 o (nf_mem hn o ho)
    exact Or.inr ⟨a, a.map (enc c), rfl, names_iff.mpr ⟨ha, rfl⟩, hn ▸ nf_sound u, by rw [simplify_enc hb ha, nf_idem hb h1 hn]⟩

/-- C12. `get_if_canonical` accepts exactly the words that simplification leaves as they are. -/
theorem C12_canonical_test (hc : ContextOf n c) {w : List Nat} (hw : ∀ m ∈ w, m < operatorCount c) :
    isCanonical c w = some (decide (simplify c w = .word w)) := isCanonical_iff ⟨hc⟩ hw

/-- C12. In every monoid with zero in which the operators satisfy the relations, equal words have equal products. -/
theorem C12_value {M : Type} [MonoidWithZero M] (f : Op → M) (hf : Represents n f) {u : List Op} {y : Option (List Op)}
    (h : SameOperator n (some u) y) : (u.map f).prod = (y.map fun v => (v.map f).prod).getD 0 := by
  have key : ∀ x y, SameOperator n x y → (x.map fun v => (v.map f).prod).getD 0 = (y.map fun v => (v.map f).prod).getD 0 := by
    intro x y h
    induction h with
    | refl => rfl
    | symm _ ih => exact ih.symm
    | trans _ _ ih1 ih2 => exact ih1.trans ih2
    | commute u v a b =>
      simp only [Option.map_some, Option.getD_some, List.map_append, List.map_cons, List.prod_append, List.prod_cons]
      rw [← mul_assoc (f a), ← mul_assoc (f b), hf.commute a b]
    | project u v a hp =>
      simp only [Option.map_some, Option.getD_some, List.map_append, List.map_cons, List.prod_append, List.prod_cons]
      rw [← mul_assoc (f a), hf.project a hp]
    | exclude u v a b h1 =>
      simp only [Option.map_some, Option.getD_some, List.map_append, List.map_cons, List.prod_append, List.prod_cons, Option.map_none,
        Option.getD_none]
      rw [← mul_assoc (f a), hf.exclude a b h1, zero_mul, mul_zero]
  simpa using key _ _ h

/-! ## C13 -/

theorem nf_of_simplify (hb : Built n c) {u : List Op} (hu : ∀ a ∈ u, Exists n c.infl a)
    (h : simplify c (u.map (enc c)) = .word (u.map (enc c))) : nf n c u = some u := by
  rw [simplify_enc hb hu] at h
  cases hn : nf n c u with
  | none => rw [hn] at h; simp at h
  | some v =>
    rw [hn] at h
    rw [map_enc_inj hb (fun a ha => hu a (nf_mem hn a ha)) hu (Outcome.word.inj h)]

/-- C13. The factors of a simplified word have the operators of the word with multiplicity, are themselves simplified, do not share a source
with each other, and cannot be split further without sharing a source. -/
theorem C13_factorize (hc : ContextOf n c) {u : List Op} {w : List Nat} (hu : Names n c u w) (hw : simplify c w = .word w) :
    ∃ (gs : List (List Op)) (xs : List (List Nat)), factorize c w = xs.map .word ∧ List.Forall₂ (Names n c) gs xs ∧
      gs.flatten.Perm u ∧ (∀ x ∈ xs, simplify c x = .word x) ∧ (u ≠ [] → ∀ g ∈ gs, g ≠ []) ∧
      gs.Pairwise (fun g h => ∀ a ∈ g, ∀ b ∈ h, ¬ Linked n a b) ∧
      ∀ g ∈ gs, ∀ p q : List Op, (p ++ q).Perm g → p ≠ [] → q ≠ [] → ∃ a ∈ p, ∃ b ∈ q, Linked n a b := by
  have hb : Built n c := ⟨hc⟩
  obtain ⟨h1, rfl⟩ := names_iff.mp hu
  obtain ⟨gs, e, hp, hpw, hcon, hne, hnf⟩ := factorize_spec hb h1 (nf_of_simplify hb h1 hw)
  have hex : ∀ g ∈ gs, ∀ a ∈ g, Exists n c.infl a := fun g hg a ha => h1 a (hp.mem_iff.mp (List.mem_flatten.mpr ⟨g, hg, ha⟩))
  refine ⟨gs, gs.map (List.map (enc c)), ?_, ?_, hp, ?_, hne, hpw, hcon⟩
  · rw [e, List.map_map]; rfl
  · rw [List.forall₂_map_right_iff, List.forall₂_same]
    exact fun g hg => names_iff.mpr ⟨hex g hg, rfl⟩
  · intro x hx
    obtain ⟨g, hg, rfl⟩ := List.mem_map.mp hx
    rw [simplify_enc hb (hex g hg), hnf g hg]

/-! ## C14 -/

/-- The canonical moment of `w` is `r`: the recursion ends with this result for all large enough bounds on its depth. -/
def Canonical (c : Ctx) (w r : List Nat) : Prop := ∃ fuel, ∀ f, fuel ≤ f → canonicalMoment c f w = some (.word r)

/-- The result is unique. -/
theorem C14_functional {w r r' : List Nat} (h : Canonical c w r) (h' : Canonical c w r') : r = r' := by
  obtain ⟨f, h⟩ := h
  obtain ⟨f', h'⟩ := h'
  have e := h (max f f') (le_max_left _ _)
  rw [h' (max f f') (le_max_right _ _)] at e
  exact (Outcome.word.inj (Option.some.inj e)).symm

/-- C14, everything but orbit invariance. The computation of the canonical moment of a simplified word terminates; the result is a simplified
word that consists of the operators of the argument with the copies of each source permuted; it is its own canonical moment. -/
theorem C14_terminates (hc : ContextOf n c) {u : List Op} {w : List Nat} (hu : Names n c u w) (hw : simplify c w = .word w) :
    ∃ r v σ, Canonical c w r ∧ Names n c v r ∧ Relabelling c.infl σ ∧ v.Perm (u.map (relabel n σ)) ∧ simplify c r = .word r ∧
      Canonical c r r := by
  have hb : Built n c := ⟨hc⟩
  obtain ⟨h1, rfl⟩ := names_iff.mp hu
  have hnf := nf_of_simplify hb h1 hw
  by_cases hal : canHaveAliases c = true
  · obtain ⟨fuel, r, σ, e1, e2, e3, e4, e5, e6, -⟩ := moment_spec hb u h1 hnf
    have hs : simplify c (r.map (enc c)) = .word (r.map (enc c)) := by rw [simplify_enc hb e4, e5]
    refine ⟨r.map (enc c), r, σ, ⟨fuel, fun f hf => by rw [canonicalMoment, if_pos hal]; exact e1 f hf⟩, names_iff.mpr ⟨e4, rfl⟩, e2, e3, hs,
      1, ?_⟩
    intro f hf
    obtain ⟨f, rfl⟩ : ∃ g, f = g + 1 := ⟨f - 1, by omega⟩
    rw [canonicalMoment, if_pos hal, simplifyAsMoment]
    split
    · rfl
    · dsimp only
      rw [if_pos]
      have : (findPermutation c (r.map (enc c))).nonTrivial = false := by
        rw [← Bool.not_eq_true, flag_iff hb e4]; exact not_not.mpr e6
      rw [this]; rfl
  · have hcan : Canonical c (u.map (enc c)) (u.map (enc c)) := ⟨0, fun f _ => by rw [canonicalMoment, if_neg hal]⟩
    refine ⟨_, u, fun _ v => v, hcan, hu, relabelling_id _, ?_, hw, hcan⟩
    have : u.map (relabel n fun _ v => v) = u := by
      conv_rhs => rw [← List.map_id u]
      apply List.map_congr_left
      intro a ha
      rw [relabel_eq_self (h1 a ha) fun _ _ _ => rfl]; rfl
    rw [this]

/-- C14. The quick test says exactly whether the canonical moment differs from the word. -/
theorem C14_quick_test (hc : ContextOf n c) {w r : List Nat} (hr : ∀ m ∈ w, m < operatorCount c) (hw : simplify c w = .word w)
    (h : Canonical c w r) : canBeSimplifiedAsMoment c w = true ↔ r ≠ w := by
  have hb : Built n c := ⟨hc⟩
  obtain ⟨u, h1, rfl⟩ := word_surj hb hr
  by_cases hal : canHaveAliases c = true
  · obtain ⟨fuel, v, σ, e1, -, -, e4, -, e6, e7⟩ := moment_spec hb u h1 (nf_of_simplify hb h1 hw)
    have hrv : r = v.map (enc c) := C14_functional h ⟨fuel, fun f hf => by rw [canonicalMoment, if_pos hal]; exact e1 f hf⟩
    rw [alias_iff hb h1 hal, hrv]
    constructor
    · intro ht he
      rw [map_enc_inj hb e4 h1 he] at e6
      exact ht e6
    · intro hne ht
      apply hne
      have h2 := e1 (fuel + 1) (by omega)
      rw [simplifyAsMoment] at h2
      have hflag : (findPermutation c (u.map (enc c))).nonTrivial = false := by
        rw [← Bool.not_eq_true, flag_iff hb h1]; exact not_not.mpr ht
      split at h2
      · exact (Outcome.word.inj (Option.some.inj h2)).symm
      · dsimp only at h2
        rw [if_pos (by rw [hflag]; rfl)] at h2
        exact (Outcome.word.inj (Option.some.inj h2)).symm
  · have hrv : r = u.map (enc c) := C14_functional h ⟨0, fun f _ => by rw [canonicalMoment, if_neg hal]⟩
    rw [hrv, canBeSimplifiedAsMoment, if_pos (by simp [hal])]
    simp

/-- C14, orbit invariance where it holds: two words that differ by a permutation of the copies of the sources have the same canonical moment if
the permutation keeps the operators in order. Missing: permutations after which the operators have to be sorted (`C14_refuted`). -/
theorem C14_invariant_partial (hc : ContextOf n c) (hal : canHaveAliases c = true) {u : List Op} {σ : Nat → Nat → Nat} {w x r : List Nat}
    (hσ : Relabelling c.infl σ) (hu : Names n c u w) (hx : Names n c (u.map (relabel n σ)) x) (hw : simplify c w = .word w)
    (hsx : simplify c x = .word x) : Canonical c w r ↔ Canonical c x r := by
  have hb : Built n c := ⟨hc⟩
  obtain ⟨h1, rfl⟩ := names_iff.mp hu
  obtain ⟨h2, rfl⟩ := names_iff.mp hx
  have e : ∀ f, simplifyAsMoment c (f + 1) ((u.map (relabel n σ)).map (enc c)) = simplifyAsMoment c (f + 1) (u.map (enc c)) := by
    intro f
    have a1 := moment_of_first hb h1 (nf_of_simplify hb h1 hw) f
    have a2 := moment_of_first hb h2 (nf_of_simplify hb h2 hsx) f
    dsimp only at a1 a2
    rw [first_relabelled h1 (relabelling_injOn hσ h1)] at a2
    rw [a1, a2]
  unfold Canonical canonicalMoment
  simp only [hal, if_true]
  constructor
  · rintro ⟨fuel, h⟩
    refine ⟨fuel + 1, fun f hf => ?_⟩
    obtain ⟨f, rfl⟩ : ∃ g, f = g + 1 := ⟨f - 1, by omega⟩
    rw [e]; exact h _ (by omega)
  · rintro ⟨fuel, h⟩
    refine ⟨fuel + 1, fun f hf => ?_⟩
    obtain ⟨f, rfl⟩ : ∃ g, f = g + 1 := ⟨f - 1, by omega⟩
    rw [← e]; exact h _ (by omega)

/-- One binary observable fed by two sources. -/
def twoSources : Causal := ⟨[2], [[0], [0]]⟩

/-- Its inflation of level 2: the copy fed by copies `x` and `y` of the sources has number `x + 2 * y`. -/
def twoSourcesCtx : Ctx := ⟨⟨[⟨2, [0, 1], false⟩], 2⟩, 2⟩

/-- Swap the copies of the first source. -/
def swapFirst (s v : Nat) : Nat := if s = 0 then (if v = 0 then 1 else if v = 1 then 0 else v) else v

/-- C14 is false as stated: two simplified words that differ by swapping the copies of one source have different canonical moments. -/
theorem C14_refuted : ∃ (n : Causal) (c : Ctx) (u v : List Op) (σ : Nat → Nat → Nat) (w x r r' : List Nat), ContextOf n c ∧
    Relabelling c.infl σ ∧ Names n c u w ∧ Names n c v x ∧ v.Perm (u.map (relabel n σ)) ∧ simplify c w = .word w ∧ simplify c x = .word x ∧
    Canonical c w r ∧ Canonical c x r' ∧ r ≠ r' := by
  refine ⟨twoSources, twoSourcesCtx, [⟨0, [0, 0], 0⟩, ⟨0, [1, 0], 0⟩, ⟨0, [1, 1], 0⟩], [⟨0, [0, 0], 0⟩, ⟨0, [1, 0], 0⟩, ⟨0, [0, 1], 0⟩],
    swapFirst, [0, 1, 3], [0, 1, 2], [0, 1, 3], [0, 1, 2], by unfold ContextOf; decide +kernel, ?_, ?_, ?_, ?_, by decide +kernel,
    by decide +kernel, ⟨1, ?_⟩, ⟨1, ?_⟩, by decide⟩
  · intro s
    have inv : ∀ v, swapFirst s (swapFirst s v) = v := by intro v; unfold swapFirst; split_ifs <;> simp_all
    have lt : ∀ v, v < 2 → swapFirst s v < 2 := by intro v hv; unfold swapFirst; split_ifs <;> omega
    exact ⟨fun v hv => lt v hv, fun v _ v' _ e => by rw [← inv v, e, inv], fun v hv => ⟨swapFirst s v, lt v hv, inv v⟩⟩
  · refine names_iff.mpr ⟨?_, by decide +kernel⟩
    intro a ha
    fin_cases ha <;> exact ⟨2, rfl, by decide +kernel, by decide, by decide⟩
  · refine names_iff.mpr ⟨?_, by decide +kernel⟩
    intro a ha
    fin_cases ha <;> exact ⟨2, rfl, by decide +kernel, by decide, by decide⟩
  · decide +kernel
  · intro f hf
    obtain ⟨f, rfl⟩ : ∃ g, f = g + 1 := ⟨f - 1, by omega⟩
    have h1 : canHaveAliases twoSourcesCtx = true := by decide +kernel
    have h2 : (findPermutation twoSourcesCtx [0, 1, 3]).nonTrivial = false := by decide +kernel
    rw [canonicalMoment, if_pos h1, simplifyAsMoment]
    dsimp only
    rw [h2]; rfl
  · intro f hf
    obtain ⟨f, rfl⟩ : ∃ g, f = g + 1 := ⟨f - 1, by omega⟩
    have h1 : canHaveAliases twoSourcesCtx = true := by decide +kernel
    have h2 : (findPermutation twoSourcesCtx [0, 1, 2]).nonTrivial = false := by decide +kernel
    rw [canonicalMoment, if_pos h1, simplifyAsMoment]
    dsimp only
    rw [h2]; rfl

/-! ## C15 -/

/-- C15, without zeros: the combination of two sorted lists is the sorted list of the factors of both other than one, or the list of just a one
if there is no such factor. Missing: lists with a zero (`C15_refuted_zero`). -/
theorem C15_combine_partial (l r : List Nat) (hl : l.Pairwise (· ≤ ·)) (hr : r.Pairwise (· ≤ ·)) (h0 : 0 ∉ l ++ r) :
    (combineFactors l r).Pairwise (· ≤ ·) ∧
    (if (l ++ r).filter (· != 1) = [] then combineFactors l r = [1] else (combineFactors l r).Perm ((l ++ r).filter (· != 1))) := by
  have hm := merge_sorted hl hr
  have hp : (l.merge r).Perm (l ++ r) := List.merge_perm_append _
  have hz : ∀ x ∈ l.merge r, x ≠ 0 := fun x hx e => h0 (e ▸ hp.mem_iff.mp hx)
  have hf := hp.filter (· != 1)
  by_cases hemp : l = [] ∧ r = []
  · obtain ⟨rfl, rfl⟩ := hemp
    simp [combineFactors]
  · have h1 : (l.isEmpty && r.isEmpty) = false := by
      rw [Bool.and_eq_false_iff]; by_cases hle : l = [] <;> simp_all
    have hhead : (l.merge r).head? ≠ some 0 := fun h => hz 0 (List.mem_of_mem_head? h) rfl
    rw [combineFactors_eq, h1]
    simp only [Bool.false_eq_true, if_false, if_neg hhead]
    by_cases hlen : (l.merge r).length > 1
    · rw [if_pos hlen, dropWhile_filter hm hz]
      by_cases he : (l.merge r).filter (· != 1) = []
      · have he2 : (l ++ r).filter (· != 1) = [] := by rw [he] at hf; exact List.nil_perm.mp hf
        rw [he, he2]; simp
      · have he2 : (l ++ r).filter (· != 1) ≠ [] := by intro h; rw [h] at hf; exact he (List.perm_nil.mp hf)
        rw [if_neg (by simpa using he), if_neg he2]
        exact ⟨hm.filter _, hf⟩
    · rw [if_neg hlen]
      have hne : l.merge r ≠ [] := by
        intro h; rw [h] at hp
        have := List.nil_perm.mp hp
        simp at this; exact hemp this
      obtain ⟨x, hx⟩ : ∃ x, l.merge r = [x] := by
        apply List.length_eq_one_iff.mp
        have := List.length_pos_iff.mpr hne; omega
      rw [hx] at hf ⊢
      refine ⟨by simp, ?_⟩
      by_cases hx1 : x = 1
      · subst hx1
        simp only [bne_self_eq_false, Bool.false_eq_true, not_false_eq_true, List.filter_cons_of_neg, List.filter_nil] at hf
        rw [if_pos (List.nil_perm.mp hf)]
      · rw [List.filter_cons_of_pos (by simpa using hx1), List.filter_nil] at hf
        rw [if_neg fun h => by rw [h] at hf; simp at hf]
        exact hf

/-- C15. The value of the combination is the product of the values, zeros included, in every commutative monoid with zero. -/
theorem C15_value {M : Type} [CommMonoidWithZero M] (f : Nat → M) (f0 : f 0 = 0) (f1 : f 1 = 1) (l r : List Nat)
    (hl : l.Pairwise (· ≤ ·)) (hr : r.Pairwise (· ≤ ·)) : ((combineFactors l r).map f).prod = (l.map f).prod * (r.map f).prod := by
  have hprod : ∀ m : List Nat, ((m.filter (· != 1)).map f).prod = (m.map f).prod := by
    intro m
    induction m with
    | nil => rfl
    | cons a m ih =>
      by_cases ha : a = 1
      · subst ha; simp [ih, f1]
      · rw [List.filter_cons_of_pos (by simpa using ha)]; simp [ih]
  rw [← List.prod_append, ← List.map_append]
  by_cases h0 : 0 ∈ l ++ r
  · have h2 : ((l ++ r).map f).prod = 0 := List.prod_eq_zero (List.mem_map.mpr ⟨0, h0, f0⟩)
    have hm := merge_sorted hl hr
    have hp : (l.merge r).Perm (l ++ r) := List.merge_perm_append _
    have hz : 0 ∈ l.merge r := hp.mem_iff.mpr h0
    have hhead : (l.merge r).head? = some 0 := by
      cases hmr : l.merge r with
      | nil => rw [hmr] at hz; simp at hz
      | cons a m =>
        rw [hmr] at hz hm
        rcases List.mem_cons.mp hz with e | e
        · rw [← e]; rfl
        · have := (List.pairwise_cons.mp hm).1 0 e
          simp only [List.head?_cons, Option.some.injEq]; omega
    have h1 : (l.isEmpty && r.isEmpty) = false := by
      rw [Bool.and_eq_false_iff]
      by_cases hle : l = [] <;> by_cases hre : r = [] <;> simp_all
    rw [combineFactors_eq, h1]
    simp only [Bool.false_eq_true, if_false, if_pos hhead]
    rw [h2]
    exact List.prod_eq_zero (List.mem_map.mpr ⟨0, by simp, f0⟩)
  · have h := (C15_combine_partial l r hl hr h0).2
    rw [← hprod (l ++ r)]
    split at h
    · rename_i he; rw [h, he]; simp [f1]
    · exact (h.map f).prod_eq

/-- C15 is false with zeros: the result is neither sorted nor the list of just a zero. -/
theorem C15_refuted_zero : combineFactors [0] [5] = [0, 5, 0] ∧ combineFactors [0] [] = [0, 0] := by
  decide

/-- C15. Multiplication of symbols returns a symbol whose value is the product of the values, for every table that describes the values and
every index that finds a symbol for a sorted list only if it has the value of the list. Missing: the empty product (`C15_refuted_empty`). -/
theorem C15_multiply_partial {M : Type} [CommMonoidWithZero M] (f : Nat → M) (f0 : f 0 = 0) (f1 : f 1 = 1) (entry : Nat → Factors)
    (find : List Nat → Option Nat) (he : ∀ x, (entry x).fundamental = false → f x = ((entry x).symbols.map f).prod)
    (hf : ∀ l r, l.Pairwise (· ≤ ·) → find l = some r → f r = (l.map f).prod) (m : List Nat) (hm : m ≠ []) (r : Nat)
    (h : tryMultiply entry find m = some r) : f r = (m.map f).prod := by
  have hprod : ∀ m : List Nat, ((m.filter (· != 1)).map f).prod = (m.map f).prod := by
    intro m
    induction m with
    | nil => rfl
    | cons a m ih =>
      by_cases ha : a = 1
      · subst ha; simp [ih, f1]
      · rw [List.filter_cons_of_pos (by simpa using ha)]; simp [ih]
  have hexp : ∀ m : List Nat, ((m.flatMap fun x => if (entry x).fundamental then [x] else (entry x).symbols).map f).prod = (m.map f).prod := by
    intro m
    induction m with
    | nil => rfl
    | cons a m ih =>
      rw [List.flatMap_cons, List.map_append, List.prod_append, ih, List.map_cons, List.prod_cons]
      congr 1
      cases hfa : (entry a).fundamental with
      | true => simp
      | false => simp [he a hfa]
  unfold tryMultiply at h
  split at h
  · exact absurd rfl hm
  · simp only [Option.some.injEq] at h; subst h; simp
  · split at h
    · rename_i hz
      simp only [List.any_eq_true, beq_iff_eq, exists_eq_right] at hz
      simp only [Option.some.injEq] at h
      subst h
      rw [f0, List.prod_eq_zero (List.mem_map.mpr ⟨0, hz, f0⟩)]
    · dsimp only at h
      rw [← hprod]
      split at h
      · rename_i r' hr'
        simp only [Option.some.injEq] at h
        subst h
        split at hr'
        · simp at hr'
        · split at hr'
          · rename_i hnil
            simp only [Option.some.injEq] at hr'
            subst hr'
            rw [hnil]; simp [f1]
          · rename_i x hx
            simp only [Option.some.injEq] at hr'
            subst hr'
            rw [hx]; simp
          · simp at hr'
      · rw [hf _ _ (stableSort_sorted id _) h, ((stableSort_perm id _).map f).prod_eq, hexp]

/-- C15. The same for the product of two symbols. -/
theorem C15_multiply_two {M : Type} [CommMonoidWithZero M] (f : Nat → M) (f0 : f 0 = 0) (f1 : f 1 = 1) (entry : Nat → Factors)
    (find : List Nat → Option Nat) (he : ∀ x, (entry x).fundamental = false → f x = ((entry x).symbols.map f).prod)
    (hf : ∀ l r, l.Pairwise (· ≤ ·) → find l = some r → f r = (l.map f).prod) (a b r : Nat)
    (h : tryMultiply2 entry find a b = some r) : f r = f a * f b := by
  unfold tryMultiply2 at h
  split at h
  · rename_i hz
    simp only [Option.some.injEq] at h
    subst h
    rcases hz with rfl | rfl <;> simp [f0]
  · split at h
    · rename_i ha
      simp only [Option.some.injEq] at h
      subst h; subst ha; simp [f1]
    · split at h
      · rename_i hb
        simp only [Option.some.injEq] at h
        subst h; subst hb; simp [f1]
      · split at h
        · have := C15_multiply_partial f f0 f1 entry find he hf [a, b] (by simp) r h
          simpa using this
        · by_cases hab : a < b
          · rw [if_pos hab, if_pos hab] at h
            rw [hf _ _ (by simp; omega) h]; simp
          · rw [if_neg hab, if_neg hab] at h
            rw [hf _ _ (by simp; omega) h]; simp [mul_comm]

/-- C15 is false for the empty product: it is zero. -/
theorem C15_refuted_empty (entry : Nat → Factors) (find : List Nat → Option Nat) : tryMultiply entry find [] = some 0 := rfl

/-! ## C49 -/

/-- C49. Flattening and unflattening the source indices of a copy are inverse to each other, and the numbers are those below the number of
copies. -/
theorem C49_copies (level : Nat) (l : List Nat) (h : ∀ x ∈ l, x < level) :
    flattenIndex level l < level ^ l.length ∧ unflattenIndex level l.length (flattenIndex level l) = l := by
  rw [flatten_eq]; exact ⟨val_lt h, unflatten_val h⟩

/-- C49, the other direction. -/
theorem C49_copies_inverse (level count i : Nat) (hl : 0 < level) (h : i < level ^ count) :
    (unflattenIndex level count i).length = count ∧ (∀ x ∈ unflattenIndex level count i, x < level) ∧
    flattenIndex level (unflattenIndex level count i) = i := by
  rw [flatten_eq]; exact unflatten_spec hl h

/-- C49. The operators of the inflation and the numbers below the operator count correspond one to one. -/
theorem C49_operators (hc : ContextOf n c) :
    (∀ a, Exists n c.infl a → operatorNumber c a.obs (flattenIndex c.infl a.copy) a.out < operatorCount c) ∧
    (∀ a b, Exists n c.infl a → Exists n c.infl b →
      operatorNumber c a.obs (flattenIndex c.infl a.copy) a.out = operatorNumber c b.obs (flattenIndex c.infl b.copy) b.out → a = b) ∧
    (∀ m, m < operatorCount c → ∃ a, Exists n c.infl a ∧ operatorNumber c a.obs (flattenIndex c.infl a.copy) a.out = m) := by
  have hb : Built n c := ⟨hc⟩
  exact ⟨fun a h => enc_lt hb h, fun a b ha hb' h => enc_inj hb ha hb' h, fun m h => enc_surj hb h⟩

/-- C49. The operator table has at the number of an operator its observable, copy and outcome. -/
theorem C49_table (hc : ContextOf n c) (a : Op) (h : Exists n c.infl a) :
    ∃ i, (operatorInfo c)[operatorNumber c a.obs (flattenIndex c.infl a.copy) a.out]? = some i ∧ i.obs = a.obs ∧
      i.variant = flattenIndex c.infl a.copy ∧ i.out = a.out ∧ (i.projective = true ↔ Projective n a) := by
  have hb : Built n c := ⟨hc⟩
  refine ⟨_, info_enc hb h, rfl, rfl, rfl, ?_⟩
  have := projective_enc hb h
  rw [projectiveOp, info_enc hb h] at this
  exact this

/-- The copies of observables of a joint outcome exist, and the value of each is below its number of outcomes. -/
def JointOutcome (c : Ctx) (l : List (Nat × Nat × Nat)) : Prop :=
  ∀ t ∈ l, ∃ ob, c.net.observables[t.1]? = some ob ∧ t.2.1 < ob.copies c.infl ∧ t.2.2 < ob.outcomes

theorem joint_iff {l : List (Nat × Nat × Nat)} : JointOutcome c l ↔ ∀ t ∈ l, ValidTriple c t := by
  unfold JointOutcome ValidTriple
  apply forall₂_congr
  intro t _
  constructor
  · rintro ⟨ob, h1, h2, h3⟩
    have hob : obsAt c t.1 = ob := by rw [obsAt, List.getD_eq_getElem?_getD, h1]; rfl
    refine ⟨(List.getElem?_eq_some_iff.mp h1).1, ?_, ?_⟩
    · rw [hob]; exact h2
    · rw [outc, hob]; exact h3
  · rintro ⟨h1, h2, h3⟩
    exact ⟨_, get_of_lt h1, h2, h3⟩

/-- C49. Flattening accepts exactly the joint outcomes, and unflattening gives the joint outcome back. -/
theorem C49_outcomes (c : Ctx) (l : List (Nat × Nat × Nat)) :
    ((flattenOutcome c l).isSome ↔ JointOutcome c l) ∧
    ∀ m, flattenOutcome c l = some m → unflattenOutcome c (l.map fun t => (t.1, t.2.1)) m = .triples l := by
  constructor
  · rw [joint_iff]
    constructor
    · intro h
      obtain ⟨m, hm⟩ := Option.isSome_iff_exists.mp h
      exact ((flatten_outcome_iff l m).mp hm).1
    · intro h; rw [(flatten_outcome_iff l _).mpr ⟨h, rfl⟩]; rfl
  · intro m hm
    obtain ⟨hv, rfl⟩ := (flatten_outcome_iff l m).mp hm
    rw [unflattenOutcome, if_neg, ← List.map_reverse, unflatten_go_mixed _ fun t ht => hv t (by simpa using ht)]
    · simp
    · simp only [List.any_map, List.any_eq_true, Function.comp_apply, decide_eq_true_eq, not_exists, not_and]
      intro t ht
      have := (hv t ht).1
      omega

/-- C49, the other direction: every number below the product of the numbers of outcomes is the number of the joint outcome it unflattens to. -/
theorem C49_outcomes_inverse_partial (c : Ctx) (l : List (Nat × Nat)) (m : Nat)
    (hl : ∀ t ∈ l, ∃ ob, c.net.observables[t.1]? = some ob ∧ t.2 < ob.copies c.infl)
    (hm : m < (l.map fun t => (obsAt c t.1).outcomes).prod) :
    ∃ ts, unflattenOutcome c l m = .triples ts ∧ ts.map (fun t => (t.1, t.2.1)) = l ∧ flattenOutcome c ts = some m := by
  have hl2 : ∀ t ∈ l, t.1 < c.net.observables.length ∧ t.2 < (obsAt c t.1).copies c.infl := by
    intro t ht
    obtain ⟨ob, h1, h2⟩ := hl t ht
    have hob : obsAt c t.1 = ob := by rw [obsAt, List.getD_eq_getElem?_getD, h1]; rfl
    exact ⟨(List.getElem?_eq_some_iff.mp h1).1, by rw [hob]; exact h2⟩
  obtain ⟨ts, e1, e2, e3, e4⟩ := unflatten_go_inv l.reverse m (fun t ht => hl2 t (by simpa using ht)) (by
    rw [List.map_reverse, List.prod_reverse]; exact hm)
  refine ⟨ts.reverse, ?_, ?_, ?_⟩
  · rw [unflattenOutcome, if_neg, e1]
    simp only [List.any_eq_true, decide_eq_true_eq, not_exists, not_and]
    intro t ht
    have := (hl2 t ht).1
    omega
  · rw [List.map_reverse, e3, List.reverse_reverse]
  · exact (flatten_outcome_iff _ _).mpr ⟨fun t ht => e2 t (by simpa using ht), by rw [List.reverse_reverse, e4]⟩

/-- C49. The range check is off by one: for every context, the first observable number that does not exist passes it and is then used to read
past the end of the list of observables; the next one is rejected. -/
theorem C49_refuted_range (c : Ctx) (m : Nat) :
    unflattenOutcome c [(c.net.observables.length, 0)] m = .undefinedBehaviour ∧
    unflattenOutcome c [(c.net.observables.length + 1, 0)] m = .rangeError := by
  constructor
  · simp [unflattenOutcome, unflattenOutcome.go]
  · simp [unflattenOutcome]

/-! ## C51, C52 -/

/-- C51. The generated list has every simplified non-zero word up to the length exactly once and nothing else. -/
theorem C51_complete (hc : ContextOf n c) (maxLength : Nat) : (generate c maxLength).Nodup ∧
    ∀ w, w ∈ generate c maxLength ↔ w.length ≤ maxLength ∧ (∀ m ∈ w, m < operatorCount c) ∧ simplify c w = .word w :=
  generate_spec ⟨hc⟩ maxLength

/-- C51, in terms of operators: every non-zero operator that has a word up to the length is listed, under exactly one number word. -/
theorem C51_represents (hc : ContextOf n c) (maxLength : Nat) {u : List Op} {w : List Nat} (hu : Names n c u w) (hlen : u.length ≤ maxLength)
    (hz : ¬ SameOperator n (some u) none) :
    ∃! x, x ∈ generate c maxLength ∧ ∃ v, Names n c v x ∧ SameOperator n (some u) (some v) := by
  have hb : Built n c := ⟨hc⟩
  rcases C12_sound hc hu with h0 | ⟨v, x, hx, hv, hs, hfix⟩
  · exact absurd ((C12_zero hc hu).mp h0) hz
  · obtain ⟨hve, hvx⟩ := names_iff.mp hv
    refine ⟨x, ⟨((C51_complete hc maxLength).2 x).mpr ⟨?_, ?_, hfix⟩, v, hv, hs⟩, ?_⟩
    · obtain ⟨h1, rfl⟩ := names_iff.mp hu
      rw [simplify_enc hb h1] at hx
      cases hn : nf n c u with
      | none => rw [hn] at hx; simp at hx
      | some a =>
        rw [hn] at hx
        rw [← Outcome.word.inj hx, List.length_map]
        unfold nf at hn
        dsimp only at hn
        split at hn
        · simp at hn
        · rw [← Option.some.inj hn]
          exact ((uniqueBy_sublist _ _).length_le.trans (stableSort_perm _ _).length_eq.le).trans hlen
    · intro m hm
      rw [hvx] at hm
      obtain ⟨a, ha, rfl⟩ := List.mem_map.mp hm
      exact enc_lt hb (hve a ha)
    · rintro y ⟨hy1, v', hv', hs'⟩
      have := (C12_decides hc hu hv').mpr hs'
      rw [hx, (((C51_complete hc maxLength).2 y).mp hy1).2.2] at this
      exact (Outcome.word.inj this).symm

/-- C52. The constructor sets the bit of an operator in the independence map of another exactly if the two share a source (an observable without
sources shares its own randomness with itself), and sets no bit outside the map. -/
theorem C52_independence (hc : ContextOf n c) :
    (∀ a b, Exists n c.infl a → Exists n c.infl b →
      (operatorNumber c b.obs (flattenIndex c.infl b.copy) b.out ∈
        dependentOperators c (operatorNumber c a.obs (flattenIndex c.infl a.copy) a.out) ↔ Linked n a b)) ∧
    ∀ m, ∀ x ∈ dependentOperators c m, x < operatorCount c :=
  ⟨fun _ _ ha hb' => mem_dependent ⟨hc⟩ ha hb', fun _ _ hx => dependent_lt hx⟩

/-! ## Examples

Observables 0 (two outcomes, source 0), 1 (three outcomes, sources 0 and 1), 2 (not projective, source 1), 3 (two outcomes, no source);
inflation level 2. Operators: 0 1 | 2 ... 9 | 10 11 | 12. -/

/-- The network of the examples. -/
def exNet : Causal := ⟨[2, 3, 0, 2], [[0, 1], [1, 2]]⟩

/-- Its inflation of level 2. -/
def exCtx : Ctx := ⟨⟨[⟨2, [0], false⟩, ⟨3, [0, 1], false⟩, ⟨0, [1], false⟩, ⟨2, [2], true⟩], 2⟩, 2⟩

theorem exContext : ContextOf exNet exCtx := by unfold ContextOf; decide +kernel

example : exNet.WellFormed := by unfold Causal.WellFormed; decide

/-- A word with a repeated projector, a repeated operator that is not a projector, and one without source. -/
def exWord : List Op := [⟨3, [], 0⟩, ⟨2, [1], 0⟩, ⟨1, [0, 1], 1⟩, ⟨2, [1], 0⟩, ⟨1, [0, 1], 1⟩]

theorem exNames : Names exNet exCtx exWord [12, 11, 7, 11, 7] := by
  refine names_iff.mpr ⟨?_, by decide +kernel⟩
  intro a ha
  fin_cases ha
  · exact ⟨2, rfl, by decide +kernel, by decide, by decide⟩
  · exact ⟨0, rfl, by decide +kernel, by decide, by decide⟩
  · exact ⟨3, rfl, by decide +kernel, by decide, by decide⟩
  · exact ⟨0, rfl, by decide +kernel, by decide, by decide⟩
  · exact ⟨3, rfl, by decide +kernel, by decide, by decide⟩

example : simplify exCtx [12, 11, 7, 11, 7] = .word [7, 11, 11, 12] := by decide +kernel
example : simplify exCtx [7, 11, 6] = .zero := by decide +kernel
example : ¬ SameOperator exNet (some exWord) none := by
  rw [← C12_zero exContext exNames]; decide +kernel

/-- The hypothesis of `C13_factorize`, `C14_terminates` holds for a word of four operators, which has three factors. -/
example : simplify exCtx [1, 7, 11, 12] = .word [1, 7, 11, 12] := by decide +kernel
example : factorize exCtx [1, 7, 11, 12] = [.word [1], .word [7, 11], .word [12]] := by decide +kernel

/-- A canonical moment that takes more than one round: the copies are relabelled, sorted and relabelled again. -/
example : canonicalMoment exCtx 3 [1, 7, 11, 12] = some (.word [0, 5, 10, 12]) := by decide +kernel
example : canBeSimplifiedAsMoment exCtx [1, 7, 11, 12] = true := by decide +kernel
example : canonicalMoment exCtx 3 [0, 5, 10, 12] = some (.word [0, 5, 10, 12]) := by decide +kernel

/-- The hypotheses of `C14_invariant_partial` with a relabelling that is not the identity. -/
example : canHaveAliases twoSourcesCtx = true ∧ simplify twoSourcesCtx [0, 1] = .word [0, 1] ∧ simplify twoSourcesCtx [2, 3] = .word [2, 3] ∧
    ([⟨0, [0, 0], 0⟩, ⟨0, [1, 0], 0⟩] : List Op).map (relabel twoSources fun s v => if s = 1 then (if v = 0 then 1 else 0) else v) =
      [⟨0, [0, 1], 0⟩, ⟨0, [1, 1], 0⟩] := by decide +kernel

example : combineFactors [1, 3, 7] [2, 7] = [2, 3, 7, 7] := by decide
example : combineFactors [1] [1, 1] = [1] := by decide

/-- Values for `C15_multiply_partial`: symbols 2 and 3 are fundamental with values two and three, symbol 4 is their product. -/
example : ∃ (f : Nat → Nat) (entry : Nat → Factors) (find : List Nat → Option Nat), f 0 = 0 ∧ f 1 = 1 ∧
    (∀ x, (entry x).fundamental = false → f x = ((entry x).symbols.map f).prod) ∧
    (∀ l r, l.Pairwise (· ≤ ·) → find l = some r → f r = (l.map f).prod) ∧ tryMultiply entry find [3, 1, 2] = some 4 := by
  refine ⟨fun x => if x = 4 then 6 else x, fun x => if x = 4 then ⟨false, [2, 3]⟩ else ⟨true, [x]⟩,
    fun l => if l = [2, 3] then some 4 else none, by simp, by simp, ?_, ?_, by decide +kernel⟩
  · intro x h
    by_cases hx : x = 4 <;> simp_all
  · intro l r _ h
    dsimp only at h
    split at h
    · rename_i e; subst e; simp only [Option.some.injEq] at h; subst h; simp
    · simp at h

example : flattenOutcome exCtx [(1, 3, 2), (0, 1, 1), (3, 0, 1)] = some 11 := by decide +kernel
example : unflattenOutcome exCtx [(1, 3), (0, 1), (3, 0)] 11 = .triples [(1, 3, 2), (0, 1, 1), (3, 0, 1)] := by decide +kernel
example : unflattenIndex 3 4 (flattenIndex 3 [2, 0, 1, 2]) = [2, 0, 1, 2] := by decide +kernel

example : [7, 11, 11] ∈ generate exCtx 3 ∧ [7, 7] ∉ generate exCtx 3 ∧ [6, 7] ∉ generate exCtx 3 := by
  have h := fun w => (C51_complete exContext 3).2 w
  rw [h, h, h]
  decide +kernel

example : dependentOperators exCtx 7 = [0, 2, 3, 6, 7, 8, 9, 11] := by decide +kernel

/-- The relations hold non-trivially for functions on two points. -/
example : ∃ f : Op → (Bool → Nat), Represents exNet f ∧ f ⟨1, [0, 0], 0⟩ ≠ f ⟨1, [0, 0], 1⟩ ∧ f ⟨1, [0, 0], 0⟩ * f ⟨2, [0], 0⟩ ≠ 0 := by
  refine ⟨fun a b => if a.obs = 2 then (if a.out = 0 then 2 else 0) else if (b = true ∧ a.out = 0) ∨ (b = false ∧ a.out = 1) then 1 else 0, ⟨?_, ?_, ?_⟩, ?_, ?_⟩
  · intro a b; exact mul_comm _ _
  · intro a ha
    have h2 : a.obs ≠ 2 := by rintro e; apply ha; rw [e]; rfl
    funext b; simp only [Pi.mul_apply, if_neg h2]; split <;> rfl
  · rintro a b ⟨h1, -, h3⟩
    funext x
    simp only [Pi.mul_apply, Pi.zero_apply, h1]
    cases x <;> by_cases hb : b.obs = 2 <;> simp [hb] <;> omega
  · intro h; have := congrFun h true; simp at this
  · intro h; have := congrFun h true; simp at this

end Moment.C12
