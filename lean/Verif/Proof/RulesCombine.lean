import Verif.Proof.RulesAdd

/-! Combining overlapping rules; completion. -/

namespace Moment.Rules

open Rewrite

universe u

variable {p : Pre} {L : Nat}

/-! ### Overlaps -/

theorem overlapLoop_spec (a b : List Nat) : ∀ n, n ≤ a.length → n ≤ b.length →
    overlapLoop a b n ≤ n ∧ a.drop (a.length - overlapLoop a b n) <+: b ∧
    ∀ k, k ≤ n → a.drop (a.length - k) <+: b → k ≤ overlapLoop a b n
  | 0, _, _ => by simp [overlapLoop]
  | n + 1, ha, hb => by
    rw [overlapLoop]
    split
    · rename_i h
      exact ⟨le_refl _, by simpa using h, fun k hk _ => hk⟩
    · rename_i h
      obtain ⟨h1, h2, h3⟩ := overlapLoop_spec a b n (by omega) (by omega)
      refine ⟨by omega, h2, fun k hk hp => ?_⟩
      rcases Nat.lt_or_ge k (n + 1) with hlt | hge
      · exact h3 k (by omega) hp
      · have : k = n + 1 := by omega
        subst this
        exact absurd (by simpa using hp) h

/-- `overlap a b` is the length of an overlap... -/
theorem overlap_split (a b : List Nat) : ∃ x y z, a = x ++ y ∧ b = y ++ z ∧ y.length = overlap a b := by
  obtain ⟨h1, h2, _⟩ := overlapLoop_spec a b (min a.length b.length) (by omega) (by omega)
  obtain ⟨z, hz⟩ := h2
  refine ⟨a.take (a.length - overlap a b), a.drop (a.length - overlap a b), z, (List.take_append_drop _ _).symm, hz.symm, ?_⟩
  rw [List.length_drop]
  have : overlap a b ≤ a.length := by unfold overlap; omega
  omega

/-- ... and no overlap is longer. -/
theorem overlap_max {a b x y z : List Nat} (ha : a = x ++ y) (hb : b = y ++ z) : y.length ≤ overlap a b := by
  obtain ⟨_, _, h3⟩ := overlapLoop_spec a b (min a.length b.length) (by omega) (by omega)
  refine h3 y.length ?_ ?_
  · rw [ha, hb]; simp
  · have : a.drop (a.length - y.length) = y := by
      rw [ha]; simp
    rw [this, hb]; exact List.prefix_append _ _

/-! ### Combinations -/

/-- The two results of rewriting `x y z` with rules for `x y` and for `y z`. -/
def viaLeft (r : Rule) (z : List Nat) : Term := ctx .pos [] z (term r.rhs)
/-- The two results of rewriting `x y z` with rules for `x y` and for `y z`. -/
def viaRight (r : Rule) (x : List Nat) : Term := ctx .pos x [] (term r.rhs)

/-- What a combination of rules for `x y` and for `y z` states: up to a common phase, that the two results are equal. -/
structure Combined (p : Pre) (L : Nat) (r r' : Rule) (x z : List Nat) (c : Rule) : Prop where
  lhs : GoodSeq p L c.lhs
  rhs : GoodSeq p L c.rhs
  sign : c.lhs.sign = .pos
  le : c.rhs.hash ≤ c.lhs.hash
  signs : ∀ S, SignClass S → S r.rhs.sign → S r'.rhs.sign → S c.rhs.sign
  plain : x ≠ [] → z ≠ [] → Plain c.rhs
  sides : ∃ q : Sign, (ctx q [] [] (term c.lhs) = viaLeft r z ∧ ctx q [] [] (term c.rhs) = viaRight r' x) ∨
    (ctx q [] [] (term c.lhs) = viaRight r' x ∧ ctx q [] [] (term c.rhs) = viaLeft r z)

theorem GoodRule.apply_zero {r : Rule} (h : GoodRule p L r) (hz : r.rhs.isZero = true) (w : List Nat) (i : Nat) : r.apply w i = some [] := by
  unfold Rule.apply; rw [h.toZero, hz]; rfl

theorem make_some {x y : HSeq} (h : y.hash ≤ x.hash) : ∃ r, Rule.make x y = some r ∧ r.lhs = { x with sign := .pos } ∧
    r.rhs = { y with sign := x.sign.difference y.sign } := by
  unfold Rule.make
  rw [if_neg (by simpa using h)]
  exact ⟨_, rfl, rfl, rfl⟩

theorem difference_pos (s : Sign) : Sign.pos.difference s = s := by cases s <;> decide

theorem mul_difference (a b : Sign) : a.mul (a.difference b) = b := by cases a <;> cases b <;> decide

theorem combine_spec (hs : Small p L) {r r' : Rule} (hr : GoodRule p L r) (hr' : GoodRule p L r') {x y z : List Nat}
    (e1 : r.lhs.ops = x ++ y) (e2 : r'.lhs.ops = y ++ z) (hy : y ≠ []) (ho : overlap r.lhs.ops r'.lhs.ops = y.length)
    (hlen : (x ++ y ++ z).length ≤ L) :
    ∃ c, Rule.combine p r r' = some (some c) ∧ Combined p L r r' x z c := by
  have hy0 : y.length ≠ 0 := by simpa using hy
  unfold Rule.combine
  simp only [ho, hy0, if_false]
  have hj : r.lhs.ops.take (r.lhs.ops.length - y.length) ++ r'.lhs.ops = x ++ y ++ z := by
    rw [e1, e2]; simp
  rw [hj]
  have hjw : IsWord p L (x ++ y ++ z) := by
    refine ⟨fun o ho => ?_, hlen⟩
    rcases List.mem_append.mp ho with h | h
    · exact hr.lhs.1.1 o (by rw [e1]; exact h)
    · exact hr'.lhs.1.1 o (by rw [e2]; exact List.mem_append_right _ h)
  have hi2 : (x ++ y ++ z).length - r'.lhs.ops.length = x.length := by rw [e2]; simp
  rw [hi2]
  -- left result
  have left : ∃ v, r.apply (x ++ y ++ z) 0 = some v ∧
      ((r.toZero = true ∧ v = [] ∧ viaLeft r z = none) ∨
       (r.toZero = false ∧ v = r.rhs.ops ++ z ∧ IsWord p L v ∧ viaLeft r z = some (r.rhs.sign, v))) := by
    cases hz : r.rhs.isZero with
    | true =>
      refine ⟨[], hr.apply_zero hz _ _, Or.inl ⟨by rw [hr.toZero, hz], rfl, ?_⟩⟩
      have : r.rhs.hash = 0 := by simpa [HSeq.isZero] using hz
      simp [viaLeft, term, this, ctx]
    | false =>
      have h0 : r.rhs.hash ≠ 0 := by simpa [HSeq.isZero] using hz
      have ha := hr.apply_eq hz [] z
      rw [e1] at ha
      simp only [List.nil_append, List.length_nil] at ha
      refine ⟨_, ha, Or.inr ⟨by rw [hr.toZero, hz], rfl, ?_, ?_⟩⟩
      · rcases hr.rhs_cases hs with h | ⟨_, _, h⟩
        · exact absurd h.1 h0
        · rw [e1] at h
          have hl := shortlex_length h
          refine ⟨fun o ho => ?_, ?_⟩
          · rcases List.mem_append.mp ho with h | h
            · exact hr.rhs.1.1 o h
            · exact hjw.1 o (List.mem_append_right _ h)
          · simp only [List.length_append] at hl hlen ⊢; omega
      · simp [viaLeft, term, h0, ctx]
  have right : ∃ v, r'.apply (x ++ y ++ z) x.length = some v ∧
      ((r'.toZero = true ∧ v = [] ∧ viaRight r' x = none) ∨
       (r'.toZero = false ∧ v = x ++ r'.rhs.ops ∧ IsWord p L v ∧ viaRight r' x = some (r'.rhs.sign, v))) := by
    cases hz : r'.rhs.isZero with
    | true =>
      refine ⟨[], hr'.apply_zero hz _ _, Or.inl ⟨by rw [hr'.toZero, hz], rfl, ?_⟩⟩
      have : r'.rhs.hash = 0 := by simpa [HSeq.isZero] using hz
      simp [viaRight, term, this, ctx]
    | false =>
      have h0 : r'.rhs.hash ≠ 0 := by simpa [HSeq.isZero] using hz
      have ha := hr'.apply_eq hz x []
      rw [e2] at ha
      simp only [List.append_nil] at ha
      rw [← List.append_assoc] at ha
      refine ⟨_, ha, Or.inr ⟨by rw [hr'.toZero, hz], rfl, ?_, ?_⟩⟩
      · rcases hr'.rhs_cases hs with h | ⟨_, _, h⟩
        · exact absurd h.1 h0
        · rw [e2] at h
          have hl := shortlex_length h
          refine ⟨fun o ho => ?_, ?_⟩
          · rcases List.mem_append.mp ho with h | h
            · exact hjw.1 o (List.mem_append_left _ (List.mem_append_left _ h))
            · exact hr'.rhs.1.1 o h
          · simp only [List.length_append] at hl hlen ⊢; omega
      · simp [viaRight, term, h0, ctx]
  obtain ⟨v1, ha1, c1⟩ := left
  obtain ⟨v2, ha2, c2⟩ := right
  simp only [ha1, ha2]
  have term_mk : ∀ (v : List Nat) (s : Sign), IsWord p L v → term ⟨p.hash v, v, s⟩ = some (s, v) := by
    intro v s hv; simp [term, hash_ne_zero hs hv]
  rcases c1 with ⟨z1, rfl, t1⟩ | ⟨z1, hv1, w1, t1⟩ <;> rcases c2 with ⟨z2, rfl, t2⟩ | ⟨z2, hv2, w2, t2⟩
  · -- both zero
    simp only [z1, z2, if_true]
    rw [if_neg (by simp)]
    obtain ⟨c, hc, el, er⟩ := make_some (x := ⟨0, [], .pos⟩) (y := HSeq.zero) (UInt64.le_refl 0)
    refine ⟨c, by rw [hc]; rfl, ?_⟩
    refine ⟨by rw [el]; exact GoodSeq.zero, by rw [er]; exact GoodSeq.zero, by rw [el], by rw [el, er]; exact UInt64.le_refl _, ?_, ?_, ?_⟩
    · intro S hS _ _; rw [er]; exact hS.difference _ _ hS.pos hS.pos
    · intro _ _; rw [er]; intro _ h; exact absurd rfl h
    · refine ⟨.pos, Or.inl ⟨?_, ?_⟩⟩
      · rw [el, t1]; rfl
      · rw [er, t2]; rfl
  · -- left zero
    simp only [z1, z2, if_true, Bool.false_eq_true, if_false]
    have h0 := hash_ne_zero hs w2
    rw [if_pos (zero_lt_hash h0)]
    obtain ⟨c, hc, el, er⟩ := make_some (x := ⟨p.hash v2, v2, .pos⟩) (y := HSeq.zero) UInt64.zero_le
    refine ⟨c, by rw [hc]; rfl, ?_⟩
    refine ⟨by rw [el]; exact GoodSeq.mk v2 w2 _, by rw [er]; exact GoodSeq.zero, by rw [el], by rw [el, er]; exact UInt64.zero_le, ?_, ?_, ?_⟩
    · intro S hS _ _; rw [er]; exact hS.difference _ _ hS.pos hS.pos
    · intro _ _; rw [er]; intro _ h; exact absurd rfl h
    · refine ⟨r'.rhs.sign, Or.inr ⟨?_, ?_⟩⟩
      · rw [el, t2, term_mk v2 _ w2]; simp [ctx]
      · rw [er, t1]; rfl
  · -- right zero
    simp only [z1, z2, if_true, Bool.false_eq_true, if_false]
    rw [if_neg (by simp)]
    obtain ⟨c, hc, el, er⟩ := make_some (x := ⟨p.hash v1, v1, .pos⟩) (y := HSeq.zero) UInt64.zero_le
    refine ⟨c, by rw [hc]; rfl, ?_⟩
    refine ⟨by rw [el]; exact GoodSeq.mk v1 w1 _, by rw [er]; exact GoodSeq.zero, by rw [el], by rw [el, er]; exact UInt64.zero_le, ?_, ?_, ?_⟩
    · intro S hS _ _; rw [er]; exact hS.difference _ _ hS.pos hS.pos
    · intro _ _; rw [er]; intro _ h; exact absurd rfl h
    · refine ⟨r.rhs.sign, Or.inl ⟨?_, ?_⟩⟩
      · rw [el, t1, term_mk v1 _ w1]; simp [ctx]
      · rw [er, t2]; rfl
  · simp only [z1, z2, Bool.false_eq_true, if_false]
    have h1 := hash_ne_zero hs w1
    have h2 := hash_ne_zero hs w2
    by_cases hlt : p.hash v1 < p.hash v2
    · rw [if_pos hlt, if_neg h1]
      obtain ⟨c, hc, el, er⟩ := make_some (x := ⟨p.hash v2, v2, .pos⟩) (y := ⟨p.hash v1, v1, r'.rhs.sign.difference r.rhs.sign⟩)
        (UInt64.le_of_lt hlt)
      refine ⟨c, by rw [hc]; rfl, ?_⟩
      refine ⟨by rw [el]; exact GoodSeq.mk v2 w2 _, by rw [er]; exact GoodSeq.mk v1 w1 _, by rw [el],
        by rw [el, er]; exact UInt64.le_of_lt hlt, ?_, ?_, ?_⟩
      · intro S hS a b; rw [er]; exact hS.difference _ _ hS.pos (hS.difference _ _ b a)
      · intro _ hz; rw [er]; intro h; dsimp only at h; rw [hv1] at h
        exact absurd (List.append_eq_nil_iff.mp h).2 hz
      · refine ⟨r'.rhs.sign, Or.inr ⟨?_, ?_⟩⟩
        · rw [el, t2, term_mk v2 _ w2]; simp [ctx]
        · rw [er, t1]
          dsimp only
          rw [difference_pos, term_mk v1 _ w1]
          simp only [ctx, List.nil_append, List.append_nil, mul_difference]
    · rw [if_neg hlt, if_neg h2]
      obtain ⟨c, hc, el, er⟩ := make_some (x := ⟨p.hash v1, v1, .pos⟩) (y := ⟨p.hash v2, v2, r.rhs.sign.difference r'.rhs.sign⟩)
        (UInt64.not_lt.mp hlt)
      refine ⟨c, by rw [hc]; rfl, ?_⟩
      refine ⟨by rw [el]; exact GoodSeq.mk v1 w1 _, by rw [er]; exact GoodSeq.mk v2 w2 _, by rw [el],
        by rw [el, er]; exact UInt64.not_lt.mp hlt, ?_, ?_, ?_⟩
      · intro S hS a b; rw [er]; exact hS.difference _ _ hS.pos (hS.difference _ _ a b)
      · intro hx _; rw [er]; intro h; dsimp only at h; rw [hv2] at h
        exact absurd (List.append_eq_nil_iff.mp h).1 hx
      · refine ⟨r.rhs.sign, Or.inl ⟨?_, ?_⟩⟩
        · rw [el, t1, term_mk v1 _ w1]; simp [ctx]
        · rw [er, t2]
          dsimp only
          rw [difference_pos, term_mk v2 _ w2]
          simp only [ctx, List.nil_append, List.append_nil, mul_difference]

theorem eval_ctx {A : Type u} [Ring A] [Algebra ℂ A] (ρ : Nat → A) (q : Sign) (x z : List Nat) (t : Term) :
    eval ρ (ctx q x z t) = phase q • (evalWord ρ x * eval ρ t * evalWord ρ z) := by
  rcases t with _ | ⟨s, w⟩
  · simp [ctx, eval]
  · simp only [ctx, eval, phase_mul, evalWord_append, mul_smul]
    simp

/-- A combination is true wherever the two rules are. -/
theorem combined_sem {r r' c : Rule} {x y z : List Nat} (hs : Small p L) (hr : GoodRule p L r) (hr' : GoodRule p L r')
    (e1 : r.lhs.ops = x ++ y) (e2 : r'.lhs.ops = y ++ z) (hc : Combined p L r r' x z c)
    {A : Type u} [Ring A] [Algebra ℂ A] (ρ : Nat → A) (h1 : ruleEq ρ r) (h2 : ruleEq ρ r') : ruleEq ρ c := by
  have k1 : eval ρ (viaLeft r z) = evalWord ρ (x ++ y ++ z) := by
    have := (holds_iff ρ hs hr).mp h1
    unfold Holds den at this
    simp only at this
    rw [viaLeft, eval_ctx, ← this, e1]
    simp [evalWord_append, phase, mul_assoc]
  have k2 : eval ρ (viaRight r' x) = evalWord ρ (x ++ y ++ z) := by
    have := (holds_iff ρ hs hr').mp h2
    unfold Holds den at this
    simp only at this
    rw [viaRight, eval_ctx, ← this, e2]
    simp [evalWord_append, phase]
  obtain ⟨q, h⟩ := hc.sides
  have key : phase q • eval ρ (term c.lhs) = phase q • eval ρ (term c.rhs) := by
    have a1 := eval_ctx ρ q [] [] (term c.lhs)
    have a2 := eval_ctx ρ q [] [] (term c.rhs)
    simp only [evalWord_nil, one_mul, mul_one] at a1 a2
    rw [← a1, ← a2]
    rcases h with ⟨b1, b2⟩ | ⟨b1, b2⟩ <;> rw [b1, b2, k1, k2]
  exact (smul_phase_cancel q).mp key

theorem combine_none {r r' : Rule} (h : overlap r.lhs.ops r'.lhs.ops = 0) : Rule.combine p r r' = some none := by
  unfold Rule.combine; simp [h]

theorem combine_total (hs : Small p L) {r r' : Rule} (hr : GoodRule p L r) (hr' : GoodRule p L r')
    (hlen : r.lhs.ops.length + r'.lhs.ops.length ≤ L) :
    Rule.combine p r r' = some none ∨ ∃ x y z c, y ≠ [] ∧ r.lhs.ops = x ++ y ∧ r'.lhs.ops = y ++ z ∧
      Rule.combine p r r' = some (some c) ∧ Combined p L r r' x z c := by
  by_cases h0 : overlap r.lhs.ops r'.lhs.ops = 0
  · exact Or.inl (combine_none h0)
  · right
    obtain ⟨x, y, z, e1, e2, e3⟩ := overlap_split r.lhs.ops r'.lhs.ops
    have hy : y ≠ [] := by intro h; rw [h] at e3; exact h0 e3.symm
    obtain ⟨c, h1, h2⟩ := combine_spec hs hr hr' e1 e2 hy e3.symm (by rw [e1, e2] at hlen; simp at hlen ⊢; omega)
    exact ⟨x, y, z, c, hy, e1, e2, h1, h2⟩

/-! ### New rules from combinations (all phases positive) -/

theorem mem_pairs {m : RMap} {a b : Rule} (h : (a, b) ∈ pairs m) : (∃ e ∈ m, e.2 = a) ∧ (∃ e ∈ m, e.2 = b) := by
  unfold pairs at h
  rw [List.mem_flatMap] at h
  obtain ⟨x, hx, h⟩ := h
  rw [List.mem_map] at h
  obtain ⟨y, hy, e⟩ := h
  simp only [Prod.mk.injEq] at e
  exact ⟨⟨x, hx, e.1⟩, ⟨y, (List.mem_filter.mp hy).1, e.2⟩⟩

/-- Shorter bound for the rules of a map. -/
theorem GoodMap.lhs_len {m : RMap} {K : Nat} (hm : GoodMap p K m) : ∀ e ∈ m, e.2.lhs.ops.length ≤ K := fun e he => (hm.1 e he).2.lhs.1.2

theorem IsWord.mono {K : Nat} (h : K ≤ L) {w : List Nat} (hw : IsWord p K w) : IsWord p L w := ⟨hw.1, hw.2.trans h⟩

theorem GoodRule.mono {K : Nat} (h : K ≤ L) {r : Rule} (hr : GoodRule p K r) : GoodRule p L r :=
  ⟨⟨hr.lhs.1.mono h, hr.lhs.2⟩, ⟨hr.rhs.1.mono h, hr.rhs.2⟩, hr.sign, hr.lt, hr.toZero, hr.delta, hr.trivial⟩

theorem GoodMap.mono {K : Nat} (h : K ≤ L) {m : RMap} (hm : GoodMap p K m) : GoodMap p L m :=
  ⟨fun e he => ⟨(hm.1 e he).1, (hm.1 e he).2.mono h⟩, hm.2⟩

/-- Rules whose left sides have length at most `K` are good for `K`. -/
theorem GoodMap.shrink (hs : Small p L) {K : Nat} {m : RMap} (hm : GoodMap p L m) (hK : ∀ e ∈ m, e.2.lhs.ops.length ≤ K) :
    GoodMap p K m := by
  refine ⟨fun e he => ⟨(hm.1 e he).1, ?_⟩, hm.2⟩
  have hg := (hm.1 e he).2
  refine ⟨⟨⟨hg.lhs.1.1, hK e he⟩, hg.lhs.2⟩, ⟨⟨hg.rhs.1.1, ?_⟩, hg.rhs.2⟩, hg.sign, hg.lt, hg.toZero, hg.delta, hg.trivial⟩
  rcases hg.rhs_cases hs with h | ⟨_, _, h⟩
  · rw [h.2]; simp
  · exact (shortlex_length h).trans (hK e he)

theorem firstNew_spec (hs : Small p L) {b : Book} (hb : GoodMap p L b.rules) (hpos : SMap (fun s => s = .pos) b.rules)
    (hK : ∀ e ∈ b.rules, ∀ e' ∈ b.rules, e.2.lhs.ops.length + e'.2.lhs.ops.length ≤ L) :
    ∀ l : List (Rule × Rule), (∀ q ∈ l, q ∈ pairs b.rules) →
    ∃ o, firstNew p b l = some o ∧ ∀ c, o = some c → GoodRule p L c ∧ c.rhs.sign = .pos ∧ Irr b.rules c.lhs.ops ∧
      ∀ (A : Type u) [Ring A] [Algebra ℂ A] (ρ : Nat → A), MapHolds ρ b.rules → ruleEq ρ c
  | [], _ => ⟨none, rfl, fun c h => by cases h⟩
  | (x, y) :: rest, hl => by
    obtain ⟨o, ho, hspec⟩ := firstNew_spec hs hb hpos hK rest (fun q hq => hl q (List.mem_cons_of_mem _ hq))
    obtain ⟨⟨ex, hex, rfl⟩, ⟨ey, hey, rfl⟩⟩ := mem_pairs (hl _ (List.mem_cons_self ..))
    have gx := (hb.1 _ hex).2
    have gy := (hb.1 _ hey).2
    rcases combine_total hs gx gy (hK _ hex _ hey) with h | ⟨u, v, w, c, hv, e1, e2, h, hc⟩
    · refine ⟨o, ?_, hspec⟩
      simp only [firstNew, h, Option.bind_eq_bind, Option.bind_some, ho]
    · have hcs : c.rhs.sign = .pos := hc.signs _ posClass (hpos _ hex) (hpos _ hey)
      obtain ⟨c', a, d, h', hred⟩ := reduceRule_spec.{u} hs hb posClass (fun s h => Or.inl h) hpos hc.lhs hc.rhs hc.sign hcs
      simp only [firstNew, h, h', Option.bind_eq_bind, Option.bind_some, ho]
      rcases hred.cases with ⟨ht, _⟩ | ⟨hg, hsg, hirr, _⟩
      · rw [ht]; exact ⟨o, rfl, hspec⟩
      · rw [hg.trivial]
        refine ⟨some c', rfl, fun c2 e => ?_⟩
        cases e
        refine ⟨hg, hsg, hirr, fun A _ _ ρ hM => ?_⟩
        rw [hred.sem A ρ, ← reduced_eval ρ hs hb hM hred.lhs (fun _ _ => hc.sign), ← reduced_eval ρ hs hb hM hred.rhs (fun _ _ => hcs)]
        exact combined_sem hs gx gy e1 e2 hc ρ (hM _ hex) (hM _ hey)

theorem plain_of_pos {m : RMap} (h : SMap (fun s => s = .pos) m) : ∀ e ∈ m, Plain e.2.rhs := fun e he _ _ => h e he

theorem tryNewCombination_spec (hs : Small p L) {b : Book} {K : Nat} (hK : 2 * K ≤ L) (hb : GoodMap p K b.rules)
    (hpos : SMap (fun s => s = .pos) b.rules) :
    ∃ b' f, b.tryNewCombination p = some (b', f) ∧ Kept.{u} p L (fun s => s = .pos) b.rules b'.rules := by
  have hsK : Small p K := by
    refine ⟨hs.num, lt_of_le_of_lt ?_ hs.count⟩
    exact Finset.sum_le_sum_of_subset (Finset.range_subset_range.mpr (by omega))
  obtain ⟨b1, h1, k1, m1⟩ := reduceRuleset_spec.{u} hsK posClass (fun s h => Or.inl h) hb hpos (plain_of_pos hpos)
  have hbL := k1.good.mono (show K ≤ L by omega)
  have k1' : Kept.{u} p L (fun s => s = .pos) b.rules b1.rules := ⟨hbL, k1.signs, k1.sem⟩
  obtain ⟨o, ho, hspec⟩ := firstNew_spec.{u} hs hbL k1.signs
    (fun e he e' he' => by have := k1.good.lhs_len e he; have := k1.good.lhs_len e' he'; omega) (pairs b1.rules) (fun q h => h)
  unfold Book.tryNewCombination
  simp only [h1, ho, Option.bind_eq_bind, Option.bind_some]
  rcases o with _ | c
  · exact ⟨b1, false, rfl, k1'⟩
  · obtain ⟨hg, hsg, hirr, hsem⟩ := hspec c rfl
    have g2 : GoodMap p L (insert c.lhs.hash c b1.rules) := hbL.insert hg
    have s2 : SMap (fun s => s = .pos) (insert c.lhs.hash c b1.rules) := k1.signs.insert hsg _
    obtain ⟨b2, h2, k2, _⟩ := reduceRuleset_spec.{u} hs posClass (fun s h => Or.inl h) (b := ⟨insert c.lhs.hash c b1.rules, b1.mag⟩)
      g2 s2 (plain_of_pos s2)
    refine ⟨b2, true, by simp [h2], k1'.trans (Kept.trans ⟨g2, s2, fun A _ _ ρ => ?_⟩ k2)⟩
    rw [insert_reduced hs hbL hg hirr ρ]
    exact ⟨fun h => h.1, fun h => ⟨h, hsem A ρ h⟩⟩

end Moment.Rules
