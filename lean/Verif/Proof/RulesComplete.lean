import Verif.Proof.RulesCombine
import Mathlib.Algebra.Star.Module
import Mathlib.Data.Nat.Bitwise

/-! The completeness test, completion, and conjugation of rulebooks. -/

namespace Moment.Rules

open Rewrite

universe u

variable {p : Pre} {L : Nat}

/-! ### The completeness test -/

theorem mem_pairs_iff {m : RMap} {a b : Rule} : (a, b) ∈ pairs m ↔ ∃ e ∈ m, ∃ e' ∈ m, e'.1 ≠ e.1 ∧ e.2 = a ∧ e'.2 = b := by
  unfold pairs
  simp only [List.mem_flatMap, List.mem_map, List.mem_filter, Prod.mk.injEq, bne_iff_ne, ne_eq]
  constructor
  · rintro ⟨e, he, e', ⟨he', hne⟩, h1, h2⟩; exact ⟨e, he, e', he', hne, h1, h2⟩
  · rintro ⟨e, he, e', he', hne, h1, h2⟩; exact ⟨e, he, e', ⟨he', hne⟩, h1, h2⟩

theorem firstNew_none {b : Book} : ∀ l : List (Rule × Rule), firstNew p b l = some none ↔
    ∀ q ∈ l, Rule.combine p q.1 q.2 = some none ∨
      ∃ c c', Rule.combine p q.1 q.2 = some (some c) ∧ b.reduceRule p c = some c' ∧ c'.trivial = true
  | [] => by simp [firstNew]
  | (x, y) :: rest => by
    rw [firstNew]
    simp only [List.forall_mem_cons]
    rcases h : Rule.combine p x y with _ | _ | c
    · simp
    · simp [firstNew_none rest]
    · rcases h' : b.reduceRule p c with _ | c'
      · simp [h']
      · simp only [h', Option.bind_eq_bind, Option.bind_some]
        cases ht : c'.trivial
        · simp only [Bool.false_eq_true, if_false]
          constructor
          · intro e; cases e
          · rintro ⟨e | ⟨a, a', e1, e2, e3⟩, _⟩
            · cases e
            · cases e1
              rw [h'] at e2; cases e2
              rw [ht] at e3; cases e3
        · simp only [if_true, firstNew_none rest]
          constructor
          · intro hr; exact ⟨Or.inr ⟨c, c', rfl, h', ht⟩, hr⟩
          · exact fun h => h.2

/-- Left sides of rules overlap in at most one way, never with themselves, and are not contained in each other. -/
structure SimpleOverlaps (R : Set RRule) : Prop where
  once : ∀ l ∈ R, ∀ l' ∈ R, ∀ x y z x' y' z', y ≠ [] → y' ≠ [] → l.1 = x ++ y → l'.1 = y ++ z → l.1 = x' ++ y' → l'.1 = y' ++ z' →
    y.length = y'.length
  self : ∀ l ∈ R, ∀ x y z, x ≠ [] → y ≠ [] → l.1 = x ++ y → l.1 = y ++ z → False
  nested : ∀ l ∈ R, ∀ l' ∈ R, l'.1 <:+: l.1 → l = l'

theorem mem_rset {m : RMap} {e : UInt64 × Rule} (h : e ∈ m) : den e.2 ∈ rset m := ⟨e, h, rfl⟩

theorem joinable_refl (R : Set RRule) (t : Term) : Joinable R t t := ⟨t, .refl, .refl⟩

/-- With real signs, if the test finds nothing new, every critical pair can be joined. -/
theorem critical_of_firstNew (hs : Small p L) {b : Book} (hb : GoodMap p L b.rules) (hreal : SMap RealSign b.rules)
    (hK : ∀ e ∈ b.rules, ∀ e' ∈ b.rules, e.2.lhs.ops.length + e'.2.lhs.ops.length ≤ L)
    (ho : SimpleOverlaps (rset b.rules)) (h : firstNew p b (pairs b.rules) = some none) : CriticalPairsJoin (rset b.rules) := by
  rw [firstNew_none] at h
  constructor
  · rintro x y z rhs1 rhs2 hy ⟨e, he, d1⟩ ⟨e', he', d2⟩
    have d1' := d1; have d2' := d2
    unfold den at d1 d2
    simp only [Prod.mk.injEq] at d1 d2
    by_cases hkey : e'.1 = e.1
    · have : e = e' := sorted_key_inj hb.2 he he' hkey.symm
      subst this
      by_cases hx : x = []
      · subst hx
        have hz : z = [] := by
          have := d1.1.symm.trans d2.1
          simpa using this
        subst hz
        have : rhs1 = rhs2 := d1.2.symm.trans d2.2
        subst this
        exact joinable_refl _ _
      · exact (ho.self _ (mem_rset he) x y z hx hy d1.1 d2.1).elim
    · -- different rules
      have hx : x ≠ [] := by
        rintro rfl
        have := ho.nested _ (mem_rset he') _ (mem_rset he) (by
          show e.2.lhs.ops <:+: e'.2.lhs.ops
          rw [d1.1, d2.1]; exact (List.prefix_append _ _).isInfix)
        have e1 : e'.2.lhs.ops = e.2.lhs.ops := congrArg Prod.fst this
        exact hkey (by
          rw [(hb.1 _ he').1, (hb.1 _ he).1, (hb.1 _ he').2.lhs_hash, (hb.1 _ he).2.lhs_hash, e1])
      have hz : z ≠ [] := by
        rintro rfl
        have := ho.nested _ (mem_rset he) _ (mem_rset he') (by
          show e'.2.lhs.ops <:+: e.2.lhs.ops
          rw [d1.1, d2.1, List.append_nil]; exact (List.suffix_append _ _).isInfix)
        have e1 : e.2.lhs.ops = e'.2.lhs.ops := congrArg Prod.fst this
        exact hkey (by
          rw [(hb.1 _ he').1, (hb.1 _ he).1, (hb.1 _ he').2.lhs_hash, (hb.1 _ he).2.lhs_hash, e1])
      have g := (hb.1 _ he).2
      have g' := (hb.1 _ he').2
      obtain ⟨x0, y0, z0, f1, f2, f3⟩ := overlap_split e.2.lhs.ops e'.2.lhs.ops
      have hy0 : y0 ≠ [] := by
        intro h0
        have := overlap_max d1.1 d2.1
        rw [← f3, h0] at this
        exact hy (List.length_eq_zero_iff.mp (by simpa using this))
      have hlen : overlap e.2.lhs.ops e'.2.lhs.ops = y.length := by
        rw [← f3]
        exact (ho.once _ (mem_rset he) _ (mem_rset he') x y z x0 y0 z0 hy hy0 d1.1 d2.1 f1 f2).symm
      obtain ⟨c, hc, hcc⟩ := combine_spec hs g g' d1.1 d2.1 hy hlen (by
        have := hK _ he _ he'
        rw [d1.1, d2.1] at this
        simp only [List.length_append] at this ⊢; omega)
      have hcs : RealSign c.rhs.sign := hcc.signs _ realClass (hreal _ he) (hreal _ he')
      rcases h _ (mem_pairs_iff.mpr ⟨e, he, e', he', hkey, rfl, rfl⟩) with hn | ⟨c1, c', h1, h2, h3⟩
      · simp only [hc] at hn; cases hn
      · simp only [hc] at h1; cases h1
        obtain ⟨c'', a, d, k1, k2⟩ := reduceRule_spec.{0} hs hb realClass (fun _ h => h) hreal hcc.lhs hcc.rhs
          (by rw [hcc.sign]; exact realClass.pos) hcs
        rw [h2] at k1; cases k1
        rcases k2.cases with ⟨_, heq⟩ | ⟨hg, _⟩
        · have j : Joinable (rset b.rules) (term c.lhs) (term c.rhs) :=
            ⟨term a, k2.lhs.steps (fun _ _ => hcc.sign), by rw [heq]; exact k2.rhs.steps (hcc.plain hx hz)⟩
          obtain ⟨q, hq⟩ := hcc.sides
          have j' := j.ctx q [] []
          rw [← d1.2, ← d2.2]
          rcases hq with ⟨q1, q2⟩ | ⟨q1, q2⟩
          · rw [q1, q2] at j'; exact j'
          · rw [q1, q2] at j'; exact j'.symm
        · rw [hg.trivial] at h3; cases h3
  · rintro x l z rhs1 rhs2 hm1 hm2
    have := ho.nested _ hm1 _ hm2 (List.infix_append x l z)
    simp only [Prod.mk.injEq] at this
    obtain ⟨e1, e2⟩ := this
    have hlen := congrArg List.length e1
    simp only [List.length_append] at hlen
    have hx : x = [] := List.length_eq_zero_iff.mp (by omega)
    have hz : z = [] := List.length_eq_zero_iff.mp (by omega)
    subst hx; subst hz
    have hctx : ctx .pos [] [] rhs2 = rhs2 := by
      rcases rhs2 with _ | ⟨s, w⟩
      · rfl
      · simp [ctx]
    rw [hctx, e2]
    exact joinable_refl _ _

/-- The other direction: where results are unique, the test finds nothing new. -/
theorem firstNew_of_unique (hs : Small p L) {b : Book} (hb : GoodMap p L b.rules) (hreal : SMap RealSign b.rules)
    (hne : ∀ e ∈ b.rules, e.2.lhs.ops ≠ [])
    (hnest : ∀ l ∈ rset b.rules, ∀ l' ∈ rset b.rules, l'.1 <:+: l.1 → l = l')
    (hK : ∀ e ∈ b.rules, ∀ e' ∈ b.rules, e.2.lhs.ops.length + e'.2.lhs.ops.length ≤ L)
    (hu : UniqueResults (rset b.rules)) : firstNew p b (pairs b.rules) = some none := by
  rw [firstNew_none]
  rintro ⟨a, a'⟩ hq
  obtain ⟨e, he, e', he', hkey, rfl, rfl⟩ := mem_pairs_iff.mp hq
  have g := (hb.1 _ he).2
  have g' := (hb.1 _ he').2
  rcases combine_total hs g g' (hK _ he _ he') with h | ⟨x, y, z, c, hy, e1, e2, h, hc⟩
  · exact Or.inl h
  · right
    have same : ∀ d d' : UInt64 × Rule, d ∈ b.rules → d' ∈ b.rules → d'.2.lhs.ops <:+: d.2.lhs.ops → d.1 = d'.1 := by
      intro d d' hd hd' hi
      have := hnest _ (mem_rset hd) _ (mem_rset hd') hi
      have e1 : d.2.lhs.ops = d'.2.lhs.ops := congrArg Prod.fst this
      rw [(hb.1 _ hd').1, (hb.1 _ hd).1, (hb.1 _ hd').2.lhs_hash, (hb.1 _ hd).2.lhs_hash, e1]
    have hx : x ≠ [] := by
      rintro rfl
      exact hkey (same e' e he' he (by rw [e1, e2]; exact (List.prefix_append _ _).isInfix))
    have hz : z ≠ [] := by
      rintro rfl
      exact hkey (same e e' he he' (by rw [e1, e2, List.append_nil]; exact (List.suffix_append _ _).isInfix)).symm
    have hcs : RealSign c.rhs.sign := hc.signs _ realClass (hreal _ he) (hreal _ he')
    obtain ⟨c', s, t, k1, k2⟩ := reduceRule_spec.{0} hs hb realClass (fun _ h => h) hreal hc.lhs hc.rhs
      (by rw [hc.sign]; exact realClass.pos) hcs
    refine ⟨c, c', h, k1, ?_⟩
    rcases k2.cases with ⟨ht, _⟩ | ⟨_, _, _, _, hneq⟩
    · exact ht
    · exfalso
      obtain ⟨q, hq⟩ := hc.sides
      have s1 := steps_ctx q [] [] (k2.lhs.steps (fun _ _ => hc.sign))
      have s2 := steps_ctx q [] [] (k2.rhs.steps (hc.plain hx hz))
      have o1 : Steps (rset b.rules) (some (.pos, x ++ y ++ z)) (viaLeft e.2 z) := by
        have := step_of_rule (mem_rset he) .pos [] z
        simp only [e1, List.nil_append] at this
        exact .single this
      have o2 : Steps (rset b.rules) (some (.pos, x ++ y ++ z)) (viaRight e'.2 x) := by
        have := step_of_rule (mem_rset he') .pos x []
        simp only [e2, List.append_nil, ← List.append_assoc] at this
        exact .single this
      have nrm : ∀ v : HSeq, Irr b.rules v.ops → Normal (rset b.rules) (ctx q [] [] (term v)) := by
        intro v hv
        unfold term
        split
        · exact normal_none
        · simp only [ctx, List.nil_append, List.append_nil]
          rw [normal_some]
          rintro rule ⟨d, hd, rfl⟩
          exact hv d hd (hne d hd)
      have key : ctx q [] [] (term s) = ctx q [] [] (term t) := by
        rcases hq with ⟨q1, q2⟩ | ⟨q1, q2⟩
        · rw [q1] at s1; rw [q2] at s2
          exact hu _ _ _ (o1.trans s1) (o2.trans s2) (nrm _ k2.lhs.irr) (nrm _ k2.rhs.irr)
        · rw [q1] at s1; rw [q2] at s2
          exact hu _ _ _ (o2.trans s1) (o1.trans s2) (nrm _ k2.lhs.irr) (nrm _ k2.rhs.irr)
      apply hneq
      rcases hs1 : term s with _ | ⟨a1, b1⟩ <;> rcases ht1 : term t with _ | ⟨a2, b2⟩ <;> rw [hs1, ht1] at key <;> simp [ctx] at key
      · rw [key.1, key.2]

/-! ### Completion of books whose signs are all positive -/

/-- The book `b'` can be reached from `b` by successful calls of `try_new_combination`. -/
inductive Reached (p : Pre) (b : Book) : Book → Prop
  | refl : Reached p b b
  | step {b1 b2 : Book} : Reached p b b1 → b1.tryNewCombination p = some (b2, true) → Reached p b b2

theorem Reached.head {b b1 b2 : Book} (h : b.tryNewCombination p = some (b1, true)) (hr : Reached p b1 b2) : Reached p b b2 := by
  induction hr with
  | refl => exact .step .refl h
  | step _ h' ih => exact .step ih h'

theorem completeLoop_spec (hs : Small p L) {K : Nat} (hK : 2 * K ≤ L) : ∀ (n : Nat) (b : Book), GoodMap p L b.rules →
    SMap (fun s => s = .pos) b.rules → (∀ b', Reached p b b' → ∀ e ∈ b'.rules, e.2.lhs.ops.length ≤ K) →
    ∃ b' f, completeLoop p n b = some (b', f) ∧ Kept.{u} p L (fun s => s = .pos) b.rules b'.rules
  | 0, b, hg, hp, _ => ⟨b, false, rfl, Kept.refl hg hp⟩
  | n + 1, b, hg, hp, hr => by
    obtain ⟨b1, f, h1, k1⟩ := tryNewCombination_spec.{u} hs hK (hg.shrink hs (hr b .refl)) hp
    rw [completeLoop]
    simp only [h1, Option.bind_eq_bind, Option.bind_some]
    cases f with
    | false => exact ⟨b1.remag, true, rfl, k1⟩
    | true =>
      obtain ⟨b2, f2, h2, k2⟩ := completeLoop_spec hs hK n b1 k1.good k1.signs (fun b' hb' => hr b' (hb'.head h1))
      exact ⟨b2, f2, by simpa using h2, k1.trans k2⟩

/-! ### Conjugation -/

section Star

variable {A : Type u} [Ring A] [StarRing A] [Algebra ℂ A] [StarModule ℂ A]

/-- The operator standing for the adjoint of operator `o`. -/
def Pre.adj (p : Pre) (o : Nat) : Nat :=
  match p.mode with
  | .selfAdjoint => o
  | .bunched => (o + p.raw) % p.num
  | .interleaved => o ^^^ 1

theorem conjWord_eq (p : Pre) (w : List Nat) : p.conjWord w = w.reverse.map p.adj := by
  obtain ⟨r, m⟩ := p
  cases m with
  | selfAdjoint =>
    have : Pre.adj ⟨r, .selfAdjoint⟩ = id := rfl
    rw [this, List.map_id]; rfl
  | bunched => rfl
  | interleaved => rfl

theorem xor_one_div (o : Nat) : (o ^^^ 1) / 2 = o / 2 ∧ (o ^^^ 1) % 2 = (o + 1) % 2 := by
  constructor
  · rw [Nat.xor_div_two]; simp
  · exact Nat.xor_mod_two_eq

/-- An interpretation in which conjugate operators are adjoint elements. -/
def StarCompat (p : Pre) (ρ : Nat → A) : Prop := ∀ o < p.num, ρ (p.adj o) = star (ρ o)

theorem adj_lt (p : Pre) {o : Nat} (h : o < p.num) : p.adj o < p.num := by
  obtain ⟨r, m⟩ := p
  cases m with
  | selfAdjoint => exact h
  | bunched => simp only [Pre.adj]; exact Nat.mod_lt _ (by omega)
  | interleaved =>
    simp only [Pre.adj, Pre.num] at h ⊢
    simp only [reduceCtorEq, if_false] at h ⊢
    have := xor_one_div o
    omega

theorem phase_conj (s : Sign) : phase s.conj = star (phase s) := by
  cases s <;> simp [phase, Sign.conj] <;> rfl

omit [Algebra ℂ A] [StarModule ℂ A] in
theorem evalWord_conj {ρ : Nat → A} (hρ : StarCompat p ρ) : ∀ {w : List Nat}, (∀ o ∈ w, o < p.num) →
    evalWord ρ (p.conjWord w) = star (evalWord ρ w)
  | [], _ => by rw [conjWord_eq]; simp [evalWord]
  | a :: w, h => by
    have ih := evalWord_conj hρ (w := w) (fun o ho => h o (List.mem_cons_of_mem _ ho))
    rw [conjWord_eq] at ih ⊢
    rw [List.reverse_cons, List.map_append, evalWord_append, ih]
    simp [evalWord, hρ a (h a (by simp))]

theorem conjWord_isWord {w : List Nat} (h : IsWord p L w) : IsWord p L (p.conjWord w) := by
  rw [conjWord_eq]
  refine ⟨fun o ho => ?_, by simpa using h.2⟩
  obtain ⟨a, ha, rfl⟩ := List.mem_map.mp ho
  exact adj_lt p (h.1 a (List.mem_reverse.mp ha))

theorem conjSeq_good {x : HSeq} (h : GoodSeq p L x) : GoodSeq p L (p.conjSeq x) := by
  unfold Pre.conjSeq
  split
  · exact GoodSeq.zero
  · exact GoodSeq.mk _ (conjWord_isWord h.1) _

theorem eval_conjSeq (hs : Small p L) {x : HSeq} (h : GoodSeq p L x) {ρ : Nat → A} (hρ : StarCompat p ρ) :
    eval ρ (term (p.conjSeq x)) = star (eval ρ (term x)) := by
  unfold Pre.conjSeq
  by_cases h0 : x.hash = 0
  · have : x.isZero = true := by simp [HSeq.isZero, h0]
    rw [if_pos this]
    simp [term, h0, HSeq.zero, eval]
  · have : x.isZero = false := by simpa [HSeq.isZero] using h0
    rw [this]
    simp only [Bool.false_eq_true, if_false]
    have hh := hash_ne_zero hs (conjWord_isWord h.1)
    simp only [term, hh, h0, if_false, eval]
    rw [evalWord_conj hρ h.1.1, phase_conj, star_smul]

/-- The conjugate of a rule states the adjoint equation. -/
theorem conjugate_spec (hs : Small p L) {r : Rule} (hl : GoodSeq p L r.lhs) (hr : GoodSeq p L r.rhs) :
    ∃ c, r.conjugate p = some c ∧ GoodSeq p L c.lhs ∧ GoodSeq p L c.rhs ∧ c.lhs.sign = .pos ∧
      (∀ S, SignClass S → (∀ s, S s → S s.conj) → S r.lhs.sign → S r.rhs.sign → S c.rhs.sign) ∧
      ∀ (A : Type u) [Ring A] [StarRing A] [Algebra ℂ A] [StarModule ℂ A] (ρ : Nat → A), StarCompat p ρ → (ruleEq ρ c ↔ ruleEq ρ r) := by
  have sgn : ∀ S, SignClass S → (∀ s, S s → S s.conj) → ∀ x : HSeq, S x.sign → S (p.conjSeq x).sign := by
    intro S hS hc x hx
    unfold Pre.conjSeq
    split
    · exact hS.pos
    · exact hc _ hx
  unfold Rule.conjugate
  simp only
  split
  · rename_i h
    obtain ⟨c, hc, el, er⟩ := make_some (x := p.conjSeq r.rhs) (y := p.conjSeq r.lhs) (UInt64.le_of_lt h)
    refine ⟨c, hc, by rw [el]; exact conjSeq_good hr, by rw [er]; exact conjSeq_good hl, by rw [el], ?_, ?_⟩
    · intro S hS hc' h1 h2
      rw [er]; exact hS.difference _ _ (sgn S hS hc' _ h2) (sgn S hS hc' _ h1)
    · intro A _ _ _ _ ρ hρ
      rw [ruleEq_make ρ hc, eval_conjSeq hs hl hρ, eval_conjSeq hs hr hρ, star_inj]
      exact eq_comm
  · rename_i h
    obtain ⟨c, hc, el, er⟩ := make_some (x := p.conjSeq r.lhs) (y := p.conjSeq r.rhs) (UInt64.not_lt.mp h)
    refine ⟨c, hc, by rw [el]; exact conjSeq_good hl, by rw [er]; exact conjSeq_good hr, by rw [el], ?_, ?_⟩
    · intro S hS hc' h1 h2
      rw [er]; exact hS.difference _ _ (sgn S hS hc' _ h1) (sgn S hS hc' _ h2)
    · intro A _ _ _ _ ρ hρ
      rw [ruleEq_make ρ hc, eval_conjSeq hs hl hρ, eval_conjSeq hs hr hρ, star_inj]
      rfl

/-- Same consequences in every `*`-algebra. -/
structure KeptStar (p : Pre) (L : Nat) (m m' : RMap) : Prop where
  good : GoodMap p L m'
  signs : SMap (fun s => s = .pos) m'
  sem : ∀ (A : Type u) [Ring A] [StarRing A] [Algebra ℂ A] [StarModule ℂ A] (ρ : Nat → A), StarCompat p ρ → (MapHolds ρ m' ↔ MapHolds ρ m)

theorem KeptStar.refl {m : RMap} (h : GoodMap p L m) (hS : SMap (fun s => s = .pos) m) : KeptStar.{u} p L m m :=
  ⟨h, hS, fun _ _ _ _ _ _ _ => Iff.rfl⟩

theorem KeptStar.trans {m m' m'' : RMap} (h1 : KeptStar.{u} p L m m') (h2 : KeptStar.{u} p L m' m'') : KeptStar.{u} p L m m'' :=
  ⟨h2.good, h2.signs, fun A _ _ _ _ ρ hρ => (h2.sem A ρ hρ).trans (h1.sem A ρ hρ)⟩

theorem Kept.star {m m' : RMap} (h : Kept.{u} p L (fun s => s = .pos) m m') : KeptStar.{u} p L m m' :=
  ⟨h.good, h.signs, fun A _ _ _ _ ρ _ => h.sem A ρ⟩

theorem tryConjugation_spec (hs : Small p L) {b : Book} (hb : GoodMap p L b.rules) (hpos : SMap (fun s => s = .pos) b.rules)
    {k : UInt64} {r : Rule} (hr : (k, r) ∈ b.rules) :
    ∃ b' f, b.tryConjugation p r = some (b', f) ∧ KeptStar.{u} p L b.rules b'.rules := by
  have g := (hb.1 _ hr).2
  have hrs : r.rhs.sign = .pos := hpos _ hr
  obtain ⟨c, hc, gl, gr, sl, ssr, sem⟩ := conjugate_spec.{u} hs g.lhs g.rhs
  have hcs : c.rhs.sign = .pos := ssr _ posClass (fun s h => by rw [h]; rfl) g.sign hrs
  obtain ⟨c', a, d, h', hred⟩ := reduceRule_spec.{u} hs hb posClass (fun s h => Or.inl h) hpos gl gr sl hcs
  unfold Book.tryConjugation
  simp only [hc, h', Option.bind_eq_bind, Option.bind_some]
  rcases hred.cases with ⟨ht, _⟩ | ⟨hg, hsg, hirr, _⟩
  · rw [ht]; exact ⟨b, false, rfl, KeptStar.refl hb hpos⟩
  · rw [hg.trivial]
    simp only [Bool.false_eq_true, if_false]
    have g2 : GoodMap p L (insert c'.lhs.hash c' b.rules) := hb.insert hg
    have s2 : SMap (fun s => s = .pos) (insert c'.lhs.hash c' b.rules) := hpos.insert hsg _
    obtain ⟨b2, h2, k2, _⟩ := reduceRuleset_spec.{u} hs posClass (fun s h => Or.inl h) (b := ⟨insert c'.lhs.hash c' b.rules, b.mag⟩)
      g2 s2 (plain_of_pos s2)
    refine ⟨b2, true, by simp [h2], KeptStar.trans ⟨g2, s2, fun A _ _ _ _ ρ hρ => ?_⟩ k2.star⟩
    rw [insert_reduced hs hb hg hirr ρ]
    refine ⟨fun h => h.1, fun h => ⟨h, ?_⟩⟩
    rw [hred.sem A ρ, ← reduced_eval ρ hs hb h hred.lhs (fun _ _ => sl), ← reduced_eval ρ hs hb h hred.rhs (fun _ _ => hcs)]
    exact (sem A ρ hρ).mpr (h _ hr)

theorem conjugateLoop_spec (hs : Small p L) (b : Book) (it : Option UInt64) (n : Nat) (res : Book × Nat)
    (h : conjugateLoop p b it n = some res) :
    GoodMap p L b.rules → SMap (fun s => s = .pos) b.rules → KeptStar.{u} p L b.rules res.1.rules := by
  refine conjugateLoop.partial_correctness p
    (motive := fun b it n res => GoodMap p L b.rules → SMap (fun s => s = .pos) b.rules → KeptStar.{u} p L b.rules res.1.rules)
    ?_ b it n res h
  intro loop ih b it n res h hg hp
  cases it with
  | none => simp only [Option.some.injEq] at h; subst h; exact KeptStar.refl hg hp
  | some k =>
    simp only at h
    cases hf : find k b.rules with
    | none => rw [hf] at h; simp at h
    | some r =>
      rw [hf] at h
      simp only at h
      obtain ⟨b', f, h1, k1⟩ := tryConjugation_spec.{u} hs hg hp (find_some hf)
      rw [h1] at h
      simp only [Option.bind_eq_bind, Option.bind_some] at h
      cases f with
      | true =>
        simp only [if_true] at h
        cases hk : firstKey b'.rules with
        | none => rw [hk] at h; simp at h
        | some k0 =>
          rw [hk] at h
          exact k1.trans (ih _ _ _ _ h k1.good k1.signs)
      | false =>
        simp only [Bool.false_eq_true, if_false] at h
        exact k1.trans (ih _ _ _ _ h k1.good k1.signs)

end Star

end Moment.Rules
