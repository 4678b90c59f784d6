import Verif.Proof.RulesReduce
import Mathlib.Tactic.LinearCombination

/-! Operations that change rulebooks keep the consequences of the rules. -/

namespace Moment.Rules

open Rewrite

universe u

variable {p : Pre} {L : Nat}

/-! ### Maps -/

theorem mem_insert {k : UInt64} {v : Rule} {m : RMap} {e : UInt64 × Rule} (h : e ∈ insert k v m) : e = (k, v) ∨ e ∈ m := by
  induction m with
  | nil => simp [insert] at h; exact Or.inl h
  | cons a m ih =>
    obtain ⟨k', v'⟩ := a
    rw [insert] at h
    split at h
    · rcases List.mem_cons.mp h with h | h
      · exact Or.inl h
      · exact Or.inr h
    · split at h
      · rcases List.mem_cons.mp h with h | h
        · exact Or.inr (by rw [h]; simp)
        · rcases ih h with h | h
          · exact Or.inl h
          · exact Or.inr (List.mem_cons_of_mem _ h)
      · exact Or.inr h

theorem subset_insert {k : UInt64} {v : Rule} {m : RMap} {e : UInt64 × Rule} (h : e ∈ m) : e ∈ insert k v m := by
  induction m with
  | nil => simp at h
  | cons a m ih =>
    obtain ⟨k', v'⟩ := a
    rw [insert]
    split
    · exact List.mem_cons_of_mem _ h
    · split
      · rcases List.mem_cons.mp h with h | h
        · rw [h]; simp
        · exact List.mem_cons_of_mem _ (ih h)
      · exact h

theorem mem_insert_self {k : UInt64} {v : Rule} {m : RMap} (h : ∀ e ∈ m, e.1 ≠ k) : (k, v) ∈ insert k v m := by
  induction m with
  | nil => simp [insert]
  | cons a m ih =>
    obtain ⟨k', v'⟩ := a
    rw [insert]
    split
    · simp
    · split
      · exact List.mem_cons_of_mem _ (ih fun e he => h e (List.mem_cons_of_mem _ he))
      · rename_i h1 h2
        have : k' = k := UInt64.le_antisymm (UInt64.not_lt.mp h1) (UInt64.not_lt.mp h2)
        exact absurd this (h (k', v') (by simp))

theorem insert_sorted {k : UInt64} {v : Rule} {m : RMap} (h : m.Pairwise (fun a b => a.1 < b.1)) :
    (insert k v m).Pairwise (fun a b => a.1 < b.1) := by
  induction m with
  | nil => simp [insert]
  | cons a m ih =>
    obtain ⟨k', v'⟩ := a
    rw [List.pairwise_cons] at h
    rw [insert]
    split
    · rename_i hk
      rw [List.pairwise_cons]
      refine ⟨?_, List.pairwise_cons.mpr h⟩
      intro b hb
      rcases List.mem_cons.mp hb with rfl | hb
      · exact hk
      · exact UInt64.lt_trans hk (h.1 b hb)
    · split
      · rename_i hk
        rw [List.pairwise_cons]
        refine ⟨?_, ih h.2⟩
        intro b hb
        rcases mem_insert hb with rfl | hb
        · exact hk
        · exact h.1 b hb
      · exact List.pairwise_cons.mpr h

theorem mem_erase {k : UInt64} {m : RMap} {e : UInt64 × Rule} : e ∈ erase k m ↔ e ∈ m ∧ e.1 ≠ k := by simp [erase]

theorem erase_sorted {k : UInt64} {m : RMap} (h : m.Pairwise (fun a b => a.1 < b.1)) :
    (erase k m).Pairwise (fun a b => a.1 < b.1) := List.Pairwise.filter _ h

theorem GoodMap.erase {m : RMap} (hm : GoodMap p L m) (k : UInt64) : GoodMap p L (erase k m) :=
  ⟨fun e he => hm.1 e (mem_erase.mp he).1, erase_sorted hm.2⟩

theorem GoodMap.insert {m : RMap} (hm : GoodMap p L m) {r : Rule} (hr : GoodRule p L r) : GoodMap p L (insert r.lhs.hash r m) :=
  ⟨fun e he => by rcases mem_insert he with rfl | he
                  · exact ⟨rfl, hr⟩
                  · exact hm.1 e he, insert_sorted hm.2⟩

/-- Keys determine entries. -/
theorem sorted_key_inj {m : RMap} (h : m.Pairwise (fun a b => a.1 < b.1)) {a b : UInt64 × Rule} (ha : a ∈ m) (hb : b ∈ m)
    (he : a.1 = b.1) : a = b := by
  induction m with
  | nil => simp at ha
  | cons c m ih =>
    rw [List.pairwise_cons] at h
    rcases List.mem_cons.mp ha with rfl | ha' <;> rcases List.mem_cons.mp hb with rfl | hb'
    · rfl
    · exact absurd he (UInt64.ne_of_lt (h.1 b hb'))
    · exact absurd he.symm (UInt64.ne_of_lt (h.1 a ha'))
    · exact ih h.2 ha' hb'

theorem find_mem {m : RMap} (h : m.Pairwise (fun a b => a.1 < b.1)) {e : UInt64 × Rule} (he : e ∈ m) : find e.1 m = some e.2 := by
  cases hf : find e.1 m with
  | none => exact absurd rfl (find_none hf e he)
  | some r =>
    have := sorted_key_inj h he (find_some hf) rfl
    rw [this]

theorem erase_insert_length {m : RMap} (h : m.Pairwise (fun a b => a.1 < b.1)) {k : UInt64} {r : Rule} (hf : find k m = some r) :
    (erase k m).length + 1 = m.length := by
  induction m with
  | nil => simp [find] at hf
  | cons c m ih =>
    obtain ⟨k', v⟩ := c
    rw [List.pairwise_cons] at h
    rw [find] at hf
    by_cases hk : k' = k
    · have : erase k ((k', v) :: m) = m := by
        unfold Rules.erase
        rw [List.filter_cons_of_neg (by simp [hk])]
        refine List.filter_eq_self.mpr fun e he => ?_
        have := h.1 e he
        simp only [bne_iff_ne, ne_eq]
        intro e2
        rw [e2, ← hk] at this
        exact UInt64.lt_irrefl _ this
      rw [this]; simp
    · rw [if_neg hk] at hf
      have : erase k ((k', v) :: m) = (k', v) :: erase k m := by
        unfold Rules.erase
        rw [List.filter_cons_of_pos (by simpa using hk)]
      rw [this]; simp [ih h.2 hf]

theorem insert_length {m : RMap} {k : UInt64} {r : Rule} (hf : ∀ e ∈ m, e.1 ≠ k) : (insert k r m).length = m.length + 1 := by
  induction m with
  | nil => simp [insert]
  | cons c m ih =>
    obtain ⟨k', v⟩ := c
    rw [insert]
    split
    · simp
    · split
      · simp [ih fun e he => hf e (List.mem_cons_of_mem _ he)]
      · rename_i h1 h2
        have : k' = k := UInt64.le_antisymm (UInt64.not_lt.mp h1) (UInt64.not_lt.mp h2)
        exact absurd this (hf (k', v) (by simp))

/-! ### Consequences -/

section Algebra
variable {A : Type u} [Ring A] [Algebra ℂ A] (ρ : Nat → A)

/-- All rules of the map are true equations. -/
def MapHolds (m : RMap) : Prop := ∀ e ∈ m, ruleEq ρ e.2

theorem mapHolds_iff (hs : Small p L) {m : RMap} (hm : GoodMap p L m) : MapHolds ρ m ↔ Models ρ (rset m) := by
  constructor
  · rintro h _ ⟨e, he, rfl⟩
    exact (holds_iff ρ hs (hm.1 e he).2).mp (h e he)
  · intro h e he
    exact (holds_iff ρ hs (hm.1 e he).2).mpr (h _ ⟨e, he, rfl⟩)

/-- Value without the phase. -/
noncomputable def bare (x : HSeq) : A := eval ρ (term { x with sign := .pos })

theorem eval_term (x : HSeq) : eval ρ (term x) = phase x.sign • bare ρ x := eval_pos ρ x

theorem bare_congr (hs : Small p L) {x y : HSeq} (hx : GoodSeq p L x) (hy : GoodSeq p L y) (h : x.hash = y.hash) :
    bare ρ x = bare ρ y := by
  unfold bare term
  dsimp only
  rw [h]
  split
  · rfl
  · rename_i h0
    rcases hx.2 with h1 | h1
    · exact absurd (h ▸ h1.1) h0
    · rcases hy.2 with h2 | h2
      · exact absurd h2.1 h0
      · rw [h1, h2, hash_inj hs hx.1 hy.1] at h
        rw [h]

theorem two_ne (x : A) (a b : Sign) (hab : a ≠ b) : phase a • x = phase b • x ↔ x = 0 := by
  constructor
  · intro h
    have h1 : (phase a - phase b) • x = 0 := by rw [sub_smul, h, sub_self]
    have h2 : phase a - phase b ≠ 0 := sub_ne_zero.mpr fun e => hab (phase_injective e)
    have := congrArg (fun z => (phase a - phase b)⁻¹ • z) h1
    simpa [smul_smul, inv_mul_cancel₀ h2] using this
  · rintro rfl; simp

theorem reduced_eval (hs : Small p L) {m : RMap} (hm : GoodMap p L m) (h : MapHolds ρ m) {x y : HSeq} (hr : Reduced p L m x y)
    (hp : Plain x) : eval ρ (term x) = eval ρ (term y) :=
  steps_sound ρ ((mapHolds_iff ρ hs hm).mp h) (hr.steps hp)

end Algebra

theorem term_eq_of (hs : Small p L) {x y : HSeq} (hx : GoodSeq p L x) (hy : GoodSeq p L y) (h : x.hash = y.hash)
    (hsign : x.hash ≠ 0 → x.sign = y.sign) : term x = term y := by
  unfold term
  rw [h]
  split
  · rfl
  · rename_i h0
    rcases hx.2 with h1 | h1
    · exact absurd (h ▸ h1.1) h0
    · rcases hy.2 with h2 | h2
      · exact absurd h2.1 h0
      · rw [hsign (by rw [h]; exact h0)]
        rw [h1, h2, hash_inj hs hx.1 hy.1] at h
        rw [h]

theorem hash_eq_of {x y : HSeq} (hx : GoodSeq p L x) (hy : GoodSeq p L y) (h : term x = term y) :
    x.hash = y.hash := by
  unfold term at h
  by_cases h1 : x.hash = 0 <;> by_cases h2 : y.hash = 0
  · rw [h1, h2]
  · simp [h1, h2] at h
  · simp [h1, h2] at h
  · simp only [h1, h2, if_false, Option.some.injEq, Prod.mk.injEq] at h
    rcases hx.2 with h3 | h3
    · exact absurd h3.1 h1
    · rcases hy.2 with h4 | h4
      · exact absurd h4.1 h2
      · rw [h3, h4, h.2]

/-- Outcome of reducing a rule whose signs are all real. -/
structure RuleReduced (p : Pre) (L : Nat) (S : Sign → Prop) (m : RMap) (r c : Rule) (x y : HSeq) : Prop where
  lhs : Reduced p L m r.lhs x
  rhs : Reduced p L m r.rhs y
  cases : (c.trivial = true ∧ term x = term y) ∨
    (GoodRule p L c ∧ S c.rhs.sign ∧ Irr m c.lhs.ops ∧ (c.lhs.hash ≤ r.lhs.hash ∨ c.lhs.hash ≤ r.rhs.hash) ∧ term x ≠ term y)
  sem : ∀ (A : Type u) [Ring A] [Algebra ℂ A] (ρ : Nat → A), ruleEq ρ c ↔ eval ρ (term x) = eval ρ (term y)

theorem reduceRule_spec (hs : Small p L) {b : Book} (hb : GoodMap p L b.rules) {S : Sign → Prop} (hS : SignClass S)
    (hSr : ∀ s, S s → RealSign s) (hbS : SMap S b.rules) {r : Rule} (hl : GoodSeq p L r.lhs) (hr : GoodSeq p L r.rhs)
    (hlS : S r.lhs.sign) (hrS : S r.rhs.sign) :
    ∃ c x y, b.reduceRule p r = some c ∧ RuleReduced.{u} p L S b.rules r c x y := by
  obtain ⟨x, hx, rx⟩ := reduce_spec hs hb hl
  obtain ⟨y, hy, ry⟩ := reduce_spec hs hb hr
  have hxS := rx.signs S hS hbS hlS
  have hyS := ry.signs S hS hbS hrS
  have hrel : S (x.sign.difference y.sign) := hS.difference _ _ hxS hyS
  unfold Book.reduceRule
  simp only [hx, hy, Option.bind_eq_bind, Option.bind_some]
  have zero_lt : ∀ z : HSeq, z.hash ≠ 0 → HSeq.zero.hash < z.hash := by
    intro z hz
    show (0 : UInt64) < z.hash
    rcases UInt64.lt_or_eq_of_le (UInt64.zero_le (a := z.hash)) with h | h
    · exact h
    · exact absurd h.symm hz
  by_cases hA : x.hash = y.hash ∧ x.sign.difference y.sign = .neg
  · rw [if_pos hA]
    have hx0 : x.hash ≠ 0 := by
      intro h0
      have h1 := rx.zeroSign h0
      have h2 := ry.zeroSign (hA.1 ▸ h0)
      rw [h1, h2] at hA
      exact absurd hA.2 (by decide)
    obtain ⟨c, hc, hg, el, er⟩ := goodRule_make (x := { x with sign := .pos }) (y := HSeq.zero) rx.good GoodSeq.zero (zero_lt x hx0)
    refine ⟨c, x, y, hc, ⟨rx, ry, Or.inr ⟨hg, ?_, ?_, ?_⟩, ?_⟩⟩
    · rw [er]; exact hS.difference _ _ hS.pos hS.pos
    · rw [el]; exact rx.irr
    · rw [el]
      refine ⟨Or.inl rx.le, fun h => ?_⟩
      have hy0 : y.hash ≠ 0 := hA.1 ▸ hx0
      simp only [term, hx0, hy0, if_false, Option.some.injEq, Prod.mk.injEq] at h
      rw [h.1] at hA
      exact absurd hA.2 (by cases y.sign <;> decide)
    · intro A _ _ ρ
      rw [ruleEq_make ρ hc, eval_term ρ x, eval_term ρ y, ← bare_congr ρ hs rx.good ry.good hA.1,
        two_ne _ x.sign y.sign (by
          intro e; rw [e] at hA; exact absurd hA.2 (by cases y.sign <;> decide))]
      rfl
  · rw [if_neg hA]
    by_cases hB : y.hash < x.hash
    · rw [if_pos hB]
      obtain ⟨c, hc, hg, el, er⟩ := goodRule_make (x := { x with sign := .pos }) (y := { y with sign := x.sign.difference y.sign })
        rx.good ry.good hB
      refine ⟨c, x, y, hc, ⟨rx, ry, Or.inr ⟨hg, ?_, ?_, ?_⟩, ?_⟩⟩
      · rw [er]; exact hS.difference _ _ hS.pos hrel
      · rw [el]; exact rx.irr
      · rw [el]
        exact ⟨Or.inl rx.le, fun h => UInt64.ne_of_lt hB (hash_eq_of rx.good ry.good h).symm⟩
      · intro A _ _ ρ
        rw [ruleEq_make ρ hc, eval_term ρ x, eval_term ρ y, eval_term ρ { x with sign := .pos },
          eval_term ρ { y with sign := x.sign.difference y.sign }, ← smul_phase_cancel x.sign, smul_smul, smul_smul, phase_difference]
        rw [phase_pos, mul_one]; rfl
    · rw [if_neg hB]
      have hle : x.hash ≤ y.hash := UInt64.not_lt.mp hB
      have hconj : (x.sign.difference y.sign).conj = y.sign.difference x.sign := by
        cases x.sign <;> cases y.sign <;> decide
      rcases UInt64.lt_or_eq_of_le hle with hC | hD
      · obtain ⟨c, hc, hg, el, er⟩ := goodRule_make (x := { y with sign := .pos })
          (y := { x with sign := (x.sign.difference y.sign).conj }) ry.good rx.good hC
        refine ⟨c, x, y, hc, ⟨rx, ry, Or.inr ⟨hg, ?_, ?_, ?_⟩, ?_⟩⟩
        · rw [er]
          exact hS.difference _ _ hS.pos (by rw [hconj]; exact hS.difference _ _ hyS hxS)
        · rw [el]; exact ry.irr
        · rw [el]
          exact ⟨Or.inr ry.le, fun h => UInt64.ne_of_lt hC (hash_eq_of rx.good ry.good h)⟩
        · intro A _ _ ρ
          rw [ruleEq_make ρ hc, eval_term ρ x, eval_term ρ y, eval_term ρ { y with sign := .pos },
            eval_term ρ { x with sign := (x.sign.difference y.sign).conj }, ← smul_phase_cancel y.sign, smul_smul, smul_smul, hconj,
            phase_difference]
          rw [phase_pos, mul_one]
          exact eq_comm
      · obtain ⟨c, hc, ht⟩ := make_eq (x := { y with sign := .pos }) (y := { x with sign := (x.sign.difference y.sign).conj }) hD.symm
        have hpos : x.sign.difference y.sign = .pos := by
          rcases hSr _ hrel with h | h
          · exact h
          · exact absurd ⟨hD, h⟩ hA
        have hsig : x.sign = y.sign := by
          revert hpos; cases x.sign <;> cases y.sign <;> decide
        refine ⟨c, x, y, hc, ⟨rx, ry, Or.inl ⟨?_, ?_⟩, ?_⟩⟩
        · rw [ht, hpos]
          show (!(Sign.pos.difference Sign.pos.conj).isNegative) = true
          decide
        · exact term_eq_of hs rx.good ry.good hD fun _ => hsig
        · intro A _ _ ρ
          have e := term_eq_of hs rx.good ry.good hD fun _ => hsig
          rw [ruleEq_make ρ hc, e]
          have : term { y with sign := Sign.pos } = term { x with sign := (x.sign.difference y.sign).conj } := by
            refine term_eq_of (x := { y with sign := Sign.pos }) (y := { x with sign := (x.sign.difference y.sign).conj }) hs
              ry.good rx.good hD.symm fun _ => ?_
            dsimp only
            rw [hpos]; rfl
          rw [this]; simp

/-- Inserting a rule whose left side the other rules do not touch. -/
theorem insert_reduced (hs : Small p L) {m : RMap} (hm : GoodMap p L m) {c : Rule} (hc : GoodRule p L c) (hirr : Irr m c.lhs.ops)
    {A : Type u} [Ring A] [Algebra ℂ A] (ρ : Nat → A) :
    MapHolds ρ (insert c.lhs.hash c m) ↔ MapHolds ρ m ∧ ruleEq ρ c := by
  constructor
  · intro h
    refine ⟨fun e he => h e (subset_insert he), ?_⟩
    by_cases hk : ∀ e ∈ m, e.1 ≠ c.lhs.hash
    · exact h _ (mem_insert_self hk)
    · push Not at hk
      obtain ⟨e, he, hke⟩ := hk
      have hg := hm.1 e he
      have hops : e.2.lhs.ops = c.lhs.ops := by
        rw [← hash_inj hs hg.2.lhs.1 hc.lhs.1, ← hg.2.lhs_hash, ← hc.lhs_hash, ← hg.1, hke]
      have hnil : e.2.lhs.ops = [] := by
        by_contra hne
        exact hirr e he hne (by rw [hops])
      have zero : ∀ r : Rule, GoodRule p L r → r.lhs.ops = [] → den r = ([], none) := by
        intro r hr h0
        rcases hr.rhs_cases hs with h | ⟨_, _, h⟩
        · simp [den, h0, term, h.1]
        · rw [h0] at h; exact absurd h List.not_shortlex_nil_right
      have h1 := (holds_iff ρ hs hg.2).mp (h e (subset_insert he))
      rw [holds_iff ρ hs hc, zero c hc (hops ▸ hnil)]
      rwa [zero e.2 hg.2 hnil] at h1
  · rintro ⟨h1, h2⟩ e he
    rcases mem_insert he with rfl | he
    · exact h2
    · exact h1 e he

theorem SMap.insert {S : Sign → Prop} {m : RMap} (hm : SMap S m) {c : Rule} (hc : S c.rhs.sign) (k : UInt64) : SMap S (insert k c m) := by
  intro e he
  rcases mem_insert he with rfl | he
  · exact hc
  · exact hm e he

/-! ### Reducing the whole rule set -/

theorem insert_append {k : UInt64} {v : Rule} {lo hi : RMap} (h : ∀ e ∈ hi, k < e.1) : insert k v (lo ++ hi) = insert k v lo ++ hi := by
  induction lo with
  | nil =>
    cases hi with
    | nil => rfl
    | cons a hi =>
      obtain ⟨k', v'⟩ := a
      have := h (k', v') (by simp)
      simp [insert, this]
  | cons a lo ih =>
    obtain ⟨k', v'⟩ := a
    simp only [List.cons_append, insert, ih]
    split
    · rfl
    · split <;> rfl

theorem erase_middle {k : UInt64} {r : Rule} {lo hi : RMap} (h : (lo ++ (k, r) :: hi).Pairwise (fun a b => a.1 < b.1)) :
    erase k (lo ++ (k, r) :: hi) = lo ++ hi := by
  rw [List.pairwise_append, List.pairwise_cons] at h
  unfold erase
  rw [List.filter_append, List.filter_cons_of_neg (by simp)]
  rw [List.filter_eq_self.mpr, List.filter_eq_self.mpr]
  · intro e he
    have := h.2.1.1 e he
    simp only [bne_iff_ne, ne_eq]
    intro e1; rw [e1] at this; exact UInt64.lt_irrefl _ this
  · intro e he
    have := h.2.2 e he (k, r) (by simp)
    simp only [bne_iff_ne, ne_eq]
    intro e1; rw [e1] at this; exact UInt64.lt_irrefl _ this

theorem nextKey_append {k : UInt64} {lo hi : RMap} (h1 : ∀ e ∈ lo, ¬ k < e.1) (h2 : ∀ e ∈ hi, k < e.1) :
    nextKey k (lo ++ hi) = firstKey hi := by
  unfold nextKey firstKey
  rw [List.find?_append]
  have : lo.find? (fun e => decide (k < e.1)) = none := by
    rw [List.find?_eq_none]
    intro e he
    simpa using h1 e he
  rw [this]
  cases hi with
  | nil => rfl
  | cons a hi => simp [h2 a (by simp)]

/-- What `reduce_ruleset` achieves. -/
structure Kept (p : Pre) (L : Nat) (S : Sign → Prop) (m m' : RMap) : Prop where
  good : GoodMap p L m'
  signs : SMap S m'
  sem : ∀ (A : Type u) [Ring A] [Algebra ℂ A] (ρ : Nat → A), MapHolds ρ m' ↔ MapHolds ρ m

theorem Kept.refl {S : Sign → Prop} {m : RMap} (h : GoodMap p L m) (hS : SMap S m) : Kept.{u} p L S m m := ⟨h, hS, fun _ _ _ _ => Iff.rfl⟩

theorem Kept.trans {S : Sign → Prop} {m m' m'' : RMap} (h1 : Kept.{u} p L S m m') (h2 : Kept.{u} p L S m' m'') : Kept.{u} p L S m m'' :=
  ⟨h2.good, h2.signs, fun A _ _ ρ => (h2.sem A ρ).trans (h1.sem A ρ)⟩

theorem mapHolds_append {A : Type u} [Ring A] [Algebra ℂ A] (ρ : Nat → A) (a b : RMap) :
    MapHolds ρ (a ++ b) ↔ MapHolds ρ a ∧ MapHolds ρ b := by
  constructor
  · intro h; exact ⟨fun e he => h e (List.mem_append_left _ he), fun e he => h e (List.mem_append_right _ he)⟩
  · rintro ⟨h1, h2⟩ e he
    rcases List.mem_append.mp he with h | h
    · exact h1 e h
    · exact h2 e h

theorem mapHolds_cons {A : Type u} [Ring A] [Algebra ℂ A] (ρ : Nat → A) (a : UInt64 × Rule) (b : RMap) :
    MapHolds ρ (a :: b) ↔ ruleEq ρ a.2 ∧ MapHolds ρ b := by
  simp [MapHolds]

theorem reduceRulesetLoop_spec (hs : Small p L) {S : Sign → Prop} (hS : SignClass S) (hSr : ∀ s, S s → RealSign s) (mag : Nat) :
    ∀ (hi lo : RMap), GoodMap p L (lo ++ hi) → SMap S (lo ++ hi) → (∀ e ∈ hi, Plain e.2.rhs) →
    ∃ b', reduceRulesetLoop p ⟨lo ++ hi, mag⟩ (firstKey hi) = some b' ∧ Kept.{u} p L S (lo ++ hi) b'.rules ∧ b'.mag = mag
  | [], lo, hg, hm, _ => by
    refine ⟨⟨lo ++ [], mag⟩, ?_, Kept.refl hg hm, rfl⟩
    rw [reduceRulesetLoop.eq_def]; rfl
  | (k, r) :: hi, lo, hg, hm, hp => by
    have hmem : (k, r) ∈ lo ++ (k, r) :: hi := by simp
    have hk := hg.1 _ hmem
    have hsort := hg.2
    have hE := erase_middle hsort
    rw [List.pairwise_append, List.pairwise_cons] at hsort
    have hhi : ∀ e ∈ hi, k < e.1 := fun e he => hsort.2.1.1 e he
    have hlo : ∀ e ∈ lo, ¬ k < e.1 := fun e he hlt => UInt64.lt_irrefl _ (UInt64.lt_trans hlt (hsort.2.2 e he (k, r) (by simp)))
    have hg1 : GoodMap p L (lo ++ hi) := by rw [← hE]; exact hg.erase k
    have hm1 : SMap S (lo ++ hi) := by
      intro e he
      exact hm e (by rw [← hE] at he; exact (mem_erase.mp he).1)
    obtain ⟨c, x, y, hc, hred⟩ := reduceRule_spec.{u} hs (b := ⟨lo ++ hi, mag⟩) hg1 hS hSr hm1 hk.2.lhs hk.2.rhs
      (by rw [hk.2.sign]; exact hS.pos) (hm _ hmem)
    have hplainL : Plain r.lhs := fun _ _ => hk.2.sign
    have hplainR : Plain r.rhs := hp (k, r) (by simp)
    have hsem : ∀ (A : Type u) [Ring A] [Algebra ℂ A] (ρ : Nat → A), MapHolds ρ (lo ++ hi) → (ruleEq ρ r ↔ ruleEq ρ c) := by
      intro A _ _ ρ h
      rw [hred.sem A ρ, ← reduced_eval ρ hs hg1 h hred.lhs hplainL, ← reduced_eval ρ hs hg1 h hred.rhs hplainR]
      rfl
    have hunf : reduceRulesetLoop p ⟨lo ++ (k, r) :: hi, mag⟩ (firstKey ((k, r) :: hi)) =
        if c.trivial then reduceRulesetLoop p ⟨lo ++ hi, mag⟩ (firstKey hi)
        else reduceRulesetLoop p ⟨insert c.lhs.hash c (lo ++ hi), mag⟩ (firstKey hi) := by
      conv_lhs => rw [reduceRulesetLoop.eq_def]
      have : firstKey ((k, r) :: hi) = some k := rfl
      simp only [this, find_mem hg.2 hmem, hE, nextKey_append hlo hhi, hc, Option.bind_eq_bind, Option.bind_some]
    rw [hunf]
    have hsplit : ∀ (A : Type u) [Ring A] [Algebra ℂ A] (ρ : Nat → A),
        MapHolds ρ (lo ++ (k, r) :: hi) ↔ MapHolds ρ (lo ++ hi) ∧ ruleEq ρ r := by
      intro A _ _ ρ
      rw [mapHolds_append, mapHolds_append, mapHolds_cons]
      tauto
    rcases hred.cases with ⟨ht, hterm⟩ | ⟨hgc, hSc, hirr, hle, _⟩
    · rw [ht, if_pos rfl]
      obtain ⟨b', h1, h2, h3⟩ := reduceRulesetLoop_spec hs hS hSr mag hi lo hg1 hm1 (fun e he => hp e (List.mem_cons_of_mem _ he))
      refine ⟨b', h1, ⟨h2.good, h2.signs, fun A _ _ ρ => ?_⟩, h3⟩
      rw [h2.sem A ρ, hsplit A ρ]
      constructor
      · intro h; exact ⟨h, (hsem A ρ h).mpr ((hred.sem A ρ).mpr (by rw [hterm]))⟩
      · exact fun h => h.1
    · rw [hgc.trivial]
      simp only [Bool.false_eq_true, if_false]
      have hck : c.lhs.hash ≤ k := by
        rw [show k = r.lhs.hash from hk.1]
        rcases hle with h | h
        · exact h
        · exact UInt64.le_of_lt (UInt64.lt_of_le_of_lt h hk.2.lt)
      have hins : insert c.lhs.hash c (lo ++ hi) = insert c.lhs.hash c lo ++ hi :=
        insert_append fun e he => UInt64.lt_of_le_of_lt hck (hhi e he)
      have hg2 : GoodMap p L (insert c.lhs.hash c lo ++ hi) := by rw [← hins]; exact hg1.insert hgc
      have hm2 : SMap S (insert c.lhs.hash c lo ++ hi) := by rw [← hins]; exact hm1.insert hSc _
      rw [hins]
      obtain ⟨b', h1, h2, h3⟩ := reduceRulesetLoop_spec hs hS hSr mag hi (insert c.lhs.hash c lo) hg2 hm2
        (fun e he => hp e (List.mem_cons_of_mem _ he))
      refine ⟨b', h1, ⟨h2.good, h2.signs, fun A _ _ ρ => ?_⟩, h3⟩
      rw [h2.sem A ρ, hsplit A ρ, ← hins, insert_reduced hs hg1 hgc hirr ρ]
      constructor
      · rintro ⟨h, h'⟩; exact ⟨h, (hsem A ρ h).mpr h'⟩
      · rintro ⟨h, h'⟩; exact ⟨h, (hsem A ρ h).mp h'⟩

theorem reduceRuleset_spec (hs : Small p L) {S : Sign → Prop} (hS : SignClass S) (hSr : ∀ s, S s → RealSign s) {b : Book}
    (hb : GoodMap p L b.rules) (hbS : SMap S b.rules) (hp : ∀ e ∈ b.rules, Plain e.2.rhs) :
    ∃ b', b.reduceRuleset p = some b' ∧ Kept.{u} p L S b.rules b'.rules ∧ b'.mag = b.mag :=
  reduceRulesetLoop_spec hs hS hSr b.mag b.rules [] hb hbS hp

end Moment.Rules
