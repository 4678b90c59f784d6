import Verif.Proof.RulesBook

/-! Adding rules to a rulebook. -/

namespace Moment.Rules

open Rewrite

universe u

variable {p : Pre} {L : Nat}

theorem insert_fresh {m : RMap} {k : UInt64} {r : Rule} (h : ∀ e ∈ m, e.1 ≠ k) {A : Type u} [Ring A] [Algebra ℂ A] (ρ : Nat → A) :
    MapHolds ρ (insert k r m) ↔ MapHolds ρ m ∧ ruleEq ρ r := by
  constructor
  · intro H; exact ⟨fun e he => H e (subset_insert he), H _ (mem_insert_self h)⟩
  · rintro ⟨h1, h2⟩ e he
    rcases mem_insert he with rfl | he
    · exact h2
    · exact h1 e he

theorem erase_fresh {m : RMap} {k : UInt64} : ∀ e ∈ erase k m, e.1 ≠ k := fun _ he => (mem_erase.mp he).2

theorem mapHolds_erase {m : RMap} (hm : m.Pairwise (fun a b => a.1 < b.1)) {k : UInt64} {r : Rule} (hf : find k m = some r)
    {A : Type u} [Ring A] [Algebra ℂ A] (ρ : Nat → A) : MapHolds ρ m ↔ MapHolds ρ (erase k m) ∧ ruleEq ρ r := by
  constructor
  · intro H; exact ⟨fun e he => H e (mem_erase.mp he).1, H _ (find_some hf)⟩
  · rintro ⟨h1, h2⟩ e he
    by_cases hk : e.1 = k
    · have : e = (k, r) := sorted_key_inj hm he (find_some hf) hk
      rw [this]; exact h2
    · exact h1 e (mem_erase.mpr ⟨he, hk⟩)

theorem zero_lt_hash {k : UInt64} (h : k ≠ 0) : (0 : UInt64) < k := by
  rcases UInt64.lt_or_eq_of_le (UInt64.zero_le (a := k)) with h' | h'
  · exact h'
  · exact absurd h'.symm h

/-- What adding a rule achieves. -/
structure Added (p : Pre) (L : Nat) (m : RMap) (r : Rule) (m' : RMap) (n : Int) : Prop where
  good : GoodMap p L m'
  count : (m'.length : Int) = m.length + n
  nonneg : 0 ≤ n
  sem : ∀ (A : Type u) [Ring A] [Algebra ℂ A] (ρ : Nat → A), MapHolds ρ m' ↔ MapHolds ρ m ∧ ruleEq ρ r
  signs : ∀ S, SignClass S → SMap S m → S r.rhs.sign → SMap S m'

theorem addRule_spec (hs : Small p L) (r : Rule) (hr : GoodRule p L r) (m : RMap) (hm : GoodMap p L m) :
    ∃ m' n, addRule m r = some (m', n) ∧ Added.{u} p L m r m' n := by
  induction hN : r.lhs.hash.toNat using Nat.strong_induction_on generalizing r m with
  | _ N ih =>
  subst hN
  rw [addRule]
  simp only [hr.trivial, Bool.false_eq_true, if_false]
  cases hf : find r.lhs.hash m with
  | none =>
    have hfresh := find_none hf
    simp only
    split
    · obtain ⟨r', h1, hg, el, er⟩ := goodRule_make hr.lhs hr.rhs hr.lt
      have eh : r'.lhs.hash = r.lhs.hash := by rw [el]
      simp only [h1, Option.bind_eq_bind, Option.bind_some]
      refine ⟨_, _, rfl, ⟨?_, ?_, by decide, ?_, ?_⟩⟩
      · rw [← eh]; exact hm.insert hg
      · rw [insert_length hfresh]; push_cast; rfl
      · intro A _ _ ρ
        rw [insert_fresh hfresh ρ, ruleEq_make ρ h1]
        rfl
      · intro S hS h2 h3
        refine SMap.insert h2 ?_ _
        rw [er]; exact hS.difference _ _ (by rw [hr.sign]; exact hS.pos) h3
    · refine ⟨_, _, rfl, ⟨hm.insert hr, ?_, by decide, ?_, ?_⟩⟩
      · rw [insert_length hfresh]; push_cast; rfl
      · intro A _ _ ρ
        rw [insert_fresh hfresh ρ]
      · intro S hS h2 h3
        exact SMap.insert h2 h3 _
  | some pre =>
    have hpm := find_some hf
    have hpg := hm.1 _ hpm
    have hpk : pre.lhs.hash = r.lhs.hash := hpg.1.symm
    have hpg := hpg.2
    have hlen := erase_insert_length hm.2 hf
    have hL : ∀ (A : Type u) [Ring A] [Algebra ℂ A] (ρ : Nat → A), eval ρ (term pre.lhs) = eval ρ (term r.lhs) := by
      intro A _ _ ρ
      rw [eval_term, eval_term, bare_congr ρ hs hpg.lhs hr.lhs hpk, hpg.sign, hr.sign]
    have hE : ∀ (A : Type u) [Ring A] [Algebra ℂ A] (ρ : Nat → A), MapHolds ρ m ↔ MapHolds ρ (erase r.lhs.hash m) ∧ ruleEq ρ pre :=
      fun A _ _ ρ => mapHolds_erase hm.2 hf ρ
    simp only
    by_cases h1 : pre.rhs.hash = r.rhs.hash
    · rw [if_pos h1]
      by_cases h2 : r.rhs.sign = pre.rhs.sign
      · rw [if_pos h2]
        refine ⟨_, _, rfl, ⟨hm, by simp, le_refl _, ?_, fun S _ h _ => h⟩⟩
        intro A _ _ ρ
        constructor
        · intro h
          refine ⟨h, ?_⟩
          have := h _ hpm
          unfold ruleEq at this ⊢
          rw [← hL A ρ, this, eval_term, eval_term, bare_congr ρ hs hpg.rhs hr.rhs h1, h2]
        · exact fun h => h.1
      · rw [if_neg h2]
        have hl0 : r.lhs.hash ≠ 0 := by rw [hr.lhs_hash]; exact hash_ne_zero hs hr.lhs.1
        obtain ⟨z1, e1, g1, el1, er1⟩ := goodRule_make (p := p) (L := L) (x := ⟨r.lhs.hash, r.lhs.ops, .pos⟩) (y := HSeq.zero) hr.lhs
          GoodSeq.zero (zero_lt_hash hl0)
        have ek1 : z1.lhs.hash = r.lhs.hash := by rw [el1]
        have hg1 : GoodMap p L (insert r.lhs.hash z1 (erase r.lhs.hash m)) := by
          rw [← ek1]; exact (hm.erase _).insert g1
        have hlen1 : (insert r.lhs.hash z1 (erase r.lhs.hash m)).length = m.length := by
          rw [insert_length erase_fresh]; exact hlen
        have key : ∀ (A : Type u) [Ring A] [Algebra ℂ A] (ρ : Nat → A),
            (MapHolds ρ (insert r.lhs.hash z1 (erase r.lhs.hash m)) ∧ bare ρ r.rhs = 0) ↔ MapHolds ρ m ∧ ruleEq ρ r := by
          intro A _ _ ρ
          rw [insert_fresh erase_fresh ρ, hE A ρ, ruleEq_make ρ e1]
          unfold ruleEq
          rw [hL A ρ, eval_term ρ pre.rhs, eval_term ρ r.rhs, bare_congr ρ hs hpg.rhs hr.rhs h1, eval_term ρ r.lhs, hr.sign]
          have b1 : eval ρ (term ⟨r.lhs.hash, r.lhs.ops, Sign.pos⟩) = bare ρ r.lhs := rfl
          have b2 : eval ρ (term HSeq.zero) = 0 := rfl
          rw [b1, b2, phase_pos, one_smul]
          constructor
          · rintro ⟨⟨h3, h4⟩, h5⟩
            simp [h3, h4, h5]
          · rintro ⟨⟨h3, h4⟩, h5⟩
            have := (two_ne (bare ρ r.rhs) pre.rhs.sign r.rhs.sign (fun e => h2 e.symm)).mp (by rw [← h4, ← h5])
            refine ⟨⟨h3, ?_⟩, this⟩
            rw [h4, this, smul_zero]
        have sgn : ∀ S, SignClass S → SMap S m → SMap S (insert r.lhs.hash z1 (erase r.lhs.hash m)) := by
          intro S hS h3
          refine SMap.insert (fun e he => h3 e (mem_erase.mp he).1) ?_ _
          rw [er1]; exact hS.difference _ _ hS.pos hS.pos
        by_cases hz : r.rhs.hash = 0
        · obtain ⟨z2, e2, t2⟩ := make_eq (x := ⟨r.rhs.hash, r.rhs.ops, .pos⟩) (y := HSeq.zero) hz
          have t2 : z2.trivial = true := by rw [t2]; show (!(Sign.pos.difference Sign.pos).isNegative) = true; decide
          simp only [e1, e2, Option.bind_eq_bind, Option.bind_some]
          rw [addRule]
          simp only [t2, if_true]
          refine ⟨_, _, rfl, ⟨hg1, by rw [hlen1]; simp, le_refl _, ?_, fun S hS h3 _ => sgn S hS h3⟩⟩
          intro A _ _ ρ
          rw [← key A ρ]
          have : bare ρ r.rhs = 0 := by simp [bare, term, hz, eval]
          simp [this]
        · obtain ⟨z2, e2, g2, el2, er2⟩ := goodRule_make (p := p) (L := L) (x := ⟨r.rhs.hash, r.rhs.ops, .pos⟩) (y := HSeq.zero) hr.rhs
            GoodSeq.zero (zero_lt_hash hz)
          simp only [e1, e2, Option.bind_eq_bind, Option.bind_some]
          obtain ⟨m', n, h3, h4⟩ := ih z2.lhs.hash.toNat (by rw [el2]; exact UInt64.lt_iff_toNat_lt.mp hr.lt) z2 g2 _ hg1 rfl
          refine ⟨m', n, h3, ⟨h4.good, by rw [h4.count, hlen1], h4.nonneg, ?_, ?_⟩⟩
          · intro A _ _ ρ
            rw [h4.sem A ρ, ← key A ρ, ruleEq_make ρ e2]
            rfl
          · intro S hS h5 h6
            refine h4.signs S hS (sgn S hS h5) ?_
            rw [er2]; exact hS.difference _ _ hS.pos hS.pos
    · rw [if_neg h1]
      by_cases h2 : pre.rhs.hash < r.rhs.hash
      · rw [if_pos h2]
        obtain ⟨z, e, g, el, er⟩ := goodRule_make hr.rhs hpg.rhs h2
        simp only [e, Option.bind_eq_bind, Option.bind_some]
        obtain ⟨m', n, h3, h4⟩ := ih z.lhs.hash.toNat (by rw [el]; exact UInt64.lt_iff_toNat_lt.mp hr.lt) z g m hm rfl
        refine ⟨m', n, h3, ⟨h4.good, h4.count, h4.nonneg, ?_, ?_⟩⟩
        · intro A _ _ ρ
          rw [h4.sem A ρ, ruleEq_make ρ e]
          constructor
          · rintro ⟨h5, h6⟩
            refine ⟨h5, ?_⟩
            have := h5 _ hpm
            unfold ruleEq at this ⊢
            rw [← hL A ρ, this, h6]
          · rintro ⟨h5, h6⟩
            refine ⟨h5, ?_⟩
            have := h5 _ hpm
            unfold ruleEq at this h6
            rw [← h6, ← hL A ρ, this]
        · intro S hS h5 h6
          refine h4.signs S hS h5 ?_
          rw [er]; exact hS.difference _ _ h6 (h5 _ hpm)
      · rw [if_neg h2]
        have h3 : r.rhs.hash < pre.rhs.hash := by
          rcases UInt64.lt_or_eq_of_le (UInt64.not_lt.mp h2) with h | h
          · exact h
          · exact absurd h.symm h1
        obtain ⟨z, e, g, el, er⟩ := goodRule_make hpg.rhs hr.rhs h3
        simp only [e, Option.bind_eq_bind, Option.bind_some]
        have hg1 : GoodMap p L (insert r.lhs.hash r (erase r.lhs.hash m)) := (hm.erase _).insert hr
        have hlen1 : (insert r.lhs.hash r (erase r.lhs.hash m)).length = m.length := by
          rw [insert_length erase_fresh]; exact hlen
        obtain ⟨m', n, h4, h5⟩ := ih z.lhs.hash.toNat
          (by rw [el]; have := hpg.lt; rw [hpk] at this; exact UInt64.lt_iff_toNat_lt.mp this) z g _ hg1 rfl
        refine ⟨m', n, h4, ⟨h5.good, by rw [h5.count, hlen1], h5.nonneg, ?_, ?_⟩⟩
        · intro A _ _ ρ
          rw [h5.sem A ρ, ruleEq_make ρ e, insert_fresh erase_fresh ρ, hE A ρ]
          unfold ruleEq
          rw [hL A ρ]
          constructor
          · rintro ⟨⟨h6, h7⟩, h8⟩; exact ⟨⟨h6, by rw [h7, h8]⟩, h7⟩
          · rintro ⟨⟨h6, h7⟩, h8⟩; exact ⟨⟨h6, h8⟩, by rw [← h7, h8]⟩
        · intro S hS h6 h7
          refine h5.signs S hS (SMap.insert (fun e he => h6 e (mem_erase.mp he).1) h7 _) ?_
          rw [er]; exact hS.difference _ _ (h6 _ hpm) h7

theorem addRulesLoop_spec (hs : Small p L) : ∀ (rs : List Rule), (∀ r ∈ rs, GoodRule p L r) → ∀ (m : RMap) (n : Int), GoodMap p L m →
    ∃ m' k, addRulesLoop rs m n = some (m', n + k) ∧ GoodMap p L m' ∧ (m'.length : Int) = m.length + k ∧
      (∀ (A : Type u) [Ring A] [Algebra ℂ A] (ρ : Nat → A), MapHolds ρ m' ↔ MapHolds ρ m ∧ ∀ r ∈ rs, ruleEq ρ r) ∧
      (∀ S, SignClass S → SMap S m → (∀ r ∈ rs, S r.rhs.sign) → SMap S m')
  | [], _, m, n, hm => ⟨m, 0, by simp [addRulesLoop], hm, by simp, by simp, fun _ _ h _ => h⟩
  | r :: rs, hr, m, n, hm => by
    obtain ⟨m1, n1, h1, h2⟩ := addRule_spec.{u} hs r (hr r (by simp)) m hm
    obtain ⟨m', k, h3, h4, h5, h6, h7⟩ := addRulesLoop_spec hs rs (fun x hx => hr x (List.mem_cons_of_mem _ hx)) m1 (n + n1) h2.good
    refine ⟨m', n1 + k, ?_, h4, ?_, ?_, ?_⟩
    · simp only [addRulesLoop, h1, Option.bind_eq_bind, Option.bind_some, h3, add_assoc]
    · rw [h5, h2.count]; ring
    · intro A _ _ ρ
      rw [h6 A ρ, h2.sem A ρ]
      simp only [List.mem_cons, forall_eq_or_imp]
      tauto
    · intro S hS h8 h9
      exact h7 S hS (h2.signs S hS h8 (h9 r (by simp))) fun x hx => h9 x (List.mem_cons_of_mem _ hx)

end Moment.Rules
