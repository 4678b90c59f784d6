import Verif.Proof.Rules

/-! Reductions of sequences and rules; combinations; adding rules. -/

namespace Moment.Rules

open Rewrite

variable {p : Pre} {L : Nat}

theorem term_zero : term HSeq.zero = none := rfl

theorem GoodSeq.zero : GoodSeq p L HSeq.zero := ⟨IsWord.nil, Or.inl ⟨rfl, rfl⟩⟩

theorem GoodSeq.mk (w : List Nat) (hw : IsWord p L w) (s : Sign) : GoodSeq p L ⟨p.hash w, w, s⟩ := ⟨hw, Or.inr rfl⟩

theorem GoodSeq.withSign {x : HSeq} (h : GoodSeq p L x) (s : Sign) : GoodSeq p L { x with sign := s } := h

theorem hash_nil : p.hash [] = 1 := rfl

theorem irr_nil (m : RMap) : Irr m [] := fun _ _ hne h => hne (List.infix_nil.mp h)

/-- Not a phase times the identity, other than the identity itself. -/
def Plain (x : HSeq) : Prop := x.ops = [] → x.hash ≠ 0 → x.sign = .pos

/-- Sign of a sequence is real: plus or minus. -/
def RealSign (s : Sign) : Prop := s = .pos ∨ s = .neg

instance (s : Sign) : Decidable (RealSign s) := by unfold RealSign; infer_instance

/-- A set of phases closed under products and quotients. -/
structure SignClass (S : Sign → Prop) : Prop where
  pos : S .pos
  mul : ∀ a b, S a → S b → S (a.mul b)
  difference : ∀ a b, S a → S b → S (a.difference b)

theorem realClass : SignClass RealSign where
  pos := by decide
  mul a b ha hb := by rcases ha with rfl | rfl <;> rcases hb with rfl | rfl <;> decide
  difference a b ha hb := by rcases ha with rfl | rfl <;> rcases hb with rfl | rfl <;> decide

theorem posClass : SignClass (fun s => s = .pos) where
  pos := rfl
  mul a b ha hb := by subst ha hb; rfl
  difference a b ha hb := by subst ha hb; rfl

/-- All rules carry phases of the class. -/
def SMap (S : Sign → Prop) (m : RMap) : Prop := ∀ e ∈ m, S e.2.rhs.sign

theorem step_class {S : Sign → Prop} (hS : SignClass S) {m : RMap} (hm : SMap S m) {t t' : Term} (h : Step (rset m) t t')
    (ht : ∀ s w, t = some (s, w) → S s) : ∀ s w, t' = some (s, w) → S s := by
  cases h with
  | @word l r u v s t hmem =>
    intro s' w' e
    simp only [Option.some.injEq, Prod.mk.injEq] at e
    obtain ⟨en, hen, hd⟩ := hmem
    have : t = en.2.rhs.sign := by
      simp only [den, term, Prod.mk.injEq] at hd
      have h2 := hd.2
      split at h2
      · cases h2
      · simp only [Option.some.injEq, Prod.mk.injEq] at h2; exact h2.1.symm
    rw [← e.1]
    exact hS.mul _ _ (ht _ _ rfl) (by rw [this]; exact hm _ hen)
  | zero _ => intro s w e; cases e

theorem steps_class {S : Sign → Prop} (hS : SignClass S) {m : RMap} (hm : SMap S m) {t t' : Term} (h : Steps (rset m) t t')
    (ht : ∀ s w, t = some (s, w) → S s) : ∀ s w, t' = some (s, w) → S s := by
  induction h with
  | refl => exact ht
  | tail _ h ih => exact step_class hS hm h ih

/-- Result of reducing a sequence. -/
structure Reduced (p : Pre) (L : Nat) (m : RMap) (x y : HSeq) : Prop where
  good : GoodSeq p L y
  irr : Irr m y.ops
  le : y.hash ≤ x.hash
  zeroSign : y.hash = 0 → y.sign = .pos
  steps : Plain x → Steps (rset m) (term x) (term y)
  signs : ∀ S, SignClass S → SMap S m → S x.sign → S y.sign

theorem fromRaw_spec (hs : Small p L) {m : RMap} {x : HSeq} (hx : GoodSeq p L x) (hne : x.ops ≠ [])
    {out : Raw × List Nat × Sign} (ho : RawSpec p L m x.ops x.sign false out) :
    Reduced p L m x (fromRaw p x out) := by
  have hxh : x.hash = p.hash x.ops := by
    rcases hx.2 with h | h
    · exact absurd h.2 hne
    · exact h
  have hx0 : x.hash ≠ 0 := by rw [hxh]; exact hash_ne_zero hs hx.1
  have htx : term x = some (x.sign, x.ops) := by simp [term, hx0]
  rcases ho with ⟨rfl, hirr⟩ | ⟨w', s', rfl, ht, hirr, hw, hlt⟩ | ⟨hz, ht⟩
  · exact ⟨hx, hirr, UInt64.le_refl _, fun h => absurd h hx0, fun _ => .refl, fun _ _ _ h => h⟩
  · refine ⟨GoodSeq.mk w' hw s', hirr, ?_, fun h => absurd h (hash_ne_zero hs hw), fun _ => ?_, fun S hS hm hx => ?_⟩
    · rw [hxh]; exact UInt64.le_of_lt ((hash_lt hs hw hx.1).mpr hlt)
    · rw [htx]
      have : term (fromRaw p x (.matched, w', s')) = some (s', w') := by
        simp [fromRaw, term, hash_ne_zero hs hw]
      rw [this]; exact ht.to_reflTransGen
    · exact steps_class hS hm ht.to_reflTransGen (by rintro s w ⟨⟩; exact hx) s' w' rfl
  · obtain ⟨o1, o2, o3⟩ := out
    simp only at hz
    subst hz
    refine ⟨GoodSeq.zero, irr_nil m, ?_, fun _ => rfl, fun _ => ?_, fun S hS _ _ => hS.pos⟩
    · show (0 : UInt64) ≤ x.hash
      exact UInt64.zero_le
    · rw [htx]; exact ht.to_reflTransGen

theorem reduce_spec (hs : Small p L) {b : Book} (hb : GoodMap p L b.rules) {x : HSeq} (hx : GoodSeq p L x) :
    ∃ y, b.reduce p x = some y ∧ Reduced p L b.rules x y := by
  unfold Book.reduce
  by_cases he : x.ops = []
  · simp only [he, List.isEmpty_nil, if_true]
    refine ⟨_, rfl, ?_⟩
    rcases hx.2 with h | h
    · have hz : x.isZero = true := by simp [HSeq.isZero, h.1]
      simp only [hz, if_true]
      exact ⟨GoodSeq.zero, irr_nil _, UInt64.zero_le, fun _ => rfl, fun _ => by simp [term, h.1, HSeq.zero]; exact .refl,
        fun S hS _ _ => hS.pos⟩
    · rw [he, hash_nil] at h
      have hz : x.isZero = false := by simp [HSeq.isZero, h]
      simp only [hz, Bool.false_eq_true, if_false]
      refine ⟨⟨IsWord.nil, Or.inr rfl⟩, irr_nil _, by rw [h]; exact UInt64.le_refl _, fun _ => rfl, fun hp => ?_, fun S hS _ _ => hS.pos⟩
      have : term x = some (.pos, []) := by simp [term, h, he, hp he (by simp [h])]
      rw [this]; exact .refl
  · have he' : x.ops.isEmpty = false := by simpa using he
    simp only [he', Bool.false_eq_true, if_false]
    by_cases hm : b.rules = []
    · simp only [hm, List.isEmpty_nil, if_true]
      refine ⟨x, rfl, ⟨hx, ?_, UInt64.le_refl _, ?_, fun _ => .refl, fun _ _ _ h => h⟩⟩
      · intro e h; simp at h
      · intro h
        rcases hx.2 with h' | h'
        · exact absurd h'.2 he
        · exact absurd h (by rw [h']; exact hash_ne_zero hs hx.1)
    · have hm' : b.rules.isEmpty = false := by simpa using hm
      simp only [hm', Bool.false_eq_true, if_false]
      split
      · obtain ⟨out, h1, h2⟩ := viaSearch_spec hs hb hx.1 x.sign
        exact ⟨_, by rw [h1]; rfl, fromRaw_spec hs hx he h2⟩
      · obtain ⟨out, h1, h2⟩ := viaIteration_spec hs hb hx.1 x.sign
        exact ⟨_, by rw [h1]; rfl, fromRaw_spec hs hx he h2⟩

/-! ### Meaning of sequences and rules in an algebra -/

section Algebra
variable {A : Type*} [Ring A] [Algebra ℂ A] (ρ : Nat → A)

/-- The equation a rule object states. -/
def ruleEq (r : Rule) : Prop := eval ρ (term r.lhs) = eval ρ (term r.rhs)

theorem eval_withSign (x : HSeq) (s : Sign) : phase x.sign • eval ρ (term { x with sign := s }) = phase s • eval ρ (term x) := by
  unfold term
  split
  · simp [eval]
  · simp [eval, smul_smul, mul_comm]

theorem eval_pos (x : HSeq) : eval ρ (term x) = phase x.sign • eval ρ (term { x with sign := .pos }) := by
  rw [eval_withSign, phase_pos, one_smul]

theorem smul_phase_cancel (s : Sign) {x y : A} : phase s • x = phase s • y ↔ x = y :=
  ⟨fun h => by
    have := congrArg (fun z => (phase s)⁻¹ • z) h
    simpa [smul_smul, inv_mul_cancel₀ (phase_ne_zero s)] using this, fun h => by rw [h]⟩

theorem sign_group (a b : Sign) : a.difference b = a⁻¹ * b := by cases a <;> cases b <;> rfl

theorem phase_one : phase 1 = 1 := rfl

theorem phase_mul' (a b : Sign) : phase (a * b) = phase a * phase b := phase_mul a b

/-- The constructor keeps the equation. -/
theorem ruleEq_make {x y : HSeq} {r : Rule} (h : Rule.make x y = some r) :
    ruleEq ρ r ↔ eval ρ (term x) = eval ρ (term y) := by
  unfold Rule.make at h
  split at h
  · cases h
  · simp only [Option.some.injEq] at h
    subst h
    unfold ruleEq
    dsimp only
    rw [eval_pos ρ x, eval_pos ρ y, eval_pos ρ { y with sign := x.sign.difference y.sign }]
    dsimp only
    rw [sign_group, phase_mul', mul_smul]
    rw [← smul_phase_cancel x.sign, smul_smul (phase x.sign), ← phase_mul', mul_inv_cancel, phase_one, one_smul]

theorem holds_iff (hs : Small p L) {r : Rule} (h : GoodRule p L r) : ruleEq ρ r ↔ Holds ρ (den r) := by
  have h0 : r.lhs.hash ≠ 0 := by rw [h.lhs_hash]; exact hash_ne_zero hs h.lhs.1
  unfold ruleEq Holds den
  have : term r.lhs = some (.pos, r.lhs.ops) := by simp [term, h0, h.sign]
  rw [this]
  show phase .pos • _ = _ ↔ _
  rw [phase_pos, one_smul]

end Algebra

/-- A rule made from good sequences with decreasing hashes is good. -/
theorem goodRule_make {x y : HSeq} (hx : GoodSeq p L x) (hy : GoodSeq p L y) (hlt : y.hash < x.hash) :
    ∃ r, Rule.make x y = some r ∧ GoodRule p L r ∧ r.lhs = { x with sign := .pos } ∧
      r.rhs = { y with sign := x.sign.difference y.sign } := by
  unfold Rule.make
  rw [if_neg (by simpa using UInt64.le_of_lt hlt)]
  refine ⟨_, rfl, ⟨hx, hy, rfl, hlt, rfl, rfl, ?_⟩, rfl, rfl⟩
  have : (x.hash == y.hash) = false := by simpa using fun e : x.hash = y.hash => UInt64.ne_of_lt hlt e.symm
  simp [this]

/-- A rule made from sequences with equal hashes. -/
theorem make_eq {x y : HSeq} (he : x.hash = y.hash) :
    ∃ r, Rule.make x y = some r ∧ r.trivial = !(x.sign.difference y.sign).isNegative := by
  unfold Rule.make
  rw [if_neg (by rw [he]; simp)]
  exact ⟨_, rfl, by simp [he]⟩

end Moment.Rules
