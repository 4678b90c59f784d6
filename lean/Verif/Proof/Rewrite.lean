import Verif.Spec.Rules
import Verif.Proof.Sign
import Mathlib.Tactic.NoncommRing

/-! Theory of rewriting words with phases: soundness, termination, critical pairs. -/

namespace Moment.Rewrite

theorem phase_mul (a b : Sign) : phase (a.mul b) = phase a * phase b := by
  cases a <;> cases b <;> simp [phase, Sign.mul, Sign.ofCode, Sign.code]

theorem phase_ne_zero (a : Sign) : phase a ≠ 0 := by cases a <;> simp [phase]

theorem phase_injective : Function.Injective phase := by
  intro a b h
  cases a <;> cases b <;> simp [phase, Complex.ext_iff] at h ⊢ <;> norm_num at h

theorem phase_pos : phase .pos = 1 := rfl

theorem phase_difference (a b : Sign) : phase a * phase (a.difference b) = phase b := by
  cases a <;> cases b <;> simp [phase, Sign.difference, Sign.ofCode, Sign.code]

section Algebra
variable {A : Type*} [Ring A] [Algebra ℂ A] (ρ : Nat → A)

omit [Algebra ℂ A] in
theorem evalWord_append (u v : List Nat) : evalWord ρ (u ++ v) = evalWord ρ u * evalWord ρ v := by simp [evalWord]

omit [Algebra ℂ A] in
@[simp] theorem evalWord_nil : evalWord ρ [] = 1 := rfl

theorem step_sound {R : Set RRule} (hR : Models ρ R) {t t' : Term} (h : Step R t t') : eval ρ t = eval ρ t' := by
  cases h with
  | @word l r u v s t hm =>
    have : evalWord ρ l = phase t • evalWord ρ r := hR _ hm
    simp only [eval, evalWord_append, this, phase_mul]
    simp [mul_smul]
  | @zero l u v s hm =>
    have : evalWord ρ l = 0 := hR _ hm
    simp [eval, evalWord_append, this]

theorem steps_sound {R : Set RRule} (hR : Models ρ R) {t t' : Term} (h : Steps R t t') : eval ρ t = eval ρ t' := by
  induction h with
  | refl => rfl
  | tail _ h ih => rw [ih, step_sound ρ hR h]

end Algebra

/-- Rules whose right side is zero or comes earlier in shortlex order. -/
def Decreasing (R : Set RRule) : Prop := ∀ l t r, (l, some (t, r)) ∈ R → List.Shortlex (· < ·) r l

theorem shortlex_append_right {r l : List Nat} (h : List.Shortlex (· < ·) r l) (v : List Nat) :
    List.Shortlex (· < ·) (r ++ v) (l ++ v) := by
  rw [List.shortlex_def] at h ⊢
  rcases h with h | ⟨h1, h2⟩
  · left; simpa using h
  · right
    refine ⟨by simpa using h1, ?_⟩
    induction h2 with
    | nil => simp at h1
    | @rel a l b l' hab => exact List.Lex.rel hab
    | @cons a l l' _ ih => exact List.Lex.cons (ih (by simpa using h1))

theorem shortlex_context {r l : List Nat} (h : List.Shortlex (· < ·) r l) (u v : List Nat) :
    List.Shortlex (· < ·) (u ++ r ++ v) (u ++ l ++ v) := shortlex_append_right (h.append_left u) v

/-- Order on terms: zero below everything, otherwise the words. -/
def TermLT : Term → Term → Prop
  | none, some _ => True
  | some (_, r), some (_, l) => List.Shortlex (· < ·) r l
  | _, none => False

theorem termLT_wf : WellFounded TermLT := by
  have h0 : Acc TermLT none := Acc.intro _ fun y h => by cases y <;> exact absurd h (by simp [TermLT])
  have : ∀ w s, Acc TermLT (some (s, w)) := by
    intro w
    induction w using (List.Shortlex.wf (r := (· < · : Nat → Nat → Prop)) wellFounded_lt).induction with
    | _ w ih =>
      intro s
      refine Acc.intro _ fun y h => ?_
      rcases y with _ | ⟨s', w'⟩
      · exact h0
      · exact ih w' h s'
  refine ⟨fun t => ?_⟩
  rcases t with _ | ⟨s, w⟩
  · exact h0
  · exact this w s

theorem step_lt {R : Set RRule} (hR : Decreasing R) {t t' : Term} (h : Step R t t') : TermLT t' t := by
  cases h with
  | word hm => exact shortlex_context (hR _ _ _ hm) _ _
  | zero hm => trivial

theorem step_wf {R : Set RRule} (hR : Decreasing R) : WellFounded (fun t' t => Step R t t') :=
  Subrelation.wf (fun h => step_lt hR h) termLT_wf

/-! ### Contexts -/

/-- `p · u _ v`. -/
def ctx (p : Sign) (u v : List Nat) : Term → Term
  | none => none
  | some (s, w) => some (p.mul s, u ++ w ++ v)

theorem step_ctx {R : Set RRule} {t t' : Term} (p : Sign) (u v : List Nat) (h : Step R t t') : Step R (ctx p u v t) (ctx p u v t') := by
  cases h with
  | @word l r u' v' s t hm =>
    have := @Step.word R l r (u ++ u') (v' ++ v) (p.mul s) t hm
    simpa [ctx, List.append_assoc, mul_assoc] using this
  | @zero l u' v' s hm =>
    have := @Step.zero R l (u ++ u') (v' ++ v) (p.mul s) hm
    simpa [ctx, List.append_assoc] using this

theorem steps_ctx {R : Set RRule} {t t' : Term} (p : Sign) (u v : List Nat) (h : Steps R t t') :
    Steps R (ctx p u v t) (ctx p u v t') := by
  induction h with
  | refl => exact .refl
  | tail _ h ih => exact ih.tail (step_ctx p u v h)

/-- Two terms can be reduced to a common one. -/
def Joinable (R : Set RRule) (a b : Term) : Prop := ∃ c, Steps R a c ∧ Steps R b c

theorem Joinable.symm {R : Set RRule} {a b : Term} (h : Joinable R a b) : Joinable R b a := let ⟨c, h1, h2⟩ := h; ⟨c, h2, h1⟩

theorem Joinable.ctx {R : Set RRule} {a b : Term} (h : Joinable R a b) (p : Sign) (u v : List Nat) :
    Joinable R (Rewrite.ctx p u v a) (Rewrite.ctx p u v b) :=
  let ⟨c, h1, h2⟩ := h; ⟨Rewrite.ctx p u v c, steps_ctx p u v h1, steps_ctx p u v h2⟩

theorem step_some {R : Set RRule} {t t' : Term} (h : Step R t t') :
    ∃ l rhs u v s, (l, rhs) ∈ R ∧ t = some (s, u ++ l ++ v) ∧ t' = ctx s u v rhs := by
  cases h with
  | @word l r u v s t hm => exact ⟨l, _, u, v, s, hm, rfl, rfl⟩
  | @zero l u v s hm => exact ⟨l, _, u, v, s, hm, rfl, rfl⟩

theorem step_of_rule {R : Set RRule} {l : List Nat} {rhs : Term} (h : (l, rhs) ∈ R) (s : Sign) (u v : List Nat) :
    Step R (some (s, u ++ l ++ v)) (ctx s u v rhs) := by
  rcases rhs with _ | ⟨t, r⟩
  · exact Step.zero h
  · exact Step.word h

/-- Newman's lemma, in the form needed. -/
theorem unique_of_local {R : Set RRule} (hR : Decreasing R)
    (hloc : ∀ t a b, Step R t a → Step R t b → Joinable R a b) : UniqueResults R := by
  have conf : ∀ t, ∀ a b, Steps R t a → Steps R t b → Joinable R a b := by
    intro t
    induction t using (step_wf hR).induction with
    | _ t ih =>
      intro a b ha hb
      rcases Relation.ReflTransGen.cases_head ha with rfl | ⟨a1, ha1, ha'⟩
      · exact ⟨b, hb, .refl⟩
      rcases Relation.ReflTransGen.cases_head hb with rfl | ⟨b1, hb1, hb'⟩
      · exact ⟨a, .refl, ha⟩
      obtain ⟨c, hc1, hc2⟩ := hloc t a1 b1 ha1 hb1
      obtain ⟨d, hd1, hd2⟩ := ih a1 ha1 a c ha' hc1
      obtain ⟨e, he1, he2⟩ := ih b1 hb1 b d hb' (hc2.trans hd2)
      exact ⟨e, hd1.trans he2, he1⟩
  intro t a b ha hb na nb
  obtain ⟨c, h1, h2⟩ := conf t a b ha hb
  have e1 : a = c := by
    rcases Relation.ReflTransGen.cases_head h1 with h | ⟨x, hx, _⟩
    · exact h
    · exact absurd hx (na x)
  have e2 : b = c := by
    rcases Relation.ReflTransGen.cases_head h2 with h | ⟨x, hx, _⟩
    · exact h
    · exact absurd hx (nb x)
  rw [e1, e2]

/-- All ways in which two left sides can overlap give terms with a common reduct: `x y` and `y z` with `y` not empty (overlap), and a left side
inside another one. -/
def CriticalPairsJoin (R : Set RRule) : Prop :=
  (∀ x y z rhs1 rhs2, y ≠ [] → (x ++ y, rhs1) ∈ R → (y ++ z, rhs2) ∈ R → Joinable R (ctx .pos [] z rhs1) (ctx .pos x [] rhs2)) ∧
  (∀ x l z rhs1 rhs2, (x ++ l ++ z, rhs1) ∈ R → (l, rhs2) ∈ R → Joinable R rhs1 (ctx .pos x z rhs2))

theorem ctx_ctx (p q : Sign) (u u' v v' : List Nat) (t : Term) : ctx p u v (ctx q u' v' t) = ctx (p.mul q) (u ++ u') (v' ++ v) t := by
  rcases t with _ | ⟨s, w⟩
  · rfl
  · simp [ctx, mul_assoc]

/-- Two replacements in different parts of a word commute. -/
theorem disjoint_join {R : Set RRule} {l1 l2 : List Nat} {rhs1 rhs2 : Term} (h1 : (l1, rhs1) ∈ R) (h2 : (l2, rhs2) ∈ R)
    (s : Sign) (u m v : List Nat) :
    Joinable R (ctx s u (m ++ l2 ++ v) rhs1) (ctx s (u ++ l1 ++ m) v rhs2) := by
  rcases rhs1 with _ | ⟨t1, r1⟩
  · refine ⟨none, .refl, ?_⟩
    rcases rhs2 with _ | ⟨t2, r2⟩
    · exact .refl
    · refine Relation.ReflTransGen.single ?_
      have := @Step.zero R l1 u (m ++ r2 ++ v) (s.mul t2) h1
      simpa [ctx, List.append_assoc] using this
  · rcases rhs2 with _ | ⟨t2, r2⟩
    · refine ⟨none, Relation.ReflTransGen.single ?_, .refl⟩
      have := @Step.zero R l2 (u ++ r1 ++ m) v (s.mul t1) h2
      simpa [ctx, List.append_assoc] using this
    · refine ⟨some (s * t1 * t2, u ++ r1 ++ m ++ r2 ++ v), Relation.ReflTransGen.single ?_, Relation.ReflTransGen.single ?_⟩
      · have := @Step.word R l2 r2 (u ++ r1 ++ m) v (s.mul t1) t2 h2
        simpa [ctx, List.append_assoc] using this
      · have := @Step.word R l1 r1 u (m ++ r2 ++ v) (s.mul t2) t1 h1
        simpa [ctx, List.append_assoc, mul_right_comm] using this

/-- The critical pair theorem, first rule starting no later than the second. -/
theorem local_join_aux {R : Set RRule} (hc : CriticalPairsJoin R) {l1 l2 : List Nat} {rhs1 rhs2 : Term} (h1 : (l1, rhs1) ∈ R)
    (h2 : (l2, rhs2) ∈ R) (s : Sign) (u m v1 v2 : List Nat) (e : l1 ++ v1 = m ++ (l2 ++ v2)) :
    Joinable R (ctx s u v1 rhs1) (ctx s (u ++ m) v2 rhs2) := by
  rcases List.append_eq_append_iff.mp e with ⟨m', rfl, rfl⟩ | ⟨y, rfl, e2⟩
  · -- disjoint
    have := disjoint_join h1 h2 s u m' v2
    simpa [List.append_assoc] using this
  · rcases List.append_eq_append_iff.mp e2 with ⟨z, rfl, rfl⟩ | ⟨z, rfl, rfl⟩
    · -- the second left side lies inside the first
      have := (hc.2 m l2 z rhs1 rhs2 (by simpa [List.append_assoc] using h1) h2).ctx s u v1
      simpa [ctx_ctx] using this
    · rcases eq_or_ne y [] with rfl | hy
      · have := disjoint_join h1 h2 s u [] v2
        simpa [List.append_assoc] using this
      · have := (hc.1 m y z rhs1 rhs2 hy h1 h2).ctx s u v2
        simpa [ctx_ctx] using this

theorem unique_of_critical {R : Set RRule} (hR : Decreasing R) (hc : CriticalPairsJoin R) : UniqueResults R := by
  refine unique_of_local hR fun t a b ha hb => ?_
  obtain ⟨l1, rhs1, u1, v1, s1, h1, et1, rfl⟩ := step_some ha
  obtain ⟨l2, rhs2, u2, v2, s2, h2, et2, rfl⟩ := step_some hb
  rw [et1] at et2
  simp only [Option.some.injEq, Prod.mk.injEq, List.append_assoc] at et2
  obtain ⟨rfl, e⟩ := et2
  rcases List.append_eq_append_iff.mp e with ⟨m, rfl, e2⟩ | ⟨m, rfl, e2⟩
  · exact local_join_aux hc h1 h2 s1 u1 m v1 v2 e2
  · exact (local_join_aux hc h2 h1 s1 u2 m v2 v1 e2).symm

theorem normal_none {R : Set RRule} : Normal R none := by intro t h; cases h

theorem normal_some {R : Set RRule} {s : Sign} {w : List Nat} : Normal R (some (s, w)) ↔ Irreducible R w := by
  constructor
  · rintro h ⟨l, rhs⟩ hm ⟨u, v, rfl⟩
    exact h _ (step_of_rule hm s u v)
  · intro h t' hs
    obtain ⟨l, rhs, u, v, s', hm, e, _⟩ := step_some hs
    simp only [Option.some.injEq, Prod.mk.injEq] at e
    exact h _ hm ⟨u, v, e.2.symm⟩

end Moment.Rewrite
