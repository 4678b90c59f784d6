import Verif.Proof.Rewrite
import Verif.Spec.Algebraic
import Mathlib.LinearAlgebra.Finsupp.LinearCombination
import Mathlib.Algebra.Algebra.Opposite

/-! # An algebra in which words are equal only if they have the same result

If results are unique, the words that cannot be reduced are the basis of a space on which the operators act, and two words act in the same way only if they
reduce to the same term. -/

namespace Moment.Rewrite

variable {R : Set RRule}

theorem exists_result (hR : Decreasing R) (t : Term) : ∃ n, Steps R t n ∧ Normal R n := by
  induction t using (step_wf hR).induction with
  | _ t ih =>
    by_cases h : Normal R t
    · exact ⟨t, .refl, h⟩
    · unfold Normal at h
      push Not at h
      obtain ⟨t', ht⟩ := h
      obtain ⟨n, h1, h2⟩ := ih t' ht
      exact ⟨n, .head ht h1, h2⟩

/-- The result of a term. -/
noncomputable def nf (R : Set RRule) (t : Term) : Term := open Classical in if h : ∃ n, Steps R t n ∧ Normal R n then h.choose else t

/-- What is needed for results to exist and be unique. -/
structure Convergent (R : Set RRule) : Prop where
  decreasing : Decreasing R
  unique : UniqueResults R

theorem nf_spec (h : Convergent R) (t : Term) : Steps R t (nf R t) ∧ Normal R (nf R t) := by
  unfold nf
  rw [dif_pos (exists_result h.decreasing t)]
  exact (exists_result h.decreasing t).choose_spec

theorem nf_eq (h : Convergent R) {t n : Term} (h1 : Steps R t n) (h2 : Normal R n) : nf R t = n :=
  h.unique t _ _ (nf_spec h t).1 h1 (nf_spec h t).2 h2

theorem nf_normal (h : Convergent R) {t : Term} (ht : Normal R t) : nf R t = t := nf_eq h .refl ht

theorem nf_steps (h : Convergent R) {t u : Term} (hs : Steps R t u) : nf R t = nf R u := nf_eq h (hs.trans (nf_spec h u).1) (nf_spec h u).2

theorem nf_ctx (h : Convergent R) (p : Sign) (u v : List Nat) (t : Term) : nf R (ctx p u v t) = nf R (ctx p u v (nf R t)) :=
  nf_steps h (steps_ctx p u v (nf_spec h t).1)

theorem ctx_nil (t : Term) : ctx .pos [] [] t = t := by
  rcases t with _ | ⟨s, w⟩
  · rfl
  · cases s <;> simp [ctx, Sign.mul, Sign.code, Sign.ofCode]

theorem normal_ctx {t : Term} (p : Sign) (ht : Normal R t) : Normal R (ctx p [] [] t) := by
  rcases t with _ | ⟨s, w⟩
  · exact ht
  · simp only [ctx, List.nil_append, List.append_nil]
    exact normal_some.mpr (normal_some.mp ht)

theorem nf_phase (h : Convergent R) (p : Sign) (t : Term) : nf R (ctx p [] [] t) = ctx p [] [] (nf R t) :=
  nf_eq h (steps_ctx p [] [] (nf_spec h t).1) (normal_ctx p (nf_spec h t).2)

/-- The space with the irreducible words as basis. -/
abbrev Space (R : Set RRule) : Type := {w : List Nat // Irreducible R w} →₀ ℂ

open Classical in
/-- The vector of a term. -/
noncomputable def vec (R : Set RRule) : Term → Space R
  | none => 0
  | some (s, w) => if h : Irreducible R w then Finsupp.single ⟨w, h⟩ (phase s) else 0

theorem vec_phase (p : Sign) (t : Term) : vec R (ctx p [] [] t) = phase p • vec R t := by
  rcases t with _ | ⟨s, w⟩
  · simp [vec, ctx]
  · simp only [vec, ctx, List.nil_append, List.append_nil]
    split
    · rw [Finsupp.smul_single, phase_mul, smul_eq_mul]
    · simp

theorem vec_inj {a b : Term} (ha : Normal R a) (hb : Normal R b) (e : vec R a = vec R b) : a = b := by
  have nz : ∀ {s w}, Normal R (some (s, w)) → vec R (some (s, w)) ≠ 0 := by
    intro s w hn
    simp only [vec, dif_pos (normal_some.mp hn)]
    exact Finsupp.single_ne_zero.mpr (phase_ne_zero s)
  rcases a with _ | ⟨s, w⟩ <;> rcases b with _ | ⟨s', w'⟩
  · rfl
  · exact absurd e.symm (nz hb)
  · exact absurd e (nz ha)
  · simp only [vec, dif_pos (normal_some.mp ha), dif_pos (normal_some.mp hb)] at e
    rcases (Finsupp.single_eq_single_iff _ _ _ _).mp e with ⟨h1, h2⟩ | ⟨h1, -⟩
    · rw [phase_injective h2, Subtype.mk.inj h1]
    · exact absurd h1 (phase_ne_zero s)

/-- How operators act. -/
noncomputable def act (R : Set RRule) (o : Nat) : Module.End ℂ (Space R) :=
  Finsupp.linearCombination ℂ fun w => vec R (nf R (some (.pos, o :: w.1)))

theorem act_vec (h : Convergent R) (o : Nat) {t : Term} (ht : Normal R t) : act R o (vec R t) = vec R (nf R (ctx .pos [o] [] t)) := by
  rcases t with _ | ⟨s, w⟩
  · rw [show ctx .pos [o] [] none = none from rfl, nf_normal h normal_none]
    simp [vec]
  · have hw := normal_some.mp ht
    have e : vec R (some (s, w)) = Finsupp.single ⟨w, hw⟩ (phase s) := by simp only [vec, dif_pos hw]
    rw [e, act, Finsupp.linearCombination_single]
    rw [← vec_phase, ← nf_phase h]
    congr 2
    simp only [ctx, List.nil_append, List.append_nil, List.singleton_append]
    cases s <;> simp [Sign.mul, Sign.code, Sign.ofCode]

theorem word_vec (h : Convergent R) {t : Term} (ht : Normal R t) : ∀ u : List Nat, evalWord (act R) u (vec R t) = vec R (nf R (ctx .pos u [] t))
  | [] => by rw [ctx_nil, nf_normal h ht]; rfl
  | o :: u => by
    have e : evalWord (act R) (o :: u) = act R o * evalWord (act R) u := by simp [evalWord]
    rw [e, Module.End.mul_apply, word_vec h ht u, act_vec h o (nf_spec h _).2, ← nf_ctx h, ctx_ctx]
    rfl

theorem act_models (h : Convergent R) : Models (act R) R := by
  rintro ⟨l, rhs⟩ hm
  refine Finsupp.lhom_ext' fun w => LinearMap.ext_ring ?_
  have hn : Normal R (some (.pos, w.1)) := normal_some.mpr w.2
  have hv : Finsupp.single w 1 = vec R (some (.pos, w.1)) := by simp [vec, dif_pos w.2, phase]
  show evalWord (act R) l (Finsupp.single w 1) = eval (act R) rhs (Finsupp.single w 1)
  rw [hv, word_vec h hn]
  have hs : Steps R (ctx .pos l [] (some (.pos, w.1))) (ctx .pos [] w.1 rhs) := by
    have := step_of_rule hm .pos [] w.1
    simpa [ctx, Sign.mul, Sign.code, Sign.ofCode] using Relation.ReflTransGen.single this
  rw [nf_steps h hs]
  rcases rhs with _ | ⟨t, r⟩
  · rw [show ctx .pos [] w.1 none = none from rfl, nf_normal h normal_none]
    simp [vec, eval]
  · simp only [eval, LinearMap.smul_apply]
    rw [word_vec h hn, ← vec_phase, ← nf_phase h, ctx_ctx]
    congr 2
    cases t <;> simp [ctx, Sign.mul, Sign.code, Sign.ofCode]

/-- Terms are equal in all algebras with the rules just if they have the same result. -/
theorem implies_iff (h : Convergent R) (hne : ∀ rule ∈ R, rule.1 ≠ []) {a b : Term} : Implies R a b ↔ nf R a = nf R b := by
  constructor
  · intro hi
    have e := hi _ (act R) (act_models h)
    have hn : Normal R (some (.pos, [])) := normal_some.mpr fun rule hr hin => hne rule hr (List.infix_nil.mp hin)
    have key : ∀ t : Term, eval (act R) t (vec R (some (.pos, []))) = vec R (nf R t) := by
      intro t
      rcases t with _ | ⟨s, w⟩
      · rw [nf_normal h normal_none]; simp [eval, vec]
      · simp only [eval, LinearMap.smul_apply]
        rw [word_vec h hn, ← vec_phase, ← nf_phase h]
        congr 2
        cases s <;> simp [ctx, Sign.mul, Sign.code, Sign.ofCode]
    exact vec_inj (nf_spec h a).2 (nf_spec h b).2 (by rw [← key, ← key, e])
  · intro e A _ _ ρ hρ
    rw [steps_sound ρ hρ (nf_spec h a).1, steps_sound ρ hρ (nf_spec h b).1, e]

theorem Implies.refl (a : Term) : Implies R a a := fun _ _ _ _ _ => rfl
theorem Implies.symm {a b : Term} (h : Implies R a b) : Implies R b a := fun A _ _ ρ hρ => (h A ρ hρ).symm
theorem Implies.trans {a b c : Term} (h : Implies R a b) (h' : Implies R b c) : Implies R a c := fun A _ _ ρ hρ => (h A ρ hρ).trans (h' A ρ hρ)
theorem Implies.of_steps {a b : Term} (h : Steps R a b) : Implies R a b := fun _ _ _ ρ hρ => steps_sound ρ hρ h

theorem eval_ctx {A : Type*} [Ring A] [Algebra ℂ A] (ρ : Nat → A) (p : Sign) (u v : List Nat) (t : Term) :
    eval ρ (ctx p u v t) = phase p • (evalWord ρ u * eval ρ t * evalWord ρ v) := by
  rcases t with _ | ⟨s, w⟩
  · simp [ctx, eval]
  · simp only [ctx, eval, phase_mul, evalWord_append, mul_smul, mul_smul_comm, smul_mul_assoc]

theorem Implies.ctx {a b : Term} (h : Implies R a b) (p : Sign) (u v : List Nat) : Implies R (Rewrite.ctx p u v a) (Rewrite.ctx p u v b) := by
  intro A _ _ ρ hρ
  rw [eval_ctx, eval_ctx, h A ρ hρ]

/-- A term without phase. -/
def Pos (t : Term) : Prop := ∀ s w, t = some (s, w) → s = .pos

theorem steps_pos (hp : Phaseless R) {a b : Term} (h : Steps R a b) (ha : Pos a) : Pos b := by
  induction h with
  | refl => exact ha
  | tail _ hs ih =>
    cases hs with
    | @word l r u v s t hm =>
      rintro s' w' e
      obtain ⟨rfl, -⟩ := Prod.mk.inj (Option.some.inj e)
      rw [ih s _ rfl, hp _ _ _ hm]
      rfl
    | zero => intro s w e; cases e

theorem adjoint_pos (adj : Nat → Nat) (w : List Nat) : adjoint adj (some (.pos, w)) = some (.pos, w.reverse.map adj) := by
  rw [adjoint, Option.map_some, show Sign.pos.conj = .pos by decide]

/-- The operators of the opposite algebra. -/
theorem eval_op {A : Type} [Ring A] [Algebra ℂ A] (ρ : Nat → A) (adj : Nat → Nat) {t : Term} (ht : Pos t) :
    eval (fun o => MulOpposite.op (ρ (adj o))) t = MulOpposite.op (eval ρ (adjoint adj t)) := by
  have hw : ∀ w : List Nat, evalWord (fun o => MulOpposite.op (ρ (adj o))) w = MulOpposite.op (evalWord ρ (w.reverse.map adj)) := by
    intro w
    induction w with
    | nil => simp [evalWord]
    | cons o w ih =>
      unfold evalWord at ih ⊢
      simp only [List.map_cons, List.prod_cons, ih, List.reverse_cons, List.map_append, List.prod_append, List.map_nil, List.prod_nil, mul_one,
        MulOpposite.op_mul]
  rcases t with _ | ⟨s, w⟩
  · simp [eval, adjoint]
  · rw [ht s w rfl]
    rw [adjoint_pos, eval, eval, hw, phase_pos, one_smul, one_smul]

/-- What follows from rules has its adjoint following from the rules, if the rules have. -/
theorem Implies.adjoint {adj : Nat → Nat} (hp : Phaseless R) (hc : AdjointClosed adj R) {a b : Term} (ha : Pos a) (hb : Pos b) (h : Implies R a b) :
    Implies R (Rewrite.adjoint adj a) (Rewrite.adjoint adj b) := by
  intro A _ _ ρ hρ
  have hm : Models (fun o => MulOpposite.op (ρ (adj o))) R := by
    rintro ⟨l, r⟩ hr
    have h1 := hc l r hr A ρ hρ
    have h2 : evalWord (fun o => MulOpposite.op (ρ (adj o))) l = eval (fun o => MulOpposite.op (ρ (adj o))) (some (.pos, l)) := by simp [eval, phase]
    show evalWord _ l = eval _ r
    rw [h2, eval_op _ _ (fun s w e => (Prod.mk.inj (Option.some.inj e)).1.symm), eval_op _ _ (fun s w e => hp l s w (e ▸ hr))]
    rw [adjoint_pos]
    exact congrArg MulOpposite.op h1
  have := h _ _ hm
  rw [eval_op _ _ ha, eval_op _ _ hb] at this
  exact MulOpposite.op_injective this

/-- Words that are rearrangements of each other are equal if the operators commute. -/
theorem Implies.perm {n : Nat} (hc : CommutingBelow n R) {u v : List Nat} (h : u.Perm v) (hu : ∀ o ∈ u, o < n) :
    Implies R (some (.pos, u)) (some (.pos, v)) := by
  intro A _ _ ρ hρ
  simp only [eval, phase, one_smul]
  unfold evalWord
  induction h with
  | nil => rfl
  | cons x h ih => rw [List.map_cons, List.prod_cons, List.map_cons, List.prod_cons, ih fun o ho => hu o (List.mem_cons_of_mem _ ho)]
  | swap x y l =>
    have := hc y (hu y (by simp)) x (hu x (by simp)) A ρ hρ
    simp only [eval, phase, one_smul, evalWord, List.map_cons, List.map_nil, List.prod_cons, List.prod_nil, mul_one] at this
    simp only [List.map_cons, List.prod_cons, ← mul_assoc, this]
  | trans h1 _ ih1 ih2 => rw [ih1 hu, ih2 fun o ho => hu o (h1.mem_iff.mpr ho)]

end Moment.Rewrite
