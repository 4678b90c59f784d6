import Verif.Model.AlgebraicContext
import Verif.Proof.RewriteModel
import Verif.Proof.SymbolValues
import Verif.Props.C16_Rules
import Verif.Props.C19_RulebookChanges
import Verif.Props.C20_Conjugation
import Verif.Props.C70_SymbolMatrix
import Verif.Props.C88_GenericWords

/-! # Algebraic contexts have what symbol tables and matrices need -/

namespace Moment.Algebraic
open Moment.Rules Moment.Rewrite Moment.C16 Moment.C17
open Moment.Symbols (Table Words)
open Moment.SymbolMatrix (Setting Moments Host PlainWord)

/-- The rewrite rules of a context. -/
abbrev Context.rules (a : Context) : Set RRule := rset a.book.rules

/-- A context whose rules give unique results, have no phases and are closed under conjugation; if it is commutative, then the rules say so. -/
structure Settled (a : Context) (L : Nat) : Prop where
  small : Small a.pre L
  good : GoodMap a.pre L a.book.rules
  noEmpty : NoEmpty a.book.rules
  phaseless : Phaseless a.rules
  unique : UniqueResults a.rules
  adjoint : AdjointClosed a.pre.adj a.rules
  commute : a.commutative = true → CommutingBelow a.pre.num a.rules

variable {a : Context} {L : Nat}

theorem Settled.convergent (h : Settled a L) : Convergent a.rules := ⟨h.good.decreasing h.small, h.unique⟩

theorem Settled.lhs (h : Settled a L) : ∀ rule ∈ a.rules, rule.1 ≠ [] := by
  rintro rule ⟨e, he, rfl⟩
  exact h.noEmpty e he

theorem Settled.implies (h : Settled a L) {x y : Term} : Implies a.rules x y ↔ nf a.rules x = nf a.rules y := implies_iff h.convergent h.lhs

/-- The word that a word reduces to. -/
noncomputable def res (a : Context) (u : List Nat) : Option (List Nat) := (nf a.rules (some (.pos, u))).map Prod.snd

theorem Settled.nf_res (h : Settled a L) (u : List Nat) : nf a.rules (some (.pos, u)) = (res a u).map fun w => (.pos, w) := by
  have hp := steps_pos h.phaseless (nf_spec h.convergent (some (.pos, u))).1 (fun s w e => (Prod.mk.inj (Option.some.inj e)).1.symm)
  unfold res
  cases hn : nf a.rules (some (.pos, u)) with
  | none => rfl
  | some x =>
    obtain ⟨s, w⟩ := x
    rw [hp s w hn]
    rfl

theorem Settled.res_iff (h : Settled a L) {u v : List Nat} : res a u = res a v ↔ Implies a.rules (some (.pos, u)) (some (.pos, v)) := by
  rw [h.implies, h.nf_res, h.nf_res]
  exact ⟨fun e => by rw [e], fun e => Option.map_injective (fun x y e => (Prod.mk.inj e).2) e⟩

theorem Settled.res_none (h : Settled a L) {u : List Nat} : res a u = none ↔ Implies a.rules (some (.pos, u)) none := by
  rw [h.implies, h.nf_res, nf_normal h.convergent normal_none, Option.map_eq_none_iff]

theorem Settled.res_some (h : Settled a L) {u v : List Nat} (e : res a u = some v) : Implies a.rules (some (.pos, u)) (some (.pos, v)) := by
  have := h.nf_res u
  rw [e, Option.map_some] at this
  exact .of_steps (this ▸ (nf_spec h.convergent _).1)

theorem Settled.irreducible (h : Settled a L) {u v : List Nat} (e : res a u = some v) : Irreducible a.rules v := by
  have := h.nf_res u
  rw [e] at this
  exact normal_some.mp (this ▸ (nf_spec h.convergent (some (.pos, u))).2)

theorem Settled.res_irr (h : Settled a L) {u : List Nat} (e : Irreducible a.rules u) : res a u = some u := by
  unfold res
  rw [nf_normal h.convergent (normal_some.mpr e)]
  rfl

theorem Settled.res_self (h : Settled a L) {u v : List Nat} (e : res a u = some v) : res a v = some v := h.res_irr (h.irreducible e)

theorem steps_range {p : Pre} {L : Nat} {m : RMap} (hm : GoodMap p L m) {t u : Term} (h : Steps (rset m) t u) (ht : ∀ s w, t = some (s, w) → ∀ o ∈ w, o < p.num) :
    ∀ s w, u = some (s, w) → ∀ o ∈ w, o < p.num := by
  induction h with
  | refl => exact ht
  | tail _ hs ih =>
    intro s w e
    cases hs with
    | @word l r u v s' t hr =>
      obtain ⟨-, rfl⟩ := Prod.mk.inj (Option.some.inj e)
      have h1 := ih _ _ rfl
      obtain ⟨x, hx, hd⟩ := hr
      have h2 : r = x.2.rhs.ops := by
        have := congrArg Prod.snd hd
        simp only [den, term] at this
        split at this
        · cases this
        · exact (Prod.mk.inj (Option.some.inj this)).2.symm
      have h3 := (hm.1 x hx).2.rhs.1.1
      intro o ho
      simp only [List.mem_append] at ho h1
      rcases ho with (ho | ho) | ho
      · exact h1 o (.inl (.inl ho))
      · exact h3 o (h2 ▸ ho)
      · exact h1 o (.inr ho)
    | zero => cases e

theorem Settled.res_word (h : Settled a L) {u v : List Nat} (hu : IsWord a.pre L u) (e : res a u = some v) : IsWord a.pre L v ∧ v.length ≤ u.length := by
  have hn := h.nf_res u
  rw [e, Option.map_some] at hn
  have hs : Steps a.rules (some (.pos, u)) (some (.pos, v)) := hn ▸ (nf_spec h.convergent _).1
  have hl := C88.steps_length (h.good.decreasing h.small) hs (n := u.length) (fun s w e => by rw [← (Prod.mk.inj (Option.some.inj e)).2]) _ _ rfl
  refine ⟨⟨?_, hl.trans hu.2⟩, hl⟩
  exact steps_range h.good hs (fun s w e => by rw [← (Prod.mk.inj (Option.some.inj e)).2]; exact hu.1) _ _ rfl

/-- `additional_simplification` gives the result of the word. -/
theorem Settled.simplify (h : Settled a L) {u : List Nat} (hu : IsWord a.pre L u) : (hctx a).simplify u .pos = (res a u).map fun w => (w, .pos) := by
  unfold hctx Rules.simplify
  dsimp only
  generalize hv : (if a.commutative then u.mergeSort (· ≤ ·) else u) = v
  have hp : v.Perm u := by
    subst hv; split
    · exact List.mergeSort_perm _ _
    · exact List.Perm.refl _
  have hvw : IsWord a.pre L v := ⟨fun o ho => hu.1 o (hp.mem_iff.mp ho), by rw [hp.length_eq]; exact hu.2⟩
  have hsame : res a u = res a v := by
    rw [h.res_iff]
    by_cases hc : a.commutative = true
    · exact .perm (h.commute hc) hp.symm hu.1
    · rw [if_neg hc] at hv
      rw [hv]
      exact .refl _
  obtain ⟨⟨o1, o2, o3⟩, h1, h2⟩ := C16_reduce_in_place h.small h.good hvw .pos
  obtain ⟨h3, h4⟩ := outcome_normal h.noEmpty h2
  have h5 := nf_eq h.convergent h3 h4
  rw [h.nf_res, ← hsame] at h5
  rw [h1, Option.map_some, Option.join_some]
  cases o1 with
  | setToZero =>
    simp only [result, Option.map_eq_none_iff] at h5
    rw [h5]; rfl
  | noMatch =>
    obtain ⟨w, hw, e⟩ := Option.map_eq_some_iff.mp (show _ = some (o3, o2) from h5)
    rw [hw]
    obtain ⟨rfl, rfl⟩ := Prod.mk.inj e
    rfl
  | matched =>
    obtain ⟨w, hw, e⟩ := Option.map_eq_some_iff.mp (show _ = some (o3, o2) from h5)
    rw [hw]
    obtain ⟨rfl, rfl⟩ := Prod.mk.inj e
    rfl

/-- The sequence that a word is stored as. -/
noncomputable def stored (a : Context) (u : List Nat) : HSeq :=
  match res a u with
  | none => HSeq.zero
  | some v => ⟨a.pre.hash v, v, .pos⟩

theorem stored_none {u : List Nat} (e : res a u = none) : stored a u = HSeq.zero := by unfold stored; rw [e]
theorem stored_some {u v : List Nat} (e : res a u = some v) : stored a u = ⟨a.pre.hash v, v, .pos⟩ := by unfold stored; rw [e]
theorem stored_sign (u : List Nat) : (stored a u).sign = .pos := by unfold stored; split <;> rfl

theorem Settled.construct (h : Settled a L) {u : List Nat} (hu : IsWord a.pre L u) (heap : Bool) : HSeq.construct (hctx a) heap u .pos = stored a u := by
  unfold HSeq.construct HSeq.toCanonical
  dsimp only
  rw [h.simplify hu]
  cases e : res a u with
  | none => rw [stored_none e]; rfl
  | some v =>
    rw [stored_some e, Option.map_some]
    dsimp only [HSeq.ctxHash]
    have h0 : HSeq.isZero ⟨HSeq.hashOps (hctx a) (HSeq.movedFrom heap u), v, .pos⟩ = false := by
      unfold HSeq.isZero HSeq.hashOps HSeq.movedFrom
      dsimp only [hctx]
      cases heap
      · simpa [Pre.hash] using hash_ne_zero h.small hu
      · simpa [Pre.hash] using hash_ne_zero h.small (IsWord.nil (p := a.pre) (L := L))
    rw [h0]
    rfl

theorem Settled.sequence (h : Settled a L) {u : List Nat} (hu : IsWord a.pre L u) : sequence a u = stored a u := h.construct hu _

/-- Zero, or an irreducible word of at most `L` letters with its hash. -/
def IsSeq (a : Context) (L : Nat) (w : HSeq) : Prop :=
  w.sign = .pos ∧ ((w.hash = 0 ∧ w.ops = []) ∨ (w.hash = a.pre.hash w.ops ∧ Irreducible a.rules w.ops ∧ IsWord a.pre L w.ops))

/-- The stored words. -/
theorem Settled.isSeq_iff (h : Settled a L) {w : HSeq} : IsSeq a L w ↔ w = HSeq.zero ∨ ∃ u, IsWord a.pre L u ∧ res a u = some u ∧ w = ⟨a.pre.hash u, u, .pos⟩ := by
  constructor
  · rintro ⟨hs, ⟨h1, h2⟩ | ⟨h1, h2, h3⟩⟩
    · left
      obtain ⟨x, y, z⟩ := w
      simp only at hs h1 h2
      subst hs h1 h2
      rfl
    · right
      refine ⟨w.ops, h3, h.res_irr h2, ?_⟩
      obtain ⟨x, y, z⟩ := w
      simp only at hs h1
      subst hs h1
      rfl
  · rintro (rfl | ⟨u, h1, h2, rfl⟩)
    · exact ⟨rfl, .inl ⟨rfl, rfl⟩⟩
    · exact ⟨rfl, .inr ⟨rfl, h.irreducible h2, h1⟩⟩

theorem Settled.stored_seq (h : Settled a L) {u : List Nat} (hu : IsWord a.pre L u) : IsSeq a L (stored a u) := by
  cases e : res a u with
  | none => rw [stored_none e]; exact h.isSeq_iff.mpr (.inl rfl)
  | some v => rw [stored_some e]; exact h.isSeq_iff.mpr (.inr ⟨v, (h.res_word hu e).1, h.res_self e, rfl⟩)

theorem Settled.stored_iff (h : Settled a L) {u v : List Nat} (hu : IsWord a.pre L u) (hv : IsWord a.pre L v) :
    (stored a u).hash = (stored a v).hash ↔ Implies a.rules (some (.pos, u)) (some (.pos, v)) := by
  rw [← h.res_iff]
  constructor
  · intro e
    cases hn : res a u with
    | none =>
      cases hm : res a v with
      | none => rfl
      | some v' =>
        rw [stored_none hn, stored_some hm] at e
        exact absurd e.symm (hash_ne_zero h.small (h.res_word hv hm).1)
    | some u' =>
      cases hm : res a v with
      | none =>
        rw [stored_some hn, stored_none hm] at e
        exact absurd e (hash_ne_zero h.small (h.res_word hu hn).1)
      | some v' =>
        rw [stored_some hn, stored_some hm] at e
        rw [(hash_inj h.small (h.res_word hu hn).1 (h.res_word hv hm).1).mp e]
  · intro e
    unfold stored
    rw [e]

theorem Settled.stored_same (h : Settled a L) {u v : List Nat} (e : Implies a.rules (some (.pos, u)) (some (.pos, v))) : stored a u = stored a v := by
  unfold stored
  rw [h.res_iff.mpr e]

/-- Conjugates of equal words are equal. -/
theorem Settled.conj_same (h : Settled a L) {u : List Nat} {t : Option (List Nat)} (e : Implies a.rules (some (.pos, u)) (t.map fun w => (.pos, w))) :
    Implies a.rules (some (.pos, a.pre.conjWord u)) (t.map fun w => (.pos, a.pre.conjWord w)) := by
  have := Implies.adjoint h.phaseless h.adjoint (fun s w e => (Prod.mk.inj (Option.some.inj e)).1.symm) (by
    intro s w e
    cases t with
    | none => cases e
    | some x => exact (Prod.mk.inj (Option.some.inj e)).1.symm) e
  cases t with
  | none =>
    rw [adjoint_pos, ← conjWord_eq] at this
    exact this
  | some x =>
    rw [adjoint_pos, Option.map_some, adjoint_pos, ← conjWord_eq, ← conjWord_eq] at this
    exact this

theorem conj_zero {w : HSeq} (h : w.hash = 0) : (env a).conj w = HSeq.zero := by
  simp only [env, ctxConjugate, HSeq.conjugate, HSeq.isZero, h]
  split <;> rfl

theorem conj_word {w : HSeq} (h0 : w.hash ≠ 0) (hs : w.sign = .pos) : (env a).conj w = HSeq.construct (hctx a) (onHeap w) (a.pre.conjWord w.ops) .pos := by
  have hz : w.isZero = false := by simpa [HSeq.isZero] using h0
  simp only [env, ctxConjugate, HSeq.conjugate, hz, Bool.false_eq_true, if_false, hs]
  split
  · rename_i hm
    rw [show Sign.pos.conj = .pos by decide]
    congr 1
    simp [Pre.conjWord, hm]
  · rfl

/-- The conjugate of a stored word is the stored conjugate. -/
theorem Settled.conj_stored (h : Settled a L) {u : List Nat} (hu : IsWord a.pre L u) : (env a).conj (stored a u) = stored a (a.pre.conjWord u) := by
  cases e : res a u with
  | none =>
    rw [stored_none e, conj_zero rfl, stored_none]
    exact h.res_none.mpr (h.conj_same (t := none) (h.res_none.mp e))
  | some v =>
    have hv := h.res_word hu e
    rw [stored_some e, conj_word (hash_ne_zero h.small hv.1) rfl, h.construct (conjWord_isWord hv.1)]
    exact h.stored_same (h.conj_same (t := some v) (h.res_some e)).symm

theorem Settled.mul_stored (h : Settled a L) {u v : List Nat} (hw : IsWord a.pre L (u ++ v)) : (host a).mul (stored a u) (stored a v) = stored a (u ++ v) := by
  have hlen : u.length + v.length ≤ L := by simpa using hw.2
  have hu : IsWord a.pre L u := ⟨fun o ho => hw.1 o (List.mem_append_left _ ho), by omega⟩
  have hv : IsWord a.pre L v := ⟨fun o ho => hw.1 o (List.mem_append_right _ ho), by omega⟩
  cases hn : res a u with
  | none =>
    have h2 := (h.res_none.mp hn).ctx .pos [] v
    simp only [Rewrite.ctx, List.nil_append] at h2
    rw [stored_none hn, stored_none (h.res_none.mpr h2)]
    rfl
  | some u' =>
    have s1 := (h.res_some hn).ctx .pos [] v
    cases hm : res a v with
    | none =>
      have h2 := (h.res_none.mp hm).ctx .pos u []
      simp only [Rewrite.ctx, List.append_nil] at h2
      rw [stored_none hm, stored_none (h.res_none.mpr h2)]
      simp [host, HSeq.multiply, HSeq.isZero, HSeq.zero]
    | some v' =>
      have s2 := (h.res_some hm).ctx .pos u' []
      simp only [Rewrite.ctx, List.append_nil, List.nil_append] at s1 s2
      obtain ⟨w1, l1⟩ := h.res_word hu hn
      obtain ⟨w2, l2⟩ := h.res_word hv hm
      rw [h.stored_same (s1.trans s2), stored_some hn, stored_some hm]
      simp only [host, HSeq.multiply, HSeq.isZero, beq_iff_eq, hash_ne_zero h.small w1, hash_ne_zero h.small w2, Bool.or_eq_true, or_self, if_false]
      exact h.construct ⟨fun o ho => (List.mem_append.mp ho).elim (w1.1 o) (w2.1 o), by rw [List.length_append]; omega⟩ _

theorem conjWord_twice {p : Pre} {w : List Nat} (hw : IsWord p L w) : p.conjWord (p.conjWord w) = w := C20.C20_involution hw.1

theorem Settled.seq_stored (h : Settled a L) {w : HSeq} (hw : IsSeq a L w) (h0 : w.hash ≠ 0) : IsWord a.pre L w.ops ∧ w = stored a w.ops := by
  rcases h.isSeq_iff.mp hw with rfl | ⟨u, h1, h2, rfl⟩
  · exact absurd rfl h0
  · exact ⟨h1, (stored_some h2).symm⟩

theorem Settled.words (h : Settled a L) : Words (env a) (IsSeq a L) := by
  have hone : res a [] = some [] := h.res_irr fun rule hr hin => h.lhs rule hr (List.infix_nil.mp hin)
  have hid : stored a [] = HSeq.identity .pos := by rw [stored_some hone]; rfl
  refine ⟨⟨h.isSeq_iff.mpr (.inl rfl), by rw [conj_zero rfl]; rfl⟩, ⟨hid ▸ h.stored_seq IsWord.nil, ?_⟩, ?_, ?_, ?_, ?_⟩
  · rw [← hid, h.conj_stored IsWord.nil, show a.pre.conjWord [] = [] by rw [conjWord_eq]; rfl, hid]; rfl
  · intro w hw
    by_cases h0 : w.hash = 0
    · rw [conj_zero h0]; exact h.isSeq_iff.mpr (.inl rfl)
    · obtain ⟨h1, h2⟩ := h.seq_stored hw h0
      rw [h2, h.conj_stored h1]
      exact h.stored_seq (conjWord_isWord h1)
  · intro w hw
    exact ⟨rfl, hw.2⟩
  · intro w hw
    by_cases h0 : w.hash = 0
    · rw [conj_zero h0, conj_zero rfl, h0]; rfl
    · obtain ⟨h1, h2⟩ := h.seq_stored hw h0
      rw [h2, h.conj_stored h1, h.conj_stored (conjWord_isWord h1), conjWord_twice h1]
  · intro w v hw hv e
    by_cases h0 : w.hash = 0
    · rw [conj_zero h0, conj_zero (e ▸ h0)]
    · obtain ⟨h1, h2⟩ := h.seq_stored hw h0
      obtain ⟨h3, h4⟩ := h.seq_stored hv (e ▸ h0)
      rw [h2, h4] at e
      rw [h2, h4, h.stored_same ((h.stored_iff h1 h3).mp e)]

/-- In commutative contexts with self-adjoint operators every word is its own conjugate. -/
theorem Settled.conj_self (h : Settled a L) (hc : (host a).canNonHerm = false) {w : HSeq} (hw : IsSeq a L w) : (env a).conj w = w := by
  simp only [host, Bool.or_eq_false_iff, Bool.not_eq_false', bne_eq_false_iff_eq] at hc
  rcases h.isSeq_iff.mp hw with rfl | ⟨u, h1, h2, rfl⟩
  · exact conj_zero rfl
  · have := h.conj_stored h1
    rw [stored_some h2] at this
    rw [this, ← stored_some h2]
    refine h.stored_same (.perm (h.commute hc.1) ?_ (conjWord_isWord h1).1)
    simp only [Pre.conjWord, hc.2]
    exact List.reverse_perm _

theorem Settled.setting (h : Settled a L) : Setting (host a) (IsSeq a L) := by
  refine ⟨h.words, fun w hw _ _ => (h.words.conj w hw).1, fun hc w hw => ?_⟩
  rw [show (host a).env.conj w = w from h.conj_self hc hw]

/-- The element of an algebra that a word with its sign stands for. -/
noncomputable def op {A : Type} [Ring A] [Algebra ℂ A] (ρ : Nat → A) (w : HSeq) : A := eval ρ (term w)

/-- The moments of a functional on an algebra with the operators of the context. -/
noncomputable def moment {A : Type} [Ring A] [Algebra ℂ A] (ρ : Nat → A) (φ : A →ₗ[ℂ] ℂ) (w : HSeq) : ℂ := φ (op ρ w)

section Star
variable {A : Type} [Ring A] [Algebra ℂ A]

theorem Settled.op_stored (h : Settled a L) {ρ : Nat → A} (hρ : Models ρ a.rules) {u : List Nat} (hu : IsWord a.pre L u) : op ρ (stored a u) = evalWord ρ u := by
  have e1 : eval ρ (some (.pos, u)) = evalWord ρ u := by simp [eval, phase]
  rw [← e1]
  cases e : res a u with
  | none => rw [stored_none e, h.res_none.mp e A ρ hρ]; rfl
  | some v =>
    rw [stored_some e, h.res_some e A ρ hρ, op]
    simp [term, hash_ne_zero h.small (h.res_word hu e).1]

theorem op_zero {ρ : Nat → A} : op ρ HSeq.zero = 0 := rfl

variable [StarRing A] [StarModule ℂ A]

/-- Every functional that respects the star operation gives moments of the words. -/
theorem Settled.moments (h : Settled a L) {ρ : Nat → A} (hρ : Models ρ a.rules) (hs : StarCompat a.pre ρ) {φ : A →ₗ[ℂ] ℂ}
    (hφ : ∀ x, φ (star x) = (starRingEnd ℂ) (φ x)) : Moments (env a) (IsSeq a L) (moment ρ φ) := by
  constructor
  · simp [moment, op_zero]
  · intro w hw
    have : ({ w with sign := .pos } : HSeq) = w := by rw [← hw.1]
    rw [this, hw.1]
    simp [phase]
  · intro w v hw hv e _
    by_cases h0 : w.hash = 0
    · have h0' : v.hash = 0 := e ▸ h0
      simp [moment, op, term, h0, h0']
    · obtain ⟨h1, h2⟩ := h.seq_stored hw h0
      obtain ⟨h3, h4⟩ := h.seq_stored hv (e ▸ h0)
      rw [h2, h4] at e
      rw [h2, h4, h.stored_same ((h.stored_iff h1 h3).mp e)]
  · intro w hw
    by_cases h0 : w.hash = 0
    · rw [conj_zero h0]
      simp [moment, op, term, h0, HSeq.zero, eval]
    · obtain ⟨h1, h2⟩ := h.seq_stored hw h0
      rw [h2, h.conj_stored h1, moment, moment, h.op_stored hρ h1, h.op_stored hρ (conjWord_isWord h1), evalWord_conj hs h1.1, hφ]

end Star

end Moment.Algebraic
