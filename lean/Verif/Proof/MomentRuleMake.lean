import Verif.Proof.MomentRules
import Verif.Props.C21_Polynomial

/-! # Making a moment rule from a polynomial -/

namespace Moment.Poly

open Classical

local notation "conj'" => starRingEnd ℂ

/-! ## The direction -/

theorem sqrt_sq (r : ℂ) : (r ^ (1 / 2 : ℂ)) * (r ^ (1 / 2 : ℂ)) = r := by
  have := Complex.cpow_nat_inv_pow r (n := 2) (by norm_num)
  rw [show ((1 : ℂ) / 2) = ((2 : ℕ) : ℂ)⁻¹ by norm_num, ← sq]
  exact this

theorem unit_of_sq {d r : ℂ} (h : d * d = r) (hr : Complex.normSq r = 1) : d * conj' d = 1 := by
  rw [Complex.mul_conj]
  have : Complex.normSq d * Complex.normSq d = 1 := by rw [← Complex.normSq_mul, h, hr]
  have h0 := Complex.normSq_nonneg d
  have : Complex.normSq d = 1 := by nlinarith
  rw [this]; norm_num

theorem direction_spec {r : ℂ} (hr : Complex.normSq r = 1) :
    direction r * direction r = r ∧ direction r * conj' (direction r) = 1 ∧ (direction r = 1 ∨ 0 < (direction r).im) := by
  have key : direction r * direction r = r ∧ (direction r = 1 ∨ 0 < (direction r).im) := by
    unfold direction
    split
    · rename_i hi
      have hsq : r.re * r.re = 1 := by rw [Complex.normSq_apply, hi] at hr; linarith
      split
      · rename_i hpos
        refine ⟨?_, Or.inl rfl⟩
        have : r.re = 1 := by nlinarith
        apply Complex.ext <;> simp [this, hi]
      · rename_i hpos
        refine ⟨?_, Or.inr (by simp)⟩
        have : r.re = -1 := by nlinarith
        apply Complex.ext <;> simp [this, hi]
    · rename_i hi
      have hs := sqrt_sq r
      have him := congrArg Complex.im hs
      rw [Complex.mul_im] at him
      have hre := sqrt_re_nonneg r
      split
      · rename_i hge
        refine ⟨hs, Or.inr ?_⟩
        have : 0 < r.im := lt_of_le_of_ne hge (Ne.symm hi)
        by_contra hn
        nlinarith
      · rename_i hlt
        refine ⟨by rw [neg_mul_neg]; exact hs, Or.inr ?_⟩
        rw [Complex.neg_im]
        by_contra hn
        nlinarith
  exact ⟨key.1, unit_of_sq key.1 hr, key.2⟩

/-! ## What a good rule is -/

/-- The part of the right side that does not mention the symbol of the rule. -/
def MRule.core (r : MRule) : List Mono := if r.partial then r.rhs.dropLast.dropLast else r.rhs

/-- Well-formed rules. -/
structure MRule.OK (t : Table) (o : Order) (r : MRule) : Prop where
  lhs : 1 < r.lhs
  core : Canonical t o r.core
  below : Below o r.lhs r.core
  dir0 : r.partial = false → r.dir = 0
  herm : t.herm r.lhs = true → ∀ v, Assignment t v → conj' (value v r.rhs) = value v r.rhs
  anti : t.anti r.lhs = true → ∀ v, Assignment t v → conj' (value v r.rhs) = -value v r.rhs
  part : r.partial = true → t.herm r.lhs = false ∧ t.anti r.lhs = false ∧ r.rhs = r.core ++ freePart r.lhs r.dir ∧
    r.dir * conj' r.dir = 1 ∧ (r.dir = 1 ∨ 0 < r.dir.im) ∧ ∀ v, Assignment t v → conj' (conj' r.dir * value v r.core) = conj' r.dir * value v r.core

theorem core_full {r : MRule} (h : r.partial = false) : r.core = r.rhs := by simp [MRule.core, h]

theorem freePart_value (v : Nat → ℂ) (i : Nat) (d : ℂ) : value v (freePart i d) = (1 / 2) * (v i - d * d * conj' (v i)) := by
  simp [freePart, Mono.value]; ring

theorem freePart_canonical {t : Table} {o : Order} {i : Nat} (hi : i ≠ 0) (hh : t.herm i = false) (ha : t.anti i = false) {d : ℂ} (hd : d ≠ 0) :
    Canonical t o (freePart i d) where
  sorted := by simp [freePart]
  nonzero := by simp [freePart, hi, hd]
  plain := by simp [freePart, hh, ha]

theorem freePart_ids {i : Nat} {d : ℂ} {m : Mono} (h : m ∈ freePart i d) : m.id = i := by
  simp [freePart] at h
  rcases h with rfl | rfl <;> rfl

theorem dropLast_freePart (p : List Mono) (i : Nat) (d : ℂ) : (p ++ freePart i d).dropLast.dropLast = p := by
  simp [freePart, List.dropLast_append_of_ne_nil, List.dropLast]

theorem MRule.OK.rhs_canonical {t : Table} {o : Order} {r : MRule} (h : r.OK t o) : Canonical t o r.rhs := by
  cases hp : r.partial with
  | false => rw [← core_full hp]; exact h.core
  | true =>
    obtain ⟨h1, h2, h3, h4, -, -⟩ := h.part hp
    rw [h3]
    have hd : r.dir ≠ 0 := fun h0 => by rw [h0] at h4; simp at h4
    exact canonical_append h.core (freePart_canonical (by have := h.lhs; omega) h1 h2 hd) fun a ha b hb => by
      rw [freePart_ids hb]; exact h.below a ha

theorem conj_eq_of_im {z : ℂ} (h : z.im = 0) : conj' z = z := Complex.conj_eq_iff_im.mpr h
theorem conj_eq_of_re {z : ℂ} (h : z.re = 0) : conj' z = -z := by apply Complex.ext <;> simp [h]

/-! ## Splitting -/

/-- The split polynomial vanishes. -/
def SplitZero (v : Nat → ℂ) (s : Option (List Mono)) : Prop := ∀ q ∈ s, value v q = 0

/-- What making a rule from `lhs = rhs` is to give. -/
structure SplitOK (t : Table) (o : Order) (lhs : Nat) (eqn : (Nat → ℂ) → Prop) (r : MRule) (s : Option (List Mono)) : Prop where
  ok : r.OK t o
  lhsEq : r.lhs = lhs
  split : ∀ q ∈ s, Canonical t o q ∧ Below o lhs q
  exact : ∀ v, Assignment t v → (eqn v ↔ (Holds v r ∧ SplitZero v s))

theorem splitRegular_spec {t : Table} (ht : t.Good) {o : Order} (ho : o.Good) {lhs : Nat} (hl : 1 < lhs) {rhs : List Mono}
    (hp : Canonical t o rhs) (hb : Below o lhs rhs) :
    SplitOK t o lhs (fun v => v lhs = value v rhs) (splitRegular t o lhs rhs).1 (splitRegular t o lhs rhs).2 ∧
    (splitRegular t o lhs rhs).1.partial = false ∧
    ∀ v w, Assignment t v → Assignment t w → value v rhs = value w rhs → value v (splitRegular t o lhs rhs).1.core = value w (splitRegular t o lhs rhs).1.core := by
  have hinj := ho.injective
  unfold splitRegular
  rw [if_neg (by omega)]
  split
  · rename_i hh
    have ha : ¬ t.anti lhs = true := fun ha => ht.notBoth lhs (by omega) ⟨hh, ha⟩
    split
    · rename_i hr
      refine ⟨⟨⟨hl, by simpa [MRule.core], by simpa [MRule.core], fun _ => rfl, fun _ v hv => ?_, fun h => absurd h ha, by simp⟩, rfl, by simp, fun v hv => ?_⟩, rfl, fun v w _ _ e => by simpa [MRule.core] using e⟩
      · exact conj_eq_of_im ((C55.C55_hermitian t ht o hinj rhs hp).mp hr v hv.1 hv.2)
      · simp [Holds, SplitZero]
    · obtain ⟨c1, v1⟩ := real_spec hinj hp
      obtain ⟨c2, v2⟩ := imag_spec hinj hp
      refine ⟨⟨⟨hl, by simpa [MRule.core], ?_, fun _ => rfl, fun _ v hv => ?_, fun h => absurd h ha, by simp⟩, rfl, ?_, fun v hv => ?_⟩, rfl, fun v w hv hw e => ?_⟩
      · simpa [MRule.core] using below_real hb
      · dsimp only; rw [v1 v hv.1]; simp
      · intro q hq; simp at hq; subst hq; exact ⟨c2, below_imag hb⟩
      · simp only [Holds, SplitZero, Option.mem_def, Option.some.injEq, forall_eq']
        rw [v1 v hv.1, v2 v hv.1]
        have hx := Complex.conj_eq_iff_im.mp (hv.1.herm lhs hh)
        constructor
        · intro h
          have him : (value v rhs).im = 0 := by rw [← h]; exact hx
          exact ⟨by rw [h]; apply Complex.ext <;> simp [him], by simp [him]⟩
        · rintro ⟨h1, h2⟩
          have him : (value v rhs).im = 0 := by exact_mod_cast h2
          rw [h1]; apply Complex.ext <;> simp [him]
      · simp only [MRule.core, Bool.false_eq_true, if_false]; rw [v1 v hv.1, v1 w hw.1, e]
  · rename_i hh
    split
    · rename_i ha
      split
      · rename_i hr
        refine ⟨⟨⟨hl, by simpa [MRule.core], by simpa [MRule.core], fun _ => rfl, fun h => absurd h hh, fun _ v hv => ?_, by simp⟩, rfl, by simp, fun v hv => ?_⟩, rfl, fun v w _ _ e => by simpa [MRule.core] using e⟩
        · exact conj_eq_of_re ((C55.C55_antihermitian t ht o hinj rhs hp).mp hr v hv.1 hv.2)
        · simp [Holds, SplitZero]
      · obtain ⟨c1, v1⟩ := real_spec hinj hp
        obtain ⟨c2, v2⟩ := imag_spec hinj hp
        refine ⟨⟨⟨hl, ?_, ?_, fun _ => rfl, fun h => absurd h hh, fun _ v hv => ?_, by simp⟩, rfl, ?_, fun v hv => ?_⟩, rfl, fun v w hv hw e => ?_⟩
        · simpa [MRule.core] using scale_canonical c2 _
        · simpa [MRule.core] using below_scale (below_imag hb) _
        · dsimp only; rw [scale_value, v2 v hv.1]; simp
        · intro q hq; simp at hq; subst hq; exact ⟨c1, below_real hb⟩
        · simp only [Holds, SplitZero, Option.mem_def, Option.some.injEq, forall_eq']
          rw [scale_value, v1 v hv.1, v2 v hv.1]
          have hx : (v lhs).re = 0 := by
            have := congrArg Complex.re (hv.1.anti lhs ha)
            simp at this; linarith
          constructor
          · intro h
            have hre : (value v rhs).re = 0 := by rw [← h]; exact hx
            exact ⟨by rw [h]; apply Complex.ext <;> simp [hre], by simp [hre]⟩
          · rintro ⟨h1, h2⟩
            have hre : (value v rhs).re = 0 := by exact_mod_cast h2
            rw [h1]; apply Complex.ext <;> simp [hre]
        · simp only [MRule.core, Bool.false_eq_true, if_false]; rw [scale_value, scale_value, v2 v hv.1, v2 w hw.1, e]
    · rename_i ha
      exact ⟨⟨⟨hl, by simpa [MRule.core], by simpa [MRule.core], fun _ => rfl, fun h => absurd h hh, fun h => absurd h ha, by simp⟩, rfl, by simp,
        fun v hv => by simp [Holds, SplitZero]⟩, rfl, fun v w _ _ e => by simpa [MRule.core] using e⟩

/-! ## The shape of a canonical polynomial -/

/-- A canonical polynomial is zero, or ends with one or two terms of its highest symbol. -/
theorem canonical_cases {t : Table} {o : Order} {p : List Mono} (hp : Canonical t o p) :
    p = [] ∨ (∃ P m, p = P ++ [m] ∧ Canonical t o P ∧ Below o m.id P) ∨
    (∃ P i a b, p = P ++ [⟨i, false, a⟩, ⟨i, true, b⟩] ∧ Canonical t o P ∧ Below o i P ∧ a ≠ 0 ∧ b ≠ 0 ∧ i ≠ 0 ∧ t.herm i = false ∧ t.anti i = false) := by
  rcases List.eq_nil_or_concat p with h | ⟨Q, m, rfl⟩
  · exact Or.inl h
  · rw [List.concat_eq_append] at hp ⊢
    right
    by_cases hQ : Below o m.id Q
    · exact Or.inl ⟨Q, m, rfl, canonical_sublist hp (by simp), hQ⟩
    · right
      simp only [Below, not_forall] at hQ
      obtain ⟨x, hx, hlt⟩ := hQ
      have hs := List.pairwise_append.mp hp.sorted
      rcases hs.2.2 x hx m (by simp) with h | ⟨hid, hxc, hmc⟩
      · exact absurd h hlt
      · rcases List.eq_nil_or_concat Q with h | ⟨P, y, rfl⟩
        · rw [h] at hx; simp at hx
        · rw [List.concat_eq_append] at *
          have hs' := List.pairwise_append.mp hs.1
          have hyx : y = x := by
            rcases List.mem_append.mp hx with hx | hx
            · exfalso
              rcases hs'.2.2 x hx y (by simp) with h1 | ⟨h1, h2, h3⟩
              · rcases hs.2.2 y (by simp) m (by simp) with h4 | ⟨h4, h5, -⟩
                · rw [← hid] at h4; omega
                · rw [h4, hid] at h1; exact lt_irrefl _ h1
              · rcases hs.2.2 y (by simp) m (by simp) with h4 | ⟨h4, h5, -⟩
                · rw [← h1, hid] at h4; exact lt_irrefl _ h4
                · rw [h3] at h5; exact absurd h5 (by simp)
            · simp at hx; exact hx.symm
          subst hyx
          have hpl := hp.plain m (by simp) hmc
          have ny := hp.nonzero y (by simp)
          have nm := hp.nonzero m (by simp)
          refine ⟨P, m.id, y.factor, m.factor, ?_, canonical_sublist hp (by simp), ?_, ny.1, nm.1, nm.2, hpl.1, hpl.2⟩
          · have e1 : y = ⟨m.id, false, y.factor⟩ := by rw [← hid, ← hxc]
            have e2 : m = ⟨m.id, true, m.factor⟩ := by rw [← hmc]
            rw [List.append_assoc]
            congr 1
            exact congrArg₂ (fun a b => [a, b]) e1 e2
          · intro z hz
            rcases hs'.2.2 z hz y (by simp) with h1 | ⟨h1, h2, h3⟩
            · rw [← hid]; exact h1
            · rw [hxc] at h3; exact absurd h3 (by simp)

theorem pair_value (v : Nat → ℂ) (P : List Mono) (i : Nat) (a b : ℂ) :
    value v (P ++ [⟨i, false, a⟩, ⟨i, true, b⟩]) = value v P + (a * v i + b * conj' (v i)) := by
  rw [value_append]; simp [Mono.value]

theorem pair_canonical {t : Table} {o : Order} {P : List Mono} {i : Nat} {a b : ℂ} (hP : Canonical t o P) (hb : Below o i P) (ha : a ≠ 0) (hb' : b ≠ 0)
    (hi : i ≠ 0) (hh : t.herm i = false) (hn : t.anti i = false) : Canonical t o (P ++ [⟨i, false, a⟩, ⟨i, true, b⟩]) :=
  canonical_append hP ⟨by simp, by simp [ha, hb', hi], by simp [hh, hn]⟩ fun x hx y hy => by
    have : y.id = i := by simp at hy; rcases hy with rfl | rfl <;> rfl
    rw [this]; exact hb x hx

theorem conjugate_pair {t : Table} (ht : t.Good) {o : Order} (ho : Function.Injective o.rank) {P : List Mono} {i : Nat} {a b : ℂ} (hP : Canonical t o P)
    (hb : Below o i P) (ha : a ≠ 0) (hb' : b ≠ 0) (hi : i ≠ 0) (hh : t.herm i = false) (hn : t.anti i = false) :
    conjugate t (P ++ [⟨i, false, a⟩, ⟨i, true, b⟩]) = conjugate t P ++ [⟨i, false, conj' b⟩, ⟨i, true, conj' a⟩] := by
  have hc := pair_canonical hP hb ha hb' hi hh hn
  refine canonical_unique ht ho (conjugate_canonical ho hc)
    (pair_canonical (conjugate_canonical ho hP) (below_conjugate hb) (by simpa) (by simpa) hi hh hn) fun v hv _ => ?_
  rw [conjugate_value hv hc.plain, pair_value, pair_value, conjugate_value hv hP.plain]
  simp; ring

theorem popNorm_append (t : Table) (P : List Mono) (m : Mono) :
    popNorm t (P ++ [m]) = if m.conj then conjugate t (scale (-1 / m.factor) P) else scale (-1 / m.factor) P := by
  simp [popNorm]

theorem popNorm_spec {t : Table} {o : Order} (ho : Function.Injective o.rank) {P : List Mono} {m : Mono} (hP : Canonical t o P) :
    Canonical t o (popNorm t (P ++ [m])) ∧ (∀ i, Below o i P → Below o i (popNorm t (P ++ [m]))) ∧
    ∀ v, Respects t v → value v (popNorm t (P ++ [m])) = if m.conj then conj' (-1 / m.factor * value v P) else -1 / m.factor * value v P := by
  rw [popNorm_append]
  split
  · refine ⟨conjugate_canonical ho (scale_canonical hP _), fun i h => below_conjugate (below_scale h _), fun v hv => ?_⟩
    rw [conjugate_value hv (scale_canonical hP _).plain, scale_value]
  · exact ⟨scale_canonical hP _, fun i h => below_scale h _, fun v hv => by rw [scale_value]⟩

theorem simple_iff {P x f : ℂ} (c : Bool) (hf : f ≠ 0) :
    P + f * (if c then conj' x else x) = 0 ↔ x = if c then conj' (-1 / f * P) else -1 / f * P := by
  cases c
  · simp only [Bool.false_eq_true, if_false]
    constructor
    · intro h; field_simp; linear_combination h
    · intro h; rw [h]; field_simp; ring
  · simp only [if_true]
    constructor
    · intro h
      have : conj' x = -1 / f * P := by field_simp; linear_combination h
      rw [← this]; simp
    · intro h
      rw [h, Complex.conj_conj]; field_simp; ring

/-- The equation of a polynomial that is reoriented. -/
theorem reorient_iff {P x a b : ℂ} (ha : a ≠ 0) (hb : b ≠ 0) (hn : Complex.normSq a ≠ Complex.normSq b) :
    P + (a * x + b * conj' x) = 0 ↔ x = conj' (-1 / (b / a - conj' a / conj' b) * (1 / a * P + -1 / conj' b * conj' P)) := by
  have hb' : conj' b ≠ 0 := by simpa
  have ha' : conj' a ≠ 0 := by simpa
  have hc : b / a - conj' a / conj' b ≠ 0 := by
    intro h
    apply hn
    have : b * conj' b = a * conj' a := by field_simp at h; linear_combination h
    rw [Complex.mul_conj, Complex.mul_conj] at this
    exact (Complex.ofReal_injective this).symm
  set c := b / a - conj' a / conj' b with hcd
  have key : c * conj' x + (1 / a * P + -1 / conj' b * conj' P) = (P + (a * x + b * conj' x)) / a - conj' (P + (a * x + b * conj' x)) / conj' b := by
    rw [hcd]; simp only [map_add, map_mul, Complex.conj_conj]; field_simp; ring
  constructor
  · intro h
    rw [h] at key
    simp only [zero_div, map_zero, sub_zero] at key
    have : conj' x = -1 / c * (1 / a * P + -1 / conj' b * conj' P) := by field_simp at key ⊢; linear_combination key
    rw [← this]; simp
  · intro h
    have hx : conj' x = -1 / c * (1 / a * P + -1 / conj' b * conj' P) := by rw [h]; simp
    have h0 : c * conj' x + (1 / a * P + -1 / conj' b * conj' P) = 0 := by rw [hx]; field_simp; ring
    rw [h0] at key
    set E := P + (a * x + b * conj' x)
    have hE : E * conj' b = conj' E * a := by field_simp at key; linear_combination -key
    have := congrArg Complex.normSq hE
    simp only [Complex.normSq_mul, Complex.normSq_conj] at this
    by_contra hE0
    exact hn (mul_left_cancel₀ (by simpa using hE0) this).symm

theorem reorient_pair {t : Table} (ht : t.Good) {o : Order} (ho : Function.Injective o.rank) {P : List Mono} {i : Nat} {a b : ℂ} (hP : Canonical t o P)
    (hb : Below o i P) (ha : a ≠ 0) (hb' : b ≠ 0) (hi : i ≠ 0) (hh : t.herm i = false) (hn : t.anti i = false)
    (hne : Complex.normSq a ≠ Complex.normSq b) :
    reorient t o (P ++ [⟨i, false, a⟩, ⟨i, true, b⟩]) =
    mergeAdd o (scale (1 / a) P) (scale (-1 / conj' b) (conjugate t P)) ++ [⟨i, true, b / a - conj' a / conj' b⟩] := by
  have hbc : conj' b ≠ 0 := by simpa
  have hac : conj' a ≠ 0 := by simpa
  have hc : b / a - conj' a / conj' b ≠ 0 := by
    intro h
    apply hne
    have : b * conj' b = a * conj' a := by field_simp at h; linear_combination h
    rw [Complex.mul_conj, Complex.mul_conj] at this
    exact (Complex.ofReal_injective this).symm
  have hPc := conjugate_canonical ho hP
  have c1 : Canonical t o (P ++ [⟨i, false, a⟩]) := canonical_append hP ⟨by simp, by simp [ha, hi], by simp⟩ fun x hx y hy => by
    simp at hy; subst hy; exact hb x hx
  have c2 : Canonical t o (conjugate t P ++ [⟨i, false, conj' b⟩]) := canonical_append hPc ⟨by simp, by simp [hb', hi], by simp⟩ fun x hx y hy => by
    simp at hy; subst hy; exact below_conjugate hb x hx
  have e1 : P ++ [⟨i, false, a⟩, ⟨i, true, b⟩] = (P ++ [⟨i, false, a⟩]) ++ [(⟨i, true, b⟩ : Mono)] := by simp
  have e2 : conjugate t P ++ [⟨i, false, conj' b⟩, ⟨i, true, conj' a⟩] = (conjugate t P ++ [⟨i, false, conj' b⟩]) ++ [(⟨i, true, conj' a⟩ : Mono)] := by simp
  obtain ⟨d1, -, v1⟩ := popNorm_spec ho (m := ⟨i, true, b⟩) c1
  obtain ⟨d2, -, v2⟩ := popNorm_spec ho (m := ⟨i, true, conj' a⟩) c2
  unfold reorient
  rw [conjugate_pair ht ho hP hb ha hb' hi hh hn, e1, e2, append_eq]
  have cm : Canonical t o (mergeAdd o (scale (1 / a) P) (scale (-1 / conj' b) (conjugate t P))) :=
    mergeAdd_canonical ho (scale_canonical hP _) (scale_canonical hPc _)
  have bm : Below o i (mergeAdd o (scale (1 / a) P) (scale (-1 / conj' b) (conjugate t P))) :=
    below_mergeAdd (below_scale hb _) (below_scale (below_conjugate hb) _)
  refine canonical_unique ht ho (mergeAdd_canonical ho d1 (scale_canonical d2 _)) ?_ fun v hv _ => ?_
  · exact canonical_append cm ⟨by simp, by simp [hc, hi], by simp [hh, hn]⟩ fun x hx y hy => by simp at hy; subst hy; exact bm x hx
  · rw [mergeAdd_value v ho, scale_value, v1 v hv, v2 v hv, value_append, value_append, value_append, mergeAdd_value v ho, scale_value, scale_value,
      conjugate_value hv hP.plain]
    simp only [value_cons, value_nil, Mono.value, if_true, Bool.false_eq_true, if_false, map_mul, map_add, map_div₀, map_neg, map_one, Complex.conj_conj, add_zero]
    field_simp
    ring

theorem nonorientable_iff {P x a d : ℂ} (ha : a ≠ 0) (hd : d * conj' d = 1) :
    P + (a * x + a * (d * d) * conj' x) = 0 ↔
    (x = d * ((-conj' d / (2 * a) * P).re : ℂ) + 1 / 2 * (x - d * d * conj' x) ∧ (-conj' d / (2 * a) * P).im = 0) := by
  set Q := -conj' d / (2 * a) * P with hQ
  have hP : P = -2 * a * d * Q := by
    rw [hQ]; field_simp; linear_combination (-P) * hd
  have hd0 : d ≠ 0 := fun h => by rw [h] at hd; simp at hd
  obtain ⟨k, hk⟩ : ∃ k : ℝ, (k : ℂ) = 1 / 2 * (conj' d * x + d * conj' x) := by
    refine ⟨(conj' d * x).re, ?_⟩
    rw [← half_add_conj]; simp
  have hE : P + (a * x + a * (d * d) * conj' x) = 2 * a * d * ((k : ℂ) - Q) := by
    rw [hk, hP]; linear_combination (-a * x) * hd
  have hR : x = d * (Q.re : ℂ) + 1 / 2 * (x - d * d * conj' x) ↔ (k : ℂ) = Q.re := by
    have : x - (d * (Q.re : ℂ) + 1 / 2 * (x - d * d * conj' x)) = d * ((k : ℂ) - Q.re) := by
      rw [hk]; linear_combination (-1 / 2 * x) * hd
    rw [← sub_eq_zero, this, mul_eq_zero, or_iff_right hd0, sub_eq_zero]
  rw [hE, hR, mul_eq_zero, or_iff_right (by simp [ha, hd0]), sub_eq_zero]
  constructor
  · intro h; rw [← h]; simp
  · rintro ⟨h1, h2⟩; rw [h1]; apply Complex.ext <;> simp [h2]

theorem resolveNonorientable_spec {t : Table} (_ht : t.Good) {o : Order} (ho : o.Good) {lhs : Nat} (hl : 1 < lhs) {P : List Mono}
    (hp : Canonical t o P) (hb : Below o lhs P) (hh : t.herm lhs = false) (hn : t.anti lhs = false) {a b : ℂ} (ha : a ≠ 0)
    (hab : Complex.normSq b = Complex.normSq a) :
    SplitOK t o lhs (fun v => value v P + (a * v lhs + b * conj' (v lhs)) = 0) (resolveNonorientable t o lhs P a b).1 (resolveNonorientable t o lhs P a b).2 ∧
    (resolveNonorientable t o lhs P a b).1.partial = true ∧
    b = a * ((resolveNonorientable t o lhs P a b).1.dir * (resolveNonorientable t o lhs P a b).1.dir) ∧
    ∀ v w, Assignment t v → Assignment t w → value v P = value w P →
      value v (resolveNonorientable t o lhs P a b).1.core = value w (resolveNonorientable t o lhs P a b).1.core := by
  have hinj := ho.injective
  have hr : Complex.normSq (b / a) = 1 := by
    rw [Complex.normSq_div, hab, div_self]; simpa using ha
  obtain ⟨hsq, hu, hhalf⟩ := direction_spec hr
  unfold resolveNonorientable
  dsimp only
  set d := direction (b / a) with hd
  have hbd : b = a * (d * d) := by rw [hsq]; field_simp
  have hd0 : d ≠ 0 := fun h => by rw [h] at hu; simp at hu
  set Q := scale (-conj' d / (2 * a)) P with hQ
  have cQ : Canonical t o Q := scale_canonical hp _
  have vQ : ∀ v, value v Q = -conj' d / (2 * a) * value v P := fun v => scale_value v _ P
  obtain ⟨c1, v1⟩ := real_spec hinj cQ
  obtain ⟨c2, v2⟩ := imag_spec hinj cQ
  have bQ : Below o lhs Q := below_scale hb _
  set q' := if (imag t o Q).isEmpty then Q else real t o Q with hq'
  have cq' : Canonical t o q' := by rw [hq']; split <;> assumption
  have bq' : Below o lhs q' := by
    rw [hq']; split
    · exact bQ
    · exact below_real bQ
  have vq' : ∀ v, Respects t v → value v q' = ((value v Q).re : ℂ) := by
    intro v hv
    rw [hq']; split
    · rename_i he
      have := v2 v hv
      rw [List.isEmpty_iff.mp he, value_nil] at this
      have him : (value v Q).im = 0 := by exact_mod_cast this.symm
      apply Complex.ext <;> simp [him]
    · exact v1 v hv
  have happ : append o (scale d q') (freePart lhs d) = scale d q' ++ freePart lhs d := append_below fun x hx y hy => by
    rw [freePart_ids hy]; exact below_scale bq' d x hx
  rw [happ]
  have hcore : (⟨lhs, scale d q' ++ freePart lhs d, true, d⟩ : MRule).core = scale d q' := by
    simp only [MRule.core, if_true]; exact dropLast_freePart _ _ _
  refine ⟨⟨⟨hl, ?_, ?_, fun h => absurd h (by simp), fun h => ?_, fun h => ?_, fun _ => ⟨hh, hn, ?_, hu, hhalf, fun v hv => ?_⟩⟩, rfl, ?_, fun v hv => ?_⟩, rfl, hbd, fun v w hv hw e => ?_⟩
  · rw [hcore]; exact scale_canonical cq' d
  · rw [hcore]; exact below_scale bq' d
  · simp [hh] at h
  · simp [hn] at h
  · rw [hcore]
  · rw [hcore, scale_value, vq' v hv.1]
    dsimp only
    rw [← mul_assoc, mul_comm (conj' d), hu]
    simp
  · intro q hq
    split at hq
    · simp at hq
    · simp at hq; subst hq; exact ⟨c2, below_imag bQ⟩
  · have hs : SplitZero v (if (imag t o Q).isEmpty then none else some (imag t o Q)) ↔ (value v Q).im = 0 := by
      have h2 := v2 v hv.1
      split
      · rename_i he
        rw [List.isEmpty_iff.mp he, value_nil] at h2
        simp only [SplitZero, Option.mem_def, reduceCtorEq, false_implies, implies_true, true_iff]
        exact_mod_cast h2.symm
      · simp only [SplitZero, Option.mem_def, Option.some.injEq, forall_eq']
        rw [h2]; norm_cast
    rw [hs]
    simp only [Holds]
    rw [value_append, scale_value, vq' v hv.1, freePart_value, vQ]
    conv_lhs => rw [hbd]
    exact nonorientable_iff ha hu
  · rw [hcore, scale_value, scale_value, vq' v hv.1, vq' w hw.1, vQ, vQ, e]

/-! ## Making the rule -/

/-- What `makeRule` gives for a polynomial that is not zero. -/
structure MakeOK (t : Table) (o : Order) (p : List Mono) (r : MRule) (s : Option (List Mono)) : Prop extends
    SplitOK t o (lastId p) (fun v => value v p = 0) r s where
  part : r.partial = true → ∃ P a, p = P ++ [⟨lastId p, false, a⟩, ⟨lastId p, true, a * (r.dir * r.dir)⟩]
  full : ∀ P a b, p = P ++ [⟨lastId p, false, a⟩, ⟨lastId p, true, b⟩] → Complex.normSq a = Complex.normSq b → r.partial = true
  dep : ∀ v w, Assignment t v → Assignment t w → value v (p.filter fun m => m.id != lastId p) = value w (p.filter fun m => m.id != lastId p) →
    value v r.core = value w r.core

theorem filter_below {o : Order} {P L : List Mono} {i : Nat} (hb : Below o i P) (hL : ∀ m ∈ L, m.id = i) :
    (P ++ L).filter (fun m => m.id != i) = P := by
  rw [List.filter_append, List.filter_eq_self.mpr, List.filter_eq_nil_iff.mpr, List.append_nil]
  · intro m hm; simp [hL m hm]
  · intro m hm
    have := hb m hm
    simp only [bne_iff_ne, ne_eq]
    intro he; rw [he] at this; exact lt_irrefl _ this

theorem lastId_append (P : List Mono) (m : Mono) : lastId (P ++ [m]) = m.id := by simp [lastId]
theorem lastId_pair (P : List Mono) (a m : Mono) : lastId (P ++ [a, m]) = m.id := by simp [lastId]

theorem makeRule_nil (t : Table) (o : Order) : makeRule t o [] = some (⟨0, [], false, 0⟩, none) := by
  simp [makeRule, difficulty, lastId]

theorem no_pair_of_below {o : Order} {P Q : List Mono} {m : Mono} {i : Nat} {a b : ℂ} (hb : Below o m.id P)
    (h : P ++ [m] = Q ++ [⟨i, false, a⟩, ⟨i, true, b⟩]) : False := by
  have h' : P ++ [m] = (Q ++ [⟨i, false, a⟩]) ++ [(⟨i, true, b⟩ : Mono)] := by rw [h]; simp
  obtain ⟨h1, h2⟩ := List.append_inj' h' rfl
  have hm : m = ⟨i, true, b⟩ := by simpa using h2
  have := hb ⟨i, false, a⟩ (by rw [h1]; simp)
  rw [hm] at this
  exact lt_irrefl _ this

/-- Making a rule: exact, except for contradictions, which have no solution. -/
theorem makeRule_spec {t : Table} (ht : t.Good) {o : Order} (ho : o.Good) {p : List Mono} (hp : Canonical t o p) (hne : p ≠ []) :
    (makeRule t o p = none ∧ ∀ v, Assignment t v → value v p ≠ 0) ∨
    ∃ r s, makeRule t o p = some (r, s) ∧ MakeOK t o p r s := by
  have hinj := ho.injective
  rcases canonical_cases hp with h | ⟨P, m, rfl, hP, hb⟩ | ⟨P, i, a, b, rfl, hP, hb, ha, hb', hi, hh, hn⟩
  · exact absurd h hne
  · have hm := hp.nonzero m (by simp)
    by_cases h1 : m.id = 1
    · left
      have hPe : P = [] := by
        cases P with
        | nil => rfl
        | cons x P =>
          exfalso
          have hx := hb x (by simp)
          have hx0 := (hp.nonzero x (by simp)).2
          rw [h1] at hx
          by_cases hx1 : x.id = 1
          · rw [hx1] at hx; exact lt_irrefl _ hx
          · have := ho.one x.id (by omega); omega
      subst hPe
      refine ⟨by simp [makeRule, difficulty, h1], fun v hv => ?_⟩
      have : m.conj = false := by
        cases hc : m.conj with
        | false => rfl
        | true => have := (hp.plain m (by simp) hc).1; rw [h1, ht.oneHerm] at this; exact absurd this (by simp)
      simp only [List.nil_append, value_cons, value_nil, Mono.value, this, Bool.false_eq_true, if_false, h1, hv.2]
      simpa using hm.1
    · right
      have hd : difficulty (P ++ [m]).reverse = .simple := by
        rw [List.reverse_append]
        simp only [List.reverse_cons, List.reverse_nil, List.nil_append, List.cons_append, difficulty, if_neg h1]
        cases hr : P.reverse with
        | nil => rfl
        | cons x R =>
          have hx : x ∈ P := by rw [← List.mem_reverse, hr]; simp
          have : m.id ≠ x.id := fun he => by have := hb x hx; rw [he] at this; exact lt_irrefl _ this
          simp [this]
      obtain ⟨c1, b1, v1⟩ := popNorm_spec hinj (m := m) hP
      have hs := splitRegular_spec ht ho (by omega : 1 < m.id) c1 (b1 _ hb)
      refine ⟨_, _, by rw [makeRule, hd], ?_⟩
      rw [lastId_append]
      refine { toSplitOK := ⟨hs.1.ok, ?_, ?_, fun v hv => ?_⟩, part := fun h => ?_, full := fun Q a b h => ?_, dep := fun v w hv hw e => ?_ }
      · rw [lastId_append]; exact hs.1.lhsEq
      · rw [lastId_append]; exact hs.1.split
      · rw [← hs.1.exact v hv, v1 v hv.1, value_append]
        simp only [value_cons, value_nil, Mono.value, add_zero]
        exact simple_iff m.conj hm.1
      · rw [hs.2.1] at h; exact absurd h (by simp)
      · exact (no_pair_of_below hb h).elim
      · rw [lastId_append, filter_below hb (by simp)] at e
        exact hs.2.2 v w hv hw (by rw [v1 v hv.1, v1 w hw.1, e])
  · right
    have h1 : 1 < i := by
      have : i ≠ 1 := fun h => by rw [h, ht.oneHerm] at hh; exact absurd hh (by simp)
      omega
    by_cases hnorm : Complex.normSq b = Complex.normSq a
    · have hd : difficulty (P ++ [(⟨i, false, a⟩ : Mono), (⟨i, true, b⟩ : Mono)]).reverse = .nonorientable := by
        simp [difficulty, hnorm]; omega
      have hs := resolveNonorientable_spec ht ho h1 hP hb hh hn ha hnorm
      refine ⟨_, _, by rw [makeRule, hd, lastId_pair]; simp only [List.reverse_append, List.reverse_cons, List.reverse_nil, List.nil_append, List.cons_append]; rw [List.reverse_reverse], ?_⟩
      refine { toSplitOK := ⟨hs.1.ok, ?_, ?_, fun v hv => ?_⟩, part := fun h => ?_, full := fun Q a b h _ => ?_, dep := fun v w hv hw e => ?_ }
      · rw [lastId_pair]; exact hs.1.lhsEq
      · rw [lastId_pair]; exact hs.1.split
      · rw [← hs.1.exact v hv, pair_value]
      · refine ⟨P, a, ?_⟩
        rw [lastId_pair]
        exact congrArg (fun z => P ++ [(⟨i, false, a⟩ : Mono), ⟨i, true, z⟩]) hs.2.2.1
      · exact hs.2.1
      · rw [lastId_pair, filter_below hb (by simp)] at e
        exact hs.2.2.2 v w hv hw e
    · have hd : difficulty (P ++ [(⟨i, false, a⟩ : Mono), (⟨i, true, b⟩ : Mono)]).reverse = .needsReorienting := by
        simp [difficulty, hnorm]; omega
      have hre := reorient_pair ht hinj hP hb ha hb' hi hh hn (Ne.symm hnorm)
      have cm : Canonical t o (mergeAdd o (scale (1 / a) P) (scale (-1 / conj' b) (conjugate t P))) :=
        mergeAdd_canonical hinj (scale_canonical hP _) (scale_canonical (conjugate_canonical hinj hP) _)
      have bm : Below o i (mergeAdd o (scale (1 / a) P) (scale (-1 / conj' b) (conjugate t P))) :=
        below_mergeAdd (below_scale hb _) (below_scale (below_conjugate hb) _)
      obtain ⟨c1, b1, v1⟩ := popNorm_spec hinj (m := ⟨i, true, b / a - conj' a / conj' b⟩) cm
      rw [← hre] at c1 b1 v1
      have hs := splitRegular_spec ht ho h1 c1 (b1 _ bm)
      refine ⟨_, _, by rw [makeRule, hd, lastId_pair], ?_⟩
      refine { toSplitOK := ⟨hs.1.ok, ?_, ?_, fun v hv => ?_⟩, part := fun h => ?_, full := fun Q a' b'' h hq => ?_, dep := fun v w hv hw e => ?_ }
      · rw [lastId_pair]; exact hs.1.lhsEq
      · rw [lastId_pair]; exact hs.1.split
      · rw [← hs.1.exact v hv, v1 v hv.1, pair_value, mergeAdd_value v hinj, scale_value, scale_value, conjugate_value hv.1 hP.plain]
        exact reorient_iff ha hb' (Ne.symm hnorm)
      · rw [hs.2.1] at h; exact absurd h (by simp)
      · exfalso
        obtain ⟨-, h2⟩ := List.append_inj' h rfl
        simp at h2
        apply hnorm
        rw [h2.1.2, h2.2.2]
        exact hq.symm
      · rw [lastId_pair, filter_below hb (by simp)] at e
        refine hs.2.2 v w hv hw ?_
        rw [v1 v hv.1, v1 w hw.1, mergeAdd_value v hinj, mergeAdd_value w hinj]
        simp only [scale_value]
        rw [conjugate_value hv.1 hP.plain, conjugate_value hw.1 hP.plain, e]

end Moment.Poly
