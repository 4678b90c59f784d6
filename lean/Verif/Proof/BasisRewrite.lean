import Verif.Proof.BasisRules
import Verif.Proof.MomentUnique

/-! # Rewriting with the matrix of a rulebook -/

namespace Moment.BasisVec

open Moment.Symbols (Sym Table Offsets Sound point flags)
open Moment.Poly (Mono Canonical Paired value Order MRule Holds Assignment Meets coeff)

theorem value_coeff (v : Nat → ℂ) (N : Nat) (p : List Mono) (hp : ∀ m ∈ p, m.id < N) :
    value v p = ∑ i ∈ Finset.range N, (coeff p i false * v i + coeff p i true * (starRingEnd ℂ) (v i)) := by
  induction p with
  | nil => simp [Poly.value]
  | cons m p ih =>
    rw [Poly.value_cons, ih (fun x hx => hp x (by simp [hx]))]
    simp only [Poly.coeff_cons, add_mul]
    have : ∀ i, (if m.id = i ∧ m.conj = false then m.factor else 0) * v i + coeff p i false * v i +
        ((if m.id = i ∧ m.conj = true then m.factor else 0) * (starRingEnd ℂ) (v i) + coeff p i true * (starRingEnd ℂ) (v i)) =
        (if m.id = i then m.value v else 0) + (coeff p i false * v i + coeff p i true * (starRingEnd ℂ) (v i)) := by
      intro i
      by_cases h : m.id = i
      · subst h
        cases hc : m.conj <;> simp [Mono.value, hc] <;> ring
      · simp [h]
    rw [Finset.sum_congr rfl (fun i _ => this i)]
    conv_rhs => rw [Finset.sum_add_distrib, Finset.sum_ite_eq, if_pos (Finset.mem_range.mpr (hp m (by simp)))]

theorem value_unchanged {v v' : Nat → ℂ} {N : Nat} {p : List Mono} (hp : ∀ m ∈ p, m.id < N)
    (h : ∀ i < N, coeff p i false * (v' i - v i) + coeff p i true * (starRingEnd ℂ) (v' i - v i) = 0) : value v' p = value v p := by
  rw [← sub_eq_zero, value_coeff v' N p hp, value_coeff v N p hp, ← Finset.sum_sub_distrib]
  apply Finset.sum_eq_zero
  intro i hi
  have := h i (Finset.mem_range.mp hi)
  rw [map_sub] at this
  linear_combination this

/-- What one rule with a real or imaginary direction puts into the matrix. -/
theorem ruleRow_exact {t : Table} (ht : Sound t) {o : Order} {r : MRule} (hr : r.OK (flags t) o) (hst : r.Straight) {T R I}
    (h : ruleRow t r = some (T, R, I)) : ∃ s : Sym, t.syms[r.lhs]? = some s ∧
      (∀ a b : Nat → ℝ, (∀ k ∈ R, apply T (joined t.basis.real.length a b) k = (value (point t a b) r.rhs).re) ∧
        ∀ k ∈ I, apply T (joined t.basis.real.length a b) (t.basis.real.length + k) = (value (point t a b) r.rhs).im) ∧
      ∀ a b a' b' : Nat → ℝ, (∀ k, s.re = some k → k ∈ R ∨ a' k = a k) → (∀ k, s.im = some k → k ∈ I ∨ b' k = b k) → ∀ p, Meets r p →
        coeff p r.lhs false * (s.at a' b' - s.at a b) + coeff p r.lhs true * (starRingEnd ℂ) (s.at a' b' - s.at a b) = 0 := by
  unfold ruleRow at h
  obtain ⟨s, hs, h⟩ := Option.bind_eq_some_iff.mp h
  have hm := List.mem_of_getElem? hs
  obtain ⟨p1, p2⟩ := ht.parts s hm
  have hpair := Poly.canonical_paired hr.rhs_canonical
  refine ⟨s, hs, ?_⟩
  have hfh : (flags t).herm r.lhs = s.herm := by simp [flags, hs]
  have hfa : (flags t).anti r.lhs = s.anti := by simp [flags, hs]
  by_cases hp : r.partial = true
  · rw [if_pos hp] at h
    obtain ⟨h1, h2, h3, h4, h5, h6⟩ := hr.part hp
    have hnorm : r.dir.re * r.dir.re + r.dir.im * r.dir.im = 1 := by
      have := congrArg Complex.re h4
      rw [Complex.mul_conj] at this
      simpa [Complex.normSq_apply] using this
    by_cases hreal : r.dir.im = 0
    · rw [if_pos hreal] at h
      obtain ⟨k, hk, h⟩ := Option.bind_eq_some_iff.mp h
      obtain ⟨T', hT, e⟩ := Option.map_eq_some_iff.mp h
      simp only [Prod.mk.injEq] at e
      obtain ⟨rfl, rfl, rfl⟩ := e
      obtain ⟨-, r2⟩ := tripletRow_spec ht.offsets hpair _ _ hT
      refine ⟨fun a b => ⟨?_, by simp⟩, ?_⟩
      · simp only [List.mem_singleton, forall_eq]
        rw [r2, if_pos rfl, if_neg (by simp), add_zero]
      · intro a b a' b' ha hb p hpm
        unfold Meets at hpm
        have hd : r.dir = 1 := by
          rcases h5 with h | h
          · exact h
          · rw [hreal] at h; exact absurd h (lt_irrefl _)
        rw [if_pos hp, hd] at hpm
        have him : (starRingEnd ℂ) (s.at a' b' - s.at a b) = s.at a' b' - s.at a b := by
          apply Complex.conj_eq_iff_im.mpr
          cases hi : s.im with
          | none => simp [Sym.at, hi]
          | some j => simpa [Sym.at, hi, sub_eq_zero] using hb j hi
        rw [hpm, him]
        ring
    · rw [if_neg hreal] at h
      have himag : r.dir.re = 0 := (hst hp).resolve_left hreal
      rw [if_pos himag] at h
      obtain ⟨k, hk, h⟩ := Option.bind_eq_some_iff.mp h
      obtain ⟨T', hT, e⟩ := Option.map_eq_some_iff.mp h
      simp only [Prod.mk.injEq] at e
      obtain ⟨rfl, rfl, rfl⟩ := e
      obtain ⟨-, r2⟩ := tripletRow_spec ht.offsets hpair _ _ hT
      refine ⟨fun a b => ⟨by simp, ?_⟩, ?_⟩
      · simp only [List.mem_singleton, forall_eq]
        rw [r2, if_neg (by simp), if_pos (by simp [add_comm]), zero_add]
      · intro a b a' b' ha hb p hpm
        unfold Meets at hpm
        have hd : r.dir = Complex.I := by
          apply Complex.ext
          · simpa using himag
          · simp only [Complex.I_im]
            rcases h5 with h | h
            · rw [h] at himag; simp at himag
            · rw [himag] at hnorm; nlinarith
        rw [if_pos hp, hd, Complex.I_mul_I] at hpm
        have hre : (starRingEnd ℂ) (s.at a' b' - s.at a b) = -(s.at a' b' - s.at a b) := by
          apply Complex.ext
          · have : (s.at a' b' - s.at a b).re = 0 := by
              cases hi : s.re with
              | none => simp [Sym.at, hi]
              | some j => simpa [Sym.at, hi, sub_eq_zero] using ha j hi
            rw [Complex.conj_re, Complex.neg_re, this]; simp
          · rw [Complex.conj_im, Complex.neg_im]
        rw [hpm, hre]
        ring
  · rw [if_neg hp] at h
    obtain ⟨T', hT, e⟩ := Option.map_eq_some_iff.mp h
    simp only [Prod.mk.injEq] at e
    obtain ⟨rfl, rfl, rfl⟩ := e
    obtain ⟨-, r2⟩ := tripletRow_spec ht.offsets hpair _ _ hT
    refine ⟨fun a b => ⟨?_, ?_⟩, ?_⟩
    · intro k hk
      rw [Option.mem_toList] at hk
      have hkn := re_lt ht.offsets hm hk
      rw [r2, if_pos hk, if_neg (by
        simp only [Option.map_eq_some_iff]
        rintro ⟨x, -, hx⟩
        omega), add_zero]
    · intro k hk
      rw [Option.mem_toList] at hk
      rw [r2, if_neg (by
        intro h'
        have := re_lt ht.offsets hm h'
        omega), if_pos (by rw [hk, Option.map_some, add_comm]), zero_add]
    · intro a b a' b' ha hb p hpm
      unfold Meets at hpm
      rw [if_neg hp] at hpm
      rw [hpm.1, hpm.2]
      ring

theorem ruleRows_parts {t : Table} (ht : Sound t) {o : Order} (b : List MRule) (hb : ∀ r ∈ b, r.OK (flags t) o)
    (hd : b.Pairwise fun r s => r.lhs ≠ s.lhs) (hl : ∀ r ∈ b, r.lhs < t.syms.length)
    (hid : ∀ r ∈ b, ∀ m ∈ r.rhs, m.id < t.syms.length) {T R I} (h : ruleRows t b = some (T, R, I)) :
    ∀ r ∈ b, ∃ Tr Rr Ir, ruleRow t r = some (Tr, Rr, Ir) ∧ RowSpec t r Tr Rr Ir ∧ (∀ k ∈ Rr, k ∈ R) ∧ (∀ k ∈ Ir, k ∈ I) ∧
      (∀ k ∈ Rr, ∀ x, apply T x k = apply Tr x k) ∧
      (∀ k ∈ Ir, ∀ x, apply T x (t.basis.real.length + k) = apply Tr x (t.basis.real.length + k)) ∧
      (∀ k ∈ R, t.basis.real[k]? = some r.lhs → k ∈ Rr) ∧ (∀ k ∈ I, t.basis.imag[k]? = some r.lhs → k ∈ Ir) := by
  induction b generalizing T R I with
  | nil => simp
  | cons q b ih =>
    rw [List.pairwise_cons] at hd
    obtain ⟨T₁, R₁, I₁, h1, S1⟩ := ruleRow_spec ht (hb q (by simp)) (hl q (by simp)) (hid q (by simp))
    obtain ⟨T₂, R₂, I₂, h2, S2⟩ := ruleRows_spec ht b (fun x hx => hb x (by simp [hx])) hd.2 (fun x hx => hl x (by simp [hx]))
      (fun x hx => hid x (by simp [hx]))
    have he : ruleRows t (q :: b) = some (T₁ ++ T₂, R₁ ++ R₂, I₁ ++ I₂) := by simp [ruleRows, h1, h2]
    rw [he] at h
    simp only [Option.some.injEq, Prod.mk.injEq] at h
    obtain ⟨rfl, rfl, rfl⟩ := h
    obtain ⟨s, hs, hR, hI⟩ := S1.sym
    have hm := List.mem_of_getElem? hs
    have hsid : s.id = q.lhs := Symbols.getElem?_id ht.offsets hs
    have R1 : ∀ k ∈ R₁, t.basis.real[k]? = some q.lhs := fun k hk => by rw [(ht.offsets.re s hm k).mp (hR k hk), hsid]
    have I1 : ∀ k ∈ I₁, t.basis.imag[k]? = some q.lhs := fun k hk => by rw [(ht.offsets.im s hm k).mp (hI k hk), hsid]
    have R1n : ∀ k ∈ R₁, k < t.basis.real.length := fun k hk => (List.getElem?_eq_some_iff.mp (R1 k hk)).1
    have R2n : ∀ k ∈ R₂, k < t.basis.real.length := fun k hk => by
      obtain ⟨x, -, h⟩ := S2.re k hk
      exact (List.getElem?_eq_some_iff.mp h).1
    intro r hr
    rcases List.mem_cons.mp hr with rfl | hr
    · refine ⟨T₁, R₁, I₁, h1, S1, by simp +contextual, by simp +contextual, ?_, ?_, ?_, ?_⟩
      · intro k hk x
        rw [apply_append, apply_absent (T := T₂), add_zero]
        intro e he h
        rcases S2.rows e he with h' | ⟨j, -, h'⟩
        · obtain ⟨y, hy, e⟩ := S2.re _ h'
          rw [h, R1 k hk, Option.some.injEq] at e
          exact hd.1 y hy e
        · have := R1n k hk; omega
      · intro k hk x
        rw [apply_append, apply_absent (T := T₂), add_zero]
        intro e he h
        rcases S2.rows e he with h' | ⟨j, hj, h'⟩
        · have := R2n _ h'; omega
        · have : j = k := by omega
          subst this
          obtain ⟨y, hy, e⟩ := S2.im _ hj
          rw [I1 j hk, Option.some.injEq] at e
          exact hd.1 y hy e
      · intro k hk e
        rcases List.mem_append.mp hk with hk | hk
        · exact hk
        · obtain ⟨y, hy, e'⟩ := S2.re _ hk
          rw [e, Option.some.injEq] at e'
          exact absurd e' (hd.1 y hy)
      · intro k hk e
        rcases List.mem_append.mp hk with hk | hk
        · exact hk
        · obtain ⟨y, hy, e'⟩ := S2.im _ hk
          rw [e, Option.some.injEq] at e'
          exact absurd e' (hd.1 y hy)
    · obtain ⟨Tr, Rr, Ir, g1, g2, g3, g4, g5, g6, g7, g8⟩ := ih (fun x hx => hb x (by simp [hx])) hd.2 (fun x hx => hl x (by simp [hx]))
        (fun x hx => hid x (by simp [hx])) h2 r hr
      refine ⟨Tr, Rr, Ir, g1, g2, fun k hk => by simp [g3 k hk], fun k hk => by simp [g4 k hk], ?_, ?_, ?_, ?_⟩
      · intro k hk x
        obtain ⟨s', hs', hR', -⟩ := g2.sym
        have hk' : t.basis.real[k]? = some r.lhs := by
          rw [(ht.offsets.re s' (List.mem_of_getElem? hs') k).mp (hR' k hk), Symbols.getElem?_id ht.offsets hs']
        rw [apply_append, g5 k hk, apply_absent (T := T₁), zero_add]
        intro e he h
        rcases S1.rows e he with h' | ⟨j, -, h'⟩
        · have := R1 _ h'
          rw [h, hk', Option.some.injEq] at this
          exact hd.1 r hr this.symm
        · have := (List.getElem?_eq_some_iff.mp hk').1; omega
      · intro k hk x
        obtain ⟨s', hs', -, hI'⟩ := g2.sym
        have hk' : t.basis.imag[k]? = some r.lhs := by
          rw [(ht.offsets.im s' (List.mem_of_getElem? hs') k).mp (hI' k hk), Symbols.getElem?_id ht.offsets hs']
        rw [apply_append, g6 k hk, apply_absent (T := T₁), zero_add]
        intro e he h
        rcases S1.rows e he with h' | ⟨j, hj, h'⟩
        · have := R1n _ h'; omega
        · have : j = k := by omega
          subst this
          have := I1 _ hj
          rw [hk', Option.some.injEq] at this
          exact hd.1 r hr this.symm
      · intro k hk e
        rcases List.mem_append.mp hk with hk | hk
        · have := R1 k hk
          rw [e, Option.some.injEq] at this
          exact absurd this.symm (hd.1 r hr)
        · exact g7 k hk e
      · intro k hk e
        rcases List.mem_append.mp hk with hk | hk
        · have := I1 k hk
          rw [e, Option.some.injEq] at this
          exact absurd this.symm (hd.1 r hr)
        · exact g8 k hk e

theorem rewrite_solves {t : Table} (ht : Sound t) {o : Order} (b : List MRule) (hinv : Poly.Inv (flags t) o b) (hst : ∀ r ∈ b, r.Straight)
    (hl : ∀ r ∈ b, r.lhs < t.syms.length) (hid : ∀ r ∈ b, ∀ m ∈ r.rhs, m.id < t.syms.length) {M} (hM : rulebookMatrix t .rewrite b = some M)
    (x y : Nat → ℝ) (hxy : point t x y 1 = 1) :
    Poly.Solves (flags t) b (point t (fun k => apply M (joined t.basis.real.length x y) k)
      (fun k => apply M (joined t.basis.real.length x y) (t.basis.real.length + k))) := by
  have hd : b.Pairwise fun r s => r.lhs ≠ s.lhs := hinv.ordered.imp fun h e => by rw [e] at h; exact lt_irrefl _ h
  obtain ⟨T, R, I, h, S⟩ := ruleRows_spec ht b hinv.ok hd hl hid
  have parts := ruleRows_parts ht b hinv.ok hd hl hid h
  unfold rulebookMatrix at hM
  rw [h, Option.map_some, Option.some.injEq] at hM
  have Rn : ∀ k ∈ R, k < t.basis.real.length := fun k hk => by
    obtain ⟨x, -, h⟩ := S.re k hk
    exact (List.getElem?_eq_some_iff.mp h).1
  have d0 : ∀ (l : List Nat) (c : ℝ), (l.map fun i => (i, i, c)) = l.map fun i => (0 + i, 0 + i, c) := fun l c => by simp
  have jr : ∀ k, k < t.basis.real.length → joined t.basis.real.length x y k = x k := fun k hk => by simp [joined, hk]
  have ji : ∀ k, joined t.basis.real.length x y (t.basis.real.length + k) = y k := fun k => by simp [joined]
  have val : ∀ i, apply M (joined t.basis.real.length x y) i =
      apply T (joined t.basis.real.length x y) i + (if i < t.basis.real.length ∧ i ∉ R then joined t.basis.real.length x y i else 0) +
        (if ∃ k, k < t.basis.imag.length ∧ k ∉ I ∧ t.basis.real.length + k = i then joined t.basis.real.length x y i else 0) := by
    intro i
    rw [← hM, apply_append, apply_append, d0, apply_diag _ (nodup_filter_range _ _), apply_diag _ (nodup_filter_range _ _)]
    simp [and_assoc]
  have inR : ∀ k ∈ R, apply M (joined t.basis.real.length x y) k = apply T (joined t.basis.real.length x y) k := by
    intro k hk
    rw [val, if_neg (by simp [hk]), if_neg (by rintro ⟨k', -, -, h⟩; have := Rn k hk; omega), add_zero, add_zero]
  have inI : ∀ k ∈ I, apply M (joined t.basis.real.length x y) (t.basis.real.length + k) =
      apply T (joined t.basis.real.length x y) (t.basis.real.length + k) := by
    intro k hk
    rw [val, if_neg (by omega), if_neg (by rintro ⟨k', -, h1, h2⟩; exact h1 ((show k = k' by omega) ▸ hk)), add_zero, add_zero]
  have outR : ∀ k, k < t.basis.real.length → k ∉ R → apply M (joined t.basis.real.length x y) k = x k := by
    intro k hk hkR
    have n1 : ¬ ∃ j, j < t.basis.imag.length ∧ j ∉ I ∧ t.basis.real.length + j = k := by rintro ⟨j, -, -, h⟩; omega
    rw [val, if_pos ⟨hk, hkR⟩, if_neg n1, jr k hk, apply_absent (T := T), zero_add, add_zero]
    intro e he h
    rcases S.rows e he with h' | ⟨j, -, h'⟩
    · exact hkR (h ▸ h')
    · omega
  have outI : ∀ k, k < t.basis.imag.length → k ∉ I → apply M (joined t.basis.real.length x y) (t.basis.real.length + k) = y k := by
    intro k hk hkI
    rw [val, if_neg (by omega), if_pos ⟨k, hk, hkI, rfl⟩, ji, apply_absent (T := T), zero_add, zero_add]
    intro e he h
    rcases S.rows e he with h' | ⟨j, hj, h'⟩
    · have := Rn _ h'; omega
    · exact hkI ((show j = k by omega) ▸ hj)
  generalize ha' : (fun k => apply M (joined t.basis.real.length x y) k) = a'
  generalize hb' : (fun k => apply M (joined t.basis.real.length x y) (t.basis.real.length + k)) = b'
  have ha : ∀ k, a' k = apply M (joined t.basis.real.length x y) k := fun k => by rw [← ha']
  have hb : ∀ k, b' k = apply M (joined t.basis.real.length x y) (t.basis.real.length + k) := fun k => by rw [← hb']
  -- symbols that are no left-hand side keep their values
  have keep : ∀ i, (∀ r ∈ b, r.lhs ≠ i) → point t a' b' i = point t x y i := by
    intro i hi
    unfold point
    cases hs : t.syms[i]? with
    | none => rfl
    | some s =>
      dsimp only
      have hm := List.mem_of_getElem? hs
      have hsid : s.id = i := Symbols.getElem?_id ht.offsets hs
      have e1 : s.re.elim 0 a' = s.re.elim 0 x := by
        cases hre : s.re with
        | none => rfl
        | some k =>
          have hk := (ht.offsets.re s hm k).mp hre
          rw [Option.elim_some, Option.elim_some, ha, outR k (re_lt ht.offsets hm hre)]
          intro hkR
          obtain ⟨r, hr, e⟩ := S.re k hkR
          rw [hk, hsid, Option.some.injEq] at e
          exact hi r hr e.symm
      have e2 : s.im.elim 0 b' = s.im.elim 0 y := by
        cases him : s.im with
        | none => rfl
        | some k =>
          have hk := (ht.offsets.im s hm k).mp him
          rw [Option.elim_some, Option.elim_some, hb, outI k (im_lt ht.offsets hm him)]
          intro hkI
          obtain ⟨r, hr, e⟩ := S.im k hkI
          rw [hk, hsid, Option.some.injEq] at e
          exact hi r hr e.symm
      unfold Sym.at
      rw [e1, e2]
  have hone : point t a' b' 1 = 1 := by
    rw [keep 1 (fun r hr e => by have := (hinv.ok r hr).lhs; omega), hxy]
  have hass : Assignment (flags t) (point t a' b') := ⟨Symbols.respects_point ht a' b', hone⟩
  refine ⟨hass, fun r hr => ?_⟩
  have same : value (point t a' b') r.rhs = value (point t x y) r.rhs := by
    apply value_unchanged (hid r hr)
    intro i hi
    by_cases hlhs : ∀ q ∈ b, q.lhs ≠ i
    · rw [keep i hlhs]; simp
    · push Not at hlhs
      obtain ⟨q, hq, rfl⟩ := hlhs
      obtain ⟨Tq, Rq, Iq, g1, g2, g3, g4, g5, g6, g7, g8⟩ := parts q hq
      obtain ⟨s, hs, -, h2⟩ := ruleRow_exact ht (hinv.ok q hq) (hst q hq) g1
      have hm := List.mem_of_getElem? hs
      have hsid : s.id = q.lhs := Symbols.getElem?_id ht.offsets hs
      have e : ∀ u w, point t u w q.lhs = s.at u w := fun u w => by simp only [point, hs]
      rw [e, e]
      apply h2 x y a' b' _ _ r.rhs (hinv.meets r hr q hq)
      · intro k hk
        have hk' := (ht.offsets.re s hm k).mp hk
        rw [hsid] at hk'
        by_cases hR : k ∈ R
        · exact Or.inl (g7 k hR hk')
        · right; rw [ha, outR k (re_lt ht.offsets hm hk) hR]
      · intro k hk
        have hk' := (ht.offsets.im s hm k).mp hk
        rw [hsid] at hk'
        by_cases hI : k ∈ I
        · exact Or.inl (g8 k hI hk')
        · right; rw [hb, outI k (im_lt ht.offsets hm hk) hI]
  obtain ⟨Tr, Rr, Ir, g1, g2, g3, g4, g5, g6, g7, g8⟩ := parts r hr
  obtain ⟨s, hs, h1, -⟩ := ruleRow_exact ht (hinv.ok r hr) (hst r hr) g1
  rw [g2.holds a' b' hass]
  refine ⟨fun k hk => ?_, fun k hk => ?_⟩
  · rw [(h1 a' b').1 k hk, same, ha, inR k (g3 k hk), g5 k hk, (h1 x y).1 k hk]
  · rw [(h1 a' b').2 k hk, same, hb, inI k (g4 k hk), g6 k hk, (h1 x y).2 k hk]

end Moment.BasisVec
