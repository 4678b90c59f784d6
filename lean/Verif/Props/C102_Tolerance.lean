import Verif.Model.Tolerance
import Verif.Proof.PolyOrder
import Verif.Proof.Poly
import Mathlib.Analysis.Normed.Field.Basic
import Mathlib.Analysis.Complex.Basic
import Mathlib.Tactic.Positivity
import Mathlib.Tactic.NormNum
import Mathlib.Tactic.Linarith

/-! # C102: comparisons and polynomials with tolerance -/

namespace Moment.C102
open Classical
open Moment.Tolerance
open Moment.Poly (Mono value Respects)

theorem eps_pos : 0 < eps := by unfold eps; positivity

theorem eps_lt : eps < 1 / 4 := by unfold eps; norm_num

/-! ## Real numbers -/

/-- **C102, comparisons.** Comparisons are reflexive and symmetric, and of two numbers either they are approximately equal, or one is definitely less, and
never two of these. In particular numbers neither of which is definitely less are approximately equal, as documented. -/
theorem C102_compare {k : ℝ} (hk : 0 ≤ k) (x y : ℝ) :
    near x x k = true ∧ near x y k = near y x k ∧ above x y k = below y x k ∧ ranked y x k = -ranked x y k ∧
    (ranked x y k = 0 ↔ near x y k = true) ∧ (ranked x y k = -1 ↔ below x y k = true) ∧ (ranked x y k = 1 ↔ above x y k = true) ∧
    (near x y k = true ↔ below x y k = false ∧ below y x k = false) ∧ ¬ (below x y k = true ∧ below y x k = true) := by
  have he := eps_pos
  have hm : 0 ≤ k * eps * max |x| |y| := by positivity
  have hs : near x y k = near y x k := by
    unfold near
    rw [abs_sub_comm, max_comm]
  have hb : below x y k = true ↔ near x y k = false ∧ x < y := by
    unfold below near
    simp only [Bool.and_eq_true, decide_eq_true_eq, decide_eq_false_iff_not, not_le]
    constructor
    · rintro ⟨h1, h2⟩
      rw [abs_of_neg (show x - y < 0 by linarith)]
      exact ⟨by linarith, h1⟩
    · rintro ⟨h1, h2⟩
      rw [abs_of_neg (show x - y < 0 by linarith)] at h1
      exact ⟨h2, by linarith⟩
  have hb' : below y x k = true ↔ near x y k = false ∧ y < x := by
    unfold below near
    simp only [Bool.and_eq_true, decide_eq_true_eq, decide_eq_false_iff_not, not_le, max_comm |y| |x|]
    constructor
    · rintro ⟨h1, h2⟩
      rw [abs_of_pos (show 0 < x - y by linarith)]
      exact ⟨by linarith, h1⟩
    · rintro ⟨h1, h2⟩
      rw [abs_of_pos (show 0 < x - y by linarith)] at h1
      exact ⟨h2, by linarith⟩
  have ha : above x y k = below y x k := by
    unfold above below
    rw [max_comm |y| |x|]
  have hne : near x y k = false → x ≠ y := by
    rintro h rfl
    simp only [near, sub_self, abs_zero, decide_eq_false_iff_not] at h
    exact h hm
  refine ⟨by simp only [near, sub_self, abs_zero, decide_eq_true_eq]; positivity, hs, ha, ?_, ?_, ?_, ?_, ?_, ?_⟩
  · unfold ranked
    rw [← hs]
    cases hn : near x y k with
    | true => simp
    | false =>
      rcases lt_or_gt_of_ne (hne hn) with h | h
      · simp [h, h.not_gt]
      · simp [h, h.not_gt]
  · unfold ranked
    split
    · simp_all
    · split <;> simp_all
  · rw [hb]
    unfold ranked
    split
    · simp_all
    · split <;> simp_all
  · rw [ha, hb']
    unfold ranked
    split
    · simp_all
    · rename_i h
      have := hne (by simpa using h)
      split
      · rename_i h'
        simp [h'.not_gt]
      · rename_i h'
        simp only [true_iff]
        exact ⟨by simpa using h, lt_of_le_of_ne (not_lt.mp h') (Ne.symm this)⟩
  · rw [← Bool.not_eq_true, ← Bool.not_eq_true, hb, hb']
    cases hn : near x y k with
    | true => simp
    | false =>
      simp only [Bool.false_eq_true, true_and, false_iff, not_and_or, not_not]
      exact lt_or_gt_of_ne (hne hn)
  · rintro ⟨h1, h2⟩
    exact absurd (hb.mp h1).2 (hb'.mp h2).2.not_gt

/-- **C102, less.** Being definitely less is a strict partial order, and a smaller tolerance finds more; with tolerance zero all of these are the exact
comparisons. Essentially equal numbers are approximately equal. -/
theorem C102_less {k : ℝ} (hk : 0 ≤ k) : (∀ x, below x x k = false) ∧ (∀ x y z, below x y k = true → below y z k = true → below x z k = true) ∧
    (∀ l x y, l ≤ k → below x y k = true → below x y l = true) ∧ (∀ x y, essentially x y k = true → near x y k = true) ∧
    ∀ x y, ranked x y 0 = PolyOrder.compareExact x y := by
  have he := eps_pos
  have hke : 0 ≤ k * eps := by positivity
  refine ⟨fun x => by simp [below], fun x y z h1 h2 => ?_, fun l x y hl h => ?_, fun x y h => ?_, fun x y => ?_⟩
  · simp only [below, Bool.and_eq_true, decide_eq_true_eq] at h1 h2 ⊢
    refine ⟨h1.1.trans h2.1, ?_⟩
    have a1 : k * eps * |x| ≤ k * eps * max |x| |y| := mul_le_mul_of_nonneg_left (le_max_left _ _) hke
    have a2 : k * eps * |z| ≤ k * eps * max |y| |z| := mul_le_mul_of_nonneg_left (le_max_right _ _) hke
    have a3 : 0 ≤ k * eps * max |x| |y| := by positivity
    have a4 : 0 ≤ k * eps * max |y| |z| := by positivity
    have a5 : k * eps * max |x| |z| ≤ k * eps * max |x| |y| + k * eps * max |y| |z| := by
      rcases max_cases |x| |z| with ⟨e, -⟩ | ⟨e, -⟩ <;> rw [e] <;> linarith
    linarith [h1.2, h2.2]
  · simp only [below, Bool.and_eq_true, decide_eq_true_eq] at h ⊢
    refine ⟨h.1, lt_of_le_of_lt ?_ h.2⟩
    gcongr
  · simp only [essentially, near, decide_eq_true_eq] at h ⊢
    exact h.trans (mul_le_mul_of_nonneg_left (min_le_max) hke)
  · unfold ranked PolyOrder.compareExact near
    simp only [zero_mul, abs_nonpos_iff, sub_eq_zero, decide_eq_true_eq]

/-- Different numbers that are equal, and numbers that are not. -/
example : near (1 + eps) 1 1 = true ∧ below 1 2 1 = true ∧ ranked 3 2 1 = 1 ∧ ranked (1 + eps) 1 1 = 0 := by
  have h1 : near (1 + eps) 1 1 = true := by
    have := eps_pos
    simp only [near, decide_eq_true_eq, add_sub_cancel_left, one_mul]
    rw [abs_of_pos this, abs_of_pos (by linarith), abs_one, max_eq_left (by linarith)]
    nlinarith
  refine ⟨h1, ?_, ?_, by simp [ranked, h1]⟩
  · have := eps_lt
    simp [below]
    norm_num
    linarith
  · rw [(C102_compare zero_le_one 3 2).2.2.2.2.2.2.1]
    have := eps_lt
    simp [above]
    norm_num
    linarith

/-- **Refuted: approximate equality is an equivalence.** The numbers 1, 1 + ε and 1 + 2ε. -/
theorem C102_refuted_transitive : near 1 (1 + eps) 1 = true ∧ near (1 + eps) (1 + 2 * eps) 1 = true ∧ near 1 (1 + 2 * eps) 1 = false ∧
    ranked 1 (1 + 2 * eps) 1 = -1 := by
  have h1 := eps_pos
  have h2 := eps_lt
  have h3 : near 1 (1 + 2 * eps) 1 = false := by
    simp only [near, decide_eq_false_iff_not, not_le, one_mul]
    rw [abs_of_neg (show (1:ℝ) - (1 + 2 * eps) < 0 by linarith), abs_of_pos (by linarith : 0 < 1 + 2 * eps), abs_one, max_eq_right (by linarith)]
    nlinarith
  refine ⟨?_, ?_, h3, ?_⟩
  · simp only [near, decide_eq_true_eq, one_mul]
    rw [abs_of_neg (show (1:ℝ) - (1 + eps) < 0 by linarith), abs_of_pos (by linarith : 0 < 1 + eps), abs_one, max_eq_right (by linarith)]
    nlinarith
  · simp only [near, decide_eq_true_eq, one_mul]
    rw [abs_of_neg (show 1 + eps - (1 + 2 * eps) < 0 by linarith), abs_of_pos (by linarith : 0 < 1 + eps), abs_of_pos (by linarith : 0 < 1 + 2 * eps), max_eq_right (by linarith)]
    nlinarith
  · unfold ranked
    rw [h3, if_neg (by simp), if_pos (by linarith)]

/-! ## Complex numbers -/

theorem small_iff {x : ℂ} {k : ℝ} (hk : 0 ≤ k) : small x k = true ↔ ‖x‖ < k * eps := by
  have he := eps_pos
  simp only [small, decide_eq_true_eq]
  rw [← Complex.normSq_apply, Complex.normSq_eq_norm_sq, show k * k * eps * eps = (k * eps) ^ 2 by ring]
  exact pow_lt_pow_iff_left₀ (norm_nonneg _) (by positivity) (by norm_num)

/-- **C102, complex numbers.** A number is approximately zero if its absolute value is less than the tolerance; approximate equality is symmetric, reflexive
for positive tolerances, does not depend on where the numbers are, and tolerances add up. Cleaning changes a number by at most the tolerance. -/
theorem C102_complex {k l : ℝ} (hk : 0 ≤ k) (hl : 0 ≤ l) (x y z : ℂ) :
    (small x k = true ↔ ‖x‖ < k * eps) ∧ (close x y k = true ↔ ‖x - y‖ < k * eps) ∧ close x y k = close y x k ∧ (0 < k → close x x k = true) ∧
    close (x + z) (y + z) k = close x y k ∧ (close x y k = true → close y z l = true → close x z (k + l) = true) ∧ ‖clean x k - x‖ ≤ k * eps := by
  have he := eps_pos
  have hc : ∀ {a b : ℂ} {r : ℝ}, 0 ≤ r → (close a b r = true ↔ ‖a - b‖ < r * eps) := fun hr => small_iff hr
  refine ⟨small_iff hk, hc hk, ?_, fun h => ?_, ?_, fun h1 h2 => ?_, ?_⟩
  · rw [Bool.eq_iff_iff, hc hk, hc hk, norm_sub_rev]
  · rw [hc hk, sub_self, norm_zero]
    positivity
  · rw [Bool.eq_iff_iff, hc hk, hc hk, add_sub_add_right_eq_sub]
  · rw [hc (by positivity)]
    have := norm_sub_le_norm_sub_add_norm_sub x y z
    rw [hc hk] at h1
    rw [hc hl] at h2
    calc ‖x - z‖ ≤ ‖x - y‖ + ‖y - z‖ := this
      _ < k * eps + l * eps := add_lt_add h1 h2
      _ = (k + l) * eps := by ring
  · unfold clean
    split
    · rename_i h
      simp only [tiny, decide_eq_true_eq] at h
      have : (⟨0, x.im⟩ : ℂ) - x = ((-x.re : ℝ) : ℂ) := by apply Complex.ext <;> simp
      rw [this, Complex.norm_real, Real.norm_eq_abs, abs_neg]
      exact h
    · split
      · rename_i h
        simp only [tiny, decide_eq_true_eq] at h
        have : (⟨x.re, 0⟩ : ℂ) - x = ((-x.im : ℝ) : ℂ) * Complex.I := by apply Complex.ext <;> simp
        rw [this, norm_mul, Complex.norm_I, mul_one, Complex.norm_real, Real.norm_eq_abs, abs_neg]
        exact h
      · rw [sub_self, norm_zero]
        positivity

/-- Numbers that differ and are approximately equal. -/
example : close (1 + ((eps : ℝ) : ℂ)) 1 2 = true ∧ close (1 + ((eps : ℝ) : ℂ)) 1 1 = false := by
  have h := eps_pos
  have hn : ‖(1 + ((eps : ℝ) : ℂ)) - 1‖ = eps := by rw [add_sub_cancel_left, Complex.norm_real, Real.norm_eq_abs, abs_of_pos h]
  refine ⟨(C102_complex zero_le_two le_rfl _ _ 0).2.1.mpr (by rw [hn]; linarith), ?_⟩
  rw [← Bool.not_eq_true, (C102_complex zero_le_one le_rfl _ _ 0).2.1, hn]
  linarith

/-! ## Polynomials -/

/-- Total absolute value of the symbols of a polynomial. -/
noncomputable def weight (v : Nat → ℂ) (l : List Mono) : ℝ := (l.map fun m => ‖v m.id‖).sum

theorem weight_nonneg (v : Nat → ℂ) (l : List Mono) : 0 ≤ weight v l := List.sum_nonneg fun x hx => by
  obtain ⟨m, -, rfl⟩ := List.mem_map.mp hx
  exact norm_nonneg _

@[simp] theorem weight_nil (v : Nat → ℂ) : weight v [] = 0 := rfl
@[simp] theorem weight_cons (v : Nat → ℂ) (m : Mono) (l : List Mono) : weight v (m :: l) = ‖v m.id‖ + weight v l := by simp [weight]

theorem norm_value (v : Nat → ℂ) (m : Mono) : ‖m.value v‖ = ‖m.factor‖ * ‖v m.id‖ := by
  unfold Poly.Mono.value
  rw [norm_mul]
  split
  · rw [RCLike.norm_conj]
  · rfl

theorem removeDupLoop_weight (v : Nat → ℂ) : ∀ (l : List Mono) (m : Mono), weight v (Poly.removeDupLoop m l) ≤ weight v (m :: l)
  | [], m => le_rfl
  | b :: l, m => by
    unfold Poly.removeDupLoop
    split
    · refine (removeDupLoop_weight v l _).trans ?_
      simp only [weight_cons]
      have := norm_nonneg (v b.id)
      linarith
    · rw [weight_cons, weight_cons]
      have := removeDupLoop_weight v l b
      linarith

theorem removeDup_weight (v : Nat → ℂ) (l : List Mono) : weight v (Poly.removeDup l) ≤ weight v l := by
  cases l with
  | nil => exact le_rfl
  | cons m l => exact removeDupLoop_weight v l m

theorem weight_perm (v : Nat → ℂ) {p q : List Mono} (h : p.Perm q) : weight v p = weight v q := (h.map _).sum_eq

theorem removeZeros_error {k : ℝ} (hk : 0 ≤ k) {v : Nat → ℂ} (h0 : v 0 = 0) (l : List Mono) : ‖value v (removeZeros k l) - value v l‖ ≤ k * eps * weight v l := by
  have he := eps_pos
  induction l with
  | nil => simp [removeZeros]
  | cons m l ih =>
    have hw := norm_nonneg (v m.id)
    rw [weight_cons, mul_add, removeZeros, List.filter_cons]
    split
    · rw [Poly.value_cons, Poly.value_cons, add_sub_add_left_eq_sub]
      have : 0 ≤ k * eps * ‖v m.id‖ := by positivity
      exact ih.trans (by linarith)
    · rename_i h
      simp only [Bool.not_eq_eq_eq_not, Bool.not_true, Bool.not_eq_false, Bool.or_eq_true, beq_iff_eq] at h
      have hm : ‖m.value v‖ ≤ k * eps * ‖v m.id‖ := by
        rw [norm_value]
        rcases h with h | h
        · exact mul_le_mul_of_nonneg_right ((small_iff hk).mp h).le hw
        · rw [h, h0]; simp
      rw [Poly.value_cons, show value v (List.filter (fun m => !(small m.factor k || m.id == 0)) l) - (m.value v + value v l) =
        (value v (removeZeros k l) - value v l) - m.value v by unfold removeZeros; ring]
      exact (norm_sub_le _ _).trans (by linarith)

/-- The list before zeros are dropped. -/
noncomputable def joined (o : Poly.Order) (l : List Mono) : List Mono := if l.length > 1 then Poly.removeDup (stableSort o.key l) else l

theorem joined_value (v : Nat → ℂ) (o : Poly.Order) (l : List Mono) : value v (joined o l) = value v l := by
  unfold joined
  split
  · rw [Poly.removeDup_value]; exact Poly.value_perm v (stableSort_perm _ _)
  · rfl

theorem joined_weight (v : Nat → ℂ) (o : Poly.Order) (l : List Mono) : weight v (joined o l) ≤ weight v l := by
  unfold joined
  split
  · exact (removeDup_weight v _).trans_eq (weight_perm v (stableSort_perm _ _))
  · exact le_rfl

theorem joined_sorted {o : Poly.Order} (ho : Function.Injective o.rank) (l : List Mono) : (joined o l).Pairwise fun a b => o.key a < o.key b := by
  unfold joined
  split
  · exact Poly.removeDup_sorted o ho _ (stableSort_sorted _ _)
  · rename_i h
    match l, h with
    | [], _ => simp
    | [a], _ => simp
    | a :: b :: l, h => simp at h

theorem joined_coeff (o : Poly.Order) (l : List Mono) (i : Nat) (c : Bool) : Poly.coeff (joined o l) i c = Poly.coeff l i c := by
  unfold joined
  split
  · rw [Poly.removeDup_coeff]; exact Poly.coeff_perm (stableSort_perm _ _) _ _
  · rfl

theorem sorted_coeff {o : Poly.Order} (ho : Function.Injective o.rank) : ∀ {p : List Mono}, (p.Pairwise fun a b => o.key a < o.key b) → ∀ m ∈ p,
    Poly.coeff p m.id m.conj = m.factor
  | a :: p, hs, m, hm => by
    rw [List.pairwise_cons] at hs
    rw [Poly.coeff_cons]
    have ne : ∀ b ∈ p, ¬ (a.id = b.id ∧ a.conj = b.conj) := fun b hb h => by
      have := hs.1 b hb
      rw [(Poly.key_eq ho).mpr h] at this
      exact lt_irrefl _ this
    rcases List.mem_cons.mp hm with rfl | hm
    · rw [if_pos ⟨rfl, rfl⟩, Poly.coeff_eq_zero (fun b hb h => ne b hb ⟨h.1.symm, h.2.symm⟩), add_zero]
    · rw [if_neg (ne m hm), zero_add, sorted_coeff ho hs.2 m hm]

/-- **C102, construction.** A polynomial that is made of terms has strictly ascending symbols, no symbol zero, and no coefficient below the tolerance; its
value differs from the sum of the terms by at most the tolerance for each term. -/
theorem C102_make {k : ℝ} (hk : 0 ≤ k) (t : Poly.Table) {o : Poly.Order} (ho : Function.Injective o.rank) (l : List Mono) :
    ((make k t o l).Pairwise fun a b => o.rank a.id < o.rank b.id ∨ (a.id = b.id ∧ a.conj = false ∧ b.conj = true)) ∧
    (∀ m ∈ make k t o l, k * eps ≤ ‖m.factor‖ ∧ m.id ≠ 0 ∧ (m.conj = true → t.herm m.id = false ∧ t.anti m.id = false)) ∧
    ∀ v, Respects t v → ‖value v (make k t o l) - value v l‖ ≤ k * eps * weight v l := by
  have he := eps_pos
  refine ⟨?_, fun m hm => ?_, fun v hv => ?_⟩
  · rw [Poly.sorted_iff ho]
    exact (joined_sorted ho _).filter _
  · obtain ⟨h1, h2⟩ := List.mem_filter.mp hm
    simp only [Bool.not_eq_eq_eq_not, Bool.not_true, Bool.or_eq_false_iff, beq_eq_false_iff_ne] at h2
    refine ⟨not_lt.mp fun h => ?_, h2.2, fun hc => ?_⟩
    · rw [(small_iff hk).mpr h] at h2
      exact absurd h2.1 (by simp)
    · have : ∃ y ∈ l.map (Poly.fixCC t), y.id = m.id ∧ y.conj = m.conj := by
        split at h1
        · obtain ⟨y, hy, e⟩ := Poly.removeDup_mem _ _ h1
          exact ⟨y, mem_stableSort.mp hy, e⟩
        · exact ⟨m, h1, rfl, rfl⟩
      obtain ⟨y, hy, e1, e2⟩ := this
      obtain ⟨z, -, rfl⟩ := List.mem_map.mp hy
      rw [← e1]
      exact Poly.fixCC_plain t z (by rw [e2, hc])
  · have h1 := removeZeros_error hk hv.zero (joined o (l.map (Poly.fixCC t)))
    rw [joined_value, Poly.value_map_fixCC hv] at h1
    refine h1.trans (mul_le_mul_of_nonneg_left ((joined_weight v o _).trans_eq ?_) (by positivity))
    unfold weight
    rw [List.map_map]
    congr 1
    exact List.map_congr_left fun m _ => by rw [Function.comp, Poly.fixCC_id]

/-- **C102, exact construction.** If no coefficient is below the tolerance without being zero, then the construction is the exact one of the other models. -/
theorem C102_exact {k : ℝ} (hk : 0 < k) (t : Poly.Table) {o : Poly.Order} (ho : Function.Injective o.rank) {l : List Mono}
    (hl : ∀ i c, Poly.coeff (l.map (Poly.fixCC t)) i c = 0 ∨ k * eps ≤ ‖Poly.coeff (l.map (Poly.fixCC t)) i c‖) : make k t o l = Poly.make t o l := by
  have he := eps_pos
  unfold make makeRaw Poly.make Poly.makeRaw removeZeros Poly.removeZeros
  refine List.filter_congr fun m hm => ?_
  have hc : Poly.coeff (l.map (Poly.fixCC t)) m.id m.conj = m.factor := by
    rw [← joined_coeff o]
    exact sorted_coeff ho (joined_sorted ho _) m hm
  have : small m.factor k = decide (m.factor = 0) := by
    rw [Bool.eq_iff_iff, small_iff hk.le, decide_eq_true_eq]
    rcases hl m.id m.conj with h | h
    · rw [hc] at h
      simp only [h, norm_zero, iff_true]
      positivity
    · rw [hc] at h
      constructor
      · intro h'; linarith
      · intro h'
        rw [h', norm_zero] at h
        nlinarith
  rw [this]

/-- Two terms that cancel and one that stays. -/
example : make 1 ⟨fun _ => false, fun _ => false⟩ ⟨id⟩ [⟨3, false, 1⟩, ⟨2, false, 2⟩, ⟨3, false, -1⟩] =
    Poly.make ⟨fun _ => false, fun _ => false⟩ ⟨id⟩ [⟨3, false, 1⟩, ⟨2, false, 2⟩, ⟨3, false, -1⟩] := by
  refine C102_exact one_pos _ Function.injective_id fun i c => ?_
  have h : eps ≤ 2 := by have := eps_lt; linarith
  by_cases h3 : 3 = i <;> by_cases h2 : 2 = i <;> cases c <;> simp [Poly.fixCC, h3, h2, h]

theorem mergeAdd_error {k : ℝ} (hk : 0 ≤ k) {o : Poly.Order} (ho : Function.Injective o.rank) (v : Nat → ℂ) (p q : List Mono) :
    ‖value v (mergeAdd k o p q) - (value v p + value v q)‖ ≤ k * eps * weight v p := by
  have he := eps_pos
  fun_induction mergeAdd k o p q with
  | case1 q => simp
  | case2 a p => simpa using mul_nonneg (by positivity : 0 ≤ k * eps) (weight_nonneg v (a :: p))
  | case3 a p b q h ih =>
    have hw := norm_nonneg (v a.id)
    rw [Poly.value_cons, Poly.value_cons v a p, weight_cons, mul_add]
    have : 0 ≤ k * eps * ‖v a.id‖ := by positivity
    rw [show a.value v + value v (mergeAdd k o p (b :: q)) - (a.value v + value v p + value v (b :: q)) =
      value v (mergeAdd k o p (b :: q)) - (value v p + value v (b :: q)) by ring]
    linarith
  | case4 a p b q h1 h2 ih =>
    rw [Poly.value_cons, Poly.value_cons v b q]
    rwa [show b.value v + value v (mergeAdd k o (a :: p) q) - (value v (a :: p) + (b.value v + value v q)) =
      value v (mergeAdd k o (a :: p) q) - (value v (a :: p) + value v q) by ring]
  | case5 a p b q h1 h2 h3 ih =>
    have hk' : o.key a = o.key b := by
      simp only [Poly.Order.less, decide_eq_true_eq, not_lt] at h1 h2
      omega
    obtain ⟨e1, e2⟩ := (Poly.key_eq ho).mp hk'
    have hw := norm_nonneg (v a.id)
    have hs : ‖a.value v + b.value v‖ ≤ k * eps * ‖v a.id‖ := by
      have : a.value v + b.value v = Mono.value v ⟨a.id, a.conj, a.factor + b.factor⟩ := by
        unfold Poly.Mono.value
        simp only [e1, e2]
        ring
      rw [this, norm_value]
      exact mul_le_mul_of_nonneg_right ((small_iff hk).mp h3).le hw
    rw [Poly.value_cons, Poly.value_cons, weight_cons, mul_add,
      show value v (mergeAdd k o p q) - (a.value v + value v p + (b.value v + value v q)) =
        (value v (mergeAdd k o p q) - (value v p + value v q)) - (a.value v + b.value v) by ring]
    exact (norm_sub_le _ _).trans (by linarith)
  | case6 a p b q h1 h2 h3 ih =>
    have hk' : o.key a = o.key b := by
      simp only [Poly.Order.less, decide_eq_true_eq, not_lt] at h1 h2
      omega
    obtain ⟨e1, e2⟩ := (Poly.key_eq ho).mp hk'
    have hw : 0 ≤ k * eps * ‖v a.id‖ := by positivity
    have : a.value v + b.value v = Mono.value v ⟨a.id, a.conj, a.factor + b.factor⟩ := by
      unfold Poly.Mono.value
      simp only [e1, e2]
      ring
    rw [Poly.value_cons, Poly.value_cons, Poly.value_cons, weight_cons, mul_add, ← this,
      show a.value v + b.value v + value v (mergeAdd k o p q) - (a.value v + value v p + (b.value v + value v q)) =
        value v (mergeAdd k o p q) - (value v p + value v q) by ring]
    linarith

/-- **C102, sums and multiples.** The value of a sum differs by at most the tolerance for each term of the first polynomial; that of a multiple by the
tolerance for the coefficients. -/
theorem C102_sum {k : ℝ} (hk : 0 ≤ k) {o : Poly.Order} (ho : Function.Injective o.rank) (p q : List Mono) (c : ℂ) (v : Nat → ℂ) :
    ‖value v (append k o p q) - (value v p + value v q)‖ ≤ k * eps * weight v p ∧
    ‖value v (scale k c p) - c * value v p‖ ≤ k * eps * ‖value v p‖ := by
  have he := eps_pos
  have hw := mul_nonneg (by positivity : 0 ≤ k * eps) (weight_nonneg v p)
  have hn := norm_nonneg (value v p)
  constructor
  · unfold append
    split
    · rename_i h
      rw [List.isEmpty_iff.mp h]
      simpa using hw
    · split
      · rename_i h
        rw [List.isEmpty_iff.mp h]
        simp
      · exact mergeAdd_error hk ho v p q
  · unfold scale
    split
    · rename_i h
      rw [Poly.value_nil, zero_sub, norm_neg, norm_mul]
      exact mul_le_mul_of_nonneg_right ((small_iff hk).mp h).le hn
    · split
      · rename_i h
        have h' := (small_iff hk).mp h
        rw [show value v p - c * value v p = -((c - 1) * value v p) by ring, norm_neg, norm_mul]
        exact mul_le_mul_of_nonneg_right h'.le hn
      · have : value v (p.map fun m => { m with factor := m.factor * c }) = c * value v p := by
          induction p with
          | nil => simp
          | cons m p ih =>
            have ih := ih (mul_nonneg (by positivity) (weight_nonneg v p)) (norm_nonneg _)
            rw [List.map_cons, Poly.value_cons, Poly.value_cons, ih]
            unfold Poly.Mono.value
            ring
        rw [this, sub_self, norm_zero]
        positivity

/-- **C102, equality.** Polynomials that are approximately equal have nearly the same value. -/
theorem C102_equals {k : ℝ} (hk : 0 ≤ k) {v : Nat → ℂ} (h0 : v 0 = 0) : ∀ {p q : List Mono}, equals k p q = true → ‖value v p - value v q‖ ≤ k * eps * weight v p
  | [], [], _ => by simp
  | [], _ :: _, h => by simp [equals] at h
  | _ :: _, [], h => by simp [equals] at h
  | a :: p, b :: q, h => by
    have he := eps_pos
    simp only [equals, Bool.and_eq_true] at h
    have ih := C102_equals hk h0 h.2
    have hm : ‖a.value v - b.value v‖ ≤ k * eps * ‖v a.id‖ := by
      have h1 := h.1
      simp only [monoEquals, Bool.and_eq_true, Bool.or_eq_true, beq_iff_eq] at h1
      obtain ⟨e, h1⟩ := h1
      have e0 : ∀ m : Mono, m.id = 0 → m.value v = 0 := fun m hm => by unfold Poly.Mono.value; rw [hm, h0]; simp
      rcases h1 with h1 | ⟨h1, h2⟩
      · rw [e0 a h1, e0 b (e ▸ h1), h1, h0]
        simp
      · have : a.value v - b.value v = Mono.value v ⟨a.id, a.conj, a.factor - b.factor⟩ := by
          unfold Poly.Mono.value
          simp only [e, h1]
          ring
        rw [this, norm_value]
        exact mul_le_mul_of_nonneg_right ((small_iff hk).mp h2).le (norm_nonneg _)
    rw [Poly.value_cons, Poly.value_cons, weight_cons, mul_add, show a.value v + value v p - (b.value v + value v q) = (a.value v - b.value v) + (value v p - value v q) by ring]
    exact (norm_add_le _ _).trans (by linarith)

/-- A sum of which a term below the tolerance is dropped, and different polynomials that are equal. -/
example : append 4 ⟨id⟩ [⟨5, false, 1⟩] [⟨5, false, -1 + ((eps : ℝ) : ℂ)⟩] = [] ∧ equals 4 [⟨5, false, 1⟩] [⟨5, false, 1 - ((eps : ℝ) : ℂ)⟩] = true := by
  have h := eps_pos
  have hs : small ((eps : ℝ) : ℂ) 4 = true := by
    rw [small_iff (by norm_num), Complex.norm_real, Real.norm_eq_abs, abs_of_pos h]
    linarith
  constructor
  · simp [append, mergeAdd, Poly.Order.less, Poly.Order.key, hs]
  · simp [equals, monoEquals, close, hs]

/-- **Refuted: tolerance zero is exact.** The test of complex numbers is strict: with tolerance zero not even zero is approximately zero, numbers do not equal
themselves, and a polynomial minus itself has terms. The test of real numbers is not strict. -/
theorem C102_refuted_zero : small 0 0 = false ∧ (∀ x, close x x 0 = false) ∧ tiny 0 0 = true ∧ near 0 0 0 = true ∧
    (∀ t o f, ∃ m, make 0 t o [⟨5, false, f⟩, ⟨5, false, -f⟩] = [m] ∧ m.factor = 0) ∧ ∀ f, equals 0 [⟨5, false, f⟩] [⟨5, false, f⟩] = false := by
  have h : small 0 0 = false := by simp [small]
  refine ⟨h, fun x => by simp [close, h], by simp [tiny], by simp [near], fun t o f => ?_, fun f => by simp [equals, monoEquals, close, h]⟩
  have hs : ∀ a b : Mono, a.id = b.id → a.conj = b.conj → stableSort o.key [a, b] = [a, b] := fun a b h1 h2 => by
    have : o.key a = o.key b := by unfold Poly.Order.key; rw [h1, h2]
    simp [stableSort, this]
  cases ha : t.anti 5 <;> cases hh : t.herm 5 <;>
    simp [make, makeRaw, Poly.fixCC, ha, hh, hs, Poly.removeDup, Poly.removeDupLoop, removeZeros, h]

/-- **Refuted: polynomials stay without small coefficients.** A multiple keeps terms that are below the tolerance. -/
theorem C102_refuted_scale : ∃ p : List Mono, make 1 ⟨fun _ => false, fun _ => false⟩ ⟨id⟩ p = p ∧ ∃ m ∈ scale 1 (1 / 4) p, small m.factor 1 = true := by
  have h1 := eps_pos
  have h2 := eps_lt
  have hn : ‖((2 * eps : ℝ) : ℂ)‖ = 2 * eps := by rw [Complex.norm_real, Real.norm_eq_abs, abs_of_pos (by linarith)]
  refine ⟨[⟨5, false, ((2 * eps : ℝ) : ℂ)⟩], ?_, ⟨5, false, ((2 * eps : ℝ) : ℂ) * (1 / 4)⟩, ?_, ?_⟩
  · have : small ((2 * eps : ℝ) : ℂ) 1 = false := by
      rw [← Bool.not_eq_true, small_iff zero_le_one, hn]
      linarith
    simp [make, makeRaw, Poly.fixCC, removeZeros, -Complex.ofReal_mul, this]
  · have a : small (1 / 4) 1 = false := by
      rw [← Bool.not_eq_true, small_iff zero_le_one]
      norm_num
      linarith
    have b : close (1 / 4) 1 1 = false := by
      rw [← Bool.not_eq_true, close, small_iff zero_le_one]
      norm_num
      linarith
    simp only [scale, a, b, Bool.false_eq_true, if_false, List.map_cons, List.map_nil, List.mem_singleton]
  · rw [small_iff zero_le_one, norm_mul, hn]
    norm_num
    linarith

/-- **Refuted: coefficients are cleaned with the tolerance.** `Polynomial::real_or_imaginary_if_close` does not use its argument: with tolerance 1000, a
coefficient with imaginary part 500ε is kept. -/
theorem C102_refuted_clean : ∃ x : ℂ, clean x 1000 ≠ x ∧ cleanPoly 1000 [⟨5, false, x⟩] = [⟨5, false, x⟩] := by
  have h1 := eps_pos
  have h2 : 1000 * eps < 1 := by unfold eps; norm_num
  refine ⟨⟨1, 500 * eps⟩, ?_, ?_⟩
  · have a : tiny 1 1000 = false := by simp [tiny, h2]
    have b : tiny (500 * eps) 1000 = true := by
      simp only [tiny, decide_eq_true_eq]
      rw [abs_of_pos (by linarith)]
      linarith
    simp only [clean, a, b, Bool.false_eq_true, if_false, if_true]
    intro h
    have := congrArg Complex.im h
    simp only at this
    linarith
  · have a : tiny 1 1 = false := by
      simp only [tiny, abs_one, one_mul, decide_eq_false_iff_not, not_le]
      linarith
    have b : tiny (500 * eps) 1 = false := by
      simp only [tiny, decide_eq_false_iff_not, not_le]
      rw [abs_of_pos (by linarith)]
      linarith
    simp [cleanPoly, clean, a, b]

/-! ## The order of polynomials -/

/-- No two different numbers are approximately equal. -/
def Separated (D : Set ℝ) : Prop := ∀ x ∈ D, ∀ y ∈ D, near x y 1 = true → x = y

/-- **C102, partly.** On polynomials whose coefficients are taken from numbers that can be told apart, `PolynomialOrderingWithCoefficients` is the exact order:
polynomials neither of which is less are equal. Missing: all polynomials (`C102_refuted_order`). -/
theorem C102_order_partial {o : Poly.Order} (ho : Function.Injective o.rank) {D : Set ℝ} (hD : Separated D) {p q : List Mono}
    (hp : ∀ m ∈ p, m.factor.re ∈ D ∧ m.factor.im ∈ D) (hq : ∀ m ∈ q, m.factor.re ∈ D ∧ m.factor.im ∈ D) :
    less o p q = PolyOrder.less (PolyOrder.withCoefficients PolyOrder.compareExact o) p q ∧ (less o p q = false ∧ less o q p = false ↔ p = q) := by
  have hc : ∀ x ∈ D, ∀ y ∈ D, ranked x y 1 = PolyOrder.compareExact x y := by
    intro x hx y hy
    have : near x y 1 = decide (x = y) := by
      rw [Bool.eq_iff_iff, decide_eq_true_eq]
      exact ⟨hD x hx y hy, fun e => e ▸ (C102_compare zero_le_one x x).1⟩
    unfold ranked PolyOrder.compareExact
    rw [this]
    simp
  have hw : ∀ p q : List Mono, (∀ m ∈ p, m.factor.re ∈ D ∧ m.factor.im ∈ D) → (∀ m ∈ q, m.factor.re ∈ D ∧ m.factor.im ∈ D) →
      PolyOrder.walk (PolyOrder.withCoefficients (ranked · · 1) o) p q = PolyOrder.walk (PolyOrder.withCoefficients PolyOrder.compareExact o) p q := by
    intro p
    induction p with
    | nil => intro q _ _; cases q <;> rfl
    | cons a p ih =>
      intro q hp hq
      cases q with
      | nil => rfl
      | cons b q =>
        have ha := hp a List.mem_cons_self
        have hb := hq b List.mem_cons_self
        have e : PolyOrder.withCoefficients (ranked · · 1) o a b = PolyOrder.withCoefficients PolyOrder.compareExact o a b := by
          unfold PolyOrder.withCoefficients
          simp only
          rw [hc _ hb.1 _ ha.1, hc _ hb.2 _ ha.2]
        unfold PolyOrder.walk
        rw [e, ih q (fun m hm => hp m (List.mem_cons_of_mem _ hm)) fun m hm => hq m (List.mem_cons_of_mem _ hm)]
  have e : ∀ p q : List Mono, (∀ m ∈ p, m.factor.re ∈ D ∧ m.factor.im ∈ D) → (∀ m ∈ q, m.factor.re ∈ D ∧ m.factor.im ∈ D) →
      less o p q = PolyOrder.less (PolyOrder.withCoefficients PolyOrder.compareExact o) p q := fun p q hp hq =>
    hw _ _ (fun m hm => hp m (List.mem_reverse.mp hm)) fun m hm => hq m (List.mem_reverse.mp hm)
  refine ⟨e p q hp hq, ?_⟩
  rw [e p q hp hq, e q p hq hp]
  exact PolyOrder.less_eq ho p q

/-- **C102, order.** On such polynomials the order is lexicographic: terms are compared from the last to the first, by symbol, then by real part, then by imaginary
part of the coefficient, and a polynomial comes before its continuations. -/
theorem C102_order_lex {o : Poly.Order} (ho : Function.Injective o.rank) {D : Set ℝ} (hD : Separated D) {p q : List Mono}
    (hp : ∀ m ∈ p, m.factor.re ∈ D ∧ m.factor.im ∈ D) (hq : ∀ m ∈ q, m.factor.re ∈ D ∧ m.factor.im ∈ D) :
    less o p q = true ↔ List.Lex (fun a b : Mono => o.key a < o.key b ∨ o.key a = o.key b ∧
      (a.factor.re < b.factor.re ∨ a.factor.re = b.factor.re ∧ a.factor.im < b.factor.im)) p.reverse q.reverse := by
  rw [(C102_order_partial ho hD hp hq).1]
  exact PolyOrder.less_lex ho p q

/-- The integers are such numbers. -/
example : Separated {x | ∃ n : ℤ, x = n ∧ |n| < 2 ^ 50} := by
  rintro _ ⟨m, rfl, hm⟩ _ ⟨n, rfl, hn⟩ h
  simp only [near, decide_eq_true_eq, one_mul] at h
  have h1 : max |(m : ℝ)| |(n : ℝ)| < 2 ^ 50 := by
    rw [max_lt_iff]
    exact ⟨by exact_mod_cast hm, by exact_mod_cast hn⟩
  have h2 : |(m : ℝ) - n| < 1 := by
    refine h.trans_lt ?_
    calc eps * max |(m : ℝ)| |(n : ℝ)| ≤ eps * 2 ^ 50 := mul_le_mul_of_nonneg_left h1.le eps_pos.le
      _ < 1 := by unfold eps; norm_num
  have h3 : |m - n| < 1 := by exact_mod_cast h2
  have := Int.abs_lt_one_iff.mp h3
  have : m = n := by omega
  rw [this]

/-- **Refuted: polynomials are ordered.** Three polynomials, each less than the next, and the last less than the first: coefficients whose real parts are
approximately equal are compared by imaginary parts. Such an order must not be given to `std::map`, as the index of localizing matrices of polynomials does
(polynomial_index_storage.h:31-56). -/
theorem C102_refuted_order (o : Poly.Order) : ∃ p q r : List Mono, less o p q = true ∧ less o q r = true ∧ less o r p = true := by
  obtain ⟨h1, h2, -, h4⟩ := C102_refuted_transitive
  have z1 : ranked 1 (1 + eps) 1 = 0 := by simp [ranked, h1]
  have z2 : ranked (1 + eps) (1 + 2 * eps) 1 = 0 := by simp [ranked, h2]
  have h5 : ranked (1 + 2 * eps) 1 1 = 1 := by rw [(C102_compare zero_le_one 1 (1 + 2 * eps)).2.2.2.1, h4]; rfl
  have up : ∀ x y : ℝ, ranked y x 1 = 1 ↔ above y x 1 = true := fun x y => (C102_compare zero_le_one y x).2.2.2.2.2.2.1
  have a1 : ranked 1 0 1 = 1 := by
    rw [up]
    have := eps_lt
    simp [above]
    linarith
  have a2 : ranked 2 1 1 = 1 := by
    rw [up]
    have := eps_lt
    simp [above]
    norm_num
    linarith
  refine ⟨[⟨5, false, ⟨1 + 2 * eps, 0⟩⟩], [⟨5, false, ⟨1 + eps, 1⟩⟩], [⟨5, false, ⟨1, 2⟩⟩], ?_, ?_, ?_⟩
  · simp [less, PolyOrder.less, PolyOrder.walk, PolyOrder.withCoefficients, Poly.Order.less, Poly.Order.key, z2, a1]
  · simp [less, PolyOrder.less, PolyOrder.walk, PolyOrder.withCoefficients, Poly.Order.less, Poly.Order.key, z1, a2]
  · simp [less, PolyOrder.less, PolyOrder.walk, PolyOrder.withCoefficients, Poly.Order.less, Poly.Order.key, h5]

/-- Neither less is not an equivalence either. -/
theorem C102_refuted_equivalent (o : Poly.Order) : ∃ p q r : List Mono, less o p q = false ∧ less o q p = false ∧ less o q r = false ∧ less o r q = false ∧
    less o p r = true := by
  obtain ⟨h1, h2, -, h4⟩ := C102_refuted_transitive
  have z1 : ranked 1 (1 + eps) 1 = 0 := by simp [ranked, h1]
  have z2 : ranked (1 + eps) (1 + 2 * eps) 1 = 0 := by simp [ranked, h2]
  have z3 : ranked (1 + eps) 1 1 = 0 := by rw [(C102_compare zero_le_one 1 (1 + eps)).2.2.2.1, z1]; rfl
  have z4 : ranked (1 + 2 * eps) (1 + eps) 1 = 0 := by rw [(C102_compare zero_le_one (1 + eps) (1 + 2 * eps)).2.2.2.1, z2]; rfl
  have z5 : ranked 0 0 1 = 0 := by simp [ranked, (C102_compare zero_le_one 0 0).1]
  have h5 : ranked (1 + 2 * eps) 1 1 = 1 := by rw [(C102_compare zero_le_one 1 (1 + 2 * eps)).2.2.2.1, h4]; rfl
  refine ⟨[⟨5, false, ⟨1, 0⟩⟩], [⟨5, false, ⟨1 + eps, 0⟩⟩], [⟨5, false, ⟨1 + 2 * eps, 0⟩⟩], ?_, ?_, ?_, ?_, ?_⟩ <;>
    simp [less, PolyOrder.less, PolyOrder.walk, PolyOrder.withCoefficients, Poly.Order.less, Poly.Order.key, z1, z2, z3, z4, z5, h5]

end Moment.C102
