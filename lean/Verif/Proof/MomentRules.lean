import Verif.Spec.MomentRules
import Verif.Proof.PolyOps
import Mathlib.Algebra.BigOperators.Ring.Finset
import Mathlib.Tactic.FieldSimp
import Mathlib.Tactic.Linarith

/-! # Lemmas about moment rules: making a rule from a polynomial -/

namespace Moment.Poly

open Classical

/-! ## Lists of terms -/

theorem value_congr {v w : Nat → ℂ} {p : List Mono} (h : ∀ m ∈ p, v m.id = w m.id) : value v p = value w p := by
  induction p with
  | nil => rfl
  | cons m p ih =>
    rw [value_cons, value_cons, ih fun m hm => h m (by simp [hm])]
    simp [Mono.value, h m (by simp)]

theorem canonical_nil (t : Table) (o : Order) : Canonical t o [] := ⟨by simp, by simp, by simp⟩

theorem canonical_sublist {t : Table} {o : Order} {p q : List Mono} (h : Canonical t o p) (hs : List.Sublist q p) : Canonical t o q :=
  ⟨h.sorted.sublist hs, fun m hm => h.nonzero m (hs.subset hm), fun m hm => h.plain m (hs.subset hm)⟩

/-- Merging polynomials of which the first lies below the second. -/
theorem mergeAdd_below (o : Order) : ∀ (p q : List Mono), (∀ a ∈ p, ∀ b ∈ q, o.key a < o.key b) → mergeAdd o p q = p ++ q
  | [], q, _ => by simp [mergeAdd]
  | a :: p, [], _ => by simp [mergeAdd]
  | a :: p, b :: q, h => by
    have : o.less a b = true := less_iff.mpr (h a (by simp) b (by simp))
    rw [mergeAdd, if_pos this, mergeAdd_below o p (b :: q) fun x hx y hy => h x (by simp [hx]) y hy]
    rfl

theorem key_lt_of_rank {o : Order} {a b : Mono} (h : o.rank a.id < o.rank b.id) : o.key a < o.key b := key_lt.mpr (Or.inl h)

/-- Putting higher terms behind a canonical polynomial. -/
theorem canonical_append {t : Table} {o : Order} {p q : List Mono} (hp : Canonical t o p) (hq : Canonical t o q)
    (h : ∀ a ∈ p, ∀ b ∈ q, o.rank a.id < o.rank b.id) : Canonical t o (p ++ q) where
  sorted := List.pairwise_append.mpr ⟨hp.sorted, hq.sorted, fun a ha b hb => Or.inl (h a ha b hb)⟩
  nonzero := fun m hm => by
    rcases List.mem_append.mp hm with h | h
    · exact hp.nonzero m h
    · exact hq.nonzero m h
  plain := fun m hm => by
    rcases List.mem_append.mp hm with h | h
    · exact hp.plain m h
    · exact hq.plain m h

theorem append_below {o : Order} {p q : List Mono} (h : ∀ a ∈ p, ∀ b ∈ q, o.rank a.id < o.rank b.id) : append o p q = p ++ q := by
  rw [append_eq, mergeAdd_below o p q fun a ha b hb => key_lt_of_rank (h a ha b hb)]

/-! ## Symbols mentioned -/

theorem conjugate_ids {t : Table} {p : List Mono} {m : Mono} (h : m ∈ conjugate t p) : ∃ y ∈ p, y.id = m.id := by
  obtain ⟨y, hy, rfl⟩ := List.mem_map.mp ((conjugate_perm t p).mem_iff.mp h)
  exact ⟨y, hy, (conjMono_id t y).symm⟩

theorem scale_ids {c : ℂ} {p : List Mono} {m : Mono} (h : m ∈ scale c p) : ∃ y ∈ p, y.id = m.id ∧ y.conj = m.conj := by
  unfold scale at h
  split at h
  · simp at h
  · split at h
    · exact ⟨m, h, rfl, rfl⟩
    · obtain ⟨y, hy, rfl⟩ := List.mem_map.mp h
      exact ⟨y, hy, rfl, rfl⟩

theorem make_ids {t : Table} {o : Order} {l : List Mono} {m : Mono} (h : m ∈ make t o l) : ∃ y ∈ l, y.id = m.id := by
  obtain ⟨⟨y, hy, e, -⟩, -⟩ := makeRaw_mem h
  obtain ⟨z, hz, rfl⟩ := List.mem_map.mp hy
  exact ⟨z, hz, by rw [← e, fixCC_id]⟩

theorem emit_ids {i : Nat} {f g : ℂ} {l : List Mono} {m : Mono} (h : m ∈ realTerms.emit i f g l) : m.id = i ∨ m ∈ l := by
  unfold realTerms.emit at h
  rcases List.mem_append.mp h with h | h
  · split at h
    · simp at h
    · simp at h; exact Or.inl (by rw [h])
  · rcases List.mem_append.mp h with h | h
    · split at h
      · simp at h
      · simp at h; exact Or.inl (by rw [h])
    · exact Or.inr h

theorem realTerms_ids {p : List Mono} {m : Mono} (h : m ∈ realTerms p) : ∃ y ∈ p, y.id = m.id := by
  induction p using realTerms.induct with
  | case1 => simp [realTerms] at h
  | case2 a hc =>
    rw [realTerms] at h; simp only [hc, if_true] at h
    rcases emit_ids h with h | h
    · exact ⟨a, by simp, h.symm⟩
    · simp at h
  | case3 a hc =>
    rw [realTerms] at h; simp only [hc, if_false, Bool.false_eq_true] at h
    rcases emit_ids h with h | h
    · exact ⟨a, by simp, h.symm⟩
    · simp at h
  | case4 a b l hc ih =>
    rw [realTerms] at h; simp only [hc, if_true] at h
    rcases emit_ids h with h | h
    · exact ⟨a, by simp, h.symm⟩
    · obtain ⟨y, hy, e⟩ := ih h; exact ⟨y, by simp at hy ⊢; tauto, e⟩
  | case5 a b l hc he ih =>
    rw [realTerms] at h; simp only [hc, he, if_true, if_false, Bool.false_eq_true] at h
    rcases emit_ids h with h | h
    · exact ⟨b, by simp, h.symm⟩
    · obtain ⟨y, hy, e⟩ := ih h; exact ⟨y, by simp at hy ⊢; tauto, e⟩
  | case6 a b l hc he ih =>
    rw [realTerms] at h; simp only [hc, he, if_false, Bool.false_eq_true] at h
    rcases emit_ids h with h | h
    · exact ⟨a, by simp, h.symm⟩
    · obtain ⟨y, hy, e⟩ := ih h; exact ⟨y, by simp at hy ⊢; tauto, e⟩

theorem imagTerms_ids {p : List Mono} {m : Mono} (h : m ∈ imagTerms p) : ∃ y ∈ p, y.id = m.id := by
  induction p using imagTerms.induct with
  | case1 => simp [imagTerms] at h
  | case2 a hc =>
    rw [imagTerms] at h; simp only [hc, if_true] at h
    rcases emit_ids h with h | h
    · exact ⟨a, by simp, h.symm⟩
    · simp at h
  | case3 a hc =>
    rw [imagTerms] at h; simp only [hc, if_false, Bool.false_eq_true] at h
    rcases emit_ids h with h | h
    · exact ⟨a, by simp, h.symm⟩
    · simp at h
  | case4 a b l hc ih =>
    rw [imagTerms] at h; simp only [hc, if_true] at h
    rcases emit_ids h with h | h
    · exact ⟨a, by simp, h.symm⟩
    · obtain ⟨y, hy, e⟩ := ih h; exact ⟨y, by simp at hy ⊢; tauto, e⟩
  | case5 a b l hc he ih =>
    rw [imagTerms] at h; simp only [hc, he, if_true, if_false, Bool.false_eq_true] at h
    rcases emit_ids h with h | h
    · exact ⟨b, by simp, h.symm⟩
    · obtain ⟨y, hy, e⟩ := ih h; exact ⟨y, by simp at hy ⊢; tauto, e⟩
  | case6 a b l hc he ih =>
    rw [imagTerms] at h; simp only [hc, he, if_false, Bool.false_eq_true] at h
    rcases emit_ids h with h | h
    · exact ⟨a, by simp, h.symm⟩
    · obtain ⟨y, hy, e⟩ := ih h; exact ⟨y, by simp at hy ⊢; tauto, e⟩

theorem real_ids {t : Table} {o : Order} {p : List Mono} {m : Mono} (h : m ∈ real t o p) : ∃ y ∈ p, y.id = m.id := by
  unfold real at h
  split at h
  · simp at h
  · obtain ⟨y, hy, e⟩ := make_ids h
    obtain ⟨z, hz, e'⟩ := realTerms_ids hy
    exact ⟨z, hz, e'.trans e⟩

theorem imag_ids {t : Table} {o : Order} {p : List Mono} {m : Mono} (h : m ∈ imag t o p) : ∃ y ∈ p, y.id = m.id := by
  unfold imag at h
  split at h
  · simp at h
  · obtain ⟨y, hy, e⟩ := make_ids h
    obtain ⟨z, hz, e'⟩ := imagTerms_ids hy
    exact ⟨z, hz, e'.trans e⟩

/-- All symbols lie below the given one. -/
def Below (o : Order) (i : Nat) (p : List Mono) : Prop := ∀ m ∈ p, o.rank m.id < o.rank i

theorem below_of_ids {o : Order} {i : Nat} {p q : List Mono} (h : Below o i p) (hq : ∀ m ∈ q, ∃ y ∈ p, y.id = m.id) : Below o i q := by
  intro m hm
  obtain ⟨y, hy, e⟩ := hq m hm
  rw [← e]; exact h y hy

theorem below_conjugate {t : Table} {o : Order} {i : Nat} {p : List Mono} (h : Below o i p) : Below o i (conjugate t p) :=
  below_of_ids h fun _ hm => conjugate_ids hm
theorem below_scale {o : Order} {i : Nat} {p : List Mono} (h : Below o i p) (c : ℂ) : Below o i (scale c p) :=
  below_of_ids h fun _ hm => let ⟨y, hy, e, _⟩ := scale_ids hm; ⟨y, hy, e⟩
theorem below_real {t : Table} {o : Order} {i : Nat} {p : List Mono} (h : Below o i p) : Below o i (real t o p) :=
  below_of_ids h fun _ hm => real_ids hm
theorem below_imag {t : Table} {o : Order} {i : Nat} {p : List Mono} (h : Below o i p) : Below o i (imag t o p) :=
  below_of_ids h fun _ hm => imag_ids hm
theorem below_mergeAdd {o : Order} {i : Nat} {p q : List Mono} (hp : Below o i p) (hq : Below o i q) : Below o i (mergeAdd o p q) := by
  intro m hm
  obtain ⟨y, hy, e, -⟩ := mergeAdd_mem hm
  rw [← e]
  rcases List.mem_append.mp hy with h | h
  · exact hp y h
  · exact hq y h

/-! ## Values of real and imaginary part -/

theorem half_add_conj (z : ℂ) : (1 / 2) * (z + (starRingEnd ℂ) z) = (z.re : ℂ) := by
  apply Complex.ext <;> simp
  ring

theorem half_sub_conj (z : ℂ) : -(Complex.I / 2) * (z - (starRingEnd ℂ) z) = (z.im : ℂ) := by
  rw [Complex.sub_conj]
  push_cast
  linear_combination (-(z.im : ℂ)) * Complex.I_mul_I

theorem real_spec {t : Table} {o : Order} (ho : Function.Injective o.rank) {p : List Mono} (hp : Canonical t o p) :
    Canonical t o (real t o p) ∧ ∀ v, Respects t v → value v (real t o p) = ((value v p).re : ℂ) := by
  unfold real
  cases p with
  | nil => exact ⟨canonical_nil t o, fun v _ => by simp⟩
  | cons a p =>
    simp only [List.isEmpty_cons, Bool.false_eq_true, if_false]
    exact ⟨make_canonical t o ho _, fun v hv => by rw [make_value hv, realTerms_value v _ (canonical_paired hp), half_add_conj]⟩

theorem imag_spec {t : Table} {o : Order} (ho : Function.Injective o.rank) {p : List Mono} (hp : Canonical t o p) :
    Canonical t o (imag t o p) ∧ ∀ v, Respects t v → value v (imag t o p) = ((value v p).im : ℂ) := by
  unfold imag
  cases p with
  | nil => exact ⟨canonical_nil t o, fun v _ => by simp⟩
  | cons a p =>
    simp only [List.isEmpty_cons, Bool.false_eq_true, if_false]
    exact ⟨make_canonical t o ho _, fun v hv => by rw [make_value hv, imagTerms_value v _ (canonical_paired hp), half_sub_conj]⟩

/-! ## The chosen direction -/

theorem sqrt_re_nonneg (r : ℂ) : 0 ≤ (r ^ (1 / 2 : ℂ)).re := by
  by_cases h : r = 0
  · rw [h, Complex.zero_cpow (by norm_num)]; simp
  · rw [Complex.cpow_def_of_ne_zero h, Complex.exp_re]
    apply mul_nonneg (Real.exp_nonneg _)
    have : (Complex.log r * (1 / 2)).im = Complex.arg r / 2 := by
      have e : Complex.log r * (1 / 2) = ((1 / 2 : ℝ) : ℂ) * Complex.log r := by push_cast; ring
      rw [e, Complex.im_ofReal_mul, Complex.log_im]; ring
    rw [this]
    have h1 := Complex.neg_pi_lt_arg r
    have h2 := Complex.arg_le_pi r
    exact Real.cos_nonneg_of_neg_pi_div_two_le_of_le (by linarith) (by linarith)

end Moment.Poly
