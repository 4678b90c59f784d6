import Verif.Model.PolyOrder

/-! # The order of polynomials in exact arithmetic -/

namespace Moment.PolyOrder
open Moment.Poly (Mono)

theorem compareExact_eq {x y : ℝ} : compareExact x y = 0 ↔ x = y := by
  unfold compareExact
  split
  · simp_all
  · split <;> simp_all

theorem compareExact_swap (x y : ℝ) : compareExact y x = -compareExact x y := by
  unfold compareExact
  rcases lt_trichotomy x y with h | rfl | h
  · simp [h, h.ne, h.ne', h.not_gt]
  · simp
  · simp [h, h.ne, h.ne', h.not_gt]

theorem compareExact_range (x y : ℝ) : compareExact x y = 0 ∨ compareExact x y = 1 ∨ compareExact x y = -1 := by
  unfold compareExact
  split
  · exact .inl rfl
  · split
    · exact .inr (.inr rfl)
    · exact .inr (.inl rfl)

theorem walk_eq {elem : Mono → Mono → Int} (h0 : ∀ a b, elem a b = 0 ↔ a = b) (hs : ∀ a b, elem b a = -elem a b)
    (hr : ∀ a b, elem a b = 0 ∨ elem a b = 1 ∨ elem a b = -1) : ∀ p q, (walk elem p q = false ∧ walk elem q p = false) ↔ p = q
  | [], [] => by simp [walk]
  | [], _ :: _ => by simp [walk]
  | _ :: _, [] => by simp [walk]
  | a :: p, b :: q => by
    have ih := walk_eq h0 hs hr p q
    unfold walk
    rw [hs a b]
    rcases hr a b with h | h | h
    · rw [h]
      have := (h0 a b).mp h
      simp [ih, this]
    · have : a ≠ b := fun e => by rw [(h0 a b).mpr e] at h; simp at h
      simp [h, this]
    · have : a ≠ b := fun e => by rw [(h0 a b).mpr e] at h; simp at h
      simp [h, this]

theorem withCoefficients_swap (o : Poly.Order) (a b : Mono) : withCoefficients compareExact o b a = -withCoefficients compareExact o a b := by
  unfold withCoefficients Poly.Order.less
  rcases lt_trichotomy (o.key a) (o.key b) with h | h | h
  · simp [h, h.not_gt]
  · simp only [h, lt_irrefl, decide_false, Bool.false_eq_true, if_false]
    rw [compareExact_swap b.factor.re a.factor.re, compareExact_swap b.factor.im a.factor.im]
    by_cases hz : compareExact b.factor.re a.factor.re = 0 <;> simp [hz]
  · simp [h, h.not_gt]

theorem withCoefficients_range (o : Poly.Order) (a b : Mono) :
    withCoefficients compareExact o a b = 0 ∨ withCoefficients compareExact o a b = 1 ∨ withCoefficients compareExact o a b = -1 := by
  unfold withCoefficients
  split
  · simp
  · split
    · simp
    · split
      · exact compareExact_range _ _
      · exact compareExact_range _ _

theorem withCoefficients_eq {o : Poly.Order} (ho : Function.Injective o.rank) (a b : Mono) : withCoefficients compareExact o a b = 0 ↔ a = b := by
  unfold withCoefficients Poly.Order.less
  constructor
  · intro h
    have hk : o.key a = o.key b := by
      by_contra hne
      rcases Nat.lt_or_gt_of_ne hne with h' | h'
      · simp [h'] at h
      · simp [h', Nat.not_lt_of_gt h'] at h
    simp only [hk, lt_irrefl, decide_false, Bool.false_eq_true, if_false] at h
    obtain ⟨i, c, f⟩ := a
    obtain ⟨j, d, g⟩ := b
    simp only [Poly.Order.key] at hk h
    have hc : c = d ∧ o.rank i = o.rank j := by
      cases c <;> cases d <;> simp at hk ⊢ <;> omega
    have hf : f = g := by
      by_cases hz : compareExact g.re f.re = 0
      · rw [if_pos hz] at h
        exact Complex.ext (compareExact_eq.mp hz).symm (compareExact_eq.mp h).symm
      · rw [if_neg hz] at h
        exact absurd h hz
    rw [hc.1, ho hc.2, hf]
  · rintro rfl
    simp [compareExact_eq.mpr rfl]

/-- In exact arithmetic, polynomials neither of which is less are equal. -/
theorem less_eq {o : Poly.Order} (ho : Function.Injective o.rank) (p q : List Mono) :
    (less (withCoefficients compareExact o) p q = false ∧ less (withCoefficients compareExact o) q p = false) ↔ p = q := by
  unfold less
  rw [walk_eq (withCoefficients_eq ho) (withCoefficients_swap o) (withCoefficients_range o), List.reverse_inj]

/-- Terms in order: by symbol, then by real part, then by imaginary part of the coefficient. -/
def Before (o : Poly.Order) (a b : Mono) : Prop :=
  o.key a < o.key b ∨ o.key a = o.key b ∧ (a.factor.re < b.factor.re ∨ a.factor.re = b.factor.re ∧ a.factor.im < b.factor.im)

theorem compareExact_one {x y : ℝ} : compareExact x y = 1 ↔ y < x := by
  unfold compareExact
  rcases lt_trichotomy x y with h | rfl | h
  · simp [h, h.ne, h.not_gt]
  · simp
  · simp [h, h.ne', h.not_gt]

theorem withCoefficients_one (o : Poly.Order) (a b : Mono) : withCoefficients compareExact o a b = 1 ↔ Before o a b := by
  unfold withCoefficients Poly.Order.less Before
  rcases lt_trichotomy (o.key a) (o.key b) with h | h | h
  · simp [h]
  · simp only [h, lt_irrefl, decide_false, Bool.false_eq_true, if_false, false_or, true_and]
    split
    · rename_i e
      rw [compareExact_eq] at e
      rw [compareExact_one, e]
      simp
    · rename_i e
      rw [compareExact_eq] at e
      rw [compareExact_one]
      exact ⟨.inl, fun h => h.elim id fun h => absurd h.1.symm e⟩
  · simp [h, h.not_gt, h.ne']

theorem walk_lex {elem : Mono → Mono → Int} (h0 : ∀ a b, elem a b = 0 ↔ a = b)
    (hr : ∀ a b, elem a b = 0 ∨ elem a b = 1 ∨ elem a b = -1) : ∀ p q, walk elem p q = true ↔ List.Lex (fun a b => elem a b = 1) p q
  | [], [] => by simp [walk]
  | [], _ :: _ => by simp [walk]
  | _ :: _, [] => by simp [walk]
  | a :: p, b :: q => by
    rw [walk, List.cons_lex_cons_iff]
    rcases hr a b with h | h | h
    · obtain rfl := (h0 a b).mp h
      simp [h, walk_lex h0 hr p q]
    · simp [h]
    · have : a ≠ b := fun e => by simp [(h0 a b).mpr e] at h
      simp [h, this]

/-- The order of polynomials is lexicographic, from the last term to the first. -/
theorem less_lex {o : Poly.Order} (ho : Function.Injective o.rank) (p q : List Mono) :
    less (withCoefficients compareExact o) p q = true ↔ List.Lex (Before o) p.reverse q.reverse := by
  unfold less
  rw [walk_lex (withCoefficients_eq ho) (withCoefficients_range o)]
  simp only [withCoefficients_one]

end Moment.PolyOrder
