import Verif.Model.SymmetryGroup
import Mathlib.GroupTheory.OrderOfElement
import Mathlib.Data.Set.Finite.Lemmas

/-! # The group theory behind `dimino_generation` -/

namespace Moment.SymGroup

variable {G : Type} [Group G]

/-- What can be reached from `Hb` by multiplication by elements of `S` on the right, without entering `H`. -/
inductive Reach (H : Subgroup G) (S : Set G) (b : G) : G → Prop
  | start {h : G} (hh : h ∈ H) : Reach H S b (h * b)
  | step {x s : G} (hx : Reach H S b x) (hs : s ∈ S) (hn : x * s ∉ H) : Reach H S b (x * s)

variable {H : Subgroup G} {S : Set G} {b : G}

theorem reach_not_mem (hb : b ∉ H) {x : G} (h : Reach H S b x) : x ∉ H := by
  cases h with
  | start hh => exact fun h => hb ((H.mul_mem_cancel_left hh).mp h)
  | step _ _ hn => exact hn

theorem reach_left {x h : G} (hh : h ∈ H) (hx : Reach H S b x) : Reach H S b (h * x) := by
  induction hx with
  | start hk => rw [← mul_assoc]; exact .start (H.mul_mem hh hk)
  | step _ hs hn ih =>
    rw [← mul_assoc]
    exact .step ih hs fun h' => hn (by rw [mul_assoc] at h'; exact (H.mul_mem_cancel_left hh).mp h')

theorem reach_left_iff {x h : G} (hh : h ∈ H) : Reach H S b (h * x) ↔ Reach H S b x :=
  ⟨fun hx => by simpa using reach_left (H.inv_mem hh) hx, reach_left hh⟩

/-- Multiplication by `H` on the right does not leave what can be reached, if `H` is generated by elements of `S`. -/
theorem reach_right (hb : b ∉ H) {A : Set G} (hA : A ⊆ S) (hH : (H : Set G) = Submonoid.closure A) {x h : G} (hh : h ∈ H) (hx : Reach H S b x) :
    Reach H S b (x * h) := by
  have hh' : h ∈ Submonoid.closure A := by rw [← SetLike.mem_coe, ← hH]; exact hh
  have hsub : ∀ a ∈ A, a ∈ H := fun a ha => by
    have : a ∈ (H : Set G) := by rw [hH]; exact Submonoid.subset_closure ha
    exact this
  induction hh' using Submonoid.closure_induction_right with
  | one => simpa using hx
  | mul_right y hy a ha ih =>
    have hy' : y ∈ H := by
      have : y ∈ (H : Set G) := by rw [hH]; exact hy
      exact this
    rw [← mul_assoc]
    exact .step (ih hy') (hA ha) fun h' => reach_not_mem hb (ih hy') ((H.mul_mem_cancel_right (hsub a ha)).mp h')

theorem reach_step {x s : G} (hs : s ∈ S) (hx : Reach H S b x) : Reach H S b (x * s) ∨ x * s ∈ H := by
  by_cases h : x * s ∈ H
  · exact .inr h
  · exact .inl (.step hx hs h)

/-- A set that contains one and is closed under multiplication by generators contains everything. -/
theorem all_of_closed (hS : Submonoid.closure S = ⊤) {T : Set G} (h1 : (1 : G) ∈ T) (hT : ∀ x ∈ T, ∀ s ∈ S, x * s ∈ T) (x : G) : x ∈ T := by
  have hx : x ∈ Submonoid.closure S := by rw [hS]; exact Submonoid.mem_top x
  induction hx using Submonoid.closure_induction_right with
  | one => exact h1
  | mul_right y _ s hs ih => exact hT _ ih _ hs

theorem right_inj_closed [Finite G] {T : Set G} {s : G} (h : ∀ x ∈ T, x * s ∈ T) {x : G} (hx : x * s ∈ T) : x ∈ T := by
  have hi : Function.Injective fun y : T => (⟨y * s, h y y.2⟩ : T) := fun a c e => Subtype.ext (mul_right_cancel (Subtype.mk.inj e))
  obtain ⟨y, e⟩ := Finite.surjective_of_injective hi ⟨_, hx⟩
  rw [← mul_right_cancel (Subtype.mk.inj e)]
  exact y.2

theorem left_inj_closed [Finite G] {T : Set G} {s : G} (h : ∀ x ∈ T, s * x ∈ T) {x : G} (hx : s * x ∈ T) : x ∈ T := by
  have hi : Function.Injective fun y : T => (⟨s * y, h y y.2⟩ : T) := fun a c e => Subtype.ext (mul_left_cancel (Subtype.mk.inj e))
  obtain ⟨y, e⟩ := Finite.surjective_of_injective hi ⟨_, hx⟩
  rw [← mul_left_cancel (Subtype.mk.inj e)]
  exact y.2

/-- Nothing but `H` separates the elements of a finite group: walking from `Hb` with all generators, one gets everywhere without crossing `H`. -/
theorem reach_all [Finite G] (hS : Submonoid.closure S = ⊤) {A : Set G} (hA : A ⊆ S) (hH : (H : Set G) = Submonoid.closure A) (hb : b ∉ H) (hbS : b ∈ S)
    (x : G) : x ∈ H ∨ Reach H S b x := by
  classical
  let R := Reach H S b
  have hR1 : ∀ x, R x → x ∉ H := fun x hx => reach_not_mem hb hx
  have hRr : ∀ x h, h ∈ H → R x → R (x * h) := fun x h hh hx => reach_right hb hA hH hh hx
  have hRr' : ∀ x h, h ∈ H → R (x * h) → R x := fun x h hh hx => by simpa using hRr _ _ (H.inv_mem hh) hx
  have hRb : R b := by simpa using (Reach.start (H := H) (S := S) (b := b) H.one_mem)
  -- every generator is in `H` or can be reached
  suffices hgen : ∀ c ∈ S, c ∈ H ∨ R c by
    refine all_of_closed hS (T := {x | x ∈ H ∨ R x}) (.inl H.one_mem) ?_ x
    rintro x (hx | hx) s hs
    · rcases hgen s hs with h | h
      · exact .inl (H.mul_mem hx h)
      · exact .inr (reach_left hx h)
    · exact (reach_step hs hx).symm
  -- first, generators whose inverse can be reached
  have h1 : ∀ c ∈ S, R c⁻¹ → c ∈ H ∨ R c := by
    intro c hc hci
    by_contra hn
    rw [not_or] at hn
    have hcH : ∀ h ∈ H, ¬ R (c * h) := fun h hh h' => hn.2 (hRr' _ _ hh h')
    have hsub : ∀ x, R x → (c⁻¹ * x ∈ H ∨ R (c⁻¹ * x)) := by
      intro x hx
      induction hx with
      | start hh =>
        rw [← mul_assoc]
        exact (reach_step hbS (hRr _ _ hh hci)).symm
      | @step y s hy hs hny ih =>
        rw [← mul_assoc]
        rcases ih with h | h
        · have := hcH _ h
          rw [mul_inv_cancel_left] at this
          exact absurd hy this
        · exact (reach_step hs h).symm
    have hcl : ∀ x ∈ {x | x ∈ H ∨ R x}, c⁻¹ * x ∈ {x | x ∈ H ∨ R x} := by
      rintro x (hx | hx)
      · exact .inr (hRr _ _ hx hci)
      · exact hsub x hx
    have : c ∈ {x | x ∈ H ∨ R x} := left_inj_closed hcl (by rw [inv_mul_cancel]; exact .inl H.one_mem)
    exact not_or.mpr hn this
  intro c hc
  by_contra hn
  have hci : ¬ R c⁻¹ := fun h => hn (h1 c hc h)
  rw [not_or] at hn
  let D : Set G := {x | x ∉ H ∧ ¬ R x}
  have hcD : c ∈ D := hn
  have hciD : c⁻¹ ∈ D := ⟨fun h => hn.1 (by simpa using H.inv_mem h), hci⟩
  have hDr : ∀ x h, h ∈ H → x ∈ D → x * h ∈ D := fun x h hh hx =>
    ⟨fun h' => hx.1 ((H.mul_mem_cancel_right hh).mp h'), fun h' => hx.2 (hRr' _ _ hh h')⟩
  have hDl : ∀ x h, h ∈ H → x ∈ D → h * x ∈ D := fun x h hh hx =>
    ⟨fun h' => hx.1 ((H.mul_mem_cancel_left hh).mp h'), fun h' => hx.2 ((reach_left_iff hh).mp h')⟩
  have tri : ∀ x, x ∈ H ∨ R x ∨ x ∈ D := fun x => by
    by_cases ha : x ∈ H
    · exact .inl ha
    · by_cases hb : R x
      · exact .inr (.inl hb)
      · exact .inr (.inr ⟨ha, hb⟩)
  -- the inverse of `b` can be reached
  have hPs : ∀ s ∈ S, R s → ∀ x ∈ {x | x ∈ H ∨ R x}, x * s ∈ {x | x ∈ H ∨ R x} := by
    rintro s hs hsR x (hx | hx)
    · exact .inr (reach_left hx hsR)
    · exact (reach_step hs hx).symm
  have hbi : R b⁻¹ := by
    have : b⁻¹ ∈ {x | x ∈ H ∨ R x} := right_inj_closed (hPs b hbS hRb) (by rw [inv_mul_cancel]; exact .inl H.one_mem)
    rcases this with h | h
    · exact absurd (by simpa using H.inv_mem h) hb
    · exact h
  -- `H ∪ D` is only left from `H`
  have hDs : ∀ x ∈ D, ∀ s ∈ S, x * s ∈ H ∨ x * s ∈ D := by
    intro x hx s hs
    rcases tri (x * s) with h | h | h
    · exact .inl h
    · exfalso
      rcases tri s with hsH | hsR | hsD
      · exact hx.2 (hRr' _ _ hsH h)
      · have : x ∈ {x | x ∈ H ∨ R x} := right_inj_closed (hPs s hs hsR) (.inr h)
        exact not_or.mpr hx this
      · have hsi : ¬ R s⁻¹ := fun h' => not_or.mpr hsD (h1 s hs h')
        have hcl : ∀ y ∈ {y | R y}, y * s ∈ {y | R y} := by
          intro y hy
          rcases reach_step hs hy with h' | h'
          · exact h'
          · exfalso
            apply hsi
            have : s⁻¹ = (y * s)⁻¹ * y := by rw [mul_inv_rev, mul_assoc, inv_mul_cancel, mul_one]
            rw [this]
            exact reach_left (H.inv_mem h') hy
        have : x ∈ {y | R y} := right_inj_closed hcl h
        exact hx.2 this
    · exact .inr h
  -- `b⁻¹ D` can be reached
  have hbD : ∀ x ∈ D, R (b⁻¹ * x) := by
    intro x hx
    have hall : x ∈ {x | (x ∈ H ∨ R x) ∨ (b⁻¹ * x ∈ H ∨ R (b⁻¹ * x))} := by
      refine all_of_closed hS (.inl (.inl H.one_mem)) ?_ x
      rintro y (( hy | hy) | (hy | hy)) s hs
      · refine .inr ?_
        rw [← mul_assoc]
        exact (reach_step hs (hRr _ _ hy hbi)).symm
      · exact .inl (reach_step hs hy).symm
      · refine .inl ?_
        have : R y := by simpa using hRr _ _ hy hRb
        exact (reach_step hs this).symm
      · refine .inr ?_
        rw [← mul_assoc]
        exact (reach_step hs hy).symm
    rcases hall with h | h | h
    · exact absurd h (not_or.mpr hx)
    · exact absurd (by simpa using hRr _ _ h hRb) hx.2
    · exact h
  -- `c⁻¹ R` lies in `D`
  have hcR : ∀ x, R x → c⁻¹ * x ∈ D := by
    intro x hx
    have hall : x ∈ {x | (x ∈ H ∨ x ∈ D) ∨ (c⁻¹ * x ∈ H ∨ c⁻¹ * x ∈ D)} := by
      refine all_of_closed hS (.inl (.inl H.one_mem)) ?_ x
      rintro y ((hy | hy) | (hy | hy)) s hs
      · refine .inr ?_
        rw [← mul_assoc]
        exact hDs _ (hDr _ _ hy hciD) s hs
      · exact .inl (hDs _ hy s hs)
      · refine .inl ?_
        have : y ∈ D := by simpa using hDr _ _ hy hcD
        exact hDs _ this s hs
      · refine .inr ?_
        rw [← mul_assoc]
        exact hDs _ hy s hs
    rcases hall with (h | h) | h | h
    · exact absurd h (hR1 x hx)
    · exact absurd hx h.2
    · exact absurd hx (by simpa using (hDr _ _ h hcD).2)
    · exact h
  -- so both have the same size, and one is in `D`
  have hcl : ∀ x ∈ D, (c⁻¹ * b⁻¹) * x ∈ D := fun x hx => by rw [mul_assoc]; exact hcR _ (hbD x hx)
  have h1D : (1 : G) ∉ D := fun h => h.1 H.one_mem
  have hm : c⁻¹ * b⁻¹ ∈ D := hcR _ hbi
  exact h1D (left_inj_closed hcl (by rwa [mul_one]))

end Moment.SymGroup
