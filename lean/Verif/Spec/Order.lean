import Mathlib.Init

/-! # What `std::map` asks of comparisons -/

namespace Moment

/-- A strict weak order (C++ named requirement Compare): nothing is less than itself, being less is transitive, and so is not being less either way. -/
structure StrictWeak {K : Type} (less : K → K → Bool) : Prop where
  irrefl : ∀ a, less a a = false
  trans : ∀ a b c, less a b = true → less b c = true → less a c = true
  equiv : ∀ a b c, less a b = false → less b a = false → less b c = false → less c b = false → less a c = false ∧ less c a = false

/-- First by one key, then by another. -/
theorem StrictWeak.lex {K L : Type} {f : K → K → Bool} {g : L → L → Bool} (hf : StrictWeak f) (hg : StrictWeak g) :
    StrictWeak fun a b : K × L => if f a.1 b.1 then true else if f b.1 a.1 then false else g a.2 b.2 := by
  have asymm : ∀ a b, f a b = true → f b a = false := fun a b h => by
    cases e : f b a with
    | false => rfl
    | true => exact absurd (hf.trans a b a h e) (by rw [hf.irrefl]; simp)
  -- comparison with equivalent keys
  have left : ∀ a b c, f a b = false → f b a = false → f b c = true → f a c = true := fun a b c h1 h2 h3 => by
    cases e : f a c with
    | true => rfl
    | false =>
      cases e' : f c a with
      | true => rw [hf.trans b c a h3 e'] at h2; cases h2
      | false => rw [(hf.equiv b a c h2 h1 e e').1] at h3; cases h3
  have right : ∀ a b c, f b c = false → f c b = false → f a b = true → f a c = true := fun a b c h1 h2 h3 => by
    cases e : f a c with
    | true => rfl
    | false =>
      cases e' : f c a with
      | true => rw [hf.trans c a b e' h3] at h2; cases h2
      | false => rw [(hf.equiv a c b e e' h2 h1).1] at h3; cases h3
  refine ⟨fun a => by simp [hf.irrefl, hg.irrefl], fun a b c => ?_, fun a b c => ?_⟩
  · cases ab : f a.1 b.1 with
    | true =>
      cases bc : f b.1 c.1 with
      | true => simp [hf.trans _ _ _ ab bc]
      | false =>
        cases cb : f c.1 b.1 with
        | true => simp
        | false => simp [right _ _ _ bc cb ab]
    | false =>
      cases ba : f b.1 a.1 with
      | true => simp
      | false =>
        cases bc : f b.1 c.1 with
        | true => simp [left _ _ _ ab ba bc]
        | false =>
          cases cb : f c.1 b.1 with
          | true => simp
          | false =>
            obtain ⟨h1, h2⟩ := hf.equiv _ _ _ ab ba bc cb
            simpa [h1, h2] using hg.trans a.2 b.2 c.2
  · cases ab : f a.1 b.1 with
    | true => simp
    | false =>
      cases ba : f b.1 a.1 with
      | true => simp
      | false =>
        cases bc : f b.1 c.1 with
        | true => simp
        | false =>
          cases cb : f c.1 b.1 with
          | true => simp
          | false =>
            obtain ⟨h1, h2⟩ := hf.equiv _ _ _ ab ba bc cb
            simpa [h1, h2] using hg.equiv a.2 b.2 c.2

end Moment
