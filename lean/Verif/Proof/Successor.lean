import Verif.Model.Iter
import Mathlib.Data.Set.Finite.Basic
import Mathlib.Data.Set.Card
import Mathlib.Data.List.Basic

namespace Moment

/-- An iterator whose every step goes to the immediate successor inside a finite set enumerates the set from its start on, in order. -/
theorem Yields.of_successor {σ α : Type} {next : σ → σ} {atEnd : σ → Prop} {value : σ → α} (S : Set α) (hS : S.Finite)
    (lt : α → α → Prop) (htrans : ∀ a b c, lt a b → lt b c → lt a c) (hirr : ∀ a, ¬ lt a a) (I : σ → Prop)
    (hstep : ∀ s, I s → ¬ atEnd s → (atEnd (next s) ∧ ∀ x ∈ S, ¬ lt (value s) x) ∨
      (¬ atEnd (next s) ∧ I (next s) ∧ value (next s) ∈ S ∧ lt (value s) (value (next s)) ∧
        ∀ x ∈ S, lt (value s) x → x = value (next s) ∨ lt (value (next s)) x)) :
    ∀ s, I s → ¬ atEnd s → value s ∈ S → ∃ l, Yields next atEnd value s l ∧ l.Pairwise lt ∧
      ∀ v, v ∈ l ↔ v ∈ S ∧ (v = value s ∨ lt (value s) v) := by
  suffices ∀ n s, I s → ¬ atEnd s → value s ∈ S → {x ∈ S | lt (value s) x}.ncard = n →
      ∃ l, Yields next atEnd value s l ∧ l.Pairwise lt ∧ ∀ v, v ∈ l ↔ v ∈ S ∧ (v = value s ∨ lt (value s) v) from
    fun s h1 h2 h3 => this _ s h1 h2 h3 rfl
  intro n
  induction n using Nat.strong_induction_on with
  | _ n ih =>
    intro s hI he hv hn
    rcases hstep s hI he with ⟨h1, h2⟩ | ⟨h1, h2, h3, h4, h5⟩
    · refine ⟨[value s], Yields.step he (Yields.done h1), by simp, ?_⟩
      intro v
      rw [List.mem_singleton]
      constructor
      · rintro rfl; exact ⟨hv, Or.inl rfl⟩
      · rintro ⟨hvS, h | h⟩
        · exact h
        · exact absurd h (h2 v hvS)
    · have hlt : {x ∈ S | lt (value (next s)) x}.ncard < n := by
        rw [← hn]
        apply Set.ncard_lt_ncard _ (hS.subset fun x hx => hx.1)
        refine ⟨fun x hx => ⟨hx.1, htrans _ _ _ h4 hx.2⟩, fun h => ?_⟩
        exact hirr _ (h ⟨h3, h4⟩).2
      obtain ⟨l, hl1, hl2, hl3⟩ := ih _ hlt (next s) h2 h1 h3 rfl
      refine ⟨value s :: l, Yields.step he hl1, ?_, ?_⟩
      · rw [List.pairwise_cons]
        refine ⟨?_, hl2⟩
        intro v hv'
        rcases ((hl3 v).mp hv').2 with h | h
        · rw [h]; exact h4
        · exact htrans _ _ _ h4 h
      · intro v
        rw [List.mem_cons, hl3]
        constructor
        · rintro (rfl | ⟨hvS, h | h⟩)
          · exact ⟨hv, Or.inl rfl⟩
          · exact ⟨hvS, Or.inr (h ▸ h4)⟩
          · exact ⟨hvS, Or.inr (htrans _ _ _ h4 h)⟩
        · rintro ⟨hvS, h | h⟩
          · exact Or.inl h
          · exact Or.inr ⟨hvS, h5 v hvS h⟩

/-- Lists of bounded length over bounded numbers are finitely many. -/
theorem finite_words (K N : Nat) : {v : List Nat | v.length = K ∧ ∀ x ∈ v, x < N}.Finite := by
  induction K with
  | zero =>
    apply Set.Finite.subset (Set.finite_singleton [])
    rintro v ⟨h, _⟩
    exact List.length_eq_zero_iff.mp h
  | succ K ih =>
    apply Set.Finite.subset (Set.Finite.image2 (fun x v => x :: v) (Set.finite_lt_nat N) ih)
    rintro v ⟨h, h2⟩
    cases v with
    | nil => simp at h
    | cons x v => exact ⟨x, h2 x (by simp), v, ⟨by simpa using h, fun y hy => h2 y (by simp [hy])⟩, rfl⟩

theorem lex_trans (a b c : List Nat) (h1 : List.Lex (· < ·) a b) (h2 : List.Lex (· < ·) b c) : List.Lex (· < ·) a c :=
  List.lt_trans (l₁ := a) (l₂ := b) (l₃ := c) h1 h2

theorem lex_irrefl (a : List Nat) : ¬ List.Lex (· < ·) a a := List.lt_irrefl a

theorem lex_total {a b : List Nat} (h : a ≠ b) : List.Lex (· < ·) a b ∨ List.Lex (· < ·) b a := by
  rcases Decidable.em (a < b) with h1 | h1
  · exact Or.inl h1
  · exact Or.inr (Decidable.byContradiction fun h2 => h (List.le_antisymm (α := Nat) h2 h1))

end Moment
