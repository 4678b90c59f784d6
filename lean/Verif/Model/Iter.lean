/-! # Iteration

`Yields next atEnd value s l`: starting an iterator in state `s` and running the C++ loop `for (; it != end; ++it) use(*it)` stops after
finitely many steps and the values used are exactly `l`, in this order. -/

namespace Moment

inductive Yields {σ α : Type} (next : σ → σ) (atEnd : σ → Prop) (value : σ → α) : σ → List α → Prop
  | done {s : σ} : atEnd s → Yields next atEnd value s []
  | step {s : σ} {l : List α} : ¬ atEnd s → Yields next atEnd value (next s) l → Yields next atEnd value s (value s :: l)

/-- The values visited are determined by the start. -/
theorem Yields.unique {σ α : Type} {next : σ → σ} {atEnd : σ → Prop} {value : σ → α} {s : σ} {l l' : List α}
    (h : Yields next atEnd value s l) (h' : Yields next atEnd value s l') : l = l' := by
  induction h generalizing l' with
  | done he => cases h' with
    | done _ => rfl
    | step hn _ => exact absurd he hn
  | step hn _ ih => cases h' with
    | done he => exact absurd he hn
    | step _ h2 => rw [ih h2]

/-- Simulation: an iterator that mirrors another visits the mirrored values. -/
theorem Yields.sim {σ τ α β : Type} {next : σ → σ} {atEnd : σ → Prop} {value : σ → α}
    {next' : τ → τ} {atEnd' : τ → Prop} {value' : τ → β} (R : σ → τ → Prop) (g : α → β)
    (hend : ∀ s t, R s t → (atEnd s ↔ atEnd' t)) (hnext : ∀ s t, R s t → ¬ atEnd s → R (next s) (next' t))
    (hval : ∀ s t, R s t → ¬ atEnd s → value' t = g (value s)) {s : σ} {l : List α} (h : Yields next atEnd value s l) :
    ∀ {t : τ}, R s t → Yields next' atEnd' value' t (l.map g) := by
  induction h with
  | done he => intro t hr; exact Yields.done ((hend _ _ hr).mp he)
  | @step s l hn _ ih =>
    intro t hr
    rw [List.map_cons, ← hval _ _ hr hn]
    exact Yields.step (fun he => hn ((hend _ _ hr).mpr he)) (ih (hnext _ _ hr hn))

end Moment
