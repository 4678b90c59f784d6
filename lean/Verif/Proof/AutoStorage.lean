import Verif.Model.AutoStorage
import Verif.Props.C28_Tensor
import Verif.Props.C29_MultiDim

/-! # Stored elements and made elements -/

namespace Moment

/-- Simulation, where the values visited are known to have a property. -/
theorem Yields.simOn {σ τ α β : Type} {next : σ → σ} {atEnd : σ → Prop} {value : σ → α} {next' : τ → τ} {atEnd' : τ → Prop} {value' : τ → β}
    (P : α → Prop) (R : σ → τ → Prop) (g : α → β) (hend : ∀ s t, R s t → (atEnd s ↔ atEnd' t))
    (hnext : ∀ s t, R s t → ¬ atEnd s → P (value s) → R (next s) (next' t))
    (hval : ∀ s t, R s t → ¬ atEnd s → P (value s) → value' t = g (value s)) {s : σ} {l : List α} (h : Yields next atEnd value s l) :
    (∀ x ∈ l, P x) → ∀ {t : τ}, R s t → Yields next' atEnd' value' t (l.map g) := by
  induction h with
  | done he => intro _ t hr; exact Yields.done ((hend _ _ hr).mp he)
  | @step s l hn _ ih =>
    intro hl t hr
    have hp := hl _ (List.mem_cons_self ..)
    rw [List.map_cons, ← hval _ _ hr hn hp]
    exact Yields.step (fun he => hn ((hend _ _ hr).mpr he)) (ih (fun x hx => hl x (List.mem_cons_of_mem _ hx)) (hnext _ _ hr hn hp))

end Moment

namespace Moment.AutoStorage

variable {E : Type}

/-- A tensor that was constructed. -/
def Made (t : Tensor E) : Prop := ∃ threshold hint, t = Tensor.new threshold hint t.dims t.make

theorem new_made (threshold : Nat) (hint : Hint) (dims : List Nat) (make : List Nat → E) : Made (Tensor.new threshold hint dims make) := ⟨threshold, hint, rfl⟩

theorem Made.data {t : Tensor E} (h : Made t) (hs : t.stored = true) :
    t.data = (List.range (Tensor.elementCount t.dims)).map fun o => t.make (Tensor.offsetToIndexNoChecks true t.dims o) := by
  obtain ⟨a, b, e⟩ := h
  have e1 : t.data = (Tensor.new a b t.dims t.make).data := congrArg _ e
  have e2 : t.stored = (Tensor.new a b t.dims t.make).stored := congrArg _ e
  rw [e1]
  simp only [Tensor.new] at e2 ⊢
  rw [← e2, hs]
  rfl

/-- The stored element at an offset. -/
theorem Made.read {t : Tensor E} (h : Made t) (hs : t.stored = true) {o : Nat} (ho : o < Tensor.elementCount t.dims) :
    t.data[o]? = some (t.make (Tensor.offsetToIndexNoChecks true t.dims o)) := by
  rw [h.data hs, List.getElem?_map, List.getElem?_range ho]
  rfl

/-- Offsets of indices in range. -/
theorem offset_in {dims v : List Nat} (hne : dims ≠ []) (hv : List.Forall₂ (· < ·) v dims) :
    Tensor.indexToOffsetNoChecks true dims v < Tensor.elementCount dims ∧ Tensor.offsetToIndexNoChecks true dims (Tensor.indexToOffsetNoChecks true dims v) = v := by
  obtain ⟨o, h1, h2, h3⟩ := C28.C28_index_roundtrip true dims v hne hv
  unfold Tensor.indexToOffset at h2
  rw [if_pos ((Tensor.validate_iff _ _).mpr hv)] at h2
  rw [Option.some.inj h2]
  refine ⟨h1, ?_⟩
  unfold Tensor.offsetToIndex at h3
  rw [if_neg (by omega)] at h3
  exact Option.some.inj h3

theorem Made.readIndex {t : Tensor E} (h : Made t) (hs : t.stored = true) {v : List Nat} (hne : t.dims ≠ []) (hv : List.Forall₂ (· < ·) v t.dims) :
    t.data[Tensor.indexToOffsetNoChecks true t.dims v]? = some (t.make v) := by
  obtain ⟨h1, h2⟩ := offset_in hne hv
  rw [h.read hs h1, h2]

/-! ## Iterators over parts -/

/-- An iterator goes with the iteration over indices. -/
structure Goes (t : Tensor E) (b : MultiDim.State) (s : Iter E) : Prop where
  box : s.box = b
  offset : b.done = false → s.offset = Tensor.indexToOffsetNoChecks true t.dims b.indices
  entry : s.entry = none ∨ s.entry = some (t.make b.indices)

theorem goes_first (t : Tensor E) (mins maxs : List Nat) : Goes t (MultiDimOffset.first mins maxs) (Iter.first t mins maxs) :=
  ⟨rfl, fun h => by simp [Iter.first, h], .inl rfl⟩

theorem Goes.next {t : Tensor E} {b : MultiDim.State} {s : Iter E} (h : Goes t b s) (mins maxs : List Nat) :
    Goes t (MultiDimOffset.next true mins maxs b) (s.next t mins maxs) := by
  refine ⟨by simp [Iter.next, h.box], fun hd => ?_, .inl rfl⟩
  unfold Iter.next
  simp only [h.box, hd]
  rfl

/-- Elements are the same each time. -/
theorem Goes.deref {t : Tensor E} (ht : Made t) (hne : t.dims ≠ []) {b : MultiDim.State} {s : Iter E} (h : Goes t b s) (hd : b.done = false)
    (hv : List.Forall₂ (· < ·) b.indices t.dims) : ∃ s', s.deref t = some (t.make b.indices, s') ∧ Goes t b s' := by
  unfold Iter.deref
  cases hs : t.stored
  · simp only [Bool.false_eq_true, if_false]
    rcases h.entry with e | e
    · rw [e]
      dsimp only
      rw [h.box]
      exact ⟨_, rfl, rfl, h.offset, .inr rfl⟩
    · rw [e]
      exact ⟨s, rfl, h⟩
  · simp only [if_true]
    rw [h.offset hd, ht.readIndex hs hne hv]
    exact ⟨s, rfl, h⟩

theorem Goes.touch {t : Tensor E} (ht : Made t) (hne : t.dims ≠ []) {b : MultiDim.State} (hd : b.done = false) (hv : List.Forall₂ (· < ·) b.indices t.dims) :
    ∀ (n : Nat) {s : Iter E}, Goes t b s → Goes t b (s.touch t n)
  | 0, _, h => h
  | n + 1, s, h => by
    obtain ⟨s', h1, h2⟩ := h.deref ht hne hd hv
    unfold Iter.touch
    rw [h1]
    exact h2.touch ht hne hd hv n

/-- Iteration over a part, with elements used any number of times. -/
theorem iterate {t : Tensor E} (ht : Made t) (hne : t.dims ≠ []) (uses : Iter E → Nat) {mins maxs : List Nat} {b : MultiDim.State} {l : List (List Nat × Nat)}
    (hl : Yields (MultiDimOffset.next true mins maxs) MultiDimOffset.atEnd MultiDimOffset.value b l) (hv : ∀ x ∈ l, List.Forall₂ (· < ·) x.1 t.dims)
    {s : Iter E} (hs : Goes t b s) :
    Yields (fun s => (s.touch t (uses s)).next t mins maxs) (fun s => s.box.done = true) (fun s => s.shows t) s
      (l.map fun x => (x.1, Tensor.indexToOffsetNoChecks true t.dims x.1, x.2, some (t.make x.1))) := by
  refine hl.simOn (fun x => List.Forall₂ (· < ·) x.1 t.dims) (Goes t) (fun x => (x.1, Tensor.indexToOffsetNoChecks true t.dims x.1, x.2, some (t.make x.1)))
    (fun b s h => ?_) (fun b s h hd hp => ?_) (fun b s h hd hp => ?_) hv hs
  · rw [h.box]
    exact .rfl
  · exact (h.touch ht hne (by simpa [MultiDimOffset.atEnd] using hd) hp _).next mins maxs
  · have hd : b.done = false := by simpa [MultiDimOffset.atEnd] using hd
    obtain ⟨s', h1, -⟩ := h.deref ht hne hd hp
    unfold Iter.shows
    rw [h1, h.box, h.offset hd]
    rfl

end Moment.AutoStorage
