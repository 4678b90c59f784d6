import Verif.Model.Sorting

namespace Moment

variable {α : Type}

/-- Two lists sorted by a key with the same items for every key are equal. -/
theorem eq_of_filters (key : α → Nat) : ∀ {u v : List α}, u.Pairwise (fun a b => key a ≤ key b) → v.Pairwise (fun a b => key a ≤ key b) →
    (∀ k, u.filter (fun a => key a == k) = v.filter (fun a => key a == k)) → u = v
  | [], [], _, _, _ => rfl
  | [], b :: v, _, _, h => by
    have := h (key b); simp at this
  | a :: u, [], _, _, h => by
    have := h (key a); simp at this
  | a :: u, b :: v, hu, hv, h => by
    rw [List.pairwise_cons] at hu hv
    have hk : key a = key b := by
      apply Nat.le_antisymm
      · have h1 : b ∈ (a :: u).filter (fun x => key x == key b) := by rw [h]; simp
        simp only [List.mem_filter, List.mem_cons] at h1
        rcases h1.1 with rfl | h2
        · exact Nat.le_refl _
        · exact hu.1 b h2
      · have h1 : a ∈ (b :: v).filter (fun x => key x == key a) := by rw [← h]; simp
        simp only [List.mem_filter, List.mem_cons] at h1
        rcases h1.1 with rfl | h2
        · exact Nat.le_refl _
        · exact hv.1 a h2
    have hab : a = b := by
      have := h (key a)
      rw [List.filter_cons_of_pos (by simp), List.filter_cons_of_pos (by simp [hk])] at this
      exact (List.cons.inj this).1
    subst hab
    congr 1
    apply eq_of_filters key hu.2 hv.2
    intro k
    have := h k
    by_cases hka : key a = k
    · rw [List.filter_cons_of_pos (by simp [hka]), List.filter_cons_of_pos (by simp [hka])] at this
      exact (List.cons.inj this).2
    · rwa [List.filter_cons_of_neg (by simp [hka]), List.filter_cons_of_neg (by simp [hka])] at this

theorem stableSort_sorted (key : α → Nat) (w : List α) : (stableSort key w).Pairwise (fun a b => key a ≤ key b) := by
  have : IsTrans α (fun a b => key a ≤ key b) := ⟨fun _ _ _ h1 h2 => Nat.le_trans h1 h2⟩
  have : Std.Total (fun a b : α => key a ≤ key b) := ⟨fun _ _ => Nat.le_total _ _⟩
  exact List.pairwise_insertionSort _ w

theorem stableSort_perm (key : α → Nat) (w : List α) : (stableSort key w).Perm w := List.perm_insertionSort _ w

theorem mem_stableSort {key : α → Nat} {w : List α} {a : α} : a ∈ stableSort key w ↔ a ∈ w := (stableSort_perm key w).mem_iff

theorem stableSort_filter (key : α → Nat) (w : List α) (k : Nat) :
    (stableSort key w).filter (fun a => key a == k) = w.filter (fun a => key a == k) := by
  induction w with
  | nil => rfl
  | cons a w ih =>
    have key' : ∀ l : List α, (List.orderedInsert (fun a b => key a ≤ key b) a l).filter (fun a => key a == k) =
        (a :: l).filter (fun a => key a == k) := by
      intro l
      induction l with
      | nil => rfl
      | cons b l ih2 =>
        rw [List.orderedInsert_cons]
        split
        · rfl
        · rename_i hlt
          rw [List.filter_cons, ih2]
          simp only [List.filter_cons]
          by_cases h1 : key a = k <;> by_cases h2 : key b = k
          · omega
          · simp [h1, h2]
          · simp [h1, h2]
          · simp [h1, h2]
    show (List.orderedInsert _ a (stableSort key w)).filter _ = _
    rw [key', List.filter_cons, ih, List.filter_cons]

/-- Stable sort is determined by the items per key. -/
theorem stableSort_congr (key : α → Nat) {u v : List α}
    (h : ∀ k, u.filter (fun a => key a == k) = v.filter (fun a => key a == k)) : stableSort key u = stableSort key v := by
  apply eq_of_filters key (stableSort_sorted key u) (stableSort_sorted key v)
  intro k
  rw [stableSort_filter, stableSort_filter, h]

theorem stableSort_of_sorted (key : α → Nat) {u : List α} (h : u.Pairwise (fun a b => key a ≤ key b)) : stableSort key u = u :=
  eq_of_filters key (stableSort_sorted key u) h fun k => stableSort_filter key u k

theorem stableSort_map {β : Type} (f : β → α) (key : α → Nat) (key' : β → Nat) (w : List β) (h : ∀ a ∈ w, key (f a) = key' a) :
    stableSort key (w.map f) = (stableSort key' w).map f := by
  apply Eq.symm
  apply List.map_insertionSort
  intro a ha b hb
  rw [h a ha, h b hb]

/-! ### `std::unique` -/

section
variable [DecidableEq α]

/-- `std::unique` with equality. -/
abbrev uniq (w : List α) : List α := uniqueBy (fun a b => a == b) w

theorem uniq_go_map {β : Type} [DecidableEq β] (f : β → α) : ∀ (w : List β) (l : β), (∀ a ∈ l :: w, ∀ b ∈ l :: w, f a = f b → a = b) →
    uniqueBy.go (fun a b => a == b) (f l) (w.map f) = (uniqueBy.go (fun a b => a == b) l w).map f
  | [], _, _ => rfl
  | b :: w, l, h => by
    simp only [List.map_cons, uniqueBy.go, beq_iff_eq]
    by_cases hb : l = b
    · subst hb
      simp only [if_true]
      exact uniq_go_map f w l fun a ha b hb => h a (by simp at ha ⊢; tauto) b (by simp at hb ⊢; tauto)
    · have : f l ≠ f b := fun e => hb (h _ (by simp) _ (by simp) e)
      simp only [hb, this, if_false, List.map_cons]
      rw [uniq_go_map f w b fun a ha b hb => h a (by simp at ha ⊢; tauto) b (by simp at hb ⊢; tauto)]

theorem uniq_map {β : Type} [DecidableEq β] (f : β → α) (w : List β) (h : ∀ a ∈ w, ∀ b ∈ w, f a = f b → a = b) :
    uniq (w.map f) = (uniq w).map f := by
  cases w with
  | nil => rfl
  | cons l w => simp only [uniq, List.map_cons, uniqueBy, uniq_go_map f w l h]

theorem uniq_cons_cons (a b : α) (w : List α) : uniq (a :: b :: w) = if a = b then uniq (b :: w) else a :: uniq (b :: w) := by
  by_cases h : a = b
  · subst h; simp [uniq, uniqueBy, uniqueBy.go]
  · simp [uniq, uniqueBy, uniqueBy.go, h]

theorem uniq_head (a : α) (w : List α) : ∃ t, uniq (a :: w) = a :: t := ⟨_, rfl⟩

theorem uniq_sublist (w : List α) : (uniq w).Sublist w := by
  induction w with
  | nil => exact List.Sublist.slnil
  | cons a w ih =>
    cases w with
    | nil => exact List.Sublist.refl _
    | cons b w =>
      rw [uniq_cons_cons]
      split
      · exact ih.cons _
      · exact ih.cons_cons _

/-- `unique` leaves a word alone exactly when no neighbours are equal. -/
theorem uniq_eq_self (w : List α) : uniq w = w ↔ w.IsChain (· ≠ ·) := by
  induction w with
  | nil => simp [uniq, uniqueBy]
  | cons a w ih =>
    cases w with
    | nil => simp [uniq, uniqueBy, uniqueBy.go]
    | cons b w =>
      rw [uniq_cons_cons, List.isChain_cons_cons]
      split
      · rename_i h
        constructor
        · intro e
          have := (uniq_sublist (b :: w)).length_le
          rw [e] at this; simp only [List.length_cons] at this; omega
        · intro h2; exact absurd h h2.1
      · rename_i h
        rw [List.cons.injEq, ih]
        simp [h]

theorem uniq_chain (w : List α) : (uniq w).IsChain (· ≠ ·) := by
  induction w with
  | nil => simp [uniq, uniqueBy]
  | cons a w ih =>
    cases w with
    | nil => simp [uniq, uniqueBy, uniqueBy.go]
    | cons b w =>
      rw [uniq_cons_cons]
      split
      · exact ih
      · rename_i h
        obtain ⟨t, ht⟩ := uniq_head b w
        rw [ht] at ih ⊢
        exact List.isChain_cons_cons.mpr ⟨h, ih⟩

/-- Replacing two equal neighbours by one does not change the result. -/
theorem uniq_dup (a : α) (v : List α) : ∀ u : List α, uniq (u ++ a :: a :: v) = uniq (u ++ a :: v)
  | [] => by simp [uniq_cons_cons]
  | [x] => by
    simp only [List.singleton_append, uniq_cons_cons]
    simp
  | x :: y :: u => by
    have := uniq_dup a v (y :: u)
    simp only [List.cons_append] at this ⊢
    rw [uniq_cons_cons, uniq_cons_cons, this]

/-- Different neighbours stay neighbours. -/
theorem uniq_neighbours {a b : α} (hab : a ≠ b) (v : List α) : ∀ u : List α,
    ∃ x y, uniq (u ++ a :: b :: v) = x ++ a :: b :: y
  | [] => by
    obtain ⟨t, ht⟩ := uniq_head b v
    exact ⟨[], t, by simp [uniq_cons_cons, hab, ht]⟩
  | [x] => by
    obtain ⟨p, q, h⟩ := uniq_neighbours hab v []
    simp only [List.nil_append] at h
    simp only [List.singleton_append, uniq_cons_cons x]
    split
    · exact ⟨p, q, h⟩
    · exact ⟨x :: p, q, by rw [h]; rfl⟩
  | x :: y :: u => by
    obtain ⟨p, q, h⟩ := uniq_neighbours hab v (y :: u)
    simp only [List.cons_append] at h ⊢
    rw [uniq_cons_cons]
    split
    · exact ⟨p, q, h⟩
    · exact ⟨x :: p, q, by rw [h]; rfl⟩

end

theorem anyNeighbours_iff (p : α → α → Bool) : ∀ w : List α, anyNeighbours p w = true ↔ ∃ u a b v, w = u ++ a :: b :: v ∧ p a b = true
  | [] => by simp [anyNeighbours]
  | [x] => by
    simp only [anyNeighbours, Bool.false_eq_true, false_iff]
    rintro ⟨u, a, b, v, h, -⟩
    have := congrArg List.length h
    simp only [List.length_append, List.length_cons, List.length_nil] at this
    omega
  | x :: y :: w => by
    rw [anyNeighbours, Bool.or_eq_true, anyNeighbours_iff p (y :: w)]
    constructor
    · rintro (h | ⟨u, a, b, v, h, hp⟩)
      · exact ⟨[], x, y, w, rfl, h⟩
      · exact ⟨x :: u, a, b, v, by rw [h]; rfl, hp⟩
    · rintro ⟨u, a, b, v, h, hp⟩
      cases u with
      | nil =>
        simp only [List.nil_append, List.cons.injEq] at h
        obtain ⟨rfl, rfl, rfl⟩ := h
        exact Or.inl hp
      | cons z u =>
        simp only [List.cons_append, List.cons.injEq] at h
        exact Or.inr ⟨u, a, b, v, h.2, hp⟩

theorem anyNeighbours_map {β : Type} (f : β → α) (p : α → α → Bool) (q : β → β → Bool) : ∀ w : List β,
    (∀ a ∈ w, ∀ b ∈ w, p (f a) (f b) = q a b) → anyNeighbours p (w.map f) = anyNeighbours q w
  | [], _ => rfl
  | [_], _ => rfl
  | x :: y :: w, h => by
    have := anyNeighbours_map f p q (y :: w) fun a ha b hb => h a (List.mem_cons_of_mem _ ha) b (List.mem_cons_of_mem _ hb)
    simp only [List.map_cons, anyNeighbours] at this ⊢
    rw [this, h x (by simp) y (by simp)]

end Moment
