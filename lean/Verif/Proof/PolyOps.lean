import Verif.Proof.Poly

/-! # Lemmas about polynomial arithmetic, conjugation and tests -/

namespace Moment.Poly

open Classical

/-! ## Merging -/

theorem less_iff {o : Order} {a b : Mono} : o.less a b = true ↔ o.key a < o.key b := by simp [Order.less]

theorem mergeAdd_nil_right (o : Order) (p : List Mono) : mergeAdd o p [] = p := by
  cases p <;> simp [mergeAdd]

theorem not_less_both {o : Order} (ho : Function.Injective o.rank) {a b : Mono} (h1 : ¬ o.less a b = true) (h2 : ¬ o.less b a = true) :
    a.id = b.id ∧ a.conj = b.conj := by
  rw [less_iff] at h1 h2
  exact (key_eq ho).mp (by omega)

theorem mergeAdd_value (v : Nat → ℂ) {o : Order} (ho : Function.Injective o.rank) (p q : List Mono) :
    value v (mergeAdd o p q) = value v p + value v q := by
  induction p, q using mergeAdd.induct o with
  | case1 q => simp [mergeAdd]
  | case2 a p => simp [mergeAdd]
  | case3 a p b q h ih => rw [mergeAdd, if_pos h]; simp only [value_cons] at ih ⊢; rw [ih]; ring
  | case4 a p b q h h' ih => rw [mergeAdd, if_neg h, if_pos h']; simp only [value_cons] at ih ⊢; rw [ih]; ring
  | case5 a p b q h h' h0 ih =>
    rw [mergeAdd, if_neg h, if_neg h', if_pos h0, ih]
    have e := not_less_both ho h h'
    simp only [value_cons, Mono.value, e.1, e.2]
    linear_combination (-1) * (if b.conj then (starRingEnd ℂ) (v b.id) else v b.id) * h0
  | case6 a p b q h h' h0 ih =>
    rw [mergeAdd, if_neg h, if_neg h', if_neg h0, value_cons, ih]
    have e := not_less_both ho h h'
    simp only [value_cons, Mono.value, e.1, e.2]
    ring

theorem mergeAdd_mem {o : Order} {p q : List Mono} {x : Mono} (h : x ∈ mergeAdd o p q) :
    ∃ y ∈ p ++ q, y.id = x.id ∧ y.conj = x.conj := by
  induction p, q using mergeAdd.induct o with
  | case1 q => rw [mergeAdd] at h; exact ⟨x, by simpa using h, rfl, rfl⟩
  | case2 a p => rw [mergeAdd] at h; exact ⟨x, by simpa using h, rfl, rfl⟩
  | case3 a p b q hl ih =>
    rw [mergeAdd, if_pos hl] at h
    rcases List.mem_cons.mp h with rfl | h
    · exact ⟨x, by simp, rfl, rfl⟩
    · obtain ⟨y, hy, e⟩ := ih h; exact ⟨y, by simp at hy ⊢; tauto, e⟩
  | case4 a p b q hl hl' ih =>
    rw [mergeAdd, if_neg hl, if_pos hl'] at h
    rcases List.mem_cons.mp h with rfl | h
    · exact ⟨x, by simp, rfl, rfl⟩
    · obtain ⟨y, hy, e⟩ := ih h; exact ⟨y, by simp at hy ⊢; tauto, e⟩
  | case5 a p b q hl hl' h0 ih =>
    rw [mergeAdd, if_neg hl, if_neg hl', if_pos h0] at h
    obtain ⟨y, hy, e⟩ := ih h; exact ⟨y, by simp at hy ⊢; tauto, e⟩
  | case6 a p b q hl hl' h0 ih =>
    rw [mergeAdd, if_neg hl, if_neg hl', if_neg h0] at h
    rcases List.mem_cons.mp h with rfl | h
    · exact ⟨a, by simp, rfl, rfl⟩
    · obtain ⟨y, hy, e⟩ := ih h; exact ⟨y, by simp at hy ⊢; tauto, e⟩

theorem key_congr (o : Order) {a b : Mono} (h1 : a.id = b.id) (h2 : a.conj = b.conj) : o.key a = o.key b := by simp [Order.key, h1, h2]

theorem mergeAdd_sorted {o : Order} (ho : Function.Injective o.rank) (p q : List Mono)
    (hp : p.Pairwise fun a b => o.key a < o.key b) (hq : q.Pairwise fun a b => o.key a < o.key b) :
    (mergeAdd o p q).Pairwise fun a b => o.key a < o.key b := by
  induction p, q using mergeAdd.induct o with
  | case1 q => rwa [mergeAdd]
  | case2 a p => rwa [mergeAdd]
  | case3 a p b q hl ih =>
    rw [mergeAdd, if_pos hl, List.pairwise_cons]
    rw [less_iff] at hl
    have ha := List.pairwise_cons.mp hp
    have hb := List.pairwise_cons.mp hq
    refine ⟨fun x hx => ?_, ih ha.2 hq⟩
    obtain ⟨y, hy, e1, e2⟩ := mergeAdd_mem hx
    rw [← key_congr o e1 e2]
    rcases List.mem_append.mp hy with hy | hy
    · exact ha.1 y hy
    · rcases List.mem_cons.mp hy with rfl | hy
      · exact hl
      · exact hl.trans (hb.1 y hy)
  | case4 a p b q hl hl' ih =>
    rw [mergeAdd, if_neg hl, if_pos hl', List.pairwise_cons]
    rw [less_iff] at hl'
    have ha := List.pairwise_cons.mp hp
    have hb := List.pairwise_cons.mp hq
    refine ⟨fun x hx => ?_, ih hp hb.2⟩
    obtain ⟨y, hy, e1, e2⟩ := mergeAdd_mem hx
    rw [← key_congr o e1 e2]
    rcases List.mem_append.mp hy with hy | hy
    · rcases List.mem_cons.mp hy with rfl | hy
      · exact hl'
      · exact hl'.trans (ha.1 y hy)
    · exact hb.1 y hy
  | case5 a p b q hl hl' h0 ih =>
    rw [mergeAdd, if_neg hl, if_neg hl', if_pos h0]
    exact ih (List.pairwise_cons.mp hp).2 (List.pairwise_cons.mp hq).2
  | case6 a p b q hl hl' h0 ih =>
    rw [mergeAdd, if_neg hl, if_neg hl', if_neg h0, List.pairwise_cons]
    have e := not_less_both ho hl hl'
    have ha := List.pairwise_cons.mp hp
    have hb := List.pairwise_cons.mp hq
    refine ⟨fun x hx => ?_, ih ha.2 hb.2⟩
    obtain ⟨y, hy, e1, e2⟩ := mergeAdd_mem hx
    rw [← key_congr o e1 e2]
    rcases List.mem_append.mp hy with hy | hy
    · exact ha.1 y hy
    · have := hb.1 y hy
      rw [← key_congr o e.1 e.2] at this
      exact this

theorem mergeAdd_factor {o : Order} {p q : List Mono} (hp : ∀ m ∈ p, m.factor ≠ 0) (hq : ∀ m ∈ q, m.factor ≠ 0) :
    ∀ m ∈ mergeAdd o p q, m.factor ≠ 0 := by
  induction p, q using mergeAdd.induct o with
  | case1 q => rwa [mergeAdd]
  | case2 a p => rwa [mergeAdd]
  | case3 a p b q hl ih =>
    rw [mergeAdd, if_pos hl]
    intro m hm
    rcases List.mem_cons.mp hm with rfl | hm
    · exact hp _ (by simp)
    · exact ih (fun m hm => hp m (by simp [hm])) hq m hm
  | case4 a p b q hl hl' ih =>
    rw [mergeAdd, if_neg hl, if_pos hl']
    intro m hm
    rcases List.mem_cons.mp hm with rfl | hm
    · exact hq _ (by simp)
    · exact ih hp (fun m hm => hq m (by simp [hm])) m hm
  | case5 a p b q hl hl' h0 ih =>
    rw [mergeAdd, if_neg hl, if_neg hl', if_pos h0]
    exact ih (fun m hm => hp m (by simp [hm])) (fun m hm => hq m (by simp [hm]))
  | case6 a p b q hl hl' h0 ih =>
    rw [mergeAdd, if_neg hl, if_neg hl', if_neg h0]
    intro m hm
    rcases List.mem_cons.mp hm with rfl | hm
    · exact h0
    · exact ih (fun m hm => hp m (by simp [hm])) (fun m hm => hq m (by simp [hm])) m hm

theorem mergeAdd_canonical {t : Table} {o : Order} (ho : Function.Injective o.rank) {p q : List Mono} (hp : Canonical t o p)
    (hq : Canonical t o q) : Canonical t o (mergeAdd o p q) where
  sorted := (sorted_iff ho).mpr (mergeAdd_sorted ho p q (canonical_keys ho hp) (canonical_keys ho hq))
  nonzero := fun m hm => by
    refine ⟨mergeAdd_factor (fun m hm => (hp.nonzero m hm).1) (fun m hm => (hq.nonzero m hm).1) m hm, ?_⟩
    obtain ⟨y, hy, e1, -⟩ := mergeAdd_mem hm
    rw [← e1]
    rcases List.mem_append.mp hy with hy | hy
    · exact (hp.nonzero y hy).2
    · exact (hq.nonzero y hy).2
  plain := fun m hm hc => by
    obtain ⟨y, hy, e1, e2⟩ := mergeAdd_mem hm
    rw [← e1]
    rw [← e2] at hc
    rcases List.mem_append.mp hy with hy | hy
    · exact hp.plain y hy hc
    · exact hq.plain y hy hc

theorem append_eq (o : Order) (p q : List Mono) : append o p q = mergeAdd o p q := by
  unfold append
  cases q with
  | nil => simp [mergeAdd_nil_right]
  | cons b q =>
    cases p with
    | nil => simp [mergeAdd]
    | cons a p => simp

theorem sumPM_eq {o : Order} (ho : Function.Injective o.rank) (p : List Mono) (m : Mono) : sumPM o p m = mergeAdd o p [m] := by
  induction p with
  | nil => simp [sumPM, mergeAdd]
  | cons a p ih =>
    rw [sumPM, mergeAdd]
    by_cases h : o.less a m = true
    · rw [if_pos h, if_pos h, ih]
    · rw [if_neg h, if_neg h]
      by_cases h' : o.less m a = true
      · rw [if_pos h', if_neg, mergeAdd_nil_right]
        rintro ⟨e1, e2⟩
        rw [less_iff, key_congr o e1 e2] at h'
        exact lt_irrefl _ h'
      · have e := not_less_both ho h h'
        rw [if_neg h', if_pos e, mergeAdd_nil_right, e.1, e.2]

/-! ## Scaling -/

theorem scale_value (v : Nat → ℂ) (c : ℂ) (p : List Mono) : value v (scale c p) = c * value v p := by
  unfold scale
  split
  · rename_i h; simp [h]
  · split
    · rename_i h; simp [h]
    · induction p with
      | nil => simp
      | cons m p ih => rw [List.map_cons, value_cons, value_cons, ih]; simp only [Mono.value]; ring

theorem scale_canonical {t : Table} {o : Order} {p : List Mono} (hp : Canonical t o p) (c : ℂ) : Canonical t o (scale c p) := by
  unfold scale
  split
  · exact ⟨by simp, by simp, by simp⟩
  · rename_i h0
    split
    · exact hp
    · refine ⟨List.pairwise_map.mpr hp.sorted, ?_, ?_⟩
      · intro m hm
        obtain ⟨y, hy, rfl⟩ := List.mem_map.mp hm
        exact ⟨mul_ne_zero (hp.nonzero y hy).1 h0, (hp.nonzero y hy).2⟩
      · intro m hm
        obtain ⟨y, hy, rfl⟩ := List.mem_map.mp hm
        exact hp.plain y hy

/-! ## Conjugation -/

theorem conjMono_value {t : Table} {v : Nat → ℂ} (hv : Respects t v) (m : Mono) (hm : m.conj = true → t.herm m.id = false ∧ t.anti m.id = false) :
    (conjMono t m).value v = (starRingEnd ℂ) (m.value v) := by
  obtain ⟨i, c, f⟩ := m
  unfold conjMono Mono.value
  cases hh : t.herm i <;> cases ha : t.anti i <;> cases c <;> simp_all
  · rw [hv.anti i ha]; ring
  · left; exact (hv.herm i hh).symm
  · left; exact (hv.herm i hh).symm

theorem swapPass_perm (l : List Mono) : (swapPass l).Perm l := by
  induction l using swapPass.induct with
  | case1 => simp [swapPass]
  | case2 a => simp [swapPass]
  | case3 a b l h ih => rw [swapPass, if_pos h]; exact (ih.cons b).trans (List.Perm.swap a b l)
  | case4 a b l h ih => rw [swapPass, if_neg h]; exact ih.cons a

theorem swapPass_sorted {o : Order} (l : List Mono)
    (h : l.Pairwise fun a b => o.rank a.id < o.rank b.id ∨ (a.id = b.id ∧ a.conj ≠ b.conj)) :
    (swapPass l).Pairwise fun a b => o.key a < o.key b := by
  induction l using swapPass.induct with
  | case1 => simp [swapPass]
  | case2 a => simp [swapPass]
  | case3 a b l he ih =>
    rw [swapPass, if_pos he]
    have h1 := List.pairwise_cons.mp h
    have h2 := List.pairwise_cons.mp h1.2
    refine List.pairwise_cons.mpr ⟨fun x hx => ?_, ih (List.pairwise_cons.mpr ⟨fun x hx => h1.1 x (by simp [hx]), h2.2⟩)⟩
    rw [(swapPass_perm _).mem_iff] at hx
    rw [key_lt]
    rcases List.mem_cons.mp hx with rfl | hx
    · exact Or.inr ⟨by rw [he.1], he.2.2, he.2.1⟩
    · rcases h2.1 x hx with h3 | h3
      · exact Or.inl h3
      · rcases h1.1 x (by simp [hx]) with h4 | h4
        · rw [he.1, h3.1] at h4; exact absurd h4 (lt_irrefl _)
        · exfalso
          have := h3.2; have := h4.2
          rw [he.2.2] at h3; rw [he.2.1] at h4
          cases hx : x.conj <;> simp_all
  | case4 a b l he ih =>
    rw [swapPass, if_neg he]
    have h1 := List.pairwise_cons.mp h
    have h2 := List.pairwise_cons.mp h1.2
    refine List.pairwise_cons.mpr ⟨fun x hx => ?_, ih h1.2⟩
    rw [(swapPass_perm _).mem_iff] at hx
    rw [key_lt]
    rcases h1.1 x hx with h3 | h3
    · exact Or.inl h3
    · right
      refine ⟨by rw [h3.1], ?_⟩
      rcases List.mem_cons.mp hx with rfl | hx
      · have := h3.2
        cases ha : a.conj <;> cases hb : x.conj <;> simp_all
      · exfalso
        rcases h1.1 b (by simp) with h4 | h4 <;> rcases h2.1 x hx with h5 | h5
        · rw [← h3.1] at h5; omega
        · rw [h3.1, h5.1] at h4; exact lt_irrefl _ h4
        · rw [← h4.1, h3.1] at h5; exact lt_irrefl _ h5
        · have := h3.2; have := h4.2; have := h5.2
          cases ha : a.conj <;> cases hb : b.conj <;> cases hx : x.conj <;> simp_all

theorem conjugate_perm (t : Table) (p : List Mono) : (conjugate t p).Perm (p.map (conjMono t)) := by
  unfold conjugate
  dsimp only
  split
  · exact swapPass_perm _
  · exact List.Perm.refl _

theorem conjugate_value {t : Table} {v : Nat → ℂ} (hv : Respects t v) {p : List Mono}
    (hp : ∀ m ∈ p, m.conj = true → t.herm m.id = false ∧ t.anti m.id = false) :
    value v (conjugate t p) = (starRingEnd ℂ) (value v p) := by
  rw [value_perm v (conjugate_perm t p)]
  induction p with
  | nil => simp
  | cons m p ih => rw [List.map_cons, value_cons, value_cons, map_add, conjMono_value hv m (hp m (by simp)), ih fun m hm => hp m (by simp [hm])]

theorem conjMono_id (t : Table) (m : Mono) : (conjMono t m).id = m.id := by
  unfold conjMono; dsimp only; split
  · rfl
  · split <;> rfl

theorem conjMono_conj (t : Table) (m : Mono) :
    (conjMono t m).conj = if t.herm m.id = true ∨ t.anti m.id = true then m.conj else !m.conj := by
  unfold conjMono; dsimp only
  by_cases hh : t.herm m.id = true
  · simp [hh]
  · by_cases ha : t.anti m.id = true <;> simp [hh, ha]

theorem conjMono_factor (t : Table) (m : Mono) (h : m.factor ≠ 0) : (conjMono t m).factor ≠ 0 := by
  have : (starRingEnd ℂ) m.factor ≠ 0 := by simpa using h
  unfold conjMono; dsimp only; split
  · exact this
  · split
    · exact neg_ne_zero.mpr this
    · exact this

theorem conjugate_canonical {t : Table} {o : Order} (ho : Function.Injective o.rank) {p : List Mono} (hp : Canonical t o p) :
    Canonical t o (conjugate t p) where
  sorted := by
    rw [sorted_iff ho]
    unfold conjugate
    dsimp only
    split
    · apply swapPass_sorted
      rw [List.pairwise_map]
      refine List.Pairwise.imp_of_mem ?_ hp.sorted
      intro a b ha hb h
      rw [conjMono_id, conjMono_id, conjMono_conj, conjMono_conj]
      rcases h with h | ⟨h1, h2, h3⟩
      · exact Or.inl h
      · right
        refine ⟨h1, ?_⟩
        have := hp.plain b hb h3
        rw [h1, h2, h3, this.1, this.2]
        simp
    · rename_i hc
      by_cases hl : p.length > 1
      · have hall : ∀ m ∈ p, t.herm m.id = true := by
          intro m hm
          by_contra hn
          apply hc
          simp only [hl, decide_true, Bool.and_true, List.any_eq_true]
          exact ⟨m, hm, by simp [hn]⟩
        rw [List.pairwise_map]
        refine List.Pairwise.imp_of_mem ?_ (canonical_keys ho hp)
        intro a b ha hb h
        rw [key_congr o (conjMono_id t a) (by rw [conjMono_conj, if_pos (Or.inl (hall a ha))]),
          key_congr o (conjMono_id t b) (by rw [conjMono_conj, if_pos (Or.inl (hall b hb))])]
        exact h
      · match p, hl with
        | [], _ => simp
        | [a], _ => simp
        | a :: b :: l, hl => simp at hl
  nonzero := fun m hm => by
    obtain ⟨y, hy, rfl⟩ := List.mem_map.mp ((conjugate_perm t p).mem_iff.mp hm)
    rw [conjMono_id]
    exact ⟨conjMono_factor t y (hp.nonzero y hy).1, (hp.nonzero y hy).2⟩
  plain := fun m hm hc => by
    obtain ⟨y, hy, rfl⟩ := List.mem_map.mp ((conjugate_perm t p).mem_iff.mp hm)
    rw [conjMono_id]
    rw [conjMono_conj] at hc
    split at hc
    · exact hp.plain y hy hc
    · rename_i hn
      simpa using hn

/-! ## Real and imaginary part -/

theorem emit_value (v : Nat → ℂ) (i : Nat) (f g : ℂ) (l : List Mono) :
    value v (realTerms.emit i f g l) = f * v i + g * (starRingEnd ℂ) (v i) + value v l := by
  unfold realTerms.emit
  rw [value_append, value_append]
  have e1 : value v (if f = 0 then [] else [⟨i, false, f⟩]) = f * v i := by
    split
    · rename_i h; simp [h]
    · simp [Mono.value]
  have e2 : value v (if g = 0 then [] else [⟨i, true, g⟩]) = g * (starRingEnd ℂ) (v i) := by
    split
    · rename_i h; simp [h]
    · simp [Mono.value]
  rw [e1, e2]; ring

/-- What `Real` and `Imaginary` need: a repeated symbol is the conjugate of the one before. -/
def Paired (p : List Mono) : Prop := p.Pairwise fun a b => a.id = b.id → a.conj = false ∧ b.conj = true

theorem canonical_paired {t : Table} {o : Order} {p : List Mono} (hp : Canonical t o p) : Paired p :=
  hp.sorted.imp fun {a b} h he => by
    rcases h with h | h
    · rw [he] at h; exact absurd h (lt_irrefl _)
    · exact h.2

theorem realTerms_value (v : Nat → ℂ) (p : List Mono) (hp : Paired p) :
    value v (realTerms p) = (1 / 2) * (value v p + (starRingEnd ℂ) (value v p)) := by
  induction p using realTerms.induct with
  | case1 => simp [realTerms]
  | case2 a h => rw [realTerms]; simp only [h, if_true]; rw [emit_value]; simp [Mono.value, h]; ring
  | case3 a h => rw [realTerms]; simp only [h, if_false, Bool.false_eq_true]; rw [emit_value]; simp [Mono.value, h]; ring
  | case4 a b l h ih =>
    rw [realTerms]
    simp only [h, if_true]
    rw [emit_value, ih (List.pairwise_cons.mp hp).2]; simp [Mono.value, h]; ring
  | case5 a b l h he ih =>
    rw [realTerms]
    simp only [h, he, if_true, if_false, Bool.false_eq_true]
    have hb := ((List.pairwise_cons.mp hp).1 b (by simp) he).2
    rw [emit_value, ih (List.pairwise_cons.mp (List.pairwise_cons.mp hp).2).2]; simp [Mono.value, h, hb, he]; ring
  | case6 a b l h he ih =>
    rw [realTerms]
    simp only [h, he, if_false, Bool.false_eq_true]
    rw [emit_value, ih (List.pairwise_cons.mp hp).2]; simp [Mono.value, h]; ring

theorem imagTerms_value (v : Nat → ℂ) (p : List Mono) (hp : Paired p) :
    value v (imagTerms p) = -(Complex.I / 2) * (value v p - (starRingEnd ℂ) (value v p)) := by
  induction p using imagTerms.induct with
  | case1 => simp [imagTerms]
  | case2 a h => rw [imagTerms]; simp only [h, if_true]; rw [emit_value]; simp [Mono.value, h]; ring
  | case3 a h => rw [imagTerms]; simp only [h, if_false, Bool.false_eq_true]; rw [emit_value]; simp [Mono.value, h]; ring
  | case4 a b l h ih =>
    rw [imagTerms]
    simp only [h, if_true]
    rw [emit_value, ih (List.pairwise_cons.mp hp).2]; simp [Mono.value, h]; ring
  | case5 a b l h he ih =>
    rw [imagTerms]
    simp only [h, he, if_true, if_false, Bool.false_eq_true]
    have hb := ((List.pairwise_cons.mp hp).1 b (by simp) he).2
    rw [emit_value, ih (List.pairwise_cons.mp (List.pairwise_cons.mp hp).2).2]; simp [Mono.value, h, hb, he]; ring
  | case6 a b l h he ih =>
    rw [imagTerms]
    simp only [h, he, if_false, Bool.false_eq_true]
    rw [emit_value, ih (List.pairwise_cons.mp hp).2]; simp [Mono.value, h]; ring

/-! ## Hermitian test -/

/-- The terms are closed under conjugation. -/
def SelfConj (t : Table) (p : List Mono) : Prop := ∀ m ∈ p, conjMono t m ∈ p

theorem hermLoop_of_selfConj {t : Table} {o : Order} (ho : Function.Injective o.rank) : ∀ (n : Nat) (p : List Mono), p.length ≤ n →
    Canonical t o p → SelfConj t p → hermLoop t none p = true
  | n, [], _, _, _ => by simp [hermLoop]
  | 0, a :: p, h, _, _ => by simp at h
  | n + 1, a :: p, hn, hp, hs => by
    have hk := canonical_keys ho hp
    have hk1 := List.pairwise_cons.mp hk
    have hself := hs a (by simp)
    have inj : ∀ x ∈ a :: p, x.id = a.id → x.conj = a.conj → x = a := by
      intro x hx e1 e2
      rcases List.mem_cons.mp hx with h | h
      · exact h
      · have := hk1.1 x h
        rw [key_congr o e1 e2] at this
        exact absurd this (lt_irrefl _)
    have hsub : Canonical t o p := ⟨(List.pairwise_cons.mp hp.sorted).2, fun m hm => hp.nonzero m (by simp [hm]), fun m hm => hp.plain m (by simp [hm])⟩
    have hz := (hp.nonzero a (by simp)).1
    rw [hermLoop, if_neg hz]
    by_cases hh : t.herm a.id = true ∨ t.anti a.id = true
    · have he := inj _ hself (conjMono_id t a) (by rw [conjMono_conj, if_pos hh])
      have hsp : SelfConj t p := by
        intro m hm
        rcases List.mem_cons.mp (hs m (by simp [hm])) with h | h
        · exfalso
          have h1 : m.id = a.id := by rw [← conjMono_id t m, h]
          have h2 : m.conj = a.conj := by
            have := congrArg Mono.conj h
            rwa [conjMono_conj, h1, if_pos hh] at this
          have := hk1.1 m hm
          rw [key_congr o h1 h2] at this
          exact lt_irrefl _ this
        · exact h
      have ih := hermLoop_of_selfConj ho n p (by simpa using hn) hsub hsp
      have hf := congrArg Mono.factor he
      unfold conjMono at hf
      by_cases h1 : t.herm a.id = true
      · simp only [h1, if_true] at hf ⊢
        have : a.factor.im = 0 := Complex.conj_eq_iff_im.mp hf
        simp [this, ih]
      · have h2 : t.anti a.id = true := by tauto
        simp only [h1, h2, if_true] at hf ⊢
        have : a.factor.re = 0 := by
          have := congrArg Complex.re hf
          simp at this
          exact self_eq_neg.mp this.symm
        simp [this, ih]
    · have h1 : t.herm a.id = false := by simp at hh; exact hh.1
      have h2 : t.anti a.id = false := by simp at hh; exact hh.2
      have hflip : conjMono t a = ⟨a.id, !a.conj, (starRingEnd ℂ) a.factor⟩ := by simp [conjMono, h1, h2]
      simp only [h1, h2]
      have hin : conjMono t a ∈ p := by
        rcases List.mem_cons.mp hself with h | h
        · have := congrArg Mono.conj h
          rw [hflip] at this
          cases hc : a.conj <;> simp [hc] at this
        · exact h
      have hc : a.conj = false := by
        have := hk1.1 _ hin
        rw [hflip, key_lt] at this
        rcases this with h | h
        · exact absurd h (lt_irrefl _)
        · exact h.2.1
      match p, hk1, hin, hsub, hn, hs with
      | b :: q, hk1, hin, hsub, hn, hs =>
        have hkq := List.pairwise_cons.mp hk1.2
        have hb : b = conjMono t a := by
          rcases List.mem_cons.mp hin with h | h
          · exact h.symm
          · exfalso
            have i1 := hk1.1 b (by simp)
            have i2 := hkq.1 _ h
            rw [hflip] at i2
            unfold Order.key at i1 i2
            simp [hc] at i1 i2
            omega
        rw [hb, hflip]
        have hfz : (starRingEnd ℂ) a.factor ≠ 0 := by simpa using hz
        simp only [hc, Option.isSome_none, hermLoop, hfz, h1, h2, Bool.not_false, if_true, if_false, Bool.false_eq_true, ne_eq, not_true_eq_false,
          Complex.conj_conj]
        apply hermLoop_of_selfConj ho n q (by simp at hn; omega)
          ⟨(List.pairwise_cons.mp hsub.sorted).2, fun m hm => hsub.nonzero m (by simp [hm]), fun m hm => hsub.plain m (by simp [hm])⟩
        intro m hm
        have hne : m.id ≠ a.id := by
          intro e
          have i1 := hk1.1 m (by simp [hm])
          have i2 := hkq.1 m hm
          rw [hb, hflip] at i2
          unfold Order.key at i1 i2
          rw [e] at i1 i2
          simp [hc] at i1 i2
          cases hmc : m.conj <;> simp [hmc] at i1 i2
        have hm' := hs m (by simp [hm])
        rcases List.mem_cons.mp hm' with h | h
        · exact absurd ((conjMono_id t m).symm.trans (congrArg Mono.id h)) hne
        · rcases List.mem_cons.mp h with h | h
          · exact absurd (((conjMono_id t m).symm.trans (congrArg Mono.id h)).trans (by rw [hb, conjMono_id])) hne
          · exact h

/-- A positive answer is right: the value is real. -/
theorem hermLoop_real {t : Table} {v : Nat → ℂ} (hv : Respects t v) : ∀ (l : List Mono) (last : Option Mono),
    (∀ m ∈ l, m.conj = true → t.herm m.id = false ∧ t.anti m.id = false) →
    (∀ k, last = some k → k.conj = false) → hermLoop t last l = true →
    (starRingEnd ℂ) (value v (last.toList ++ l)) = value v (last.toList ++ l)
  | [], last, _, _, h => by
    cases last with
    | none => simp
    | some k => simp [hermLoop] at h
  | m :: l, last, hp, hk, h => by
    have hpl : ∀ m ∈ l, m.conj = true → t.herm m.id = false ∧ t.anti m.id = false := fun m hm => hp m (by simp [hm])
    have hpm := hp m (by simp)
    rw [hermLoop.eq_def] at h
    dsimp only at h
    split at h
    · rename_i hz
      have ih := hermLoop_real hv l last hpl hk h
      have : m.value v = 0 := by simp [Mono.value, hz]
      rw [value_append, value_cons, this, zero_add, ← value_append]
      exact ih
    · split at h
      · rename_i hh
        cases last with
        | some k => simp at h
        | none =>
          simp only [Option.isSome_none, Bool.false_eq_true, if_false] at h
          split at h
          · cases h
          · rename_i him
            have ih := hermLoop_real hv l none hpl (by simp) h
            have hc : m.conj = false := by cases hc : m.conj <;> simp_all
            have hf : (starRingEnd ℂ) m.factor = m.factor := Complex.conj_eq_iff_im.mpr (by simpa using him)
            simp only [Option.toList_none, List.nil_append, value_cons, map_add] at ih ⊢
            rw [ih]
            simp [Mono.value, hc, hf, hv.herm _ hh]
      · split at h
        · rename_i hh ha
          cases last with
          | some k => simp at h
          | none =>
            simp only [Option.isSome_none, Bool.false_eq_true, if_false] at h
            split at h
            · cases h
            · rename_i hre
              have ih := hermLoop_real hv l none hpl (by simp) h
              have hc : m.conj = false := by cases hc : m.conj <;> simp_all
              have hf : (starRingEnd ℂ) m.factor = -m.factor := by
                apply Complex.ext
                · have : m.factor.re = 0 := by simpa using hre
                  simp [this]
                · simp
              simp only [Option.toList_none, List.nil_append, value_cons, map_add] at ih ⊢
              rw [ih]
              simp [Mono.value, hc, hf, hv.anti _ ha]
        · split at h
          · rename_i hc
            cases last with
            | none => simp at h
            | some k =>
              simp only at h
              split at h
              · cases h
              · split at h
                · cases h
                · rename_i hid hf
                  rw [not_ne_iff] at hid hf
                  have ih := hermLoop_real hv l none hpl (by simp) h
                  simp only [Option.toList_none, List.nil_append] at ih
                  simp only [Option.toList_some, List.cons_append, List.nil_append, value_cons, map_add]
                  rw [ih]
                  simp only [Mono.value, hc, hk k rfl, hid, hf]
                  simp
                  ring
          · rename_i hc
            cases last with
            | some k => simp at h
            | none =>
              simp only [Option.isSome_none, Bool.false_eq_true, if_false] at h
              have ih := hermLoop_real hv l (some m) hpl (by intro k hk; cases hk; simpa using hc) h
              simpa using ih

theorem antiLoop_eq {t : Table} : ∀ (l : List Mono) (last : Option Mono), (∀ m ∈ l, ¬ (t.herm m.id = true ∧ t.anti m.id = true)) →
    antiLoop t last l = hermLoop t (last.map fun m => { m with factor := m.factor * Complex.I }) (l.map fun m => { m with factor := m.factor * Complex.I })
  | [], last, _ => by cases last <;> simp [antiLoop, hermLoop]
  | m :: l, last, hb => by
    have ih := fun last => antiLoop_eq (t := t) l last fun m hm => hb m (by simp [hm])
    have hbm := hb m (by simp)
    rw [List.map_cons, antiLoop.eq_def, hermLoop.eq_def]
    dsimp only
    by_cases hz : m.factor = 0
    · simp [hz, ih]
    · have hz' : m.factor * Complex.I ≠ 0 := mul_ne_zero hz Complex.I_ne_zero
      rw [if_neg hz, if_neg hz']
      by_cases hh : t.herm m.id = true
      · have ha : t.anti m.id = false := by simpa [hh] using hbm
        simp only [hh, ha, if_true, Bool.false_eq_true, if_false, Option.isSome_map, ih]
        simp
      · by_cases ha : t.anti m.id = true
        · simp only [hh, ha, if_true, if_false, Option.isSome_map, ih]
          simp
        · simp only [hh, ha, if_false, Option.isSome_map, ih]
          by_cases hc : m.conj = true
          · simp only [hc, if_true]
            cases last with
            | none => rfl
            | some k =>
              simp only [Option.map_some]
              have : (k.factor * Complex.I ≠ (starRingEnd ℂ) (m.factor * Complex.I)) ↔ (k.factor ≠ -(starRingEnd ℂ) m.factor) := by
                rw [map_mul, Complex.conj_I, not_iff_not]
                constructor
                · intro h; exact mul_right_cancel₀ Complex.I_ne_zero (by rw [h]; ring)
                · intro h; rw [h]; ring
              simp only [this]
              rfl
          · simp [hc]

end Moment.Poly
