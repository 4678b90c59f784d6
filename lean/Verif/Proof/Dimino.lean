import Verif.Proof.SymmetryGroup
import Mathlib.Data.Fintype.Card
import Mathlib.Data.List.Nodup

/-! # The loops of `dimino_generation` -/

namespace Moment.SymGroup

variable {G : Type} [Group G] [DecidableEq G] {M : Type} [Monoid M] [DecidableEq M]

theorem cosets_map (ι : G →* M) (hι : Function.Injective ι) (order : Nat) (c : G) (gens : List G) : ∀ els : List G,
    cosets order (ι c) (gens.map ι) (els.map ι) = (cosets order c gens els).map ι := by
  induction gens with
  | nil => intro els; rfl
  | cons o gens ih =>
    intro els
    have hm : ι c * ι o ∈ els.map ι ↔ c * o ∈ els := by rw [← map_mul, List.mem_map_of_injective hι]
    simp only [List.map_cons, cosets, hm]
    by_cases h : c * o ∈ els
    · rw [if_pos h, if_pos h, ih]
    · rw [if_neg h, if_neg h, ← ih]
      congr 1
      rw [List.map_append, List.map_map, ← List.map_take, List.map_map]
      congr 1
      apply List.map_congr_left
      intro x _
      simp only [Function.comp_apply, map_mul]

/-- The elements with the representatives `reps` of cosets. -/
def blocks (Hl : List G) (reps : List G) : List G := reps.flatMap fun c => Hl.map (· * c)

structure Base (H : Subgroup G) (Hl : List G) : Prop where
  nodup : Hl.Nodup
  mem : ∀ x, x ∈ Hl ↔ x ∈ H
  first : ∃ t, Hl = 1 :: t

variable {H : Subgroup G} {Hl : List G}

theorem mem_blocks (hb : Base H Hl) {reps : List G} {x : G} : x ∈ blocks Hl reps ↔ ∃ c ∈ reps, ∃ h ∈ H, x = h * c := by
  simp only [blocks, List.mem_flatMap, List.mem_map, hb.mem]
  constructor
  · rintro ⟨c, hc, h, hh, rfl⟩; exact ⟨c, hc, h, hh, rfl⟩
  · rintro ⟨c, hc, h, hh, rfl⟩; exact ⟨c, hc, h, hh, rfl⟩

theorem blocks_left (hb : Base H Hl) {reps : List G} {x h : G} (hh : h ∈ H) : h * x ∈ blocks Hl reps ↔ x ∈ blocks Hl reps := by
  rw [mem_blocks hb, mem_blocks hb]
  constructor
  · rintro ⟨c, hc, k, hk, e⟩
    exact ⟨c, hc, h⁻¹ * k, H.mul_mem (H.inv_mem hh) hk, by rw [mul_assoc, ← e, inv_mul_cancel_left]⟩
  · rintro ⟨c, hc, k, hk, e⟩
    exact ⟨c, hc, h * k, H.mul_mem hh hk, by rw [mul_assoc, ← e]⟩

theorem blocks_append {a b : List G} : blocks Hl (a ++ b) = blocks Hl a ++ blocks Hl b := List.flatMap_append

theorem blocks_one {c : G} : blocks Hl [c] = Hl.map (· * c) := by simp [blocks]

theorem blocks_length (reps : List G) : (blocks Hl reps).length = reps.length * Hl.length := by
  induction reps with
  | nil => simp [blocks]
  | cons c reps ih =>
    have : blocks Hl (c :: reps) = Hl.map (· * c) ++ blocks Hl reps := by simp [blocks]
    rw [this, List.length_append, ih, List.length_map, List.length_cons, Nat.add_mul, Nat.one_mul, Nat.add_comm]

theorem blocks_nodup (hb : Base H Hl) {reps : List G} (hn : (blocks Hl reps).Nodup) {c : G} (hc : c ∉ blocks Hl reps) : (blocks Hl (reps ++ [c])).Nodup := by
  rw [blocks_append, blocks_one, List.nodup_append]
  refine ⟨hn, hb.nodup.map (mul_left_injective c), ?_⟩
  rintro x hx y hy rfl
  obtain ⟨h, hh, rfl⟩ := List.mem_map.mp hy
  exact hc ((blocks_left hb ((hb.mem h).mp hh)).mp hx)

theorem blocks_take {reps : List G} : (blocks Hl (1 :: reps)).take Hl.length = Hl := by
  have : blocks Hl (1 :: reps) = Hl ++ blocks Hl reps := by simp [blocks]
  rw [this, List.take_left]

/-- One pass over the generators. -/
theorem cosets_blocks (hb : Base H Hl) {S : Set G} {b c : G} (hc : Reach H S b c) (gens : List G) (hg : ∀ s ∈ gens, s ∈ S) : ∀ (reps : List G),
    (blocks Hl (1 :: reps)).Nodup → (∀ d ∈ reps, Reach H S b d) →
    ∃ new, cosets Hl.length c gens (blocks Hl (1 :: reps)) = blocks Hl (1 :: (reps ++ new)) ∧ (blocks Hl (1 :: (reps ++ new))).Nodup ∧
      (∀ d ∈ reps ++ new, Reach H S b d) ∧ ∀ s ∈ gens, c * s ∈ blocks Hl (1 :: (reps ++ new)) := by
  induction gens with
  | nil => exact fun reps hn hr => ⟨[], by simp [cosets], by simpa using hn, by simpa using hr, by simp⟩
  | cons o gens ih =>
    intro reps hn hr
    have hg' : ∀ s ∈ gens, s ∈ S := fun s hs => hg s (List.mem_cons_of_mem _ hs)
    by_cases h : c * o ∈ blocks Hl (1 :: reps)
    · obtain ⟨new, h1, h2, h3, h4⟩ := ih hg' reps hn hr
      refine ⟨new, by rw [cosets, if_pos h, h1], h2, h3, ?_⟩
      intro s hs
      rcases List.mem_cons.mp hs with rfl | hs
      · rw [← List.cons_append, blocks_append]
        exact List.mem_append_left _ h
      · exact h4 s hs
    · have hnH : c * o ∉ H := fun h' => h ((mem_blocks hb).mpr ⟨1, by simp, _, h', by simp⟩)
      have hco : Reach H S b (c * o) := .step hc (hg o (by simp)) hnH
      have e : blocks Hl (1 :: reps) ++ ((blocks Hl (1 :: reps)).take Hl.length).map (· * (c * o)) = blocks Hl (1 :: (reps ++ [c * o])) := by
        rw [blocks_take, ← blocks_one, ← blocks_append, List.cons_append]
      obtain ⟨new, h1, h2, h3, h4⟩ := ih hg' (reps ++ [c * o]) (by rw [← List.cons_append]; exact blocks_nodup hb hn h)
        (by intro d hd; rcases List.mem_append.mp hd with hd | hd
            · exact hr d hd
            · rw [List.mem_singleton.mp hd]; exact hco)
      rw [List.append_assoc] at h1 h2 h3 h4
      refine ⟨[c * o] ++ new, by rw [cosets, if_neg h, e, h1], h2, h3, ?_⟩
      intro s hs
      rcases List.mem_cons.mp hs with rfl | hs
      · exact (mem_blocks hb).mpr ⟨c * s, by simp, 1, H.one_mem, by simp⟩
      · exact h4 s hs

/-- The do-while loop: all representatives but the first get processed. -/
theorem cosetLoop_blocks [Fintype G] (ι : G →* M) (hι : Function.Injective ι) (hb : Base H Hl) {S : Set G} {b : G} (gens : List G)
    (hg : ∀ s ∈ gens, s ∈ S) : ∀ (n : Nat) (pre post : List G) (c : G), Fintype.card G - pre.length ≤ n →
    (blocks Hl (1 :: (pre ++ c :: post))).Nodup → (∀ d ∈ pre ++ c :: post, Reach H S b d) →
    (∀ d ∈ pre, ∀ s ∈ gens, d * s ∈ blocks Hl (1 :: (pre ++ c :: post))) →
    ∃ reps, cosetLoop (gens.map ι) Hl.length ((pre.length + 1) * Hl.length) ((blocks Hl (1 :: (pre ++ c :: post))).map ι) = some ((blocks Hl (1 :: reps)).map ι) ∧
      (blocks Hl (1 :: reps)).Nodup ∧ (∀ d ∈ reps, Reach H S b d) ∧ (∃ l, reps = pre ++ c :: l) ∧ ∀ d ∈ reps, ∀ s ∈ gens, d * s ∈ blocks Hl (1 :: reps) := by
  intro n
  induction n with
  | zero =>
    intro pre post c hm hn
    exfalso
    have h1 := hn.length_le_card
    obtain ⟨t, ht⟩ := hb.first
    rw [blocks_length, ht] at h1
    simp only [List.length_cons, List.length_append] at h1
    have : 1 * (pre.length + (post.length + 1) + 1) ≤ (pre.length + (post.length + 1) + 1) * (t.length + 1) := by
      rw [Nat.mul_comm]; exact Nat.mul_le_mul_left _ (by omega)
    omega
  | succ n ih =>
    intro pre post c hm hn hr hd
    obtain ⟨new, h1, h2, h3, h4⟩ := cosets_blocks hb (hr c (by simp)) gens hg _ hn hr
    have hget : ((blocks Hl (1 :: (pre ++ c :: post))).map ι)[(pre.length + 1) * Hl.length]? = some (ι c) := by
      have e : (pre.length + 1) * Hl.length = (blocks Hl (1 :: pre)).length := by rw [blocks_length]; simp
      have e2 : (1 :: (pre ++ c :: post)) = (1 :: pre) ++ ([c] ++ post) := by simp
      rw [e, e2, blocks_append, blocks_append, List.getElem?_map, List.getElem?_append_right (Nat.le_refl _), Nat.sub_self, blocks_one]
      obtain ⟨t, ht⟩ := hb.first
      simp [ht]
    rw [cosetLoop.eq_def, hget]
    dsimp only
    rw [cosets_map ι hι, h1]
    have hlen : (pre.length + 1) * Hl.length + Hl.length < ((blocks Hl (1 :: (pre ++ c :: post ++ new))).map ι).length ↔ post ++ new ≠ [] := by
      rw [List.length_map, blocks_length]
      obtain ⟨t, ht⟩ := hb.first
      have h0 : 0 < Hl.length := by rw [ht]; simp
      have e : (pre.length + 1) * Hl.length + Hl.length = (pre.length + 2) * Hl.length := by rw [← Nat.succ_mul]
      rw [e, Nat.mul_lt_mul_right h0, ← List.length_pos_iff]
      simp only [List.length_cons, List.length_append]
      omega
    by_cases hp : post ++ new = []
    · rw [if_neg (fun h => hlen.mp h hp)]
      refine ⟨pre ++ c :: post ++ new, rfl, h2, h3, ⟨post ++ new, by simp⟩, ?_⟩
      have hp' : post = [] ∧ new = [] := List.append_eq_nil_iff.mp hp
      intro d hd' s hs
      rw [hp'.1, hp'.2, List.append_nil] at hd'
      rcases List.mem_append.mp hd' with hd' | hd'
      · rw [← List.cons_append, blocks_append]
        exact List.mem_append_left _ (hd d hd' s hs)
      · rw [List.mem_singleton.mp hd']; exact h4 s hs
    · rw [if_pos (hlen.mpr hp)]
      obtain ⟨d, l, hl⟩ := List.exists_cons_of_ne_nil hp
      have e : pre ++ c :: post ++ new = (pre ++ [c]) ++ d :: l := by rw [List.append_assoc, List.cons_append, hl]; simp
      rw [e] at h2 h3 h4 ⊢
      obtain ⟨reps, g1, g2, g3, ⟨l', g4⟩, g5⟩ := ih (pre ++ [c]) l d (by rw [List.length_append, List.length_singleton]; omega) h2 h3 (by
        intro x hx s hs
        rcases List.mem_append.mp hx with hx | hx
        · rw [← e, ← List.cons_append, blocks_append]
          exact List.mem_append_left _ (hd x hx s hs)
        · rw [List.mem_singleton.mp hx]; exact h4 s hs)
      refine ⟨reps, ?_, g2, g3, ⟨d :: l', by rw [g4]; simp⟩, g5⟩
      rw [← g1, List.length_append, List.length_singleton]
      congr 1
      rw [← Nat.succ_mul]

/-- The list of all elements of the group. -/
def Whole (els : List G) : Prop := els.Nodup ∧ ∀ x, x ∈ els

/-- One generator that is not yet present is enough to get the whole group. -/
theorem stage [Fintype G] (ι : G →* M) (hι : Function.Injective ι) (hb : Base H Hl) (gens : List G) (hS : Submonoid.closure {s | s ∈ gens} = ⊤)
    {A : Set G} (hA : ∀ a ∈ A, a ∈ gens) (hH : (H : Set G) = Submonoid.closure A) {b : G} (hbS : b ∈ gens) (hbH : b ∉ H) :
    ∃ els : List G, cosetLoop (gens.map ι) Hl.length Hl.length (Hl.map ι ++ (Hl.map ι).map (· * ι b)) = some (els.map ι) ∧ Whole els := by
  have e : Hl.map ι ++ (Hl.map ι).map (· * ι b) = (blocks Hl (1 :: ([] ++ b :: []))).map ι := by
    have : blocks Hl [1, b] = Hl ++ Hl.map (· * b) := by simp [blocks]
    rw [List.nil_append, this, List.map_append, List.map_map, List.map_map]
    congr 1
    apply List.map_congr_left
    intro x _
    simp
  have hn : (blocks Hl (1 :: ([] ++ b :: []))).Nodup := by
    have h1 : (blocks Hl [1]).Nodup := by rw [blocks_one]; simpa using hb.nodup
    have := blocks_nodup hb h1 (c := b) (fun h => by
      obtain ⟨c, hc, h, hh, e⟩ := (mem_blocks hb).mp h
      rw [List.mem_singleton.mp hc, mul_one] at e
      exact hbH (e ▸ hh))
    simpa using this
  have hrb : Reach H {s | s ∈ gens} b b := by simpa using (Reach.start (H := H) (S := {s | s ∈ gens}) (b := b) H.one_mem)
  obtain ⟨reps, h1, h2, h3, ⟨l, h4⟩, h5⟩ := cosetLoop_blocks ι hι hb gens (S := {s | s ∈ gens}) (b := b) (fun s hs => hs) _ [] [] b (Nat.le_refl _) hn
    (by intro d hd; rw [List.nil_append, List.mem_singleton] at hd; rw [hd]; exact hrb) (by simp)
  refine ⟨blocks Hl (1 :: reps), by rw [e, ← h1]; simp, h2, ?_⟩
  have hH1 : ∀ x ∈ H, x ∈ blocks Hl (1 :: reps) := fun x hx => (mem_blocks hb).mpr ⟨1, by simp, x, hx, by simp⟩
  intro x
  rcases reach_all hS (S := {s | s ∈ gens}) (fun a ha => hA a ha) hH hbH hbS x with hx | hx
  · exact hH1 x hx
  · induction hx with
    | @start h hh => exact (mem_blocks hb).mpr ⟨b, by rw [h4]; simp, h, hh, rfl⟩
    | @step y s hy hs hn ih =>
      obtain ⟨c, hc, h, hh, rfl⟩ := (mem_blocks hb).mp ih
      rw [mul_assoc, blocks_left hb hh]
      rcases List.mem_cons.mp hc with rfl | hc
      · exact absurd (by simpa using hh) (reach_not_mem hbH hy)
      · exact h5 c hc s hs

end Moment.SymGroup
