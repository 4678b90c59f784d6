import Verif.Spec.MatrixBasis
import Verif.Proof.Sound
import Verif.Proof.Triangle
import Mathlib.Algebra.BigOperators.Ring.Finset
import Mathlib.Algebra.BigOperators.Ring.List

/-! # Proofs about basis matrices -/

namespace Moment.MatrixBasis

open Moment.Symbols (Sym Table Sound point)
open Moment.Poly (Mono)

/-! ## Sums of writes -/

/-- The sum of the writes to one place of one matrix. -/
noncomputable def wsum (W : List (Write ℂ)) (k i j : Nat) : ℂ := (W.map fun w => if w.1 = k ∧ w.2.1 = i ∧ w.2.2.1 = j then w.2.2.2 else 0).sum

/-- The writes to one place of all matrices, weighted. -/
noncomputable def dotW (W : List (Write ℂ)) (x : Nat → ℝ) (i j : Nat) : ℂ :=
  (W.map fun w => if w.2.1 = i ∧ w.2.2.1 = j then (x w.1 : ℂ) * w.2.2.2 else 0).sum

theorem total_wsum (N : Nat) (x : Nat → ℝ) (i j : Nat) : ∀ W : List (Write ℂ), (∀ w ∈ W, w.1 < N) →
    ∑ k ∈ Finset.range N, (x k : ℂ) * wsum W k i j = dotW W x i j
  | [], _ => by simp [wsum, dotW]
  | w :: W, h => by
    have ih := total_wsum N x i j W fun w hw => h w (List.mem_cons_of_mem _ hw)
    have hw := h w List.mem_cons_self
    simp only [wsum, dotW, List.map_cons, List.sum_cons, mul_add, Finset.sum_add_distrib] at ih ⊢
    rw [ih]
    congr 1
    by_cases hp : w.2.1 = i ∧ w.2.2.1 = j
    · rw [if_pos hp, Finset.sum_eq_single_of_mem w.1 (Finset.mem_range.mpr hw)]
      · rw [if_pos ⟨rfl, hp⟩]
      · intro k _ hk
        rw [if_neg fun h => hk h.1.symm, mul_zero]
    · rw [if_neg hp]
      apply Finset.sum_eq_zero
      intro k _
      rw [if_neg fun h => hp h.2, mul_zero]

theorem dotW_append (W V : List (Write ℂ)) (x : Nat → ℝ) (i j : Nat) : dotW (W ++ V) x i j = dotW W x i j + dotW V x i j := by
  simp [dotW]

theorem dotW_flatten (L : List (List (Write ℂ))) (x : Nat → ℝ) (i j : Nat) : dotW L.flatten x i j = (L.map fun W => dotW W x i j).sum := by
  induction L with
  | nil => rfl
  | cons W L ih => rw [List.flatten_cons, dotW_append, ih, List.map_cons, List.sum_cons]

/-! ## Stores -/

/-- A write is inside the store. -/
def InRange {K : Type} (N n : Nat) (w : Write K) : Prop := w.1 < N ∧ w.2.1 < n ∧ w.2.2.1 < n

/-- The writes with values read as complex numbers. -/
def lift {K : Type} (up : K → ℂ) (W : List (Write K)) : List (Write ℂ) := W.map fun w => (w.1, w.2.1, w.2.2.1, up w.2.2.2)

/-- Entry of a vector of dense matrices. -/
noncomputable def view {K : Type} (up : K → ℂ) (st : Dense K) (k i j : Nat) : ℂ := (st[k]?).elim 0 fun M => up (M i j)

theorem view_zeros {K : Type} [Zero K] (up : K → ℂ) (h0 : up 0 = 0) (N k i j : Nat) : view up (zeros N) k i j = 0 := by
  unfold view zeros
  rw [List.getElem?_replicate]
  split <;> simp [h0]

theorem view_modify {K : Type} (up : K → ℂ) (st : Dense K) (q : Nat) (hq : q < st.length) (f : (Nat → Nat → K) → Nat → Nat → K) (k i j : Nat) :
    view up (st.modify q f) k i j = if q = k then up (f st[q] i j) else view up st k i j := by
  unfold view
  rw [List.getElem?_modify]
  by_cases h : q = k
  · subst h
    simp [hq]
  · simp [h]

theorem run_add {K : Type} [Zero K] [Add K] (up : K → ℂ) (hadd : ∀ x y, up (x + y) = up x + up y) (n : Nat) : ∀ (W : List (Write K)) (st : Dense K),
    (∀ w ∈ W, InRange st.length n w) →
    ∃ st', run (addAt n) W st = some st' ∧ st'.length = st.length ∧ ∀ k i j, view up st' k i j = view up st k i j + wsum (lift up W) k i j
  | [], st, _ => ⟨st, rfl, rfl, fun _ _ _ => by simp [wsum, lift]⟩
  | w :: W, st, h => by
    have hw := h w List.mem_cons_self
    have hs : addAt n w st = some (st.modify w.1 fun M r c => if r = w.2.1 ∧ c = w.2.2.1 then M r c + w.2.2.2 else M r c) := by
      unfold addAt
      exact if_pos hw
    obtain ⟨st', h1, h2, h3⟩ := run_add up hadd n W (st.modify w.1 fun M r c => if r = w.2.1 ∧ c = w.2.2.1 then M r c + w.2.2.2 else M r c)
      (fun v hv => by rw [List.length_modify]; exact h v (List.mem_cons_of_mem _ hv))
    refine ⟨st', ?_, by rw [h2, List.length_modify], fun k i j => ?_⟩
    · rw [run, hs, Option.bind_some, h1]
    · rw [h3, view_modify up st w.1 hw.1]
      simp only [wsum, lift, List.map_cons, List.sum_cons]
      by_cases hk : w.1 = k
      · rw [if_pos hk]
        have e : view up st k i j = up ((st[w.1]'hw.1) i j) := by
          unfold view
          rw [← hk, List.getElem?_eq_getElem hw.1]
          rfl
        rw [e]
        by_cases hp : i = w.2.1 ∧ j = w.2.2.1
        · rw [if_pos hp, if_pos ⟨hk, hp.1.symm, hp.2.symm⟩, hadd, add_assoc]
        · rw [if_neg hp, if_neg fun q => hp ⟨q.2.1.symm, q.2.2.symm⟩, zero_add]
      · rw [if_neg hk, if_neg fun q => hk q.1, zero_add]

theorem run_set {K : Type} [Zero K] (up : K → ℂ) (n : Nat) : ∀ (W : List (Write K)) (st : Dense K),
    (∀ w ∈ W, InRange st.length n w) → W.Pairwise (fun w v => ¬ (w.2.1 = v.2.1 ∧ w.2.2.1 = v.2.2.1)) →
    (∀ w ∈ W, ∀ k, view up st k w.2.1 w.2.2.1 = 0) →
    ∃ st', run (setAt n) W st = some st' ∧ st'.length = st.length ∧ ∀ k i j, view up st' k i j = view up st k i j + wsum (lift up W) k i j
  | [], st, _, _, _ => ⟨st, rfl, rfl, fun _ _ _ => by simp [wsum, lift]⟩
  | w :: W, st, h, hd, hz => by
    have hw := h w List.mem_cons_self
    have hd' := List.pairwise_cons.mp hd
    have hs : setAt n w st = some (st.modify w.1 fun M r c => if r = w.2.1 ∧ c = w.2.2.1 then w.2.2.2 else M r c) := by
      unfold setAt
      exact if_pos hw
    have e : ∀ i j, view up st w.1 i j = up ((st[w.1]'hw.1) i j) := by
      intro i j
      unfold view
      rw [List.getElem?_eq_getElem hw.1]
      rfl
    obtain ⟨st', h1, h2, h3⟩ := run_set up n W (st.modify w.1 fun M r c => if r = w.2.1 ∧ c = w.2.2.1 then w.2.2.2 else M r c)
      (fun v hv => by rw [List.length_modify]; exact h v (List.mem_cons_of_mem _ hv)) hd'.2 (by
        intro v hv k
        rw [view_modify up st w.1 hw.1]
        by_cases hk : w.1 = k
        · rw [if_pos hk, if_neg fun q => hd'.1 v hv ⟨q.1.symm, q.2.symm⟩, ← e]
          exact hz v (List.mem_cons_of_mem _ hv) _
        · rw [if_neg hk]
          exact hz v (List.mem_cons_of_mem _ hv) k)
    refine ⟨st', ?_, by rw [h2, List.length_modify], fun k i j => ?_⟩
    · rw [run, hs, Option.bind_some, h1]
    · rw [h3, view_modify up st w.1 hw.1]
      simp only [wsum, lift, List.map_cons, List.sum_cons]
      by_cases hk : w.1 = k
      · rw [if_pos hk]
        by_cases hp : i = w.2.1 ∧ j = w.2.2.1
        · rw [if_pos hp, if_pos ⟨hk, hp.1.symm, hp.2.symm⟩, hp.1, hp.2, hz w List.mem_cons_self k, zero_add]
        · rw [if_neg hp, if_neg fun q => hp ⟨q.2.1.symm, q.2.2.symm⟩, zero_add, ← hk, e]
      · rw [if_neg hk, if_neg fun q => hk q.1, zero_add]

/-- Entry of a list of triplets. -/
noncomputable def tsum {K : Type} (up : K → ℂ) (T : List (Nat × Nat × K)) (i j : Nat) : ℂ := (T.map fun e => if e.1 = i ∧ e.2.1 = j then up e.2.2 else 0).sum

/-- Entry of a vector of lists of triplets. -/
noncomputable def viewT {K : Type} (up : K → ℂ) (st : List (List (Nat × Nat × K))) (k i j : Nat) : ℂ := (st[k]?).elim 0 fun T => tsum up T i j

theorem run_push {K : Type} (up : K → ℂ) (n : Nat) : ∀ (W : List (Write K)) (st : List (List (Nat × Nat × K))),
    (∀ w ∈ W, InRange st.length n w) → (∀ T ∈ st, ∀ e ∈ T, e.1 < n ∧ e.2.1 < n) →
    ∃ st', run (pushAt n) W st = some st' ∧ st'.length = st.length ∧ (∀ T ∈ st', ∀ e ∈ T, e.1 < n ∧ e.2.1 < n) ∧
      ∀ k i j, viewT up st' k i j = viewT up st k i j + wsum (lift up W) k i j
  | [], st, _, hin => ⟨st, rfl, rfl, hin, fun _ _ _ => by simp [wsum, lift]⟩
  | w :: W, st, h, hin => by
    have hw := h w List.mem_cons_self
    have hs : pushAt n w st = some (st.modify w.1 fun T => T ++ [(w.2.1, w.2.2.1, w.2.2.2)]) := by
      unfold pushAt
      exact if_pos hw
    obtain ⟨st', h1, h2, h4, h3⟩ := run_push up n W (st.modify w.1 fun T => T ++ [(w.2.1, w.2.2.1, w.2.2.2)])
      (fun v hv => by rw [List.length_modify]; exact h v (List.mem_cons_of_mem _ hv)) (by
        intro T hT e he
        obtain ⟨q, hq⟩ := List.mem_iff_getElem?.mp hT
        rw [List.getElem?_modify] at hq
        obtain ⟨T', hT', rfl⟩ := Option.map_eq_some_iff.mp hq
        have hm := List.mem_of_getElem? hT'
        split at he
        · rcases List.mem_append.mp he with he | he
          · exact hin T' hm e he
          · rw [List.mem_singleton.mp he]
            exact hw.2
        · exact hin T' hm e he)
    refine ⟨st', ?_, by rw [h2, List.length_modify], h4, fun k i j => ?_⟩
    · rw [run, hs, Option.bind_some, h1]
    · rw [h3]
      simp only [wsum, lift, List.map_cons, List.sum_cons]
      rw [← add_assoc]
      congr 1
      unfold viewT
      rw [List.getElem?_modify]
      by_cases hk : w.1 = k
      · subst hk
        rw [List.getElem?_eq_getElem hw.1]
        simp [tsum]
      · simp [hk]

theorem sumAt_eq {K : Type} [AddCommMonoid K] (T : List (Nat × Nat × K)) (up : K →+ ℂ) (i j : Nat) : up (sumAt T i j) = tsum up T i j := by
  unfold sumAt tsum
  induction T with
  | nil => simp
  | cons e T ih =>
    rw [List.filter_cons]
    by_cases h : e.1 = i ∧ e.2.1 = j
    · simp only [h, and_self, decide_true, if_true, List.map_cons, List.sum_cons, map_add, ih]
    · simp only [h, decide_false, Bool.false_eq_true, if_false, List.map_cons, List.sum_cons, zero_add, ih]

theorem sum_range_single {n i : Nat} (hi : i < n) (f : Nat → ℂ) : ((List.range n).map fun r => if r = i then f r else 0).sum = f i := by
  induction n with
  | zero => omega
  | succ n ih =>
    rw [List.range_succ, List.map_append, List.sum_append]
    by_cases h : n = i
    · subst h
      have : ((List.range n).map fun r => if r = n then f r else 0).sum = 0 := by
        apply List.sum_eq_zero
        intro x hx
        obtain ⟨r, hr, rfl⟩ := List.mem_map.mp hx
        rw [if_neg (Nat.ne_of_lt (List.mem_range.mp hr))]
      rw [this]
      simp
    · rw [ih (by omega)]
      simp [h]

theorem sum_flatMap {α : Type} (l : List α) (g : α → List ℂ) : (l.flatMap g).sum = (l.map fun x => (g x).sum).sum := by
  induction l with
  | nil => rfl
  | cons a l ih => rw [List.flatMap_cons, List.sum_append, ih, List.map_cons, List.sum_cons]

theorem tsum_fromTriplets {K : Type} [AddCommMonoid K] (T : List (Nat × Nat × K)) (up : K →+ ℂ) (n m i j : Nat) (hi : i < n) (hj : j < m) :
    tsum up (fromTriplets n m T) i j = tsum up T i j := by
  rw [← sumAt_eq T up i j]
  conv_lhs => unfold tsum fromTriplets
  rw [List.map_flatMap, sum_flatMap]
  have e : ∀ c, (((((List.range n).filter fun i => ∃ e ∈ T, e.1 = i ∧ e.2.1 = c).map fun i => (i, c, sumAt T i c)).map
      fun e => if e.1 = i ∧ e.2.1 = j then up e.2.2 else 0)).sum = if c = j then up (sumAt T i j) else 0 := by
    intro c
    rw [List.map_map]
    by_cases hc : c = j
    · subst hc
      rw [if_pos rfl]
      have : ∀ l : List Nat, ((l.filter fun r => ∃ e ∈ T, e.1 = r ∧ e.2.1 = c).map
          ((fun e : Nat × Nat × K => if e.1 = i ∧ e.2.1 = c then up e.2.2 else 0) ∘ fun r => (r, c, sumAt T r c))).sum =
          (l.map fun r => if r = i then up (sumAt T r c) else 0).sum := by
        intro l
        induction l with
        | nil => rfl
        | cons r l ih =>
          rw [List.filter_cons]
          by_cases h : ∃ e ∈ T, e.1 = r ∧ e.2.1 = c
          · rw [if_pos (by simpa using h), List.map_cons, List.map_cons, List.sum_cons, List.sum_cons, ih]
            simp
          · rw [if_neg (by simpa using h), ih, List.map_cons, List.sum_cons]
            have : sumAt T r c = 0 := by
              unfold sumAt
              rw [List.filter_eq_nil_iff.mpr]
              · rfl
              · intro e he hp
                exact h ⟨e, he, by simpa using hp⟩
            rw [this]
            simp
      rw [this, sum_range_single hi]
    · rw [if_neg hc]
      apply List.sum_eq_zero
      intro x hx
      obtain ⟨r, hr, rfl⟩ := List.mem_map.mp hx
      simp [hc]
  simp only [e]
  exact sum_range_single hj fun _ => up (sumAt T i j)

end Moment.MatrixBasis
