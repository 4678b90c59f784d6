import Verif.Model.Workers
import Verif.Props.C44_Helpers
import Mathlib.Tactic.Ring
import Mathlib.Tactic.Linarith
import Mathlib.Logic.Relation
import Mathlib.Algebra.BigOperators.Group.Finset.Basic
import Mathlib.Algebra.Order.BigOperators.Group.Finset

/-! Invariant of the merging workers. -/

namespace Moment.Workers

/-! ## Levels -/

theorem size_log {n : Nat} (h : n ≠ 0) : Nat.size n = Nat.log 2 n + 1 := by
  apply le_antisymm
  · exact Nat.size_le.mpr (Nat.lt_pow_succ_log_self (by norm_num) n)
  · exact Nat.lt_size.mpr (Nat.pow_log_le_self 2 h)

theorem finalLevel_eq (i : Nat) : finalLevel i = Nat.size i := by
  unfold finalLevel bitFloor
  split
  · next h => rw [h]
  · next h => rw [Nat.size_pow, size_log h]

theorem firstLevel_cases (n i : Nat) (hn : n ≠ 0) : ∃ l, 2 ^ l ≤ n ∧ n < 2 ^ (l + 1) ∧
    ((firstLevel n i = l ∧ (n = 2 ^ l ∨ (i < 2 ^ l ∧ n ≤ i + 2 ^ l))) ∨ (firstLevel n i = l + 1 ∧ (2 ^ l ≤ i ∨ i + 2 ^ l < n))) := by
  refine ⟨Nat.log 2 n, Nat.pow_log_le_self 2 hn, Nat.lt_pow_succ_log_self (by norm_num) n, ?_⟩
  have hb : bitFloor n = 2 ^ Nat.log 2 n := by unfold bitFloor; rw [if_neg hn]
  unfold firstLevel
  dsimp only
  rw [hb, Nat.size_pow, Nat.add_sub_cancel]
  split_ifs with h1 h2 h3
  · exact Or.inl ⟨rfl, Or.inl h1.symm⟩
  · exact Or.inr ⟨rfl, Or.inl h2⟩
  · exact Or.inr ⟨rfl, Or.inr h3⟩
  · exact Or.inl ⟨rfl, Or.inr ⟨by omega, by omega⟩⟩

theorem first_size {n i : Nat} (hi : i < n) : Nat.size i ≤ firstLevel n i := by
  obtain ⟨l, h1, h2, h⟩ := firstLevel_cases n i (by omega)
  rw [pow_succ] at h2
  rw [Nat.size_le]
  rcases h with ⟨e, h⟩ | ⟨e, h⟩ <;> rw [e]
  · omega
  · rw [pow_succ]; omega

theorem first_only {n i j : Nat} (hj : j < n) (h : j % 2 ^ firstLevel n i = i) : j = i := by
  obtain ⟨l, h1, h2, hc⟩ := firstLevel_cases n i (by omega)
  rw [pow_succ] at h2
  rcases hc with ⟨e, hc⟩ | ⟨e, hc⟩ <;> rw [e] at h
  · generalize 2 ^ l = P at *
    by_cases hP : j < P
    · rwa [Nat.mod_eq_of_lt hP] at h
    · rw [Nat.mod_eq_sub_mod (by omega), Nat.mod_eq_of_lt (by omega)] at h
      omega
  · rw [pow_succ] at h
    generalize 2 ^ l = P at *
    rwa [Nat.mod_eq_of_lt (by omega)] at h

theorem first_partner {n i c : Nat} (hi : i < n) (hc : c ≤ firstLevel n i) (hs : Nat.size i < c) : partner i c < n := by
  obtain ⟨l, h1, h2, h⟩ := firstLevel_cases n i (by omega)
  have hlt : i < 2 ^ (c - 1) := Nat.size_le.mp (by omega)
  unfold partner
  have hle : c ≤ l → i + 2 ^ (c - 1) < n := by
    intro hcl
    have e : 2 ^ c = 2 ^ (c - 1) * 2 := by rw [← pow_succ]; congr 1; omega
    have : 2 ^ c ≤ 2 ^ l := Nat.pow_le_pow_right (by norm_num) hcl
    omega
  rcases h with ⟨e, h⟩ | ⟨e, h⟩
  · exact hle (by omega)
  · by_cases hcl : c ≤ l
    · exact hle hcl
    · have : c - 1 = l := by omega
      rw [this] at hlt ⊢
      omega

theorem first_small {n i : Nat} (hn : n < 2 ^ 64) (hi : i < n) : firstLevel n i ≤ 64 := by
  obtain ⟨l, h1, h2, h⟩ := firstLevel_cases n i (by omega)
  have : l < 64 := by
    by_contra hl
    have : 2 ^ 64 ≤ 2 ^ l := Nat.pow_le_pow_right (by norm_num) (by omega)
    omega
  omega

theorem size_partner {i c : Nat} (hs : Nat.size i < c) : Nat.size (partner i c) = c := by
  have hlt : i < 2 ^ (c - 1) := Nat.size_le.mp (by omega)
  have e : 2 ^ c = 2 ^ (c - 1) * 2 := by rw [← pow_succ]; congr 1; omega
  apply le_antisymm
  · apply Nat.size_le.mpr; unfold partner; omega
  · have : c - 1 < Nat.size (partner i c) := Nat.lt_size.mpr (by unfold partner; omega)
    omega

/-- The worker that takes the symbols of `i`. -/
def parent (i : Nat) : Nat := i - 2 ^ (Nat.size i - 1)

theorem parent_partner {i c : Nat} (hs : Nat.size i < c) : parent (partner i c) = i := by
  unfold parent; rw [size_partner hs]; unfold partner; omega

theorem partner_parent {i : Nat} (hi : i ≠ 0) : partner (parent i) (Nat.size i) = i ∧ Nat.size (parent i) < Nat.size i := by
  have hpos : 0 < Nat.size i := Nat.size_pos.mpr (by omega)
  have h1 : 2 ^ (Nat.size i - 1) ≤ i := Nat.lt_size.mp (by omega)
  have h2 := Nat.lt_size_self i
  have e : 2 ^ Nat.size i = 2 ^ (Nat.size i - 1) * 2 := by rw [← pow_succ]; congr 1; omega
  constructor
  · unfold partner parent; omega
  · have : Nat.size (parent i) ≤ Nat.size i - 1 := Nat.size_le.mpr (by unfold parent; omega)
    omega

theorem first_child {n k : Nat} (hk : k < n) (h0 : k ≠ 0) : Nat.size k ≤ firstLevel n (parent k) := by
  by_contra hlt
  obtain ⟨h1, h2⟩ := partner_parent h0
  have hpk : parent k < n := lt_of_le_of_lt (Nat.sub_le _ _) hk
  have hd : 2 ^ firstLevel n (parent k) ∣ 2 ^ (Nat.size k - 1) := pow_dvd_pow 2 (by omega)
  obtain ⟨q, hq⟩ := hd
  have hm : k % 2 ^ firstLevel n (parent k) = parent k := by
    have h1' : k = parent k + 2 ^ firstLevel n (parent k) * q := by rw [← hq]; exact h1.symm
    have h3 := congrArg (· % 2 ^ firstLevel n (parent k)) h1'
    rw [Nat.add_mul_mod_self_left] at h3
    rw [h3]
    exact Nat.mod_eq_of_lt (Nat.size_le.mp (first_size hpk))
  have := first_only hk hm
  have hpos : 0 < 2 ^ (Nat.size k - 1) := by positivity
  unfold partner at h1
  omega

/-! ## Invariant -/

/-- The workers whose symbols worker `i` holds at level `l`. -/
def Sub (n i l j : Nat) : Prop := j < n ∧ j % 2 ^ l = i

theorem sub_split {n i c k : Nat} (hs : Nat.size i < c) : Sub n i (c - 1) k ↔ Sub n i c k ∨ Sub n (partner i c) c k := by
  have hlt : i < 2 ^ (c - 1) := Nat.size_le.mp (by omega)
  have e : 2 ^ c = 2 ^ (c - 1) * 2 := by rw [← pow_succ]; congr 1; omega
  unfold Sub partner
  rw [e, Nat.mod_mul]
  have h1 := Nat.mod_lt k (show 2 ^ (c - 1) > 0 by positivity)
  have h2 := Nat.mod_lt (k / 2 ^ (c - 1)) (show 2 > 0 by norm_num)
  generalize k / 2 ^ (c - 1) % 2 = b at *
  generalize k % 2 ^ (c - 1) = r at *
  generalize 2 ^ (c - 1) = P at *
  have hb : b = 0 ∨ b = 1 := by omega
  rcases hb with rfl | rfl
  · constructor
    · rintro ⟨ha, rfl⟩; exact Or.inl ⟨ha, by omega⟩
    · rintro (⟨ha, h⟩ | ⟨ha, h⟩)
      · exact ⟨ha, by omega⟩
      · exfalso; omega
  · constructor
    · rintro ⟨ha, rfl⟩; exact Or.inr ⟨ha, by omega⟩
    · rintro (⟨ha, h⟩ | ⟨ha, h⟩)
      · exfalso; omega
      · exact ⟨ha, by omega⟩

/-- The symbols of a set of workers, those of `i` with precedence. -/
structure Holds {V : Type} (found : Nat → List (Int × V)) (i : Nat) (d : List (Int × V)) (S : Nat → Prop) : Prop where
  sorted : C44.Sorted d
  unsigned : C44.Unsigned d
  sound : ∀ k v, (k, v) ∈ d → ∃ j, S j ∧ (k, v) ∈ found j
  complete : ∀ j, S j → ∀ k v, (k, v) ∈ found j → ∃ w, (k, w) ∈ d
  own : ∀ k v, (k, v) ∈ found i → (k, v) ∈ d

/-- Level including a merge not yet announced. -/
def eff {V : Type} (s : State V) (i : Nat) : Nat :=
  match s.pc i with
  | .merged c => c - 1
  | _ => s.level i

/-- Symbols are found and the first level is stored. -/
def Running : Pc → Prop
  | .identify | .found => False
  | _ => True

/-- In the body of the loop at a level. -/
def Busy (p : Pc) (c : Nat) : Prop := p = .waiting c ∨ p = .merging c ∨ p = .merged c

structure Inv {V : Type} (n : Nat) (found : Nat → List (Int × V)) (s : State V) : Prop where
  nocrash : s.crashed = false
  start : ∀ i < n, ¬ Running (s.pc i) → s.level i = maxLevel
  ident : ∀ i < n, s.pc i = .identify → s.data i = some []
  filled : ∀ i < n, s.pc i = .found → s.data i = some (found i)
  range : ∀ i < n, Running (s.pc i) → Nat.size i ≤ s.level i ∧ s.level i ≤ firstLevel n i
  busy : ∀ i < n, ∀ c, Busy (s.pc i) c → c = s.level i ∧ Nat.size i < c
  merging : ∀ i < n, ∀ c, s.pc i = .merging c → s.level (partner i c) ≤ c
  done : ∀ i < n, s.pc i = .done → s.level i ≤ Nat.size i
  holds : ∀ i < n, Running (s.pc i) → ∀ d, s.data i = some d → Holds found i d (Sub n i (eff s i))
  none : ∀ i < n, s.data i = none ↔ i ≠ 0 ∧ eff s (parent i) < Nat.size i
  taken : ∀ i < n, s.data i = Option.none → Running (s.pc i) ∧ s.level i ≤ Nat.size i

variable {V : Type} {n : Nat} {found : Nat → List (Int × V)}

theorem maxLevel_eq : maxLevel = 18446744073709551615 := by norm_num [maxLevel]

theorem size_small (hn : n < 2 ^ 64) {i : Nat} (hi : i < n) : Nat.size i ≤ 64 := Nat.size_le.mpr (by omega)

theorem initial_inv (hn : n < 2 ^ 64) : Inv n found (initial : State V) := by
  refine ⟨rfl, fun i _ _ => rfl, fun i _ _ => rfl, fun i _ h => by simp [initial] at h, fun i _ h => absurd h (by simp [initial, Running]),
    fun i _ c h => by simp [initial, Busy] at h, fun i _ c h => by simp [initial] at h, fun i _ h => by simp [initial] at h,
    fun i _ h => absurd h (by simp [initial, Running]), fun i hi => ?_, fun i _ h => by simp [initial] at h⟩
  have := size_small hn hi
  simp only [initial, eff, reduceCtorEq, false_iff, not_and, not_lt]
  rw [maxLevel_eq]
  omega

/-- What is known about the other worker while a merge is running. -/
theorem inv_merging {s : State V} (hn : n < 2 ^ 64) (h : Inv n found s) {i c : Nat} (hi : i < n) (hp : s.pc i = .merging c) :
    c = s.level i ∧ Nat.size i < c ∧ partner i c < n ∧ partner i c ≠ i ∧ Nat.size (partner i c) = c ∧ parent (partner i c) = i ∧
      (s.pc (partner i c) = .loop ∨ s.pc (partner i c) = .done) ∧ s.level (partner i c) = c ∧ (∃ d, s.data i = some d) ∧ ∃ d, s.data (partner i c) = some d := by
  obtain ⟨h1, h2⟩ := h.busy i hi c (Or.inr (Or.inl hp))
  have hr := h.range i hi (by rw [hp]; trivial)
  have h3 := first_partner hi (h1 ▸ hr.2) h2
  have h4 := size_partner h2
  have h5 := parent_partner h2
  have hl := h.merging i hi c hp
  have hc := first_small hn hi
  have hrun : Running (s.pc (partner i c)) := by
    by_contra hno
    rw [h.start _ h3 hno, maxLevel_eq] at hl
    omega
  have hrange := h.range _ h3 hrun
  have hlev : s.level (partner i c) = c := by omega
  have hpos : 0 < 2 ^ (c - 1) := by positivity
  have hne : partner i c ≠ i := by unfold partner; omega
  have hpc : s.pc (partner i c) = .loop ∨ s.pc (partner i c) = .done := by
    have hb : ∀ c', ¬ Busy (s.pc (partner i c)) c' := by
      intro c' hb
      obtain ⟨g1, g2⟩ := h.busy _ h3 c' hb
      omega
    cases e : s.pc (partner i c) with
    | identify => rw [e] at hrun; exact hrun.elim
    | found => rw [e] at hrun; exact hrun.elim
    | loop => exact Or.inl rfl
    | waiting c' => exact absurd (Or.inl e) (hb c')
    | merging c' => exact absurd (Or.inr (Or.inl e)) (hb c')
    | merged c' => exact absurd (Or.inr (Or.inr e)) (hb c')
    | done => exact Or.inr rfl
  refine ⟨h1, h2, h3, hne, h4, h5, hpc, hlev, ?_, ?_⟩
  · cases e : s.data i with
    | some d => exact ⟨d, rfl⟩
    | none =>
      have := (h.taken i hi e).2
      omega
  · cases e : s.data (partner i c) with
    | some d => exact ⟨d, rfl⟩
    | none =>
      have := ((h.none _ h3).mp e).2
      rw [h5, h4, eff, hp] at this
      dsimp only at this
      omega

theorem fits_unsigned {a b : List (Int × V)} (ha : C44.Unsigned a) (hb : C44.Unsigned b) : C44.Fits a b :=
  ⟨0, fun e he => by
    rcases he with he | he
    · have := ha e he; omega
    · have := hb e he; omega⟩

/-- Merging the symbols of two sets of workers. -/
theorem holds_merge {i j : Nat} {a b out : List (Int × V)} {ex : Bool} {S S' U : Nat → Prop} (ha : Holds found i a S) (hb : Holds found j b S')
    (hu : ∀ k, U k ↔ S k ∨ S' k) (ho : Util.linearMapMerge a b = some (out, ex)) : Holds found i out U := by
  obtain ⟨out', ex', h1, h2, h3, -⟩ := C44.C44_merge a b ha.sorted hb.sorted (fits_unsigned ha.unsigned hb.unsigned)
  rw [ho] at h1
  obtain ⟨rfl, rfl⟩ := Prod.mk.inj (Option.some.inj h1)
  refine ⟨h2, ?_, ?_, ?_, ?_⟩
  · rintro ⟨k, v⟩ hkv
    rcases (h3 k v).mp hkv with h | ⟨h, -⟩
    · exact ha.unsigned _ h
    · exact hb.unsigned _ h
  · intro k v hkv
    rcases (h3 k v).mp hkv with h | ⟨h, -⟩
    · obtain ⟨x, hx, hx'⟩ := ha.sound k v h
      exact ⟨x, (hu x).mpr (Or.inl hx), hx'⟩
    · obtain ⟨x, hx, hx'⟩ := hb.sound k v h
      exact ⟨x, (hu x).mpr (Or.inr hx), hx'⟩
  · intro x hx k v hkv
    rcases (hu x).mp hx with hx | hx
    · obtain ⟨w, hw⟩ := ha.complete x hx k v hkv
      exact ⟨w, (h3 k w).mpr (Or.inl hw)⟩
    · obtain ⟨w, hw⟩ := hb.complete x hx k v hkv
      by_cases hm : ∃ u, (k, u) ∈ a
      · obtain ⟨u, hu⟩ := hm
        exact ⟨u, (h3 k u).mpr (Or.inl hu)⟩
      · push Not at hm
        exact ⟨w, (h3 k w).mpr (Or.inr ⟨hw, hm⟩)⟩
  · intro k v hkv
    exact (h3 k v).mpr (Or.inl (ha.own k v hkv))

/-- Steps that only move one worker to another place. -/
theorem inv_goto {s : State V} (h : Inv n found s) (i : Nat) (p : Pc) (hr : Running (s.pc i)) (hp : Running p)
    (hm : ∀ c, p ≠ .merged c) (hm' : ∀ c, s.pc i ≠ .merged c) (hb : i < n → ∀ c, Busy p c → c = s.level i ∧ Nat.size i < c) (hg : ∀ c, p = .merging c → s.level (partner i c) ≤ c)
    (hd : i < n → p = .done → s.level i ≤ Nat.size i) : Inv n found { s with pc := Function.update s.pc i p } := by
  have hself : Function.update s.pc i p i = p := Function.update_self ..
  have hother : ∀ x, x ≠ i → Function.update s.pc i p x = s.pc x := fun x hx => Function.update_of_ne hx ..
  have heff : ∀ x, eff { s with pc := Function.update s.pc i p } x = eff s x := by
    intro x
    unfold eff
    dsimp only
    by_cases e : x = i
    · subst e
      rw [hself]
      cases p <;> cases e' : s.pc x <;> simp_all
    · rw [hother x e]
  refine ⟨h.nocrash, fun x hx hx' => ?_, fun x hx hx' => ?_, fun x hx hx' => ?_, fun x hx hx' => ?_, fun x hx c hx' => ?_, fun x hx c hx' => ?_, fun x hx hx' => ?_,
    fun x hx hx' d hd' => ?_, fun x hx => ?_, fun x hx hx' => ?_⟩ <;> dsimp only at * <;> (try rw [heff])
  · by_cases e : x = i
    · subst e; rw [hself] at hx'; exact absurd hp hx'
    · rw [hother x e] at hx'; exact h.start x hx hx'
  · by_cases e : x = i
    · subst e; rw [hself] at hx'; rw [hx'] at hp; exact hp.elim
    · rw [hother x e] at hx'; exact h.ident x hx hx'
  · by_cases e : x = i
    · subst e; rw [hself] at hx'; rw [hx'] at hp; exact hp.elim
    · rw [hother x e] at hx'; exact h.filled x hx hx'
  · by_cases e : x = i
    · subst e; exact h.range x hx hr
    · rw [hother x e] at hx'; exact h.range x hx hx'
  · by_cases e : x = i
    · subst e; rw [hself] at hx'; exact hb hx c hx'
    · rw [hother x e] at hx'; exact h.busy x hx c hx'
  · by_cases e : x = i
    · subst e; rw [hself] at hx'; exact hg c hx'
    · rw [hother x e] at hx'; exact h.merging x hx c hx'
  · by_cases e : x = i
    · subst e; rw [hself] at hx'; exact hd hx hx'
    · rw [hother x e] at hx'; exact h.done x hx hx'
  · by_cases e : x = i
    · subst e; exact h.holds x hx hr d hd'
    · rw [hother x e] at hx'; exact h.holds x hx hx' d hd'
  · exact h.none x hx
  · by_cases e : x = i
    · subst e; rw [hself]; exact ⟨hp, (h.taken x hx hx').2⟩
    · rw [hother x e]; exact h.taken x hx hx'

theorem step_inv (hn : n < 2 ^ 64) (hf : ∀ j < n, C44.Sorted (found j) ∧ C44.Unsigned (found j)) {s s' : State V} (hs : Step n found s s') (h : Inv n found s) :
    Inv n found s' := by
  cases hs with
  | identify i hi hp =>
    have hself : Function.update s.pc i .found i = .found := Function.update_self ..
    have hother : ∀ x, x ≠ i → Function.update s.pc i .found x = s.pc x := fun x hx => Function.update_of_ne hx ..
    have hd : ∀ x, x ≠ i → Function.update s.data i (some (found i)) x = s.data x := fun x hx => Function.update_of_ne hx ..
    have heff : ∀ (d : Nat → Option (List (Int × V))) x, eff { s with data := d, pc := Function.update s.pc i .found } x = eff s x := by
      intro d x
      unfold eff
      dsimp only
      by_cases e : x = i
      · subst e; rw [hself, hp]
      · rw [hother x e]
    refine ⟨h.nocrash, fun x hx hx' => ?_, fun x hx hx' => ?_, fun x hx hx' => ?_, fun x hx hx' => ?_, fun x hx c hx' => ?_, fun x hx c hx' => ?_, fun x hx hx' => ?_,
      fun x hx hx' d hd' => ?_, fun x hx => ?_, fun x hx hx' => ?_⟩ <;> dsimp only at * <;> (try rw [heff])
    all_goals (by_cases e : x = i <;> [subst e; skip])
    · exact h.start x hx (by rw [hp]; exact id)
    · rw [hother x e] at hx'; exact h.start x hx hx'
    · rw [hself] at hx'; simp at hx'
    · rw [hother x e] at hx'; rw [hd x e]; exact h.ident x hx hx'
    · exact Function.update_self ..
    · rw [hother x e] at hx'; rw [hd x e]; exact h.filled x hx hx'
    · rw [hself] at hx'; exact hx'.elim
    · rw [hother x e] at hx'; exact h.range x hx hx'
    · rw [hself] at hx'; simp [Busy] at hx'
    · rw [hother x e] at hx'; exact h.busy x hx c hx'
    · rw [hself] at hx'; simp at hx'
    · rw [hother x e] at hx'; exact h.merging x hx c hx'
    · rw [hself] at hx'; simp at hx'
    · rw [hother x e] at hx'; exact h.done x hx hx'
    · rw [hself] at hx'; exact hx'.elim
    · rw [hother x e] at hx'; rw [hd x e] at hd'; exact h.holds x hx hx' d hd'
    · rw [Function.update_self, ← h.none x hx, h.ident x hx hp]; simp
    · rw [hd x e]; exact h.none x hx
    · rw [Function.update_self] at hx'; simp at hx'
    · rw [hd x e] at hx'; rw [hother x e]; exact h.taken x hx hx'
  | store i hi hp =>
    have hself : Function.update s.pc i .loop i = .loop := Function.update_self ..
    have hother : ∀ x, x ≠ i → Function.update s.pc i .loop x = s.pc x := fun x hx => Function.update_of_ne hx ..
    have hlself : Function.update s.level i (firstLevel n i) i = firstLevel n i := Function.update_self ..
    have hlother : ∀ x, x ≠ i → Function.update s.level i (firstLevel n i) x = s.level x := fun x hx => Function.update_of_ne hx ..
    have hmax := h.start i hi (by rw [hp]; exact id)
    have hsm := first_small hn hi
    have heffi : eff { s with level := Function.update s.level i (firstLevel n i), pc := Function.update s.pc i .loop } i = firstLevel n i := by
      unfold eff; dsimp only; rw [hself, hlself]
    have heff : ∀ x, x ≠ i → eff { s with level := Function.update s.level i (firstLevel n i), pc := Function.update s.pc i .loop } x = eff s x := by
      intro x e; unfold eff; dsimp only; rw [hother x e, hlother x e]
    have hd := h.filled i hi hp
    refine ⟨h.nocrash, fun x hx hx' => ?_, fun x hx hx' => ?_, fun x hx hx' => ?_, fun x hx hx' => ?_, fun x hx c hx' => ?_, fun x hx c hx' => ?_, fun x hx hx' => ?_,
      fun x hx hx' d hd' => ?_, fun x hx => ?_, fun x hx hx' => ?_⟩
    all_goals (try dsimp only at hx'); (try dsimp only at hd')
    · by_cases e : x = i
      · subst e; rw [hself] at hx'; exact absurd trivial hx'
      · rw [hother x e] at hx'; dsimp only; rw [hlother x e]; exact h.start x hx hx'
    · by_cases e : x = i
      · subst e; rw [hself] at hx'; simp at hx'
      · rw [hother x e] at hx'; exact h.ident x hx hx'
    · by_cases e : x = i
      · subst e; rw [hself] at hx'; simp at hx'
      · rw [hother x e] at hx'; exact h.filled x hx hx'
    · dsimp only
      by_cases e : x = i
      · subst e; rw [hlself]; exact ⟨first_size hi, le_refl _⟩
      · rw [hother x e] at hx'; rw [hlother x e]; exact h.range x hx hx'
    · dsimp only
      by_cases e : x = i
      · subst e; rw [hself] at hx'; simp [Busy] at hx'
      · rw [hother x e] at hx'; rw [hlother x e]; exact h.busy x hx c hx'
    · dsimp only
      by_cases e : x = i
      · subst e; rw [hself] at hx'; simp at hx'
      · rw [hother x e] at hx'
        have g := h.merging x hx c hx'
        by_cases e' : partner x c = i
        · rw [e', hmax, maxLevel_eq] at g
          have g1 := (h.busy x hx c (Or.inr (Or.inl hx'))).1
          have g2 := (h.range x hx (by rw [hx']; trivial)).2
          have g3 := first_small hn hx
          omega
        · rw [hlother _ e']; exact g
    · dsimp only
      by_cases e : x = i
      · subst e; rw [hself] at hx'; simp at hx'
      · rw [hother x e] at hx'; rw [hlother x e]; exact h.done x hx hx'
    · by_cases e : x = i
      · subst e
        rw [heffi]
        rw [hd] at hd'
        obtain rfl := Option.some.inj hd'
        refine ⟨(hf x hx).1, (hf x hx).2, fun k v hkv => ⟨x, ⟨hx, Nat.mod_eq_of_lt (Nat.size_le.mp (first_size hx))⟩, hkv⟩, fun j hj k v hkv => ?_, fun k v hkv => hkv⟩
        rw [first_only hj.1 hj.2] at hkv
        exact ⟨v, hkv⟩
      · rw [hother x e] at hx'; rw [heff x e]; exact h.holds x hx hx' d hd'
    · dsimp only
      rw [h.none x hx]
      refine and_congr_right fun h0 => ?_
      by_cases e : parent x = i
      · have h1 := first_child hx h0
        have h2 := size_small hn hx
        rw [e, heffi]
        rw [e] at h1
        have : eff s i = maxLevel := by unfold eff; rw [hp, hmax]
        rw [this, maxLevel_eq]
        omega
      · rw [heff _ e]
    · dsimp only
      have g := h.taken x hx hx'
      by_cases e : x = i
      · subst e; rw [hp] at g; exact g.1.elim
      · rw [hother x e, hlother x e]; exact g
  | finish i hi hp hl =>
    rw [finalLevel_eq] at hl
    exact inv_goto h i .done (by rw [hp]; trivial) trivial (by simp) (by rw [hp]; simp) (fun _ c hb => by simp [Busy] at hb) (by simp) (fun _ _ => hl)
  | next i hi hp hl hn' =>
    rw [finalLevel_eq] at hl
    refine inv_goto h i _ (by rw [hp]; trivial) trivial (by simp) (by rw [hp]; simp) (fun _ c hb => ?_) (by simp) (by simp)
    simp only [Busy, Pc.waiting.injEq, reduceCtorEq, or_false] at hb
    exact ⟨hb.symm, hb ▸ hl⟩
  | nextOut i hi hp hl hn' =>
    rw [finalLevel_eq] at hl
    have := first_partner hi (h.range i hi (by rw [hp]; trivial)).2 hl
    omega
  | ready i c hi hp hl =>
    refine inv_goto h i _ (by rw [hp]; trivial) trivial (by simp) (by rw [hp]; simp) (fun _ c' hb => ?_) (fun c' e => ?_) (by simp)
    · simp only [Busy, Pc.merging.injEq, reduceCtorEq, or_false, false_or] at hb
      subst hb
      exact h.busy i hi c (Or.inl hp)
    · obtain rfl := Pc.merging.inj e
      exact hl
  | mergeMoved i c hi hp hm =>
    obtain ⟨-, -, -, -, -, -, -, -, ⟨d, hd⟩, d', hd'⟩ := inv_merging hn h hi hp
    rcases hm with e | e
    · rw [hd] at e; simp at e
    · rw [hd'] at e; simp at e
  | merge i c mine theirs out exact' hi hp hm ht ho =>
    obtain ⟨g1, g2, g3, g4, g5, g6, g7, g8, -, -⟩ := inv_merging hn h hi hp
    have hself : Function.update s.pc i (.merged c) i = .merged c := Function.update_self ..
    have hother : ∀ x, x ≠ i → Function.update s.pc i (.merged c) x = s.pc x := fun x hx => Function.update_of_ne hx ..
    have hdi : Function.update (Function.update s.data (partner i c) none) i (some out) i = some out := Function.update_self ..
    have hdj : Function.update (Function.update s.data (partner i c) none) i (some out) (partner i c) = none := by
      rw [Function.update_of_ne g4, Function.update_self]
    have hdo : ∀ x, x ≠ i → x ≠ partner i c → Function.update (Function.update s.data (partner i c) none) i (some out) x = s.data x := by
      intro x h1 h2; rw [Function.update_of_ne h1, Function.update_of_ne h2]
    have heffi' : eff s i = c := by unfold eff; rw [hp]; exact g1.symm
    have hrunj : Running (s.pc (partner i c)) := by rcases g7 with e | e <;> rw [e] <;> trivial
    have heffj : eff s (partner i c) = c := by unfold eff; rcases g7 with e | e <;> rw [e] <;> exact g8
    have heffi : eff { s with data := Function.update (Function.update s.data (partner i c) none) i (some out), pc := Function.update s.pc i (.merged c) } i = c - 1 := by
      unfold eff; dsimp only; rw [hself]
    have heff : ∀ x, x ≠ i → eff { s with data := Function.update (Function.update s.data (partner i c) none) i (some out), pc := Function.update s.pc i (.merged c) } x = eff s x := by
      intro x e; unfold eff; dsimp only; rw [hother x e]
    have hri : Running (s.pc i) := by rw [hp]; trivial
    refine ⟨h.nocrash, fun x hx hx' => ?_, fun x hx hx' => ?_, fun x hx hx' => ?_, fun x hx hx' => ?_, fun x hx c' hx' => ?_, fun x hx c' hx' => ?_, fun x hx hx' => ?_,
      fun x hx hx' d hd' => ?_, fun x hx => ?_, fun x hx hx' => ?_⟩
    all_goals (try dsimp only at hx'); (try dsimp only at hd')
    · by_cases e : x = i
      · subst e; rw [hself] at hx'; exact absurd trivial hx'
      · rw [hother x e] at hx'; exact h.start x hx hx'
    · by_cases e : x = i
      · subst e; rw [hself] at hx'; simp at hx'
      · rw [hother x e] at hx'
        dsimp only
        rw [hdo x e (fun e' => by rw [e'] at hx'; rw [hx'] at hrunj; exact hrunj)]
        exact h.ident x hx hx'
    · by_cases e : x = i
      · subst e; rw [hself] at hx'; simp at hx'
      · rw [hother x e] at hx'
        dsimp only
        rw [hdo x e (fun e' => by rw [e'] at hx'; rw [hx'] at hrunj; exact hrunj)]
        exact h.filled x hx hx'
    · by_cases e : x = i
      · subst e; exact h.range x hx hri
      · rw [hother x e] at hx'; exact h.range x hx hx'
    · by_cases e : x = i
      · subst e
        rw [hself] at hx'
        simp only [Busy, Pc.merged.injEq, reduceCtorEq, false_or] at hx'
        subst hx'
        exact ⟨g1, g2⟩
      · rw [hother x e] at hx'; exact h.busy x hx c' hx'
    · by_cases e : x = i
      · subst e; rw [hself] at hx'; simp at hx'
      · rw [hother x e] at hx'; exact h.merging x hx c' hx'
    · by_cases e : x = i
      · subst e; rw [hself] at hx'; simp at hx'
      · rw [hother x e] at hx'; exact h.done x hx hx'
    · by_cases e : x = i
      · subst e
        rw [hdi] at hd'
        obtain rfl := Option.some.inj hd'
        rw [heffi]
        have ha := h.holds x hx hri mine hm
        have hb := h.holds _ g3 hrunj theirs ht
        rw [heffi'] at ha
        rw [heffj] at hb
        exact holds_merge ha hb (fun k => sub_split g2) ho
      · rw [hother x e] at hx'
        by_cases e' : x = partner i c
        · subst e'; rw [hdj] at hd'; simp at hd'
        · rw [hdo x e e'] at hd'; rw [heff x e]; exact h.holds x hx hx' d hd'
    · dsimp only
      by_cases e : x = i
      · subst e
        rw [hdi]
        have hno := h.none x hx
        rw [hm] at hno
        have hpx : x ≠ 0 → parent x ≠ x := by
          intro h0 he
          have := (partner_parent h0).2
          rw [he] at this
          omega
        simp only [reduceCtorEq, false_iff, not_and, not_lt] at hno ⊢
        intro h0
        rw [heff _ (hpx h0)]
        exact hno h0
      · by_cases e' : x = partner i c
        · subst e'
          rw [hdj, g6, g5, heffi]
          simp only [true_iff]
          refine ⟨fun h0 => ?_, by omega⟩
          rw [h0] at g5
          simp at g5
          omega
        · rw [hdo x e e', h.none x hx]
          refine and_congr_right fun h0 => ?_
          by_cases e2 : parent x = i
          · rw [e2, heffi, heffi']
            have h1 := (partner_parent h0).1
            rw [e2] at h1
            have : Nat.size x ≠ c := fun e3 => e' (by rw [← h1, e3])
            omega
          · rw [heff _ e2]
    · dsimp only
      by_cases e : x = i
      · subst e; rw [hdi] at hx'; simp at hx'
      · rw [hother x e]
        by_cases e' : x = partner i c
        · subst e'; exact ⟨hrunj, by omega⟩
        · rw [hdo x e e'] at hx'; exact h.taken x hx hx'
  | lower i c hi hp =>
    obtain ⟨g1, g2⟩ := h.busy i hi c (Or.inr (Or.inr hp))
    have hri : Running (s.pc i) := by rw [hp]; trivial
    have hr := h.range i hi hri
    have hself : Function.update s.pc i .loop i = .loop := Function.update_self ..
    have hother : ∀ x, x ≠ i → Function.update s.pc i .loop x = s.pc x := fun x hx => Function.update_of_ne hx ..
    have hlself : Function.update s.level i (s.level i - 1) i = s.level i - 1 := Function.update_self ..
    have hlother : ∀ x, x ≠ i → Function.update s.level i (s.level i - 1) x = s.level x := fun x hx => Function.update_of_ne hx ..
    have heff : ∀ x, eff { s with level := Function.update s.level i (s.level i - 1), pc := Function.update s.pc i .loop } x = eff s x := by
      intro x
      unfold eff; dsimp only
      by_cases e : x = i
      · subst e; rw [hself, hlself, hp]; dsimp only; omega
      · rw [hother x e, hlother x e]
    refine ⟨h.nocrash, fun x hx hx' => ?_, fun x hx hx' => ?_, fun x hx hx' => ?_, fun x hx hx' => ?_, fun x hx c' hx' => ?_, fun x hx c' hx' => ?_, fun x hx hx' => ?_,
      fun x hx hx' d hd' => ?_, fun x hx => ?_, fun x hx hx' => ?_⟩
    all_goals (try dsimp only at hx'); (try dsimp only at hd'); (try rw [heff]); (try dsimp only)
    · by_cases e : x = i
      · subst e; rw [hself] at hx'; exact absurd trivial hx'
      · rw [hother x e] at hx'; rw [hlother x e]; exact h.start x hx hx'
    · by_cases e : x = i
      · subst e; rw [hself] at hx'; simp at hx'
      · rw [hother x e] at hx'; exact h.ident x hx hx'
    · by_cases e : x = i
      · subst e; rw [hself] at hx'; simp at hx'
      · rw [hother x e] at hx'; exact h.filled x hx hx'
    · by_cases e : x = i
      · subst e; rw [hlself]; omega
      · rw [hother x e] at hx'; rw [hlother x e]; exact h.range x hx hx'
    · by_cases e : x = i
      · subst e; rw [hself] at hx'; simp [Busy] at hx'
      · rw [hother x e] at hx'; rw [hlother x e]; exact h.busy x hx c' hx'
    · by_cases e : x = i
      · subst e; rw [hself] at hx'; simp at hx'
      · rw [hother x e] at hx'
        have g := h.merging x hx c' hx'
        by_cases e' : partner x c' = i
        · rw [e'] at g ⊢; rw [hlself]; omega
        · rw [hlother _ e']; exact g
    · by_cases e : x = i
      · subst e; rw [hself] at hx'; simp at hx'
      · rw [hother x e] at hx'; rw [hlother x e]; exact h.done x hx hx'
    · by_cases e : x = i
      · subst e; exact h.holds x hx hri d hd'
      · rw [hother x e] at hx'; exact h.holds x hx hx' d hd'
    · exact h.none x hx
    · have g := h.taken x hx hx'
      by_cases e : x = i
      · subst e; omega
      · rw [hother x e, hlother x e]; exact g

theorem reach_inv (hn : n < 2 ^ 64) (hf : ∀ j < n, C44.Sorted (found j) ∧ C44.Unsigned (found j)) {s : State V}
    (h : Relation.ReflTransGen (Step n found) initial s) : Inv n found s := by
  induction h with
  | refl => exact initial_inv hn
  | tail _ hs ih => exact step_inv hn hf hs ih

end Moment.Workers
