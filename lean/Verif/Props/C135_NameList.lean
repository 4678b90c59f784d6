import Verif.Model.NameList
import Verif.Props.C44_Helpers
import Verif.Props.C129_RulesInput

/-! # C135: arrays of numbers are named entry by entry -/

namespace Moment.C135
open Moment.RuleInput (Out)
open Moment.NameList Moment.PolyInput

/-! ## Specification -/

/-- Code of the first letter. -/
def first (upper : Bool) : Nat := if upper then 65 else 97

/-- A text of letters of the case that was asked for. -/
def Letters (upper : Bool) (t : List Nat) : Prop := t ≠ [] ∧ ∀ c ∈ t, first upper ≤ c ∧ c < first upper + 26

/-- The place of a text in the list A, B, ..., Z, AA, AB, ..., counted from one. -/
def place (upper : Bool) (t : List Nat) : Nat := t.foldl (fun a c => 26 * a + (c - first upper + 1)) 0

/-- The text is the one that belongs to the number `k`, counted from zero or from one. -/
def Named (f : Flags) (k : Int) (t : List Nat) : Prop := Letters f.upper t ∧ (place f.upper t : Int) = if f.zero then k + 1 else k

/-- Numbers that have a name. -/
def Fits (f : Flags) (k : Int) : Prop := (if f.zero then 0 else 1) ≤ k ∧ k < 2 ^ 64

/-! ## Steps -/

theorem place_name (f : Flags) (id : Nat) : Letters f.upper (name f id) ∧ place f.upper (name f id) = id + 1 := by
  obtain ⟨h1, h2⟩ := C46.C46_number id
  have hp : place f.upper (name f id) = C46.number (Util.alphabeticName id) := by
    unfold place name C46.number first
    rw [List.foldl_map]
    congr 1
    funext a d
    simp
  refine ⟨⟨fun h => ?_, fun c hc => ?_⟩, hp.trans h1⟩
  · rw [h] at hp
    rw [h1] at hp
    simp [place] at hp
  · obtain ⟨d, hd, rfl⟩ := List.mem_map.mp hc
    have := h2 d hd
    unfold first
    omega

theorem named_unique {f : Flags} {k : Int} {t t' : List Nat} (h : Named f k t) (h' : Named f k t') : t = t' := by
  have key : ∀ u, Letters f.upper u → C46.number (u.map (· - first f.upper)) = place f.upper u ∧ (∀ d ∈ u.map (· - first f.upper), d < 26) ∧
      (u.map (· - first f.upper)).map (· + first f.upper) = u := by
    intro u hu
    refine ⟨by unfold place C46.number; rw [List.foldl_map], fun d hd => ?_, ?_⟩
    · obtain ⟨c, hc, rfl⟩ := List.mem_map.mp hd
      have := hu.2 c hc
      omega
    · rw [List.map_map]
      conv_rhs => rw [← List.map_id u]
      refine List.map_congr_left fun c hc => ?_
      have := hu.2 c hc
      simp only [Function.comp_apply, id_eq]
      omega
  obtain ⟨a1, a2, a3⟩ := key t h.1
  obtain ⟨b1, b2, b3⟩ := key t' h'.1
  have e : place f.upper t = place f.upper t' := by
    have := h.2.trans h'.2.symm
    exact_mod_cast this
  rw [← a3, ← b3, C46.number_inj _ _ a2 b2 (by rw [a1, b1, e])]

theorem step {f : Flags} {k : Nat} (hk : Fits f k) : ∃ t, ((shift f k).bind fun id => Out.ok (name f id)) = .ok t ∧ Named f k t := by
  unfold Fits at hk
  unfold shift
  cases hz : f.zero with
  | true =>
    refine ⟨name f k, by simp [Out.bind], (place_name f k).1, ?_⟩
    rw [(place_name f k).2, hz]
    simp
  | false =>
    rw [hz] at hk
    simp only [Bool.false_eq_true, if_false] at hk ⊢
    rw [if_neg (show ¬k < 1 by omega)]
    refine ⟨name f (k - 1), rfl, (place_name f _).1, ?_⟩
    rw [(place_name f _).2, hz]
    simp only [Bool.false_eq_true, if_false]
    omega

theorem fits_range {f : Flags} {k : Int} (hk : Fits f k) : 0 ≤ k ∧ k < 2 ^ 64 := by
  unfold Fits at hk
  refine ⟨?_, hk.2⟩
  have := hk.1
  split at this <;> omega

theorem castInt_ok {k : Int} (h : 0 ≤ k ∧ k < 2 ^ 64) : castInt k = .ok k.toNat := by
  unfold castInt
  rw [Int.emod_eq_of_lt h.1 h.2]

theorem castDouble_ok {x : ℝ} (h : 0 ≤ towardsZero x ∧ towardsZero x < 2 ^ 64) : castDouble x = .ok (towardsZero x).toNat := by
  unfold castDouble
  rw [if_neg (by omega)]

theorem each_named {α : Type} {f : Flags} {cast : α → Out Nat} {v : α → Int} {l : List α} (hc : ∀ x ∈ l, cast x = .ok (v x).toNat) (hf : ∀ x ∈ l, Fits f (v x)) :
    ∃ ts, dense f cast l = .ok ts ∧ List.Forall₂ (fun x t => Named f (v x) t) l ts := by
  unfold dense
  induction l with
  | nil => exact ⟨[], rfl, .nil⟩
  | cons x l ih =>
    obtain ⟨ts, h1, h2⟩ := ih (fun y hy => hc y (by simp [hy])) fun y hy => hf y (by simp [hy])
    have hx := hf x (by simp)
    have e : (((v x).toNat : Nat) : Int) = v x := Int.toNat_of_nonneg (fits_range hx).1
    obtain ⟨t, ht, hn⟩ := step (f := f) (k := (v x).toNat) (by rw [e]; exact hx)
    rw [e] at hn
    refine ⟨t :: ts, ?_, .cons hn h2⟩
    unfold Out.each
    rw [h1, hc x (by simp)]
    simp only [Out.bind] at ht ⊢
    rw [ht]

/-! ## Theorems -/

/-- An array of integers that have names becomes an array of the same shape with the names; different numbers get different names. -/
theorem C135_ints {f : Flags} {s : List Nat} {l : List Int} (hl : l.length ≠ 1) (h : ∀ k ∈ l, Fits f k) :
    ∃ ts, run f s (.ints l) = .ok (.array s ts) ∧ List.Forall₂ (fun k t => Named f k t) l ts := by
  obtain ⟨ts, h1, h2⟩ := each_named (cast := castInt) (v := id) (fun k hk => castInt_ok (fits_range (h k hk))) h
  refine ⟨ts, ?_, h2⟩
  match l, hl with
  | [], _ => simp only [run, h1, Out.bind]
  | _ :: _ :: _, _ => simp only [run, h1, Out.bind]

/-- Floating point numbers are named as the integers towards zero. -/
theorem C135_doubles {f : Flags} {s : List Nat} {l : List ℝ} (hl : l.length ≠ 1) (h : ∀ x ∈ l, Fits f (towardsZero x)) :
    ∃ ts, run f s (.doubles l) = .ok (.array s ts) ∧ List.Forall₂ (fun x t => Named f (towardsZero x) t) l ts := by
  obtain ⟨ts, h1, h2⟩ := each_named (cast := castDouble) (v := towardsZero) (fun x hx => castDouble_ok (fits_range (h x hx))) h
  refine ⟨ts, ?_, h2⟩
  match l, hl with
  | [], _ => simp only [run, h1, Out.bind]
  | _ :: _ :: _, _ => simp only [run, h1, Out.bind]

/-- A single integer of 64 bits becomes its name if it has one, and else is refused. -/
theorem C135_single (f : Flags) (s : List Nat) {k : Int} (hk : k < 2 ^ 64) :
    (Fits f k → ∃ t, run f s (.ints [k]) = .ok (.text t) ∧ Named f k t) ∧ (¬Fits f k → run f s (.ints [k]) = .refused) := by
  refine ⟨fun h => ?_, fun h => ?_⟩
  · obtain ⟨h0, h1⟩ := fits_range h
    have e : ((k.toNat : Nat) : Int) = k := Int.toNat_of_nonneg h0
    obtain ⟨t, ht, hn⟩ := step (f := f) (k := k.toNat) (by rw [e]; exact h)
    rw [e] at hn
    refine ⟨t, ?_, hn⟩
    simp only [run, readInt]
    rw [if_neg (by omega), castInt_ok ⟨h0, h1⟩]
    simp only [Out.bind] at ht ⊢
    cases hs : shift f k.toNat with
    | ok id => rw [hs] at ht; simp only [Out.ok.injEq] at ht ⊢; rw [ht]
    | refused => rw [hs] at ht; simp at ht
    | undefined => rw [hs] at ht; simp at ht
  · simp only [run, readInt]
    by_cases h0 : k < 0
    · rw [if_pos h0]; rfl
    · rw [if_neg h0, castInt_ok ⟨by omega, hk⟩]
      unfold Fits at h
      cases hz : f.zero with
      | true => rw [hz] at h; simp at h; omega
      | false =>
        rw [hz] at h
        simp only [Bool.false_eq_true, if_false, not_and, not_lt] at h
        have : k = 0 := by by_contra hne; have := h (by omega); omega
        subst this
        simp [Out.bind, shift, hz]

/-- The name is determined by the number, and the number by the name. -/
theorem C135_unique (f : Flags) : (∀ k t t', Named f k t → Named f k t' → t = t') ∧ ∀ k k' t, Named f k t → Named f k' t → k = k' := by
  refine ⟨fun k t t' h h' => named_unique h h', fun k k' t h h' => ?_⟩
  have := h.2.symm.trans h'.2
  split at this <;> omega

/-- If a number of an array of integers is zero, and counting begins with one, the array is refused. -/
theorem C135_zero {f : Flags} (hz : f.zero = false) (s : List Nat) {l : List Int} (hl : l.length ≠ 1) (h : 0 ∈ l) : run f s (.ints l) = .refused := by
  have hd : dense f castInt l = .refused := by
    refine C129.each_refused (fun x _ => ?_) ⟨0, h, ?_⟩
    · simp only [castInt, Out.bind, shift, hz, Bool.false_eq_true, if_false]
      by_cases hx : (x % 2 ^ 64).toNat < 1
      · simp only [if_pos hx]; exact fun e => by cases e
      · simp only [if_neg hx]; exact fun e => by cases e
    · simp [castInt, Out.bind, shift, hz]
  match l, hl with
  | [], _ => simp at h
  | _ :: _ :: _, _ => simp only [run, hd, Out.bind]

/-- Negative numbers are refused if they are given alone, but not in arrays: integers get the name of another number, and floating point numbers give undefined
behaviour. -/
theorem C135_refuted_negative (f : Flags) (s : List Nat) :
    run f s (.ints [-1]) = .refused ∧ (∃ t t', run f s (.ints [-1, 1]) = .ok (.array s [t, t']) ∧ Named f (2 ^ 64 - 1) t ∧ Named f 1 t') ∧
    run f s (.doubles [-1]) = .refused ∧ run f s (.doubles [-1, 1]) = .undefined := by
  have hc : castInt (-1) = .ok ((2 ^ 64 - 1 : Int)).toNat := by unfold castInt; norm_num
  refine ⟨by simp [run, readInt, Out.bind], ?_, ?_, ?_⟩
  · obtain ⟨ts, h1, h2⟩ := each_named (f := f) (cast := castInt) (v := fun k => if k = -1 then 2 ^ 64 - 1 else k) (l := [-1, 1])
      (by
        intro x hx
        rcases List.mem_cons.mp hx with rfl | hx
        · rw [if_pos rfl, hc]
        · rw [List.mem_singleton.mp hx]
          exact castInt_ok (by norm_num))
      (by
        intro x hx
        rcases List.mem_cons.mp hx with rfl | hx
        · rw [if_pos rfl]; unfold Fits; split <;> norm_num
        · rw [List.mem_singleton.mp hx]; unfold Fits; split <;> norm_num)
    obtain ⟨t, u, ha, h3, rfl⟩ := List.forall₂_cons_left_iff.mp h2
    obtain ⟨t', u, hb, h4, rfl⟩ := List.forall₂_cons_left_iff.mp h3
    cases h4
    exact ⟨t, t', by simp only [run, h1, Out.bind], by simpa using ha, by simpa using hb⟩
  · simp [run, readDouble, Out.bind]
  · have ht : towardsZero (-1) = -1 := by
      unfold towardsZero
      rw [if_neg (by norm_num)]
      exact_mod_cast Int.ceil_intCast (-1)
    have : castDouble (-1) = .undefined := by
      unfold castDouble
      rw [ht, if_pos (by norm_num)]
    simp only [run, dense, Out.each, this, Out.bind]

/-! ## Examples -/

example : Fits ⟨true, false⟩ 1 ∧ Fits ⟨true, true⟩ 0 ∧ ¬Fits ⟨true, false⟩ 0 := by unfold Fits; decide

example : Named ⟨true, false⟩ 28 [65, 66] ∧ Named ⟨false, true⟩ 27 [97, 98] := by
  unfold Named Letters place first
  decide

end Moment.C135
