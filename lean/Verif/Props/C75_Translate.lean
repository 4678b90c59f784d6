import Verif.Proof.Translate
import Mathlib.Tactic.LinearCombination

/-! # C75: Pauli words on open chains and lattices are simplified up to translation -/

namespace Moment.C75

open Moment.Translate
open Moment.Pauli (Normal)

/-- Two words on an open chain have the same simplified word exactly if they are translates of each other. -/
theorem C75_chain {w v : List Nat} (hw : Normal w) (hv : Normal v) : chainCanonical w = chainCanonical v ↔ ChainClass w v := by
  refine ⟨fun h => ?_, chainCanonical_unique hw hv⟩
  have h1 : ChainClass w (chainCanonical w) := ⟨_, chainCanonical_moved hw⟩
  have h2 : ChainClass v (chainCanonical v) := ⟨_, chainCanonical_moved hv⟩
  rw [← h] at h2
  exact h1.trans h2.symm

/-- The simplified word is a translate of the word, in normal form, and on the same qubits or earlier ones; `is_canonical` tells whether it is the word
itself. -/
theorem C75_chain_form {w : List Nat} (hw : Normal w) : Normal (chainCanonical w) ∧ ChainClass w (chainCanonical w) ∧
    (∀ n, (∀ o ∈ w, o < 3 * n) → ∀ o ∈ chainCanonical w, o < 3 * n) ∧ (chainIsCanonical w = true ↔ chainCanonical w = w) ∧
    chainCanonical (chainCanonical w) = chainCanonical w := by
  refine ⟨chainCanonical_normal hw, ⟨_, chainCanonical_moved hw⟩, ?_, ?_, ?_⟩
  · intro n h o ho
    rw [chainCanonical_eq] at ho
    obtain ⟨x, hx, rfl⟩ := List.mem_map.mp ho
    have := h x hx
    omega
  · rw [chainCanonical_eq]
    cases w with
    | nil => simp [chainIsCanonical]
    | cons o l =>
      simp only [chainIsCanonical, chainMinimum, decide_eq_true_eq]
      constructor
      · intro h
        have : 3 * (o / 3) = 0 := by omega
        simp [this]
      · intro h
        simp only [List.map_cons, List.cons.injEq] at h
        omega
  · exact (chainCanonical_unique hw (chainCanonical_normal hw) ⟨_, chainCanonical_moved hw⟩).symm

example : Normal [4, 8] ∧ Normal [1, 5] ∧ chainCanonical [4, 8] = [1, 5] ∧ chainCanonical [4, 11] ≠ [1, 5] := by
  unfold Normal; decide +kernel

/-- Two words on an open lattice have the same simplified word exactly if they are translates of each other. -/
theorem C75_lattice {h : Nat} (hh : 0 < h) {w v : List Nat} (hw : Normal w) (hv : Normal v) :
    latticeCanonical h w = latticeCanonical h v ↔ LatticeClass h w v := by
  refine ⟨fun e => ?_, latticeCanonical_unique hh hw hv⟩
  have h1 : LatticeClass h w (latticeCanonical h w) := ⟨_, _, latticeCanonical_moved hh hw⟩
  have h2 : LatticeClass h v (latticeCanonical h v) := ⟨_, _, latticeCanonical_moved hh hv⟩
  rw [← e] at h2
  exact h1.trans h2.symm

theorem latticeIsCanonical_iff {h : Nat} (hh : 0 < h) {w : List Nat} (hw : Normal w) :
    latticeIsCanonical h w = true ↔ (latticeMinimum h w).1 = 0 ∧ (latticeMinimum h w).2 = 0 := by
  cases hc : w with
  | nil => simp [latticeIsCanonical, latticeMinimum]
  | cons o l =>
    rw [← hc]
    have hne : w ≠ [] := by simp [hc]
    have hcol : (latticeMinimum h w).2 = o / (h * 3) := by simp [hc, latticeMinimum]
    have hdef : latticeIsCanonical h w = if o / (h * 3) > 0 then false else w.any fun o => decide (o / 3 % h = 0) := by
      simp [hc, latticeIsCanonical]
    rw [hdef, hcol]
    split
    · next hpos =>
      have hz : o / (h * 3) ≠ 0 := Nat.ne_of_gt hpos
      simp only [hz, and_false, Bool.false_eq_true]
    · next hpos =>
      have : o / (h * 3) = 0 := by omega
      simp only [this, and_true, List.any_eq_true, decide_eq_true_eq]
      constructor
      · rintro ⟨x, hx, e⟩
        have := (latticeMinimum_le (h := h) hw (has_mem.mp hx)).1
        omega
      · intro hz
        obtain ⟨⟨q, p, hq, e⟩, -⟩ := latticeMinimum_has (h := h) hne
        refine ⟨_, hq.2, ?_⟩
        have : (3 * q + p) / 3 = q := by have := hq.1; omega
        rw [this, ← e, hz]

/-- The simplified word is a translate of the word, in normal form, and on the same rows and columns or earlier ones; `is_canonical` tells whether it is
the word itself. -/
theorem C75_lattice_form {h : Nat} (hh : 0 < h) {w : List Nat} (hw : Normal w) : Normal (latticeCanonical h w) ∧
    LatticeClass h w (latticeCanonical h w) ∧ (∀ k, (∀ o ∈ w, o < 3 * (h * k)) → ∀ o ∈ latticeCanonical h w, o < 3 * (h * k)) ∧
    (latticeIsCanonical h w = true ↔ latticeCanonical h w = w) ∧ latticeCanonical h (latticeCanonical h w) = latticeCanonical h w := by
  refine ⟨latticeCanonical_normal hh hw, ⟨_, _, latticeCanonical_moved hh hw⟩, ?_, ?_, ?_⟩
  · intro n hb o ho
    rw [latticeCanonical_eq] at ho
    obtain ⟨x, hx, rfl⟩ := List.mem_map.mp ho
    have := hb x hx
    omega
  · rw [latticeIsCanonical_iff hh hw]
    constructor
    · intro hz
      simp [latticeCanonical, hz.1, hz.2]
    · intro e
      by_cases hne : w = []
      · simp [hne, latticeMinimum]
      · have := latticeMinimum_moved hw (latticeCanonical_normal hh hw) (latticeCanonical_moved hh hw) hne
        rw [e] at this
        omega
  · exact (latticeCanonical_unique hh hw (latticeCanonical_normal hh hw) ⟨_, _, latticeCanonical_moved hh hw⟩).symm

example : Normal [13, 21] ∧ latticeCanonical 3 [13, 21] = [1, 9] ∧ latticeCanonical 3 [10, 18] = [1, 9] ∧ latticeCanonical 3 [13, 24] ≠ [1, 9] := by
  unfold Normal; decide +kernel

/-! ## Sizes -/

/-- The number is the least bound of the values. -/
def Least (P : Nat → Prop) (m : Nat) : Prop := (∀ q, P q → q < m) ∧ ∀ n, (∀ q, P q → q < n) → m ≤ n

theorem getLast_max {w : List Nat} (hw : Normal w) {o : Nat} (ho : w.getLast? = some o) {x : Nat} (hx : x ∈ w) : x / 3 ≤ o / 3 := by
  obtain ⟨l, rfl⟩ : ∃ l, w = l ++ [o] := by
    rw [List.getLast?_eq_some_iff] at ho
    exact ho
  rcases List.mem_append.mp hx with hx | hx
  · have := (List.pairwise_append.mp hw).2.2 x hx o (by simp)
    omega
  · simp at hx
    rw [hx]

theorem has_div {w : List Nat} {q p : Nat} (h : Has w q p) : ∃ o ∈ w, o / 3 = q := ⟨_, h.2, by have := h.1; omega⟩

/-- `chain_supremum` is one more than the last qubit of a word or a polynomial. -/
theorem C75_chain_supremum :
    (∀ {w : List Nat}, Normal w → Least (fun q => ∃ p, Has w q p) (chainSupremum w)) ∧
    (∀ {l : List (List Nat)}, (∀ w ∈ l, Normal w) → Least (fun q => ∃ w ∈ l, ∃ p, Has w q p) (chainSupremumAll l)) := by
  have one : ∀ {w : List Nat}, Normal w → Least (fun q => ∃ p, Has w q p) (chainSupremum w) := by
    intro w hw
    unfold chainSupremum
    cases ho : w.getLast? with
    | none =>
      have : w = [] := List.getLast?_eq_none_iff.mp ho
      subst this
      exact ⟨by rintro q ⟨p, -, h⟩; simp at h, fun n _ => Nat.zero_le _⟩
    | some o =>
      refine ⟨?_, ?_⟩
      · rintro q ⟨p, h⟩
        obtain ⟨x, hx, rfl⟩ := has_div h
        have := getLast_max hw ho hx
        simp only
        omega
      · intro n hn
        exact hn (o / 3) ⟨o % 3, has_mem.mp (List.mem_of_getLast? ho)⟩
  refine ⟨one, ?_⟩
  intro l hl
  have e : ∀ (l : List (List Nat)) (m : Nat), l.foldl (fun m w => match w.getLast? with
      | none => m
      | some o => max m (1 + o / 3)) m = l.foldl (fun m w => max m (chainSupremum w)) m := by
    intro l
    induction l with
    | nil => intro m; rfl
    | cons w l ih =>
      intro m
      simp only [List.foldl_cons]
      rw [ih]
      congr 1
      unfold chainSupremum
      cases w.getLast? with
      | none => simp
      | some o => simp only; omega
  have main : ∀ (l : List (List Nat)) (m : Nat), (∀ w ∈ l, Normal w) →
      (m ≤ l.foldl (fun m w => max m (chainSupremum w)) m ∧ (∀ w ∈ l, chainSupremum w ≤ l.foldl (fun m w => max m (chainSupremum w)) m)) ∧
      ∀ n, m ≤ n → (∀ w ∈ l, chainSupremum w ≤ n) → l.foldl (fun m w => max m (chainSupremum w)) m ≤ n := by
    intro l
    induction l with
    | nil => intro m _; simp
    | cons w l ih =>
      intro m hl
      obtain ⟨⟨h1, h2⟩, h3⟩ := ih (max m (chainSupremum w)) fun w hw => hl w (by simp [hw])
      simp only [List.foldl_cons]
      refine ⟨⟨by omega, ?_⟩, ?_⟩
      · intro x hx
        rcases List.mem_cons.mp hx with rfl | hx
        · omega
        · exact h2 x hx
      · intro n hm hn
        refine h3 n ?_ fun x hx => hn x (by simp [hx])
        have := hn w (by simp)
        omega
  have e0 : chainSupremumAll l = l.foldl (fun m w => max m (chainSupremum w)) 0 := e l 0
  rw [e0]
  obtain ⟨⟨-, h2⟩, h3⟩ := main l 0 hl
  refine ⟨?_, ?_⟩
  · rintro q ⟨w, hw, p, h⟩
    exact Nat.lt_of_lt_of_le ((one (hl w hw)).1 q ⟨p, h⟩) (h2 w hw)
  · intro n hn
    exact h3 n (Nat.zero_le _) fun w hw => (one (hl w hw)).2 n fun q ⟨p, h⟩ => hn q ⟨w, hw, p, h⟩

example : chainSupremum [4, 11] = 4 ∧ chainSupremumAll [[1], [4, 11], []] = 4 := by decide +kernel

theorem foldl_max_least (f : Nat → Nat) : ∀ (l : List Nat) (a : Nat), let r := l.foldl (fun m o => max m (f o + 1)) a
    a ≤ r ∧ (∀ o ∈ l, f o < r) ∧ ∀ n, a ≤ n → (∀ o ∈ l, f o < n) → r ≤ n
  | [], a => by simp
  | x :: l, a => by
    obtain ⟨h1, h2, h3⟩ := foldl_max_least f l (max a (f x + 1))
    simp only [List.foldl_cons]
    refine ⟨by omega, ?_, ?_⟩
    · intro o ho
      rcases List.mem_cons.mp ho with rfl | ho
      · omega
      · exact h2 o ho
    · intro n ha hn
      refine h3 n ?_ fun o ho => hn o (by simp [ho])
      have := hn x (by simp)
      omega

theorem latticeSupremum_spec {h : Nat} {w : List Nat} (hw : Normal w) :
    Least (fun r => ∃ q p, Has w q p ∧ r = q % h) (latticeSupremum h w).1 ∧ Least (fun c => ∃ q p, Has w q p ∧ c = q / h) (latticeSupremum h w).2 := by
  cases hc : w with
  | nil =>
    refine ⟨⟨?_, fun n _ => Nat.zero_le _⟩, ⟨?_, fun n _ => Nat.zero_le _⟩⟩ <;>
    · rintro q ⟨_, p, ⟨-, h⟩, -⟩
      simp at h
  | cons o l =>
    have e : ∀ a, l.foldl (fun m o => max m (1 + o / 3 % h)) a = l.foldl (fun m o => max m (o / 3 % h + 1)) a := by
      intro a
      congr 1
      funext m o
      rw [Nat.add_comm]
    obtain ⟨h1, h2, h3⟩ := foldl_max_least (fun o => o / 3 % h) l (o / 3 % h + 1)
    have hlast : w.getLast? = some (w.getLastD 0) := by rw [hc]; simp [List.getLast?_cons]
    refine ⟨⟨?_, ?_⟩, ⟨?_, ?_⟩⟩
    · rintro r ⟨q, p, hq, rfl⟩
      obtain ⟨x, hx, rfl⟩ := has_div hq
      simp only [latticeSupremum]
      rw [e]
      rcases List.mem_cons.mp hx with rfl | hx
      · omega
      · exact h2 x hx
    · intro n hn
      simp only [latticeSupremum]
      rw [e]
      refine h3 n (hn _ ⟨o / 3, o % 3, has_mem.mp (by simp), rfl⟩) fun x hx => hn _ ⟨x / 3, x % 3, has_mem.mp (by simp [hx]), rfl⟩
    · rintro c ⟨q, p, hq, rfl⟩
      obtain ⟨x, hx, rfl⟩ := has_div hq
      rw [← hc] at hx
      have := getLast_max hw hlast hx
      simp only [latticeSupremum, ← hc, div_col]
      have : x / 3 / h ≤ w.getLastD 0 / 3 / h := Nat.div_le_div_right this
      omega
    · intro n hn
      simp only [latticeSupremum, ← hc, div_col]
      have := hn (w.getLastD 0 / 3 / h) ⟨_, _, has_mem.mp (hc ▸ List.mem_of_getLast? hlast), rfl⟩
      omega

/-- `lattice_supremum` gives one more than the last row and one more than the last column of a word, of a polynomial, and of a sorted list of sites. -/
theorem C75_lattice_supremum (h : Nat) :
    (∀ {w : List Nat}, Normal w → Least (fun r => ∃ q p, Has w q p ∧ r = q % h) (latticeSupremum h w).1 ∧
      Least (fun c => ∃ q p, Has w q p ∧ c = q / h) (latticeSupremum h w).2) ∧
    (∀ {l : List (List Nat)}, (∀ w ∈ l, Normal w) → Least (fun r => ∃ w ∈ l, ∃ q p, Has w q p ∧ r = q % h) (latticeSupremumAll h l).1 ∧
      Least (fun c => ∃ w ∈ l, ∃ q p, Has w q p ∧ c = q / h) (latticeSupremumAll h l).2) ∧
    (∀ {s : List Nat}, s.Pairwise (· < ·) → Least (fun r => ∃ q ∈ s, r = q % h) (siteSupremum h s).1 ∧
      Least (fun c => ∃ q ∈ s, c = q / h) (siteSupremum h s).2) := by
  refine ⟨latticeSupremum_spec, ?_, ?_⟩
  · intro l hl
    have main : ∀ (l : List (List Nat)) (m : Nat × Nat), (∀ w ∈ l, Normal w) →
        let r := l.foldl (fun m w => (max m.1 (latticeSupremum h w).1, max m.2 (latticeSupremum h w).2)) m
        (m.1 ≤ r.1 ∧ m.2 ≤ r.2 ∧ (∀ w ∈ l, (latticeSupremum h w).1 ≤ r.1 ∧ (latticeSupremum h w).2 ≤ r.2)) ∧
        (∀ n, m.1 ≤ n → (∀ w ∈ l, (latticeSupremum h w).1 ≤ n) → r.1 ≤ n) ∧ ∀ n, m.2 ≤ n → (∀ w ∈ l, (latticeSupremum h w).2 ≤ n) → r.2 ≤ n := by
      intro l
      induction l with
      | nil => intro m _; simp
      | cons w l ih =>
        intro m hl
        obtain ⟨⟨h1, h1', h2⟩, h3, h4⟩ := ih (max m.1 (latticeSupremum h w).1, max m.2 (latticeSupremum h w).2) fun w hw => hl w (by simp [hw])
        simp only [List.foldl_cons]
        simp only at h1 h1'
        refine ⟨⟨by omega, by omega, ?_⟩, ?_, ?_⟩
        · intro x hx
          rcases List.mem_cons.mp hx with rfl | hx
          · omega
          · exact h2 x hx
        · intro n hm hn
          refine h3 n ?_ fun x hx => hn x (by simp [hx])
          have := hn w (by simp)
          simp only
          omega
        · intro n hm hn
          refine h4 n ?_ fun x hx => hn x (by simp [hx])
          have := hn w (by simp)
          simp only
          omega
    obtain ⟨⟨-, -, h2⟩, h3, h4⟩ := main l (0, 0) hl
    refine ⟨⟨?_, ?_⟩, ⟨?_, ?_⟩⟩
    · rintro r ⟨w, hw, q, p, hq⟩
      exact Nat.lt_of_lt_of_le ((latticeSupremum_spec (hl w hw)).1.1 r ⟨q, p, hq⟩) (h2 w hw).1
    · intro n hn
      exact h3 n (Nat.zero_le _) fun w hw => (latticeSupremum_spec (hl w hw)).1.2 n fun r ⟨q, p, hq⟩ => hn r ⟨w, hw, q, p, hq⟩
    · rintro r ⟨w, hw, q, p, hq⟩
      exact Nat.lt_of_lt_of_le ((latticeSupremum_spec (hl w hw)).2.1 r ⟨q, p, hq⟩) (h2 w hw).2
    · intro n hn
      exact h4 n (Nat.zero_le _) fun w hw => (latticeSupremum_spec (hl w hw)).2.2 n fun r ⟨q, p, hq⟩ => hn r ⟨w, hw, q, p, hq⟩
  · intro s hs
    cases hc : s with
    | nil => exact ⟨⟨by simp, fun n _ => Nat.zero_le _⟩, ⟨by simp, fun n _ => Nat.zero_le _⟩⟩
    | cons q l =>
      obtain ⟨h1, h2, h3⟩ := foldl_max_least (fun o => o % h) l (q % h + 1)
      obtain ⟨t, ht⟩ : ∃ t, s = t ++ [s.getLastD 0] := by
        have hlast : s.getLast? = some (s.getLastD 0) := by rw [hc]; simp [List.getLast?_cons]
        exact List.getLast?_eq_some_iff.mp hlast
      refine ⟨⟨?_, ?_⟩, ⟨?_, ?_⟩⟩
      · rintro r ⟨x, hx, rfl⟩
        simp only [siteSupremum]
        rcases List.mem_cons.mp hx with rfl | hx
        · omega
        · exact h2 x hx
      · intro n hn
        exact h3 n (hn _ ⟨q, by simp, rfl⟩) fun x hx => hn _ ⟨x, by simp [hx], rfl⟩
      · rintro c ⟨x, hx, rfl⟩
        rw [← hc, ht] at hx
        have hle : x ≤ s.getLastD 0 := by
          rcases List.mem_append.mp hx with hx | hx
          · rw [ht] at hs
            exact Nat.le_of_lt ((List.pairwise_append.mp hs).2.2 x hx _ (by simp))
          · simp only [List.mem_singleton] at hx
            rw [hx]
        simp only [siteSupremum, ← hc]
        have : x / h ≤ s.getLastD 0 / h := Nat.div_le_div_right hle
        omega
      · intro n hn
        simp only [siteSupremum, ← hc]
        have := hn _ ⟨s.getLastD 0, by rw [← hc, ht]; simp, rfl⟩
        omega

example : latticeSupremum 3 [4, 11] = (2, 2) ∧ siteSupremum 3 [1, 3, 7] = (2, 3) ∧ latticeSupremumAll 3 [[4, 11], [7]] = (3, 2) := by decide +kernel

/-! ## Offsets -/

/-- An offset that keeps all letters on the chain translates the word by it. -/
theorem C75_chain_offset {w : List Nat} (hw : Normal w) {d : Int} (hd : ∀ q p, Has w q p → 0 ≤ (q : Int) + d) :
    MovedBy (ChainStep d) w (chainOffset w d) ∧ Normal (chainOffset w d) := by
  have mem : ∀ o ∈ w, 0 ≤ ((o / 3 : Nat) : Int) + d := fun o ho => hd _ _ (has_mem.mp ho)
  refine ⟨⟨fun q p h => ?_, fun r p h => ?_⟩, ?_⟩
  · have := hd q p h
    refine ⟨((q : Int) + d).toNat, by unfold ChainStep; omega, h.1, ?_⟩
    exact List.mem_map.mpr ⟨_, h.2, by have := h.1; omega⟩
  · obtain ⟨hp, h⟩ := h
    obtain ⟨o, ho, e⟩ := List.mem_map.mp h
    have := mem o ho
    refine ⟨o / 3, by unfold ChainStep; omega, hp, ?_⟩
    have : 3 * (o / 3) + p = o := by omega
    rwa [this]
  · unfold Normal chainOffset
    rw [List.pairwise_map]
    refine List.Pairwise.imp_of_mem ?_ hw
    intro a b ha hb hab
    have := mem a ha
    have := mem b hb
    omega

/-- An offset that keeps all letters on the lattice translates the word by it. -/
theorem C75_lattice_offset {h : Nat} (hh : 0 < h) {w : List Nat} (hw : Normal w) {row col : Int}
    (hr : ∀ q p, Has w q p → 0 ≤ ((q % h : Nat) : Int) + row ∧ ((q % h : Nat) : Int) + row < h) (hc : ∀ q p, Has w q p → 0 ≤ ((q / h : Nat) : Int) + col) :
    MovedBy (LatticeStep h row col) w (latticeOffset h w row col) ∧ Normal (latticeOffset h w row col) := by
  have key : ∀ q p, Has w q p → ∀ r : Nat, (r : Int) = q + (col * h + row) → LatticeStep h row col q r := by
    intro q p hq r e
    obtain ⟨h1, h2⟩ := hr q p hq
    have h3 := hc q p hq
    obtain ⟨a, ha⟩ := Int.eq_ofNat_of_zero_le h1
    obtain ⟨b, hb⟩ := Int.eq_ofNat_of_zero_le h3
    have e2 : r = h * b + a := by
      have : (r : Int) = h * b + a := by
        rw [e, ← ha, ← hb]
        have hq' : (q : Int) = h * (q / h : Nat) + (q % h : Nat) := by exact_mod_cast (Nat.div_add_mod q h).symm
        linear_combination hq'
      exact_mod_cast this
    have ha' : a < h := by omega
    unfold LatticeStep
    rw [e2, Nat.mul_add_mod, Nat.mod_eq_of_lt ha', Nat.mul_add_div hh, Nat.div_eq_of_lt ha']
    omega
  have hd : ∀ q p, Has w q p → 0 ≤ (q : Int) + (col * h + row) := by
    intro q p hq
    obtain ⟨h1, -⟩ := hr q p hq
    have h3 := hc q p hq
    have e : (q : Int) = h * (q / h : Nat) + (q % h : Nat) := by exact_mod_cast (Nat.div_add_mod q h).symm
    rw [e]
    nlinarith [Int.natCast_nonneg h]
  obtain ⟨h1, h2⟩ := C75_chain_offset hw hd
  refine ⟨⟨fun q p hq => ?_, fun r p hr => ?_⟩, h2⟩
  · obtain ⟨r, hr, hv⟩ := h1.1 q p hq
    exact ⟨r, key q p hq r hr, hv⟩
  · obtain ⟨q, hq, hv⟩ := h1.2 r p hr
    exact ⟨q, key q p hv r hq, hv⟩

example : chainOffset [4, 8] (-1) = [1, 5] ∧ latticeOffset 3 [1, 9] 1 1 = [13, 21] := by decide +kernel

/-! ## Operator sequences -/

/-- Simplified operator sequences keep their sign, and hold the hash of their word; zero stays zero. -/
theorem C75_sequence (c : Ctx) (f : List Nat → List Nat) (s : HSeq) (hs : s.isZero = false) :
    (canonicalSeq c f s).sign = s.sign ∧ (canonicalSeq c f s).ops = f s.ops ∧ (canonicalSeq c f s).hash = HSeq.hashOps c (f s.ops) ∧
    (∀ z : HSeq, z.isZero = true → (canonicalSeq c f z).isZero = true) := by
  refine ⟨by simp [canonicalSeq, hs], by simp [canonicalSeq, hs], by simp [canonicalSeq, hs], ?_⟩
  intro z hz
  rw [canonicalSeq, if_pos hz]
  rfl

example : (canonicalSeq ⟨9, fun w s => some (w, s)⟩ chainCanonical ⟨50, [4, 8], .imag⟩).ops = [1, 5] := by decide +kernel

end Moment.C75
