import Verif.Proof.Fill
import Verif.Proof.SiteCanonical
import Verif.Props.C75_Translate

/-! # Lemmas on words of neighbours on lattices -/

namespace Moment.Fill

open Moment.Translate
open Moment.Pauli (Normal)
open Moment.SiteHash (site_mod site_div site_lt site_eq)

/-! ## Pairs -/

theorem flatMap_sites {α : Type} (h : Nat) (g : Nat → List α) : ∀ k : Nat,
    (List.range (k * h)).flatMap g = (List.range k).flatMap fun col => (List.range h).flatMap fun row => g (col * h + row)
  | 0 => by simp
  | k + 1 => by
    rw [Nat.succ_mul, List.range_add, List.flatMap_append, flatMap_sites h g k, List.range_succ (n := k), List.flatMap_append, List.flatMap_cons,
      List.flatMap_nil, List.append_nil, List.flatMap_map]

/-- The site below. -/
def down (h q : Nat) : Nat := q / h * h + (q % h + 1) % h

/-- The site to the right. -/
def right (h k q : Nat) : Nat := (q / h + 1) % k * h + q % h

/-- The pairs of sites that start at a site. -/
def pairsAt (wrapped : Bool) (h k q : Nat) : List (List Nat) :=
  (if q % h + 1 < h ∨ wrapped = true ∧ h > 2 then [[q, down h q]] else []) ++
  (if q / h + 1 < k ∨ wrapped = true ∧ k > 2 then [[q, right h k q]] else [])

theorem latticePairs_eq (wrapped : Bool) {h k : Nat} (hh : 0 < h) (hk : 0 < k) :
    latticePairs wrapped h k = ((List.range (k * h)).flatMap (pairsAt wrapped h k)).flatMap permutationFill := by
  rw [List.flatMap_assoc, flatMap_sites]
  obtain ⟨k', rfl⟩ : ∃ k', k = k' + 1 := ⟨k - 1, by omega⟩
  obtain ⟨h', rfl⟩ : ∃ h', h = h' + 1 := ⟨h - 1, by omega⟩
  rw [List.range_succ (n := k'), List.flatMap_append, List.flatMap_cons, List.flatMap_nil, List.append_nil]
  simp only [List.range_succ (n := h'), List.flatMap_append, List.flatMap_cons, List.flatMap_nil, List.append_nil]
  unfold latticePairs
  simp only [Nat.add_sub_cancel]
  have hd : ∀ c r, r < h' → down (h' + 1) (c * (h' + 1) + r) = c * (h' + 1) + r + 1 := by
    intro c r hr
    unfold down
    rw [site_mod (by omega), site_div (by omega), Nat.mod_eq_of_lt (by omega)]
    omega
  have hd2 : ∀ c, down (h' + 1) (c * (h' + 1) + h') = c * (h' + 1) + h' + 1 - (h' + 1) := by
    intro c
    unfold down
    rw [site_mod (by omega), site_div (by omega), Nat.mod_self]
    omega
  have hr : ∀ c r, c < k' → r < h' + 1 → right (h' + 1) (k' + 1) (c * (h' + 1) + r) = c * (h' + 1) + r + (h' + 1) := by
    intro c r hc hr
    unfold right
    rw [site_mod hr, site_div hr, Nat.mod_eq_of_lt (by omega), Nat.succ_mul]
    omega
  have hr2 : ∀ r, r < h' + 1 → right (h' + 1) (k' + 1) (k' * (h' + 1) + r) = r := by
    intro r hr
    unfold right
    rw [site_mod hr, site_div hr, Nat.mod_self, Nat.zero_mul, Nat.zero_add]
  have ite_flat : ∀ (c : Prop) [Decidable c] (s : List Nat), (if c then [s] else ([] : List (List Nat))).flatMap permutationFill =
      if c then permutationFill s else [] := by
    intro c _ s
    split <;> simp
  have cell : ∀ c r, r < h' + 1 → (pairsAt wrapped (h' + 1) (k' + 1) (c * (h' + 1) + r)).flatMap permutationFill =
      (if r + 1 < h' + 1 ∨ wrapped = true ∧ h' + 1 > 2 then twoFill (c * (h' + 1) + r) (down (h' + 1) (c * (h' + 1) + r)) else []) ++
      (if c + 1 < k' + 1 ∨ wrapped = true ∧ k' + 1 > 2 then twoFill (c * (h' + 1) + r) (right (h' + 1) (k' + 1) (c * (h' + 1) + r)) else []) := by
    intro c r hr
    unfold pairsAt
    rw [List.flatMap_append, ite_flat, ite_flat, site_mod hr, site_div hr]
    rfl
  have c1 : ∀ c r, c < k' → r < h' → (pairsAt wrapped (h' + 1) (k' + 1) (c * (h' + 1) + r)).flatMap permutationFill =
      twoFill (c * (h' + 1) + r) (c * (h' + 1) + r + 1) ++ twoFill (c * (h' + 1) + r) (c * (h' + 1) + r + (h' + 1)) := by
    intro c r h1 h2
    rw [cell c r (by omega), if_pos (.inl (by omega)), if_pos (.inl (by omega)), hd c r h2, hr c r h1 (by omega)]
  have c2 : ∀ c, c < k' → (pairsAt wrapped (h' + 1) (k' + 1) (c * (h' + 1) + h')).flatMap permutationFill =
      (if wrapped = true ∧ h' + 1 > 2 then twoFill (c * (h' + 1) + h') (c * (h' + 1) + h' + 1 - (h' + 1)) else []) ++
      twoFill (c * (h' + 1) + h') (c * (h' + 1) + h' + (h' + 1)) := by
    intro c h1
    rw [cell c h' (by omega), hd2, hr c h' h1 (by omega)]
    congr 1
    · congr 1
      simp
    · rw [if_pos (.inl (by omega))]
  have c3 : ∀ r, r < h' → (pairsAt wrapped (h' + 1) (k' + 1) (k' * (h' + 1) + r)).flatMap permutationFill =
      twoFill (k' * (h' + 1) + r) (k' * (h' + 1) + r + 1) ++ (if wrapped = true ∧ k' + 1 > 2 then twoFill (k' * (h' + 1) + r) r else []) := by
    intro r h1
    rw [cell k' r (by omega), if_pos (.inl (by omega)), hd k' r h1, hr2 r (by omega)]
    congr 2
    simp
  have c4 : (pairsAt wrapped (h' + 1) (k' + 1) (k' * (h' + 1) + h')).flatMap permutationFill =
      (if wrapped = true ∧ h' + 1 > 2 then twoFill (k' * (h' + 1) + h') (k' * (h' + 1) + h' + 1 - (h' + 1)) else []) ++
      (if wrapped = true ∧ k' + 1 > 2 then twoFill (k' * (h' + 1) + h') h' else []) := by
    rw [cell k' h' (by omega), hd2, hr2 h' (by omega)]
    congr 1
    · congr 1
      simp
    · congr 1
      simp
  rw [List.append_assoc, List.append_assoc, c4]
  congr 1
  · refine List.flatMap_congr fun c hc => ?_
    rw [List.mem_range] at hc
    rw [c2 c hc, List.append_assoc]
    congr 1
    exact List.flatMap_congr fun r hr => (c1 c r hc (List.mem_range.mp hr)).symm
  · congr 1
    exact List.flatMap_congr fun r hr => (c3 r (List.mem_range.mp hr)).symm

theorem down_mod {h : Nat} (hh : 0 < h) (q : Nat) : down h q % h = (q % h + 1) % h := site_mod (Nat.mod_lt _ hh)
theorem down_div {h : Nat} (hh : 0 < h) (q : Nat) : down h q / h = q / h := site_div (Nat.mod_lt _ hh)
theorem right_mod {h : Nat} (hh : 0 < h) (k q : Nat) : right h k q % h = q % h := site_mod (Nat.mod_lt _ hh)
theorem right_div {h : Nat} (hh : 0 < h) (k q : Nat) : right h k q / h = (q / h + 1) % k := site_div (Nat.mod_lt _ hh)

theorem site_ext {h a b : Nat} (h1 : a % h = b % h) (h2 : a / h = b / h) : a = b := by
  rw [← site_eq h a, ← site_eq h b, h1, h2]

theorem succ_mod_ne {h r : Nat} (hr : r < h) (h2 : 1 < h) : (r + 1) % h ≠ r := by
  intro e
  rcases Nat.lt_or_ge (r + 1) h with h1 | h1
  · rw [Nat.mod_eq_of_lt h1] at e; omega
  · have : r + 1 = h := by omega
    rw [this, Nat.mod_self] at e
    omega

theorem mem_pairsAt {wrapped : Bool} {h k : Nat} (hh : 0 < h) (hk : 0 < k) {q : Nat} (hq : q < k * h) (s : List Nat) :
    s ∈ pairsAt wrapped h k q ↔ ∃ b, s = [q, b] ∧ ((b = down h q ∧ (q % h + 1 < h ∨ wrapped = true ∧ h > 2)) ∨
      (b = right h k q ∧ (q / h + 1 < k ∨ wrapped = true ∧ k > 2))) := by
  unfold pairsAt
  rw [List.mem_append]
  constructor
  · rintro (h1 | h1)
    · split at h1
      · next h2 => exact ⟨_, by simpa using h1, .inl ⟨rfl, h2⟩⟩
      · simp at h1
    · split at h1
      · next h2 => exact ⟨_, by simpa using h1, .inr ⟨rfl, h2⟩⟩
      · simp at h1
  · rintro ⟨b, rfl, ⟨rfl, h1⟩ | ⟨rfl, h1⟩⟩
    · exact .inl (by rw [if_pos h1]; simp)
    · exact .inr (by rw [if_pos h1]; simp)

theorem down_ne {wrapped : Bool} {h q : Nat} (hh : 0 < h) (hc : q % h + 1 < h ∨ wrapped = true ∧ h > 2) : down h q ≠ q := by
  intro e
  have := down_mod hh q
  rw [e] at this
  exact succ_mod_ne (Nat.mod_lt q hh) (by omega) this.symm

theorem right_ne {wrapped : Bool} {h k q : Nat} (hh : 0 < h) (hq : q / h < k) (hc : q / h + 1 < k ∨ wrapped = true ∧ k > 2) : right h k q ≠ q := by
  intro e
  have := right_div hh k q
  rw [e] at this
  exact succ_mod_ne hq (by omega) this.symm

theorem pairsAt_nodup {wrapped : Bool} {h k : Nat} (hh : 0 < h) (hk : 0 < k) :
    ∀ s ∈ (List.range (k * h)).flatMap (pairsAt wrapped h k), s.Nodup := by
  intro s hs
  obtain ⟨q, hq, hs⟩ := List.mem_flatMap.mp hs
  rw [List.mem_range] at hq
  have hqk : q / h < k := Nat.div_lt_of_lt_mul (by rw [Nat.mul_comm]; exact hq)
  obtain ⟨b, rfl, ⟨rfl, hc⟩ | ⟨rfl, hc⟩⟩ := (mem_pairsAt hh hk hq s).mp hs
  · simpa using (down_ne hh hc).symm
  · simpa using (right_ne hh hqk hc).symm

theorem down_twice {wrapped : Bool} {h q q' : Nat} (hh : 0 < h) (hc : q % h + 1 < h ∨ wrapped = true ∧ h > 2)
    (hc' : q' % h + 1 < h ∨ wrapped = true ∧ h > 2) (h1 : q = down h q') (h2 : down h q = q') : False := by
  have e1 := down_mod hh q'
  have e2 := down_mod hh q
  rw [← h1] at e1
  rw [h2] at e2
  have b := Nat.mod_lt q hh
  have b' := Nat.mod_lt q' hh
  generalize q % h = x at *
  generalize q' % h = y at *
  have m : ∀ z, z < h → (z + 1) % h = if z + 1 = h then 0 else z + 1 := by
    intro z hz
    split
    · next e => rw [e, Nat.mod_self]
    · exact Nat.mod_eq_of_lt (by omega)
  rw [m _ b'] at e1
  rw [m _ b] at e2
  split at e1 <;> split at e2 <;> omega

theorem right_twice {wrapped : Bool} {h k q q' : Nat} (hh : 0 < h) (hq : q / h < k) (hq' : q' / h < k) (hc : q / h + 1 < k ∨ wrapped = true ∧ k > 2)
    (hc' : q' / h + 1 < k ∨ wrapped = true ∧ k > 2) (h1 : q = right h k q') (h2 : right h k q = q') : False := by
  have e1 := right_div hh k q'
  have e2 := right_div hh k q
  rw [← h1] at e1
  rw [h2] at e2
  generalize q / h = x at *
  generalize q' / h = y at *
  have m : ∀ z, z < k → (z + 1) % k = if z + 1 = k then 0 else z + 1 := by
    intro z hz
    split
    · next e => rw [e, Nat.mod_self]
    · exact Nat.mod_eq_of_lt (by omega)
  rw [m _ hq'] at e1
  rw [m _ hq] at e2
  split at e1 <;> split at e2 <;> omega

theorem down_right {wrapped : Bool} {h k q q' : Nat} (hh : 0 < h) (hq' : q' / h < k) (hc' : q' / h + 1 < k ∨ wrapped = true ∧ k > 2)
    (hs : ∀ x, x ∈ [q, down h q] ↔ x ∈ [q', right h k q']) : False := by
  have a := (hs q').mpr (by simp)
  have b := (hs (right h k q')).mpr (by simp)
  have ca : q' / h = q / h := by
    rcases List.mem_pair.mp a with e | e
    · rw [e]
    · rw [e, down_div hh]
  have cb : right h k q' / h = q / h := by
    rcases List.mem_pair.mp b with e | e
    · rw [e]
    · rw [e, down_div hh]
  rw [right_div hh, ← ca] at cb
  exact succ_mod_ne hq' (by omega) cb

theorem pairsAt_distinct {wrapped : Bool} {h k : Nat} (hh : 0 < h) (hk : 0 < k) :
    ((List.range (k * h)).flatMap (pairsAt wrapped h k)).Pairwise fun s t => ¬ ∀ q, q ∈ s ↔ q ∈ t := by
  have lt : ∀ q, q < k * h → q / h < k := fun q hq => Nat.div_lt_of_lt_mul (by rw [Nat.mul_comm]; exact hq)
  have pair : ∀ a b c d : Nat, a ≠ c → (∀ x, x ∈ [a, b] ↔ x ∈ [c, d]) → a = d ∧ b = c := by
    intro a b c d hac hx
    have h1 := (hx a).mp (by simp)
    have h2 := (hx c).mpr (by simp)
    rcases List.mem_pair.mp h1 with e | e
    · exact absurd e hac
    · rcases List.mem_pair.mp h2 with e' | e'
      · exact absurd e'.symm hac
      · exact ⟨e, e'.symm⟩
  rw [List.pairwise_flatMap]
  constructor
  · intro q hq
    rw [List.mem_range] at hq
    unfold pairsAt
    refine List.pairwise_append.mpr ⟨by split <;> simp, by split <;> simp, ?_⟩
    intro s hs t ht hx
    split at hs
    · split at ht
      · next hc =>
        rw [List.mem_singleton] at hs ht
        subst hs; subst ht
        exact down_right hh (lt q hq) hc hx
      · simp at ht
    · simp at hs
  · refine List.nodup_range.imp_of_mem fun {q q'} hq hq' hne s hs t ht hx => ?_
    rw [List.mem_range] at hq hq'
    obtain ⟨b, rfl, ⟨rfl, hc⟩ | ⟨rfl, hc⟩⟩ := (mem_pairsAt hh hk hq s).mp hs
    · obtain ⟨b', rfl, ⟨rfl, hc'⟩ | ⟨rfl, hc'⟩⟩ := (mem_pairsAt hh hk hq' t).mp ht
      · have := pair _ _ _ _ hne hx
        exact down_twice hh hc hc' this.1 this.2
      · exact down_right hh (lt q' hq') hc' hx
    · obtain ⟨b', rfl, ⟨rfl, hc'⟩ | ⟨rfl, hc'⟩⟩ := (mem_pairsAt hh hk hq' t).mp ht
      · exact down_right hh (lt q hq) hc fun x => (hx x).symm
      · have := pair _ _ _ _ hne hx
        exact right_twice hh (lt q hq) (lt q' hq') hc hc' this.1 this.2

/-- The pairs are the adjacent ones. -/
theorem pairs_adjacent {wrapped : Bool} {h k : Nat} (hh : 0 < h) (hk : 0 < k) (w : List Nat) :
    (∃ s ∈ (List.range (k * h)).flatMap (pairsAt wrapped h k), On s w) ↔ ∃ a b, Adjacent wrapped h k a b ∧ On [a, b] w := by
  have lt : ∀ q, q < k * h → q / h < k := fun q hq => Nat.div_lt_of_lt_mul (by rw [Nat.mul_comm]; exact hq)
  constructor
  · rintro ⟨s, hs, hon⟩
    obtain ⟨q, hq, hs⟩ := List.mem_flatMap.mp hs
    rw [List.mem_range] at hq
    have bm := Nat.mod_lt q hh
    obtain ⟨b, rfl, ⟨rfl, hc⟩ | ⟨rfl, hc⟩⟩ := (mem_pairsAt hh hk hq s).mp hs
    · refine ⟨q, down h q, ⟨by rw [Nat.mul_comm]; exact hq, site_lt (lt q hq) (Nat.mod_lt _ hh), (down_ne hh hc).symm, .inl ⟨down_div hh q, ?_⟩⟩, hon⟩
      rw [down_mod hh]
      rcases hc with hc | hc
      · exact .inl (Nat.mod_eq_of_lt hc)
      · exact .inr ⟨hc.1, rfl⟩
    · refine ⟨q, right h k q, ⟨by rw [Nat.mul_comm]; exact hq, site_lt (Nat.mod_lt _ hk) bm, (right_ne hh (lt q hq) hc).symm, .inr ⟨right_mod hh k q, ?_⟩⟩, hon⟩
      rw [right_div hh]
      rcases hc with hc | hc
      · exact .inl (Nat.mod_eq_of_lt hc)
      · exact .inr ⟨hc.1, rfl⟩
  · have swap : ∀ a b, On [a, b] w → On [b, a] w := fun a b hon => hon.congr (by simp [or_comm])
    have mk : ∀ q b, q < k * h → ((b = down h q ∧ (q % h + 1 < h ∨ wrapped = true ∧ h > 2)) ∨
      (b = right h k q ∧ (q / h + 1 < k ∨ wrapped = true ∧ k > 2))) → On [q, b] w → ∃ s ∈ (List.range (k * h)).flatMap (pairsAt wrapped h k), On s w :=
      fun q b hq hb hon => ⟨[q, b], List.mem_flatMap.mpr ⟨q, List.mem_range.mpr hq, (mem_pairsAt hh hk hq _).mpr ⟨b, rfl, hb⟩⟩, hon⟩
    have msucc : ∀ n z, z < n → (z + 1) % n = if z + 1 = n then 0 else z + 1 := by
      intro n z hz
      split
      · next e => rw [e, Nat.mod_self]
      · exact Nat.mod_eq_of_lt (by omega)
    rintro ⟨a, b, ⟨ha, hb, hne, h1 | h1⟩, hon⟩
    · rw [Nat.mul_comm] at ha hb
      have ba := Nat.mod_lt a hh
      have bb := Nat.mod_lt b hh
      have hm : b % h = (a % h + 1) % h := by
        rcases h1.2 with e | e
        · rw [e, Nat.mod_eq_of_lt (show a % h + 1 < h by omega)]
        · exact e.2
      have hd : b = down h a := site_ext (by rw [down_mod hh, hm]) (by rw [down_div hh, h1.1])
      by_cases hc : a % h + 1 < h ∨ wrapped = true ∧ h > 2
      · exact mk a b ha (.inl ⟨hd, hc⟩) hon
      · have e1 : a % h + 1 = h := by omega
        rw [e1, Nat.mod_self] at hm
        have hw : wrapped = true := by
          rcases h1.2 with e | e
          · omega
          · exact e.1
        have hh2 : h = 2 := by
          have : h ≠ 1 := by
            rintro rfl
            exact hne (site_ext (by omega) h1.1.symm)
          have : ¬ h > 2 := fun h3 => hc (.inr ⟨hw, h3⟩)
          omega
        refine mk b a hb (.inl ⟨site_ext (h := h) ?_ ?_, .inl (by omega)⟩) (swap a b hon)
        · rw [down_mod hh, hm, Nat.mod_eq_of_lt (show 0 + 1 < h by omega)]; omega
        · rw [down_div hh, h1.1]
    · have hac : a / h < k := lt a (by rw [Nat.mul_comm]; exact ha)
      have hbc : b / h < k := lt b (by rw [Nat.mul_comm]; exact hb)
      rw [Nat.mul_comm] at ha hb
      have hm : b / h = (a / h + 1) % k := by
        rcases h1.2 with e | e
        · rw [e, Nat.mod_eq_of_lt (show a / h + 1 < k by omega)]
        · exact e.2
      have hd : b = right h k a := site_ext (by rw [right_mod hh, h1.1]) (by rw [right_div hh, hm])
      by_cases hc : a / h + 1 < k ∨ wrapped = true ∧ k > 2
      · exact mk a b ha (.inr ⟨hd, hc⟩) hon
      · have e1 : a / h + 1 = k := by omega
        rw [e1, Nat.mod_self] at hm
        have hw : wrapped = true := by
          rcases h1.2 with e | e
          · omega
          · exact e.1
        have hk2 : k = 2 := by
          have : k ≠ 1 := by
            rintro rfl
            exact hne (site_ext h1.1.symm (by omega))
          have : ¬ k > 2 := fun h3 => hc (.inr ⟨hw, h3⟩)
          omega
        refine mk b a hb (.inr ⟨site_ext (h := h) ?_ ?_, .inl (by omega)⟩) (swap a b hon)
        · rw [right_mod hh, h1.1]
        · rw [right_div hh, hm, Nat.mod_eq_of_lt (show 0 + 1 < k by omega)]; omega

/-! ## Translates on open lattices -/

/-- The translates of a shape. -/
def translates (h k : Nat) (s : List Nat) : List (List Nat) :=
  if s.isEmpty then []
  else (List.range (1 + k - (siteSupremum h s).2)).flatMap fun col =>
    (List.range (1 + h - (siteSupremum h s).1)).map fun row => s.map fun q => q + (col * h + row)

theorem wraplessFill_eq (h k : Nat) (s : List Nat) : wraplessFill h k s = (translates h k s).flatMap permutationFill := by
  unfold wraplessFill translates
  split
  · rfl
  · rw [List.flatMap_assoc]
    congr 1
    funext col
    rw [List.flatMap_map]

theorem mem_translates {h k : Nat} (hh : 0 < h) {s : List Nat} (hs : s.Pairwise (· < ·)) (hne : s ≠ []) (t : List Nat) :
    t ∈ translates h k s ↔ ∃ row col, (∀ q ∈ s, q % h + row < h ∧ q / h + col < k) ∧ t = s.map fun q => q + (col * h + row) := by
  obtain ⟨⟨r1, r2⟩, c1, c2⟩ := (C75.C75_lattice_supremum h).2.2 hs
  obtain ⟨x, hx⟩ := List.exists_mem_of_ne_nil s hne
  have px := r1 _ ⟨x, hx, rfl⟩
  have py := c1 _ ⟨x, hx, rfl⟩
  unfold translates
  rw [if_neg (by simpa using hne)]
  simp only [List.mem_flatMap, List.mem_map, List.mem_range]
  constructor
  · rintro ⟨col, hc, row, hr, rfl⟩
    refine ⟨row, col, fun q hq => ?_, rfl⟩
    have := r1 _ ⟨q, hq, rfl⟩
    have := c1 _ ⟨q, hq, rfl⟩
    omega
  · rintro ⟨row, col, hall, rfl⟩
    have hrow : row < h := Nat.lt_of_le_of_lt (Nat.le_add_left _ _) (hall x hx).1
    have hcol : col < k := Nat.lt_of_le_of_lt (Nat.le_add_left _ _) (hall x hx).2
    have h1 := r2 (h - row) fun r ⟨q, hq, e⟩ => by have := hall q hq; omega
    have h2 := c2 (k - col) fun r ⟨q, hq, e⟩ => by have := hall q hq; omega
    exact ⟨col, by omega, row, by omega, rfl⟩

theorem translates_increasing {h k : Nat} {s : List Nat} (hs : s.Pairwise (· < ·)) : ∀ t ∈ translates h k s, t.Pairwise (· < ·) := by
  intro t ht
  unfold translates at ht
  split at ht
  · simp at ht
  · simp only [List.mem_flatMap, List.mem_map] at ht
    obtain ⟨col, -, row, -, rfl⟩ := ht
    rw [List.pairwise_map]
    exact hs.imp fun {a b} hab => by omega

theorem translates_nodup {h k : Nat} (hh : 0 < h) {s : List Nat} (hs : s.Pairwise (· < ·)) : (translates h k s).Nodup := by
  unfold translates
  split
  · exact List.nodup_nil
  next hne =>
  have hne' : s ≠ [] := by simpa using hne
  obtain ⟨x, hx⟩ := List.exists_mem_of_ne_nil s hne'
  obtain ⟨⟨r1, -⟩, -⟩ := (C75.C75_lattice_supremum h).2.2 hs
  have px := r1 _ ⟨x, hx, rfl⟩
  have inj : ∀ col row col' row', row < h → row' < h → (s.map fun q => q + (col * h + row)) = (s.map fun q => q + (col' * h + row')) →
      col = col' ∧ row = row' := by
    intro col row col' row' h1 h2 e
    obtain ⟨y, l, rfl⟩ := List.exists_cons_of_ne_nil hne'
    simp only [List.map_cons, List.cons.injEq] at e
    have e1 : col * h + row = col' * h + row' := by omega
    have hr : row = row' := by rw [← site_mod (a := col) h1, e1, site_mod h2]
    have hc : col = col' := by rw [← site_div (a := col) h1, e1, site_div h2]
    exact ⟨hc, hr⟩
  rw [List.nodup_flatMap]
  constructor
  · intro col _
    refine List.Nodup.map_on (fun a ha b hb e => (inj col a col b ?_ ?_ e).2) List.nodup_range
    · rw [List.mem_range] at ha; omega
    · rw [List.mem_range] at hb; omega
  · refine List.nodup_range.imp fun {c c'} hne => ?_
    unfold Function.onFun
    rw [List.disjoint_left]
    intro t h1 h2
    obtain ⟨r, hr, rfl⟩ := List.mem_map.mp h1
    obtain ⟨r', hr', e⟩ := List.mem_map.mp h2
    rw [List.mem_range] at hr hr'
    exact hne (inj c' r' c r (by omega) (by omega) e).1.symm

end Moment.Fill
