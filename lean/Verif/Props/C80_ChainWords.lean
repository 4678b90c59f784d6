import Verif.Proof.FillChain
import Verif.Props.C79_PauliWords

/-! # C80: The list of words of neighbouring Pauli operators on chains -/

namespace Moment.C80

open Moment.Fill
open Moment.Translate
open Moment.Pauli (Normal)
open Moment.SiteHash (Within Wide Hasher)

/-- The shapes on a chain. -/
noncomputable def chainShapes (wrapped : Bool) (n len N : Nat) : List (List Nat) :=
  [[]] ++ ((if len < 1 then [] else (List.range n).map fun q => [q]) ++ nextShapes wrapped n len N)

theorem generate_eq (wide : Wide) (H : Hasher) {L : Layout} (hl : L.lattice = false) {level N : Nat} (hN : 0 < N) :
    generate wide H L level N = some (some ((chainShapes L.wrap L.qubits (min level L.qubits) N).flatMap permutationFill)) := by
  have hnil : ∀ len, len < 2 → nextShapes L.wrap L.qubits len N = [] := by
    intro len hlen
    unfold nextShapes
    rw [show len - 1 = 0 by omega]
    rfl
  unfold generate nearWords chainShapes
  rw [if_pos (by omega), if_neg (by simp [hl])]
  simp only [List.flatMap_append, List.flatMap_cons, List.flatMap_nil, List.append_nil, hl]
  split
  · next h => rw [hnil _ (by omega)]; rfl
  · next h =>
    split
    · next h2 => rw [hnil _ h2, ← lengthOne_eq]; simp [permutationFill]
    · next h2 =>
      rw [← lengthOne_eq, ← chainNext_eq]
      split
      · next h3 =>
        subst h3
        rw [chainPairs_eq _ (by omega) (Nat.min_le_right _ _)]
        simp [append, permutationFill]
      · simp [append, permutationFill]

theorem shapes_nodup {wrapped : Bool} {n len N : Nat} (h : len ≤ n) : ∀ s ∈ chainShapes wrapped n len N, s.Nodup := by
  intro s hs
  unfold chainShapes at hs
  rw [List.mem_append, List.mem_append, List.mem_singleton] at hs
  rcases hs with rfl | hs | hs
  · exact List.nodup_nil
  · split at hs
    · simp at hs
    · obtain ⟨q, -, rfl⟩ := List.mem_map.mp hs
      exact List.nodup_singleton q
  · exact nodup_nextShapes h s hs

theorem shapes_distinct {wrapped : Bool} {n len N : Nat} (h : len ≤ n)
    (hd : (nextShapes wrapped n len N).Pairwise fun s t => ¬ ∀ q, q ∈ s ↔ q ∈ t) :
    (chainShapes wrapped n len N).Pairwise fun s t => ¬ ∀ q, q ∈ s ↔ q ∈ t := by
  have two : ∀ s ∈ nextShapes wrapped n len N, 2 ≤ s.length := by
    intro s hs
    obtain ⟨a, raw, h1, -, -, rfl, -⟩ := (mem_nextShapes h s).mp hs
    unfold shape
    simp [walk_length]
    omega
  have hsame : ∀ s t : List Nat, s.Nodup → t.Nodup → (∀ q, q ∈ s ↔ q ∈ t) → s.length = t.length := fun s t h1 h2 hq =>
    ((List.perm_ext_iff_of_nodup h1 h2).mpr hq).length_eq
  unfold chainShapes
  refine List.pairwise_append.mpr ⟨by simp, List.pairwise_append.mpr ⟨?_, hd, ?_⟩, ?_⟩
  · split
    · exact .nil
    · rw [List.pairwise_map]
      refine List.nodup_range.imp fun {a b} hab hq => ?_
      have := (hq a).mp (by simp)
      simp at this
      exact hab this
  · intro s hs t ht hq
    split at hs
    · simp at hs
    · obtain ⟨a, -, rfl⟩ := List.mem_map.mp hs
      have h1 := hsame _ _ (List.nodup_singleton a) (nodup_nextShapes h t ht) hq
      have h2 := two t ht
      simp at h1
      omega
  · intro s hs t ht hq
    rw [List.mem_singleton] at hs
    subst hs
    have hne : t ≠ [] := by
      rw [List.mem_append] at ht
      rcases ht with ht | ht
      · split at ht
        · simp at ht
        · obtain ⟨a, -, rfl⟩ := List.mem_map.mp ht
          simp
      · have := two t ht
        rintro rfl
        simp at this
    obtain ⟨x, l, rfl⟩ := List.exists_cons_of_ne_nil hne
    have := (hq x).mpr (by simp)
    simp at this

theorem near_steps {N : Nat} {w : List Nat} (hw : Normal w) : Near N w ↔ (w.map (· / 3)).IsChain (Step N) := by
  unfold Near Step
  rw [List.isChain_map]
  have hc : w.IsChain fun a b => a / 3 < b / 3 := hw.isChain
  constructor
  · intro h
    exact List.isChain_iff_getElem.mpr fun i hi => ⟨List.isChain_iff_getElem.mp hc i hi, List.isChain_iff_getElem.mp h i hi⟩
  · intro h
    exact h.imp fun {a b} hab => hab.2

/-- Words on short shapes. -/
theorem short_iff {wrapped : Bool} {n len N : Nat} (h : len ≤ n) {w : List Nat} (hl : w.length ≤ 1) :
    (∃ s ∈ chainShapes wrapped n len N, On s w) ↔ Normal w ∧ Within n w ∧ w.length ≤ len := by
  constructor
  · rintro ⟨s, hs, hon⟩
    have hlen := hon.length (shapes_nodup h s hs)
    unfold chainShapes at hs
    rw [List.mem_append, List.mem_append, List.mem_singleton] at hs
    rcases hs with rfl | hs | hs
    · exact ⟨hon.1, (C79.on_within hon).mp (by simp), by simp at hlen; simp [hlen]⟩
    · split at hs
      · simp at hs
      · obtain ⟨q, hq, rfl⟩ := List.mem_map.mp hs
        rw [List.mem_range] at hq
        refine ⟨hon.1, (C79.on_within hon).mp (by simp [hq]), by simp at hlen; omega⟩
    · obtain ⟨a, raw, h1, -, -, rfl, -⟩ := (mem_nextShapes h s).mp hs
      unfold shape at hlen
      simp [walk_length] at hlen
      omega
  · rintro ⟨hn, hw, hl2⟩
    have hin := (C79.on_within (On.self hn)).mpr hw
    refine ⟨w.map (· / 3), ?_, On.self hn⟩
    unfold chainShapes
    rw [List.mem_append, List.mem_append, List.mem_singleton]
    match w, hl with
    | [], _ => exact .inl rfl
    | [o], _ =>
      refine .inr (.inl ?_)
      rw [if_neg (by simp at hl2; omega)]
      exact List.mem_map.mpr ⟨o / 3, List.mem_range.mpr (hin _ (by simp)), rfl⟩

/-- On an open chain, the list of a level for neighbours up to distance `N` holds exactly the words in normal form that are no longer than the level and whose
successive letters are at most `N` sites apart, with sign `+`, each once. -/
theorem C80_open (wide : Wide) (H : Hasher) {L : Layout} (hl : L.lattice = false) (hw : L.wrap = false) {level N : Nat} (hN : 0 < N) :
    ∃ l, generate wide H L level N = some (some l) ∧ l.Nodup ∧
      ∀ w g, (w, g) ∈ l ↔ g = .pos ∧ Normal w ∧ Within L.qubits w ∧ w.length ≤ level ∧ Near N w := by
  refine ⟨_, generate_eq wide H hl hN, ?_, ?_⟩
  · have h := Nat.min_le_right level L.qubits
    rw [hw]
    exact nodup_shapes (shapes_nodup h) (shapes_distinct h (distinct_open h))
  intro w g
  have h := Nat.min_le_right level L.qubits
  rw [mem_shapes (shapes_nodup h), hw]
  refine and_congr_right fun _ => ?_
  simp only
  generalize hlen : min level L.qubits = len at h
  generalize L.qubits = n at h hlen
  by_cases hs : w.length ≤ 1
  · rw [short_iff h hs]
    have hnear : Near N w := by
      match w, hs with
      | [], _ => exact List.isChain_nil
      | [o], _ => exact List.isChain_singleton o
    constructor
    · rintro ⟨h1, h2, h3⟩
      exact ⟨h1, h2, by omega, hnear⟩
    · rintro ⟨h1, h2, h3, -⟩
      refine ⟨h1, h2, ?_⟩
      have := Pauli.normal_length n w h1 fun o ho => by
        have := h2 _ _ (has_mem.mp ho)
        omega
      omega
  · constructor
    · rintro ⟨s, hs', hon⟩
      have hlen' := hon.length (shapes_nodup h s hs')
      unfold chainShapes at hs'
      rw [List.mem_append, List.mem_append, List.mem_singleton] at hs'
      have hs2 : s ∈ nextShapes false n len N := by
        rcases hs' with rfl | hs' | hs'
        · rw [List.length_nil] at hlen'; omega
        · split at hs'
          · simp at hs'
          · obtain ⟨q, -, rfl⟩ := List.mem_map.mp hs'
            simp at hlen'
            omega
        · exact hs'
      obtain ⟨a, raw, h1, h2, hd, rfl, hall, -⟩ := (mem_nextShapes h s).mp hs2
      rw [shape_open] at hon hlen'
      have hc := walk_chain a raw hd
      have e : w.map (· / 3) = a :: walk a raw :=
        List.Pairwise.eq_of_mem_iff (sites_increasing hon.1) (step_increasing hc) fun q => (On.self hon.1).sites hon q
      refine ⟨hon.1, (C79.on_within hon).mp ?_, ?_, ?_⟩
      · intro q hq
        have hq' : q ∈ shape false n a raw := by rw [shape_open]; exact hq
        unfold shape at hq'
        obtain ⟨x, hx, rfl⟩ := List.mem_map.mp hq'
        have := hall x hx
        simpa using this
      · rw [hlen', List.length_cons, walk_length]
        omega
      · rw [near_steps hon.1, e]
        exact hc
    · rintro ⟨h1, h2, h3, h4⟩
      have hin := (C79.on_within (On.self h1)).mpr h2
      have hwn := Pauli.normal_length n w h1 fun o ho => by
        have := h2 _ _ (has_mem.mp ho)
        omega
      rw [near_steps h1] at h4
      refine ⟨w.map (· / 3), ?_, On.self h1⟩
      unfold chainShapes
      rw [List.mem_append, List.mem_append]
      refine .inr (.inr ((mem_nextShapes h _).mpr ?_))
      have hlw : (w.map (· / 3)).length = w.length := List.length_map _
      cases hc : w.map (· / 3) with
      | nil => rw [hc] at hlw; simp at hlw; omega
      | cons a s =>
        rw [hc] at h4 hin hlw
        obtain ⟨raw, hd, rfl⟩ := chain_walk a s h4
        rw [List.length_cons, walk_length] at hlw
        have hb : ∀ x ∈ 0 :: walk 0 raw, a + x < n := by
          intro x hx
          refine hin (a + x) ?_
          rw [← shape_open n a raw]
          exact List.mem_map.mpr ⟨x, hx, rfl⟩
        refine ⟨a, raw, by omega, by omega, hd, (shape_open n a raw).symm, fun x hx => by simpa using hb x hx, ?_⟩
        have hlen2 := Pauli.normal_length (n - a) (w.map fun o => o - 3 * a) ?_ ?_
        · rw [List.length_map] at hlen2
          have ha := hin a (by simp)
          simp
          omega
        · have hge : ∀ o ∈ w, a ≤ o / 3 := by
            intro o ho
            have : o / 3 ∈ a :: walk a raw := by rw [← hc]; exact List.mem_map_of_mem ho
            rcases List.mem_cons.mp this with e | e
            · omega
            · have := (List.pairwise_cons.mp (step_increasing h4)).1 _ e
              omega
          unfold Normal
          rw [List.pairwise_map]
          refine h1.imp_of_mem fun {x y} hx hy hxy => ?_
          have := hge x hx
          have := hge y hy
          omega
        · intro o ho
          obtain ⟨x, hx, rfl⟩ := List.mem_map.mp ho
          have := h2 _ _ (has_mem.mp hx)
          have := hin a (by simp)
          omega

example : Normal [0, 7, 10] ∧ Near 2 [0, 7, 10] ∧ ¬ Near 1 [0, 7, 10] ∧ (⟨false, 4, 1, false, false⟩ : Layout).qubits = 4 := by
  refine ⟨by unfold Normal; decide, by simp [Near], by simp [Near], rfl⟩

/-! ## Closed chains -/

/-- A rotated word lies on the rotated sites. -/
theorem rotated_on {n d : Nat} {t w : List Nat} (ht : t.Nodup) (hb : ∀ x ∈ t, x < n) :
    On (t.map fun x => (d + x) % n) w ↔ ∃ v, On t v ∧ MovedBy (RingStep n d) v w ∧ Normal w := by
  constructor
  · intro h
    obtain ⟨f, hf, hh⟩ := h.letter
    have hsites : (t.map fun x => 3 * x + f ((d + x) % n)).map (· / 3) = t := by
      rw [List.map_map]
      conv => rhs; rw [← List.map_id t]
      refine List.map_congr_left fun x _ => ?_
      have := hf ((d + x) % n)
      simp
      omega
    have hn := sort_normal (w := t.map fun x => 3 * x + f ((d + x) % n)) (by rw [hsites]; exact ht)
    have hv : ∀ q p, Has (stableSort (· / 3) (t.map fun x => 3 * x + f ((d + x) % n))) q p ↔ q ∈ t ∧ p = f ((d + q) % n) := by
      intro q p
      rw [has_sort]
      constructor
      · rintro ⟨hp, hm⟩
        obtain ⟨x, hx, e⟩ := List.mem_map.mp hm
        have := hf ((d + x) % n)
        have : x = q := by omega
        subst this
        exact ⟨hx, by omega⟩
      · rintro ⟨hq, rfl⟩
        exact ⟨hf _, List.mem_map.mpr ⟨q, hq, rfl⟩⟩
    refine ⟨_, ⟨hn, fun q => ⟨fun ⟨p, hp⟩ => ((hv q p).mp hp).1, fun hq => ⟨_, (hv q _).mpr ⟨hq, rfl⟩⟩⟩⟩, ⟨?_, ?_⟩, h.1⟩
    · intro q p hp
      obtain ⟨hq, rfl⟩ := (hv q p).mp hp
      exact ⟨(d + q) % n, ⟨hb q hq, by rw [Nat.add_comm]⟩, (hh _ _).mpr ⟨List.mem_map.mpr ⟨q, hq, rfl⟩, rfl⟩⟩
    · intro r p hr
      obtain ⟨hm, rfl⟩ := (hh r p).mp hr
      obtain ⟨q, hq, rfl⟩ := List.mem_map.mp hm
      exact ⟨q, ⟨hb q hq, by rw [Nat.add_comm]⟩, (hv q _).mpr ⟨hq, rfl⟩⟩
  · rintro ⟨v, hv, hm, hn⟩
    refine ⟨hn, fun q => ⟨?_, ?_⟩⟩
    · rintro ⟨p, hp⟩
      obtain ⟨x, ⟨-, rfl⟩, hx⟩ := hm.2 q p hp
      exact List.mem_map.mpr ⟨x, (hv.2 x).mp ⟨p, hx⟩, by rw [Nat.add_comm]⟩
    · intro hq
      obtain ⟨x, hx, rfl⟩ := List.mem_map.mp hq
      obtain ⟨p, hp⟩ := (hv.2 x).mpr hx
      obtain ⟨r, ⟨-, rfl⟩, hr⟩ := hm.1 x p hp
      exact ⟨p, by rw [Nat.add_comm]; exact hr⟩

/-- The word is obtained by rotating a word of an open chain whose successive letters are at most `N` sites apart. -/
def RingNear (n N : Nat) (w : List Nat) : Prop := ∃ v d, Normal v ∧ Within n v ∧ Near N v ∧ MovedBy (RingStep n d) v w

theorem rotated_length {n d : Nat} {v w : List Nat} (hv : Normal v) (hb : Within n v) (hw : Normal w) (hm : MovedBy (RingStep n d) v w) :
    w.length = v.length ∧ Within n w := by
  have hin := (C79.on_within (On.self hv)).mpr hb
  have ht : (v.map (· / 3)).Nodup := (sites_increasing hv).imp fun {a b} hab => Nat.ne_of_lt hab
  have hon := (rotated_on (d := d) ht hin).mpr ⟨v, On.self hv, hm, hw⟩
  have hnd : ((v.map (· / 3)).map fun x => (d + x) % n).Nodup := by
    refine ht.map_on fun x hx y hy e => ?_
    exact Nat.ModEq.eq_of_lt_of_lt (Nat.ModEq.add_left_cancel' d e) (hin x hx) (hin y hy)
  refine ⟨by rw [hon.length hnd, List.length_map, List.length_map], (C79.on_within hon).mp fun q hq => ?_⟩
  obtain ⟨x, hx, rfl⟩ := List.mem_map.mp hq
  have := hin x hx
  exact Nat.mod_lt _ (by omega)

/-- On a closed chain, the list of a level for neighbours up to distance `N` holds exactly the words in normal form that are no longer than the level and arise
by rotation from words whose successive letters are at most `N` sites apart. If the chain has more than `N` times as many sites as the level says, no word is
listed twice. Missing: shorter chains, where words are listed more than once. -/
theorem C80_ring_partial (wide : Wide) (H : Hasher) {L : Layout} (hl : L.lattice = false) (hw : L.wrap = true) {level N : Nat} (hN : 0 < N) :
    ∃ l, generate wide H L level N = some (some l) ∧ (level * N < L.qubits → l.Nodup) ∧
      ∀ w g, (w, g) ∈ l ↔ g = .pos ∧ Normal w ∧ Within L.qubits w ∧ w.length ≤ level ∧ RingNear L.qubits N w := by
  refine ⟨_, generate_eq wide H hl hN, fun hsmall => ?_, ?_⟩
  · have h := Nat.min_le_right level L.qubits
    rw [hw]
    refine nodup_shapes (shapes_nodup h) (shapes_distinct h (distinct_ring h ?_))
    exact Nat.lt_of_le_of_lt (Nat.mul_le_mul_right N (Nat.min_le_left _ _)) hsmall
  intro w g
  have h := Nat.min_le_right level L.qubits
  rw [mem_shapes (shapes_nodup h), hw]
  refine and_congr_right fun _ => ?_
  simp only
  generalize hlen : min level L.qubits = len at h
  generalize L.qubits = n at h hlen
  have hself : Normal w → Within n w → w.length ≤ 1 → RingNear n N w := by
    intro h1 h2 hs
    refine ⟨w, 0, h1, h2, ?_, ?_, ?_⟩
    · match w, hs with
      | [], _ => exact List.isChain_nil
      | [o], _ => exact List.isChain_singleton o
    · intro q p hp
      exact ⟨q, ⟨h2 q p hp, by rw [Nat.add_zero, Nat.mod_eq_of_lt (h2 q p hp)]⟩, hp⟩
    · intro q p hp
      exact ⟨q, ⟨h2 q p hp, by rw [Nat.add_zero, Nat.mod_eq_of_lt (h2 q p hp)]⟩, hp⟩
  have bound : ∀ v, Normal v → Within n v → v.length ≤ n := fun v h1 h2 => Pauli.normal_length n v h1 fun o ho => by
    have := h2 _ _ (has_mem.mp ho)
    omega
  by_cases hs : w.length ≤ 1
  · rw [short_iff h hs]
    constructor
    · rintro ⟨h1, h2, h3⟩
      exact ⟨h1, h2, by omega, hself h1 h2 hs⟩
    · rintro ⟨h1, h2, h3, -⟩
      have := bound w h1 h2
      exact ⟨h1, h2, by omega⟩
  · constructor
    · rintro ⟨s, hs', hon⟩
      have hlen' := hon.length (shapes_nodup h s hs')
      unfold chainShapes at hs'
      rw [List.mem_append, List.mem_append, List.mem_singleton] at hs'
      have hs2 : s ∈ nextShapes true n len N := by
        rcases hs' with rfl | hs' | hs'
        · rw [List.length_nil] at hlen'; omega
        · split at hs'
          · simp at hs'
          · obtain ⟨q, -, rfl⟩ := List.mem_map.mp hs'
            simp at hlen'
            omega
        · exact hs'
      obtain ⟨a, raw, h1, h2, hd, rfl, hall, ha⟩ := (mem_nextShapes h s).mp hs2
      simp only [if_true] at hall ha
      have hinc := walk_increasing hd
      have hon' : On ((0 :: walk 0 raw).map fun x => (a + x) % n) w := hon
      obtain ⟨v, hv, hm, -⟩ := (rotated_on (hinc.imp fun {a b} hab => Nat.ne_of_lt hab) hall).mp hon'
      have hwv := (C79.on_within hv).mp hall
      have e : v.map (· / 3) = 0 :: walk 0 raw :=
        List.Pairwise.eq_of_mem_iff (sites_increasing hv.1) hinc fun q => (On.self hv.1).sites hv q
      have hr := rotated_length hv.1 hwv hon.1 hm
      refine ⟨hon.1, hr.2, ?_, v, a, hv.1, hwv, ?_, hm⟩
      · rw [hlen']
        unfold shape
        rw [List.length_map, List.length_cons, walk_length]
        omega
      · rw [near_steps hv.1, e]
        exact walk_chain 0 raw hd
    · rintro ⟨h1, h2, h3, v, d, hv, hbv, hnear, hm⟩
      have hn := bound w h1 h2
      obtain ⟨hvl, -⟩ := rotated_length hv hbv h1 hm
      rw [near_steps hv] at hnear
      have hin := (C79.on_within (On.self hv)).mpr hbv
      have ht : (v.map (· / 3)).Nodup := (sites_increasing hv).imp fun {a b} hab => Nat.ne_of_lt hab
      have hon := (rotated_on (d := d) ht hin).mpr ⟨v, On.self hv, hm, h1⟩
      refine ⟨_, ?_, hon⟩
      unfold chainShapes
      rw [List.mem_append, List.mem_append]
      refine .inr (.inr ((mem_nextShapes h _).mpr ?_))
      have hlw : (v.map (· / 3)).length = v.length := List.length_map _
      cases hc : v.map (· / 3) with
      | nil => rw [hc] at hlw; simp at hlw; omega
      | cons a s =>
        rw [hc] at hnear hin hlw
        obtain ⟨raw, hd, rfl⟩ := chain_walk a s hnear
        rw [List.length_cons, walk_length] at hlw
        have hsh : a :: walk a raw = (0 :: walk 0 raw).map (a + ·) := by
          have := walk_shift a 0 raw
          simp only [Nat.add_zero] at this
          simp [this]
        refine ⟨(d + a) % n, raw, by omega, by omega, hd, ?_, ?_, ?_⟩
        · rw [hsh, List.map_map]
          unfold shape
          refine List.map_congr_left fun x _ => ?_
          simp only [Function.comp_def, if_true]
          rw [Nat.mod_add_mod, Nat.add_assoc]
        · intro x hx
          have : a + x ∈ a :: walk a raw := by rw [hsh]; exact List.mem_map_of_mem hx
          have := hin _ this
          simp only [if_true]
          omega
        · simp only [if_true]
          exact Nat.mod_lt _ (by omega)

example : 2 * 2 < (⟨false, 5, 1, true, false⟩ : Layout).qubits ∧ Normal [1, 12] ∧ RingNear 5 1 [1, 12] := by
  refine ⟨by decide, by unfold Normal; decide, [0, 4], 4, by unfold Normal; decide, ?_, by simp [Near], ?_, ?_⟩
  · rintro q p ⟨hp, h⟩
    simp at h
    omega
  · rintro q p ⟨hp, h⟩
    simp at h
    rcases h with h | h
    · have : q = 0 ∧ p = 0 := by omega
      exact ⟨4, ⟨by omega, by omega⟩, by omega, by simp; omega⟩
    · have : q = 1 ∧ p = 1 := by omega
      exact ⟨0, ⟨by omega, by omega⟩, by omega, by simp; omega⟩
  · rintro q p ⟨hp, h⟩
    simp at h
    rcases h with h | h
    · have : q = 0 ∧ p = 1 := by omega
      exact ⟨1, ⟨by omega, by omega⟩, by omega, by simp; omega⟩
    · have : q = 4 ∧ p = 0 := by omega
      exact ⟨0, ⟨by omega, by omega⟩, by omega, by simp; omega⟩

/-- On the closed chain of two qubits the list of level 2 for nearest neighbours holds each word of two letters twice. -/
theorem C80_refuted_two (wide : Wide) (H : Hasher) : ∃ l, generate wide H ⟨false, 2, 1, true, false⟩ 2 1 = some (some l) ∧ ¬ l.Nodup := by
  refine ⟨[([], .pos)] ++ lengthOne 2 ++ chainPairs true 2 2, by simp [generate, nearWords, Layout.qubits, append], fun hn => ?_⟩
  have h := (List.nodup_append'.mp hn).2.1
  have : chainPairs true 2 2 = twoFill 0 1 ++ twoFill 1 0 := rfl
  rw [this] at h
  exact absurd h (by decide)

/-- Whenever the level reaches the number of qubits of a closed chain of three or more qubits, the list holds a word on all qubits more than once. -/
theorem C80_refuted_full (wide : Wide) (H : Hasher) {L : Layout} (hl : L.lattice = false) (hw : L.wrap = true) (hn : 3 ≤ L.qubits) {level N : Nat}
    (hlv : L.qubits ≤ level) (hN : 0 < N) : ∃ l, generate wide H L level N = some (some l) ∧ ¬ l.Nodup := by
  refine ⟨_, generate_eq wide H hl hN, fun hnd => ?_⟩
  rw [hw, Nat.min_eq_right hlv] at hnd
  generalize L.qubits = n at hn hnd
  unfold chainShapes at hnd
  rw [List.flatMap_append, List.flatMap_append] at hnd
  have h := (List.nodup_append'.mp (List.nodup_append'.mp hnd).2.1).2.1
  have hraw : ∀ d ∈ List.replicate (n - 1) 1, 1 ≤ d ∧ d < 1 + N := fun d hd => by rw [List.eq_of_mem_replicate hd]; omega
  have hraw1 : ∀ d ∈ List.replicate (n - 1) 1, 1 ≤ d ∧ d < 1 + 1 := fun d hd => by rw [List.eq_of_mem_replicate hd]; omega
  have hall : ∀ x ∈ 0 :: walk 0 (List.replicate (n - 1) 1), x < n := by
    intro x hx
    rw [walk_ones] at hx
    rcases List.mem_cons.mp hx with rfl | hx
    · omega
    · rw [List.mem_range'_1] at hx; omega
  have full : ∀ a q, q ∈ shape true n a (List.replicate (n - 1) 1) ↔ q < n := by
    intro a q
    unfold shape
    rw [walk_ones]
    constructor
    · intro hq
      obtain ⟨x, -, rfl⟩ := List.mem_map.mp hq
      exact Nat.mod_lt _ (by omega)
    · intro hq
      refine List.mem_map.mpr ⟨(q + (n - a % n)) % n, ?_, ?_⟩
      · have := Nat.mod_lt (q + (n - a % n)) (show 0 < n by omega)
        rw [List.mem_cons, List.mem_range'_1]
        omega
      · simp only [if_true]
        rw [Nat.add_mod_mod, ← Nat.mod_add_mod, show a % n + (q + (n - a % n)) = q + n by
          have := Nat.mod_lt a (show 0 < n by omega)
          omega, Nat.add_mod_right, Nat.mod_eq_of_lt hq]
  have mem : ∀ a, a < n → shape true n a (List.replicate (n - 1) 1) ∈ nextShapes true n n N := fun a ha =>
    (mem_nextShapes (Nat.le_refl n) _).mpr ⟨a, _, by simp; omega, by simp; omega, hraw, rfl, by simpa using hall, by simpa using ha⟩
  obtain ⟨w, hw⟩ := On.exists (nodup_shape (wrapped := true) (a := 0) hraw1 (by simpa using hall))
  rw [List.nodup_flatMap] at h
  have hne : shape true n 0 (List.replicate (n - 1) 1) ≠ shape true n 1 (List.replicate (n - 1) 1) := by
    intro e
    have := congrArg List.head? e
    simp [shape] at this
    omega
  have hdis : ∀ s ∈ nextShapes true n n N, ∀ t ∈ nextShapes true n n N, s ≠ t → List.Disjoint (permutationFill s) (permutationFill t) := by
    haveI : Std.Symm (Function.onFun (List.Disjoint (α := Entry)) permutationFill) := ⟨fun a b hab => List.Disjoint.symm hab⟩
    intro s hs t ht hst
    exact h.2.forall hs ht hst
  refine hdis _ (mem 0 (by omega)) _ (mem 1 (by omega)) hne
    ((mem_permutationFill (nodup_shape (wrapped := true) hraw1 (by simpa using hall)) (w, .pos)).mpr ⟨rfl, hw⟩)
    ((mem_permutationFill (nodup_shape (wrapped := true) hraw1 (by simpa using hall)) (w, .pos)).mpr ⟨rfl, hw.congr fun q => ?_⟩)
  rw [full, full]

end Moment.C80
