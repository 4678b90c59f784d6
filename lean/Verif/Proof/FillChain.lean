import Verif.Proof.Fill
import Verif.Proof.SiteFields

/-! # Lemmas on words of neighbours on chains -/

namespace Moment.Fill

open Moment.Translate
open Moment.Pauli (Normal)
open Moment.SiteHash (Within)

/-- The sites reached by steps. -/
def walk : Nat → List Nat → List Nat
  | _, [] => []
  | x, d :: raw => (x + d) :: walk (x + d) raw

theorem walk_length : ∀ (x : Nat) (raw : List Nat), (walk x raw).length = raw.length
  | _, [] => rfl
  | x, d :: raw => by simp [walk, walk_length (x + d) raw]

/-- Steps of 1 to `N`. -/
def Step (N x y : Nat) : Prop := x < y ∧ y ≤ x + N

theorem walk_chain {N : Nat} : ∀ (x : Nat) (raw : List Nat), (∀ d ∈ raw, 1 ≤ d ∧ d < 1 + N) → (x :: walk x raw).IsChain (Step N)
  | x, [], _ => List.isChain_singleton x
  | x, d :: raw, h => by
    rw [walk, List.isChain_cons_cons]
    have := h d (by simp)
    exact ⟨⟨by omega, by omega⟩, walk_chain (x + d) raw fun e he => h e (by simp [he])⟩

theorem chain_walk {N : Nat} : ∀ (x : Nat) (s : List Nat), (x :: s).IsChain (Step N) → ∃ raw, (∀ d ∈ raw, 1 ≤ d ∧ d < 1 + N) ∧ s = walk x raw
  | x, [], _ => ⟨[], by simp, rfl⟩
  | x, y :: s, h => by
    rw [List.isChain_cons_cons] at h
    obtain ⟨raw, hr, rfl⟩ := chain_walk y s h.2
    have := h.1
    unfold Step at this
    refine ⟨(y - x) :: raw, ?_, ?_⟩
    · intro d hd
      rcases List.mem_cons.mp hd with rfl | hd
      · omega
      · exact hr d hd
    · rw [walk]
      have : x + (y - x) = y := by omega
      rw [this]

theorem walk_inj : ∀ (x : Nat) (raw raw' : List Nat), walk x raw = walk x raw' → raw = raw'
  | _, [], [], _ => rfl
  | _, [], _ :: _, h => by simp [walk] at h
  | _, _ :: _, [], h => by simp [walk] at h
  | x, d :: raw, d' :: raw', h => by
    simp only [walk, List.cons.injEq] at h
    have : d = d' := by omega
    subst this
    rw [walk_inj _ raw raw' h.2]

theorem step_increasing {N : Nat} {s : List Nat} (h : s.IsChain (Step N)) : s.Pairwise (· < ·) := by
  haveI : IsTrans Nat (· < ·) := ⟨fun _ _ _ => Nat.lt_trans⟩
  exact List.isChain_iff_pairwise.mp (h.imp fun {a b} hab => hab.1)

theorem walk_shift : ∀ (c x : Nat) (raw : List Nat), walk (c + x) raw = (walk x raw).map (c + ·)
  | _, _, [] => rfl
  | c, x, d :: raw => by
    rw [walk, walk, List.map_cons, ← walk_shift c (x + d) raw]
    simp only [Nat.add_assoc]

/-- What `select` gives. -/
theorem select_eq (wrapped : Bool) (n a : Nat) : ∀ (c : Nat) (raw s : List Nat), select wrapped n a c raw = some s ↔
    s = (walk c raw).map (fun x => if wrapped then (a + x) % n else a + x) ∧ ∀ x ∈ walk c raw, if wrapped then x < n else a + x < n
  | c, [], s => by simp [select, walk, eq_comm]
  | c, d :: raw, s => by
    unfold select walk
    have ih := select_eq wrapped n a (c + d) raw
    by_cases hw : (if wrapped then c + d ≥ n else a + (c + d) ≥ n)
    · rw [if_pos hw]
      simp only [reduceCtorEq, false_iff, not_and]
      intro _ hall
      have := hall (c + d) (by simp)
      cases wrapped <;> simp at hw this <;> omega
    · rw [if_neg hw]
      cases hs : select wrapped n a (c + d) raw with
      | none =>
        simp only [Option.map_none, reduceCtorEq, false_iff, not_and]
        intro e hall
        have := (ih ((walk (c + d) raw).map (fun x => if wrapped then (a + x) % n else a + x))).mpr ⟨rfl, fun x hx => hall x (by simp [hx])⟩
        rw [hs] at this
        exact absurd this (by simp)
      | some t =>
        obtain ⟨h1, h2⟩ := (ih t).mp hs
        rw [Option.map_some, Option.some.injEq, List.map_cons, h1]
        constructor
        · rintro rfl
          refine ⟨rfl, fun x hx => ?_⟩
          rcases List.mem_cons.mp hx with rfl | hx
          · cases wrapped <;> simp at hw ⊢ <;> omega
          · exact h2 x hx
        · rintro ⟨rfl, -⟩
          rfl

/-- The shapes of `chain_next_nn_sequences`. -/
noncomputable def nextShapes (wrapped : Bool) (n len N : Nat) : List (List Nat) :=
  (List.range' 2 (len - 1)).flatMap fun parties =>
    (List.range ((if wrapped then n - 1 else n - parties) + 1)).flatMap fun a =>
      (tuples (parties - 1) N 1).flatMap fun raw => match select wrapped n a 0 raw with
        | none => []
        | some s => [a :: s]

theorem chainNext_eq (wrapped : Bool) (n len N : Nat) : chainNext wrapped n len N = (nextShapes wrapped n len N).flatMap permutationFill := by
  unfold chainNext nextShapes
  rw [List.flatMap_assoc]
  congr 1
  funext p
  rw [List.flatMap_assoc]
  congr 1
  funext a
  rw [List.flatMap_assoc]
  congr 1
  funext raw
  cases select wrapped n a 0 raw <;> simp

/-- The shape of a start and steps. -/
def shape (wrapped : Bool) (n a : Nat) (raw : List Nat) : List Nat :=
  (0 :: walk 0 raw).map fun x => if wrapped then (a + x) % n else a + x

theorem mem_nextShapes {wrapped : Bool} {n len N : Nat} (hlen : len ≤ n) (s : List Nat) : s ∈ nextShapes wrapped n len N ↔
    ∃ a raw, 1 ≤ raw.length ∧ raw.length + 1 ≤ len ∧ (∀ d ∈ raw, 1 ≤ d ∧ d < 1 + N) ∧ s = shape wrapped n a raw ∧
      (∀ x ∈ 0 :: walk 0 raw, if wrapped then x < n else a + x < n) ∧ (if wrapped then a < n else a + raw.length + 1 ≤ n) := by
  unfold nextShapes
  simp only [List.mem_flatMap, List.mem_range'_1, List.mem_range]
  constructor
  · rintro ⟨p, hp, a, ha, raw, hraw, hs⟩
    obtain ⟨hl, hd⟩ := ((tuples_spec (show 0 < p - 1 by omega) N 1).1 raw).mp hraw
    have hsel : ∃ t, select wrapped n a 0 raw = some t ∧ s = a :: t := by
      cases h : select wrapped n a 0 raw with
      | none => rw [h] at hs; simp at hs
      | some t => rw [h] at hs; exact ⟨t, rfl, by simpa using hs⟩
    obtain ⟨t, ht, rfl⟩ := hsel
    obtain ⟨e, hall⟩ := (select_eq wrapped n a 0 raw t).mp ht
    have ha' : if wrapped then a < n else a + raw.length + 1 ≤ n := by
      cases wrapped <;> simp at ha ⊢ <;> omega
    refine ⟨a, raw, by omega, by omega, hd, ?_, ?_, ha'⟩
    · unfold shape
      rw [List.map_cons, e]
      congr 1
      cases wrapped
      · simp
      · simp at ha' ⊢; exact (Nat.mod_eq_of_lt ha').symm
    · intro x hx
      rcases List.mem_cons.mp hx with rfl | hx
      · cases wrapped <;> simp at ha' ⊢ <;> omega
      · exact hall x hx
  · rintro ⟨a, raw, h1, h2, hd, rfl, hall, ha⟩
    refine ⟨raw.length + 1, by omega, a, ?_, raw, ((tuples_spec (by omega) N 1).1 raw).mpr ⟨by omega, hd⟩, ?_⟩
    · cases wrapped <;> simp at ha ⊢ <;> omega
    · rw [(select_eq wrapped n a 0 raw _).mpr ⟨rfl, fun x hx => hall x (by simp [hx])⟩]
      simp only [List.mem_singleton]
      unfold shape
      rw [List.map_cons]
      congr 1
      cases wrapped
      · simp
      · simp at ha ⊢; exact Nat.mod_eq_of_lt ha

theorem walk_increasing {N : Nat} {raw : List Nat} (h : ∀ d ∈ raw, 1 ≤ d ∧ d < 1 + N) : (0 :: walk 0 raw).Pairwise (· < ·) :=
  step_increasing (walk_chain 0 raw h)

theorem shape_open (n a : Nat) (raw : List Nat) : shape false n a raw = a :: walk a raw := by
  have := walk_shift a 0 raw
  simp only [Nat.add_zero] at this
  simp [shape, this]

theorem nodup_shape {wrapped : Bool} {n a N : Nat} {raw : List Nat} (hd : ∀ d ∈ raw, 1 ≤ d ∧ d < 1 + N)
    (hb : ∀ x ∈ 0 :: walk 0 raw, if wrapped then x < n else a + x < n) : (shape wrapped n a raw).Nodup := by
  have hn : (0 :: walk 0 raw).Nodup := (walk_increasing hd).imp fun {a b} hab => Nat.ne_of_lt hab
  unfold shape
  refine hn.map_on fun x hx y hy e => ?_
  have h1 := hb x hx
  have h2 := hb y hy
  cases wrapped
  · simpa using e
  · simp only [if_true] at e h1 h2
    have e1 : (a + x) % n = (a + y) % n := e
    have : x ≡ y [MOD n] := Nat.ModEq.add_left_cancel' a e1
    exact Nat.ModEq.eq_of_lt_of_lt this h1 h2

theorem nodup_nextShapes {wrapped : Bool} {n len N : Nat} (hlen : len ≤ n) : ∀ s ∈ nextShapes wrapped n len N, s.Nodup := by
  intro s hs
  obtain ⟨a, raw, -, -, hd, rfl, hall, -⟩ := (mem_nextShapes hlen s).mp hs
  exact nodup_shape hd hall

/-- No shape twice, given that shapes with the same sites have the same start. -/
theorem distinct_nextShapes {wrapped : Bool} {n len N : Nat} (hlen : len ≤ n)
    (huniq : ∀ a a' raw raw', raw.length + 1 ≤ len → raw'.length = raw.length → (∀ d ∈ raw, 1 ≤ d ∧ d < 1 + N) →
      (∀ d ∈ raw', 1 ≤ d ∧ d < 1 + N) → (∀ x ∈ 0 :: walk 0 raw, if wrapped then x < n else a + x < n) →
      (∀ x ∈ 0 :: walk 0 raw', if wrapped then x < n else a' + x < n) → (if wrapped then a < n ∧ a' < n else True) →
      (∀ q, q ∈ shape wrapped n a raw ↔ q ∈ shape wrapped n a' raw') → a = a' ∧ raw = raw') :
    (nextShapes wrapped n len N).Pairwise fun s t => ¬ ∀ q, q ∈ s ↔ q ∈ t := by
  have inner : ∀ p a, 2 ≤ p → a < (if wrapped then n - 1 else n - p) + 1 → p ≤ len → ∀ raw ∈ tuples (p - 1) N 1, ∀ s ∈ (match select wrapped n a 0 raw with
        | none => []
        | some s => [a :: s] : List (List Nat)), raw.length + 1 = p ∧ (∀ d ∈ raw, 1 ≤ d ∧ d < 1 + N) ∧ s = shape wrapped n a raw ∧
        (∀ x ∈ 0 :: walk 0 raw, if wrapped then x < n else a + x < n) ∧ (wrapped = true → a < n) := by
    intro p a hp ha hpl raw hraw s hs
    obtain ⟨hl, hd⟩ := ((tuples_spec (show 0 < p - 1 by omega) N 1).1 raw).mp hraw
    have hsel : ∃ t, select wrapped n a 0 raw = some t ∧ s = a :: t := by
      cases h : select wrapped n a 0 raw with
      | none => rw [h] at hs; simp at hs
      | some t => rw [h] at hs; exact ⟨t, rfl, by simpa using hs⟩
    obtain ⟨t, ht, rfl⟩ := hsel
    obtain ⟨e, hall⟩ := (select_eq wrapped n a 0 raw t).mp ht
    have ha' : if wrapped then a < n else a < n := by
      cases wrapped <;> simp at ha ⊢ <;> omega
    refine ⟨by omega, hd, ?_, ?_, ?_⟩
    · unfold shape
      rw [List.map_cons, e]
      congr 1
      cases wrapped
      · simp
      · simp at ha' ⊢; exact (Nat.mod_eq_of_lt ha').symm
    · intro x hx
      rcases List.mem_cons.mp hx with rfl | hx
      · cases wrapped <;> simp at ha' ⊢ <;> omega
      · exact hall x hx
    · rintro rfl
      simpa using ha'
  unfold nextShapes
  rw [List.pairwise_flatMap]
  constructor
  · intro p hp
    rw [List.mem_range'_1] at hp
    rw [List.pairwise_flatMap]
    constructor
    · intro a ha
      rw [List.mem_range] at ha
      rw [List.pairwise_flatMap]
      constructor
      · intro raw _
        cases select wrapped n a 0 raw <;> simp
      · refine (tuples_spec (show 0 < p - 1 by omega) N 1).2.imp_of_mem fun {r r'} hr hr' hne s hs t ht hq => ?_
        obtain ⟨l1, d1, rfl, b1, c1⟩ := inner p a hp.1 ha (by omega) r hr s hs
        obtain ⟨l2, d2, rfl, b2, c2⟩ := inner p a hp.1 ha (by omega) r' hr' t ht
        refine hne (huniq a a r r' (by omega) (by omega) d1 d2 b1 b2 ?_ hq).2
        split
        · next h => exact ⟨c1 h, c1 h⟩
        · trivial
    · refine List.nodup_range.imp_of_mem fun {a a'} ha ha' hne s hs t ht hq => ?_
      rw [List.mem_range] at ha ha'
      obtain ⟨r, hr, hs⟩ := List.mem_flatMap.mp hs
      obtain ⟨r', hr', ht⟩ := List.mem_flatMap.mp ht
      obtain ⟨l1, d1, rfl, b1, c1⟩ := inner p a hp.1 ha (by omega) r hr s hs
      obtain ⟨l2, d2, rfl, b2, c2⟩ := inner p a' hp.1 ha' (by omega) r' hr' t ht
      refine hne (huniq a a' r r' (by omega) (by omega) d1 d2 b1 b2 ?_ hq).1
      split
      · next h => exact ⟨c1 h, c2 h⟩
      · trivial
  · refine (List.nodup_range' (s := 2) (n := len - 1)).imp_of_mem fun {p p'} hp hp' hne s hs t ht hq => ?_
    rw [List.mem_range'_1] at hp hp'
    obtain ⟨a, ha, hs⟩ := List.mem_flatMap.mp hs
    obtain ⟨a', ha', ht⟩ := List.mem_flatMap.mp ht
    obtain ⟨r, hr, hs⟩ := List.mem_flatMap.mp hs
    obtain ⟨r', hr', ht⟩ := List.mem_flatMap.mp ht
    rw [List.mem_range] at ha ha'
    obtain ⟨l1, d1, rfl, b1, -⟩ := inner p a hp.1 ha (by omega) r hr s hs
    obtain ⟨l2, d2, rfl, b2, -⟩ := inner p' a' hp'.1 ha' (by omega) r' hr' t ht
    have := (List.perm_ext_iff_of_nodup (nodup_shape d1 b1) (nodup_shape d2 b2)).mpr hq
    have := this.length_eq
    unfold shape at this
    simp only [List.length_map, List.length_cons, walk_length] at this
    omega

theorem distinct_open {n len N : Nat} (hlen : len ≤ n) : (nextShapes false n len N).Pairwise fun s t => ¬ ∀ q, q ∈ s ↔ q ∈ t := by
  refine distinct_nextShapes hlen fun a a' raw raw' _ _ hd hd' _ _ _ hq => ?_
  rw [shape_open, shape_open] at hq
  have e := List.Pairwise.eq_of_mem_iff (step_increasing (walk_chain a raw hd)) (step_increasing (walk_chain a' raw' hd')) hq
  simp only [List.cons.injEq] at e
  obtain ⟨rfl, e⟩ := e
  exact ⟨rfl, walk_inj _ _ _ e⟩

theorem walk_bound {N : Nat} : ∀ (x : Nat) (raw : List Nat), (∀ d ∈ raw, 1 ≤ d ∧ d < 1 + N) → ∀ y ∈ walk x raw, y ≤ x + raw.length * N
  | _, [], _, y, hy => by simp [walk] at hy
  | x, d :: raw, h, y, hy => by
    have hd := h d (by simp)
    rw [walk] at hy
    rw [List.length_cons, Nat.succ_mul]
    rcases List.mem_cons.mp hy with rfl | hy
    · have := Nat.zero_le (raw.length * N)
      omega
    · have := walk_bound (x + d) raw (fun e he => h e (by simp [he])) y hy
      omega

theorem walk_before {N : Nat} : ∀ (x : Nat) (raw : List Nat), (∀ d ∈ raw, 1 ≤ d ∧ d < 1 + N) → ∀ y ∈ walk x raw, ∃ z ∈ x :: walk x raw, z < y ∧ y ≤ z + N
  | _, [], _, y, hy => by simp [walk] at hy
  | x, d :: raw, h, y, hy => by
    have hd := h d (by simp)
    rw [walk] at hy ⊢
    rcases List.mem_cons.mp hy with rfl | hy
    · exact ⟨x, by simp, by omega, by omega⟩
    · obtain ⟨z, hz, h1⟩ := walk_before (x + d) raw (fun e he => h e (by simp [he])) y hy
      exact ⟨z, by simp only [List.mem_cons] at hz ⊢; exact .inr hz, h1⟩

theorem distinct_ring {n len N : Nat} (hlen : len ≤ n) (hsmall : len * N < n) :
    (nextShapes true n len N).Pairwise fun s t => ¬ ∀ q, q ∈ s ↔ q ∈ t := by
  -- the start is the only site that has no other site up to `N` steps before it
  have free : ∀ a raw, raw.length + 1 ≤ len → a < n → (∀ d ∈ raw, 1 ≤ d ∧ d < 1 + N) → (∀ x ∈ 0 :: walk 0 raw, x < n) →
      ∀ q, q ∈ shape true n a raw → ((∀ r ∈ shape true n a raw, ∀ d, 1 ≤ d → d ≤ N → (r + d) % n ≠ q) ↔ q = a) := by
    intro a raw hl ha hd hb q hq
    have hn : 0 < n := by omega
    unfold shape at hq ⊢
    obtain ⟨x, hx, rfl⟩ := List.mem_map.mp hq
    simp only [if_true] at hq ⊢
    have hxn := hb x hx
    constructor
    · intro hfree
      rcases List.mem_cons.mp hx with rfl | hx
      · rw [Nat.add_zero, Nat.mod_eq_of_lt ha]
      · obtain ⟨z, hz, h1, h2⟩ := walk_before 0 raw hd x hx
        refine absurd ?_ (hfree ((a + z) % n) (List.mem_map.mpr ⟨z, hz, rfl⟩) (x - z) (by omega) (by omega))
        rw [Nat.mod_add_mod]
        congr 1
        omega
    · intro e r hr d h1 h2 h3
      obtain ⟨z, hz, rfl⟩ := List.mem_map.mp hr
      have hx0 : x = 0 := by
        have e2 : (a + x) % n = (a + 0) % n := by rw [e, Nat.add_zero, Nat.mod_eq_of_lt ha]
        have : x ≡ 0 [MOD n] := Nat.ModEq.add_left_cancel' a e2
        exact Nat.ModEq.eq_of_lt_of_lt this hxn hn
      subst hx0
      have hz' : z ≤ raw.length * N := by
        rcases List.mem_cons.mp hz with rfl | hz
        · exact Nat.zero_le _
        · have := walk_bound 0 raw hd z hz
          omega
      have hz2 : z + d < n := by
        have : (raw.length + 1) * N ≤ len * N := Nat.mul_le_mul_right N hl
        rw [Nat.succ_mul] at this
        omega
      rw [Nat.mod_add_mod, Nat.add_assoc] at h3
      have : z + d ≡ 0 [MOD n] := Nat.ModEq.add_left_cancel' a h3
      have := Nat.ModEq.eq_of_lt_of_lt this hz2 hn
      omega
  refine distinct_nextShapes hlen fun a a' raw raw' hl hl' hd hd' hb hb' hs hq => ?_
  simp only [if_true] at hb hb' hs
  have ha : a ∈ shape true n a raw := by
    unfold shape
    rw [List.map_cons]
    simp [Nat.mod_eq_of_lt hs.1]
  have key := (free a raw hl hs.1 hd hb a ha).mpr rfl
  have haa : a = a' := (free a' raw' (by omega) hs.2 hd' hb' a ((hq a).mp ha)).mp fun r hr => key r ((hq r).mpr hr)
  subst haa
  refine ⟨rfl, ?_⟩
  have mem : ∀ r : List Nat, (∀ x ∈ 0 :: walk 0 r, x < n) → ∀ y, y < n → ((a + y) % n ∈ shape true n a r ↔ y ∈ 0 :: walk 0 r) := by
    intro r hbr y hy
    unfold shape
    constructor
    · intro h
      obtain ⟨x, hx, e⟩ := List.mem_map.mp h
      have e1 : (a + x) % n = (a + y) % n := e
      have : x ≡ y [MOD n] := Nat.ModEq.add_left_cancel' a e1
      rw [← Nat.ModEq.eq_of_lt_of_lt this (hbr x hx) hy]
      exact hx
    · intro h
      exact List.mem_map.mpr ⟨y, h, rfl⟩
  have e : 0 :: walk 0 raw = 0 :: walk 0 raw' := by
    refine List.Pairwise.eq_of_mem_iff (walk_increasing hd) (walk_increasing hd') fun y => ?_
    by_cases hy : y < n
    · rw [← mem raw hb y hy, ← mem raw' hb' y hy, hq]
    · exact ⟨fun h => absurd (hb y h) hy, fun h => absurd (hb' y h) hy⟩
  exact walk_inj 0 _ _ (by simpa using e)

/-! ## Nearest neighbours -/

theorem walk_ones : ∀ (x m : Nat), walk x (List.replicate m 1) = List.range' (x + 1) m
  | _, 0 => rfl
  | x, m + 1 => by rw [List.replicate_succ, walk, walk_ones, List.range'_succ]

theorem tuples_one {m : Nat} (hm : 0 < m) : tuples m 1 1 = [List.replicate m 1] := by
  obtain ⟨h1, h2⟩ := tuples_spec hm 1 1
  have : ∀ v, v ∈ tuples m 1 1 ↔ v ∈ [List.replicate m 1] := by
    intro v
    rw [h1, List.mem_singleton, List.eq_replicate_iff]
    exact and_congr_right fun _ => forall₂_congr fun o _ => by omega
  have hp := (List.perm_ext_iff_of_nodup h2 (List.nodup_singleton _)).mpr this
  exact List.perm_singleton.mp hp

/-- `chain_nn_sequences` gives the same list as `chain_next_nn_sequences` would for distance 1. -/
theorem chainPairs_eq (wrapped : Bool) {n len : Nat} (h2 : 2 ≤ len) (hlen : len ≤ n) : chainPairs wrapped n len = chainNext wrapped n len 1 := by
  have inner : ∀ p a, 2 ≤ p → p ≤ len → a < (if wrapped then n - 1 else n - p) + 1 →
      ((tuples (p - 1) 1 1).flatMap fun raw => match select wrapped n a 0 raw with
        | none => []
        | some s => permutationFill (a :: s)) = permutationFill ((List.range p).map fun i => if wrapped then (a + i) % n else a + i) := by
    intro p a hp hpl ha
    rw [tuples_one (by omega), List.flatMap_cons, List.flatMap_nil, List.append_nil, (select_eq wrapped n a 0 _ _).mpr ⟨rfl, ?_⟩]
    · simp only
      rw [walk_ones]
      have e : List.range p = 0 :: List.range' (0 + 1) (p - 1) := by
        rw [List.range_eq_range']
        conv => lhs; rw [show p = (p - 1) + 1 by omega]
        rw [List.range'_succ]
      rw [e, List.map_cons]
      congr 2
      cases wrapped
      · simp
      · simp at ha ⊢
        exact (Nat.mod_eq_of_lt (by omega)).symm
    · intro x hx
      rw [walk_ones, List.mem_range'_1] at hx
      cases wrapped <;> simp at ha ⊢ <;> omega
  unfold chainPairs chainNext
  rw [if_pos h2, show List.range' 2 (len - 1) = 2 :: List.range' 3 (len - 2) by
    rw [show len - 1 = (len - 2) + 1 by omega, List.range'_succ], List.flatMap_cons]
  congr 1
  · have e : (List.range ((if wrapped then n - 1 else n - 2) + 1)).flatMap (fun a => (tuples (2 - 1) 1 1).flatMap fun raw => match select wrapped n a 0 raw with
        | none => []
        | some s => permutationFill (a :: s)) = (List.range ((if wrapped then n - 1 else n - 2) + 1)).flatMap fun a =>
          permutationFill ((List.range 2).map fun i => if wrapped then (a + i) % n else a + i) :=
      List.flatMap_congr fun a ha => inner 2 a (by omega) h2 (List.mem_range.mp ha)
    refine Eq.trans ?_ e.symm
    cases wrapped
    · simp [List.range_succ, permutationFill]
    · simp only [if_true]
      rw [show n - 1 + 1 = (n - 2 + 1) + 1 by omega, List.range_succ (n := n - 2 + 1), List.flatMap_append, List.flatMap_cons, List.flatMap_nil,
        List.append_nil]
      congr 1
      · refine List.flatMap_congr fun a ha => ?_
        rw [List.mem_range] at ha
        simp only [List.range_succ, List.range_zero, List.nil_append, List.cons_append, List.map_cons, List.map_nil, permutationFill, Nat.add_zero]
        rw [Nat.mod_eq_of_lt (show a < n by omega), Nat.mod_eq_of_lt (show a + 1 < n by omega)]
      · simp only [List.range_succ, List.range_zero, List.nil_append, List.cons_append, List.map_cons, List.map_nil, permutationFill, Nat.add_zero]
        rw [Nat.mod_eq_of_lt (show n - 2 + 1 < n by omega), show n - 2 + 1 + 1 = n by omega, Nat.mod_self, show n - 2 + 1 = n - 1 by omega]
  · refine List.flatMap_congr fun p hp => List.flatMap_congr fun a ha => ?_
    rw [List.mem_range'_1] at hp
    rw [List.mem_range] at ha
    refine Eq.trans ?_ (inner p a (by omega) (by omega) ha).symm
    obtain ⟨m, rfl⟩ : ∃ m, p = m + 3 := ⟨p - 3, by omega⟩
    rw [List.range_succ_eq_map, List.range_succ_eq_map, List.range_succ_eq_map]
    rfl

end Moment.Fill
