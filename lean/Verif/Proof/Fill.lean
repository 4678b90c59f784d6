import Verif.Model.Fill
import Verif.Spec.Fill
import Verif.Proof.LocalityOSG
import Verif.Proof.Pauli
import Verif.Proof.Translate
import Verif.Props.C29_MultiDim
import Verif.Props.C31_Enumeration

/-! # Lemmas on words with given sites -/

namespace Moment.Fill

open Moment.Translate
open Moment.Pauli (Normal)

theorem tuples_spec {parties : Nat} (hp : 0 < parties) (count offset : Nat) :
    (∀ v, v ∈ tuples parties count offset ↔ v.length = parties ∧ ∀ o ∈ v, offset ≤ o ∧ o < offset + count) ∧ (tuples parties count offset).Nodup := by
  obtain ⟨l, hy, hm, hl⟩ := C29.C29_operator_words parties count offset hp
  unfold tuples
  rw [Locality.collect_eq hy]
  exact ⟨hm, hl.imp fun {a b} hab he => by subst he; exact lex_irrefl _ hab⟩

theorem simplify_distinct {w : List Nat} (h : (w.map (· / 3)).Nodup) : Pauli.simplify w .pos = (stableSort (· / 3) w, .pos) := by
  have hn : Normal (stableSort (· / 3) w) := by
    have h1 := Pauli.sort_sorted (· / 3) w
    have h2 : ((stableSort (· / 3) w).map (· / 3)).Nodup := ((Pauli.sort_perm (· / 3) w).map _).nodup_iff.mpr h
    unfold Normal
    rw [List.Nodup, List.pairwise_map] at h2
    exact (h1.and h2).imp fun {a b} hab => Nat.lt_of_le_of_ne hab.1 hab.2
  have hs : Pauli.SameOperator (Pauli.simplify w .pos).2 (Pauli.simplify w .pos).1 .pos (stableSort (· / 3) w) := by
    intro b
    rw [Pauli.simplify_act w .pos b]
    unfold Pauli.actS
    rw [Pauli.act_sort]
  have := Pauli.normal_unique _ _ _ _ (Pauli.simplify_normal w .pos).1 hn hs
  exact Prod.ext this.2 this.1

theorem On.normal {s w : List Nat} (h : On s w) : Normal w := h.1

theorem On.letter {s w : List Nat} (h : On s w) : ∃ f : Nat → Nat, (∀ q, f q < 3) ∧ ∀ q p, Has w q p ↔ q ∈ s ∧ p = f q := by
  have : ∀ q, ∃ p, p < 3 ∧ (q ∈ s → Has w q p) := by
    intro q
    by_cases hq : q ∈ s
    · obtain ⟨p, hp⟩ := (h.2 q).mpr hq
      exact ⟨p, hp.1, fun _ => hp⟩
    · exact ⟨0, by decide, fun hs => absurd hs hq⟩
  choose f hf using this
  refine ⟨f, fun q => (hf q).1, fun q p => ⟨fun hp => ?_, ?_⟩⟩
  · have hq := (h.2 q).mp ⟨p, hp⟩
    exact ⟨hq, hp.of_normal h.1 ((hf q).2 hq)⟩
  · rintro ⟨hq, rfl⟩
    exact (hf q).2 hq

/-- The word is given by the letters. -/
theorem On.of_letter {s w : List Nat} {f : Nat → Nat} (hw : Normal w) (h : ∀ q p, Has w q p ↔ q ∈ s ∧ p = f q) : On s w :=
  ⟨hw, fun q => ⟨fun ⟨p, hp⟩ => ((h q p).mp hp).1, fun hq => ⟨f q, (h q _).mpr ⟨hq, rfl⟩⟩⟩⟩

theorem On.congr {s t w : List Nat} (h : On s w) (e : ∀ q, q ∈ s ↔ q ∈ t) : On t w := ⟨h.1, fun q => (h.2 q).trans (e q)⟩

theorem On.sites {s t w : List Nat} (h : On s w) (h' : On t w) (q : Nat) : q ∈ s ↔ q ∈ t := (h.2 q).symm.trans (h'.2 q)

/-- A normal word lies on its own sites. -/
theorem On.self {w : List Nat} (h : Normal w) : On (w.map (· / 3)) w := by
  refine ⟨h, fun q => ⟨fun ⟨p, hp, hm⟩ => List.mem_map.mpr ⟨_, hm, by omega⟩, fun hq => ?_⟩⟩
  obtain ⟨o, ho, rfl⟩ := List.mem_map.mp hq
  exact ⟨_, has_mem.mp ho⟩

theorem On.perm {s w : List Nat} (hs : s.Nodup) (h : On s w) : s.Perm (w.map (· / 3)) := by
  refine (List.perm_ext_iff_of_nodup hs ?_).mpr fun q => h.sites (On.self h.1) q
  have := h.1
  unfold Normal at this
  rw [List.Nodup, List.pairwise_map]
  exact this.imp fun {a b} hab => Nat.ne_of_lt hab

theorem On.length {s w : List Nat} (hs : s.Nodup) (h : On s w) : w.length = s.length := by
  rw [(h.perm hs).length_eq, List.length_map]

theorem letters_sites : ∀ {s raw : List Nat}, raw.length = s.length → (∀ p ∈ raw, p < 3) → (letters s raw).map (· / 3) = s
  | [], [], _, _ => rfl
  | q :: s, p :: raw, hl, hr => by
    have := letters_sites (s := s) (raw := raw) (by simpa using hl) (fun p hp => hr p (by simp [hp]))
    have hp := hr p (by simp)
    unfold letters at this ⊢
    rw [List.zipWith_cons_cons, List.map_cons, this]
    congr 1
    omega

theorem letters_map (s : List Nat) (f : Nat → Nat) : letters s (s.map f) = s.map fun q => 3 * q + f q := by
  unfold letters
  induction s with
  | nil => rfl
  | cons q s ih => simp [ih]

theorem sort_normal {w : List Nat} (h : (w.map (· / 3)).Nodup) : Normal (stableSort (· / 3) w) := by
  have := (Pauli.simplify_normal w .pos).1
  rwa [simplify_distinct h] at this

theorem has_sort {w : List Nat} {q p : Nat} : Has (stableSort (· / 3) w) q p ↔ Has w q p := by
  unfold Has
  rw [(Pauli.sort_perm (· / 3) w).mem_iff]

/-- All letters on the sites, each word once. -/
theorem mem_doPermutationFill {s : List Nat} (hs : s.Nodup) (h0 : s ≠ []) (e : Entry) : e ∈ doPermutationFill s ↔ e.2 = .pos ∧ On s e.1 := by
  obtain ⟨hm, -⟩ := tuples_spec (List.length_pos_iff.mpr h0) 3 0
  unfold doPermutationFill
  rw [List.mem_map]
  constructor
  · rintro ⟨raw, hraw, rfl⟩
    obtain ⟨hl, hr⟩ := (hm raw).mp hraw
    have hr' : ∀ p ∈ raw, p < 3 := fun p hp => by have := hr p hp; omega
    have hd : ((letters s raw).map (· / 3)).Nodup := by rw [letters_sites hl hr']; exact hs
    rw [simplify_distinct hd]
    refine ⟨rfl, ?_⟩
    refine (On.self (sort_normal hd)).congr fun q => ?_
    rw [((Pauli.sort_perm (· / 3) _).map _).mem_iff, letters_sites hl hr']
  · rintro ⟨h1, h2⟩
    obtain ⟨f, hf, hh⟩ := h2.letter
    have hd : ((letters s (s.map f)).map (· / 3)).Nodup := by
      rw [letters_sites (by simp) (by
        intro p hp
        obtain ⟨q, -, rfl⟩ := List.mem_map.mp hp
        exact hf q)]
      exact hs
    refine ⟨s.map f, (hm _).mpr ⟨by simp, ?_⟩, ?_⟩
    · intro p hp
      obtain ⟨q, -, rfl⟩ := List.mem_map.mp hp
      have := hf q
      omega
    · rw [simplify_distinct hd]
      refine Prod.ext ?_ h1.symm
      refine normal_ext (sort_normal hd) h2.1 fun q p => ?_
      rw [has_sort, hh, letters_map]
      constructor
      · rintro ⟨hp, hq⟩
        obtain ⟨r, hr, e⟩ := List.mem_map.mp hq
        have := hf r
        have hrq : r = q := by omega
        subst hrq
        exact ⟨hr, by omega⟩
      · rintro ⟨hq, rfl⟩
        exact ⟨hf q, List.mem_map.mpr ⟨q, hq, rfl⟩⟩

theorem nodup_doPermutationFill {s : List Nat} (hs : s.Nodup) (h0 : s ≠ []) : (doPermutationFill s).Nodup := by
  obtain ⟨hm, hn⟩ := tuples_spec (List.length_pos_iff.mpr h0) 3 0
  unfold doPermutationFill
  refine List.Nodup.map_on ?_ hn
  intro raw hraw raw' hraw' e
  obtain ⟨hl, hr⟩ := (hm raw).mp hraw
  obtain ⟨hl', hr'⟩ := (hm raw').mp hraw'
  have k1 : ∀ p ∈ raw, p < 3 := fun p hp => by have := hr p hp; omega
  have k2 : ∀ p ∈ raw', p < 3 := fun p hp => by have := hr' p hp; omega
  rw [simplify_distinct (by rw [letters_sites hl k1]; exact hs), simplify_distinct (by rw [letters_sites hl' k2]; exact hs)] at e
  have e1 : stableSort (· / 3) (letters s raw) = stableSort (· / 3) (letters s raw') := congrArg Prod.fst e
  have mem : ∀ o, o ∈ letters s raw ↔ o ∈ letters s raw' := by
    intro o
    rw [← (Pauli.sort_perm (· / 3) (letters s raw)).mem_iff, e1, (Pauli.sort_perm (· / 3) (letters s raw')).mem_iff]
  refine List.ext_getElem (by omega) fun i h1 h2 => ?_
  have hi : i < s.length := by omega
  have : 3 * s[i] + raw[i] ∈ letters s raw := by
    unfold letters
    rw [List.mem_iff_getElem]
    exact ⟨i, by simp; omega, by simp⟩
  rw [mem] at this
  unfold letters at this
  rw [List.mem_iff_getElem] at this
  obtain ⟨j, hj, ej⟩ := this
  simp only [List.length_zipWith, List.getElem_zipWith] at hj ej
  have hj' : j < s.length := by omega
  have hj2 : j < raw'.length := by omega
  have b1 := k1 _ (List.getElem_mem h1)
  have b2 := k2 _ (List.getElem_mem hj2)
  have es : s[j] = s[i] := by omega
  have : j = i := (List.Nodup.getElem_inj_iff hs).mp es
  subst this
  omega

theorem mem_twoFill {a b : Nat} (hab : a ≠ b) (e : Entry) : e ∈ twoFill a b ↔ e.2 = .pos ∧ On [a, b] e.1 := by
  have key : ∀ c d : Nat, c < d → ∀ w, (∃ x y, (3 * c ≤ x ∧ x < 3 * c + 3) ∧ (3 * d ≤ y ∧ y < 3 * d + 3) ∧ [x, y] = w) ↔ On [c, d] w := by
    intro c d hcd w
    constructor
    · rintro ⟨x, y, hx, hy, rfl⟩
      have hx' : x / 3 = c := by omega
      have hy' : y / 3 = d := by omega
      have hn : Normal [x, y] := by
        unfold Normal
        simp
        omega
      refine (On.self hn).congr fun q => ?_
      simp [hx', hy']
    · intro h
      obtain ⟨f, hf, hh⟩ := h.letter
      refine ⟨3 * c + f c, 3 * d + f d, ?_, ?_, ?_⟩
      · have := hf c; omega
      · have := hf d; omega
      · have := hf c
        have := hf d
        refine normal_ext ?_ h.1 fun q p => ?_
        · unfold Normal
          simp
          omega
        · rw [hh]
          constructor
          · rintro ⟨hp, hq⟩
            rcases List.mem_pair.mp hq with e | e
            · have : q = c := by omega
              subst this
              exact ⟨by simp, by omega⟩
            · have : q = d := by omega
              subst this
              exact ⟨by simp, by omega⟩
          · rintro ⟨hq, rfl⟩
            refine ⟨hf q, ?_⟩
            rcases List.mem_pair.mp hq with rfl | rfl <;> simp
  unfold twoFill
  split
  · next h =>
    rw [← key a b (by omega)]
    simp only [List.mem_flatMap, List.mem_map, List.mem_range'_1]
    constructor
    · rintro ⟨x, hx, y, hy, rfl⟩
      exact ⟨rfl, x, y, by omega, by omega, rfl⟩
    · rintro ⟨h1, x, y, hx, hy, h2⟩
      exact ⟨x, by omega, y, by omega, Prod.ext h2 h1.symm⟩
  · next h =>
    have e1 : On [a, b] e.1 ↔ On [b, a] e.1 := ⟨fun h => h.congr (by simp [or_comm]), fun h => h.congr (by simp [or_comm])⟩
    rw [e1, ← key b a (by omega)]
    simp only [List.mem_flatMap, List.mem_map, List.mem_range'_1]
    constructor
    · rintro ⟨x, hx, y, hy, rfl⟩
      exact ⟨rfl, y, x, by omega, by omega, rfl⟩
    · rintro ⟨h1, x, y, hx, hy, h2⟩
      exact ⟨y, by omega, x, by omega, Prod.ext h2 h1.symm⟩

theorem nodup_twoFill (a b : Nat) : (twoFill a b).Nodup := by
  have hr : ∀ n m : Nat, (List.range' n m).Nodup := fun n m => List.nodup_range'
  unfold twoFill
  split <;>
  · rw [List.nodup_flatMap]
    refine ⟨fun x _ => (hr _ _).map fun y y' e => by simpa using e, ?_⟩
    refine (hr _ _).imp fun {x x'} hne => ?_
    unfold Function.onFun
    rw [List.disjoint_left]
    intro e h1 h2
    obtain ⟨y, -, rfl⟩ := List.mem_map.mp h1
    obtain ⟨y', -, e'⟩ := List.mem_map.mp h2
    simp at e'
    exact hne (by omega)

theorem mem_oneFill (q : Nat) (e : Entry) : e ∈ oneFill q ↔ e.2 = .pos ∧ On [q] e.1 := by
  unfold oneFill
  constructor
  · intro h
    simp only [List.mem_cons, List.not_mem_nil, or_false] at h
    rcases h with rfl | rfl | rfl <;>
    · refine ⟨rfl, (On.self (by simp [Normal])).congr fun r => ?_⟩
      have h0 : (3 * q) / 3 = q := by omega
      have h1 : (3 * q + 1) / 3 = q := by omega
      have h2 : (3 * q + 2) / 3 = q := by omega
      simp only [List.map_cons, List.map_nil, h0, h1, h2]
  · rintro ⟨h1, h2⟩
    obtain ⟨f, hf, hh⟩ := h2.letter
    have hw : e.1 = [3 * q + f q] := by
      refine normal_ext h2.1 (by simp [Normal]) fun r p => ?_
      rw [hh]
      have := hf q
      constructor
      · rintro ⟨hr, rfl⟩
        rw [List.mem_singleton] at hr
        subst hr
        exact ⟨hf r, by simp⟩
      · rintro ⟨hp, hr⟩
        rw [List.mem_singleton] at hr
        have : r = q := by omega
        subst this
        exact ⟨by simp, by omega⟩
    have he : e = ([3 * q + f q], .pos) := Prod.ext hw h1
    rw [he]
    have := hf q
    have : f q = 0 ∨ f q = 1 ∨ f q = 2 := by omega
    rcases this with h | h | h <;> simp [h]

theorem nodup_oneFill (q : Nat) : (oneFill q).Nodup := by simp [oneFill]

theorem On.nil {w : List Nat} : On [] w ↔ w = [] := by
  constructor
  · intro h
    have := h.length List.nodup_nil
    exact List.length_eq_zero_iff.mp (by simpa using this)
  · rintro rfl
    exact ⟨by simp [Normal], by simp [Has]⟩

/-- `permutation_fill` gives all words on the sites. -/
theorem mem_permutationFill {s : List Nat} (hs : s.Nodup) (e : Entry) : e ∈ permutationFill s ↔ e.2 = .pos ∧ On s e.1 := by
  match s, hs with
  | [], _ =>
    rw [On.nil]
    simp only [permutationFill, List.mem_singleton]
    exact ⟨fun h => by rw [h]; exact ⟨rfl, rfl⟩, fun ⟨h1, h2⟩ => Prod.ext h2 h1⟩
  | [q], _ => exact mem_oneFill q e
  | [a, b], hs => exact mem_twoFill (by simpa using hs) e
  | a :: b :: c :: s, hs => exact mem_doPermutationFill hs (by simp) e

theorem nodup_permutationFill {s : List Nat} (hs : s.Nodup) : (permutationFill s).Nodup := by
  match s, hs with
  | [], _ => simp [permutationFill]
  | [q], _ => exact nodup_oneFill q
  | [a, b], hs => exact nodup_twoFill a b
  | a :: b :: c :: s, hs => exact nodup_doPermutationFill hs (by simp)

/-- There is a word on all sites. -/
theorem On.exists {s : List Nat} (hs : s.Nodup) : ∃ w, On s w := by
  refine ⟨stableSort (· / 3) (s.map fun q => 3 * q), ?_⟩
  have hm : (s.map fun q => 3 * q).map (· / 3) = s := by
    rw [List.map_map]
    conv => rhs; rw [← List.map_id s]
    exact List.map_congr_left fun q _ => by simp
  refine (On.self (sort_normal (by rw [hm]; exact hs))).congr fun q => ?_
  rw [((Pauli.sort_perm (· / 3) _).map _).mem_iff, hm]

/-! ## Lists of shapes -/

/-- Words over a list of shapes, shape by shape. -/
theorem mem_shapes {S : List (List Nat)} (hS : ∀ s ∈ S, s.Nodup) (e : Entry) :
    e ∈ S.flatMap permutationFill ↔ e.2 = .pos ∧ ∃ s ∈ S, On s e.1 := by
  rw [List.mem_flatMap]
  constructor
  · rintro ⟨s, hs, he⟩
    have := (mem_permutationFill (hS s hs) e).mp he
    exact ⟨this.1, s, hs, this.2⟩
  · rintro ⟨h1, s, hs, h2⟩
    exact ⟨s, hs, (mem_permutationFill (hS s hs) e).mpr ⟨h1, h2⟩⟩

/-- No word twice if no two shapes have the same sites. -/
theorem nodup_shapes {S : List (List Nat)} (hS : ∀ s ∈ S, s.Nodup) (hd : S.Pairwise fun s t => ¬ ∀ q, q ∈ s ↔ q ∈ t) :
    (S.flatMap permutationFill).Nodup := by
  rw [List.nodup_flatMap]
  refine ⟨fun s hs => nodup_permutationFill (hS s hs), ?_⟩
  refine hd.imp_of_mem fun {s t} hs ht hne => ?_
  unfold Function.onFun
  rw [List.disjoint_left]
  intro e h1 h2
  exact hne fun q => ((mem_permutationFill (hS s hs) e).mp h1).2.sites ((mem_permutationFill (hS t ht) e).mp h2).2 q

/-- If all shapes are increasing it suffices that none is listed twice. -/
theorem nodup_increasing {S : List (List Nat)} (hS : ∀ s ∈ S, s.Pairwise (· < ·)) (hd : S.Nodup) : (S.flatMap permutationFill).Nodup := by
  refine nodup_shapes (fun s hs => (hS s hs).imp fun {a b} hab => Nat.ne_of_lt hab) ?_
  exact hd.imp_of_mem fun {s t} hs ht hne h => hne (List.Pairwise.eq_of_mem_iff (hS s hs) (hS t ht) h)

theorem sites_increasing {w : List Nat} (h : Normal w) : (w.map (· / 3)).Pairwise (· < ·) := by
  rw [List.pairwise_map]
  exact h

theorem lengthOne_eq (n : Nat) : lengthOne n = ((List.range n).map fun q => [q]).flatMap permutationFill := by
  induction n with
  | zero => rfl
  | succ n ih =>
    unfold lengthOne at ih ⊢
    rw [Nat.succ_mul, List.range_add, List.map_append, ih, List.range_succ (n := n), List.map_append, List.flatMap_append]
    congr 1
    simp only [List.range_succ, List.range_zero, List.nil_append, List.map_append, List.map_cons, List.map_nil, List.flatMap_cons, List.flatMap_nil,
      List.append_nil, permutationFill, oneFill, List.cons_append, Nat.mul_comm n 3, Nat.add_zero]

/-- The shapes of `compute_all_sequences`. -/
noncomputable def allShapes (n len : Nat) : List (List Nat) :=
  [[]] ++ (if len < 1 then [] else ((List.range n).map fun q => [q]) ++ (if len < 2 then [] else
    ((List.range (n - 1)).flatMap fun a => (List.range' (a + 1) (n - (a + 1))).map fun b => [a, b]) ++
    (List.range' 3 (len - 2)).flatMap fun parties => subsets n parties))

theorem allWords_eq (n level : Nat) : allWords n level = (allShapes n (min level n)).flatMap permutationFill := by
  unfold allWords allShapes
  simp only [List.flatMap_append, List.flatMap_cons, List.flatMap_nil, List.append_nil]
  congr 1
  split
  · rfl
  rw [List.flatMap_append, ← lengthOne_eq]
  congr 1
  split
  · rfl
  rw [List.flatMap_append]
  congr 1
  · rw [List.flatMap_assoc]
    congr 1
    funext a
    rw [List.flatMap_map]
    rfl
  · rw [List.flatMap_assoc]

theorem subsets_spec {n parties : Nat} (h : parties ≤ n) :
    (∀ v, v ∈ subsets n parties ↔ v.length = parties ∧ v.Pairwise (· < ·) ∧ ∀ x ∈ v, x < n) ∧ (subsets n parties).Nodup := by
  obtain ⟨l, hy, hm, hn, -⟩ := C31.C34_partitions n parties h
  unfold subsets
  rw [Locality.collect_eq hy]
  exact ⟨hm, hn⟩

theorem mem_allShapes {n len : Nat} (h : len ≤ n) (s : List Nat) :
    s ∈ allShapes n len ↔ s.length ≤ len ∧ s.Pairwise (· < ·) ∧ ∀ x ∈ s, x < n := by
  unfold allShapes
  rw [List.mem_append, List.mem_singleton]
  match s with
  | [] => simp
  | [q] =>
    have hsub : ∀ p : Nat, 3 ≤ p → p ≤ n → [q] ∉ subsets n p := fun p h1 h2 hm => by
      have := (((subsets_spec h2).1 _).mp hm).1
      simp at this
      omega
    split
    · simp; omega
    · next h1 =>
      rw [List.mem_append]
      split
      · simp; omega
      · simp only [List.mem_append, List.mem_map, List.mem_range, List.mem_flatMap, List.mem_range'_1]
        constructor
        · rintro (h2 | ⟨r, hr, e⟩ | ⟨a, -, b, -, e⟩ | ⟨p, hp, hm⟩)
          · simp at h2
          · simp at e; subst e; simp; omega
          · simp at e
          · exact absurd hm (hsub p hp.1 (by omega))
        · rintro ⟨-, -, hq⟩
          exact .inr (.inl ⟨q, hq q (by simp), rfl⟩)
  | [a, b] =>
    have hsub : ∀ p : Nat, 3 ≤ p → p ≤ n → [a, b] ∉ subsets n p := fun p h1 h2 hm => by
      have := (((subsets_spec h2).1 _).mp hm).1
      simp at this
      omega
    split
    · simp; omega
    · rw [List.mem_append]
      split
      · simp; omega
      · simp only [List.mem_append, List.mem_map, List.mem_range, List.mem_flatMap, List.mem_range'_1]
        constructor
        · rintro (h2 | ⟨r, hr, e⟩ | ⟨x, hx, y, hy, e⟩ | ⟨p, hp, hm⟩)
          · simp at h2
          · simp at e
          · simp at e
            obtain ⟨rfl, rfl⟩ := e
            simp
            omega
          · exact absurd hm (hsub p hp.1 (by omega))
        · rintro ⟨-, hab, hq⟩
          simp at hab hq
          exact .inr (.inr (.inl ⟨a, by omega, b, by omega, rfl⟩))
  | a :: b :: c :: s =>
    split
    · simp; omega
    · rw [List.mem_append]
      split
      · simp; omega
      · simp only [List.mem_append, List.mem_map, List.mem_range, List.mem_flatMap, List.mem_range'_1]
        constructor
        · rintro (h2 | ⟨r, hr, e⟩ | ⟨x, hx, y, hy, e⟩ | ⟨p, hp, hm⟩)
          · simp at h2
          · simp at e
          · simp at e
          · have := ((subsets_spec (by omega)).1 _).mp hm
            exact ⟨by omega, this.2⟩
        · rintro ⟨h1, h2⟩
          refine .inr (.inr (.inr ⟨_, ?_, ((subsets_spec (Nat.le_trans h1 h)).1 _).mpr ⟨rfl, h2⟩⟩))
          simp only [List.length_cons] at h1 ⊢
          omega

theorem nodup_allShapes {n len : Nat} (h : len ≤ n) : (allShapes n len).Nodup := by
  have hr : ∀ n m : Nat, (List.range' n m).Nodup := fun n m => List.nodup_range'
  have hlen : ∀ p s, p ≤ n → s ∈ subsets n p → s.length = p := fun p s hp hm => (((subsets_spec hp).1 s).mp hm).1
  unfold allShapes
  refine List.nodup_append'.mpr ⟨List.nodup_singleton _, ?_, ?_⟩
  · split
    · exact List.nodup_nil
    refine List.nodup_append'.mpr ⟨List.nodup_range.map fun a b e => by simpa using e, ?_, ?_⟩
    · split
      · exact List.nodup_nil
      refine List.nodup_append'.mpr ⟨?_, ?_, ?_⟩
      · rw [List.nodup_flatMap]
        refine ⟨fun x _ => (hr _ _).map fun y y' e => by simpa using e, ?_⟩
        refine List.nodup_range.imp fun {x x'} hne => ?_
        unfold Function.onFun
        rw [List.disjoint_left]
        intro e h1 h2
        obtain ⟨y, -, rfl⟩ := List.mem_map.mp h1
        obtain ⟨y', -, e'⟩ := List.mem_map.mp h2
        simp at e'
        exact hne (by omega)
      · rw [List.nodup_flatMap]
        refine ⟨fun p hp => (subsets_spec (by rw [List.mem_range'_1] at hp; omega)).2, ?_⟩
        refine (hr _ _).imp_of_mem fun {x x'} hx hx' hne => ?_
        rw [List.mem_range'_1] at hx hx'
        unfold Function.onFun
        rw [List.disjoint_left]
        intro e h1 h2
        exact hne ((hlen _ _ (by omega) h1).symm.trans (hlen _ _ (by omega) h2))
      · rw [List.disjoint_left]
        intro s h1 h2
        obtain ⟨a, -, ha⟩ := List.mem_flatMap.mp h1
        obtain ⟨b, -, rfl⟩ := List.mem_map.mp ha
        obtain ⟨p, hp, hm⟩ := List.mem_flatMap.mp h2
        rw [List.mem_range'_1] at hp
        have := hlen _ _ (by omega) hm
        simp at this
        omega
    · split
      · simp
      rw [List.disjoint_left]
      intro s h1 h2
      obtain ⟨q, -, rfl⟩ := List.mem_map.mp h1
      rcases List.mem_append.mp h2 with h2 | h2
      · obtain ⟨a, -, ha⟩ := List.mem_flatMap.mp h2
        obtain ⟨b, -, e⟩ := List.mem_map.mp ha
        simp at e
      · obtain ⟨p, hp, hm⟩ := List.mem_flatMap.mp h2
        rw [List.mem_range'_1] at hp
        have := hlen _ _ (by omega) hm
        simp at this
        omega
  · rw [List.disjoint_left]
    intro s h1 h2
    rw [List.mem_singleton] at h1
    subst h1
    split at h2
    · simp at h2
    rcases List.mem_append.mp h2 with h2 | h2
    · simp at h2
    split at h2
    · simp at h2
    rcases List.mem_append.mp h2 with h2 | h2
    · simp at h2
    · obtain ⟨p, hp, hm⟩ := List.mem_flatMap.mp h2
      rw [List.mem_range'_1] at hp
      have := hlen _ _ (by omega) hm
      simp at this
      omega

end Moment.Fill
