import Verif.Model.Locality
import Verif.Spec.Locality
import Verif.Proof.Sorting

namespace Moment

theorem stableSort_middle {α : Type} (key : α → Nat) (u v : List α) (p : Nat) :
    ∃ x y, ∀ z : List α, (∀ a ∈ z, key a = p) → stableSort key (u ++ z ++ v) = x ++ z ++ y := by
  refine ⟨stableSort key ((u ++ v).filter (fun a => decide (key a < p))) ++ u.filter (fun a => key a == p),
    v.filter (fun a => key a == p) ++ stableSort key ((u ++ v).filter (fun a => decide (p < key a))), ?_⟩
  intro z hz
  have hlt : ∀ a ∈ stableSort key ((u ++ v).filter (fun a => decide (key a < p))), key a < p := by
    intro a ha
    rw [mem_stableSort, List.mem_filter] at ha
    simpa using ha.2
  have hgt : ∀ a ∈ stableSort key ((u ++ v).filter (fun a => decide (p < key a))), p < key a := by
    intro a ha
    rw [mem_stableSort, List.mem_filter] at ha
    simpa using ha.2
  have heq : ∀ (w : List α), ∀ a ∈ w.filter (fun a => key a == p), key a = p := by
    intro w a ha
    rw [List.mem_filter] at ha
    simpa using ha.2
  apply eq_of_filters key (stableSort_sorted _ _)
  · simp only [List.pairwise_append, List.mem_append]
    have same : ∀ w : List α, (∀ a ∈ w, key a = p) → w.Pairwise (fun a b => key a ≤ key b) := fun w hw =>
      List.pairwise_of_forall_mem_list fun a ha b hb => by rw [hw a ha, hw b hb]
    refine ⟨⟨⟨stableSort_sorted _ _, same _ (heq u), ?_⟩, same _ hz, ?_⟩, ⟨same _ (heq v), stableSort_sorted _ _, ?_⟩, ?_⟩
    · intro a ha b hb; have := hlt a ha; have := heq u b hb; omega
    · rintro a (ha | ha) b hb
      · have := hlt a ha; have := hz b hb; omega
      · have := heq u a ha; have := hz b hb; omega
    · intro a ha b hb; have := heq v a ha; have := hgt b hb; omega
    · rintro a ((ha | ha) | ha) b (hb | hb)
      · have := hlt a ha; have := heq v b hb; omega
      · have := hlt a ha; have := hgt b hb; omega
      · have := heq u a ha; have := heq v b hb; omega
      · have := heq u a ha; have := hgt b hb; omega
      · have := hz a ha; have := heq v b hb; omega
      · have := hz a ha; have := hgt b hb; omega
  · intro k
    rw [stableSort_filter]
    simp only [List.filter_append, stableSort_filter, List.filter_filter]
    rcases Nat.lt_trichotomy k p with h | h | h
    · have e1 : z.filter (fun a => key a == k) = [] := by
        rw [List.filter_eq_nil_iff]; intro a ha; rw [hz a ha]; simp; omega
      have e2 : ∀ w : List α, w.filter (fun a => (key a == k) && (key a == p)) = [] := by
        intro w; rw [List.filter_eq_nil_iff]; intro a _; simp; omega
      have e3 : ∀ w : List α, w.filter (fun a => (key a == k) && decide (p < key a)) = [] := by
        intro w; rw [List.filter_eq_nil_iff]; intro a _; simp; omega
      have e4 : ∀ w : List α, w.filter (fun a => (key a == k) && decide (key a < p)) = w.filter (fun a => key a == k) := by
        intro w; apply List.filter_congr; intro a _
        by_cases h2 : key a = k <;> simp [h2]; omega
      simp [e1, e2, e3, e4]
    · subst h
      have e1 : z.filter (fun a => key a == k) = z := by
        rw [List.filter_eq_self]; intro a ha; rw [hz a ha]; simp
      have e2 : ∀ w : List α, w.filter (fun a => (key a == k) && (key a == k)) = w.filter (fun a => key a == k) := by
        intro w; simp
      have e3 : ∀ w : List α, w.filter (fun a => (key a == k) && decide (k < key a)) = [] := by
        intro w; rw [List.filter_eq_nil_iff]; intro a _; simp; omega
      have e4 : ∀ w : List α, w.filter (fun a => (key a == k) && decide (key a < k)) = [] := by
        intro w; rw [List.filter_eq_nil_iff]; intro a _; simp; omega
      simp [e1, e3, e4]
    · have e1 : z.filter (fun a => key a == k) = [] := by
        rw [List.filter_eq_nil_iff]; intro a ha; rw [hz a ha]; simp; omega
      have e2 : ∀ w : List α, w.filter (fun a => (key a == k) && (key a == p)) = [] := by
        intro w; rw [List.filter_eq_nil_iff]; intro a _; simp; omega
      have e3 : ∀ w : List α, w.filter (fun a => (key a == k) && decide (key a < p)) = [] := by
        intro w; rw [List.filter_eq_nil_iff]; intro a _; simp; omega
      have e4 : ∀ w : List α, w.filter (fun a => (key a == k) && decide (p < key a)) = w.filter (fun a => key a == k) := by
        intro w; apply List.filter_congr; intro a _
        by_cases h2 : key a = k <;> simp [h2]; omega
      simp [e1, e2, e3, e4]

namespace Locality

/-- Different outcomes of one measurement. -/
def excl (a b : Op) : Bool := a.party == b.party && (a.mmt == b.mmt && a.out != b.out)

/-- The simplification, on operators instead of operator numbers. -/
def nf (w : List Op) : Option (List Op) :=
  let t := uniq (stableSort Op.party w)
  if anyNeighbours excl t then none else some t

theorem nf_sound_cons {x y : Option (List Op)} (a : Op) (h : SameOperator x y) :
    SameOperator (x.map (a :: ·)) (y.map (a :: ·)) := by
  induction h with
  | refl => exact .refl _
  | symm _ ih => exact ih.symm
  | trans _ _ ih1 ih2 => exact ih1.trans ih2
  | commute u v b c hp => exact .commute (a :: u) v b c hp
  | project u v b => exact .project (a :: u) v b
  | exclude u v b c h1 h2 h3 => exact .exclude (a :: u) v b c h1 h2 h3

theorem sound_sort (w : List Op) : SameOperator (some w) (some (stableSort Op.party w)) := by
  induction w with
  | nil => exact .refl _
  | cons a w ih =>
    refine SameOperator.trans (nf_sound_cons a ih) ?_
    show SameOperator (some (a :: stableSort Op.party w)) (some (List.orderedInsert _ a (stableSort Op.party w)))
    generalize stableSort Op.party w = l
    induction l with
    | nil => exact .refl _
    | cons b l ih2 =>
      rw [List.orderedInsert_cons]
      split
      · exact .refl _
      · rename_i h
        exact SameOperator.trans (.commute [] l a b (by omega)) (nf_sound_cons b ih2)

theorem sound_uniq (w : List Op) : SameOperator (some w) (some (uniq w)) := by
  induction w with
  | nil => exact .refl _
  | cons a w ih =>
    cases w with
    | nil => exact .refl _
    | cons b w =>
      rw [uniq_cons_cons]
      split
      · rename_i h
        subst h
        exact SameOperator.trans (.project [] w a) ih
      · exact nf_sound_cons a ih

theorem nf_sound (w : List Op) : SameOperator (some w) (nf w) := by
  have h := SameOperator.trans (sound_sort w) (sound_uniq _)
  unfold nf
  dsimp only
  split
  · rename_i hn
    obtain ⟨u, a, b, v, e, hp⟩ := (anyNeighbours_iff _ _).mp hn
    simp only [excl, Bool.and_eq_true, beq_iff_eq, bne_iff_ne] at hp
    rw [e] at h
    exact h.trans (.exclude u v a b hp.1 hp.2.1 hp.2.2)
  · exact h

theorem nf_complete {x y : Option (List Op)} (h : SameOperator x y) : x.bind nf = y.bind nf := by
  induction h with
  | refl => rfl
  | symm _ ih => exact ih.symm
  | trans _ _ ih1 ih2 => exact ih1.trans ih2
  | commute u v a b hp =>
    simp only [Option.bind_some]
    have : stableSort Op.party (u ++ a :: b :: v) = stableSort Op.party (u ++ b :: a :: v) := by
      apply stableSort_congr
      intro k
      simp only [List.filter_append, List.filter_cons]
      by_cases h1 : a.party = k <;> by_cases h2 : b.party = k
      · omega
      all_goals simp [h1, h2]
    simp only [nf, this]
  | project u v a =>
    simp only [Option.bind_some]
    obtain ⟨x, y, hz⟩ := stableSort_middle Op.party u v a.party
    have e1 := hz [a, a] (by simp)
    have e2 := hz [a] (by simp)
    simp only [List.append_assoc, List.cons_append, List.nil_append] at e1 e2
    simp only [nf, e1, e2, uniq_dup]
  | exclude u v a b h1 h2 h3 =>
    simp only [Option.bind_some, Option.bind_none]
    obtain ⟨x, y, hz⟩ := stableSort_middle Op.party u v a.party
    have e1 := hz [a, b] (by simp [h1])
    simp only [List.append_assoc, List.cons_append, List.nil_append] at e1
    have hab : a ≠ b := by rintro rfl; exact h3 rfl
    obtain ⟨p, q, e2⟩ := uniq_neighbours hab y x
    simp only [nf, e1, e2]
    rw [if_pos]
    exact (anyNeighbours_iff _ _).mpr ⟨p, a, b, q, rfl, by simp [excl, h1, h2, h3]⟩

/-- Two words have the same normal form exactly when the relations make them equal. -/
theorem nf_iff (u v : List Op) : nf u = nf v ↔ SameOperator (some u) (some v) := by
  constructor
  · intro h
    have := nf_sound v
    rw [← h] at this
    exact (nf_sound u).trans this.symm
  · intro h; simpa using nf_complete h

theorem nf_zero_iff (u : List Op) : nf u = none ↔ SameOperator (some u) none := by
  constructor
  · intro h; rw [← h]; exact nf_sound u
  · intro h; simpa using nf_complete h

theorem nf_idem {u v : List Op} (h : nf u = some v) : nf v = some v := by
  have : SameOperator (some u) (some v) := h ▸ nf_sound u
  rw [← (nf_iff u v).mpr this, h]

theorem nf_mem {u v : List Op} (h : nf u = some v) : ∀ a ∈ v, a ∈ u := by
  intro a ha
  unfold nf at h
  dsimp only at h
  split at h
  · exact absurd h (by simp)
  · rw [← Option.some.inj h] at ha
    exact mem_stableSort.mp ((uniq_sublist _).mem ha)

/-! ### Operator numbers -/

theorem blockTable_length : ∀ (bs : List Nat) (k : Nat), (blockTable k bs).length = bs.sum
  | [], _ => rfl
  | b :: bs, k => by simp [blockTable, blockTable_length bs]

theorem blockTable_get : ∀ (bs : List Nat) (k i j b : Nat), bs[i]? = some b → j < b →
    (blockTable k bs).getD ((bs.take i).sum + j) 0 = k + i
  | [], _, i, _, _, h, _ => by simp at h
  | c :: bs, k, 0, j, b, h, hj => by
    simp only [List.getElem?_cons_zero, Option.some.injEq] at h
    subst h
    simp only [blockTable, List.take_zero, List.sum_nil, Nat.zero_add, Nat.add_zero]
    rw [List.getD_eq_getElem?_getD, List.getElem?_append_left (by simpa using hj)]
    simp [hj]
  | c :: bs, k, i + 1, j, b, h, hj => by
    simp only [List.getElem?_cons_succ] at h
    have ih := blockTable_get bs (k + 1) i j b h hj
    simp only [blockTable, List.take_succ_cons, List.sum_cons]
    rw [List.getD_eq_getElem?_getD] at ih ⊢
    rw [List.getElem?_append_right (by simp; omega), List.length_replicate]
    rw [show c + (bs.take i).sum + j - c = (bs.take i).sum + j by omega, ih]
    omega

theorem sum_take_lt : ∀ (bs : List Nat) (i b j : Nat), bs[i]? = some b → j < b → (bs.take i).sum + j < bs.sum
  | [], i, _, _, h, _ => by simp at h
  | c :: bs, 0, b, j, h, hj => by
    simp only [List.getElem?_cons_zero, Option.some.injEq] at h
    simp; omega
  | c :: bs, i + 1, b, j, h, hj => by
    simp only [List.getElem?_cons_succ] at h
    have := sum_take_lt bs i b j h hj
    simp; omega

theorem sum_take_inj : ∀ (bs : List Nat) (i j i' j' b b' : Nat), bs[i]? = some b → j < b → bs[i']? = some b' → j' < b' →
    (bs.take i).sum + j = (bs.take i').sum + j' → i = i' ∧ j = j' := by
  intro bs i j i' j' b b' h hj h' hj' e
  have h1 := blockTable_get bs 0 i j b h hj
  have h2 := blockTable_get bs 0 i' j' b' h' hj'
  rw [e, h2] at h1
  have : i = i' := by omega
  subst this
  exact ⟨rfl, by omega⟩

theorem sum_take_surj : ∀ (bs : List Nat) (n : Nat), n < bs.sum → ∃ i j b, bs[i]? = some b ∧ j < b ∧ (bs.take i).sum + j = n
  | [], n, h => by simp at h
  | c :: bs, n, h => by
    by_cases hn : n < c
    · exact ⟨0, n, c, by simp, hn, by simp⟩
    · obtain ⟨i, j, b, h1, h2, h3⟩ := sum_take_surj bs (n - c) (by simp at h; omega)
      exact ⟨i + 1, j, b, by simpa using h1, h2, by simp; omega⟩

/-- The number of an operator. -/
def enc (s : Scenario) (a : Op) : Nat := operatorOffset s a.party + (mmtOffset (s.getD a.party []) a.mmt + a.out)

theorem Exists.mmts {s : Scenario} {a : Op} (h : Exists s a) :
    (s[a.party]? = some (s.getD a.party [])) ∧ ∃ n, ((s.getD a.party []).map numOperators)[a.mmt]? = some n ∧ a.out < n := by
  obtain ⟨mmts, h1, n, h2, h3⟩ := h
  have : s.getD a.party [] = mmts := by simp [List.getD, h1]
  rw [this]
  exact ⟨h1, numOperators n, by simp [h2], by simp [numOperators]; omega⟩

theorem measurementOutcome_eq {s : Scenario} {a : Op} (h : Exists s a) : measurementOutcome s a.party a.mmt a.out = some (enc s a) := by
  obtain ⟨mmts, h1, n, h2, h3⟩ := h
  have : s.getD a.party [] = mmts := by simp [List.getD, h1]
  simp only [measurementOutcome, h1, h2, enc, this]
  rw [if_neg (by simp [numOperators]; omega), Nat.add_assoc]

theorem measurementOutcome_some {s : Scenario} {p m o n : Nat} (h : measurementOutcome s p m o = some n) : Exists s ⟨p, m, o⟩ := by
  unfold measurementOutcome at h
  split at h
  · simp at h
  · rename_i mmts h1
    split at h
    · simp at h
    · rename_i k h2
      split at h
      · simp at h
      · rename_i h3
        exact ⟨mmts, h1, k, h2, by simp [numOperators] at h3; show o + 1 < k; omega⟩

theorem mmtOffset_eq (mmts : List Nat) (m : Nat) : mmtOffset mmts m = ((mmts.map numOperators).take m).sum := by
  rw [mmtOffset, List.map_take]

theorem operatorOffset_eq (s : Scenario) (p : Nat) : operatorOffset s p = ((s.map partyOps).take p).sum := by
  rw [operatorOffset, List.map_take]

theorem enc_local_lt {s : Scenario} {a : Op} (h : Exists s a) : mmtOffset (s.getD a.party []) a.mmt + a.out < partyOps (s.getD a.party []) := by
  obtain ⟨-, n, h1, h2⟩ := h.mmts
  rw [mmtOffset_eq, partyOps]
  exact sum_take_lt _ _ _ _ h1 h2

theorem party_get {s : Scenario} {a : Op} (h : Exists s a) : (s.map partyOps)[a.party]? = some (partyOps (s.getD a.party [])) := by
  obtain ⟨h1, -⟩ := h.mmts
  rw [List.getElem?_map, h1]; rfl

theorem enc_lt {s : Scenario} {a : Op} (h : Exists s a) : enc s a < operatorCount s := by
  rw [enc, operatorOffset_eq, operatorCount]
  exact sum_take_lt _ _ _ _ (party_get h) (enc_local_lt h)

theorem partyOf_enc {s : Scenario} {a : Op} (h : Exists s a) : partyOf s (enc s a) = a.party := by
  rw [partyOf, opToParty, enc, operatorOffset_eq, blockTable_get _ _ _ _ _ (party_get h) (enc_local_lt h), Nat.zero_add]

theorem mmt_enc {s : Scenario} {a : Op} (h : Exists s a) :
    (offsetToMmt (s.getD a.party [])).getD (enc s a - operatorOffset s a.party) 0 = a.mmt := by
  obtain ⟨-, n, h1, h2⟩ := h.mmts
  rw [enc, Nat.add_sub_cancel_left, offsetToMmt, mmtOffset_eq, blockTable_get _ _ _ _ _ h1 h2, Nat.zero_add]

theorem enc_inj {s : Scenario} {a b : Op} (ha : Exists s a) (hb : Exists s b) (h : enc s a = enc s b) : a = b := by
  have hp : a.party = b.party := by rw [← partyOf_enc ha, h, partyOf_enc hb]
  have hm : a.mmt = b.mmt := by rw [← mmt_enc ha, h, hp, mmt_enc hb]
  have ho : a.out = b.out := by
    unfold enc at h
    rw [hp, hm] at h
    omega
  cases a; cases b; simp_all

theorem enc_surj {s : Scenario} {n : Nat} (h : n < operatorCount s) : ∃ a, Exists s a ∧ enc s a = n := by
  obtain ⟨p, j, b, h1, h2, h3⟩ := sum_take_surj _ n h
  rw [List.getElem?_map, Option.map_eq_some_iff] at h1
  obtain ⟨mmts, h1, rfl⟩ := h1
  obtain ⟨m, o, k, h4, h5, h6⟩ := sum_take_surj _ j h2
  rw [List.getElem?_map, Option.map_eq_some_iff] at h4
  obtain ⟨q, h4, rfl⟩ := h4
  refine ⟨⟨p, m, o⟩, ⟨mmts, h1, q, h4, ?_⟩, ?_⟩
  · simp only [numOperators] at h5 ⊢; omega
  · have : s.getD p [] = mmts := by simp [List.getD, h1]
    simp only [enc, this, mmtOffset_eq, operatorOffset_eq]
    omega

/-- Every word of operator numbers in range names a word of operators. -/
theorem word_surj {s : Scenario} : ∀ {w : List Nat}, (∀ n ∈ w, n < operatorCount s) → ∃ u : List Op, (∀ a ∈ u, Exists s a) ∧ u.map (enc s) = w
  | [], _ => ⟨[], by simp, rfl⟩
  | n :: w, h => by
    obtain ⟨a, ha, rfl⟩ := enc_surj (h n (by simp))
    obtain ⟨u, hu, rfl⟩ := word_surj (w := w) fun m hm => h m (by simp [hm])
    exact ⟨a :: u, by simpa using ⟨ha, hu⟩, rfl⟩

/-- The code's simplification is the normal form. -/
theorem simplify_enc {s : Scenario} {w : List Op} (hw : ∀ a ∈ w, Exists s a) :
    simplify s (w.map (enc s)) = match nf w with | none => .zero | some v => .word (v.map (enc s)) := by
  by_cases hne : w = []
  · subst hne; rfl
  unfold simplify
  rw [if_neg (by simpa using hne), if_neg]
  swap
  · simp only [List.any_map, List.any_eq_true, Function.comp_apply, decide_eq_true_eq, not_exists, not_and]
    intro a ha
    have := enc_lt (hw a ha)
    omega
  dsimp only
  rw [stableSort_map (enc s) (partyOf s) Op.party w fun a ha => partyOf_enc (hw a ha)]
  have hw2 : ∀ a ∈ stableSort Op.party w, Exists s a := fun a ha => hw a (mem_stableSort.mp ha)
  have e : uniqueBy (fun a b => a == b) ((stableSort Op.party w).map (enc s)) = (uniq (stableSort Op.party w)).map (enc s) :=
    uniq_map (enc s) _ fun a ha b hb => enc_inj (hw2 a ha) (hw2 b hb)
  rw [e]
  have hw3 : ∀ a ∈ uniq (stableSort Op.party w), Exists s a := fun a ha => hw2 a ((uniq_sublist _).mem ha)
  rw [anyNeighbours_map (enc s) _ excl]
  · simp only [nf]
    split <;> simp
  · intro a ha b hb
    have h1 := hw3 a ha
    have h2 := hw3 b hb
    simp only [partyOf_enc h1, partyOf_enc h2, excl]
    by_cases hp : a.party = b.party
    · rw [hp]
      simp only [beq_self_eq_true, Bool.true_and, mutuallyExclusive]
      have e2 := mmt_enc h1
      rw [hp] at e2
      rw [e2, mmt_enc h2]
      by_cases hab : a = b
      · subst hab; simp
      · rw [if_neg fun h => hab (enc_inj h1 h2 h)]
        by_cases hm : a.mmt = b.mmt
        · have : a.out ≠ b.out := by
            intro ho; apply hab; cases a; cases b; simp_all
          simp [hm, this]
        · simp [hm]
    · have : (a.party == b.party) = false := by simpa using hp
      simp [this]

theorem simplify_range {s : Scenario} {w : List Nat} : simplify s w = .rangeError ↔ ∃ n ∈ w, operatorCount s ≤ n := by
  constructor
  · intro h
    by_contra hc
    simp only [not_exists, not_and, Nat.not_le] at hc
    obtain ⟨u, hu, rfl⟩ := word_surj hc
    rw [simplify_enc hu] at h
    split at h <;> simp at h
  · rintro ⟨n, hn, hle⟩
    unfold simplify
    rw [if_neg (by simpa using List.ne_nil_of_mem hn), if_pos]
    simp only [List.any_eq_true, decide_eq_true_eq]
    exact ⟨n, hn, hle⟩

end Locality
end Moment
