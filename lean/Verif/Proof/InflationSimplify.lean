import Verif.Proof.InflationNumber

namespace Moment.Inflation
open Moment

theorem uniqueBy_go_map {α β : Type} (f : β → α) (p : α → α → Bool) (q : β → β → Bool) : ∀ (w : List β) (l : β),
    (∀ a ∈ l :: w, ∀ b ∈ l :: w, p (f a) (f b) = q a b) → uniqueBy.go p (f l) (w.map f) = (uniqueBy.go q l w).map f
  | [], _, _ => rfl
  | b :: w, l, h => by
    rw [List.map_cons, uniqueBy.go, uniqueBy.go, h l (by simp) b (by simp)]
    split
    · exact uniqueBy_go_map f p q w l fun a ha c hc => h a (by simp at ha ⊢; tauto) c (by simp at hc ⊢; tauto)
    · rw [List.map_cons, uniqueBy_go_map f p q w b fun a ha c hc => h a (by simp at ha ⊢; tauto) c (by simp at hc ⊢; tauto)]

theorem uniqueBy_map {α β : Type} (f : β → α) (p : α → α → Bool) (q : β → β → Bool) (w : List β)
    (h : ∀ a ∈ w, ∀ b ∈ w, p (f a) (f b) = q a b) : uniqueBy p (w.map f) = (uniqueBy q w).map f := by
  cases w with
  | nil => rfl
  | cons a w => rw [List.map_cons, uniqueBy, uniqueBy, List.map_cons, uniqueBy_go_map f p q w a h]

theorem uniqueBy_go_sublist {α : Type} (p : α → α → Bool) : ∀ (w : List α) (l : α), (uniqueBy.go p l w).Sublist w
  | [], _ => List.Sublist.refl _
  | b :: w, l => by
    rw [uniqueBy.go]
    split
    · exact (uniqueBy_go_sublist p w l).cons b
    · exact (uniqueBy_go_sublist p w b).cons_cons b

theorem uniqueBy_sublist {α : Type} (p : α → α → Bool) (w : List α) : (uniqueBy p w).Sublist w := by
  cases w with
  | nil => exact List.Sublist.refl _
  | cons a w => exact (uniqueBy_go_sublist p w a).cons_cons a

variable {n : Causal} {c : Ctx}

/-- The simplification, on operators instead of operator numbers. -/
def nf (n : Causal) (c : Ctx) (w : List Op) : Option (List Op) :=
  let s := stableSort (enc c) w
  if anyNeighbours (fun a b => decide (Exclusive a b)) s then none
  else some (uniqueBy (fun a b => a == b && decide (Projective n a)) s)

theorem orthScan_enc (hb : Built n c) : ∀ {u : List Op}, (∀ a ∈ u, Exists n c.infl a) →
    orthScan c (u.map (enc c)) = some (anyNeighbours (fun a b => decide (Exclusive a b)) u)
  | [], _ => rfl
  | [_], _ => rfl
  | a :: b :: u, h => by
    have ih := orthScan_enc hb (u := b :: u) fun x hx => h x (by simp at hx ⊢; tauto)
    simp only [List.map_cons] at ih ⊢
    rw [orthScan, orthogonal_enc hb (h a (by simp)) (h b (by simp)), anyNeighbours]
    cases decide (Exclusive a b) with
    | true => simp
    | false => simpa using ih

theorem sort_enc (c : Ctx) (u : List Op) : stableSort id (u.map (enc c)) = (stableSort (enc c) u).map (enc c) :=
  stableSort_map (enc c) id (enc c) u fun _ _ => rfl

theorem simplify_enc (hb : Built n c) {u : List Op} (hu : ∀ a ∈ u, Exists n c.infl a) :
    simplify c (u.map (enc c)) = match nf n c u with | none => .zero | some v => .word (v.map (enc c)) := by
  have hs : ∀ a ∈ stableSort (enc c) u, Exists n c.infl a := fun a ha => hu a (mem_stableSort.mp ha)
  unfold simplify
  rw [sort_enc]
  dsimp only
  rw [orthScan_enc hb hs, nf]
  cases anyNeighbours (fun a b => decide (Exclusive a b)) (stableSort (enc c) u) with
  | true => rfl
  | false =>
    simp only [Bool.false_eq_true, if_false]
    rw [uniqueBy_map (enc c) _ (fun a b => a == b && decide (Projective n a))]
    intro a ha b hb'
    have e1 : (enc c a == enc c b) = (a == b) := by
      by_cases h : a = b
      · simp [h]
      · have : enc c a ≠ enc c b := fun e => h (enc_inj hb (hs a ha) (hs b hb') e)
        simp [h, this]
    have e2 : projectiveOp c (enc c a) = decide (Projective n a) := by
      rw [Bool.eq_iff_iff, projective_enc hb (hs a ha)]; simp
    rw [e1, e2]

/-! ### Soundness -/

theorem same_cons {x y : Option (List Op)} (a : Op) (h : SameOperator n x y) :
    SameOperator n (x.map (a :: ·)) (y.map (a :: ·)) := by
  induction h with
  | refl => exact .refl _
  | symm _ ih => exact ih.symm
  | trans _ _ ih1 ih2 => exact ih1.trans ih2
  | commute u v b c => exact .commute (a :: u) v b c
  | project u v b h => exact .project (a :: u) v b h
  | exclude u v b c h => exact .exclude (a :: u) v b c h

theorem same_perm {u v : List Op} (h : u.Perm v) : SameOperator n (some u) (some v) := by
  induction h with
  | nil => exact .refl _
  | cons a _ ih => exact same_cons a ih
  | swap a b l => exact .commute [] l b a
  | trans _ _ ih1 ih2 => exact ih1.trans ih2

theorem same_go : ∀ (w : List Op) (l : Op),
    SameOperator n (some (l :: w)) (some (l :: uniqueBy.go (fun a b => a == b && decide (Projective n a)) l w))
  | [], _ => .refl _
  | b :: w, l => by
    rw [uniqueBy.go]
    split
    · rename_i h
      simp only [Bool.and_eq_true, beq_iff_eq, decide_eq_true_eq] at h
      obtain ⟨rfl, hp⟩ := h
      exact SameOperator.trans (.project [] w l hp) (same_go w l)
    · exact same_cons l (same_go w b)

theorem same_unique (w : List Op) : SameOperator n (some w) (some (uniqueBy (fun a b => a == b && decide (Projective n a)) w)) := by
  cases w with
  | nil => exact .refl _
  | cons a w => exact same_go w a

theorem nf_sound (u : List Op) : SameOperator n (some u) (nf n c u) := by
  have h1 : SameOperator n (some u) (some (stableSort (enc c) u)) := same_perm (stableSort_perm _ _).symm
  unfold nf
  dsimp only
  split
  · rename_i hn
    obtain ⟨p, a, b, q, e, hp⟩ := (anyNeighbours_iff _ _).mp hn
    rw [e] at h1
    exact h1.trans (.exclude p q a b (by simpa using hp))
  · exact h1.trans (same_unique _)

/-! ### Completeness -/

/-- How often an operator counts in a product. -/
def cap (n : Causal) (a : Op) (k : Nat) : Nat := if Projective n a then min 1 k else k

open Classical in
/-- What the relations leave unchanged. -/
noncomputable def inv (n : Causal) : Option (List Op) → Option (Op → Nat)
  | none => none
  | some w => if ∃ a ∈ w, ∃ b ∈ w, Exclusive a b then none else some fun a => cap n a (w.count a)

theorem inv_congr {u v : List Op} (h1 : ∀ a, a ∈ u ↔ a ∈ v) (h2 : ∀ a, cap n a (u.count a) = cap n a (v.count a)) :
    inv n (some u) = inv n (some v) := by
  unfold inv
  simp only [h1, h2]

theorem inv_same {x y : Option (List Op)} (h : SameOperator n x y) : inv n x = inv n y := by
  induction h with
  | refl => rfl
  | symm _ ih => exact ih.symm
  | trans _ _ ih1 ih2 => exact ih1.trans ih2
  | commute u v a b =>
    have hp : (u ++ a :: b :: v).Perm (u ++ b :: a :: v) := (List.Perm.swap b a v).append_left u
    exact inv_congr (fun _ => hp.mem_iff) fun x => by rw [hp.count_eq]
  | project u v a h =>
    refine inv_congr (fun x => by simp) fun x => ?_
    unfold cap
    split
    · by_cases hx : x = a
      · subst hx; simp; omega
      · simp [Ne.symm hx]
    · rename_i hx
      have : x ≠ a := by rintro rfl; exact hx h
      simp [Ne.symm this]
  | exclude u v a b h =>
    simp only [inv]
    rw [if_pos]
    exact ⟨a, by simp, b, by simp, h⟩

theorem block_contiguous (hb : Built n c) {a b x : Op} (ha : Exists n c.infl a) (hb' : Exists n c.infl b) (hx : Exists n c.infl x)
    (h1 : enc c a ≤ enc c b) (h2 : enc c b ≤ enc c x) (ho : a.obs = x.obs) (hc : a.copy = x.copy) : b.obs = a.obs ∧ b.copy = a.copy := by
  have e1 : enc c x = enc c a - a.out + x.out := by simp only [enc, operatorNumber, ho, hc]; omega
  have e2 : enc c a = (enc c a - a.out) + a.out := by simp only [enc, operatorNumber]; omega
  have hB : Exists n c.infl ⟨a.obs, a.copy, enc c b - (enc c a - a.out)⟩ := by
    obtain ⟨k, a1, a2, a3, a4⟩ := ha
    obtain ⟨k', x1, x2, x3, x4⟩ := hx
    refine ⟨k, a1, a2, a3, ?_⟩
    have hk : k = k' := by rw [← ho, a1] at x1; exact Option.some.inj x1
    subst hk
    dsimp only
    split at a4
    · rw [if_pos (by assumption)] at x4 ⊢; omega
    · rw [if_neg (by assumption)] at x4 ⊢; omega
  have e3 : enc c ⟨a.obs, a.copy, enc c b - (enc c a - a.out)⟩ = enc c b := by
    have : enc c ⟨a.obs, a.copy, enc c b - (enc c a - a.out)⟩ = enc c a - a.out + (enc c b - (enc c a - a.out)) := by
      simp only [enc, operatorNumber]; omega
    rw [this]; omega
  have := enc_inj hb hB hb' e3
  rw [← this]
  exact ⟨rfl, rfl⟩

theorem neighbours_iff (hb : Built n c) : ∀ {s : List Op}, (∀ a ∈ s, Exists n c.infl a) → s.Pairwise (fun a b => enc c a ≤ enc c b) →
    (anyNeighbours (fun a b => decide (Exclusive a b)) s = true ↔ ∃ a ∈ s, ∃ b ∈ s, Exclusive a b) := by
  intro s hs hsort
  constructor
  · intro h
    obtain ⟨p, a, b, q, rfl, hp⟩ := (anyNeighbours_iff _ _).mp h
    exact ⟨a, by simp, b, by simp, by simpa using hp⟩
  · rintro ⟨a, ha, b, hb', he⟩
    by_contra hc
    have key : ∀ {s : List Op}, (∀ a ∈ s, Exists n c.infl a) → s.Pairwise (fun a b => enc c a ≤ enc c b) →
        anyNeighbours (fun a b => decide (Exclusive a b)) s = false → s.Pairwise (fun a b => ¬ Exclusive a b) := by
      intro s
      induction s with
      | nil => intros; exact List.Pairwise.nil
      | cons a s ih =>
        intro hs hsort hn
        cases s with
        | nil => simp
        | cons b s =>
          rw [anyNeighbours, Bool.or_eq_false_iff] at hn
          have ih2 := ih (fun x hx => hs x (by simp at hx ⊢; tauto)) hsort.of_cons hn.2
          refine List.pairwise_cons.mpr ⟨?_, ih2⟩
          intro x hx hex
          have hab : ¬ Exclusive a b := by simpa using hn.1
          rcases List.mem_cons.mp hx with rfl | hx'
          · exact hab hex
          · have hsort2 := List.pairwise_cons.mp hsort
            have hle := hsort2.1 b (by simp)
            have hle2 := (List.pairwise_cons.mp hsort2.2).1 x hx'
            obtain ⟨h1, h2⟩ := block_contiguous hb (hs a (by simp)) (hs b (by simp)) (hs x (by simp [hx'])) hle hle2 hex.1 hex.2.1
            by_cases ho : a.out = b.out
            · have : a = b := by cases a; cases b; simp_all
              subst this
              exact (List.pairwise_cons.mp ih2).1 x hx' hex
            · exact hab ⟨h1.symm, h2.symm, ho⟩
    have hp := key hs hsort (by simpa using hc)
    have hsym : ∀ {a b : Op}, Exclusive a b → Exclusive b a := fun h => ⟨h.1.symm, h.2.1.symm, Ne.symm h.2.2⟩
    have hirr : ∀ a : Op, ¬ Exclusive a a := fun a h => h.2.2 rfl
    have hne : a ≠ b := by rintro rfl; exact hirr a he
    obtain ⟨i, hi, rfl⟩ := List.getElem_of_mem ha
    obtain ⟨j, hj, rfl⟩ := List.getElem_of_mem hb'
    rcases Nat.lt_trichotomy i j with h | rfl | h
    · exact List.pairwise_iff_getElem.mp hp i j hi hj h he
    · exact hne rfl
    · exact List.pairwise_iff_getElem.mp hp j i hj hi h (hsym he)

theorem count_unique_go (a : Op) : ∀ (w : List Op) (l : Op), (l :: w).Pairwise (fun x y => enc c x ≤ enc c y) →
    (∀ x ∈ l :: w, ∀ y ∈ l :: w, enc c x = enc c y → x = y) →
    (l :: uniqueBy.go (fun a b => a == b && decide (Projective n a)) l w).count a = cap n a ((l :: w).count a)
  | [], l, _, _ => by
    rw [uniqueBy.go, cap]
    split
    · by_cases h : l = a <;> simp [h]
    · rfl
  | b :: w, l, hs, hi => by
    rw [uniqueBy.go]
    split
    · rename_i h
      simp only [Bool.and_eq_true, beq_iff_eq, decide_eq_true_eq] at h
      obtain ⟨rfl, hp⟩ := h
      rw [count_unique_go a w l hs.of_cons (fun x hx y hy => hi x (by simp at hx ⊢; tauto) y (by simp at hy ⊢; tauto))]
      unfold cap
      by_cases hla : l = a
      · subst hla; simp [hp]
      · simp [hla]
    · rename_i h
      simp only [Bool.and_eq_true, beq_iff_eq, decide_eq_true_eq, not_and] at h
      have ih := count_unique_go a w b hs.of_cons (fun x hx y hy => hi x (by simp at hx ⊢; tauto) y (by simp at hy ⊢; tauto))
      by_cases hla : l = a
      · subst hla
        rw [List.count_cons_self, ih, List.count_cons_self (l := b :: w)]
        unfold cap
        by_cases hp : Projective n l
        · have : l ∉ b :: w := by
            intro hmem
            have hlb : l ≠ b := fun e => h e hp
            have hs2 := List.pairwise_cons.mp hs
            rcases List.mem_cons.mp hmem with e | hmem
            · exact hlb e
            · have h1 := hs2.1 b (by simp)
              have h2 := (List.pairwise_cons.mp hs2.2).1 l hmem
              exact hlb (hi l (by simp) b (by simp) (by omega))
          rw [List.count_eq_zero.mpr this]
          simp [hp]
        · simp [hp]
      · rw [List.count_cons_of_ne hla, ih, List.count_cons_of_ne (l := b :: w) hla]

theorem count_unique (a : Op) (w : List Op) (hs : w.Pairwise (fun x y => enc c x ≤ enc c y))
    (hi : ∀ x ∈ w, ∀ y ∈ w, enc c x = enc c y → x = y) :
    (uniqueBy (fun a b => a == b && decide (Projective n a)) w).count a = cap n a (w.count a) := by
  cases w with
  | nil => simp [uniqueBy, cap]
  | cons l w => exact count_unique_go a w l hs hi

theorem nf_of_inv (hb : Built n c) {u v : List Op} (hu : ∀ a ∈ u, Exists n c.infl a) (hv : ∀ a ∈ v, Exists n c.infl a)
    (h : inv n (some u) = inv n (some v)) : nf n c u = nf n c v := by
  have hsu : ∀ a ∈ stableSort (enc c) u, Exists n c.infl a := fun a ha => hu a (mem_stableSort.mp ha)
  have hsv : ∀ a ∈ stableSort (enc c) v, Exists n c.infl a := fun a ha => hv a (mem_stableSort.mp ha)
  have eu := neighbours_iff hb hsu (stableSort_sorted _ _)
  have ev := neighbours_iff hb hsv (stableSort_sorted _ _)
  simp only [mem_stableSort] at eu ev
  simp only [inv] at h
  unfold nf
  dsimp only
  by_cases h1 : ∃ a ∈ u, ∃ b ∈ u, Exclusive a b
  · by_cases h2 : ∃ a ∈ v, ∃ b ∈ v, Exclusive a b
    · rw [if_pos (eu.mpr h1), if_pos (ev.mpr h2)]
    · simp [h1, h2] at h
  · by_cases h2 : ∃ a ∈ v, ∃ b ∈ v, Exclusive a b
    · simp [h1, h2] at h
    · rw [if_neg h1, if_neg h2, Option.some.injEq] at h
      rw [if_neg (fun e => h1 (eu.mp e)), if_neg (fun e => h2 (ev.mp e)), Option.some.injEq]
      have hp : (uniqueBy (fun a b => a == b && decide (Projective n a)) (stableSort (enc c) u)).Perm
          (uniqueBy (fun a b => a == b && decide (Projective n a)) (stableSort (enc c) v)) := by
        rw [List.perm_iff_count]
        intro a
        rw [count_unique a _ (stableSort_sorted _ _) fun x hx y hy => enc_inj hb (hsu x hx) (hsu y hy),
          count_unique a _ (stableSort_sorted _ _) fun x hx y hy => enc_inj hb (hsv x hx) (hsv y hy),
          (stableSort_perm _ _).count_eq, (stableSort_perm _ _).count_eq]
        exact congrFun h a
      refine hp.eq_of_pairwise (le := fun x y => enc c x ≤ enc c y) ?_ ((stableSort_sorted _ _).sublist (uniqueBy_sublist _ _))
        ((stableSort_sorted _ _).sublist (uniqueBy_sublist _ _))
      intro x y hx hy h3 h4
      exact enc_inj hb (hsu x ((uniqueBy_sublist _ _).mem hx)) (hsv y ((uniqueBy_sublist _ _).mem hy)) (by omega)

theorem nf_iff (hb : Built n c) {u v : List Op} (hu : ∀ a ∈ u, Exists n c.infl a) (hv : ∀ a ∈ v, Exists n c.infl a) :
    nf n c u = nf n c v ↔ SameOperator n (some u) (some v) := by
  constructor
  · intro h
    have := nf_sound (n := n) (c := c) v
    rw [← h] at this
    exact (nf_sound u).trans this.symm
  · intro h; exact nf_of_inv hb hu hv (inv_same h)

theorem nf_zero_iff (hb : Built n c) {u : List Op} (hu : ∀ a ∈ u, Exists n c.infl a) :
    nf n c u = none ↔ SameOperator n (some u) none := by
  constructor
  · intro h; rw [← h]; exact nf_sound u
  · intro h
    have := inv_same h
    have hsu : ∀ a ∈ stableSort (enc c) u, Exists n c.infl a := fun a ha => hu a (mem_stableSort.mp ha)
    have eu := neighbours_iff hb hsu (stableSort_sorted _ _)
    simp only [mem_stableSort] at eu
    simp only [inv] at this
    unfold nf
    dsimp only
    split at this
    · rename_i h1; rw [if_pos (eu.mpr h1)]
    · simp at this

theorem nf_mem {u v : List Op} (h : nf n c u = some v) : ∀ a ∈ v, a ∈ u := by
  intro a ha
  unfold nf at h
  dsimp only at h
  split at h
  · simp at h
  · rw [← Option.some.inj h] at ha
    exact mem_stableSort.mp ((uniqueBy_sublist _ _).mem ha)

theorem nf_idem (hb : Built n c) {u v : List Op} (hu : ∀ a ∈ u, Exists n c.infl a) (h : nf n c u = some v) : nf n c v = some v := by
  have h1 : SameOperator n (some u) (some v) := h ▸ nf_sound u
  rw [← (nf_iff hb hu fun a ha => hu a (nf_mem h a ha)).mpr h1, h]

theorem map_enc_inj (hb : Built n c) : ∀ {u v : List Op}, (∀ a ∈ u, Exists n c.infl a) → (∀ a ∈ v, Exists n c.infl a) →
    u.map (enc c) = v.map (enc c) → u = v
  | [], [], _, _, _ => rfl
  | [], _ :: _, _, _, h => by simp at h
  | _ :: _, [], _, _, h => by simp at h
  | a :: u, b :: v, hu, hv, h => by
    simp only [List.map_cons, List.cons.injEq] at h
    rw [enc_inj hb (hu a (by simp)) (hv b (by simp)) h.1,
      map_enc_inj hb (fun o ho => hu o (by simp [ho])) (fun o ho => hv o (by simp [ho])) h.2]

/-! ### `get_if_canonical` -/

theorem isSorted_iff : ∀ (w : List Nat), isSorted w = true ↔ w.Pairwise (· ≤ ·)
  | [] => by simp [isSorted]
  | [a] => by simp [isSorted]
  | a :: b :: w => by
    rw [isSorted, Bool.and_eq_true, isSorted_iff (b :: w), decide_eq_true_eq, List.pairwise_cons (l := b :: w)]
    constructor
    · rintro ⟨h1, h2⟩
      refine ⟨?_, h2⟩
      intro x hx
      rcases List.mem_cons.mp hx with rfl | hx
      · exact h1
      · have := (List.pairwise_cons.mp h2).1 x hx; omega
    · rintro ⟨h1, h2⟩; exact ⟨h1 b (by simp), h2⟩

theorem uniqueBy_eq_self {α : Type} (p : α → α → Bool) : ∀ (w : List α), uniqueBy p w = w ↔ anyNeighbours p w = false
  | [] => by simp [uniqueBy, anyNeighbours]
  | [a] => by simp [uniqueBy, uniqueBy.go, anyNeighbours]
  | a :: b :: w => by
    have ih := uniqueBy_eq_self p (b :: w)
    rw [anyNeighbours, Bool.or_eq_false_iff, ← ih]
    rw [uniqueBy, uniqueBy.go]
    split
    · rename_i h
      constructor
      · intro e
        simp only [List.cons.injEq, true_and] at e
        have := (uniqueBy_go_sublist p w a).length_le
        rw [e] at this; simp at this
      · rintro ⟨e, -⟩; rw [h] at e; simp at e
    · rename_i h
      rw [uniqueBy]
      simp [h]

theorem canonicalScan_eq (c : Ctx) : ∀ (w : List Nat), (∀ a ∈ w, ∀ b ∈ w, (orthogonal c a b).isSome) →
    canonicalScan c w = some (!(orthScan c w == some true) && !anyNeighbours (fun a b => a == b && projectiveOp c a) w)
  | [], _ => rfl
  | [a], _ => rfl
  | a :: b :: w, h => by
    have ih := canonicalScan_eq c (b :: w) fun x hx y hy => h x (by simp at hx ⊢; tauto) y (by simp at hy ⊢; tauto)
    have hab := h a (by simp) b (by simp)
    rw [canonicalScan, orthScan, anyNeighbours, ih]
    cases ho : orthogonal c a b with
    | none => rw [ho] at hab; simp at hab
    | some t => cases t with
      | true => simp
      | false =>
        cases hp : projectiveOp c a <;> cases he : (a == b) <;> simp

/-- `get_if_canonical` accepts exactly the words that simplification leaves as they are. -/
theorem isCanonical_iff (hb : Built n c) {w : List Nat} (hw : ∀ m ∈ w, m < operatorCount c) :
    isCanonical c w = some (decide (simplify c w = .word w)) := by
  obtain ⟨u, hu, rfl⟩ := word_surj hb hw
  unfold isCanonical
  split
  · rename_i hs
    have hs2 := (isSorted_iff _).mp hs
    rw [canonicalScan_eq]
    · rw [Option.some.injEq, Bool.eq_iff_iff, decide_eq_true_eq]
      unfold simplify
      rw [stableSort_of_sorted id (by simpa using hs2)]
      dsimp only
      rw [orthScan_enc hb hu]
      cases anyNeighbours (fun a b => decide (Exclusive a b)) u with
      | true => simp
      | false =>
        have := uniqueBy_eq_self (fun a b => a == b && projectiveOp c a) (u.map (enc c))
        simp only [Outcome.word.injEq, this]
        simp
    · intro a ha b hb'
      obtain ⟨x, hx, rfl⟩ := List.mem_map.mp ha
      obtain ⟨y, hy, rfl⟩ := List.mem_map.mp hb'
      rw [orthogonal_enc hb (hu x hx) (hu y hy)]; rfl
  · rename_i hs
    rw [Option.some.injEq, eq_comm, decide_eq_false_iff_not]
    intro h
    apply hs
    rw [isSorted_iff]
    unfold simplify at h
    dsimp only at h
    split at h
    · simp at h
    · simp at h
    · have e := Outcome.word.inj h
      rw [← e]
      exact ((stableSort_sorted id _).sublist (uniqueBy_sublist _ _))

end Moment.Inflation
