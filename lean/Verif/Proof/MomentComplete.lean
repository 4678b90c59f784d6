import Verif.Proof.MomentBook

/-! # Completion of moment rulebooks -/

namespace Moment.Poly

open Classical

local notation "conj'" => starRingEnd ℂ

/-! ## One rule is a book of one rule -/

theorem findRule_single (r : MRule) (i : Nat) : findRule [r] i = if r.lhs = i then some r else none := by
  unfold findRule
  by_cases h : r.lhs = i <;> simp [h]

theorem expand_hit {r : MRule} {m : Mono} (h : m.id = r.lhs) : expand [r] m = r.transformed m := by
  simp [expand, findRule_single, h]
theorem expand_miss {r : MRule} {m : Mono} (h : m.id ≠ r.lhs) : expand [r] m = [m] := by
  simp [expand, findRule_single, Ne.symm h]

theorem flatMap_miss {r : MRule} {p : List Mono} (h : ∀ m ∈ p, m.id ≠ r.lhs) : p.flatMap (expand [r]) = p := by
  induction p with
  | nil => rfl
  | cons m p ih => rw [List.flatMap_cons, expand_miss (h m (by simp)), ih fun m hm => h m (by simp [hm])]; rfl

theorem reduceRest_eq {t : Table} {o : Order} (r : MRule) : ∀ {p : List Mono}, Canonical t o p →
    p.takeWhile (fun m => m.id != r.lhs) ++ r.reduceRest (p.dropWhile fun m => m.id != r.lhs) = p.flatMap (expand [r])
  | [], _ => by simp [MRule.reduceRest]
  | m :: p, hp => by
    by_cases h : m.id = r.lhs
    · have hs := List.pairwise_cons.mp hp.sorted
      rw [List.takeWhile_cons_of_neg (by simp [h]), List.dropWhile_cons_of_neg (by simp [h]), List.nil_append, List.flatMap_cons, expand_hit h]
      cases p with
      | nil => simp [MRule.reduceRest]
      | cons m' rest =>
        have hs' := List.pairwise_cons.mp hs.2
        rw [MRule.reduceRest]
        have hrest : ∀ x ∈ rest, x.id ≠ r.lhs := by
          intro x hx e
          rcases hs.1 x (by simp [hx]) with h1 | ⟨h1, h2, h3⟩
          · rw [h, e] at h1; exact lt_irrefl _ h1
          · rcases hs'.1 x hx with h4 | ⟨h4, h5, h6⟩
            · rcases hs.1 m' (by simp) with h7 | ⟨h7, h8, h9⟩
              · rw [e, ← h] at h4; omega
              · rw [← h7, h, e] at h4; exact lt_irrefl _ h4
            · rcases hs.1 m' (by simp) with h7 | ⟨h7, h8, h9⟩
              · rw [h4, e, h] at h7; exact lt_irrefl _ h7
              · rw [h9] at h5; exact absurd h5 (by simp)
        split
        · rename_i h'
          rw [List.flatMap_cons, expand_hit h', flatMap_miss hrest]
        · rename_i h'
          rw [List.flatMap_cons, expand_miss h', flatMap_miss hrest]; rfl
    · rw [List.takeWhile_cons_of_pos (by simp [h]), List.dropWhile_cons_of_pos (by simp [h]), List.flatMap_cons, expand_miss h,
        ← reduceRest_eq r (canonical_sublist hp (List.sublist_cons_self m p))]
      simp

theorem reduce_eq {t : Table} {o : Order} (r : MRule) {p : List Mono} (hp : Canonical t o p) : r.reduce t o p = reduceBook t o [r] p := by
  unfold MRule.reduce reduceBook
  rw [reduceRest_eq r hp]
  have : (p.any fun m => m.id == r.lhs) = p.any fun m => (findRule [r] m.id).isSome := by
    congr 1
    funext m
    rw [findRule_single]
    by_cases h : r.lhs = m.id
    · simp [h]
    · simp [h, Ne.symm h]
  rw [this]

/-! ## Adding a rule -/

/-- A rule after reduction with the new one. -/
noncomputable def upd (t : Table) (o : Order) (n s : MRule) : MRule := if o.rank n.lhs < o.rank s.lhs then { s with rhs := n.reduce t o s.rhs } else s

theorem upd_lhs (t : Table) (o : Order) (n s : MRule) : (upd t o n s).lhs = s.lhs := by unfold upd; split <;> rfl
theorem upd_partial (t : Table) (o : Order) (n s : MRule) : (upd t o n s).partial = s.partial := by unfold upd; split <;> rfl
theorem upd_dir (t : Table) (o : Order) (n s : MRule) : (upd t o n s).dir = s.dir := by unfold upd; split <;> rfl

theorem upd_meets {t : Table} {o : Order} {n s : MRule} {p : List Mono} : Meets (upd t o n s) p ↔ Meets s p := by
  unfold Meets; rw [upd_lhs, upd_partial, upd_dir]

/-- The book is what is left of the old one, reduced with the new rule, and the new rule. -/
structure Adds (t : Table) (o : Order) (b : List MRule) (n : MRule) (b' : List MRule) : Prop where
  ordered : Ordered o b'
  mem : ∀ x, x ∈ b' ↔ x = n ∨ ∃ s ∈ b, s.lhs ≠ n.lhs ∧ x = upd t o n s

theorem single_ok {t : Table} {o : Order} {n : MRule} (hn : n.OK t o) : ∀ r ∈ [n], r.OK t o := fun r hr => by simp at hr; rw [hr]; exact hn

theorem single_subst {n : MRule} {v : Nat → ℂ} {i : Nat} (h : i ≠ n.lhs) : subst [n] v i = v i :=
  subst_none (by rw [findRule_single, if_neg (Ne.symm h)])

theorem upd_ok {t : Table} (ht : t.Good) {o : Order} (ho : o.Good) {n s : MRule} (hn : n.OK t o) (hs : s.OK t o) (hne : s.lhs ≠ n.lhs) :
    (upd t o n s).OK t o := by
  have hinj := ho.injective
  unfold upd
  split
  · rename_i hlt
    rw [reduce_eq n hs.rhs_canonical]
    have hn1 := single_ok hn
    rcases Bool.eq_false_or_eq_true s.partial with hp | hp
    rotate_left
    · have hc : ({ s with rhs := reduceBook t o [n] s.rhs } : MRule).core = reduceBook t o [n] s.rhs := core_full hp
      have hb : Below o s.lhs s.rhs := by rw [← core_full hp]; exact hs.below
      refine ⟨hs.lhs, ?_, ?_, hs.dir0, fun hh v hv => ?_, fun ha v hv => ?_, fun h => absurd (hp.symm.trans h) (by simp)⟩
      · rw [hc]; exact reduceBook_canonical hinj _ hs.rhs_canonical
      · rw [hc]; exact below_reduceBook hn1 hb
      · dsimp only; rw [reduceBook_value _ hv.1]; exact hs.herm hh _ (subst_assignment hn1 hv)
      · dsimp only; rw [reduceBook_value _ hv.1]; exact hs.anti ha _ (subst_assignment hn1 hv)
    · obtain ⟨h1, h2, h3, h4, h5, h6⟩ := hs.part hp
      have hd : s.dir ≠ 0 := fun h0 => by rw [h0] at h4; simp at h4
      have hcc := reduceBook_canonical (t := t) hinj [n] hs.core
      have hbb := below_reduceBook (t := t) hn1 hs.below
      have e : reduceBook t o [n] s.rhs = reduceBook t o [n] s.core ++ freePart s.lhs s.dir := by
        refine canonical_unique ht hinj (reduceBook_canonical hinj _ hs.rhs_canonical)
          (canonical_append hcc (freePart_canonical (by have := hs.lhs; omega) h1 h2 hd) fun a ha b hb => by
            rw [freePart_ids hb]; exact hbb a ha) fun v hv _ => ?_
        rw [reduceBook_value _ hv, value_append, reduceBook_value _ hv, rhs_value hs hp, freePart_value, single_subst hne]
      have hc : ({ s with rhs := reduceBook t o [n] s.rhs } : MRule).core = reduceBook t o [n] s.core := by
        simp only [MRule.core, hp, if_true]
        rw [e, dropLast_freePart]
        simp [MRule.core, hp]
      refine ⟨hs.lhs, ?_, ?_, hs.dir0, fun hh => ?_, fun ha => ?_, fun _ => ⟨h1, h2, ?_, h4, h5, fun v hv => ?_⟩⟩
      · rw [hc]; exact hcc
      · rw [hc]; exact hbb
      · dsimp only at hh; rw [h1] at hh; exact absurd hh (by simp)
      · dsimp only at ha; rw [h2] at ha; exact absurd ha (by simp)
      · rw [hc]; exact e
      · rw [hc, reduceBook_value _ hv.1]; exact h6 _ (subst_assignment hn1 hv)
  · exact hs

theorem Adds.inv {t : Table} (ht : t.Good) {o : Order} (ho : o.Good) {b b' : List MRule} {n : MRule} (h : Adds t o b n b') (hb : Inv t o b) (hn : n.OK t o)
    (hm : ∀ s ∈ b, s.lhs ≠ n.lhs → Meets s n.rhs) : Inv t o b' := by
  have hmn : ∀ x ∈ b', Meets x n.rhs := by
    intro x hx
    rcases (h.mem x).mp hx with rfl | ⟨s, hs, hne, rfl⟩
    · exact meets_self hn
    · rw [upd_meets]; exact hm s hs hne
  have hok : ∀ x ∈ b', x.OK t o := by
    intro x hx
    rcases (h.mem x).mp hx with rfl | ⟨s, hs, hne, rfl⟩
    · exact hn
    · exact upd_ok ht ho hn (hb.ok s hs) hne
  refine ⟨h.ordered, hok, fun r hr x hx => ?_⟩
  rcases (h.mem r).mp hr with rfl | ⟨s, hs, hne, rfl⟩
  · exact hmn x hx
  · unfold upd
    split
    · rename_i hlt
      dsimp only
      rw [reduce_eq n (hb.ok s hs).rhs_canonical]
      rcases (h.mem x).mp hx with rfl | ⟨s', hs', hne', rfl⟩
      · exact meets_reduceBook_in hn (by simpa using meets_self hn) _ ⟨x, by simp, rfl⟩
      · refine meets_reduceBook (hok _ hx) (fun y hy => ?_) (upd_meets.mpr (hb.meets s hs s' hs'))
        simp at hy; subst hy; exact hmn _ hx
    · rename_i hlt
      rcases (h.mem x).mp hx with rfl | ⟨s', hs', hne', rfl⟩
      · refine meets_of_absent fun m hm e => ?_
        have := (hb.ok s hs).rhs_le hm
        rw [e] at this
        exact hne (ho.injective (by omega))
      · rw [upd_meets]; exact hb.meets s hs s' hs'

theorem upd_holds {t : Table} {o : Order} {n s : MRule} (hs : s.OK t o) {v : Nat → ℂ} (hv : Assignment t v) (hn : Holds v n) :
    Holds v (upd t o n s) ↔ Holds v s := by
  unfold upd
  split
  · unfold Holds
    dsimp only
    have : subst [n] v = v := subst_of_solves (t := t) ⟨hv, by simpa using hn⟩
    rw [reduce_eq n hs.rhs_canonical, reduceBook_value _ hv.1, this]
  · rfl

theorem Adds.solves {t : Table} {o : Order} {b b' : List MRule} {n : MRule} (h : Adds t o b n b') (hb : Inv t o b) (v : Nat → ℂ) :
    Solves t b' v ↔ Assignment t v ∧ Holds v n ∧ ∀ s ∈ b, s.lhs ≠ n.lhs → Holds v s := by
  constructor
  · rintro ⟨hv, hall⟩
    have hn := hall n ((h.mem n).mpr (Or.inl rfl))
    exact ⟨hv, hn, fun s hs hne => (upd_holds (hb.ok s hs) hv hn).mp (hall _ ((h.mem _).mpr (Or.inr ⟨s, hs, hne, rfl⟩)))⟩
  · rintro ⟨hv, hn, hall⟩
    refine ⟨hv, fun x hx => ?_⟩
    rcases (h.mem x).mp hx with rfl | ⟨s, hs, hne, rfl⟩
    · exact hn
    · exact (upd_holds (hb.ok s hs) hv hn).mpr (hall s hs hne)

/-! ## The ways of adding in `complete()` -/

theorem insertRule_perm (o : Order) (n : MRule) (b : List MRule) : (insertRule o n b).Perm (n :: b) := by
  unfold insertRule
  refine List.perm_middle.trans ?_
  rw [List.takeWhile_append_dropWhile]

theorem insertRule_ordered {o : Order} (ho : Function.Injective o.rank) {n : MRule} {b : List MRule} (hb : Ordered o b) (hn : ∀ s ∈ b, s.lhs ≠ n.lhs) :
    Ordered o (insertRule o n b) := by
  induction b with
  | nil => simp [insertRule, Ordered]
  | cons a b ih =>
    obtain ⟨h1, h2⟩ := List.pairwise_cons.mp hb
    by_cases hlt : o.rank a.lhs < o.rank n.lhs
    · have e : insertRule o n (a :: b) = a :: insertRule o n b := by simp [insertRule, hlt]
      rw [e]
      refine List.pairwise_cons.mpr ⟨fun x hx => ?_, ih h2 fun s hs => hn s (by simp [hs])⟩
      rcases List.mem_cons.mp ((insertRule_perm o n b).mem_iff.mp hx) with rfl | hx
      · exact hlt
      · exact h1 x hx
    · have e : insertRule o n (a :: b) = n :: a :: b := by simp [insertRule, hlt]
      rw [e]
      have hna : o.rank n.lhs < o.rank a.lhs := by
        have : o.rank a.lhs ≠ o.rank n.lhs := fun h => hn a (by simp) (ho h)
        omega
      refine List.pairwise_cons.mpr ⟨fun x hx => ?_, hb⟩
      rcases List.mem_cons.mp hx with rfl | hx
      · exact hna
      · exact hna.trans (h1 x hx)

theorem updateLater_eq (t : Table) (o : Order) (n : MRule) (b : List MRule) : updateLater t o n b = b.map (upd t o n) := rfl

theorem map_upd_ordered {t : Table} {o : Order} {n : MRule} {b : List MRule} (h : Ordered o b) : Ordered o (b.map (upd t o n)) := by
  unfold Ordered
  rw [List.pairwise_map]
  exact h.imp fun h => by rw [upd_lhs, upd_lhs]; exact h

theorem upd_self (t : Table) (o : Order) (n : MRule) : upd t o n n = n := by simp [upd]

theorem adds_insert {t : Table} {o : Order} (ho : Function.Injective o.rank) {n : MRule} {b : List MRule} (hb : Ordered o b) (hn : ∀ s ∈ b, s.lhs ≠ n.lhs) :
    Adds t o b n (updateLater t o n (insertRule o n b)) where
  ordered := map_upd_ordered (insertRule_ordered ho hb hn)
  mem := fun x => by
    rw [updateLater_eq, List.mem_map]
    constructor
    · rintro ⟨s, hs, rfl⟩
      rcases List.mem_cons.mp ((insertRule_perm o n b).mem_iff.mp hs) with rfl | hs
      · exact Or.inl (upd_self t o s)
      · exact Or.inr ⟨s, hs, hn s hs, rfl⟩
    · rintro (rfl | ⟨s, hs, -, rfl⟩)
      · exact ⟨x, (insertRule_perm o x b).mem_iff.mpr (by simp), upd_self t o x⟩
      · exact ⟨s, (insertRule_perm o n b).mem_iff.mpr (by simp [hs]), rfl⟩

theorem adds_last {t : Table} {o : Order} {n : MRule} {b : List MRule} (hb : Ordered o b) (hn : ∀ s ∈ b, o.rank s.lhs < o.rank n.lhs) :
    Adds t o b n (b ++ [n]) where
  ordered := List.pairwise_append.mpr ⟨hb, by simp, fun a ha x hx => by simp at hx; subst hx; exact hn a ha⟩
  mem := fun x => by
    have hu : ∀ s ∈ b, upd t o n s = s := fun s hs => by
      have := hn s hs
      simp only [upd]; rw [if_neg (by omega)]
    have hne : ∀ s ∈ b, s.lhs ≠ n.lhs := fun s hs e => by have := hn s hs; rw [e] at this; exact lt_irrefl _ this
    rw [List.mem_append, List.mem_singleton]
    constructor
    · rintro (h | h)
      · exact Or.inr ⟨x, h, hne x h, (hu x h).symm⟩
      · exact Or.inl h
    · rintro (h | ⟨s, hs, -, rfl⟩)
      · exact Or.inr h
      · rw [hu s hs]; exact Or.inl hs

theorem adds_replace {t : Table} {o : Order} {n old : MRule} {b : List MRule} (hb : Ordered o b) (hold : old ∈ b) (hl : n.lhs = old.lhs) :
    Adds t o b n (updateLater t o n (b.map fun s => if s.lhs = old.lhs then n else s)) where
  ordered := by
    refine map_upd_ordered ?_
    unfold Ordered
    rw [List.pairwise_map]
    refine hb.imp fun {r s} h => ?_
    have e : ∀ x : MRule, (if x.lhs = old.lhs then n else x).lhs = x.lhs := fun x => by
      split
      · rename_i he; rw [hl, he]
      · rfl
    rw [e, e]; exact h
  mem := fun x => by
    rw [updateLater_eq, List.mem_map]
    constructor
    · rintro ⟨s, hs, rfl⟩
      obtain ⟨s, hs', rfl⟩ := List.mem_map.mp hs
      split
      · exact Or.inl (upd_self t o n)
      · rename_i he; exact Or.inr ⟨s, hs', by rw [hl]; exact he, rfl⟩
    · rintro (rfl | ⟨s, hs, hne, rfl⟩)
      · exact ⟨x, List.mem_map.mpr ⟨old, hold, by simp⟩, upd_self t o x⟩
      · exact ⟨s, List.mem_map.mpr ⟨s, hs, by rw [hl] at hne; simp [hne]⟩, rfl⟩

/-! ## The new rule -/

theorem lastId_mem {p : List Mono} (h : p ≠ []) : ∃ m ∈ p, m.id = lastId p := by
  rcases List.eq_nil_or_concat p with h' | ⟨P, m, rfl⟩
  · exact absurd h' h
  · exact ⟨m, by simp, by simp [lastId]⟩

/-- The right side of the new rule is reduced. -/
theorem new_meets {t : Table} (ht : t.Good) {o : Order} (ho : o.Good) {b : List MRule} (hb : Inv t o b) {p : List Mono}
    (hp : ∀ r ∈ b, Meets r p) {r : MRule} {s : Option (List Mono)} (h : MakeOK t o p r s) {q : MRule} (hq : q ∈ b) (hne : q.lhs ≠ r.lhs) :
    Meets q r.core := by
  set b0 := b.filter fun x => x.lhs != r.lhs with hb0
  have hmem : ∀ x, x ∈ b0 ↔ x ∈ b ∧ x.lhs ≠ r.lhs := fun x => by simp [hb0]
  have hok : ∀ x ∈ b0, x.OK t o := fun x hx => hb.ok x ((hmem x).mp hx).1
  have hP : ∀ x ∈ b0, Meets x (p.filter fun m => m.id != lastId p) := fun x hx =>
    meets_filter (by rw [← h.lhsEq]; exact Ne.symm ((hmem x).mp hx).2) (hp x ((hmem x).mp hx).1)
  have hq0 : q ∈ b0 := (hmem q).mpr ⟨hq, hne⟩
  have e : reduceBook t o b0 r.core = r.core := reduceBook_of_value ht ho.injective h.ok.core fun v hv =>
    h.dep _ _ (subst_assignment hok hv) hv (meets_value hok hP hv)
  rw [← e]
  exact meets_reduceBook_in (hok q hq0) (fun x hx => hb.meets x ((hmem x).mp hx).1 q hq) _ ⟨q, hq0, rfl⟩

theorem meets_core_iff {t : Table} {o : Order} {q r : MRule} (hr : r.OK t o) (hne : q.lhs ≠ r.lhs) : Meets q r.core ↔ Meets q r.rhs := by
  cases hp : r.partial with
  | false => rw [core_full hp]
  | true =>
    rw [(hr.part hp).2.2.1]
    refine meets_congr fun c => ?_
    rw [coeff_append, coeff_eq_zero (p := freePart r.lhs r.dir), add_zero]
    rintro m hm ⟨h1, -⟩
    rw [freePart_ids hm] at h1
    exact hne h1.symm

/-- If the symbol already has a rule, both rules are partial, with directions at right angles. -/
theorem collision {t : Table} {o : Order} {p : List Mono} (hc : Canonical t o p) (hne : p ≠ []) {r old : MRule} {s : Option (List Mono)} (h : MakeOK t o p r s)
    (hold : old.OK t o) (hl : old.lhs = r.lhs) (hm : Meets old p) : old.partial = true ∧ r.partial = true ∧ r.dir * r.dir = -(old.dir * old.dir) := by
  have hlast : old.lhs = lastId p := hl.trans h.lhsEq
  rcases canonical_cases hc with h' | ⟨P, m, rfl, hP, hb⟩ | ⟨P, i, a, b, rfl, hP, hb, ha, hb', hi, hh, hn⟩
  · exact absurd h' hne
  · exfalso
    rw [lastId_append] at hlast
    have hm0 := (hc.nonzero m (by simp)).1
    have hz : ∀ c, coeff P old.lhs c = 0 := fun c => coeff_eq_zero fun x hx e => by
      have := hb x hx; rw [← hlast, e.1] at this; exact lt_irrefl _ this
    rw [hlast] at hz
    unfold Meets at hm
    simp only [coeff_append, hz, coeff_cons, coeff_nil, hlast, true_and, zero_add, add_zero] at hm
    split at hm
    · rename_i hpart
      have hd := (hold.part hpart).2.2.2.1
      have hd0 : old.dir ≠ 0 := fun h0 => by rw [h0] at hd; simp at hd
      cases hcj : m.conj <;> simp [hcj, hm0, hd0] at hm
    · cases hcj : m.conj <;> simp [hcj, hm0] at hm
  · rw [lastId_pair] at hlast
    have hz : ∀ c, coeff P old.lhs c = 0 := fun c => coeff_eq_zero fun x hx e => by
      have := hb x hx; rw [hlast] at e; rw [e.1] at this; exact lt_irrefl _ this
    rw [hlast] at hz
    unfold Meets at hm
    simp only [coeff_append, hz, coeff_cons, coeff_nil, hlast, true_and, zero_add, add_zero, if_true, Bool.true_eq_false, Bool.false_eq_true, if_false] at hm
    split at hm
    · rename_i hpart
      have hd := (hold.part hpart).2.2.2.1
      have hnorm : Complex.normSq a = Complex.normSq b := by
        have h1 : Complex.normSq old.dir = 1 := by
          rw [Complex.mul_conj] at hd; exact_mod_cast hd
        rw [hm]; simp [Complex.normSq_mul, h1]
      have hrp := h.full P a b (by rw [lastId_pair]) hnorm
      refine ⟨hpart, hrp, ?_⟩
      obtain ⟨P', a', he⟩ := h.part hrp
      rw [lastId_pair] at he
      obtain ⟨-, h2⟩ := List.append_inj' he rfl
      simp at h2
      obtain ⟨rfl, h2⟩ := h2
      rw [h2] at hm
      exact mul_left_cancel₀ ha (by linear_combination hm)
    · exact absurd hm.1 ha

theorem merge_ok {t : Table} {o : Order} (ho : Function.Injective o.rank) {old r : MRule} (h1 : old.OK t o) (h2 : r.OK t o) (hl : old.lhs = r.lhs)
    (p1 : old.partial = true) (p2 : r.partial = true) :
    (old.merge o r).OK t o ∧ (old.merge o r).rhs = mergeAdd o old.core r.core ∧ (old.merge o r).lhs = old.lhs := by
  have e1 : old.rhs.dropLast.dropLast = old.core := by simp [MRule.core, p1]
  have e2 : r.rhs.dropLast.dropLast = r.core := by simp [MRule.core, p2]
  have e : old.merge o r = ⟨old.lhs, mergeAdd o old.core r.core, false, 0⟩ := by rw [MRule.merge, e1, e2, append_eq]
  rw [e]
  obtain ⟨hh, ha, -⟩ := h1.part p1
  refine ⟨⟨h1.lhs, ?_, ?_, fun _ => rfl, fun h => ?_, fun h => ?_, by simp⟩, rfl, rfl⟩
  · exact mergeAdd_canonical ho h1.core h2.core
  · exact below_mergeAdd h1.below (by rw [hl]; exact h2.below)
  · dsimp only at h; rw [hh] at h; exact absurd h (by simp)
  · dsimp only at h; rw [ha] at h; exact absurd h (by simp)

theorem merge_holds {t : Table} {o : Order} (ho : Function.Injective o.rank) {old r : MRule} (h1 : old.OK t o) (h2 : r.OK t o) (hl : old.lhs = r.lhs)
    (p1 : old.partial = true) (p2 : r.partial = true) (hd : r.dir * r.dir = -(old.dir * old.dir)) {v : Nat → ℂ} (hv : Assignment t v) :
    Holds v (old.merge o r) ↔ Holds v old ∧ Holds v r := by
  obtain ⟨-, e, el⟩ := merge_ok ho h1 h2 hl p1 p2
  unfold Holds
  rw [e, el, mergeAdd_value v ho, rhs_value h1 p1, rhs_value h2 p2, ← hl, hd]
  obtain ⟨-, -, -, u1, -, c1⟩ := h1.part p1
  obtain ⟨-, -, -, u2, -, c2⟩ := h2.part p2
  have c1 := c1 v hv
  have c2 := c2 v hv
  simp only [map_mul, Complex.conj_conj] at c1 c2
  set x := v old.lhs
  set a := value v old.core
  set c := value v r.core
  have k1 : old.dir * old.dir * conj' a = a := by linear_combination old.dir * c1 + a * u1
  have k2 : old.dir * old.dir * conj' c = -c := by linear_combination (-r.dir) * c2 - c * u2 + conj' c * hd
  constructor
  · intro h
    have hx : conj' x = conj' a + conj' c := by rw [h]; simp
    constructor
    · rw [hx, h]; linear_combination (1 / 2) * k1 + (1 / 2) * k2
    · rw [hx, h]; linear_combination (-1 / 2) * k1 - (1 / 2) * k2
  · rintro ⟨g1, g2⟩
    linear_combination g1 + g2

/-! ## Weights: why completion ends -/

/-- One more than the highest rank plus one. -/
def weight (o : Order) (p : List Mono) : Nat := (p.map fun m => o.rank m.id + 1).foldr max 0 + 1

theorem weight_le_iff {o : Order} {p : List Mono} {k : Nat} : weight o p ≤ k + 1 ↔ ∀ m ∈ p, o.rank m.id + 1 ≤ k := by
  unfold weight
  induction p with
  | nil => simp
  | cons m p ih =>
    simp only [List.map_cons, List.foldr_cons, List.mem_cons, forall_eq_or_imp]
    rw [← ih]
    omega

theorem weight_pos (o : Order) (p : List Mono) : 1 ≤ weight o p := by unfold weight; omega

theorem rank_lt_weight {o : Order} {p : List Mono} {m : Mono} (h : m ∈ p) : o.rank m.id + 2 ≤ weight o p := by
  have := (weight_le_iff (o := o) (p := p) (k := weight o p - 1)).mp (by have := weight_pos o p; omega) m h
  omega

def total (o : Order) (raw : List (List Mono)) : Nat := (raw.map (weight o)).sum

theorem weight_below {o : Order} {p : List Mono} {i : Nat} (h : Below o i p) : weight o p ≤ o.rank i + 1 :=
  weight_le_iff.mpr fun m hm => h m hm

/-! ## The loop -/

/-- What completion is to achieve. -/
def Completed (t : Table) (o : Order) (b : List MRule) (raw : List (List Mono)) (added : Nat) : Outcome → Prop
  | .ok b' k => Inv t o b' ∧ (∀ v, Solves t b' v ↔ Solves t b v ∧ Zero v raw) ∧ k + b.length = added + b'.length
  | .contradiction => ∀ v, ¬ (Solves t b v ∧ Zero v raw)

theorem Completed.trans {t : Table} {o : Order} {b b' : List MRule} {raw raw' : List (List Mono)} {added added' : Nat} {out : Outcome}
    (h : Completed t o b' raw' added' out) (hs : ∀ v, (Solves t b' v ∧ Zero v raw') ↔ (Solves t b v ∧ Zero v raw))
    (hk : added' + b.length = added + b'.length) : Completed t o b raw added out := by
  cases out with
  | ok c k =>
    obtain ⟨h1, h2, h3⟩ := h
    exact ⟨h1, fun v => (h2 v).trans (hs v), by omega⟩
  | contradiction => exact fun v hv => h v ((hs v).mpr hv)

theorem zero_cons {v : Nat → ℂ} {p : List Mono} {raw : List (List Mono)} : Zero v (p :: raw) ↔ value v p = 0 ∧ Zero v raw := by simp [Zero]
theorem zero_split {v : Nat → ℂ} {s : Option (List Mono)} {raw : List (List Mono)} : Zero v (raw ++ s.toList) ↔ SplitZero v s ∧ Zero v raw := by
  cases s <;> simp [Zero, SplitZero, List.mem_append, or_imp, forall_and, and_comm]

theorem completeLoop_spec {t : Table} (ht : t.Good) {o : Order} (ho : o.Good) : ∀ (n : Nat) (raw : List (List Mono)) (b : List MRule) (added : Nat),
    total o raw ≤ n → Inv t o b → (∀ p ∈ raw, Canonical t o p) → ∃ out, completeLoop t o b raw added = some out ∧ Completed t o b raw added out := by
  intro n
  induction n with
  | zero =>
    intro raw b added hn hb hraw
    cases raw with
    | nil => exact ⟨.ok b added, by rw [completeLoop], hb, fun v => by simp [Zero], rfl⟩
    | cons p rest =>
      have := weight_pos o p
      simp only [total, List.map_cons, List.sum_cons] at hn
      omega
  | succ n ih =>
    intro raw b added hn hb hraw
    cases raw with
    | nil => exact ⟨.ok b added, by rw [completeLoop], hb, fun v => by simp [Zero], rfl⟩
    | cons p rest =>
      have hw := weight_pos o p
      simp only [total, List.map_cons, List.sum_cons] at hn
      have hrest : ∀ q ∈ rest, Canonical t o q := fun q hq => hraw q (by simp [hq])
      have hpc : Canonical t o (reduceBook t o b p) := reduceBook_canonical ho.injective b (hraw p (by simp))
      have hval : ∀ v, Solves t b v → (value v (reduceBook t o b p) = value v p) := fun v hv => by
        rw [reduceBook_value b hv.1.1, subst_of_solves hv]
      rw [completeLoop.eq_def]
      dsimp only
      by_cases hnil : reduceBook t o b p = []
      · rw [hnil, makeRule_nil]
        dsimp only
        rw [if_pos rfl]
        obtain ⟨out, h1, h2⟩ := ih rest b added (by unfold total; omega) hb hrest
        refine ⟨out, h1, h2.trans (fun v => ?_) rfl⟩
        rw [zero_cons]
        refine and_congr_right fun hv => ?_
        rw [← hval v hv, hnil]; simp
      · rcases makeRule_spec ht ho hpc hnil with ⟨he, hno⟩ | ⟨r, s, he, hmk⟩
        · rw [he]
          refine ⟨.contradiction, rfl, fun v hv => ?_⟩
          exact hno v hv.1.1 ((hval v hv.1).trans (zero_cons.mp hv.2).1)
        · rw [he]
          dsimp only
          have hr0 : r.lhs ≠ 0 := by have := hmk.ok.lhs; omega
          rw [if_neg hr0]
          have hmp := hb.reduce_meets p
          have hmeet : ∀ q ∈ b, q.lhs ≠ r.lhs → Meets q r.rhs := fun q hq hne =>
            (meets_core_iff hmk.ok hne).mp (new_meets ht ho hb hmp hmk hq hne)
          -- the split polynomial is lighter
          have hsplit : total o (rest ++ s.toList) ≤ n := by
            cases s with
            | none => simp only [Option.toList_none, List.append_nil, total]; omega
            | some q =>
              obtain ⟨m, hm, hid⟩ := lastId_mem hnil
              obtain ⟨y, hy, hle⟩ := reduceBook_le hb.ok hm
              have h1 := rank_lt_weight (o := o) hy
              have h2 := weight_below (hmk.split q rfl).2
              rw [← hid] at h2
              simp only [total, Option.toList_some, List.map_append, List.map_cons, List.map_nil, List.sum_append, List.sum_cons, List.sum_nil]
              omega
          have hcan : ∀ q ∈ rest ++ s.toList, Canonical t o q := fun q hq => by
            rcases List.mem_append.mp hq with hq | hq
            · exact hrest q hq
            · exact (hmk.split q (by simpa using hq)).1
          -- adding the rule itself
          have hnew : ∀ b', Adds t o b r b' → (∀ q ∈ b, q.lhs ≠ r.lhs) → b'.length = b.length + 1 →
              ∃ out, completeLoop t o b' (rest ++ s.toList) (added + 1) = some out ∧ Completed t o b (p :: rest) added out := by
            intro b' hadd hfresh hlen
            obtain ⟨out, h1, h2⟩ := ih (rest ++ s.toList) b' (added + 1) hsplit (hadd.inv ht ho hb hmk.ok hmeet) hcan
            refine ⟨out, h1, h2.trans (fun v => ?_) (by omega)⟩
            rw [hadd.solves hb, zero_split, zero_cons]
            constructor
            · rintro ⟨⟨hv, hr, hall⟩, hs, hz⟩
              have hsol : Solves t b v := ⟨hv, fun q hq => hall q hq (hfresh q hq)⟩
              exact ⟨hsol, by rw [← hval v hsol]; exact (hmk.exact v hv).mpr ⟨hr, hs⟩, hz⟩
            · rintro ⟨hsol, hp0, hz⟩
              rw [← hval v hsol] at hp0
              obtain ⟨hr, hs⟩ := (hmk.exact v hsol.1).mp hp0
              exact ⟨⟨hsol.1, hr, fun q hq _ => hsol.2 q hq⟩, hs, hz⟩
          split
          · rename_i hall
            simp only [List.all_eq_true, decide_eq_true_eq] at hall
            exact hnew _ (adds_last hb.ordered hall) (fun q hq e => by have := hall q hq; rw [e] at this; exact lt_irrefl _ this) (by simp)
          · cases hf : findRule b r.lhs with
            | none =>
              have hfresh := findRule_none.mp hf
              refine hnew _ (adds_insert ho.injective hb.ordered hfresh) hfresh ?_
              rw [updateLater_eq, List.length_map, (insertRule_perm o r b).length_eq]; rfl
            | some old =>
              obtain ⟨hold, hl⟩ := findRule_some hf
              dsimp only
              obtain ⟨p1, p2, hd⟩ := collision hpc hnil hmk (hb.ok old hold) hl (hmp old hold)
              obtain ⟨mok, mrhs, mlhs⟩ := merge_ok ho.injective (hb.ok old hold) hmk.ok hl p1 p2
              have hadd := adds_replace (t := t) (n := old.merge o r) hb.ordered hold mlhs
              rw [hl] at hadd
              have hmm : ∀ q ∈ b, q.lhs ≠ (old.merge o r).lhs → Meets q (old.merge o r).rhs := by
                intro q hq hne
                rw [mlhs] at hne
                rw [mrhs]
                have m1 : Meets q old.core := (meets_core_iff (hb.ok old hold) hne).mpr (hb.meets old hold q hq)
                have m2 : Meets q r.core := new_meets ht ho hb hmp hmk hq (by rw [← hl]; exact hne)
                have e : reduceBook t o [q] (mergeAdd o old.core r.core) = mergeAdd o old.core r.core := by
                  have hq1 := single_ok (hb.ok q hq)
                  refine reduceBook_of_value ht ho.injective (mergeAdd_canonical ho.injective (hb.ok old hold).core hmk.ok.core) fun v hv => ?_
                  rw [mergeAdd_value _ ho.injective, mergeAdd_value _ ho.injective, meets_value hq1 (by simpa using m1) hv, meets_value hq1 (by simpa using m2) hv]
                rw [← e]
                exact meets_reduceBook_in (hb.ok q hq) (by simpa using meets_self (hb.ok q hq)) _ ⟨q, by simp, rfl⟩
              obtain ⟨out, h1, h2⟩ := ih (rest ++ s.toList) _ added hsplit (hadd.inv ht ho hb mok hmm) hcan
              refine ⟨out, h1, h2.trans (fun v => ?_) (by simp [updateLater_eq])⟩
              rw [hadd.solves hb, zero_split, zero_cons]
              constructor
              · rintro ⟨⟨hv, hr, hall⟩, hs, hz⟩
                obtain ⟨ho1, hr1⟩ := (merge_holds ho.injective (hb.ok old hold) hmk.ok hl p1 p2 hd hv).mp hr
                have hsol : Solves t b v := ⟨hv, fun q hq => by
                  by_cases e : q.lhs = old.lhs
                  · rw [hb.ordered.unique hq hold e]; exact ho1
                  · exact hall q hq (by rw [mlhs]; exact e)⟩
                exact ⟨hsol, by rw [← hval v hsol]; exact (hmk.exact v hv).mpr ⟨hr1, hs⟩, hz⟩
              · rintro ⟨hsol, hp0, hz⟩
                rw [← hval v hsol] at hp0
                obtain ⟨hr, hs⟩ := (hmk.exact v hsol.1).mp hp0
                exact ⟨⟨hsol.1, (merge_holds ho.injective (hb.ok old hold) hmk.ok hl p1 p2 hd hsol.1).mpr ⟨hsol.2 old hold, hr⟩, fun q hq _ => hsol.2 q hq⟩, hs, hz⟩

end Moment.Poly
