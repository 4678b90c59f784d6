import Verif.Proof.InflationSimplify
import Mathlib.Data.List.Perm.Subperm

namespace Moment.Inflation
open Moment

variable {n : Causal} {c : Ctx}

/-! ### Sources of an operator -/

theorem sourcesOf_lt {o s : Nat} (h : s ∈ n.sourcesOf o) : s < n.sources.length := by
  unfold Causal.sourcesOf at h
  rw [List.mem_filter] at h
  simpa using h.1

theorem sourcesOf_nodup (o : Nat) : (n.sourcesOf o).Nodup := by
  unfold Causal.sourcesOf
  exact List.Nodup.filter _ List.nodup_range

theorem explicit_eq (hb : Built n c) : c.net.explicitSources = n.sources.length := (create_some hb.created).2.1

theorem opSources_explicit (hb : Built n c) {a : Op} (h : Exists n c.infl a) (hs : n.sourcesOf a.obs ≠ []) :
    opSources c (enc c a) = List.zipWith (fun s v => s * c.infl + v) (n.sourcesOf a.obs) a.copy := by
  rw [opSources, info_enc hb h]
  obtain ⟨k, h1, h2, h3, -⟩ := h
  have e : (obsAt c a.obs).sources = n.sourcesOf a.obs := by
    rw [obsAt_eq hb h1, if_neg (by simpa using hs)]
  simp only [variantSources, variantIndices, e]
  rw [flatten_eq, ← h2, unflatten_val h3]
  apply List.ext_getElem?
  intro i
  simp only [List.getElem?_zipWith]
  cases hsi : (n.sourcesOf a.obs)[i]? with
  | none => rfl
  | some s =>
    cases hvi : a.copy[i]? with
    | none => rfl
    | some v =>
      have : s < n.sources.length := sourcesOf_lt (List.mem_of_getElem? hsi)
      simp only [Option.some.injEq]
      rw [globalSource, if_neg (by rw [explicit_eq hb]; omega)]

theorem opSources_implicit (hb : Built n c) {a : Op} (h : Exists n c.infl a) (hs : n.sourcesOf a.obs = []) :
    opSources c (enc c a) = [n.sources.length * c.infl + (implicitSource n a.obs - n.sources.length)] := by
  rw [opSources, info_enc hb h]
  obtain ⟨k, h1, h2, h3, -⟩ := h
  have e : (obsAt c a.obs).sources = [implicitSource n a.obs] := by
    rw [obsAt_eq hb h1, if_pos (by simpa using hs)]
  have hc : a.copy = [] := by rw [hs] at h2; simpa using h2
  have hu : ∃ x, unflattenIndex c.infl 1 (flattenIndex c.infl []) = [x] := by
    unfold unflattenIndex
    split
    · exact ⟨_, rfl⟩
    · exact ⟨_, rfl⟩
  obtain ⟨x, hx⟩ := hu
  simp only [variantSources, variantIndices, e, hc, List.length_singleton, hx, List.zipWith_cons_cons, List.zipWith_nil_left]
  rw [globalSource, if_pos (by rw [explicit_eq hb]; unfold implicitSource; omega), explicit_eq hb]

theorem global_inj {L s v s' v' : Nat} (hv : v < L) (hv' : v' < L) (h : s * L + v = s' * L + v') : s = s' ∧ v = v' := by
  have h1 : (s * L + v) / L = s := by rw [mul_comm, Nat.mul_add_div (by omega), Nat.div_eq_of_lt hv]; rfl
  have h2 : (s' * L + v') / L = s' := by rw [mul_comm, Nat.mul_add_div (by omega), Nat.div_eq_of_lt hv']; rfl
  rw [h, h2] at h1
  subst h1
  exact ⟨rfl, by omega⟩

theorem mem_zipWith {α β γ : Type} (f : α → β → γ) (l : List α) (m : List β) (x : γ) :
    x ∈ List.zipWith f l m ↔ ∃ p ∈ l.zip m, f p.1 p.2 = x := by
  rw [← List.map_uncurry_zip_eq_zipWith, List.mem_map]; rfl

theorem fedBy_lt {a : Op} {L : Nat} (h : Exists n L a) {s v : Nat} (hf : FedBy n a s v) : s < n.sources.length ∧ v < L := by
  obtain ⟨k, h1, h2, h3, -⟩ := h
  have := List.of_mem_zip hf
  exact ⟨sourcesOf_lt this.1, h3 v this.2⟩

theorem overlap_iff (a b : List Nat) : overlap a b = true ↔ ∃ s ∈ a, s ∈ b := by
  simp [overlap]

theorem mem_opSources (hb : Built n c) {a : Op} (ha : Exists n c.infl a) (x : Nat) :
    x ∈ opSources c (enc c a) ↔ (∃ s v, FedBy n a s v ∧ x = s * c.infl + v) ∨
      (n.sourcesOf a.obs = [] ∧ x = n.sources.length * c.infl + (implicitSource n a.obs - n.sources.length)) := by
  by_cases hs : n.sourcesOf a.obs = []
  · rw [opSources_implicit hb ha hs]
    simp [hs, FedBy]
  · rw [opSources_explicit hb ha hs, mem_zipWith]
    constructor
    · rintro ⟨⟨s, v⟩, h1, h2⟩; exact Or.inl ⟨s, v, h1, h2.symm⟩
    · rintro (⟨s, v, h1, h2⟩ | ⟨h, -⟩)
      · exact ⟨(s, v), h1, h2.symm⟩
      · exact absurd h hs

theorem overlap_linked (hb : Built n c) {a b : Op} (ha : Exists n c.infl a) (hb' : Exists n c.infl b) :
    overlap (opSources c (enc c a)) (opSources c (enc c b)) = true ↔ Linked n a b := by
  rw [overlap_iff]
  simp only [mem_opSources hb ha, mem_opSources hb hb']
  have low : ∀ {a : Op}, Exists n c.infl a → ∀ {s v}, FedBy n a s v → s * c.infl + v < n.sources.length * c.infl := by
    intro a ha s v hf
    obtain ⟨h1, h2⟩ := fedBy_lt ha hf
    calc s * c.infl + v < s * c.infl + c.infl := by omega
      _ = (s + 1) * c.infl := by ring
      _ ≤ _ := Nat.mul_le_mul_right _ h1
  constructor
  · rintro ⟨x, ⟨s, v, h1, rfl⟩ | ⟨h1, rfl⟩, ⟨s', v', h2, e⟩ | ⟨h2, e⟩⟩
    · obtain ⟨rfl, rfl⟩ := global_inj (fedBy_lt ha h1).2 (fedBy_lt hb' h2).2 e
      exact Or.inl ⟨s, v, h1, h2⟩
    · have := low ha h1; omega
    · have := low hb' h2; omega
    · refine Or.inr ⟨h1, ?_⟩
      obtain ⟨k, a1, -⟩ := ha
      obtain ⟨k', b1, -⟩ := hb'
      refine implicitSource_inj a1 b1 h1 h2 ?_
      have l1 : n.sources.length ≤ implicitSource n a.obs := by unfold implicitSource; omega
      have l2 : n.sources.length ≤ implicitSource n b.obs := by unfold implicitSource; omega
      omega
  · rintro (⟨s, v, h1, h2⟩ | ⟨h1, h2⟩)
    · exact ⟨_, Or.inl ⟨s, v, h1, rfl⟩, Or.inl ⟨s, v, h2, rfl⟩⟩
    · exact ⟨_, Or.inr ⟨h1, rfl⟩, Or.inr ⟨h2 ▸ h1, by rw [h2]⟩⟩

/-! ### The greedy loop -/

/-- No split into two non-empty parts is free of links. -/
def Connected {α : Type} (R : α → α → Prop) (g : List α) : Prop :=
  ∀ p q : List α, (p ++ q).Perm g → p ≠ [] → q ≠ [] → ∃ a ∈ p, ∃ b ∈ q, R a b

theorem connected_append {α : Type} {R : α → α → Prop} (hsymm : ∀ a b, R a b → R b a) {g : List α} {b : α} (hg : Connected R g)
    (hl : ∃ a ∈ g, R a b) : Connected R (g ++ [b]) := by
  have key : ∀ p q : List α, (p ++ q).Perm (g ++ [b]) → b ∈ p → q ≠ [] → ∃ x ∈ p, ∃ y ∈ q, R x y := by
    intro p q hpq hbp hq
    obtain ⟨p1, p2, rfl⟩ := List.append_of_mem hbp
    have hp : (p1 ++ p2 ++ q).Perm g := by
      have h1 : (p1 ++ b :: p2 ++ q).Perm (b :: (p1 ++ p2 ++ q)) := by
        rw [List.append_assoc, List.cons_append, List.append_assoc]; exact List.perm_middle
      have h2 : (g ++ [b]).Perm (b :: g) := List.perm_append_singleton b g
      exact (List.perm_cons b).mp (h1.symm.trans (hpq.trans h2))
    by_cases he : p1 ++ p2 = []
    · rw [he, List.nil_append] at hp
      obtain ⟨a, ha, hab⟩ := hl
      exact ⟨b, by simp, a, hp.mem_iff.mpr ha, hsymm _ _ hab⟩
    · obtain ⟨x, hx, y, hy, h⟩ := hg _ _ hp he hq
      refine ⟨x, ?_, y, hy, h⟩
      simp only [List.mem_append, List.mem_cons] at hx ⊢
      tauto
  intro p q hpq hp hq
  have hb : b ∈ p ++ q := hpq.mem_iff.mpr (by simp)
  rcases List.mem_append.mp hb with hb | hb
  · exact key p q hpq hb hq
  · obtain ⟨x, hx, y, hy, h⟩ := key q p (List.perm_append_comm.trans hpq) hb hp
    exact ⟨y, hy, x, hx, hsymm _ _ h⟩

/-- Overlap of the sources of two operator numbers. -/
def Touch (c : Ctx) (a b : Nat) : Prop := overlap (opSources c a) (opSources c b) = true

theorem touch_symm (c : Ctx) (a b : Nat) (h : Touch c a b) : Touch c b a := by
  unfold Touch at *
  rw [overlap_iff] at *
  obtain ⟨s, h1, h2⟩ := h
  exact ⟨s, h2, h1⟩

theorem grow_spec (c : Ctx) (inc f rest : List Nat) (hinc : ∀ s, s ∈ inc ↔ ∃ a ∈ f, s ∈ opSources c a) (hf : Connected (Touch c) f) :
    ((grow c inc f rest).1 ++ (grow c inc f rest).2).Perm (f ++ rest) ∧ Connected (Touch c) (grow c inc f rest).1 ∧
      (∀ a ∈ f, a ∈ (grow c inc f rest).1) ∧
      ∀ a ∈ (grow c inc f rest).1, ∀ b ∈ (grow c inc f rest).2, ¬ Touch c a b := by
  induction inc, f, rest using grow.induct c with
  | case1 inc f r h =>
    rw [grow]
    split
    · refine ⟨List.Perm.refl _, hf, fun a h => h, ?_⟩
      intro a ha b hb ht
      rw [List.find?_eq_none] at h
      apply h b hb
      rw [overlap_iff]
      unfold Touch at ht
      rw [overlap_iff] at ht
      obtain ⟨s, h1, h2⟩ := ht
      exact ⟨s, (hinc s).mpr ⟨a, ha, h1⟩, h2⟩
    · rename_i h'; rw [h] at h'; simp at h'
  | case2 inc f r b h ih =>
    rw [grow]
    split
    · rename_i h'; rw [h] at h'; simp at h'
    · rename_i b' h'
      have e : b' = b := by rw [h] at h'; exact (Option.some.inj h').symm
      subst e
      have hmem := List.mem_of_find?_eq_some h
      have hov := List.find?_some h
      rw [overlap_iff] at hov
      obtain ⟨s, hs1, hs2⟩ := hov
      obtain ⟨a, ha, has⟩ := (hinc s).mp hs1
      have hlink : ∃ a ∈ f, Touch c a b' := ⟨a, ha, (overlap_iff _ _).mpr ⟨s, has, hs2⟩⟩
      obtain ⟨h1, h2, h3, h4⟩ := ih (by
        intro s
        simp only [List.mem_append, hinc, List.mem_singleton]
        constructor
        · rintro (⟨a, ha, hs⟩ | hs)
          · exact ⟨a, Or.inl ha, hs⟩
          · exact ⟨b', Or.inr rfl, hs⟩
        · rintro ⟨a, ha | rfl, hs⟩
          · exact Or.inl ⟨a, ha, hs⟩
          · exact Or.inr hs) (connected_append (touch_symm c) hf hlink)
      refine ⟨h1.trans ?_, h2, fun a ha => h3 a (by simp [ha]), h4⟩
      rw [List.append_assoc]
      exact (List.Perm.append_left f (List.perm_cons_erase hmem).symm)

theorem factorGroups_spec (c : Ctx) (w : List Nat) : (factorGroups c w).flatten.Perm w ∧ (∀ g ∈ factorGroups c w, g ≠ [] ∧ Connected (Touch c) g) ∧
    (factorGroups c w).Pairwise (fun g h => ∀ a ∈ g, ∀ b ∈ h, ¬ Touch c a b) := by
  induction w using factorGroups.induct c with
  | case1 => simp [factorGroups]
  | case2 a rest g ih =>
    have hg : g = grow c (opSources c a) [a] rest := rfl
    obtain ⟨h1, h2, h3, h4⟩ := grow_spec c (opSources c a) [a] rest (by simp) (by
      intro p q hpq hp hq
      have := hpq.length_eq
      have h1 := List.length_pos_iff.mpr hp
      have h2 := List.length_pos_iff.mpr hq
      simp at this; omega)
    rw [← hg] at h1 h2 h3 h4
    obtain ⟨i1, i2, i3⟩ := ih
    rw [factorGroups]
    rw [← hg]
    refine ⟨?_, ?_, ?_⟩
    · rw [List.flatten_cons]
      exact (List.Perm.append_left g.1 i1).trans h1
    · intro x hx
      rcases List.mem_cons.mp hx with rfl | hx
      · exact ⟨List.ne_nil_of_mem (h3 a (by simp)), h2⟩
      · exact i2 x hx
    · refine List.pairwise_cons.mpr ⟨?_, i3⟩
      intro h hh x hx y hy
      exact h4 x hx y (i1.mem_iff.mp (List.mem_flatten.mpr ⟨h, hh, hy⟩))

/-! ### Groups of a simplified word -/

theorem nf_self (hb : Built n c) {u : List Op} (hu : ∀ a ∈ u, Exists n c.infl a) (h : nf n c u = some u) :
    (∀ a ∈ u, ∀ b ∈ u, ¬ Exclusive a b) ∧ ∀ a ∈ u, Projective n a → u.count a = 1 := by
  have hsu : ∀ a ∈ stableSort (enc c) u, Exists n c.infl a := fun a ha => hu a (mem_stableSort.mp ha)
  have eu := neighbours_iff hb hsu (stableSort_sorted _ _)
  simp only [mem_stableSort] at eu
  unfold nf at h
  dsimp only at h
  split at h
  · simp at h
  · rename_i hn
    refine ⟨fun a ha b hb' he => hn (eu.mpr ⟨a, ha, b, hb', he⟩), ?_⟩
    intro a ha hp
    have h2 := count_unique (n := n) (c := c) a _ (stableSort_sorted _ _) fun x hx y hy => enc_inj hb (hsu x hx) (hsu y hy)
    rw [Option.some.inj h, (stableSort_perm _ _).count_eq, cap, if_pos hp] at h2
    have := List.count_pos_iff.mpr ha
    omega

theorem nf_of_subperm (hb : Built n c) {u g : List Op} (hu : ∀ a ∈ u, Exists n c.infl a) (h : nf n c u = some u) (hg : g.Subperm u) :
    nf n c g = some (stableSort (enc c) g) := by
  obtain ⟨h1, h2⟩ := nf_self hb hu h
  have hgu : ∀ a ∈ g, a ∈ u := fun a ha => hg.subset ha
  have hsg : ∀ a ∈ stableSort (enc c) g, Exists n c.infl a := fun a ha => hu a (hgu a (mem_stableSort.mp ha))
  have eg := neighbours_iff hb hsg (stableSort_sorted _ _)
  simp only [mem_stableSort] at eg
  unfold nf
  dsimp only
  rw [if_neg, Option.some.injEq, uniqueBy_eq_self]
  · by_contra hc
    rw [Bool.not_eq_false, anyNeighbours_iff] at hc
    obtain ⟨p, a, b, q, e, hab⟩ := hc
    simp only [Bool.and_eq_true, beq_iff_eq, decide_eq_true_eq] at hab
    obtain ⟨rfl, hp⟩ := hab
    have h3 : (stableSort (enc c) g).count a ≥ 2 := by rw [e]; simp; omega
    rw [(stableSort_perm _ _).count_eq] at h3
    have ha : a ∈ g := List.count_pos_iff.mp (by omega)
    have := hg.count_le a
    have := h2 a (hgu a ha) hp
    omega
  · intro hn
    obtain ⟨a, ha, b, hb', he⟩ := eg.mp hn
    exact h1 a (hgu a ha) b (hgu b hb') he

theorem perm_lift (hb : Built n c) : ∀ {u : List Op} {w : List Nat}, (∀ a ∈ u, Exists n c.infl a) → w.Perm (u.map (enc c)) →
    ∃ v : List Op, v.Perm u ∧ w = v.map (enc c) := by
  intro u w hu hw
  have hr : ∀ m ∈ w, m < operatorCount c := by
    intro m hm
    obtain ⟨a, ha, rfl⟩ := List.mem_map.mp (hw.mem_iff.mp hm)
    exact enc_lt hb (hu a ha)
  obtain ⟨v, hv, rfl⟩ := word_surj hb hr
  refine ⟨v, ?_, rfl⟩
  rw [List.perm_iff_count]
  intro a
  by_cases ha : Exists n c.infl a
  · have key : ∀ {l : List Op}, (∀ x ∈ l, Exists n c.infl x) → (l.map (enc c)).count (enc c a) = l.count a := by
      intro l hl
      induction l with
      | nil => rfl
      | cons x l ih =>
        rw [List.map_cons, List.count_cons, List.count_cons, ih fun y hy => hl y (by simp [hy])]
        by_cases hx : x = a
        · simp [hx]
        · have : enc c x ≠ enc c a := fun e => hx (enc_inj hb (hl x (by simp)) ha e)
          simp [hx, this]
    rw [← key hv, ← key hu, hw.count_eq]
  · rw [List.count_eq_zero.mpr fun h => ha (hv a h), List.count_eq_zero.mpr fun h => ha (hu a h)]

theorem flatten_lift (hb : Built n c) : ∀ {G : List (List Nat)} {u : List Op}, (∀ a ∈ u, Exists n c.infl a) → G.flatten = u.map (enc c) →
    ∃ H : List (List Op), H.flatten = u ∧ G = H.map (List.map (enc c))
  | [], u, _, h => by
    simp only [List.flatten_nil] at h
    have : u = [] := by simpa using h.symm
    exact ⟨[], by simp [this], rfl⟩
  | g :: G, u, hu, h => by
    rw [List.flatten_cons] at h
    obtain ⟨x, y, rfl, h1, h2⟩ := List.map_eq_append_iff.mp h.symm
    obtain ⟨H, rfl, rfl⟩ := flatten_lift hb (G := G) (u := y) (fun a ha => hu a (by simp [ha])) h2.symm
    exact ⟨x :: H, rfl, by rw [List.map_cons, h1]⟩

theorem subperm_of_mem_flatten {α : Type} {H : List (List α)} {g : List α} (h : g ∈ H) : g.Sublist H.flatten := by
  induction H with
  | nil => simp at h
  | cons x H ih =>
    rw [List.flatten_cons]
    rcases List.mem_cons.mp h with rfl | h
    · exact List.sublist_append_left _ _
    · exact (ih h).trans (List.sublist_append_right _ _)

theorem factorize_spec (hb : Built n c) {u : List Op} (hu : ∀ a ∈ u, Exists n c.infl a) (h : nf n c u = some u) :
    ∃ gs : List (List Op), factorize c (u.map (enc c)) = gs.map (fun g => .word (g.map (enc c))) ∧ gs.flatten.Perm u ∧
      gs.Pairwise (fun g h => ∀ a ∈ g, ∀ b ∈ h, ¬ Linked n a b) ∧
      (∀ g ∈ gs, Connected (Linked n) g) ∧ (u ≠ [] → ∀ g ∈ gs, g ≠ []) ∧ ∀ g ∈ gs, nf n c g = some g := by
  by_cases hlen : u.length ≤ 1
  · refine ⟨[u], ?_, by simp, by simp, ?_, by simp, by simpa using h⟩
    · rw [factorize, if_pos (by simpa using hlen)]; rfl
    · intro g hg p q hpq hp hq
      simp only [List.mem_singleton] at hg
      subst hg
      have := hpq.length_eq
      have h1 := List.length_pos_iff.mpr hp
      have h2 := List.length_pos_iff.mpr hq
      simp at this; omega
  · obtain ⟨f1, f2, f3⟩ := factorGroups_spec c (u.map (enc c))
    obtain ⟨v, hv, e1⟩ := perm_lift hb hu f1
    have hv2 : ∀ a ∈ v, Exists n c.infl a := fun a ha => hu a (hv.mem_iff.mp ha)
    obtain ⟨H, hH, e2⟩ := flatten_lift hb hv2 e1
    have hsub : ∀ g ∈ H, g.Subperm u := fun g hg => (subperm_of_mem_flatten hg).subperm.trans (by rw [hH]; exact hv.subperm)
    have hex : ∀ g ∈ H, ∀ a ∈ g, Exists n c.infl a := fun g hg a ha => hu a ((hsub g hg).subset ha)
    rw [e2] at f2 f3
    refine ⟨H.map (stableSort (enc c)), ?_, ?_, ?_, ?_, ?_, ?_⟩
    · rw [factorize, if_neg (by simpa using hlen), e2, List.map_map, List.map_map]
      apply List.map_congr_left
      intro g hg
      simp only [Function.comp_apply]
      rw [simplify_enc hb (hex g hg), nf_of_subperm hb hu h (hsub g hg)]
    · have : (H.map (stableSort (enc c))).flatten.Perm H.flatten := by
        clear e2 f2 f3 hH hsub hex
        induction H with
        | nil => exact List.Perm.refl _
        | cons g H ih => exact (stableSort_perm _ _).append ih
      exact this.trans (hH ▸ hv)
    · rw [List.pairwise_map] at f3 ⊢
      refine f3.imp_of_mem ?_
      intro g k hg hk hnt a ha b hb' hl
      rw [mem_stableSort] at ha hb'
      exact hnt (enc c a) (List.mem_map_of_mem ha) (enc c b) (List.mem_map_of_mem hb')
        ((overlap_linked hb (hex g hg a ha) (hex k hk b hb')).mpr hl)
    · intro g hg p q hpq hp hq
      obtain ⟨k, hk, rfl⟩ := List.mem_map.mp hg
      have hpk : (p ++ q).Perm k := hpq.trans (stableSort_perm _ _)
      have := (f2 _ (List.mem_map_of_mem hk)).2 (p.map (enc c)) (q.map (enc c)) (by rw [← List.map_append]; exact hpk.map _)
        (by simpa using hp) (by simpa using hq)
      obtain ⟨x, hx, y, hy, ht⟩ := this
      obtain ⟨a, ha, rfl⟩ := List.mem_map.mp hx
      obtain ⟨b, hb', rfl⟩ := List.mem_map.mp hy
      refine ⟨a, ha, b, hb', (overlap_linked hb ?_ ?_).mp ht⟩
      · exact hex k hk a (hpk.mem_iff.mp (by simp [ha]))
      · exact hex k hk b (hpk.mem_iff.mp (by simp [hb']))
    · intro _ g hg he
      obtain ⟨k, hk, rfl⟩ := List.mem_map.mp hg
      have := (f2 _ (List.mem_map_of_mem hk)).1
      have hl := (stableSort_perm (enc c) k).length_eq
      rw [he] at hl
      apply this
      rw [List.length_eq_zero_iff.mp hl.symm]; rfl
    · intro g hg
      obtain ⟨k, hk, rfl⟩ := List.mem_map.mp hg
      rw [nf_of_subperm hb hu h ((stableSort_perm _ _).subperm.trans (hsub k hk)), stableSort_of_sorted _ (stableSort_sorted _ _)]

end Moment.Inflation
