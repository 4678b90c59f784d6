import Verif.Proof.InflationFactor
import Mathlib.Data.List.Shortlex
import Mathlib.Data.Fintype.Sum

namespace Moment.Inflation
open Moment

variable {n : Causal} {c : Ctx}

/-- The (source, copy) pairs of an operator in the order of the code: last source first. -/
def pairs (n : Causal) (a : Op) : List (Nat × Nat) := ((n.sourcesOf a.obs).zip a.copy).reverse

/-- Copies of each source in the order of their first occurrence. -/
def ordStep (ord : Nat → List Nat) (p : Nat × Nat) : Nat → List Nat :=
  if p.2 ∈ ord p.1 then ord else fun s => if s = p.1 then ord s ++ [p.2] else ord s

/-- The copies in order of first occurrence after a list of pairs. -/
def ordOf (ord : Nat → List Nat) (l : List (Nat × Nat)) : Nat → List Nat := l.foldl ordStep ord

/-- The relabelling that the code applies. -/
def rank (ord : Nat → List Nat) (s v : Nat) : Nat := (ord s).idxOf v

theorem ordStep_mem {ord : Nat → List Nat} {p : Nat × Nat} {s v : Nat} : v ∈ ordStep ord p s ↔ v ∈ ord s ∨ (s, v) = p := by
  obtain ⟨a, b⟩ := p
  unfold ordStep
  dsimp only
  split
  · rename_i h
    constructor
    · exact Or.inl
    · rintro (h1 | h1)
      · exact h1
      · cases h1; exact h
  · dsimp only
    split
    · rename_i h1; subst h1; simp
    · rename_i h1; simp [h1]

theorem ordOf_mem {l : List (Nat × Nat)} : ∀ {ord : Nat → List Nat} {s v : Nat}, v ∈ ordOf ord l s ↔ v ∈ ord s ∨ (s, v) ∈ l := by
  induction l with
  | nil => intros; simp [ordOf]
  | cons p l ih =>
    intro ord s v
    rw [ordOf, List.foldl_cons]
    have := ih (ord := ordStep ord p) (s := s) (v := v)
    rw [ordOf] at this
    rw [this, ordStep_mem, List.mem_cons]
    tauto

theorem ordStep_rank {ord : Nat → List Nat} {p : Nat × Nat} {s v : Nat} (h : v ∈ ord s) : rank (ordStep ord p) s v = rank ord s v := by
  unfold rank ordStep
  split
  · rfl
  · dsimp only
    split
    · rw [List.idxOf_append, if_pos h]
    · rfl

theorem ordOf_rank {l : List (Nat × Nat)} : ∀ {ord : Nat → List Nat} {s v : Nat}, v ∈ ord s → rank (ordOf ord l) s v = rank ord s v := by
  induction l with
  | nil => intros; rfl
  | cons p l ih =>
    intro ord s v h
    rw [ordOf, List.foldl_cons]
    have := ih (ord := ordStep ord p) (s := s) (v := v) (ordStep_mem.mpr (Or.inl h))
    rw [ordOf] at this
    rw [this, ordStep_rank h]

theorem ordStep_nodup {ord : Nat → List Nat} (h : ∀ s, (ord s).Nodup) (p : Nat × Nat) : ∀ s, (ordStep ord p s).Nodup := by
  intro s
  unfold ordStep
  split
  · exact h s
  · rename_i hp
    dsimp only
    split
    · rename_i e
      subst e
      exact List.nodup_append.mpr ⟨h _, by simp, fun a ha b hb => by
        simp only [List.mem_singleton] at hb
        subst hb
        rintro rfl
        exact hp ha⟩
    · exact h s

theorem ordOf_nodup {l : List (Nat × Nat)} : ∀ {ord : Nat → List Nat}, (∀ s, (ord s).Nodup) → ∀ s, (ordOf ord l s).Nodup := by
  induction l with
  | nil => intro ord h; exact h
  | cons p l ih => intro ord h; exact ih (ordStep_nodup h p)

theorem ordOf_append (ord : Nat → List Nat) (l m : List (Nat × Nat)) : ordOf ord (l ++ m) = ordOf (ordOf ord l) m := List.foldl_append

/-- The initial state. -/
def ord0 : Nat → List Nat := fun _ => []

/-! ### The code's state -/

/-- The state of `find_permutation` describes the order of first occurrence. -/
structure Tracks (L : Nat) (st : PermState) (ord : Nat → List Nat) : Prop where
  next : ∀ s, st.next s = (ord s).length
  lookup : ∀ s v, v < L → st.done.lookup (L * s + v) = if v ∈ ord s then some (L * s + rank ord s v) else none
  flag : st.nonTrivial = true ↔ ∃ s v, v ∈ ord s ∧ rank ord s v ≠ v
  small : ∀ s, ∀ v ∈ ord s, v < L
  nodup : ∀ s, (ord s).Nodup

theorem Tracks.init (L : Nat) : Tracks L ⟨fun _ => 0, [], false⟩ ord0 := by
  refine ⟨?_, ?_, ?_, ?_, ?_⟩ <;> simp [ord0]

theorem Tracks.step {L : Nat} {st : PermState} {ord : Nat → List Nat} (h : Tracks L st ord) {p : Nat × Nat} (hp : p.2 < L) :
    Tracks L (permSource L st p) (ordStep ord p) := by
  obtain ⟨s, v⟩ := p
  have hl := h.lookup s v hp
  unfold permSource
  dsimp only at hp hl ⊢
  by_cases hm : v ∈ ord s
  · have e : ordStep ord (s, v) = ord := by unfold ordStep; exact if_pos hm
    rw [if_pos (by rw [hl, if_pos hm]; rfl), e]
    exact h
  · rw [if_neg (by rw [hl, if_neg hm]; simp)]
    have e : ordStep ord (s, v) = fun t => if t = s then ord t ++ [v] else ord t := by unfold ordStep; exact if_neg hm
    have hrank : rank (ordStep ord (s, v)) s v = (ord s).length := by
      rw [rank, e]; simp only [if_true]
      rw [List.idxOf_append, if_neg hm]; simp
    refine ⟨?_, ?_, ?_, ?_, ordStep_nodup h.nodup _⟩
    · intro t
      rw [e]
      dsimp only
      split
      · rw [h.next]; simp
      · exact h.next t
    · intro t x hx
      rw [List.lookup_cons, h.next]
      by_cases htx : (t, x) = (s, v)
      · cases htx
        rw [if_pos (ordStep_mem.mpr (Or.inr rfl)), hrank]
        simp
      · have hne : (L * t + x == L * s + v) = false := by
          rw [beq_eq_false_iff_ne]
          intro he
          rw [mul_comm L t, mul_comm L s] at he
          obtain ⟨rfl, rfl⟩ := global_inj hx hp he
          exact htx rfl
        rw [hne]
        dsimp only
        rw [h.lookup t x hx]
        have hiff : x ∈ ordStep ord (s, v) t ↔ x ∈ ord t := by rw [ordStep_mem]; simp only [htx, or_false]
        by_cases hx2 : x ∈ ord t
        · rw [if_pos hx2, if_pos (hiff.mpr hx2), ordStep_rank hx2]
        · rw [if_neg hx2, if_neg fun h => hx2 (hiff.mp h)]
    · rw [Bool.or_eq_true, h.flag, h.next]
      constructor
      · rintro (⟨t, x, h1, h2⟩ | h1)
        · exact ⟨t, x, ordStep_mem.mpr (Or.inl h1), by rwa [ordStep_rank h1]⟩
        · refine ⟨s, v, ordStep_mem.mpr (Or.inr rfl), ?_⟩
          rw [hrank]
          intro he
          rw [he] at h1; simp at h1
      · rintro ⟨t, x, h1, h2⟩
        by_cases htx : (t, x) = (s, v)
        · cases htx
          right
          rw [hrank] at h2
          simp only [bne_iff_ne]
          omega
        · have h3 : x ∈ ord t := by
            rw [ordStep_mem] at h1; exact h1.resolve_right htx
          rw [ordStep_rank h3] at h2
          exact Or.inl ⟨t, x, h3, h2⟩
    · intro t x hx
      rcases ordStep_mem.mp hx with hx | hx
      · exact h.small t x hx
      · cases hx; exact hp

theorem Tracks.fold {L : Nat} : ∀ {l : List (Nat × Nat)} {st : PermState} {ord : Nat → List Nat}, Tracks L st ord → (∀ p ∈ l, p.2 < L) →
    Tracks L (l.foldl (permSource L) st) (ordOf ord l)
  | [], _, _, h, _ => h
  | p :: l, _, _, h, hl => (h.step (hl p (by simp))).fold (l := l) fun q hq => hl q (by simp [hq])

theorem obs_singleton (hb : Built n c) {a : Op} (ha : Exists n c.infl a) :
    (obsAt c a.obs).singleton = (n.sourcesOf a.obs).isEmpty := by
  obtain ⟨k, h1, -⟩ := ha
  rw [obsAt_eq hb h1]
  split
  · rename_i h; exact h.symm
  · rename_i h; simpa using h

theorem obs_sources (hb : Built n c) {a : Op} (ha : Exists n c.infl a) (hs : n.sourcesOf a.obs ≠ []) :
    (obsAt c a.obs).sources = n.sourcesOf a.obs := by
  obtain ⟨k, h1, -⟩ := ha
  rw [obsAt_eq hb h1, if_neg (by simpa using hs)]

theorem obs_indices (hb : Built n c) {a : Op} (ha : Exists n c.infl a) (hs : n.sourcesOf a.obs ≠ []) :
    variantIndices c a.obs (flattenIndex c.infl a.copy) = a.copy := by
  rw [variantIndices, obs_sources hb ha hs]
  obtain ⟨k, h1, h2, h3, -⟩ := ha
  rw [flatten_eq, ← h2, unflatten_val h3]

theorem pairs_nil {a : Op} (hs : n.sourcesOf a.obs = []) : pairs n a = [] := by simp [pairs, hs]

theorem permOp_enc (hb : Built n c) {a : Op} (ha : Exists n c.infl a) (st : PermState) :
    permOp c st (enc c a) = (pairs n a).foldl (permSource c.infl) st := by
  rw [permOp, info_enc hb ha]
  dsimp only
  rw [obs_singleton hb ha]
  by_cases hs : n.sourcesOf a.obs = []
  · rw [if_pos (by simpa using hs), pairs_nil hs]; rfl
  · rw [if_neg (by simpa using hs), obs_indices hb ha hs, obs_sources hb ha hs]; rfl

theorem permOps_enc (hb : Built n c) : ∀ {u : List Op} (_ : ∀ a ∈ u, Exists n c.infl a) (st : PermState),
    (u.map (enc c)).foldl (permOp c) st = (u.flatMap (pairs n)).foldl (permSource c.infl) st
  | [], _, _ => rfl
  | a :: u, hu, st => by
    rw [List.map_cons, List.foldl_cons, List.flatMap_cons, List.foldl_append, permOp_enc hb (hu a (by simp))]
    exact permOps_enc hb (fun x hx => hu x (by simp [hx])) _

theorem pairs_lt {a : Op} {L : Nat} (ha : Exists n L a) : ∀ p ∈ pairs n a, p.2 < L := by
  rintro ⟨s, v⟩ hp
  exact (fedBy_lt ha (by simpa [pairs, FedBy] using hp : FedBy n a s v)).2

/-- Order of first occurrence of the copies in a word. -/
def wordOrd (n : Causal) (u : List Op) : Nat → List Nat := ordOf ord0 (u.flatMap (pairs n))

theorem find_tracks (hb : Built n c) {u : List Op} (hu : ∀ a ∈ u, Exists n c.infl a) :
    Tracks c.infl (findPermutation c (u.map (enc c))) (wordOrd n u) := by
  rw [findPermutation, permOps_enc hb hu]
  refine (Tracks.init c.infl).fold ?_
  intro p hp
  obtain ⟨a, ha, hp⟩ := List.mem_flatMap.mp hp
  exact pairs_lt (hu a ha) p hp

theorem rank_lt {L : Nat} {st : PermState} {ord : Nat → List Nat} (h : Tracks L st ord) {s v : Nat} (hv : v ∈ ord s) : rank ord s v < L := by
  have h1 : rank ord s v < (ord s).length := List.idxOf_lt_length_of_mem hv
  have h2 : (ord s).length ≤ L := by
    have := ((h.nodup s).subperm (l₂ := List.range L) fun x hx => List.mem_range.mpr (h.small s x hx)).length_le
    simpa using this
  omega

/-- A fed pair in terms of `pairs`. -/
theorem mem_pairs {a : Op} {s v : Nat} : (s, v) ∈ pairs n a ↔ FedBy n a s v := by simp [pairs, FedBy]

theorem exists_relabel {L : Nat} {σ : Nat → Nat → Nat} {a : Op} (ha : Exists n L a) (hσ : ∀ s v, FedBy n a s v → σ s v < L) :
    Exists n L (relabel n σ a) := by
  obtain ⟨k, h1, h2, h3, h4⟩ := ha
  refine ⟨k, h1, ?_, ?_, h4⟩
  · simp only [relabel, List.length_zipWith, h2, Nat.min_self]
  · intro x hx
    simp only [relabel, mem_zipWith] at hx
    obtain ⟨⟨s, v⟩, h5, rfl⟩ := hx
    exact hσ s v h5

theorem permuteOp_enc (hb : Built n c) {st : PermState} {ord : Nat → List Nat} (h : Tracks c.infl st ord) {a : Op} (ha : Exists n c.infl a)
    (hm : ∀ s v, FedBy n a s v → v ∈ ord s) : permuteOp c st.done (enc c a) = enc c (relabel n (rank ord) a) := by
  rw [permuteOp, info_enc hb ha]
  dsimp only
  rw [obs_singleton hb ha]
  by_cases hs : n.sourcesOf a.obs = []
  · rw [if_pos (by simpa using hs)]
    have hc : a.copy = [] := by
      obtain ⟨k, h1, h2, -⟩ := ha
      rw [hs] at h2; simpa using h2
    have : relabel n (rank ord) a = a := by
      cases a; simp_all [relabel]
    rw [this]
  · rw [if_neg (by simpa using hs), obs_indices hb ha hs, obs_sources hb ha hs]
    have e : permuteVariant c st.done (n.sourcesOf a.obs) a.copy = List.zipWith (rank ord) (n.sourcesOf a.obs) a.copy := by
      unfold permuteVariant
      rw [← List.map_uncurry_zip_eq_zipWith, ← List.map_uncurry_zip_eq_zipWith]
      apply List.map_congr_left
      rintro ⟨s, v⟩ hsv
      have hv := hm s v hsv
      have hlt := fedBy_lt ha hsv
      simp only [Function.uncurry_apply_pair]
      have hg : globalSource c.net c.infl s v = c.infl * s + v := by
        rw [globalSource, if_neg (by rw [explicit_eq hb]; omega), mul_comm]
      rw [hg, h.lookup s v hlt.2, if_pos hv, Option.getD_some]
      have hr := rank_lt h hv
      split
      · rename_i he; omega
      · have hle : c.infl * s + rank ord s v < c.net.explicitSources * c.infl := by
          rw [explicit_eq hb]
          calc c.infl * s + rank ord s v < c.infl * s + c.infl := by omega
            _ = (s + 1) * c.infl := by ring
            _ ≤ _ := Nat.mul_le_mul_right _ hlt.1
        rw [sourceVariant, if_neg (by omega)]
        dsimp only
        rw [Nat.mul_add_mod, Nat.mod_eq_of_lt hr]
    rw [e]
    simp only [enc, operatorNumber, variantOffset, relabel]

theorem word_mem {u : List Op} {a : Op} (ha : a ∈ u) {s v : Nat} (h : FedBy n a s v) : v ∈ wordOrd n u s := by
  rw [wordOrd, ordOf_mem]
  exact Or.inr (List.mem_flatMap.mpr ⟨a, ha, mem_pairs.mpr h⟩)

theorem permute_word (hb : Built n c) {u : List Op} (hu : ∀ a ∈ u, Exists n c.infl a) :
    (u.map (enc c)).map (permuteOp c (findPermutation c (u.map (enc c))).done) = (u.map (relabel n (rank (wordOrd n u)))).map (enc c) := by
  rw [List.map_map, List.map_map]
  apply List.map_congr_left
  intro a ha
  exact permuteOp_enc hb (find_tracks hb hu) (hu a ha) fun s v hf => word_mem ha hf

theorem exists_relabel_word (hb : Built n c) {u : List Op} (hu : ∀ a ∈ u, Exists n c.infl a) :
    ∀ a ∈ u.map (relabel n (rank (wordOrd n u))), Exists n c.infl a := by
  intro a ha
  obtain ⟨b, hb', rfl⟩ := List.mem_map.mp ha
  exact exists_relabel (hu b hb') fun s v hf => rank_lt (find_tracks hb hu) (word_mem hb' hf)

/-! ### The relabelling is injective on the word -/

theorem zipWith_inj {σ : Nat → Nat → Nat} : ∀ {S x y : List Nat}, x.length = S.length → y.length = S.length →
    (∀ s v, (s, v) ∈ S.zip x → ∀ v', (s, v') ∈ S.zip y → σ s v = σ s v' → v = v') → List.zipWith σ S x = List.zipWith σ S y → x = y
  | [], [], [], _, _, _, _ => rfl
  | s :: S, a :: x, b :: y, hx, hy, hi, h => by
    simp only [List.zipWith_cons_cons, List.cons.injEq] at h
    have h1 := hi s a (by simp) b (by simp) h.1
    have h2 := zipWith_inj (S := S) (by simpa using hx) (by simpa using hy)
      (fun s v hv v' hv' => hi s v (by simp [hv]) v' (by simp [hv'])) h.2
    rw [h1, h2]
  | [], _ :: _, _, hx, _, _, _ => by simp at hx
  | [], [], _ :: _, _, hy, _, _ => by simp at hy
  | _ :: _, [], _, hx, _, _, _ => by simp at hx
  | _ :: _, _ :: _, [], _, hy, _, _ => by simp at hy

/-- `σ` does not identify copies that occur in the word. -/
def InjOn (n : Causal) (σ : Nat → Nat → Nat) (u : List Op) : Prop :=
  ∀ a ∈ u, ∀ b ∈ u, ∀ s v v', FedBy n a s v → FedBy n b s v' → σ s v = σ s v' → v = v'

theorem rank_inj {ord : Nat → List Nat} {s v v' : Nat} (hv : v ∈ ord s) (h : rank ord s v = rank ord s v') : v = v' := by
  unfold rank at h
  exact (List.idxOf_inj hv).mp h

theorem word_injOn (u : List Op) : InjOn n (rank (wordOrd n u)) u :=
  fun _ ha _ _ _ _ _ h1 _ e => rank_inj (word_mem ha h1) e

theorem relabel_copy {L : Nat} {σ : Nat → Nat → Nat} {u : List Op} (hu : ∀ a ∈ u, Exists n L a) (hi : InjOn n σ u) {a b : Op} (ha : a ∈ u)
    (hb : b ∈ u) (ho : a.obs = b.obs) : (relabel n σ a).copy = (relabel n σ b).copy ↔ a.copy = b.copy := by
  obtain ⟨k, -, a2, -⟩ := hu a ha
  obtain ⟨k', -, b2, -⟩ := hu b hb
  constructor
  · intro h
    simp only [relabel] at h
    rw [← ho] at h b2
    exact zipWith_inj a2 b2 (fun s v hv v' hv' => hi a ha b hb s v v' hv (by unfold FedBy; rwa [← ho])) h
  · intro h; simp only [relabel, h, ho]

theorem relabel_inj {L : Nat} {σ : Nat → Nat → Nat} {u : List Op} (hu : ∀ a ∈ u, Exists n L a) (hi : InjOn n σ u) {a b : Op} (ha : a ∈ u)
    (hb : b ∈ u) (h : relabel n σ a = relabel n σ b) : a = b := by
  have ho : a.obs = b.obs := by simpa only [relabel] using congrArg Op.obs h
  have hout : a.out = b.out := by simpa only [relabel] using congrArg Op.out h
  have hc := (relabel_copy hu hi ha hb ho).mp (congrArg Op.copy h)
  cases a; cases b; simp_all

theorem relabel_exclusive {L : Nat} {σ : Nat → Nat → Nat} {u : List Op} (hu : ∀ a ∈ u, Exists n L a) (hi : InjOn n σ u) {a b : Op} (ha : a ∈ u)
    (hb : b ∈ u) : Exclusive (relabel n σ a) (relabel n σ b) ↔ Exclusive a b := by
  unfold Exclusive
  constructor
  · rintro ⟨h1, h2, h3⟩; exact ⟨h1, (relabel_copy hu hi ha hb h1).mp h2, h3⟩
  · rintro ⟨h1, h2, h3⟩; exact ⟨h1, (relabel_copy hu hi ha hb h1).mpr h2, h3⟩

theorem count_map_inj {α β : Type} [DecidableEq α] [DecidableEq β] (f : α → β) : ∀ {l : List α} {a : α},
    (∀ x ∈ l, f x = f a → x = a) → (l.map f).count (f a) = l.count a
  | [], _, _ => rfl
  | x :: l, a, h => by
    rw [List.map_cons, List.count_cons, List.count_cons, count_map_inj f fun y hy => h y (by simp [hy])]
    by_cases hx : x = a
    · simp [hx]
    · have : f x ≠ f a := fun e => hx (h x (by simp) e)
      simp [hx, this]

/-- A relabelled simplified word only needs sorting. -/
theorem nf_relabel (hb : Built n c) {σ : Nat → Nat → Nat} {u : List Op} (hu : ∀ a ∈ u, Exists n c.infl a) (h : nf n c u = some u)
    (hi : InjOn n σ u) (he : ∀ a ∈ u.map (relabel n σ), Exists n c.infl a) :
    nf n c (u.map (relabel n σ)) = some (stableSort (enc c) (u.map (relabel n σ))) := by
  obtain ⟨h1, h2⟩ := nf_self hb hu h
  set g := u.map (relabel n σ) with hg
  have hsg : ∀ a ∈ stableSort (enc c) g, Exists n c.infl a := fun a ha => he a (mem_stableSort.mp ha)
  have eg := neighbours_iff hb hsg (stableSort_sorted _ _)
  simp only [mem_stableSort] at eg
  unfold nf
  dsimp only
  rw [if_neg, Option.some.injEq, uniqueBy_eq_self]
  · by_contra hc
    rw [Bool.not_eq_false, anyNeighbours_iff] at hc
    obtain ⟨p, a, b, q, e, hab⟩ := hc
    simp only [Bool.and_eq_true, beq_iff_eq, decide_eq_true_eq] at hab
    obtain ⟨rfl, hp⟩ := hab
    have h3 : (stableSort (enc c) g).count a ≥ 2 := by rw [e]; simp; omega
    rw [(stableSort_perm _ _).count_eq] at h3
    have ha : a ∈ g := List.count_pos_iff.mp (by omega)
    obtain ⟨x, hx, rfl⟩ := List.mem_map.mp (hg ▸ ha)
    rw [hg, count_map_inj _ fun y hy e => relabel_inj hu hi hy hx e] at h3
    have := h2 x hx hp
    omega
  · intro hn
    obtain ⟨a, ha, b, hb', hex⟩ := eg.mp hn
    obtain ⟨x, hx, rfl⟩ := List.mem_map.mp (hg ▸ ha)
    obtain ⟨y, hy, rfl⟩ := List.mem_map.mp (hg ▸ hb')
    exact h1 x hx y hy ((relabel_exclusive hu hi hx hy).mp hex)

/-! ### The first changed operator gets a smaller number -/

/-- Copies occur in the order 0, 1, 2, ... -/
def Trivial (ord : Nat → List Nat) : Prop := ∀ s, ∀ v ∈ ord s, rank ord s v = v

theorem trivial_mem {ord : Nat → List Nat} (h : Trivial ord) (hn : ∀ s, (ord s).Nodup) {s v : Nat} : v ∈ ord s ↔ v < (ord s).length := by
  constructor
  · intro hv
    have := h s v hv
    rw [← this]; exact List.idxOf_lt_length_of_mem hv
  · intro hv
    have h1 : (ord s)[v] ∈ ord s := List.getElem_mem hv
    have h2 := h s _ h1
    rw [rank, (hn s).idxOf_getElem] at h2
    rw [h2]; exact h1

theorem val_lt_of_high {b : Nat} : ∀ {x y : List Nat} (t : List Nat) {d e : Nat}, x.length = y.length → (∀ i ∈ x, i < b) → d < e →
    val b (x ++ d :: t) < val b (y ++ e :: t)
  | [], [], t, d, e, _, _, h => by simp [val, h]
  | i :: x, j :: y, t, d, e, hl, hx, h => by
    have ih := val_lt_of_high (b := b) (x := x) (y := y) t (d := d) (e := e) (by simpa using hl) (fun k hk => hx k (by simp [hk])) h
    have hi := hx i (by simp)
    simp only [List.cons_append, val]
    have := Nat.mul_le_mul_left b (Nat.succ_le_of_lt ih)
    rw [Nat.succ_eq_add_one, Nat.mul_add] at this
    omega
  | [], _ :: _, _, _, _, hl, _, _ => by simp at hl
  | _ :: _, [], _, _, _, hl, _, _ => by simp at hl

/-- Processing a list of pairs from a trivial state either changes nothing or has a first changed pair, which gets a smaller copy. -/
theorem first_change : ∀ (l : List (Nat × Nat)) {ord : Nat → List Nat}, Trivial ord → (∀ s, (ord s).Nodup) →
    Trivial (ordOf ord l) ∨ ∃ p s v q, l = p ++ (s, v) :: q ∧ (∀ x ∈ p, rank (ordOf ord l) x.1 x.2 = x.2) ∧ rank (ordOf ord l) s v < v
  | [], ord, h, _ => Or.inl h
  | (s, v) :: l, ord, h, hn => by
    by_cases hm : v ∈ ord s
    · have e : ordStep ord (s, v) = ord := by unfold ordStep; exact if_pos hm
      have e2 : ordOf ord ((s, v) :: l) = ordOf ord l := by rw [ordOf, List.foldl_cons, e]; rfl
      rw [e2]
      rcases first_change l h hn with ht | ⟨p, t, x, q, rfl, h1, h2⟩
      · exact Or.inl ht
      · refine Or.inr ⟨(s, v) :: p, t, x, q, rfl, ?_, h2⟩
        intro y hy
        rcases List.mem_cons.mp hy with rfl | hy
        · rw [ordOf_rank hm]; exact h s v hm
        · exact h1 y hy
    · have hge : (ord s).length ≤ v := by
        by_contra hc; exact hm ((trivial_mem h hn).mpr (by omega))
      have hmem : v ∈ ordStep ord (s, v) s := ordStep_mem.mpr (Or.inr rfl)
      have hrank : rank (ordStep ord (s, v)) s v = (ord s).length := by
        have e : ordStep ord (s, v) = fun t => if t = s then ord t ++ [v] else ord t := by unfold ordStep; exact if_neg hm
        rw [rank, e]; simp only [if_true]
        rw [List.idxOf_append, if_neg hm]; simp
      have e2 : ordOf ord ((s, v) :: l) = ordOf (ordStep ord (s, v)) l := rfl
      by_cases hv : v = (ord s).length
      · have ht : Trivial (ordStep ord (s, v)) := by
          intro t x hx
          by_cases htx : (t, x) = (s, v)
          · cases htx; rw [hrank, ← hv]
          · have : x ∈ ord t := (ordStep_mem.mp hx).resolve_right htx
            rw [ordStep_rank this]; exact h t x this
        rw [e2]
        rcases first_change l ht (ordStep_nodup hn _) with ht | ⟨p, t, x, q, rfl, h1, h2⟩
        · exact Or.inl ht
        · refine Or.inr ⟨(s, v) :: p, t, x, q, rfl, ?_, h2⟩
          intro y hy
          rcases List.mem_cons.mp hy with rfl | hy
          · rw [ordOf_rank hmem, hrank]; exact hv.symm
          · exact h1 y hy
      · refine Or.inr ⟨[], s, v, l, rfl, by simp, ?_⟩
        rw [e2, ordOf_rank hmem, hrank]; omega

theorem pairs_map_snd {a : Op} {L : Nat} (ha : Exists n L a) : (pairs n a).map Prod.snd = a.copy.reverse := by
  obtain ⟨k, h1, h2, -⟩ := ha
  rw [pairs, List.map_reverse, List.map_snd_zip (by omega)]

theorem pairs_relabel {a : Op} {L : Nat} (σ : Nat → Nat → Nat) (ha : Exists n L a) :
    pairs n (relabel n σ a) = (pairs n a).map fun p => (p.1, σ p.1 p.2) := by
  rw [pairs, pairs, List.map_reverse]
  congr 1
  simp only [relabel]
  obtain ⟨k, h1, h2, -⟩ := ha
  generalize n.sourcesOf a.obs = S at h2
  generalize a.copy = x at h2
  induction S generalizing x with
  | nil => simp
  | cons s S ih =>
    cases x with
    | nil => simp
    | cons y x => simp only [List.zipWith_cons_cons, List.zip_cons_cons, List.map_cons, ih x (by simpa using h2)]

theorem relabel_eq_self {a : Op} {L : Nat} {σ : Nat → Nat → Nat} (ha : Exists n L a) (h : ∀ s v, FedBy n a s v → σ s v = v) :
    relabel n σ a = a := by
  have e := pairs_relabel σ ha
  have e2 : (pairs n a).map (fun p => (p.1, σ p.1 p.2)) = pairs n a := by
    conv_rhs => rw [← List.map_id (pairs n a)]
    apply List.map_congr_left
    rintro ⟨s, v⟩ hp
    simp [h s v (mem_pairs.mp hp)]
  have hc : (relabel n σ a).copy.length = a.copy.length := by
    obtain ⟨k, h1, h2, -⟩ := ha
    simp [relabel, h2]
  obtain ⟨k, h1, h2, h3, h4⟩ := ha
  have e3 := congrArg (List.map Prod.snd) (e.trans e2)
  rw [pairs, pairs, List.map_reverse, List.map_reverse, List.reverse_inj, List.map_snd_zip (by simp [relabel, h2]),
    List.map_snd_zip (by omega)] at e3
  cases a
  simp only [relabel] at e3 ⊢
  rw [e3]

theorem enc_relabel_lt (hb : Built n c) {σ : Nat → Nat → Nat} {a : Op} (ha : Exists n c.infl a) (he : Exists n c.infl (relabel n σ a))
    {p : List (Nat × Nat)} {s v : Nat} {q : List (Nat × Nat)} (hp : pairs n a = p ++ (s, v) :: q) (h1 : ∀ x ∈ p, σ x.1 x.2 = x.2)
    (h2 : σ s v < v) : enc c (relabel n σ a) < enc c a := by
  have e1 := pairs_map_snd ha
  have e2 := pairs_map_snd he
  rw [pairs_relabel σ ha, hp] at e2
  rw [hp] at e1
  have hfix : (p.map fun x => (x.1, σ x.1 x.2)) = p := by
    conv_rhs => rw [← List.map_id p]
    apply List.map_congr_left
    intro x hx
    rw [h1 x hx]; rfl
  simp only [List.map_append, List.map_cons, hfix] at e1 e2
  have c1 := congrArg List.reverse e1
  have c2 := congrArg List.reverse e2
  simp only [List.reverse_append, List.reverse_cons, List.append_assoc, List.cons_append, List.nil_append, List.reverse_reverse] at c1 c2
  have hd : ∀ x ∈ (relabel n σ a).copy, x < c.infl := he.choose_spec.2.2.1
  have hv : val c.infl (relabel n σ a).copy < val c.infl a.copy := by
    rw [← c1, ← c2]
    refine val_lt_of_high _ (by simp) ?_ h2
    intro i hi
    apply hd
    rw [← c2]
    simp only [List.mem_append]
    exact Or.inl hi
  obtain ⟨-, -, hop⟩ := ha.operators hb
  simp only [enc, operatorNumber, flatten_eq]
  have : (relabel n σ a).obs = a.obs := rfl
  rw [this]
  have h3 := Nat.mul_le_mul_right (obsAt c a.obs).operators (Nat.succ_le_of_lt hv)
  rw [Nat.succ_mul] at h3
  have : (relabel n σ a).out = a.out := rfl
  omega

theorem lex_decreases (hb : Built n c) : ∀ {u : List Op} {ord : Nat → List Nat}, (∀ a ∈ u, Exists n c.infl a) → Trivial ord →
    (∀ s, (ord s).Nodup) → (∀ a ∈ u, Exists n c.infl (relabel n (rank (ordOf ord (u.flatMap (pairs n)))) a)) →
    Trivial (ordOf ord (u.flatMap (pairs n))) ∨
      List.Lex (· < ·) ((u.map (relabel n (rank (ordOf ord (u.flatMap (pairs n)))))).map (enc c)) (u.map (enc c))
  | [], _, _, ht, _, _ => Or.inl ht
  | a :: u, ord, hu, ht, hn, he => by
    have ha := hu a (by simp)
    have hfin : ordOf ord ((a :: u).flatMap (pairs n)) = ordOf (ordOf ord (pairs n a)) (u.flatMap (pairs n)) := by
      rw [List.flatMap_cons, ordOf_append]
    rw [hfin] at he ⊢
    have hmem : ∀ s v, FedBy n a s v → v ∈ ordOf ord (pairs n a) s := fun s v h => ordOf_mem.mpr (Or.inr (mem_pairs.mpr h))
    rcases first_change (pairs n a) ht hn with ht2 | ⟨p, s, v, q, e, h1, h2⟩
    · rcases lex_decreases hb (u := u) (fun x hx => hu x (by simp [hx])) ht2 (ordOf_nodup hn) (fun x hx => he x (by simp [hx])) with h | h
      · exact Or.inl h
      · right
        have : relabel n (rank (ordOf (ordOf ord (pairs n a)) (u.flatMap (pairs n)))) a = a := by
          apply relabel_eq_self ha
          intro s v hf
          rw [ordOf_rank (hmem s v hf)]
          exact ht2 s v (hmem s v hf)
        simp only [List.map_cons, this]
        exact List.Lex.cons h
    · right
      simp only [List.map_cons]
      refine List.Lex.rel (enc_relabel_lt hb ha (he a (by simp)) e ?_ ?_)
      · intro x hx
        have hx2 : x.2 ∈ ordOf ord (pairs n a) x.1 := ordOf_mem.mpr (Or.inr (by rw [e]; simp [hx]))
        rw [ordOf_rank hx2]; exact h1 x hx
      · have hx2 : v ∈ ordOf ord (pairs n a) s := ordOf_mem.mpr (Or.inr (by rw [e]; simp))
        rw [ordOf_rank hx2]; exact h2

theorem trivial_ord0 : Trivial ord0 := by intro s v h; simp [ord0] at h

/-- `find_permutation` reports a change exactly if the order of first occurrence is not 0, 1, 2, ... -/
theorem flag_iff (hb : Built n c) {u : List Op} (hu : ∀ a ∈ u, Exists n c.infl a) :
    (findPermutation c (u.map (enc c))).nonTrivial = true ↔ ¬ Trivial (wordOrd n u) := by
  rw [(find_tracks hb hu).flag]
  unfold Trivial
  push Not
  rfl

theorem step_lex (hb : Built n c) {u : List Op} (hu : ∀ a ∈ u, Exists n c.infl a) (ht : ¬ Trivial (wordOrd n u)) :
    List.Lex (· < ·) ((u.map (relabel n (rank (wordOrd n u)))).map (enc c)) (u.map (enc c)) := by
  refine (lex_decreases hb hu trivial_ord0 (fun _ => List.nodup_nil) ?_).resolve_left ht
  intro a ha
  exact exists_relabel_word hb hu _ (List.mem_map_of_mem ha)

/-- Sorting does not increase a word. -/
theorem sort_lex : ∀ {s p : List Nat}, s.Pairwise (· ≤ ·) → s.Perm p → s = p ∨ List.Lex (· < ·) s p
  | [], p, _, h => Or.inl (by rw [List.nil_perm.mp h])
  | a :: s, [], _, h => by simp at h
  | a :: s, b :: p, hs, h => by
    have hs2 := List.pairwise_cons.mp hs
    have hb : b ∈ a :: s := h.mem_iff.mpr (by simp)
    by_cases hab : a = b
    · subst hab
      rcases sort_lex hs2.2 ((List.perm_cons a).mp h) with h1 | h1
      · exact Or.inl (by rw [h1])
      · exact Or.inr (List.Lex.cons h1)
    · right
      refine List.Lex.rel ?_
      rcases List.mem_cons.mp hb with e | e
      · exact absurd e.symm hab
      · have := hs2.1 b e; omega

/-! ### The relabelled word is in order -/

theorem ordOf_map {g : Nat → Nat → Nat} : ∀ {l : List (Nat × Nat)} {ord : Nat → List Nat},
    (∀ s v v', (v ∈ ord s ∨ (s, v) ∈ l) → (v' ∈ ord s ∨ (s, v') ∈ l) → g s v = g s v' → v = v') →
    ordOf (fun s => (ord s).map (g s)) (l.map fun p => (p.1, g p.1 p.2)) = fun s => (ordOf ord l s).map (g s)
  | [], _, _ => rfl
  | (s, v) :: l, ord, hi => by
    have hstep : ordStep (fun s => (ord s).map (g s)) (s, g s v) = fun t => (ordStep ord (s, v) t).map (g t) := by
      have hm : g s v ∈ (ord s).map (g s) ↔ v ∈ ord s := by
        constructor
        · intro h
          obtain ⟨x, hx, e⟩ := List.mem_map.mp h
          rw [← hi s x v (Or.inl hx) (Or.inr (by simp)) e]; exact hx
        · exact fun h => List.mem_map_of_mem h
      unfold ordStep
      dsimp only
      by_cases h : v ∈ ord s
      · rw [if_pos (hm.mpr h), if_pos h]
      · rw [if_neg fun e => h (hm.mp e), if_neg h]
        funext t
        split
        · rename_i e; subst e; simp
        · rfl
    rw [List.map_cons, ordOf, List.foldl_cons, hstep]
    have := ordOf_map (g := g) (l := l) (ord := ordStep ord (s, v)) (by
      intro t x x' hx hx' e
      refine hi t x x' ?_ ?_ e
      · rw [ordStep_mem] at hx; simp only [List.mem_cons]; tauto
      · rw [ordStep_mem] at hx'; simp only [List.mem_cons]; tauto)
    rw [ordOf] at this
    rw [this]; rfl

theorem trivial_after (u : List Op) {L : Nat} (hu : ∀ a ∈ u, Exists n L a) : Trivial (wordOrd n (u.map (relabel n (rank (wordOrd n u))))) := by
  have e : (u.map (relabel n (rank (wordOrd n u)))).flatMap (pairs n) =
      (u.flatMap (pairs n)).map fun p => (p.1, rank (wordOrd n u) p.1 p.2) := by
    rw [List.flatMap_map, List.map_flatMap]
    apply List.flatMap_congr
    intro a ha
    exact pairs_relabel _ (hu a ha)
  have h := ordOf_map (g := rank (wordOrd n u)) (l := u.flatMap (pairs n)) (ord := ord0) (by
    rintro s v v' (h | h) - he
    · simp [ord0] at h
    · exact rank_inj (ordOf_mem.mpr (Or.inr h)) he)
  have hnd : ∀ s, (wordOrd n u s).Nodup := ordOf_nodup (fun _ => List.nodup_nil)
  intro s v hv
  rw [wordOrd, e] at hv
  rw [wordOrd, e]
  have e0 : (fun s => List.map (rank (wordOrd n u) s) (ord0 s)) = ord0 := by funext s; rfl
  rw [e0] at h
  rw [h] at hv ⊢
  have e3 : (ordOf ord0 (u.flatMap (pairs n)) s).map (rank (wordOrd n u) s) = List.range (wordOrd n u s).length := by
    apply List.ext_getElem
    · simp [wordOrd]
    · intro i h1 h2
      rw [List.getElem_map, List.getElem_range]
      exact (hnd s).idxOf_getElem i (by simpa using h2)
  dsimp only at hv
  rw [e3] at hv
  have e4 : rank (fun s => (ordOf ord0 (u.flatMap (pairs n)) s).map (rank (wordOrd n u) s)) s v =
      (List.range (wordOrd n u s).length).idxOf v := by rw [← e3]; rfl
  rw [e4]
  have hv' := List.mem_range.mp hv
  have := (List.nodup_range (n := (wordOrd n u s).length)).idxOf_getElem v (by simpa using hv')
  rwa [List.getElem_range] at this

/-! ### Extending to a permutation -/

theorem relabel_relabel {σ τ : Nat → Nat → Nat} {a : Op} : relabel n τ (relabel n σ a) = relabel n (fun s v => τ s (σ s v)) a := by
  simp only [relabel, Op.mk.injEq, true_and, and_true]
  generalize n.sourcesOf a.obs = S
  generalize a.copy = x
  induction S generalizing x with
  | nil => simp
  | cons s S ih => cases x <;> simp [ih]

theorem relabel_congr {σ τ : Nat → Nat → Nat} {a : Op} (h : ∀ s v, FedBy n a s v → σ s v = τ s v) : relabel n σ a = relabel n τ a := by
  simp only [relabel, Op.mk.injEq, true_and, and_true]
  rw [← List.map_uncurry_zip_eq_zipWith, ← List.map_uncurry_zip_eq_zipWith]
  apply List.map_congr_left
  rintro ⟨s, v⟩ hp
  exact h s v hp

/-- The relabelling found by the code is a permutation of the copies of every source. -/
theorem exists_relabelling {L : Nat} {st : PermState} {ord : Nat → List Nat} (h : Tracks L st ord) :
    ∃ σ, Relabelling L σ ∧ ∀ s, ∀ v ∈ ord s, σ s v = rank ord s v := by
  have key : ∀ s, ∃ σ : Nat → Nat, Set.BijOn σ {v | v < L} {v | v < L} ∧ ∀ v ∈ ord s, σ v = rank ord s v := by
    intro s
    obtain ⟨g, hg⟩ := Finset.exists_equiv_extend_of_card_eq (α := Fin L) (β := Nat) (t := Finset.range L) (by simp)
      (s := Finset.univ.filter fun i : Fin L => i.1 ∈ ord s) (f := fun i => rank ord s i.1)
      (by
        intro x hx
        simp only [Finset.mem_image, Finset.mem_filter, Finset.mem_univ, true_and] at hx
        obtain ⟨i, hi, rfl⟩ := hx
        exact Finset.mem_range.mpr (rank_lt h hi))
      (by
        intro i hi j hj e
        simp only [Finset.coe_filter, Finset.mem_univ, true_and, Set.mem_ofPred_eq] at hi
        exact Fin.ext (rank_inj hi e))
    refine ⟨fun v => if hv : v < L then (g ⟨v, hv⟩ : Nat) else v, ⟨?_, ?_, ?_⟩, ?_⟩
    · intro v hv
      simp only [Set.mem_ofPred_eq] at hv
      simp only [hv, dite_true, Set.mem_ofPred_eq]
      exact Finset.mem_range.mp (g ⟨v, hv⟩).2
    · intro v hv v' hv' e
      simp only [Set.mem_ofPred_eq] at hv hv'
      simp only [hv, hv', dite_true] at e
      exact congrArg Fin.val (g.injective (Subtype.ext e))
    · intro x hx
      simp only [Set.mem_ofPred_eq] at hx
      refine ⟨(g.symm ⟨x, Finset.mem_range.mpr hx⟩).1, (g.symm _).2, ?_⟩
      simp
    · intro v hv
      have hlt := h.small s v hv
      simp only [hlt, dite_true]
      exact hg ⟨v, hlt⟩ (by simpa using hv)
  choose σ h1 h2 using key
  exact ⟨σ, h1, h2⟩

theorem relabelling_comp {L : Nat} {σ τ : Nat → Nat → Nat} (h1 : Relabelling L σ) (h2 : Relabelling L τ) :
    Relabelling L fun s v => τ s (σ s v) := fun s => (h2 s).comp (h1 s)

theorem relabelling_id (L : Nat) : Relabelling L fun _ v => v := fun _ => Set.bijOn_id _

theorem lex_trans : ∀ {x y z : List Nat}, List.Lex (· < ·) x y → List.Lex (· < ·) y z → List.Lex (· < ·) x z
  | _, _, _, .nil, .rel _ => .nil
  | _, _, _, .nil, .cons _ => .nil
  | _, _, _, .rel h, .rel h' => .rel (Nat.lt_trans h h')
  | _, _, _, .rel h, .cons _ => .rel h
  | _, _, _, .cons _, .rel h => .rel h
  | _, _, _, .cons h, .cons h' => .cons (lex_trans h h')

/-- Everything about `simplify_as_moment` on a simplified word. -/
theorem moment_spec (hb : Built n c) (u : List Op) (hu : ∀ a ∈ u, Exists n c.infl a) (hnf : nf n c u = some u) :
    ∃ (fuel : Nat) (r : List Op) (σ : Nat → Nat → Nat),
      (∀ f, fuel ≤ f → simplifyAsMoment c f (u.map (enc c)) = some (.word (r.map (enc c)))) ∧
      Relabelling c.infl σ ∧ r.Perm (u.map (relabel n σ)) ∧ (∀ a ∈ r, Exists n c.infl a) ∧ nf n c r = some r ∧ Trivial (wordOrd n r) ∧
      (r = u ∨ List.Lex (· < ·) (r.map (enc c)) (u.map (enc c))) := by
  by_cases ht : Trivial (wordOrd n u)
  · refine ⟨1, u, fun _ v => v, ?_, relabelling_id _, ?_, hu, hnf, ht, Or.inl rfl⟩
    · intro f hf
      obtain ⟨f, rfl⟩ : ∃ g, f = g + 1 := ⟨f - 1, by omega⟩
      rw [simplifyAsMoment]
      split
      · rfl
      · have : (findPermutation c (u.map (enc c))).nonTrivial = false := by
          rw [← Bool.not_eq_true, flag_iff hb hu]; exact not_not.mpr ht
        dsimp only
        rw [if_pos (by rw [this]; rfl)]
    · have : u.map (relabel n fun _ v => v) = u := by
        conv_rhs => rw [← List.map_id u]
        apply List.map_congr_left
        intro a ha
        rw [relabel_eq_self (hu a ha) fun _ _ _ => rfl]; rfl
      rw [this]
  · obtain ⟨σ, hσ, hσ2⟩ := exists_relabelling (find_tracks hb hu)
    have hflag := (flag_iff hb hu).mpr ht
    have hne : (u.map (enc c)).isEmpty = false := by
      rw [List.isEmpty_map]
      cases u with
      | nil => exact absurd trivial_ord0 ht
      | cons => rfl
    have he := exists_relabel_word hb hu
    have hnf2 := nf_relabel hb hu hnf (word_injOn u) he
    have hlex := step_lex hb hu ht
    have hσu : u.map (relabel n σ) = u.map (relabel n (rank (wordOrd n u))) := by
      apply List.map_congr_left
      intro a ha
      exact relabel_congr fun s v hf => hσ2 s v (word_mem ha hf)
    have hafter := trivial_after u hu
    set g := u.map (relabel n (rank (wordOrd n u))) with hg
    have hstep : ∀ f, simplifyAsMoment c (f + 1) (u.map (enc c)) = if !isSorted (g.map (enc c)) then
        simplifyAsMoment c f ((stableSort (enc c) g).map (enc c)) else some (.word ((stableSort (enc c) g).map (enc c))) := by
      intro f
      rw [simplifyAsMoment, if_neg (by rw [hne]; simp)]
      dsimp only
      rw [if_neg (by rw [hflag]; simp), permute_word hb hu, ← hg, simplify_enc hb he, hnf2]
    by_cases hs : isSorted (g.map (enc c)) = true
    · have hsort : stableSort (enc c) g = g := by
        apply stableSort_of_sorted
        have := (isSorted_iff _).mp hs
        rwa [List.pairwise_map] at this
      rw [hsort] at hnf2 hstep
      refine ⟨1, g, σ, ?_, hσ, by rw [hσu], he, hnf2, hafter, Or.inr hlex⟩
      intro f hf
      obtain ⟨f, rfl⟩ : ∃ g, f = g + 1 := ⟨f - 1, by omega⟩
      rw [hstep, if_neg (by rw [hs]; simp)]
    · have hes : ∀ a ∈ stableSort (enc c) g, Exists n c.infl a := fun a ha => he a (mem_stableSort.mp ha)
      have hlt : List.Lex (· < ·) ((stableSort (enc c) g).map (enc c)) (u.map (enc c)) := by
        have hp : ((stableSort (enc c) g).map (enc c)).Perm (g.map (enc c)) := (stableSort_perm _ _).map _
        have hsrt : ((stableSort (enc c) g).map (enc c)).Pairwise (· ≤ ·) := by
          rw [List.pairwise_map]; exact stableSort_sorted _ _
        rcases sort_lex hsrt hp with e | e
        · rw [e]; exact hlex
        · exact lex_trans e hlex
      have hlen : ((stableSort (enc c) g).map (enc c)).length = (u.map (enc c)).length := by
        rw [List.length_map, (stableSort_perm _ _).length_eq, hg]; simp
      obtain ⟨fuel, r, τ, h1, h2, h3, h4, h5, h6, h7⟩ := moment_spec hb (stableSort (enc c) g) hes (nf_idem hb he hnf2)
      refine ⟨fuel + 1, r, fun s v => τ s (σ s v), ?_, relabelling_comp hσ h2, ?_, h4, h5, h6, Or.inr ?_⟩
      · intro f hf
        obtain ⟨f, rfl⟩ : ∃ g, f = g + 1 := ⟨f - 1, by omega⟩
        rw [hstep, if_pos (by simpa using hs)]
        exact h1 f (by omega)
      · refine h3.trans ?_
        have := (stableSort_perm (enc c) g).map (relabel n τ)
        refine this.trans ?_
        rw [← hσu, List.map_map]
        apply List.Perm.of_eq
        apply List.map_congr_left
        intro a _
        exact relabel_relabel
      · rcases h7 with rfl | h7
        · exact hlt
        · exact lex_trans h7 hlt
termination_by (List.Shortlex.wf (r := fun a b : Nat => a < b) Nat.lt_wfRel.wf).wrap (u.map (enc c))
decreasing_by exact List.Shortlex.of_lex hlen hlt

/-! ### The quick test -/

/-- The state of `can_be_simplified_as_moment`. -/
structure AliasTracks (L : Nat) (st : AliasState) (ord : Nat → List Nat) : Prop where
  nodup : ∀ s, (ord s).Nodup
  found : st.found = true → ¬ Trivial ord
  clear : st.found = false → Trivial ord ∧ (∀ s, st.next s = (ord s).length) ∧
    ∀ s v, v < L → (st.done.contains (L * s + v) = true ↔ v ∈ ord s)

theorem AliasTracks.init (L : Nat) : AliasTracks L ⟨fun _ => 0, [], false⟩ ord0 :=
  ⟨fun _ => List.nodup_nil, by simp, fun _ => ⟨trivial_ord0, fun _ => rfl, by simp [ord0]⟩⟩

theorem not_trivial_step {ord : Nat → List Nat} {p : Nat × Nat} (h : ¬ Trivial ord) : ¬ Trivial (ordStep ord p) := by
  intro ht
  apply h
  intro s v hv
  rw [← ordStep_rank hv]
  exact ht s v (ordStep_mem.mpr (Or.inl hv))

theorem AliasTracks.step {L : Nat} {st : AliasState} {ord : Nat → List Nat} (h : AliasTracks L st ord) {p : Nat × Nat} (hp : p.2 < L) :
    AliasTracks L (aliasSource L st p) (ordStep ord p) := by
  obtain ⟨s, v⟩ := p
  dsimp only at hp
  unfold aliasSource
  cases hf : st.found with
  | true =>
    rw [if_pos rfl]
    exact ⟨ordStep_nodup h.nodup _, fun _ => not_trivial_step (h.found hf), fun h' => by rw [hf] at h'; simp at h'⟩
  | false =>
    obtain ⟨ht, hnext, hdone⟩ := h.clear hf
    rw [if_neg (by simp)]
    dsimp only
    by_cases hm : v ∈ ord s
    · rw [if_pos ((hdone s v hp).mpr hm)]
      have e : ordStep ord (s, v) = ord := by unfold ordStep; exact if_pos hm
      rw [e]; exact h
    · rw [if_neg fun e => hm ((hdone s v hp).mp e)]
      have e : ordStep ord (s, v) = fun t => if t = s then ord t ++ [v] else ord t := by unfold ordStep; exact if_neg hm
      have hrank : rank (ordStep ord (s, v)) s v = (ord s).length := by
        rw [rank, e]; simp only [if_true]
        rw [List.idxOf_append, if_neg hm]; simp
      have hmem : v ∈ ordStep ord (s, v) s := ordStep_mem.mpr (Or.inr rfl)
      rw [hnext]
      by_cases hv : v = (ord s).length
      · rw [if_neg (by rw [← hv]; simp)]
        refine ⟨ordStep_nodup h.nodup _, by simp, fun _ => ⟨?_, ?_, ?_⟩⟩
        · intro t x hx
          by_cases htx : (t, x) = (s, v)
          · cases htx; rw [hrank, ← hv]
          · have : x ∈ ord t := (ordStep_mem.mp hx).resolve_right htx
            rw [ordStep_rank this]; exact ht t x this
        · intro t
          rw [e]
          dsimp only
          split
          · rw [hnext]; simp
          · exact hnext t
        · intro t x hx
          rw [ordStep_mem, ← hdone t x hx]
          simp only [List.contains_cons, Bool.or_eq_true, beq_iff_eq]
          constructor
          · rintro (he | he)
            · rw [mul_comm L t, mul_comm L s] at he
              obtain ⟨rfl, rfl⟩ := global_inj hx hp he
              exact Or.inr rfl
            · exact Or.inl he
          · rintro (he | he)
            · exact Or.inr he
            · cases he; exact Or.inl rfl
      · rw [if_pos (by omega)]
        refine ⟨ordStep_nodup h.nodup _, fun _ ht2 => hv ?_, by simp⟩
        rw [← hrank]; exact (ht2 s v hmem).symm

theorem AliasTracks.fold {L : Nat} : ∀ {l : List (Nat × Nat)} {st : AliasState} {ord : Nat → List Nat}, AliasTracks L st ord →
    (∀ p ∈ l, p.2 < L) → AliasTracks L (l.foldl (aliasSource L) st) (ordOf ord l)
  | [], _, _, h, _ => h
  | p :: l, _, _, h, hl => (h.step (hl p (by simp))).fold (l := l) fun q hq => hl q (by simp [hq])

theorem aliasOp_enc (hb : Built n c) {a : Op} (ha : Exists n c.infl a) (st : AliasState) :
    aliasOp c st (enc c a) = (pairs n a).foldl (aliasSource c.infl) st := by
  rw [aliasOp, info_enc hb ha]
  dsimp only
  rw [obs_singleton hb ha]
  by_cases hs : n.sourcesOf a.obs = []
  · rw [if_pos (by simpa using hs), pairs_nil hs]; rfl
  · rw [if_neg (by simpa using hs), obs_indices hb ha hs, obs_sources hb ha hs]; rfl

theorem aliasOps_enc (hb : Built n c) : ∀ {u : List Op} (_ : ∀ a ∈ u, Exists n c.infl a) (st : AliasState),
    (u.map (enc c)).foldl (aliasOp c) st = (u.flatMap (pairs n)).foldl (aliasSource c.infl) st
  | [], _, _ => rfl
  | a :: u, hu, st => by
    rw [List.map_cons, List.foldl_cons, List.flatMap_cons, List.foldl_append, aliasOp_enc hb (hu a (by simp))]
    exact aliasOps_enc hb (fun x hx => hu x (by simp [hx])) _

theorem alias_iff (hb : Built n c) {u : List Op} (hu : ∀ a ∈ u, Exists n c.infl a) (hal : canHaveAliases c = true) :
    canBeSimplifiedAsMoment c (u.map (enc c)) = true ↔ ¬ Trivial (wordOrd n u) := by
  have h : AliasTracks c.infl ((u.map (enc c)).foldl (aliasOp c) ⟨fun _ => 0, [], false⟩) (wordOrd n u) := by
    rw [aliasOps_enc hb hu]
    refine (AliasTracks.init c.infl).fold ?_
    intro p hp
    obtain ⟨a, ha, hp⟩ := List.mem_flatMap.mp hp
    exact pairs_lt (hu a ha) p hp
  unfold canBeSimplifiedAsMoment
  cases u with
  | nil => simp only [List.map_nil, List.isEmpty_nil, Bool.true_or, if_true]
           exact iff_of_false (by simp) (not_not.mpr trivial_ord0)
  | cons a u =>
    rw [if_neg (by simp [hal])]
    constructor
    · exact h.found
    · intro ht
      by_contra hc
      exact ht (h.clear (Bool.not_eq_true _ ▸ hc)).1

end Moment.Inflation
