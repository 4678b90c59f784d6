import Verif.Model.Inflation
import Verif.Spec.Inflation
import Verif.Proof.Locality
import Mathlib.Tactic.Ring

namespace Moment.Inflation
open Moment

/-! ### Mixed radix -/

/-- Value of the digits `l` in base `b`, least significant first. -/
def val (b : Nat) : List Nat → Nat
  | [] => 0
  | d :: l => d + b * val b l

theorem flatten_go (b : Nat) : ∀ (l : List Nat) (i base : Nat), flattenIndex.go b i base l = i + base * val b l
  | [], i, base => by simp [flattenIndex.go, val]
  | d :: l, i, base => by rw [flattenIndex.go, flatten_go b l, val]; ring

theorem flatten_eq (b : Nat) (l : List Nat) : flattenIndex b l = val b l := by
  rw [flattenIndex, flatten_go]; simp

theorem val_lt {b : Nat} : ∀ {l : List Nat}, (∀ d ∈ l, d < b) → val b l < b ^ l.length
  | [], _ => by simp [val]
  | d :: l, h => by
    have h1 : d < b := h d (by simp)
    have h2 := val_lt (l := l) fun e he => h e (by simp [he])
    have h3 : b * (val b l + 1) ≤ b * b ^ l.length := Nat.mul_le_mul_left b h2
    rw [val, List.length_cons, pow_succ, mul_comm (b ^ _) b]
    rw [Nat.mul_add] at h3
    omega

theorem unflatten_go_val {b : Nat} : ∀ {l : List Nat}, (∀ d ∈ l, d < b) → unflattenIndex.go b l.length (val b l) = l
  | [], _ => rfl
  | d :: l, h => by
    have h1 : d < b := h d (by simp)
    have ih := unflatten_go_val (l := l) fun e he => h e (by simp [he])
    rw [val, List.length_cons, unflattenIndex.go, Nat.add_mul_mod_self_left, Nat.mod_eq_of_lt h1, Nat.add_mul_div_left _ _ (by omega),
      Nat.div_eq_of_lt h1, Nat.zero_add, ih]

theorem unflatten_val {b : Nat} {l : List Nat} (h : ∀ d ∈ l, d < b) : unflattenIndex b l.length (val b l) = l := by
  unfold unflattenIndex
  split
  · rename_i h0
    rcases h0 with h0 | h0
    · rw [List.length_eq_zero_iff] at h0; subst h0; rfl
    · cases l with
      | nil => rfl
      | cons d l => have := h d (by simp); omega
  · exact unflatten_go_val h

theorem val_unflatten_go {b : Nat} (hb : 0 < b) : ∀ (n i : Nat), i < b ^ n → val b (unflattenIndex.go b n i) = i
  | 0, i, h => by simp at h; simp [unflattenIndex.go, val, h]
  | n + 1, i, h => by
    rw [unflattenIndex.go, val, val_unflatten_go hb n (i / b)]
    · exact Nat.mod_add_div i b
    · rw [Nat.div_lt_iff_lt_mul hb]; rwa [pow_succ] at h

theorem unflatten_go_length {b : Nat} : ∀ (n i : Nat), (unflattenIndex.go b n i).length = n
  | 0, _ => rfl
  | n + 1, i => by simp [unflattenIndex.go, unflatten_go_length n]

theorem unflatten_go_lt {b : Nat} (hb : 0 < b) : ∀ (n i : Nat), ∀ d ∈ unflattenIndex.go b n i, d < b
  | 0, _ => by simp [unflattenIndex.go]
  | n + 1, i => by
    intro d hd
    simp only [unflattenIndex.go, List.mem_cons] at hd
    rcases hd with rfl | hd
    · exact Nat.mod_lt _ hb
    · exact unflatten_go_lt hb n _ d hd

theorem unflatten_spec {b n i : Nat} (hb : 0 < b) (h : i < b ^ n) :
    (unflattenIndex b n i).length = n ∧ (∀ d ∈ unflattenIndex b n i, d < b) ∧ val b (unflattenIndex b n i) = i := by
  unfold unflattenIndex
  split
  · rename_i h0
    rcases h0 with h0 | h0
    · subst h0; simp at h; simp [val, h]
    · omega
  · exact ⟨unflatten_go_length _ _, unflatten_go_lt hb _ _, val_unflatten_go hb _ _ h⟩

theorem val_inj {b : Nat} {l m : List Nat} (hl : ∀ d ∈ l, d < b) (hm : ∀ d ∈ m, d < b) (hlen : l.length = m.length)
    (h : val b l = val b m) : l = m := by
  rw [← unflatten_val hl, ← unflatten_val hm, h, hlen]

/-! ### Networks -/

theorem create_some {n : Causal} {net : Network} (h : create n.outcomes n.sources = some net) :
    n.WellFormed ∧ net.explicitSources = n.sources.length ∧
      net.observables = makeObservables n.sources.length (n.outcomes.zip ((List.range n.outcomes.length).map n.sourcesOf)) := by
  unfold create at h
  rw [Option.map_eq_some_iff] at h
  obtain ⟨sets, h, rfl⟩ := h
  unfold reverseSources at h
  split at h
  · simp at h
  · rename_i hw
    have e : sets = (List.range n.outcomes.length).map n.sourcesOf := by
      rw [← Option.some.inj h]
      apply List.map_congr_left
      intro o _
      unfold Causal.sourcesOf
      apply List.filter_congr
      intro s hs
      rw [List.mem_range] at hs
      have e1 : n.sources[s]? = some n.sources[s] := List.getElem?_eq_getElem hs
      rw [List.getD_eq_getElem?_getD, e1]
      simp
    refine ⟨?_, rfl, by rw [e]⟩
    intro src hsrc o ho
    by_contra hc
    apply hw
    simp only [List.any_eq_true, decide_eq_true_eq]
    exact ⟨src, hsrc, o, ho, by omega⟩

theorem makeObservables_get : ∀ (l : List (Nat × List Nat)) (next o : Nat) (k : Nat) (srcs : List Nat), l[o]? = some (k, srcs) →
    ∃ imp, next ≤ imp ∧ (makeObservables next l)[o]? = some (if srcs.isEmpty then ⟨k, [imp], true⟩ else ⟨k, srcs, false⟩) ∧
      imp = next + ((l.take o).filter fun x => x.2.isEmpty).length
  | [], _, _, _, _, h => by simp at h
  | (k', s') :: l, next, 0, k, srcs, h => by
    simp only [List.getElem?_cons_zero, Option.some.injEq, Prod.mk.injEq] at h
    obtain ⟨rfl, rfl⟩ := h
    refine ⟨next, le_refl _, ?_, by simp⟩
    rw [makeObservables]
    split <;> simp
  | (k', s') :: l, next, o + 1, k, srcs, h => by
    simp only [List.getElem?_cons_succ] at h
    rw [makeObservables]
    cases hs : s'.isEmpty with
    | true =>
      obtain ⟨imp, h1, h2, h3⟩ := makeObservables_get l (next + 1) o k srcs h
      refine ⟨imp, by omega, by simpa using h2, ?_⟩
      rw [h3, List.take_succ_cons, List.filter_cons_of_pos (by simpa using hs), List.length_cons]; omega
    | false =>
      obtain ⟨imp, h1, h2, h3⟩ := makeObservables_get l next o k srcs h
      refine ⟨imp, by omega, by simpa using h2, ?_⟩
      rw [h3, List.take_succ_cons, List.filter_cons_of_neg (by simp [hs])]

theorem makeObservables_length : ∀ (l : List (Nat × List Nat)) (next : Nat), (makeObservables next l).length = l.length
  | [], _ => rfl
  | (k', s') :: l, next => by
    rw [makeObservables]; split <;> simp [makeObservables_length l]

/-- The implicit source of observable `o`, if it needs one. -/
def implicitSource (n : Causal) (o : Nat) : Nat :=
  n.sources.length + (((n.outcomes.zip ((List.range n.outcomes.length).map n.sourcesOf)).take o).filter fun x => x.2.isEmpty).length

theorem zip_get {n : Causal} {o k : Nat} (h : n.outcomes[o]? = some k) :
    (n.outcomes.zip ((List.range n.outcomes.length).map n.sourcesOf))[o]? = some (k, n.sourcesOf o) := by
  have ho : o < n.outcomes.length := by
    by_contra hc
    rw [List.getElem?_eq_none (by omega)] at h; simp at h
  rw [List.getElem?_zip_eq_some]
  exact ⟨h, by simp [ho]⟩

/-- What the observable in position `o` of the constructed network is. -/
theorem create_obs {n : Causal} {net : Network} (h : create n.outcomes n.sources = some net) {o k : Nat} (ho : n.outcomes[o]? = some k) :
    net.observables[o]? = some (if (n.sourcesOf o).isEmpty then ⟨k, [implicitSource n o], true⟩ else ⟨k, n.sourcesOf o, false⟩) := by
  obtain ⟨-, -, e⟩ := create_some h
  obtain ⟨imp, -, h2, h3⟩ := makeObservables_get _ n.sources.length o k _ (zip_get ho)
  rw [e, h2, h3]; rfl

theorem create_length {n : Causal} {net : Network} (h : create n.outcomes n.sources = some net) :
    net.observables.length = n.outcomes.length := by
  obtain ⟨-, -, e⟩ := create_some h
  rw [e, makeObservables_length]; simp

theorem create_of_wellFormed {n : Causal} (h : n.WellFormed) : ∃ net, create n.outcomes n.sources = some net := by
  unfold create reverseSources
  rw [if_neg]
  · exact ⟨_, rfl⟩
  · simp only [List.any_eq_true, decide_eq_true_eq, not_exists, not_and]
    intro src hsrc o ho
    have := h src hsrc o ho
    omega

theorem implicitSource_inj {n : Causal} {o o' k k' : Nat} (ho : n.outcomes[o]? = some k) (ho' : n.outcomes[o']? = some k')
    (hs : n.sourcesOf o = []) (hs' : n.sourcesOf o' = []) (h : implicitSource n o = implicitSource n o') : o = o' := by
  have key : ∀ {o o' k : Nat}, n.outcomes[o]? = some k → n.sourcesOf o = [] → o < o' → implicitSource n o < implicitSource n o' := by
    intro o o' k ho hs hlt
    have hz := zip_get ho
    unfold implicitSource
    set L := n.outcomes.zip ((List.range n.outcomes.length).map n.sourcesOf)
    have hoL : o < L.length := by
      by_contra hc
      rw [List.getElem?_eq_none (by omega)] at hz; simp at hz
    have e1 : (L.take (o + 1)).filter (fun x => x.2.isEmpty) = (L.take o).filter (fun x => x.2.isEmpty) ++ [(k, n.sourcesOf o)] := by
      rw [List.take_add_one, hz, List.filter_append]; simp [hs]
    have e2 : ((L.take (o + 1)).filter (fun x => x.2.isEmpty)).length ≤ ((L.take o').filter (fun x => x.2.isEmpty)).length :=
      List.Sublist.length_le (List.Sublist.filter _ ((List.take_prefix_take_left (by omega)).sublist))
    rw [e1] at e2
    simp only [List.length_append, List.length_cons, List.length_nil] at e2
    omega
  rcases Nat.lt_trichotomy o o' with hlt | rfl | hlt
  · have := key ho hs hlt; omega
  · rfl
  · have := key ho' hs' hlt; omega

/-! ### Operator numbers -/

/-- The context of a network at an inflation level. -/
structure Built (n : Causal) (c : Ctx) : Prop where
  created : create n.outcomes n.sources = some c.net

variable {n : Causal} {c : Ctx}

theorem obsAt_eq (hb : Built n c) {o k : Nat} (ho : n.outcomes[o]? = some k) :
    obsAt c o = if (n.sourcesOf o).isEmpty then ⟨k, [implicitSource n o], true⟩ else ⟨k, n.sourcesOf o, false⟩ := by
  rw [obsAt, List.getD_eq_getElem?_getD, create_obs hb.created ho]; rfl

theorem obs_get (hb : Built n c) {o k : Nat} (ho : n.outcomes[o]? = some k) : c.net.observables[o]? = some (obsAt c o) := by
  rw [obsAt_eq hb ho, create_obs hb.created ho]

theorem obsAt_outcomes (hb : Built n c) {o k : Nat} (ho : n.outcomes[o]? = some k) : (obsAt c o).outcomes = k := by
  rw [obsAt_eq hb ho]; split <;> rfl

theorem obsAt_copies (hb : Built n c) {o k : Nat} (ho : n.outcomes[o]? = some k) :
    (obsAt c o).copies c.infl = c.infl ^ (n.sourcesOf o).length := by
  rw [obsAt_eq hb ho]
  split
  · rename_i h
    rw [List.isEmpty_iff] at h
    simp [Obs.copies, h]
  · simp [Obs.copies]

theorem obs_get_iff (hb : Built n c) {o : Nat} {ob : Obs} (h : c.net.observables[o]? = some ob) :
    ∃ k, n.outcomes[o]? = some k ∧ ob = obsAt c o := by
  have ho : o < n.outcomes.length := by
    rw [← create_length hb.created]
    by_contra hc
    rw [List.getElem?_eq_none (by omega)] at h; simp at h
  refine ⟨n.outcomes[o], List.getElem?_eq_getElem ho, ?_⟩
  rw [obs_get hb (List.getElem?_eq_getElem ho)] at h
  exact (Option.some.inj h).symm

/-- The number of an operator. -/
def enc (c : Ctx) (a : Op) : Nat := operatorNumber c a.obs (flattenIndex c.infl a.copy) a.out

theorem flatten_get {α : Type} : ∀ (L : List (List α)) (i j : Nat) (l : List α), L[i]? = some l → j < l.length →
    L.flatten[((L.take i).map List.length).sum + j]? = l[j]?
  | [], i, j, l, h, _ => by simp at h
  | m :: L, 0, j, l, h, hj => by
    simp only [List.getElem?_cons_zero, Option.some.injEq] at h
    subst h
    simp [List.getElem?_append_left hj]
  | m :: L, i + 1, j, l, h, hj => by
    simp only [List.getElem?_cons_succ] at h
    have ih := flatten_get L i j l h hj
    rw [List.flatten_cons, List.take_succ_cons, List.map_cons, List.sum_cons, List.getElem?_append_right (by omega),
      show m.length + ((L.take i).map List.length).sum + j - m.length = ((L.take i).map List.length).sum + j by omega, ih]

/-- Operators of one copy of an observable, in the operator table. -/
def blockInfo (o : Nat) (ob : Obs) (v : Nat) : List Info := (List.range ob.operators).map fun k => ⟨o, v, k, ob.projective⟩

/-- Operators of one observable, in the operator table. -/
def obsInfo (infl o : Nat) (ob : Obs) : List Info := (List.range (ob.copies infl)).flatMap (blockInfo o ob)

theorem sum_map_const {α : Type} (l : List α) (f : α → Nat) (k : Nat) (h : ∀ x ∈ l, f x = k) : (l.map f).sum = l.length * k := by
  induction l with
  | nil => simp
  | cons a l ih =>
    simp only [List.map_cons, List.sum_cons, List.length_cons, h a (by simp), ih fun x hx => h x (by simp [hx])]
    ring

theorem obsInfo_length (infl o : Nat) (ob : Obs) : (obsInfo infl o ob).length = ob.countOperators infl := by
  rw [obsInfo, List.length_flatMap, sum_map_const _ _ ob.operators (by simp [blockInfo]), List.length_range, Obs.countOperators, mul_comm]

theorem obsInfo_get {infl o : Nat} {ob : Obs} {v k : Nat} (hv : v < ob.copies infl) (hk : k < ob.operators) :
    (obsInfo infl o ob)[v * ob.operators + k]? = some ⟨o, v, k, ob.projective⟩ := by
  have h := flatten_get ((List.range (ob.copies infl)).map (blockInfo o ob)) v k (blockInfo o ob v) (by simp [hv])
    (by simpa [blockInfo] using hk)
  rw [← List.map_take, List.map_map, sum_map_const _ _ ob.operators (by simp [blockInfo])] at h
  rw [List.length_take, List.length_range, Nat.min_eq_left hv.le] at h
  rw [obsInfo, List.flatMap, h]
  simp [blockInfo, hk]

theorem operatorInfo_eq (c : Ctx) : operatorInfo c = (c.net.observables.zipIdx.map fun x => obsInfo c.infl x.2 x.1).flatten := rfl

theorem operatorInfo_length (c : Ctx) : (operatorInfo c).length = operatorCount c := by
  rw [operatorInfo_eq, List.length_flatten, List.map_map, operatorCount]
  have : (List.length ∘ fun x : Obs × Nat => obsInfo c.infl x.2 x.1) = (Obs.countOperators c.infl) ∘ Prod.fst := by
    funext x; simp [obsInfo_length]
  rw [this, ← List.map_map, List.zipIdx_map_fst]

theorem operatorInfo_get {o v k : Nat} {ob : Obs} (ho : c.net.observables[o]? = some ob) (hv : v < ob.copies c.infl) (hk : k < ob.operators) :
    (operatorInfo c)[operatorNumber c o v k]? = some ⟨o, v, k, ob.projective⟩ := by
  have hob : obsAt c o = ob := by rw [obsAt, List.getD_eq_getElem?_getD, ho]; rfl
  have hlt : v * ob.operators + k < ob.countOperators c.infl := by
    rw [Obs.countOperators]
    calc v * ob.operators + k < v * ob.operators + ob.operators := by omega
      _ = ob.operators * (v + 1) := by ring
      _ ≤ _ := Nat.mul_le_mul_left _ hv
  have h := flatten_get (c.net.observables.zipIdx.map fun x => obsInfo c.infl x.2 x.1) o (v * ob.operators + k) (obsInfo c.infl o ob)
    (by simp [List.getElem?_zipIdx, ho]) (by rwa [obsInfo_length])
  rw [← List.map_take, List.map_map] at h
  have e : (List.length ∘ fun x : Obs × Nat => obsInfo c.infl x.2 x.1) = (Obs.countOperators c.infl) ∘ Prod.fst := by
    funext x; simp [obsInfo_length]
  rw [e, ← List.map_map, List.map_take, List.zipIdx_map_fst] at h
  rw [operatorNumber, hob, operatorOffset, Nat.add_assoc, operatorInfo_eq, h, obsInfo_get hv hk]

theorem Exists.operators (hb : Built n c) {a : Op} (h : Exists n c.infl a) :
    (∃ k, n.outcomes[a.obs]? = some k) ∧ flattenIndex c.infl a.copy < (obsAt c a.obs).copies c.infl ∧ a.out < (obsAt c a.obs).operators := by
  obtain ⟨k, h1, h2, h3, h4⟩ := h
  refine ⟨⟨k, h1⟩, ?_, ?_⟩
  · rw [flatten_eq, obsAt_copies hb h1, ← h2]; exact val_lt h3
  · rw [Obs.operators, obsAt_outcomes hb h1]
    split at h4 <;> simp_all; omega

/-- The table entry of an operator. -/
theorem info_enc (hb : Built n c) {a : Op} (h : Exists n c.infl a) :
    (operatorInfo c)[enc c a]? = some ⟨a.obs, flattenIndex c.infl a.copy, a.out, (obsAt c a.obs).projective⟩ := by
  obtain ⟨⟨k, h1⟩, h2, h3⟩ := h.operators hb
  exact operatorInfo_get (obs_get hb h1) h2 h3

theorem enc_lt (hb : Built n c) {a : Op} (h : Exists n c.infl a) : enc c a < operatorCount c := by
  have := info_enc hb h
  rw [← operatorInfo_length]
  by_contra hc
  rw [List.getElem?_eq_none (by omega)] at this; simp at this

theorem enc_inj (hb : Built n c) {a b : Op} (ha : Exists n c.infl a) (hb' : Exists n c.infl b) (h : enc c a = enc c b) : a = b := by
  have e1 := info_enc hb ha
  rw [h, info_enc hb hb'] at e1
  simp only [Option.some.injEq, Info.mk.injEq] at e1
  obtain ⟨e1, e2, e3, -⟩ := e1
  obtain ⟨k, a1, a2, a3, -⟩ := ha
  obtain ⟨k', b1, b2, b3, -⟩ := hb'
  have : b.copy = a.copy := val_inj b3 a3 (by rw [a2, b2, e1]) (by rw [← flatten_eq, ← flatten_eq, e2])
  cases a; cases b; simp_all

theorem enc_surj (hb : Built n c) {m : Nat} (h : m < operatorCount c) : ∃ a, Exists n c.infl a ∧ enc c a = m := by
  obtain ⟨o, j, b, h1, h2, h3⟩ := Locality.sum_take_surj _ m h
  rw [List.getElem?_map, Option.map_eq_some_iff] at h1
  obtain ⟨ob, h1, rfl⟩ := h1
  obtain ⟨k, ho, rfl⟩ := obs_get_iff hb h1
  rw [Obs.countOperators] at h2
  have hop : 0 < (obsAt c o).operators := Nat.pos_of_ne_zero fun h0 => by rw [h0, Nat.zero_mul] at h2; omega
  have hv : j / (obsAt c o).operators < (obsAt c o).copies c.infl := by
    rw [Nat.div_lt_iff_lt_mul hop, mul_comm]; exact h2
  have hcop := obsAt_copies hb ho
  set L := (n.sourcesOf o).length
  have hdig : (unflattenIndex c.infl L (j / (obsAt c o).operators)).length = L ∧
      (∀ d ∈ unflattenIndex c.infl L (j / (obsAt c o).operators), d < c.infl) ∧
      val c.infl (unflattenIndex c.infl L (j / (obsAt c o).operators)) = j / (obsAt c o).operators := by
    rcases Nat.eq_zero_or_pos c.infl with h0 | h0
    · rw [hcop, h0] at hv
      have hL : L = 0 := by
        by_contra hc
        rw [zero_pow hc] at hv; exact absurd hv (Nat.not_lt_zero _)
      rw [hL] at hv ⊢
      have hv0 : j / (obsAt c o).operators = 0 := Nat.lt_one_iff.mp (by simpa only [pow_zero] using hv)
      simp [unflattenIndex, val, hv0]
    · exact unflatten_spec h0 (by rwa [← hcop])
  refine ⟨⟨o, unflattenIndex c.infl L (j / (obsAt c o).operators), j % (obsAt c o).operators⟩, ⟨k, ho, hdig.1, hdig.2.1, ?_⟩, ?_⟩
  · have := Nat.mod_lt j hop
    dsimp only
    rw [Obs.operators, obsAt_outcomes hb ho] at this ⊢
    split at this <;> simp_all; omega
  · rw [enc, operatorNumber]
    dsimp only
    rw [flatten_eq, hdig.2.2, operatorOffset, List.map_take]
    have := Nat.div_add_mod j (obsAt c o).operators
    rw [mul_comm] at this
    omega

theorem word_surj (hb : Built n c) : ∀ {w : List Nat}, (∀ m ∈ w, m < operatorCount c) →
    ∃ u : List Op, (∀ a ∈ u, Exists n c.infl a) ∧ u.map (enc c) = w
  | [], _ => ⟨[], by simp, rfl⟩
  | m :: w, h => by
    obtain ⟨a, ha, rfl⟩ := enc_surj hb (h m (by simp))
    obtain ⟨u, hu, rfl⟩ := word_surj hb (w := w) fun m hm => h m (by simp [hm])
    exact ⟨a :: u, by simpa using ⟨ha, hu⟩, rfl⟩

theorem projective_enc (hb : Built n c) {a : Op} (h : Exists n c.infl a) : projectiveOp c (enc c a) = true ↔ Projective n a := by
  rw [projectiveOp, info_enc hb h]
  obtain ⟨k, h1, -⟩ := h
  simp [Projective, h1, Obs.projective, obsAt_outcomes hb h1]

theorem orthogonal_enc (hb : Built n c) {a b : Op} (ha : Exists n c.infl a) (hb' : Exists n c.infl b) :
    orthogonal c (enc c a) (enc c b) = some (decide (Exclusive a b)) := by
  rw [orthogonal, info_enc hb ha, info_enc hb hb']
  simp only [Option.some.injEq]
  by_cases he : a.obs = b.obs
  · have hcopy : flattenIndex c.infl a.copy = flattenIndex c.infl b.copy ↔ a.copy = b.copy := by
      obtain ⟨k, a1, a2, a3, -⟩ := ha
      obtain ⟨k', b1, b2, b3, -⟩ := hb'
      constructor
      · intro h; exact val_inj a3 b3 (by rw [a2, b2, he]) (by rwa [flatten_eq, flatten_eq] at h)
      · intro h; rw [h]
    by_cases hc : a.copy = b.copy
    · rw [if_neg (by simp [he, hc])]
      by_cases ho : a.out = b.out
      · have : a = b := by cases a; cases b; simp_all
        simp [this, Exclusive]
      · have : enc c a ≠ enc c b := fun h => ho (by rw [enc_inj hb ha hb' h])
        simp [Exclusive, he, hc, ho, this]
    · rw [if_pos (Or.inr (fun h => hc (hcopy.mp h)))]
      simp [Exclusive, hc]
  · rw [if_pos (Or.inl he)]
    simp [Exclusive, he]

end Moment.Inflation
