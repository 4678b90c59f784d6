import Verif.Proof.InflationMoment
import Verif.Props.C31_Enumeration
import Verif.Proof.LocalityOSG
import Mathlib.Algebra.BigOperators.Group.List.Lemmas
import Mathlib.Algebra.GroupWithZero.Basic

namespace Moment.Inflation
open Moment

variable {n : Causal} {c : Ctx}

/-! ### Independence maps -/

theorem sources_ne_nil (hb : Built n c) {o k : Nat} (ho : n.outcomes[o]? = some k) : (obsAt c o).sources.isEmpty = false := by
  rw [obsAt_eq hb ho]
  split
  · rfl
  · rename_i h; simpa using h

theorem opSources_enc (hb : Built n c) {a : Op} (ha : Exists n c.infl a) :
    opSources c (enc c a) = variantSources c a.obs (flattenIndex c.infl a.copy) := by
  rw [opSources, info_enc hb ha]

theorem mem_dependent (hb : Built n c) {a b : Op} (ha : Exists n c.infl a) (hb' : Exists n c.infl b) :
    enc c b ∈ dependentOperators c (enc c a) ↔ Linked n a b := by
  rw [← overlap_linked hb ha hb', opSources_enc hb ha, opSources_enc hb hb', dependentOperators, info_enc hb ha]
  obtain ⟨⟨k, hk⟩, -, -⟩ := ha.operators hb
  obtain ⟨⟨k', hk'⟩, h1, h2⟩ := hb'.operators hb
  simp only [List.mem_flatMap, List.mem_range, Prod.exists]
  have hind : ∀ o v, independent c a.obs (flattenIndex c.infl a.copy) o v =
      !overlap (variantSources c a.obs (flattenIndex c.infl a.copy)) (variantSources c o v) := by
    intro o v
    rw [independent, sources_ne_nil hb hk]; simp
  constructor
  · rintro ⟨ob, o, hm, v, hv, hx⟩
    have ho : c.net.observables[o]? = some ob := by rwa [List.mem_zipIdx_iff_getElem?] at hm
    split at hx
    · simp at hx
    · rename_i hi
      obtain ⟨j, hj, e⟩ := List.mem_range'.mp hx
      have hob : obsAt c o = ob := by rw [obsAt, List.getD_eq_getElem?_getD, ho]; rfl
      have hin := operatorInfo_get ho hv hj
      have e2 : operatorNumber c o v j = enc c b := by rw [e, operatorNumber, variantOffset]; omega
      rw [e2, info_enc hb hb'] at hin
      simp only [Option.some.injEq, Info.mk.injEq] at hin
      obtain ⟨rfl, rfl, -, -⟩ := hin
      rw [hind] at hi
      simpa using hi
  · intro h
    refine ⟨obsAt c b.obs, b.obs, ?_, _, h1, ?_⟩
    · rw [List.mem_zipIdx_iff_getElem?]; exact obs_get hb hk'
    · rw [if_neg (by rw [hind, h]; simp)]
      exact List.mem_range'.mpr ⟨b.out, h2, by rw [enc, operatorNumber, variantOffset]; omega⟩

theorem dependent_lt {m x : Nat} (h : x ∈ dependentOperators c m) : x < operatorCount c := by
  unfold dependentOperators at h
  split at h
  · simp at h
  · simp only [List.mem_flatMap, List.mem_range, Prod.exists] at h
    obtain ⟨ob, o, hm, v, hv, hx⟩ := h
    have ho : c.net.observables[o]? = some ob := by rwa [List.mem_zipIdx_iff_getElem?] at hm
    split at hx
    · simp at hx
    · obtain ⟨j, hj, e⟩ := List.mem_range'.mp hx
      have hin := operatorInfo_get ho hv hj
      have e2 : operatorNumber c o v j = x := by rw [e, operatorNumber, variantOffset]; omega
      rw [e2] at hin
      rw [← operatorInfo_length]
      by_contra hc
      rw [List.getElem?_eq_none (by omega)] at hin; simp at hin

/-! ### Word lists -/

theorem osgTest_iff (hb : Built n c) {w : List Nat} (hw : ∀ m ∈ w, m < operatorCount c) (hs : w.Pairwise (· ≤ ·)) :
    osgTest c w = true ↔ simplify c w = .word w := by
  have h := isCanonical_iff hb hw
  rw [isCanonical, if_pos ((isSorted_iff w).mpr hs)] at h
  rw [osgTest, h]
  simp

theorem simplified_in_range {w : List Nat} (hl : 1 < w.length) (h : simplify c w = .word w) : ∀ m ∈ w, m < operatorCount c := by
  have hs : w.Pairwise (· ≤ ·) := by
    unfold simplify at h
    dsimp only at h
    split at h
    · simp at h
    · simp at h
    · have e := Outcome.word.inj h
      have hsub := uniqueBy_sublist (fun a b => a == b && projectiveOp c a) (stableSort id w)
      rw [e] at hsub
      exact (stableSort_sorted id w).sublist hsub
  have hsort : stableSort id w = w := stableSort_of_sorted id hs
  unfold simplify at h
  dsimp only at h
  rw [hsort] at h
  have key : ∀ {w : List Nat}, 1 < w.length → orthScan c w = some false → ∀ m ∈ w, m < operatorCount c := by
    intro w
    induction w with
    | nil => intro h; simp at h
    | cons a w ih => cases w with
      | nil => intro h; simp at h
      | cons b w =>
        intro _ h m hm
        rw [orthScan] at h
        cases ho : orthogonal c a b with
        | none => rw [ho] at h; simp at h
        | some t =>
          rw [ho] at h
          have hab : a < operatorCount c ∧ b < operatorCount c := by
            unfold orthogonal at ho
            rw [← operatorInfo_length]
            constructor
            · by_contra hc
              rw [List.getElem?_eq_none (by omega)] at ho; simp at ho
            · by_contra hc
              rw [List.getElem?_eq_none (i := b) (by omega)] at ho
              cases (operatorInfo c)[a]? <;> simp at ho
          cases t with
          | true => simp at h
          | false =>
            rcases List.mem_cons.mp hm with rfl | hm
            · exact hab.1
            · cases w with
              | nil => simp at hm; rw [hm]; exact hab.2
              | cons d w => exact ih (by simp) h m hm
  split at h
  · simp at h
  · simp at h
  · rename_i ho; exact key hl ho

theorem strict_of_projective (hb : Built n c) (hp : c.net.observables.all Obs.projective = true) {u : List Op}
    (hu : ∀ a ∈ u, Exists n c.infl a) (h : nf n c u = some u) : (u.map (enc c)).Pairwise (· < ·) := by
  have hall : ∀ a ∈ u, Projective n a := by
    intro a ha
    rw [← projective_enc hb (hu a ha), projectiveOp, info_enc hb (hu a ha)]
    obtain ⟨⟨k, hk⟩, -, -⟩ := (hu a ha).operators hb
    exact List.all_eq_true.mp hp _ (List.mem_of_getElem? (obs_get hb hk))
  have hcount := (nf_self hb hu h).2
  have hnd : u.Nodup := List.nodup_iff_count_le_one.mpr fun a => by
    by_cases ha : a ∈ u
    · rw [hcount a ha (hall a ha)]
    · rw [List.count_eq_zero_of_not_mem ha]; omega
  have hsorted : u.Pairwise (fun a b => enc c a ≤ enc c b) := by
    unfold nf at h
    dsimp only at h
    split at h
    · simp at h
    · have hsub := uniqueBy_sublist (fun a b => a == b && decide (Projective n a)) (stableSort (enc c) u)
      rw [Option.some.inj h] at hsub
      exact (stableSort_sorted _ _).sublist hsub
  rw [List.pairwise_map]
  have := hsorted.and hnd
  refine (List.Pairwise.and_mem.mp this).imp ?_
  rintro a b ⟨ha, hb', h1, h2⟩
  exact lt_of_le_of_ne h1 fun e => h2 (enc_inj hb (hu a ha) (hu b hb') e)

theorem simplified_sorted {w : List Nat} (h : simplify c w = .word w) : w.Pairwise (· ≤ ·) := by
  unfold simplify at h
  dsimp only at h
  split at h
  · simp at h
  · simp at h
  · have e := Outcome.word.inj h
    have hsub := uniqueBy_sublist (fun a b => a == b && projectiveOp c a) (stableSort id w)
    rw [e] at hsub
    exact (stableSort_sorted id w).sublist hsub

theorem level_spec (hb : Built n c) {level : Nat} (hl : 0 < level) :
    (levelWords c (!c.net.observables.all Obs.projective) level).Nodup ∧
    ∀ w, w ∈ levelWords c (!c.net.observables.all Obs.projective) level ↔
      w.length = level ∧ (∀ m ∈ w, m < operatorCount c) ∧ simplify c w = .word w := by
  obtain ⟨l, h1, h2, h3, -⟩ := C31.C32_triangular (!c.net.observables.all Obs.projective) (operatorCount c) level hl
  unfold levelWords
  rw [Locality.collect_eq h1]
  refine ⟨(Locality.nodup_of_lex h3).filter _, ?_⟩
  intro w
  rw [List.mem_filter, h2]
  constructor
  · rintro ⟨⟨e, hs, hr⟩, ht⟩
    refine ⟨e, hr, (osgTest_iff hb hr ?_).mp ht⟩
    split at hs
    · exact hs
    · exact hs.imp fun h => Nat.le_of_lt h
  · rintro ⟨e, hr, hsim⟩
    have hs := simplified_sorted hsim
    refine ⟨⟨e, ?_, hr⟩, (osgTest_iff hb hr hs).mpr hsim⟩
    split
    · exact hs
    · rename_i hp
      obtain ⟨u, hu, rfl⟩ := word_surj hb hr
      refine strict_of_projective hb (by simpa using hp) hu ?_
      rw [simplify_enc hb hu] at hsim
      cases hn : nf n c u with
      | none => rw [hn] at hsim; simp at hsim
      | some v =>
        rw [hn] at hsim
        rw [map_enc_inj hb (fun a ha => hu a (nf_mem hn a ha)) hu (Outcome.word.inj hsim)]

theorem generate_spec (hb : Built n c) (maxLength : Nat) :
    (generate c maxLength).Nodup ∧ ∀ w, w ∈ generate c maxLength ↔
      w.length ≤ maxLength ∧ (∀ m ∈ w, m < operatorCount c) ∧ simplify c w = .word w := by
  have hmem : ∀ w, w ∈ (List.range' 1 maxLength).flatMap (levelWords c (!c.net.observables.all Obs.projective)) ↔
      1 ≤ w.length ∧ w.length ≤ maxLength ∧ (∀ m ∈ w, m < operatorCount c) ∧ simplify c w = .word w := by
    intro w
    simp only [List.mem_flatMap, List.mem_range'_1]
    constructor
    · rintro ⟨k, hk, hw⟩
      obtain ⟨e, h⟩ := ((level_spec hb (by omega)).2 w).mp hw
      exact ⟨by omega, by omega, h⟩
    · rintro ⟨h1, h2, h3⟩
      exact ⟨w.length, by omega, ((level_spec hb (by omega)).2 w).mpr ⟨rfl, h3⟩⟩
  constructor
  · rw [generate, List.nodup_cons]
    constructor
    · intro h
      have := ((hmem []).mp h).1
      simp at this
    · rw [List.nodup_flatMap]
      constructor
      · intro k hk
        exact (level_spec hb (by have := List.mem_range'_1.mp hk; omega)).1
      · refine (List.Pairwise.and_mem.mp (List.nodup_range' (s := 1) (n := maxLength))).imp ?_
        rintro i j ⟨hi, hj, hij⟩ w hwi hwj
        have e1 := ((level_spec hb (by have := List.mem_range'_1.mp hi; omega)).2 w).mp hwi
        have e2 := ((level_spec hb (by have := List.mem_range'_1.mp hj; omega)).2 w).mp hwj
        exact hij (by omega)
  · intro w
    rw [generate, List.mem_cons, hmem]
    constructor
    · rintro (rfl | h)
      · exact ⟨by simp, by simp, rfl⟩
      · exact h.2
    · rintro h
      cases w with
      | nil => exact Or.inl rfl
      | cons a w => exact Or.inr ⟨by simp, h⟩

/-! ### Order-preserving relabelling -/

theorem wordOrd_relabel {σ : Nat → Nat → Nat} {L : Nat} {u : List Op} (hu : ∀ a ∈ u, Exists n L a) (hi : InjOn n σ u) :
    wordOrd n (u.map (relabel n σ)) = fun s => (wordOrd n u s).map (σ s) := by
  have e : (u.map (relabel n σ)).flatMap (pairs n) = (u.flatMap (pairs n)).map fun p => (p.1, σ p.1 p.2) := by
    rw [List.flatMap_map, List.map_flatMap]
    apply List.flatMap_congr
    intro a ha
    exact pairs_relabel _ (hu a ha)
  have h := ordOf_map (g := σ) (l := u.flatMap (pairs n)) (ord := ord0) (by
    rintro s v v' (h | h) (h' | h') he
    · simp [ord0] at h
    · simp [ord0] at h
    · simp [ord0] at h'
    · obtain ⟨a, ha, h⟩ := List.mem_flatMap.mp h
      obtain ⟨b, hb, h'⟩ := List.mem_flatMap.mp h'
      exact hi a ha b hb s v v' (mem_pairs.mp h) (mem_pairs.mp h') he)
  unfold wordOrd
  rw [e, ← h]
  rfl

theorem rank_relabel {σ : Nat → Nat → Nat} {L : Nat} {u : List Op} (hu : ∀ a ∈ u, Exists n L a) (hi : InjOn n σ u) {a : Op} (ha : a ∈ u)
    {s v : Nat} (hf : FedBy n a s v) : rank (wordOrd n (u.map (relabel n σ))) s (σ s v) = rank (wordOrd n u) s v := by
  rw [rank, rank, wordOrd_relabel hu hi]
  have hmem : ∀ x ∈ wordOrd n u s, ∃ b ∈ u, FedBy n b s x := by
    intro x hx
    rw [wordOrd, ordOf_mem] at hx
    rcases hx with hx | hx
    · simp [ord0] at hx
    · obtain ⟨b, hb, hx⟩ := List.mem_flatMap.mp hx
      exact ⟨b, hb, mem_pairs.mp hx⟩
  dsimp only
  generalize wordOrd n u s = l at hmem ⊢
  induction l with
  | nil => rfl
  | cons x l ih =>
    obtain ⟨b, hb, hx⟩ := hmem x (by simp)
    simp only [List.map_cons, List.idxOf_cons, ih fun y hy => hmem y (by simp [hy])]
    have : (σ s x == σ s v) = (x == v) := by
      rw [Bool.eq_iff_iff, beq_iff_eq, beq_iff_eq]
      exact ⟨fun e => hi b hb a ha s x v hx hf e, fun e => by rw [e]⟩
    rw [this]

/-- The first relabelling does not see a relabelling that was applied before. -/
theorem first_relabelled {σ : Nat → Nat → Nat} {L : Nat} {u : List Op} (hu : ∀ a ∈ u, Exists n L a) (hi : InjOn n σ u) :
    (u.map (relabel n σ)).map (relabel n (rank (wordOrd n (u.map (relabel n σ))))) = u.map (relabel n (rank (wordOrd n u))) := by
  rw [List.map_map]
  apply List.map_congr_left
  intro a ha
  rw [Function.comp_apply, relabel_relabel]
  exact relabel_congr fun s v hf => rank_relabel hu hi ha hf

/-- The result depends only on the word after the first relabelling. -/
theorem moment_of_first (hb : Built n c) {u : List Op} (hu : ∀ a ∈ u, Exists n c.infl a) (h : nf n c u = some u) (fuel : Nat) :
    let g := u.map (relabel n (rank (wordOrd n u)))
    simplifyAsMoment c (fuel + 1) (u.map (enc c)) =
      if isSorted (g.map (enc c)) then some (.word (g.map (enc c))) else simplifyAsMoment c fuel ((stableSort (enc c) g).map (enc c)) := by
  intro g
  by_cases ht : Trivial (wordOrd n u)
  · have hg : g = u := by
      conv_rhs => rw [← List.map_id u]
      apply List.map_congr_left
      intro a ha
      rw [relabel_eq_self (hu a ha) fun s v hf => ht s v (word_mem ha hf)]; rfl
    have hs : simplify c (u.map (enc c)) = .word (u.map (enc c)) := by rw [simplify_enc hb hu, h]
    rw [hg, if_pos ((isSorted_iff _).mpr (simplified_sorted hs)), simplifyAsMoment]
    split
    · rfl
    · have : (findPermutation c (u.map (enc c))).nonTrivial = false := by
        rw [← Bool.not_eq_true, flag_iff hb hu]; exact not_not.mpr ht
      dsimp only
      rw [if_pos (by rw [this]; rfl)]
  · have hne : (u.map (enc c)).isEmpty = false := by
      rw [List.isEmpty_map]
      cases u with
      | nil => exact absurd trivial_ord0 ht
      | cons => rfl
    have he := exists_relabel_word hb hu
    have hnf2 := nf_relabel hb hu h (word_injOn u) he
    rw [simplifyAsMoment, if_neg (by rw [hne]; simp)]
    dsimp only
    rw [if_neg (by rw [(flag_iff hb hu).mpr ht]; simp), permute_word hb hu, simplify_enc hb he, hnf2]
    by_cases hs : isSorted (g.map (enc c)) = true
    · rw [if_neg (by rw [show isSorted (List.map (enc c) _) = true from hs]; simp), if_pos hs]
      have hsort : stableSort (enc c) g = g := by
        apply stableSort_of_sorted
        have := (isSorted_iff _).mp hs
        rwa [List.pairwise_map] at this
      rw [show stableSort (enc c) (List.map (relabel n (rank (wordOrd n u))) u) = g from hsort]
    · rw [if_pos (by rw [show isSorted (List.map (enc c) _) = false from by rwa [Bool.not_eq_true] at hs]; rfl), if_neg hs]

theorem relabelling_injOn {L : Nat} {σ : Nat → Nat → Nat} {u : List Op} (hσ : Relabelling L σ) (hu : ∀ a ∈ u, Exists n L a) : InjOn n σ u :=
  fun a ha b hb s _ _ h1 h2 e => (hσ s).injOn (fedBy_lt (hu a ha) h1).2 (fedBy_lt (hu b hb) h2).2 e

/-! ### Joint outcomes -/

/-- Number of outcomes of an observable. -/
def outc (c : Ctx) (o : Nat) : Nat := (obsAt c o).outcomes

/-- The mixed-radix value of outcomes, least significant first. -/
def mixed (c : Ctx) : List (Nat × Nat × Nat) → Nat
  | [] => 0
  | (o, _, k) :: l => k + outc c o * mixed c l

/-- A copy of an observable with a value for its outcome. -/
def ValidTriple (c : Ctx) (t : Nat × Nat × Nat) : Prop :=
  t.1 < c.net.observables.length ∧ t.2.1 < (obsAt c t.1).copies c.infl ∧ t.2.2 < outc c t.1

theorem get_of_lt {o : Nat} (h : o < c.net.observables.length) : c.net.observables[o]? = some (obsAt c o) := by
  rw [obsAt, List.getD_eq_getElem?_getD, List.getElem?_eq_getElem h]; rfl

theorem flattenOutcome_go : ∀ (l : List (Nat × Nat × Nat)) (acc stride : Nat), (∀ t ∈ l, ValidTriple c t) →
    flattenOutcome.go c acc stride l = some (acc + stride * mixed c l)
  | [], acc, stride, _ => by simp [flattenOutcome.go, mixed]
  | (o, v, k) :: l, acc, stride, h => by
    obtain ⟨h1, h2, h3⟩ := h (o, v, k) (by simp)
    dsimp only at h1 h2 h3
    rw [flattenOutcome.go, get_of_lt h1]
    dsimp only
    rw [if_neg (by omega), if_neg (by unfold outc at h3; omega), flattenOutcome_go l _ _ fun t ht => h t (by simp [ht]), mixed, outc]
    congr 1
    ring

theorem flattenOutcome_go_valid : ∀ (l : List (Nat × Nat × Nat)) (acc stride r : Nat), flattenOutcome.go c acc stride l = some r →
    ∀ t ∈ l, ValidTriple c t
  | [], _, _, _, _ => by simp
  | (o, v, k) :: l, acc, stride, r, h => by
    rw [flattenOutcome.go] at h
    cases ho : c.net.observables[o]? with
    | none => rw [ho] at h; simp at h
    | some ob =>
      rw [ho] at h
      dsimp only at h
      have hob : obsAt c o = ob := by rw [obsAt, List.getD_eq_getElem?_getD, ho]; rfl
      split at h
      · simp at h
      · split at h
        · simp at h
        · intro t ht
          rcases List.mem_cons.mp ht with rfl | ht
          · refine ⟨(List.getElem?_eq_some_iff.mp ho).1, ?_, ?_⟩
            · rw [hob]; dsimp only; omega
            · rw [outc, hob]; dsimp only; omega
          · exact flattenOutcome_go_valid l _ _ _ h t ht

theorem flatten_outcome_iff (l : List (Nat × Nat × Nat)) (m : Nat) :
    flattenOutcome c l = some m ↔ (∀ t ∈ l, ValidTriple c t) ∧ m = mixed c l.reverse := by
  unfold flattenOutcome
  constructor
  · intro h
    have hv := flattenOutcome_go_valid _ _ _ _ h
    refine ⟨fun t ht => hv t (by simpa using ht), ?_⟩
    rw [flattenOutcome_go _ _ _ hv] at h
    simpa using h.symm
  · rintro ⟨hv, rfl⟩
    rw [flattenOutcome_go _ _ _ fun t ht => hv t (by simpa using ht)]; simp

theorem unflatten_go_mixed : ∀ (l : List (Nat × Nat × Nat)), (∀ t ∈ l, ValidTriple c t) →
    unflattenOutcome.go c (mixed c l) (l.map fun t => (t.1, t.2.1)) = some l
  | [], _ => rfl
  | (o, v, k) :: l, h => by
    obtain ⟨h1, h2, h3⟩ := h (o, v, k) (by simp)
    dsimp only at h1 h2 h3
    rw [List.map_cons, unflattenOutcome.go, get_of_lt h1]
    dsimp only
    have e : (obsAt c o).outcomes = outc c o := rfl
    rw [e, if_neg (by omega), mixed, Nat.add_mul_div_left _ _ (by omega), Nat.div_eq_of_lt h3, Nat.zero_add,
      unflatten_go_mixed l fun t ht => h t (by simp [ht]), Nat.add_mul_mod_self_left, Nat.mod_eq_of_lt h3]
    rfl

theorem unflatten_go_inv : ∀ (l : List (Nat × Nat)) (m : Nat),
    (∀ t ∈ l, t.1 < c.net.observables.length ∧ t.2 < (obsAt c t.1).copies c.infl) → m < (l.map fun t => outc c t.1).prod →
    ∃ ts, unflattenOutcome.go c m l = some ts ∧ (∀ t ∈ ts, ValidTriple c t) ∧ ts.map (fun t => (t.1, t.2.1)) = l ∧ mixed c ts = m
  | [], m, _, hm => ⟨[], rfl, by simp, rfl, by simp at hm; simp [mixed, hm]⟩
  | (o, v) :: l, m, h, hm => by
    obtain ⟨h1, h2⟩ := h (o, v) (by simp)
    dsimp only at h1 h2
    rw [List.map_cons, List.prod_cons] at hm
    dsimp only at hm
    have hpos : 0 < outc c o := Nat.pos_of_ne_zero fun h0 => by rw [h0, Nat.zero_mul] at hm; omega
    obtain ⟨ts, e1, e2, e3, e4⟩ := unflatten_go_inv l (m / outc c o) (fun t ht => h t (by simp [ht]))
      (by rw [Nat.div_lt_iff_lt_mul hpos, mul_comm]; exact hm)
    refine ⟨(o, v, m % outc c o) :: ts, ?_, ?_, ?_, ?_⟩
    · rw [unflattenOutcome.go, get_of_lt h1]
      dsimp only
      have e : (obsAt c o).outcomes = outc c o := rfl
      rw [e, if_neg (by omega), e1]; rfl
    · intro t ht
      rcases List.mem_cons.mp ht with rfl | ht
      · exact ⟨h1, h2, Nat.mod_lt _ hpos⟩
      · exact e2 t ht
    · rw [List.map_cons, e3]
    · rw [mixed, e4]; exact Nat.mod_add_div m _

theorem mixed_lt : ∀ (l : List (Nat × Nat × Nat)), (∀ t ∈ l, ValidTriple c t) → mixed c l < (l.map fun t => outc c t.1).prod
  | [], _ => by simp [mixed]
  | (o, v, k) :: l, h => by
    have h3 := (h (o, v, k) (by simp)).2.2
    have ih := mixed_lt l fun t ht => h t (by simp [ht])
    rw [mixed, List.map_cons, List.prod_cons]
    dsimp only at h3 ⊢
    have := Nat.mul_le_mul_left (outc c o) (Nat.succ_le_of_lt ih)
    rw [Nat.succ_eq_add_one, Nat.mul_add] at this
    omega

/-! ### Factor lists -/

theorem dropWhile_filter : ∀ {l : List Nat}, l.Pairwise (· ≤ ·) → (∀ x ∈ l, x ≠ 0) → (l.dropWhile fun x => decide (x ≤ 1)) = l.filter (· != 1)
  | [], _, _ => rfl
  | a :: l, hs, h0 => by
    have ha := h0 a (by simp)
    have hs2 := List.pairwise_cons.mp hs
    by_cases h1 : a = 1
    · subst h1
      rw [List.dropWhile_cons_of_pos (by simp), dropWhile_filter hs2.2 fun x hx => h0 x (by simp [hx])]
      simp
    · rw [List.dropWhile_cons_of_neg (by simp; omega), List.filter_cons_of_pos (by simpa using h1)]
      congr 1
      symm
      apply List.filter_eq_self.mpr
      intro x hx
      have := hs2.1 x hx
      simp only [bne_iff_ne]; omega

theorem mergeNat_eq : ∀ l r : List Nat, mergeNat l r = l.merge r
  | [], r => by rw [mergeNat, List.nil_merge]
  | x :: l, r => by
    rw [mergeNat]
    induction r with
    | nil => simp [mergeWith, mergeNat_eq]
    | cons y r ih =>
      rw [mergeWith, List.cons_merge_cons, ih, mergeNat_eq]
      simp only [decide_eq_true_eq]

theorem combineFactors_eq (left right : List Nat) : combineFactors left right =
    if left.isEmpty && right.isEmpty then [1]
    else if (left.merge right).head? = some 0 then left.merge right ++ [0]
    else if (left.merge right).length > 1 then
      if ((left.merge right).dropWhile fun x => decide (x ≤ 1)).isEmpty then [1] else (left.merge right).dropWhile fun x => decide (x ≤ 1)
    else left.merge right := by
  rw [combineFactors, mergeNat_eq]

theorem merge_sorted {l r : List Nat} (hl : l.Pairwise (· ≤ ·)) (hr : r.Pairwise (· ≤ ·)) : (l.merge r).Pairwise (· ≤ ·) := by
  have := List.pairwise_merge (le := fun a b : Nat => decide (a ≤ b)) (by simp; omega) (by simp; omega) l r (by simpa using hl) (by simpa using hr)
  simpa using this

end Moment.Inflation
