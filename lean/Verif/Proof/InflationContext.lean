import Verif.Props.C12_Inflation
import Verif.Props.C02_Hash
import Verif.Proof.LocalityContext
import Verif.Spec.InflationMatrix

/-! The context of an inflation scenario as symbol tables and matrices see it. -/

namespace Moment.Inflation
open Moment Moment.Symbols Moment.SymbolMatrix
open Moment.C12 (names_iff nf_of_simplify)

variable {n : Causal} {c : Ctx} {L : Nat}

theorem normal_iff (hb : Built n c) {w : List Nat} : Normal c w ↔ ∃ u, (∀ a ∈ u, Exists n c.infl a) ∧ w = u.map (enc c) ∧ nf n c u = some u := by
  constructor
  · rintro ⟨h1, h2⟩
    obtain ⟨u, hu, rfl⟩ := word_surj hb h1
    exact ⟨u, hu, rfl, nf_of_simplify hb hu h2⟩
  · rintro ⟨u, hu, rfl, hn⟩
    refine ⟨fun m hm => ?_, by rw [simplify_enc hb hu, hn]⟩
    obtain ⟨a, ha, rfl⟩ := List.mem_map.mp hm
    exact enc_lt hb (hu a ha)

theorem nf_length {u v : List Op} (h : nf n c u = some v) : v.length ≤ u.length := by
  unfold nf at h
  dsimp only at h
  split at h
  · simp at h
  · rw [← Option.some.inj h]
    exact (uniqueBy_sublist _ _).length_le.trans (stableSort_perm _ _).length_eq.le

/-- Simplification gives zero or a simplified word that is not longer. -/
theorem simplify_range (hb : Built n c) {w : List Nat} (hw : ∀ m ∈ w, m < operatorCount c) :
    simplify c w = .zero ∨ ∃ v, simplify c w = .word v ∧ Normal c v ∧ v.length ≤ w.length := by
  obtain ⟨u, hu, rfl⟩ := word_surj hb hw
  rw [simplify_enc hb hu]
  cases hn : nf n c u with
  | none => exact Or.inl rfl
  | some v =>
    exact Or.inr ⟨_, rfl, (normal_iff hb).mpr ⟨v, fun a ha => hu a (nf_mem hn a ha), rfl, nf_idem hb hu hn⟩, by simpa using nf_length hn⟩

theorem Room.inj (h : Room c L) {u v : List Nat} (hu : C02.IsWord (operatorCount c) u) (hv : C02.IsWord (operatorCount c) v)
    (lu : u.length ≤ L) (lv : v.length ≤ L) (e : hashWord (UInt64.ofNat (operatorCount c)) u = hashWord (UInt64.ofNat (operatorCount c)) v) : u = v :=
  (C02.C02_hash_shortlex_partial _ L h.radix h.words u v hu hv lu lv).1.mp e

theorem Room.ne (h : Room c L) {u : List Nat} (hu : C02.IsWord (operatorCount c) u) (lu : u.length ≤ L) :
    hashWord (UInt64.ofNat (operatorCount c)) u ≠ 0 :=
  (C02.C02_hash_shortlex_partial _ L h.radix h.words u u hu hu lu lu).2.2.1

theorem Room.mono {K : Nat} (hKL : K ≤ L) (h : Room c L) : Room c K :=
  ⟨h.radix, (Finset.sum_le_sum_of_subset (Finset.range_mono (by omega))).trans_lt h.words⟩

/-- The constructor, for words in range up to the length. -/
theorem construct_word (h : Room c L) {w v : List Nat} (heap : Bool) (g : Sign) (hw : C02.IsWord (operatorCount c) w)
    (hl : w.length ≤ L) (hv : simplify c w = .word v) :
    HSeq.construct (hctx c) heap w g = ⟨hashWord (UInt64.ofNat (operatorCount c)) v, v, g⟩ := by
  have h0 : HSeq.isZero ⟨HSeq.hashOps (hctx c) (HSeq.movedFrom heap w), v, g⟩ = false := by
    unfold HSeq.isZero HSeq.hashOps HSeq.movedFrom
    dsimp only [hctx]
    cases heap
    · simpa using h.ne hw hl
    · simpa using h.ne (u := []) (by simp [C02.IsWord]) (Nat.zero_le _)
  have hs : (hctx c).simplify w g = some (v, g) := by simp [hctx, hv]
  unfold HSeq.construct HSeq.toCanonical
  dsimp only
  rw [hs]
  dsimp only [HSeq.ctxHash]
  rw [h0]
  rfl

theorem construct_zero {w : List Nat} (heap : Bool) (g : Sign) (hv : simplify c w = .zero) : HSeq.construct (hctx c) heap w g = HSeq.zero := by
  simp [HSeq.construct, HSeq.toCanonical, hctx, hv, HSeq.zero]

theorem conj_zero {w : HSeq} (h : w.hash = 0) : (env c).conj w = HSeq.zero := by
  simp [env, HSeq.conjugate, HSeq.isZero, h]

/-- Operators commute: words may be reversed. -/
theorem Normal.reverse (hb : Built n c) {w : List Nat} (h : Normal c w) : simplify c w.reverse = .word w := by
  obtain ⟨u, hu, rfl, hn⟩ := (normal_iff hb).mp h
  have hr : ∀ a ∈ u.reverse, Exists n c.infl a := fun a ha => hu a (List.mem_reverse.mp ha)
  rw [← List.map_reverse, simplify_enc hb hr, (nf_iff hb hr hu).mpr (same_perm (List.reverse_perm u)), hn]

theorem conj_word (hb : Built n c) (h : Room c L) {w : HSeq} (h1 : w.hash = hashWord (UInt64.ofNat (operatorCount c)) w.ops) (h2 : Normal c w.ops)
    (h3 : w.ops.length ≤ L) : (env c).conj w = { w with sign := w.sign.conj } := by
  have h0 : w.hash ≠ 0 := h1 ▸ h.ne h2.1 h3
  have hr : C02.IsWord (operatorCount c) w.ops.reverse := fun o ho => h2.1 o (List.mem_reverse.mp ho)
  simp only [env, HSeq.conjugate, HSeq.isZero, beq_iff_eq, h0, if_false]
  rw [construct_word h _ _ hr (by simpa using h3) (h2.reverse hb), ← h1]

theorem words (hb : Built n c) (h : Room c L) : Words (env c) (IsSeq c L) := by
  have key : ∀ w, IsSeq c L w → (w.hash = 0 ∧ (env c).conj w = HSeq.zero) ∨ ((w.hash = hashWord (UInt64.ofNat (operatorCount c)) w.ops ∧ Normal c w.ops ∧
      w.ops.length ≤ L) ∧ (env c).conj w = { w with sign := w.sign.conj }) := by
    rintro w (⟨h1, -⟩ | ⟨h1, h2, h3⟩)
    · exact Or.inl ⟨h1, conj_zero h1⟩
    · exact Or.inr ⟨⟨h1, h2, h3⟩, conj_word hb h h1 h2 h3⟩
  have hash : ∀ w, IsSeq c L w → ((env c).conj w).hash = w.hash := by
    intro w hw
    rcases key w hw with ⟨e0, e⟩ | ⟨-, e⟩
    · rw [e, e0]; rfl
    · rw [e]
  have hone : IsSeq c L (HSeq.identity .pos) := Or.inr ⟨by simp [HSeq.identity]; rfl, ⟨by simp [HSeq.identity], rfl⟩, Nat.zero_le _⟩
  have hconj : ∀ w, IsSeq c L w → IsSeq c L ((env c).conj w) := by
    intro w hw
    rcases key w hw with ⟨-, e⟩ | ⟨hw, e⟩
    · rw [e]; exact Or.inl ⟨rfl, rfl⟩
    · rw [e]; exact Or.inr hw
  refine ⟨⟨Or.inl ⟨rfl, rfl⟩, by rw [conj_zero rfl]; rfl⟩, ⟨hone, hash _ hone⟩, hconj, ?_, ?_, ?_⟩
  · rintro w (hw | hw)
    · exact Or.inl hw
    · exact Or.inr hw
  · intro w hw
    rw [hash _ (hconj w hw), hash w hw]
  · intro w v hw hv e
    rw [hash w hw, hash v hv, e]

theorem conj_hash (hb : Built n c) (h : Room c L) {w : HSeq} (hw : IsSeq c L w) : ((env c).conj w).hash = w.hash := by
  rcases hw with ⟨h1, -⟩ | ⟨h1, h2, h3⟩
  · rw [conj_zero h1, h1]; rfl
  · rw [conj_word hb h h1 h2 h3]

theorem setting (hb : Built n c) (h : Room c L) : Setting (host c) (IsSeq c L) := by
  refine ⟨words hb h, ?_, fun _ w hw => conj_hash hb h hw⟩
  intro w hw _ hne
  exact absurd (conj_hash hb h hw) hne

/-! ## Simplified moments -/

theorem asMoment_word (hb : Built n c) (h : Room c L) : ∀ (fuel : Nat) (w : HSeq) (r : List Nat), Normal c w.ops → w.ops.length ≤ L →
    simplifyAsMoment c fuel w.ops = some (.word r) → (r = w.ops ∧ asMoment c w = some w) ∨
      asMoment c w = some ⟨hashWord (UInt64.ofNat (operatorCount c)) r, r, .pos⟩
  | 0, w, r, _, _, e => by simp [simplifyAsMoment] at e
  | fuel + 1, w, r, hN, hl, e => by
    rw [simplifyAsMoment] at e
    rw [asMoment.eq_def]
    by_cases h1 : w.ops.isEmpty = true
    · rw [if_pos h1] at e ⊢
      exact Or.inl ⟨(Outcome.word.inj (Option.some.inj e)).symm, rfl⟩
    rw [if_neg h1] at e ⊢
    dsimp only at e
    by_cases h2 : (!(findPermutation c w.ops).nonTrivial) = true
    · rw [if_pos h2] at e ⊢
      exact Or.inl ⟨(Outcome.word.inj (Option.some.inj e)).symm, rfl⟩
    rw [if_neg h2] at e ⊢
    generalize hp : w.ops.map (permuteOp c (findPermutation c w.ops).done) = p at e ⊢
    have hr : ∀ m ∈ p, m < operatorCount c := by
      obtain ⟨u, hu, hw, -⟩ := (normal_iff hb).mp hN
      rw [hw, permute_word hb hu] at hp
      subst hp
      intro m hm
      obtain ⟨a, ha, rfl⟩ := List.mem_map.mp hm
      exact enc_lt hb (exists_relabel_word hb hu a ha)
    have hpl : p.length ≤ L := by rw [← hp, List.length_map]; exact hl
    rcases simplify_range hb hr with h3 | ⟨v, h3, h4, h5⟩
    · rw [h3] at e
      split at e <;> simp at e
    · have hs : sequence c p = ⟨hashWord (UInt64.ofNat (operatorCount c)) v, v, .pos⟩ := construct_word h _ _ hr hpl h3
      rw [h3] at e
      rw [hs]
      by_cases h6 : (!isSorted p) = true
      · rw [if_pos h6] at e ⊢
        rcases asMoment_word hb h fuel ⟨hashWord (UInt64.ofNat (operatorCount c)) v, v, .pos⟩ r h4 (h5.trans hpl) e with ⟨h7, h8⟩ | h8
        · rw [h8]; dsimp only at h7; rw [h7]; exact Or.inr rfl
        · exact Or.inr h8
      · rw [if_neg h6] at e ⊢
        rw [Outcome.word.inj (Option.some.inj e)]
        exact Or.inr rfl

/-- What the table gets for a word: its canonical moment in scenarios that have aliases. -/
noncomputable def shown (c : Ctx) (w : HSeq) : HSeq := if (env c).aliases then (env c).simp w else w

/-! ## Words of operators -/

/-- The sequence that a word of operators is stored as. -/
def stored (n : Causal) (c : Ctx) (u : List Op) : HSeq :=
  match nf n c u with
  | none => HSeq.zero
  | some v => ⟨hashWord (UInt64.ofNat (operatorCount c)) (v.map (enc c)), v.map (enc c), .pos⟩

/-- The operators of a word belong to the scenario, and the word is not too long. -/
def Word (n : Causal) (c : Ctx) (L : Nat) (u : List Op) : Prop := (∀ a ∈ u, Exists n c.infl a) ∧ u.length ≤ L

theorem stored_same (hb : Built n c) {u v : List Op} (hu : ∀ a ∈ u, Exists n c.infl a) (hv : ∀ a ∈ v, Exists n c.infl a)
    (h : SameOperator n (some u) (some v)) : stored n c u = stored n c v := by
  unfold stored
  rw [(nf_iff hb hu hv).mpr h]

theorem stored_seq (hb : Built n c) {u : List Op} (hu : Word n c L u) : IsSeq c L (stored n c u) := by
  unfold stored
  cases hn : nf n c u with
  | none => exact Or.inl ⟨rfl, rfl⟩
  | some v => exact Or.inr ⟨rfl, (normal_iff hb).mpr ⟨v, fun a ha => hu.1 a (nf_mem hn a ha), rfl, nf_idem hb hu.1 hn⟩,
      by simpa using (nf_length hn).trans hu.2⟩

theorem stored_sign (u : List Op) : (stored n c u).sign = .pos := by
  unfold stored; split <;> rfl

theorem construct_stored (hb : Built n c) (h : Room c L) {u : List Op} (hu : Word n c L u) (heap : Bool) :
    HSeq.construct (hctx c) heap (u.map (enc c)) .pos = stored n c u := by
  have hs := simplify_enc hb hu.1
  unfold stored
  cases hn : nf n c u with
  | none =>
    rw [hn] at hs
    exact construct_zero _ _ hs
  | some v =>
    rw [hn] at hs
    refine construct_word h _ _ ?_ (by simpa using hu.2) hs
    intro o ho
    obtain ⟨a, ha, rfl⟩ := List.mem_map.mp ho
    exact enc_lt hb (hu.1 a ha)

theorem conj_stored (hb : Built n c) (h : Room c L) {u : List Op} (hu : Word n c L u) : (env c).conj (stored n c u) = stored n c u := by
  rcases stored_seq hb hu with ⟨h1, h2⟩ | ⟨h1, h2, h3⟩
  · rw [conj_zero h1]
    have := stored_sign (n := n) (c := c) u
    cases hs : stored n c u
    simp only [hs] at h1 h2 this
    subst h1 h2 this
    rfl
  · rw [conj_word hb h h1 h2 h3, stored_sign]
    have := stored_sign (n := n) (c := c) u
    cases hs : stored n c u
    simp only [hs] at this
    subst this
    rfl

theorem same_append {x y : Option (List Op)} (h : SameOperator n x y) (l r : List Op) :
    SameOperator n (x.map fun w => l ++ w ++ r) (y.map fun w => l ++ w ++ r) := by
  induction h with
  | refl => exact .refl _
  | symm _ ih => exact ih.symm
  | trans _ _ ih1 ih2 => exact ih1.trans ih2
  | commute u v a b => simpa using SameOperator.commute (l ++ u) (v ++ r) a b
  | project u v a hp => simpa using SameOperator.project (l ++ u) (v ++ r) a hp
  | exclude u v a b h1 => simpa using SameOperator.exclude (l ++ u) (v ++ r) a b h1

theorem same_relabel {x y : Option (List Op)} (h : SameOperator n x y) (σ : Nat → Nat → Nat) :
    SameOperator n (x.map (List.map (relabel n σ))) (y.map (List.map (relabel n σ))) := by
  induction h with
  | refl => exact .refl _
  | symm _ ih => exact ih.symm
  | trans _ _ ih1 ih2 => exact ih1.trans ih2
  | commute u v a b => simpa using SameOperator.commute (u.map (relabel n σ)) (v.map (relabel n σ)) _ _
  | project u v a hp => simpa using SameOperator.project (u.map (relabel n σ)) (v.map (relabel n σ)) (relabel n σ a) hp
  | exclude u v a b h1 =>
    simpa using SameOperator.exclude (u.map (relabel n σ)) (v.map (relabel n σ)) (relabel n σ a) (relabel n σ b)
      ⟨h1.1, by simp only [relabel]; rw [h1.1, h1.2.1], h1.2.2⟩

theorem mul_stored (hb : Built n c) (h : Room c L) {u v : List Op} (hw : Word n c L (u ++ v)) :
    (host c).mul (stored n c u) (stored n c v) = stored n c (u ++ v) := by
  have hlen : u.length + v.length ≤ L := by simpa using hw.2
  have hu : ∀ a ∈ u, Exists n c.infl a := fun a ha => hw.1 a (List.mem_append_left _ ha)
  have hv : ∀ a ∈ v, Exists n c.infl a := fun a ha => hw.1 a (List.mem_append_right _ ha)
  have zero : nf n c (u ++ v) = none → stored n c (u ++ v) = HSeq.zero := fun e => by unfold stored; rw [e]
  cases hn : nf n c u with
  | none =>
    have h1 : stored n c u = HSeq.zero := by unfold stored; rw [hn]
    have h2 := same_append ((nf_zero_iff hb hu).mp hn) [] v
    simp only [Option.map_some, List.nil_append, Option.map_none] at h2
    rw [h1, zero ((nf_zero_iff hb hw.1).mpr h2)]
    rfl
  | some u' =>
    cases hm : nf n c v with
    | none =>
      have h1 : stored n c v = HSeq.zero := by unfold stored; rw [hm]
      have h2 := same_append ((nf_zero_iff hb hv).mp hm) u []
      simp only [Option.map_some, List.append_nil, Option.map_none] at h2
      rw [h1, zero ((nf_zero_iff hb hw.1).mpr h2)]
      simp [host, HSeq.multiply, HSeq.isZero, HSeq.zero]
    | some v' =>
      have e1 : stored n c u = ⟨hashWord (UInt64.ofNat (operatorCount c)) (u'.map (enc c)), u'.map (enc c), .pos⟩ := by unfold stored; rw [hn]
      have e2 : stored n c v = ⟨hashWord (UInt64.ofNat (operatorCount c)) (v'.map (enc c)), v'.map (enc c), .pos⟩ := by unfold stored; rw [hm]
      have x1 : ∀ a ∈ u', Exists n c.infl a := fun a ha => hu a (nf_mem hn a ha)
      have x2 : ∀ a ∈ v', Exists n c.infl a := fun a ha => hv a (nf_mem hm a ha)
      have l1 := nf_length hn
      have l2 := nf_length hm
      have lt : ∀ {x : List Op}, (∀ a ∈ x, Exists n c.infl a) → C02.IsWord (operatorCount c) (x.map (enc c)) := by
        intro x hx m hm
        obtain ⟨a, ha, rfl⟩ := List.mem_map.mp hm
        exact enc_lt hb (hx a ha)
      have z1 := h.ne (lt x1) (by rw [List.length_map]; omega)
      have z2 := h.ne (lt x2) (by rw [List.length_map]; omega)
      have x12 : ∀ a ∈ u' ++ v', Exists n c.infl a := fun a ha => (List.mem_append.mp ha).elim (x1 a) (x2 a)
      have same : SameOperator n (some (u ++ v)) (some (u' ++ v')) := by
        have s1 : SameOperator n (some u) (some u') := hn ▸ nf_sound u
        have s2 : SameOperator n (some v) (some v') := hm ▸ nf_sound v
        have a1 := same_append s1 [] v
        have a2 := same_append s2 u' []
        simp only [Option.map_some, List.nil_append, List.append_nil] at a1 a2
        exact a1.trans a2
      rw [stored_same hb hw.1 x12 same, e1, e2]
      simp only [host, HSeq.multiply, HSeq.isZero, beq_iff_eq, z1, z2, Bool.or_eq_true, or_self, if_false]
      rw [← List.map_append]
      exact construct_stored hb h ⟨x12, by rw [List.length_append]; omega⟩ _

theorem stored_inj (hb : Built n c) (h : Room c L) {u v : List Op} (hu : Word n c L u) (hv : Word n c L v)
    (e : (stored n c u).hash = (stored n c v).hash) : SameOperator n (some u) (some v) := by
  have lt : ∀ {x y : List Op}, Word n c L x → nf n c x = some y → (∀ a ∈ y, Exists n c.infl a) ∧ C02.IsWord (operatorCount c) (y.map (enc c)) ∧
      (y.map (enc c)).length ≤ L := by
    intro x y hx hn
    have hy : ∀ a ∈ y, Exists n c.infl a := fun a ha => hx.1 a (nf_mem hn a ha)
    refine ⟨hy, fun m hm => ?_, by simpa using (nf_length hn).trans hx.2⟩
    obtain ⟨a, ha, rfl⟩ := List.mem_map.mp hm
    exact enc_lt hb (hy a ha)
  have zero : ∀ {x y : List Op}, Word n c L y → nf n c x = none → (stored n c x).hash = (stored n c y).hash → nf n c y = none := by
    intro x y hy hx e
    cases hn : nf n c y with
    | none => rfl
    | some y' =>
      have h1 : (stored n c x).hash = 0 := by unfold stored; rw [hx]; rfl
      rw [h1] at e
      unfold stored at e
      rw [hn] at e
      exact absurd e.symm (h.ne (lt hy hn).2.1 (lt hy hn).2.2)
  rw [← nf_iff hb hu.1 hv.1]
  cases hn : nf n c u with
  | none => exact (zero hv hn e).symm
  | some u' =>
    cases hm : nf n c v with
    | none => rw [zero hu hm e.symm] at hn; cases hn
    | some v' =>
      unfold stored at e
      rw [hn, hm] at e
      have := h.inj (lt hu hn).2.1 (lt hv hm).2.1 (lt hu hn).2.2 (lt hv hm).2.2 e
      rw [map_enc_inj hb (lt hu hn).1 (lt hv hm).1 this]

/-- The canonical moment of a stored word is the word with the copies of the sources permuted. Canonical moments are their own canonical moments. -/
theorem shown_stored (hb : Built n c) (h : Room c L) {u : List Op} (hu : Word n c L u) : ∃ σ v, Relabelling c.infl σ ∧ Word n c L v ∧
    SameOperator n (some (u.map (relabel n σ))) (some v) ∧ shown c (stored n c u) = stored n c v ∧ shown c (stored n c v) = stored n c v := by
  have triv : ∀ v : List Op, Word n c L v → shown c (stored n c v) = stored n c v → ∃ σ v', Relabelling c.infl σ ∧ Word n c L v' ∧
      SameOperator n (some (v.map (relabel n σ))) (some v') ∧ shown c (stored n c v) = stored n c v' ∧ shown c (stored n c v') = stored n c v' := by
    intro v hv e
    refine ⟨fun _ x => x, v, relabelling_id _, hv, ?_, e, e⟩
    have : v.map (relabel n fun _ x => x) = v := by
      conv_rhs => rw [← List.map_id v]
      apply List.map_congr_left
      intro a ha
      rw [relabel_eq_self (hv.1 a ha) fun _ _ _ => rfl]; rfl
    rw [this]
    exact .refl _
  cases hn : nf n c u with
  | none =>
    refine triv u hu ?_
    have : stored n c u = HSeq.zero := by unfold stored; rw [hn]
    rw [this]
    unfold shown
    split
    · simp only [env]
      rw [asMoment.eq_def]
      rfl
    · rfl
  | some u' =>
    by_cases hal : canHaveAliases c = true
    · have hu' : ∀ a ∈ u', Exists n c.infl a := fun a ha => hu.1 a (nf_mem hn a ha)
      have lu' : u'.length ≤ L := (nf_length hn).trans hu.2
      have hnf := nf_idem hb hu.1 hn
      have es : stored n c u = ⟨hashWord (UInt64.ofNat (operatorCount c)) (u'.map (enc c)), u'.map (enc c), .pos⟩ := by unfold stored; rw [hn]
      have key : ∀ x : List Op, (∀ a ∈ x, Exists n c.infl a) → x.length ≤ L → nf n c x = some x → ∃ v σ, Relabelling c.infl σ ∧ v.Perm (x.map (relabel n σ)) ∧
          (∀ a ∈ v, Exists n c.infl a) ∧ nf n c v = some v ∧ Trivial (wordOrd n v) ∧
          (env c).simp ⟨hashWord (UInt64.ofNat (operatorCount c)) (x.map (enc c)), x.map (enc c), .pos⟩ =
            ⟨hashWord (UInt64.ofNat (operatorCount c)) (v.map (enc c)), v.map (enc c), .pos⟩ := by
        intro x hx lx hxn
        obtain ⟨fuel, v, σ, e1, e2, e3, e4, e5, e6, -⟩ := moment_spec hb x hx hxn
        refine ⟨v, σ, e2, e3, e4, e5, e6, ?_⟩
        have := asMoment_word hb h fuel ⟨hashWord (UInt64.ofNat (operatorCount c)) (x.map (enc c)), x.map (enc c), .pos⟩ (v.map (enc c))
          ((normal_iff hb).mpr ⟨x, hx, rfl, hxn⟩) (by simpa using lx) (e1 fuel (Nat.le_refl _))
        simp only [env]
        rcases this with ⟨a1, a2⟩ | a2
        · rw [a2, Option.getD_some]; dsimp only at a1; rw [a1]
        · rw [a2, Option.getD_some]
      obtain ⟨v, σ, e2, e3, e4, e5, e6, e7⟩ := key u' hu' lu' hnf
      have lv : v.length ≤ L := by rw [e3.length_eq, List.length_map]; exact lu'
      have ev : stored n c v = ⟨hashWord (UInt64.ofNat (operatorCount c)) (v.map (enc c)), v.map (enc c), .pos⟩ := by unfold stored; rw [e5]
      have se : ∀ w, shown c w = (env c).simp w := fun w => if_pos hal
      refine ⟨σ, v, e2, ⟨e4, lv⟩, ?_, by rw [se, es, e7, ev], ?_⟩
      · have s1 : SameOperator n (some u) (some u') := hn ▸ nf_sound u
        have := same_relabel s1 σ
        simp only [Option.map_some] at this
        exact this.trans (same_perm e3.symm)
      · rw [se, ev]
        show (asMoment c _).getD _ = _
        rw [asMoment.eq_def]
        dsimp only
        by_cases h1 : (v.map (enc c)).isEmpty = true
        · rw [if_pos h1]; rfl
        · have hf : (findPermutation c (v.map (enc c))).nonTrivial = false := by
            rw [← Bool.not_eq_true, flag_iff hb e4]; exact not_not.mpr e6
          rw [if_neg h1, if_pos (by rw [hf]; rfl)]
          rfl
    · exact triv u hu (if_neg (by simpa [env] using hal))

/-! ## Moments -/

theorem opOf_enc (hb : Built n c) {a : Op} (h : Exists n c.infl a) : opOf n c (enc c a) = a := by
  have he : ∃ b, Exists n c.infl b ∧ operatorNumber c b.obs (flattenIndex c.infl b.copy) b.out = enc c a := ⟨a, h, rfl⟩
  unfold opOf
  rw [dif_pos he]
  exact enc_inj hb he.choose_spec.1 h he.choose_spec.2

theorem product_enc {A : Type} [Monoid A] (hb : Built n c) (P : Op → A) {u : List Op} (h : ∀ a ∈ u, Exists n c.infl a) :
    ((u.map (enc c)).map fun m => P (opOf n c m)).prod = (u.map P).prod := by
  rw [List.map_map]
  congr 1
  exact List.map_congr_left fun a ha => by simp [opOf_enc hb (h a ha)]

theorem moment_stored {A : Type} [Ring A] [Algebra ℂ A] (hb : Built n c) (h : Room c L) {P : Op → A} (hP : Represents n P) (φ : A →ₗ[ℂ] ℂ) {u : List Op}
    (hu : Word n c L u) : moment n c P φ (stored n c u) = φ (u.map P).prod := by
  cases hn : nf n c u with
  | none =>
    have es : stored n c u = HSeq.zero := by unfold stored; rw [hn]
    have := C12.C12_value P hP ((nf_zero_iff hb hu.1).mp hn)
    simp only [Option.map_none, Option.getD_none] at this
    rw [es, this, map_zero]
    simp [moment, HSeq.zero]
  | some v =>
    have hv : ∀ a ∈ v, Exists n c.infl a := fun a ha => hu.1 a (nf_mem hn a ha)
    have es : stored n c u = ⟨hashWord (UInt64.ofNat (operatorCount c)) (v.map (enc c)), v.map (enc c), .pos⟩ := by unfold stored; rw [hn]
    have s1 : SameOperator n (some u) (some v) := hn ▸ nf_sound u
    have := C12.C12_value P hP s1
    simp only [Option.map_some, Option.getD_some] at this
    have h0 : hashWord (UInt64.ofNat (operatorCount c)) (v.map (enc c)) ≠ 0 := by
      refine h.ne (fun m hm => ?_) (by simpa using (nf_length hn).trans hu.2)
      obtain ⟨a, ha, rfl⟩ := List.mem_map.mp hm
      exact enc_lt hb (hv a ha)
    rw [es, this]
    simp only [moment, h0, if_false, product_enc hb P hv]
    simp [Rewrite.phase]

theorem star_prod {A : Type} [Ring A] [StarRing A] {P : Op → A} (hP : Represents n P) (hs : ∀ a, star (P a) = P a) (u : List Op) :
    star (u.map P).prod = (u.map P).prod := by
  have h1 : ∀ l : List Op, star (l.map P).prod = (l.reverse.map P).prod := by
    intro l
    induction l with
    | nil => simp
    | cons a l ih => simp [ih, hs, star_mul]
  have := C12.C12_value P hP (same_perm (n := n) (List.reverse_perm u))
  simp only [Option.map_some, Option.getD_some] at this
  rw [h1, this]

/-- Every functional that respects the star operation gives moments of the words. -/
theorem moments {A : Type} [Ring A] [Algebra ℂ A] [StarRing A] [StarModule ℂ A] (hb : Built n c) (h : Room c L) {P : Op → A}
    (hP : Represents n P) (hs : ∀ a, star (P a) = P a) {φ : A →ₗ[ℂ] ℂ} (hφ : ∀ a, φ (star a) = (starRingEnd ℂ) (φ a)) :
    Moments (env c) (IsSeq c L) (moment n c P φ) ∧ ∀ w, IsSeq c L w → w.sign = .pos → (starRingEnd ℂ) (moment n c P φ w) = moment n c P φ w := by
  have real : ∀ w : List Nat, (starRingEnd ℂ) (φ (w.map fun m => P (opOf n c m)).prod) = φ (w.map fun m => P (opOf n c m)).prod := by
    intro w
    have := star_prod hP hs (w.map (opOf n c))
    rw [List.map_map] at this
    rw [← hφ]
    exact congrArg φ this
  refine ⟨⟨by simp [moment, HSeq.zero], fun w _ => ?_, ?_, ?_⟩, fun w _ hw => ?_⟩
  · unfold moment
    by_cases h0 : w.hash = 0 <;> simp [h0, Rewrite.phase]
  · rintro w v (⟨h1, -⟩ | ⟨h1, h2, h3⟩) (⟨g1, -⟩ | ⟨g1, g2, g3⟩) e es
    · simp [moment, h1, g1]
    · exact absurd (g1 ▸ e ▸ h1) (h.ne g2.1 g3)
    · exact absurd (h1 ▸ e.symm ▸ g1) (h.ne h2.1 h3)
    · have he := h.inj h2.1 g2.1 h3 g3 (by rw [← h1, ← g1, e])
      simp [moment, e, es, he]
  · rintro w (⟨h1, -⟩ | ⟨h1, h2, h3⟩)
    · rw [conj_zero h1]; simp [moment, h1, HSeq.zero]
    · rw [conj_word hb h h1 h2 h3]
      have h0 : w.hash ≠ 0 := h1 ▸ h.ne h2.1 h3
      unfold moment
      simp only [h0, if_false]
      rw [map_mul, real, phase_conj]
  · unfold moment
    split
    · simp
    · rw [hw, map_mul, real]
      simp [Rewrite.phase]

theorem moment_shown {A : Type} [Ring A] [Algebra ℂ A] (hb : Built n c) (h : Room c L) {P : Op → A} (hP : Represents n P) {φ : A →ₗ[ℂ] ℂ}
    (hx : Exchangeable n c.infl P φ) {u : List Op} (hu : Word n c L u) : moment n c P φ (shown c (stored n c u)) = moment n c P φ (stored n c u) := by
  obtain ⟨σ, v, h1, h2, h3, h4, -⟩ := shown_stored hb h hu
  have := C12.C12_value P hP h3
  simp only [Option.map_some, Option.getD_some] at this
  rw [h4, moment_stored hb h hP φ h2, moment_stored hb h hP φ hu, ← this, hx σ u h1 hu.1]

end Moment.Inflation
