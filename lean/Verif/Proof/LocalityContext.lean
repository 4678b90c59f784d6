import Verif.Model.LocalityContext
import Verif.Props.C10_Locality
import Verif.Props.C70_SymbolMatrix
import Verif.Proof.SymbolValues

/-! # The locality context has what symbol tables and matrices need -/

namespace Moment.Locality
open Moment.Symbols Moment.SymbolMatrix

/-- The relations are the same when all words are read backwards. -/
theorem SameOperator.reverse {x y : Option (List Op)} (h : SameOperator x y) : SameOperator (x.map List.reverse) (y.map List.reverse) := by
  induction h with
  | refl => exact .refl _
  | symm _ ih => exact ih.symm
  | trans _ _ ih1 ih2 => exact ih1.trans ih2
  | commute u v a b hp => simpa using SameOperator.commute v.reverse u.reverse b a (Ne.symm hp)
  | project u v a => simpa using SameOperator.project v.reverse u.reverse a
  | exclude u v a b h1 h2 h3 => simpa using SameOperator.exclude v.reverse u.reverse b a h1.symm h2.symm (Ne.symm h3)

theorem nf_length {u v : List Op} (h : nf u = some v) : v.length ≤ u.length := by
  unfold nf at h
  dsimp only at h
  split at h
  · simp at h
  · rw [← Option.some.inj h]
    exact (uniq_sublist _).length_le.trans (stableSort_perm _ _).length_eq.le

/-- The normal form of a reversed normal form, and back again. -/
theorem nf_reverse {u : List Op} (h : nf u = some u) : ∃ v, nf u.reverse = some v ∧ nf v = some v ∧ nf v.reverse = some u := by
  cases hv : nf u.reverse with
  | none =>
    have := ((nf_zero_iff _).mp hv).reverse
    simp only [Option.map_some, List.reverse_reverse, Option.map_none] at this
    rw [(nf_zero_iff u).mpr this] at h
    cases h
  | some v =>
    refine ⟨v, rfl, nf_idem hv, ?_⟩
    have h1 : SameOperator (some u.reverse) (some v) := hv ▸ nf_sound _
    have h2 := h1.reverse
    simp only [Option.map_some, List.reverse_reverse] at h2
    rw [← (nf_iff u v.reverse).mpr h2, h]

/-- Normal words of a scenario. -/
def Normal (s : Scenario) (w : List Nat) : Prop := simplify s w = .word w

theorem map_enc_inj {s : Scenario} : ∀ {u v : List Op}, (∀ a ∈ u, Exists s a) → (∀ a ∈ v, Exists s a) → u.map (enc s) = v.map (enc s) → u = v
  | [], [], _, _, _ => rfl
  | [], _ :: _, _, _, h => by simp at h
  | _ :: _, [], _, _, h => by simp at h
  | a :: u, b :: v, hu, hv, h => by
    simp only [List.map_cons, List.cons.injEq] at h
    rw [enc_inj (hu a (by simp)) (hv b (by simp)) h.1, map_enc_inj (fun o ho => hu o (by simp [ho])) (fun o ho => hv o (by simp [ho])) h.2]

theorem normal_iff {s : Scenario} {w : List Nat} : Normal s w ↔ ∃ u, (∀ a ∈ u, Exists s a) ∧ w = u.map (enc s) ∧ nf u = some u := by
  constructor
  · intro h
    have hr : ∀ n ∈ w, n < operatorCount s := by
      by_contra hc
      rw [Normal, simplify_range.mpr (by simpa using hc)] at h
      simp at h
    obtain ⟨u, hu, rfl⟩ := word_surj hr
    refine ⟨u, hu, rfl, ?_⟩
    rw [Normal, simplify_enc hu] at h
    cases hn : nf u with
    | none => rw [hn] at h; simp at h
    | some v =>
      rw [hn] at h
      rw [map_enc_inj (fun o ho => hu o (nf_mem hn o ho)) hu (Outcome.word.inj h)]
  · rintro ⟨u, hu, rfl, hn⟩
    rw [Normal, simplify_enc hu, hn]

theorem Normal.lt {s : Scenario} {w : List Nat} (h : Normal s w) : C02.IsWord (operatorCount s) w := by
  obtain ⟨u, hu, rfl, -⟩ := normal_iff.mp h
  intro o ho
  obtain ⟨a, ha, rfl⟩ := List.mem_map.mp ho
  exact enc_lt (hu a ha)

theorem Normal.reverse {s : Scenario} {w : List Nat} (h : Normal s w) :
    ∃ v, simplify s w.reverse = .word v ∧ Normal s v ∧ v.length ≤ w.length ∧ simplify s v.reverse = .word w := by
  obtain ⟨u, hu, rfl, hn⟩ := normal_iff.mp h
  obtain ⟨v, h1, h2, h3⟩ := nf_reverse hn
  have hr : ∀ a ∈ u.reverse, Exists s a := fun a ha => hu a (List.mem_reverse.mp ha)
  have hv : ∀ a ∈ v, Exists s a := fun a ha => hr a (nf_mem h1 a ha)
  refine ⟨v.map (enc s), ?_, normal_iff.mpr ⟨v, hv, rfl, h2⟩, ?_, ?_⟩
  · rw [← List.map_reverse, simplify_enc hr, h1]
  · simpa using nf_length h1
  · rw [← List.map_reverse, simplify_enc (fun a ha => hv a (List.mem_reverse.mp ha)), h3]

/-- Zero, or a normal word of at most `L` letters with its hash. -/
def IsSeq (s : Scenario) (L : Nat) (w : HSeq) : Prop :=
  (w.hash = 0 ∧ w.ops = []) ∨ (w.hash = hashWord (UInt64.ofNat (operatorCount s)) w.ops ∧ Normal s w.ops ∧ w.ops.length ≤ L)

/-- The hash has room for words of `L` letters. -/
structure Room (s : Scenario) (L : Nat) : Prop where
  radix : operatorCount s < 2 ^ 64
  words : (∑ k ∈ Finset.range (L + 1), operatorCount s ^ k) < 2 ^ 64

theorem Room.inj {s : Scenario} {L : Nat} (h : Room s L) {u v : List Nat} (hu : C02.IsWord (operatorCount s) u) (hv : C02.IsWord (operatorCount s) v)
    (lu : u.length ≤ L) (lv : v.length ≤ L) (e : hashWord (UInt64.ofNat (operatorCount s)) u = hashWord (UInt64.ofNat (operatorCount s)) v) : u = v :=
  (C02.C02_hash_shortlex_partial _ L h.radix h.words u v hu hv lu lv).1.mp e

theorem Room.ne {s : Scenario} {L : Nat} (h : Room s L) {u : List Nat} (hu : C02.IsWord (operatorCount s) u) (lu : u.length ≤ L) :
    hashWord (UInt64.ofNat (operatorCount s)) u ≠ 0 :=
  (C02.C02_hash_shortlex_partial _ L h.radix h.words u u hu hu lu lu).2.2.1

/-- The constructor, for words in range up to the length. -/
theorem construct_word {s : Scenario} {L : Nat} (h : Room s L) {w v : List Nat} (heap : Bool) (g : Sign) (hw : C02.IsWord (operatorCount s) w)
    (hl : w.length ≤ L) (hv : simplify s w = .word v) :
    HSeq.construct (ctx s) heap w g = ⟨hashWord (UInt64.ofNat (operatorCount s)) v, v, g⟩ := by
  have h0 : HSeq.isZero ⟨HSeq.hashOps (ctx s) (HSeq.movedFrom heap w), v, g⟩ = false := by
    unfold HSeq.isZero HSeq.hashOps HSeq.movedFrom
    dsimp only [ctx]
    cases heap
    · simpa using h.ne hw hl
    · simpa using h.ne (u := []) (by simp [C02.IsWord]) (Nat.zero_le _)
  have hs : (ctx s).simplify w g = some (v, g) := by simp [ctx, hv]
  unfold HSeq.construct HSeq.toCanonical
  dsimp only
  rw [hs]
  dsimp only [HSeq.ctxHash]
  rw [h0]
  rfl

theorem construct_zero {s : Scenario} {w : List Nat} (heap : Bool) (g : Sign) (hv : simplify s w = .zero) :
    HSeq.construct (ctx s) heap w g = HSeq.zero := by
  simp [HSeq.construct, HSeq.toCanonical, ctx, hv, HSeq.zero]

theorem conj_zero {s : Scenario} {w : HSeq} (h : w.hash = 0) : (env s).conj w = HSeq.zero := by
  simp [env, HSeq.conjugate, HSeq.isZero, h]

theorem conj_word {s : Scenario} {L : Nat} (h : Room s L) {w : HSeq} (h1 : w.hash = hashWord (UInt64.ofNat (operatorCount s)) w.ops)
    (h2 : Normal s w.ops) (h3 : w.ops.length ≤ L) {v : List Nat} (hv : simplify s w.ops.reverse = .word v) :
    (env s).conj w = ⟨hashWord (UInt64.ofNat (operatorCount s)) v, v, w.sign.conj⟩ := by
  have h0 : w.hash ≠ 0 := h1 ▸ h.ne h2.lt h3
  have hr : C02.IsWord (operatorCount s) w.ops.reverse := fun o ho => h2.lt o (List.mem_reverse.mp ho)
  simp only [env, HSeq.conjugate, HSeq.isZero, beq_iff_eq, h0, if_false]
  rw [construct_word h _ _ hr (by simpa using h3) hv]

theorem words (s : Scenario) (L : Nat) (h : Room s L) : Words (env s) (IsSeq s L) := by
  have key : ∀ w, IsSeq s L w → (w.hash = 0 ∧ (env s).conj w = HSeq.zero) ∨ (w.hash = hashWord (UInt64.ofNat (operatorCount s)) w.ops ∧ Normal s w.ops ∧
      w.ops.length ≤ L ∧ ∃ v, (env s).conj w = ⟨hashWord (UInt64.ofNat (operatorCount s)) v, v, w.sign.conj⟩ ∧ Normal s v ∧ v.length ≤ L ∧
        simplify s w.ops.reverse = .word v ∧ simplify s v.reverse = .word w.ops) := by
    rintro w (⟨h1, -⟩ | ⟨h1, h2, h3⟩)
    · exact Or.inl ⟨h1, conj_zero h1⟩
    · obtain ⟨v, g1, g2, g3, g4⟩ := h2.reverse
      exact Or.inr ⟨h1, h2, h3, v, conj_word h h1 h2 h3 g1, g2, g3.trans h3, g1, g4⟩
  have hone : IsSeq s L (HSeq.identity .pos) := Or.inr ⟨by simp [HSeq.identity]; rfl, rfl, Nat.zero_le _⟩
  refine ⟨⟨Or.inl ⟨rfl, rfl⟩, by rw [conj_zero rfl]; rfl⟩, ⟨hone, ?_⟩, ?_, ?_, ?_, ?_⟩
  · rw [conj_word h (w := HSeq.identity .pos) rfl rfl (Nat.zero_le _) (v := []) rfl]; rfl
  · intro w hw
    rcases key w hw with ⟨-, e⟩ | ⟨-, -, -, v, e, g1, g2, -⟩
    · rw [e]; exact Or.inl ⟨rfl, rfl⟩
    · rw [e]; exact Or.inr ⟨rfl, g1, g2⟩
  · rintro w (hw | hw)
    · exact Or.inl hw
    · exact Or.inr hw
  · intro w hw
    rcases key w hw with ⟨e0, e⟩ | ⟨h1, -, -, v, e, g1, g2, -, g3⟩
    · rw [e, conj_zero rfl, e0]; rfl
    · rw [e, conj_word h (w := ⟨_, v, _⟩) rfl g1 g2 g3, h1]
  · intro w v hw hv e
    rcases key w hw with ⟨e0, e1⟩ | ⟨h1, h2, h3, x, e1, -⟩ <;> rcases key v hv with ⟨f0, f1⟩ | ⟨k1, k2, k3, y, f1, -⟩
    · rw [e1, f1]
    · exact absurd (k1 ▸ e ▸ e0) (h.ne k2.lt k3)
    · exact absurd (h1 ▸ e.symm ▸ f0) (h.ne h2.lt h3)
    · have he := h.inj h2.lt k2.lt h3 k3 (by rw [← h1, ← k1, e])
      obtain ⟨x', g1, -⟩ := h2.reverse
      rw [conj_word h h1 h2 h3 g1, conj_word h k1 k2 k3 (he ▸ g1)]

theorem setting (s : Scenario) (L : Nat) (h : Room s L) : Setting (host s) (IsSeq s L) := by
  refine ⟨words s L h, ?_, by simp [host]⟩
  rintro w (⟨h1, -⟩ | ⟨h1, h2, h3⟩) hs hne
  · exact (hne (by rw [show (host s).env.conj w = HSeq.zero from conj_zero h1, h1]; rfl)).elim
  · obtain ⟨v, g1, -⟩ := h2.reverse
    rw [show (host s).env.conj w = _ from conj_word h h1 h2 h3 g1, hs]
    rfl

/-- The operator of a number. -/
noncomputable def opOf (s : Scenario) (n : Nat) : Op := open Classical in if h : ∃ a, Exists s a ∧ enc s a = n then h.choose else ⟨0, 0, 0⟩

theorem opOf_enc {s : Scenario} {a : Op} (h : Exists s a) : opOf s (enc s a) = a := by
  have he : ∃ b, Exists s b ∧ enc s b = enc s a := ⟨a, h, rfl⟩
  unfold opOf
  rw [dif_pos he]
  exact enc_inj he.choose_spec.1 h he.choose_spec.2

/-- The product of the operators that a word names. -/
noncomputable def product {A : Type} [Monoid A] (s : Scenario) (f : Op → A) (w : List Nat) : A := (w.map fun n => f (opOf s n)).prod

theorem product_enc {A : Type} [Monoid A] {s : Scenario} (f : Op → A) {u : List Op} (h : ∀ a ∈ u, Exists s a) :
    product s f (u.map (enc s)) = (u.map f).prod := by
  unfold product
  rw [List.map_map]
  congr 1
  exact List.map_congr_left fun a ha => by simp [opOf_enc (h a ha)]

theorem product_simplify {A : Type} [MonoidWithZero A] {s : Scenario} {f : Op → A} (hf : Represents f) {w v : List Nat}
    (h : simplify s w = .word v) : product s f w = product s f v := by
  have hr : ∀ n ∈ w, n < operatorCount s := by
    by_contra hc
    rw [simplify_range.mpr (by simpa using hc)] at h
    simp at h
  obtain ⟨u, hu, rfl⟩ := word_surj hr
  rw [simplify_enc hu] at h
  cases hn : nf u with
  | none => rw [hn] at h; simp at h
  | some x =>
    rw [hn] at h
    rw [← Outcome.word.inj h, product_enc f hu, product_enc f (fun a ha => hu a (nf_mem hn a ha))]
    have : SameOperator (some u) (some x) := hn ▸ nf_sound u
    simpa using C10.C10_value f hf this

theorem product_zero {A : Type} [MonoidWithZero A] {s : Scenario} {f : Op → A} (hf : Represents f) {w : List Nat} (h : simplify s w = .zero) :
    product s f w = 0 := by
  have hr : ∀ n ∈ w, n < operatorCount s := by
    by_contra hc
    rw [simplify_range.mpr (by simpa using hc)] at h
    simp at h
  obtain ⟨u, hu, rfl⟩ := word_surj hr
  rw [simplify_enc hu] at h
  cases hn : nf u with
  | none =>
    rw [product_enc f hu]
    have : SameOperator (some u) none := hn ▸ nf_sound u
    simpa using C10.C10_value f hf this
  | some x => rw [hn] at h; simp at h

theorem product_reverse {A : Type} [Ring A] [StarRing A] {s : Scenario} {f : Op → A} (hf : ∀ a, star (f a) = f a) (w : List Nat) :
    star (product s f w) = product s f w.reverse := by
  unfold product
  induction w with
  | nil => simp
  | cons o w ih => simp [ih, hf, star_mul]

/-- The moments of a functional on an algebra with the operators of the scenario. -/
noncomputable def moment {A : Type} [Ring A] [Algebra ℂ A] (s : Scenario) (f : Op → A) (φ : A →ₗ[ℂ] ℂ) (w : HSeq) : ℂ :=
  if w.hash = 0 then 0 else Rewrite.phase w.sign * φ (product s f w.ops)

/-- Every functional that respects the star operation gives moments of the words. -/
theorem moments {A : Type} [Ring A] [Algebra ℂ A] [StarRing A] [StarModule ℂ A] {s : Scenario} {L : Nat} (h : Room s L) {f : Op → A}
    (hf : Represents f) (hs : ∀ a, star (f a) = f a) {φ : A →ₗ[ℂ] ℂ} (hφ : ∀ a, φ (star a) = (starRingEnd ℂ) (φ a)) :
    Moments (env s) (IsSeq s L) (moment s f φ) := by
  constructor
  · simp [moment, HSeq.zero]
  · intro w _
    unfold moment
    by_cases h0 : w.hash = 0 <;> simp [h0, Rewrite.phase]
  · rintro w v (⟨h1, -⟩ | ⟨h1, h2, h3⟩) (⟨g1, -⟩ | ⟨g1, g2, g3⟩) e es
    · simp [moment, h1, g1]
    · exact absurd (g1 ▸ e ▸ h1) (h.ne g2.lt g3)
    · exact absurd (h1 ▸ e.symm ▸ g1) (h.ne h2.lt h3)
    · have he := h.inj h2.lt g2.lt h3 g3 (by rw [← h1, ← g1, e])
      simp [moment, e, es, he]
  · rintro w (⟨h1, -⟩ | ⟨h1, h2, h3⟩)
    · rw [conj_zero h1]; simp [moment, h1, HSeq.zero]
    · obtain ⟨v, g1, g2, g3, -⟩ := h2.reverse
      rw [conj_word h h1 h2 h3 g1]
      have h0 : w.hash ≠ 0 := h1 ▸ h.ne h2.lt h3
      unfold moment
      simp only [h0, h.ne g2.lt (g3.trans h3), if_false]
      rw [map_mul, ← hφ, product_reverse hs, product_simplify hf g1, phase_conj]

end Moment.Locality

namespace Moment.Locality
open Moment.Symbols Moment.SymbolMatrix

/-- The element of an algebra that a word with its sign stands for. -/
noncomputable def op {A : Type} [Ring A] [Algebra ℂ A] (s : Scenario) (f : Op → A) (w : HSeq) : A :=
  if w.hash = 0 then 0 else Rewrite.phase w.sign • product s f w.ops

theorem moment_op {A : Type} [Ring A] [Algebra ℂ A] (s : Scenario) (f : Op → A) (φ : A →ₗ[ℂ] ℂ) (w : HSeq) : moment s f φ w = φ (op s f w) := by
  unfold moment op
  split <;> simp

theorem op_conj {A : Type} [Ring A] [Algebra ℂ A] [StarRing A] [StarModule ℂ A] {s : Scenario} {L : Nat} (h : Room s L) {f : Op → A}
    (hf : Represents f) (hs : ∀ a, star (f a) = f a) {w : HSeq} (hw : IsSeq s L w) : op s f ((env s).conj w) = star (op s f w) := by
  rcases hw with ⟨h1, -⟩ | ⟨h1, h2, h3⟩
  · rw [conj_zero h1]; simp [op, h1, HSeq.zero]
  · obtain ⟨v, g1, g2, g3, -⟩ := h2.reverse
    rw [conj_word h h1 h2 h3 g1]
    have h0 : w.hash ≠ 0 := h1 ▸ h.ne h2.lt h3
    unfold op
    simp only [h0, h.ne g2.lt (g3.trans h3), if_false]
    rw [star_smul, product_reverse hs, product_simplify hf g1, ← phase_conj]
    rfl

theorem simplify_length {s : Scenario} {w v : List Nat} (h : simplify s w = .word v) : v.length ≤ w.length := by
  have hr : ∀ n ∈ w, n < operatorCount s := by
    by_contra hc
    rw [simplify_range.mpr (by simpa using hc)] at h
    simp at h
  obtain ⟨u, hu, rfl⟩ := word_surj hr
  rw [simplify_enc hu] at h
  cases hn : nf u with
  | none => rw [hn] at h; simp at h
  | some x =>
    rw [hn] at h
    rw [← Outcome.word.inj h]
    simpa using nf_length hn

/-- Products of words. -/
theorem mul_spec {s : Scenario} {K L N : Nat} (h : Room s N) (hN : K + L ≤ N) {a b : HSeq} (ha : IsSeq s K a) (hb : IsSeq s L b) :
    IsSeq s (K + L) ((host s).mul a b) ∧ ((host s).mul a b = HSeq.zero ∨ ((host s).mul a b).sign = a.sign.mul b.sign) ∧
    ∀ (A : Type) [Ring A] [Algebra ℂ A] (f : Op → A), Represents f → op s f ((host s).mul a b) = op s f a * op s f b := by
  rcases ha with ⟨h1, -⟩ | ⟨h1, h2, h3⟩
  · have e : (host s).mul a b = HSeq.zero := by simp [host, HSeq.multiply, HSeq.isZero, h1]
    rw [e]
    exact ⟨Or.inl ⟨rfl, rfl⟩, Or.inl rfl, fun A _ _ f hf => by simp [op, h1, HSeq.zero]⟩
  rcases hb with ⟨g1, -⟩ | ⟨g1, g2, g3⟩
  · have e : (host s).mul a b = HSeq.zero := by simp [host, HSeq.multiply, HSeq.isZero, g1]
    rw [e]
    exact ⟨Or.inl ⟨rfl, rfl⟩, Or.inl rfl, fun A _ _ f hf => by simp [op, g1, HSeq.zero]⟩
  have ha0 : a.hash ≠ 0 := h1 ▸ h.ne h2.lt (by omega)
  have hb0 : b.hash ≠ 0 := g1 ▸ h.ne g2.lt (by omega)
  have hr : C02.IsWord (operatorCount s) (a.ops ++ b.ops) := fun o ho => (List.mem_append.mp ho).elim (h2.lt o) (g2.lt o)
  have hp : ∀ (A : Type) [Ring A] [Algebra ℂ A] (f : Op → A), product s f (a.ops ++ b.ops) = product s f a.ops * product s f b.ops := by
    intro A _ _ f; simp [product]
  have e0 : (host s).mul a b = HSeq.construct (ctx s) (decide (16 < a.ops.length + b.ops.length)) (a.ops ++ b.ops) (a.sign.mul b.sign) := by
    simp [host, HSeq.multiply, HSeq.isZero, ha0, hb0]
  cases hs : simplify s (a.ops ++ b.ops) with
  | rangeError =>
    obtain ⟨n, hn, hn'⟩ := simplify_range.mp hs
    have := hr n hn
    omega
  | zero =>
    rw [e0, construct_zero _ _ hs]
    refine ⟨Or.inl ⟨rfl, rfl⟩, Or.inl rfl, fun A _ _ f hf => ?_⟩
    have := product_zero hf hs
    rw [hp] at this
    simp [op, ha0, hb0, HSeq.zero, smul_mul_smul_comm, this]
  | word v =>
    have hl := simplify_length hs
    rw [List.length_append] at hl
    have hn : Normal s v := C10.C10_idempotent s _ _ hs
    rw [e0, construct_word h _ _ hr (by rw [List.length_append]; omega) hs]
    refine ⟨Or.inr ⟨rfl, hn, by dsimp only; omega⟩, Or.inr rfl, fun A _ _ f hf => ?_⟩
    have h0 := h.ne hn.lt (by omega : v.length ≤ N)
    have := product_simplify hf hs
    rw [hp] at this
    simp only [op, ha0, hb0, h0, if_false]
    rw [← this, phase_mul, smul_mul_smul_comm]

theorem sequence_normal {s : Scenario} {L : Nat} (h : Room s L) {w : List Nat} (hw : Normal s w) (hl : w.length ≤ L) :
    sequence s w = ⟨hashWord (UInt64.ofNat (operatorCount s)) w, w, .pos⟩ := construct_word h _ _ hw.lt hl hw

theorem op_sequence {s : Scenario} {L : Nat} (h : Room s L) {w : List Nat} (hw : Normal s w) (hl : w.length ≤ L) {A : Type} [Ring A] [Algebra ℂ A]
    (f : Op → A) : op s f (sequence s w) = product s f w := by
  rw [sequence_normal h hw hl]
  simp [op, h.ne hw.lt hl, Rewrite.phase]

theorem IsSeq.mono {s : Scenario} {K L : Nat} (hKL : K ≤ L) {w : HSeq} (h : IsSeq s K w) : IsSeq s L w := by
  rcases h with h | ⟨h1, h2, h3⟩
  · exact Or.inl h
  · exact Or.inr ⟨h1, h2, h3.trans hKL⟩

theorem Room.mono {s : Scenario} {K L : Nat} (hKL : K ≤ L) (h : Room s L) : Room s K :=
  ⟨h.radix, lt_of_le_of_lt (Finset.sum_le_sum_of_subset (by simpa using hKL)) h.words⟩

end Moment.Locality
