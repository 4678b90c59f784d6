import Verif.Proof.LocalityContext
import Verif.Props.C82_MomentMatrix

/-! # C98: moment matrices of locality scenarios

The matrices of the hierarchy of Navascués, Pironio and Acín, from end to end: word lists (C11), simplification (C10), hashes (C02), symbol table (C27) and
matrices (C70, C82) together. -/

namespace Moment.C98
open Moment.Symbols (Table)
open Moment.SymbolMatrix Moment.OperatorMatrix Moment.Locality
open scoped ComplexOrder Matrix

theorem same_append {x y : Option (List Op)} (h : SameOperator x y) (l r : List Op) :
    SameOperator (x.map fun w => l ++ w ++ r) (y.map fun w => l ++ w ++ r) := by
  induction h with
  | refl => exact .refl _
  | symm _ ih => exact ih.symm
  | trans _ _ ih1 ih2 => exact ih1.trans ih2
  | commute u v a b hp => simpa using SameOperator.commute (l ++ u) (v ++ r) a b hp
  | project u v a => simpa using SameOperator.project (l ++ u) (v ++ r) a
  | exclude u v a b h1 h2 h3 => simpa using SameOperator.exclude (l ++ u) (v ++ r) a b h1 h2 h3

/-- The sequence that a word of operators is stored as. -/
def stored (s : Scenario) (u : List Op) : HSeq :=
  match nf u with
  | none => HSeq.zero
  | some v => ⟨hashWord (UInt64.ofNat (operatorCount s)) (v.map (Locality.enc s)), v.map (Locality.enc s), .pos⟩

theorem stored_same {s : Scenario} {u v : List Op} (h : SameOperator (some u) (some v)) : stored s u = stored s v := by
  unfold stored
  rw [(nf_iff u v).mpr h]

/-- The operators of a word belong to the scenario, and the word is not too long. -/
def Word (s : Scenario) (L : Nat) (u : List Op) : Prop := (∀ a ∈ u, Exists s a) ∧ u.length ≤ L

theorem stored_seq {s : Scenario} {L : Nat} {u : List Op} (hu : Word s L u) : IsSeq s L (stored s u) := by
  unfold stored
  cases hn : nf u with
  | none => exact Or.inl ⟨rfl, rfl⟩
  | some v => exact Or.inr ⟨rfl, normal_iff.mpr ⟨v, fun a ha => hu.1 a (nf_mem hn a ha), rfl, nf_idem hn⟩, by simpa using (nf_length hn).trans hu.2⟩

theorem stored_sign (s : Scenario) (u : List Op) : (stored s u).sign = .pos := by
  unfold stored; split <;> rfl

theorem construct_stored {s : Scenario} {L : Nat} (h : Room s L) {u : List Op} (hu : Word s L u) (heap : Bool) :
    HSeq.construct (ctx s) heap (u.map (Locality.enc s)) .pos = stored s u := by
  have hs := simplify_enc hu.1
  unfold stored
  cases hn : nf u with
  | none =>
    rw [hn] at hs
    exact construct_zero _ _ hs
  | some v =>
    rw [hn] at hs
    refine construct_word h _ _ ?_ (by simpa using hu.2) hs
    intro o ho
    obtain ⟨a, ha, rfl⟩ := List.mem_map.mp ho
    exact enc_lt (hu.1 a ha)

theorem conj_stored {s : Scenario} {L : Nat} (h : Room s L) {u : List Op} (hu : Word s L u) : (env s).conj (stored s u) = stored s u.reverse := by
  cases hn : nf u with
  | none =>
    have h1 : stored s u = HSeq.zero := by unfold stored; rw [hn]
    have h2 : SameOperator (some u) none := (nf_zero_iff u).mp hn
    have h3 := h2.reverse
    simp only [Option.map_some, Option.map_none] at h3
    rw [h1, conj_zero rfl]
    unfold stored
    rw [(nf_zero_iff _).mpr h3]
  | some v =>
    have h1 : stored s u = ⟨hashWord (UInt64.ofNat (operatorCount s)) (v.map (Locality.enc s)), v.map (Locality.enc s), .pos⟩ := by unfold stored; rw [hn]
    have hv : Word s L v := ⟨fun a ha => hu.1 a (nf_mem hn a ha), (nf_length hn).trans hu.2⟩
    have hN : Normal s (v.map (Locality.enc s)) := normal_iff.mpr ⟨v, hv.1, rfl, nf_idem hn⟩
    have h0 := h.ne hN.lt (by simpa using hv.2)
    have hs : SameOperator (some u) (some v) := hn ▸ nf_sound u
    have hs' := hs.reverse
    simp only [Option.map_some] at hs'
    rw [h1, stored_same hs', ← construct_stored h ⟨fun a ha => hv.1 a (List.mem_reverse.mp ha), by simpa using hv.2⟩ (onHeap (stored s u)), h1]
    simp only [env, HSeq.conjugate, HSeq.isZero, beq_iff_eq, h0, if_false]
    rw [← List.map_reverse]
    rfl

theorem mul_stored {s : Scenario} {N : Nat} (h : Room s N) {u v : List Op} (hw : Word s N (u ++ v)) :
    (host s).mul (stored s u) (stored s v) = stored s (u ++ v) := by
  have hlen : u.length + v.length ≤ N := by simpa using hw.2
  have hu : Word s u.length u := ⟨fun a ha => hw.1 a (List.mem_append_left _ ha), Nat.le_refl _⟩
  have hv : Word s v.length v := ⟨fun a ha => hw.1 a (List.mem_append_right _ ha), Nat.le_refl _⟩
  have zero : ∀ x y : List Op, nf (x ++ y) = none → stored s (x ++ y) = HSeq.zero := fun x y e => by unfold stored; rw [e]
  cases hn : nf u with
  | none =>
    have h1 : stored s u = HSeq.zero := by unfold stored; rw [hn]
    have h2 := same_append ((nf_zero_iff u).mp hn) [] v
    simp only [Option.map_some, List.nil_append, Option.map_none] at h2
    rw [h1, zero u v ((nf_zero_iff _).mpr h2)]
    rfl
  | some u' =>
    cases hm : nf v with
    | none =>
      have h1 : stored s v = HSeq.zero := by unfold stored; rw [hm]
      have h2 := same_append ((nf_zero_iff v).mp hm) u []
      simp only [Option.map_some, List.append_nil, Option.map_none] at h2
      rw [h1, zero u v ((nf_zero_iff _).mpr h2)]
      simp [host, HSeq.multiply, HSeq.isZero, HSeq.zero]
    | some v' =>
      have e1 : stored s u = ⟨hashWord (UInt64.ofNat (operatorCount s)) (u'.map (Locality.enc s)), u'.map (Locality.enc s), .pos⟩ := by unfold stored; rw [hn]
      have e2 : stored s v = ⟨hashWord (UInt64.ofNat (operatorCount s)) (v'.map (Locality.enc s)), v'.map (Locality.enc s), .pos⟩ := by unfold stored; rw [hm]
      have x1 : ∀ a ∈ u', Exists s a := fun a ha => hu.1 a (nf_mem hn a ha)
      have x2 : ∀ a ∈ v', Exists s a := fun a ha => hv.1 a (nf_mem hm a ha)
      have l1 := nf_length hn
      have l2 := nf_length hm
      have N1 : Normal s (u'.map (Locality.enc s)) := normal_iff.mpr ⟨u', x1, rfl, nf_idem hn⟩
      have N2 : Normal s (v'.map (Locality.enc s)) := normal_iff.mpr ⟨v', x2, rfl, nf_idem hm⟩
      have z1 := h.ne N1.lt (by rw [List.length_map]; omega)
      have z2 := h.ne N2.lt (by rw [List.length_map]; omega)
      have same : SameOperator (some (u ++ v)) (some (u' ++ v')) := by
        have s1 : SameOperator (some u) (some u') := hn ▸ nf_sound u
        have s2 : SameOperator (some v) (some v') := hm ▸ nf_sound v
        have a1 := same_append s1 [] v
        have a2 := same_append s2 u' []
        simp only [Option.map_some, List.nil_append, List.append_nil] at a1 a2
        exact a1.trans a2
      rw [stored_same same, e1, e2]
      simp only [host, HSeq.multiply, HSeq.isZero, beq_iff_eq, z1, z2, Bool.or_eq_true, or_self, if_false]
      rw [← List.map_append]
      refine construct_stored h ⟨fun a ha => (List.mem_append.mp ha).elim (x1 a) (x2 a), by rw [List.length_append]; omega⟩ _

theorem op_stored {s : Scenario} {L : Nat} (h : Room s L) {u : List Op} (hu : Word s L u) {A : Type} [Ring A] [Algebra ℂ A] {f : Op → A}
    (hf : Represents f) : op s f (stored s u) = (u.map f).prod := by
  unfold stored
  cases hn : nf u with
  | none =>
    have := C10.C10_value f hf ((nf_zero_iff u).mp hn)
    simp [op, HSeq.zero, this]
  | some v =>
    have hv : ∀ a ∈ v, Exists s a := fun a ha => hu.1 a (nf_mem hn a ha)
    have hN : Normal s (v.map (Locality.enc s)) := normal_iff.mpr ⟨v, hv, rfl, nf_idem hn⟩
    have hs : SameOperator (some u) (some v) := hn ▸ nf_sound u
    have := C10.C10_value f hf hs
    have hl : (v.map (Locality.enc s)).length ≤ L := by simpa using (nf_length hn).trans hu.2
    simp only [op, h.ne hN.lt hl, if_false]
    rw [product_enc f hv]
    simpa [Rewrite.phase] using this.symm

/-- The functor of moment matrices, with the empty word in the middle, or that of localizing matrices. -/
def Middle (s : Scenario) (m : List Op) (f : HSeq → HSeq → HSeq) : Prop :=
  (f = momentFn (host s) ∧ m = []) ∨ f = localizingFn (host s) (stored s m)

/-- The words of the matrix. -/
theorem used_words {s : Scenario} {L : Nat} (h : Room s L) {m : List Op} (hm : ∀ a ∈ m, Exists s a) {f : HSeq → HSeq → HSeq} (hf : Middle s m f)
    {us : List (List Op)} (hw : ∀ u ∈ us, (∀ a ∈ u, Exists s a) ∧ 2 * u.length + m.length ≤ L) :
    (∀ a ∈ us, ∀ b ∈ us, Word s L (a.reverse ++ (m ++ b))) ∧
    (∀ a ∈ us, ∀ b ∈ us, f ((host s).env.conj (stored s a)) (stored s b) = stored s (a.reverse ++ (m ++ b))) ∧
    (∀ w ∈ (C82.used (host s) f (us.map (stored s))).data, ∃ a ∈ us, ∃ b ∈ us, w = stored s (a.reverse ++ (m ++ b))) ∧
    Usable (host s) (IsSeq s L) (C82.used (host s) f (us.map (stored s))) := by
  have good : ∀ a ∈ us, ∀ b ∈ us, Word s L (a.reverse ++ (m ++ b)) := by
    intro a ha b hb
    have := (hw a ha).2
    have := (hw b hb).2
    refine ⟨fun x hx => ?_, by simp only [List.length_append, List.length_reverse]; omega⟩
    rcases List.mem_append.mp hx with hx | hx
    · exact (hw a ha).1 x (List.mem_reverse.mp hx)
    · exact (List.mem_append.mp hx).elim (hm x) ((hw b hb).1 x)
  have app : ∀ a ∈ us, ∀ b ∈ us, f ((host s).env.conj (stored s a)) (stored s b) = stored s (a.reverse ++ (m ++ b)) := by
    intro a ha b hb
    have la := (hw a ha).2
    have lb := (hw b hb).2
    rw [show (host s).env.conj (stored s a) = _ from conj_stored h ⟨(hw a ha).1, by omega⟩]
    rcases hf with ⟨rfl, rfl⟩ | rfl
    · exact mul_stored h (good a ha b hb)
    · unfold localizingFn
      rw [mul_stored h (u := m) (v := b) ⟨fun x hx => (List.mem_append.mp hx).elim (hm x) ((hw b hb).1 x), by rw [List.length_append]; omega⟩]
      exact mul_stored h (good a ha b hb)
  have hused : C82.used (host s) f (us.map (stored s)) = single f (rowWords (host s) (us.map (stored s))) (us.map (stored s)) := rfl
  have mem : ∀ w ∈ (C82.used (host s) f (us.map (stored s))).data, ∃ a ∈ us, ∃ b ∈ us, w = stored s (a.reverse ++ (m ++ b)) := by
    intro w hx
    rw [hused] at hx
    simp only [single, rowWords, show (host s).canNonHerm = true from rfl, if_true, List.mem_flatMap, List.mem_map] at hx
    obtain ⟨_, ⟨b, hb, rfl⟩, _, ⟨_, ⟨a, ha, rfl⟩, rfl⟩, rfl⟩ := hx
    exact ⟨a, ha, b, hb, app a ha b hb⟩
  have hu : Usable (host s) (IsSeq s L) (C82.used (host s) f (us.map (stored s))) := by
    refine ⟨C82.single_square f _ _ (C82.rowWords_length _ _), fun w hx => ?_, fun _ w hx => ?_⟩
    · obtain ⟨a, ha, b, hb, rfl⟩ := mem w hx
      exact stored_seq (good a ha b hb)
    · obtain ⟨a, ha, b, hb, rfl⟩ := mem w hx
      intro _
      exact stored_sign _ _
  exact ⟨good, app, mem, hu⟩

/-- Every list of words, short enough for the hashes to be unique, gives a moment matrix, and a localizing matrix for each word `m`. The entries are
the moments of `uᵢ† m uⱼ` in every algebra whose operators are self-adjoint and meet the relations of the scenario, the matrix is flagged as Hermitian if the
relations make `m` equal to its reverse, and in every positive state the matrix is positive semidefinite. -/
theorem matrix_spec {s : Scenario} {L : Nat} (h : Room s L) {m : List Op} (hm : ∀ a ∈ m, Exists s a) {f : HSeq → HSeq → HSeq} (hf : Middle s m f)
    {us : List (List Op)} (hw : ∀ u ∈ us, (∀ a ∈ u, Exists s a) ∧ 2 * u.length + m.length ≤ L) {t : Table} (ht : Ready (host s) (IsSeq s L) t) :
    ∃ t' M, createMatrix (host s) t f (us.map (stored s)) = some (t', some M) ∧ M.sym.mat.dim = us.length ∧
      (SameOperator (some m.reverse) (some m) → M.sym.hermitian = true) ∧ (Grown (host s) (IsSeq s L) t → Grown (host s) (IsSeq s L) t') ∧
      (Extends t t' ∧ ∀ a ∈ us, ∀ b ∈ us, (t'.hashes.lookup (stored s (a.reverse ++ (m ++ b))).hash).isSome) ∧
      (∀ (F : HSeq → ℂ) v, Moments (env s) (IsSeq s L) F → Agrees t' F v → ∀ i j a b, us[i]? = some a → us[j]? = some b →
        valueAt v M.sym.mat i j = F (stored s (a.reverse ++ (m ++ b)))) ∧
      ∀ (A : Type) [Ring A] [Algebra ℂ A] [StarRing A] [StarModule ℂ A] (P : Op → A) (φ : A →ₗ[ℂ] ℂ) (v : Nat → ℂ), Represents P →
        (∀ a, star (P a) = P a) → (∀ a, φ (star a) = (starRingEnd ℂ) (φ a)) → Agrees t' (moment s P φ) v →
        (∀ i j a b, us[i]? = some a → us[j]? = some b →
          valueAt v M.sym.mat i j = φ (star (a.map P).prod * (m.map P).prod * (b.map P).prod)) ∧
        ((∀ a, 0 ≤ φ (star a * (m.map P).prod * a)) → (Matrix.of fun i j : Fin us.length => valueAt v M.sym.mat i j).PosSemidef) := by
  have hS := setting s L h
  have hsa : C82.SelfAdjoint (host s) (us.map (stored s)) := fun h => by simp [host] at h
  obtain ⟨good, app, mem, hu⟩ := used_words h hm hf hw
  obtain ⟨t', M, h1, h2, -, h3⟩ := C82.C82_value_partial hS ht f hsa hu
  have all : ∀ (F : HSeq → ℂ) v, Moments (env s) (IsSeq s L) F → Agrees t' F v → ∀ i j a b, us[i]? = some a → us[j]? = some b →
      valueAt v M.sym.mat i j = F (stored s (a.reverse ++ (m ++ b))) := by
    intro F v hF hv i j a b hi hj
    rw [h3 F v hF (fun h => by simp [host, env] at h) hv i j (stored s a) (stored s b) (by simp [hi]) (by simp [hj]),
      app a (List.mem_of_getElem? hi) b (List.mem_of_getElem? hj)]
  have hext := create_extends hS (ht.fit hS) hu h1
  have known : ∀ a ∈ us, ∀ b ∈ us, (t'.hashes.lookup (stored s (a.reverse ++ (m ++ b))).hash).isSome := by
    intro a ha b hb
    obtain ⟨i, hi⟩ := List.mem_iff_getElem?.mp ha
    obtain ⟨j, hj⟩ := List.mem_iff_getElem?.mp hb
    have hd : (C82.used (host s) f (us.map (stored s))).dim = us.length := by rw [C82.used_dim, List.length_map]
    have : (t'.hashes.lookup (word (C82.used (host s) f (us.map (stored s))) i j).hash).isSome :=
      hext.2 i j ((List.getElem?_eq_some_iff.mp hi).1.trans_eq hd.symm) ((List.getElem?_eq_some_iff.mp hj).1.trans_eq hd.symm)
    rw [C82.used_word (host s) f (us.map (stored s)) (a := (host s).env.conj (stored s a)) (b := stored s b) (C82.rowWords_get hsa (a := stored s a) (by simp [hi])) (by simp [hj])] at this
    rwa [show (host s).env.aliases = false from rfl, if_neg (by simp), app a ha b hb] at this
  refine ⟨t', M, h1, by simpa using h2, fun hpal => ?_, fun hg => .matrix hg hu h1, ⟨hext.1, known⟩, all, ?_⟩
  · refine C82.C82_flag hS ht f hsa hu ?_ (fun h => by simp [host, env] at h) h1
    rintro _ ha _ hb
    rw [List.mem_map] at ha hb
    obtain ⟨a, ha, rfl⟩ := ha
    obtain ⟨b, hb, rfl⟩ := hb
    rw [app a ha b hb, app b hb a ha, show (host s).env.conj (stored s (a.reverse ++ (m ++ b))) = _ from conj_stored h (good a ha b hb)]
    apply stored_same
    have := same_append hpal b.reverse a
    simpa using this
  · intro A _ _ _ _ P φ v hP hs hφ hv
    have hLm := moments h hP hs hφ
    have hst : ∀ u : List Op, (u.reverse.map P).prod = star (u.map P).prod := by
      intro u
      induction u with
      | nil => simp
      | cons o u ih =>
        rw [List.reverse_cons, List.map_append, List.prod_append, ih]
        simp [hs]
    have vals : ∀ i j a b, us[i]? = some a → us[j]? = some b →
        valueAt v M.sym.mat i j = φ (star (a.map P).prod * (m.map P).prod * (b.map P).prod) := by
      intro i j a b hi hj
      have ma := List.mem_of_getElem? hi
      have mb := List.mem_of_getElem? hj
      rw [all _ v hLm hv i j a b hi hj, moment_op, op_stored h (good a ma b mb) hP]
      simp only [List.map_append, List.prod_append, hst, mul_assoc]
    refine ⟨vals, fun hpos => ?_⟩
    have e : (Matrix.of fun i j : Fin us.length => valueAt v M.sym.mat i j) =
        Matrix.of fun i j : Fin us.length => φ (star (us[i].map P).prod * (m.map P).prod * (us[j].map P).prod) := by
      ext i j
      rw [Matrix.of_apply, Matrix.of_apply]
      exact vals i j _ _ (List.getElem?_eq_getElem i.2) (List.getElem?_eq_getElem j.2)
    rw [e]
    exact C82.gram_posSemidef φ _ hpos _

/-! ## Values exist -/

/-- A functional on the words that tells all of them apart. -/
noncomputable def apart (s : Scenario) (w : HSeq) : ℂ :=
  if w.hash = 0 then 0 else Rewrite.phase w.sign *
    (((w.hash.toNat + ((env s).conj w).hash.toNat : ℝ) : ℂ) + ((w.hash.toNat - ((env s).conj w).hash.toNat : ℝ) : ℂ) * Complex.I)

theorem apart_moments {s : Scenario} {L : Nat} (h : Room s L) : Moments (env s) (IsSeq s L) (apart s) := by
  have hW := words s L h
  constructor
  · simp [apart, HSeq.zero]
  · intro w hw
    unfold apart
    have e := hW.hash { w with sign := .pos } w (hW.sign _ hw) hw rfl
    rw [e]
    simp [Rewrite.phase]
  · intro w v hw hv e1 e2
    unfold apart
    rw [e1, e2, hW.hash w v hw hv e1]
  · intro w hw
    have e := hW.twice w hw
    rcases hw with ⟨h1, -⟩ | ⟨h1, h2, h3⟩
    · rw [conj_zero h1]; simp [apart, HSeq.zero, h1]
    · obtain ⟨x, g1, g2, g3, -⟩ := h2.reverse
      have hc := conj_word h h1 h2 h3 g1
      have h0 : w.hash ≠ 0 := h1 ▸ h.ne h2.lt h3
      have h0' : ((env s).conj w).hash ≠ 0 := by rw [hc]; exact h.ne g2.lt (g3.trans h3)
      have hs : ((env s).conj w).sign = w.sign.conj := by rw [hc]
      unfold apart
      rw [if_neg h0, if_neg h0', e, hs, map_mul, phase_conj]
      congr 1
      simp only [map_add, map_mul, Complex.conj_ofReal, Complex.conj_I]
      push_cast
      ring

theorem apart_inj {s : Scenario} {L : Nat} (h : Room s L) {a b : HSeq} (ha : IsSeq s L a) (hb : IsSeq s L b) (sa : a.sign = .pos) (sb : b.sign = .pos)
    (e : apart s a = apart s b) : a.hash = b.hash := by
  have hW := words s L h
  have z : ∀ w, IsSeq s L w → w.hash = 0 → ((env s).conj w).hash = 0 := fun w _ h0 => by rw [conj_zero h0]; rfl
  have val : ∀ w, IsSeq s L w → w.sign = .pos → apart s w = (((w.hash.toNat + ((env s).conj w).hash.toNat : ℝ) : ℂ) +
      ((w.hash.toNat - ((env s).conj w).hash.toNat : ℝ) : ℂ) * Complex.I) := by
    intro w hw hs
    unfold apart
    split
    · rename_i h0
      rw [z w hw h0, h0]
      simp
    · rw [hs]
      simp [Rewrite.phase]
  rw [val a ha sa, val b hb sb] at e
  have h1 := congrArg Complex.re e
  have h2 := congrArg Complex.im e
  simp only [Complex.add_re, Complex.ofReal_re, Complex.mul_re, Complex.I_re, Complex.I_im, Complex.ofReal_im, Complex.add_im, Complex.mul_im, mul_zero,
    zero_mul, sub_zero, add_zero, mul_one, zero_add] at h1 h2
  have h3 : (a.hash.toNat : ℝ) = b.hash.toNat := by linarith
  exact UInt64.toNat.inj (by exact_mod_cast h3)

theorem stored_inj {s : Scenario} {L : Nat} (h : Room s L) {u v : List Op} (hu : Word s L u) (hv : Word s L v)
    (e : (stored s u).hash = (stored s v).hash) : SameOperator (some u) (some v) := by
  have zero : ∀ {x y : List Op}, Word s L y → nf x = none → (stored s x).hash = (stored s y).hash → nf y = none := by
    intro x y hy hx e
    cases hn : nf y with
    | none => rfl
    | some y' =>
      have h1 : (stored s x).hash = 0 := by unfold stored; rw [hx]; rfl
      rw [h1] at e
      unfold stored at e
      rw [hn] at e
      have hN : Normal s (y'.map (Locality.enc s)) := normal_iff.mpr ⟨y', fun a ha => hy.1 a (nf_mem hn a ha), rfl, nf_idem hn⟩
      exact absurd e.symm (h.ne hN.lt (by simpa using (nf_length hn).trans hy.2))
  rw [← nf_iff]
  cases hn : nf u with
  | none => exact (zero hv hn e).symm
  | some u' =>
    cases hm : nf v with
    | none => rw [zero hu hm e.symm] at hn; cases hn
    | some v' =>
      unfold stored at e
      rw [hn, hm] at e
      have x1 : ∀ a ∈ u', Exists s a := fun a ha => hu.1 a (nf_mem hn a ha)
      have x2 : ∀ a ∈ v', Exists s a := fun a ha => hv.1 a (nf_mem hm a ha)
      have N1 : Normal s (u'.map (Locality.enc s)) := normal_iff.mpr ⟨u', x1, rfl, nf_idem hn⟩
      have N2 : Normal s (v'.map (Locality.enc s)) := normal_iff.mpr ⟨v', x2, rfl, nf_idem hm⟩
      have := h.inj N1.lt N2.lt (by simpa using (nf_length hn).trans hu.2) (by simpa using (nf_length hm).trans hv.2) e
      rw [map_enc_inj x1 x2 this]

/-- Symbols have values in every functional: the premise on values in the other theorems can always be met. -/
theorem C98_values {s : Scenario} {L : Nat} (h : Room s L) {t : Table} (ht : Grown (host s) (IsSeq s L) t) {A : Type} [Ring A] [Algebra ℂ A] [StarRing A]
    [StarModule ℂ A] {P : Op → A} {φ : A →ₗ[ℂ] ℂ} (hP : Represents P) (hs : ∀ a, star (P a) = P a) (hφ : ∀ a, φ (star a) = (starRingEnd ℂ) (φ a)) :
    ∃ v, Agrees t (moment s P φ) v := by
  refine ht.values (setting s L h) (moments h hP hs hφ) (fun h => by simp [host] at h) ?_
  have := hφ 1
  rw [star_one] at this
  have e : moment s P φ (HSeq.identity .pos) = φ 1 := by simp [moment, Locality.product, HSeq.identity, Rewrite.phase]
  rw [e, ← this]

/-- **C98.** A symbol lacks a real basis element just if it is flagged as anti-Hermitian, and an imaginary one just if it is flagged as Hermitian; the parts that
are lacking vanish in all values. -/
theorem C98_basis {s : Scenario} {L : Nat} {t : Table} (ht : Grown (host s) (IsSeq s L) t) :
    (∀ q ∈ t.syms, (q.re = none ↔ q.anti = true) ∧ (q.im = none ↔ q.herm = true)) ∧
    ∀ (F : HSeq → ℂ) v, Agrees t F v → ∀ id q, t.syms[id]? = some q → (q.re = none → (v id).re = 0) ∧ (q.im = none → (v id).im = 0) :=
  ⟨ht.parts fun _ => rfl, fun _ _ hv _ _ hq => ht.missing (fun _ => rfl) hv hq⟩

/-- **C98.** Every list of words, short enough for the hashes to be unique, gives a moment matrix, and a localizing matrix for each word `m`. The entries are
the moments of `uᵢ† m uⱼ` in every algebra whose operators are self-adjoint and meet the relations of the scenario, the matrix is flagged as Hermitian if the
relations make `m` equal to its reverse, and in every positive state the matrix is positive semidefinite. Entries that stand for different operators
are different. Existing symbols stay as they are, and the words of all entries have symbols afterwards. -/
theorem C98_matrix {s : Scenario} {L : Nat} (h : Room s L) {m : List Op} (hm : ∀ a ∈ m, Exists s a) {f : HSeq → HSeq → HSeq} (hf : Middle s m f)
    {us : List (List Op)} (hw : ∀ u ∈ us, (∀ a ∈ u, Exists s a) ∧ 2 * u.length + m.length ≤ L) {t : Table} (ht : Grown (host s) (IsSeq s L) t) :
    ∃ t' M, createMatrix (host s) t f (us.map (stored s)) = some (t', some M) ∧ Grown (host s) (IsSeq s L) t' ∧
      (Extends t t' ∧ ∀ a ∈ us, ∀ b ∈ us, (t'.hashes.lookup (stored s (a.reverse ++ (m ++ b))).hash).isSome) ∧ M.sym.mat.dim = us.length ∧
      (SameOperator (some m.reverse) (some m) → M.sym.hermitian = true) ∧
      (∀ i j k l a b c d, us[i]? = some a → us[j]? = some b → us[k]? = some c → us[l]? = some d → M.sym.mat.get? i j = M.sym.mat.get? k l →
        SameOperator (some (a.reverse ++ m ++ b)) (some (c.reverse ++ m ++ d))) ∧
      ∀ (A : Type) [Ring A] [Algebra ℂ A] [StarRing A] [StarModule ℂ A] (P : Op → A) (φ : A →ₗ[ℂ] ℂ) (v : Nat → ℂ), Represents P →
        (∀ a, star (P a) = P a) → (∀ a, φ (star a) = (starRingEnd ℂ) (φ a)) → Agrees t' (moment s P φ) v →
        (∀ i j a b, us[i]? = some a → us[j]? = some b →
          valueAt v M.sym.mat i j = φ (star (a.map P).prod * (m.map P).prod * (b.map P).prod)) ∧
        ((∀ a, 0 ≤ φ (star a * (m.map P).prod * a)) → (Matrix.of fun i j : Fin us.length => valueAt v M.sym.mat i j).PosSemidef) := by
  obtain ⟨t', M, h1, h2, h3, h4, hx, h5, h6⟩ := matrix_spec h hm hf hw ht.ready
  refine ⟨t', M, h1, h4 ht, hx, h2, h3, ?_, h6⟩
  intro i j k l a b c d hi hj hk hl e
  obtain ⟨v, hv⟩ := (h4 ht).values (setting s L h) (apart_moments h) (fun h => by simp [host] at h) (by
    rw [← (apart_moments h).conj _ (words s L h).one.1]
    exact (apart_moments h).hash _ _ (words s L h).one.1 ((words s L h).conj _ (words s L h).one.1) (words s L h).one.2.symm (by
      rw [conj_word h (w := HSeq.identity .pos) rfl rfl (Nat.zero_le _) (v := []) rfl]; rfl))
  have hv1 := h5 _ v (apart_moments h) hv i j a b hi hj
  have hv2 := h5 _ v (apart_moments h) hv k l c d hk hl
  have good : ∀ a ∈ us, ∀ b ∈ us, Word s L (a.reverse ++ (m ++ b)) := by
    intro a ha b hb
    have := (hw a ha).2
    have := (hw b hb).2
    refine ⟨fun x hx => ?_, by simp only [List.length_append, List.length_reverse]; omega⟩
    rcases List.mem_append.mp hx with hx | hx
    · exact (hw a ha).1 x (List.mem_reverse.mp hx)
    · exact (List.mem_append.mp hx).elim (hm x) ((hw b hb).1 x)
  have g1 := good a (List.mem_of_getElem? hi) b (List.mem_of_getElem? hj)
  have g2 := good c (List.mem_of_getElem? hk) d (List.mem_of_getElem? hl)
  have he : apart s (stored s (a.reverse ++ (m ++ b))) = apart s (stored s (c.reverse ++ (m ++ d))) := by
    rw [← hv1, ← hv2]
    unfold valueAt
    rw [e]
  have := stored_inj h g1 g2 (apart_inj h (stored_seq g1) (stored_seq g2) (stored_sign _ _) (stored_sign _ _) he)
  simpa using this

/-- **C98, levels of the hierarchy.** The matrix of level `n`: rows and columns are the words that `LocalityOperatorSequenceGenerator` lists. Afterwards all
non-zero words of up to `2 * n` operators have symbols. -/
theorem C98_level (s : Scenario) (n : Nat) (h : Room s (2 * n)) {t : Table} (ht : Grown (host s) (IsSeq s (2 * n)) t) :
    ∃ t' M, createMatrix (host s) t (momentFn (host s)) ((generate s n).map (sequence s)) = some (t', some M) ∧ Grown (host s) (IsSeq s (2 * n)) t' ∧
      (Extends t t' ∧ ∀ u, (∀ a ∈ u, Exists s a) → u.length ≤ 2 * n → ¬ SameOperator (some u) none → (t'.hashes.lookup (stored s u).hash).isSome) ∧
      M.sym.mat.dim = (generate s n).length ∧ M.sym.hermitian = true ∧
      (∀ i j k l x y z w a b c d, (generate s n)[i]? = some x → (generate s n)[j]? = some y → (generate s n)[k]? = some z → (generate s n)[l]? = some w →
        C10.Names s a x → C10.Names s b y → C10.Names s c z → C10.Names s d w → M.sym.mat.get? i j = M.sym.mat.get? k l →
        SameOperator (some (a.reverse ++ b)) (some (c.reverse ++ d))) ∧
      ∀ (A : Type) [Ring A] [Algebra ℂ A] [StarRing A] [StarModule ℂ A] (P : Op → A) (φ : A →ₗ[ℂ] ℂ) (v : Nat → ℂ), Represents P →
        (∀ a, star (P a) = P a) → (∀ a, φ (star a) = (starRingEnd ℂ) (φ a)) → Agrees t' (moment s P φ) v →
        (∀ i j x y a b, (generate s n)[i]? = some x → (generate s n)[j]? = some y → C10.Names s a x → C10.Names s b y →
          valueAt v M.sym.mat i j = φ (star (a.map P).prod * (b.map P).prod)) ∧
        ((∀ a, 0 ≤ φ (star a * a)) → (Matrix.of fun i j : Fin (generate s n).length => valueAt v M.sym.mat i j).PosSemidef) := by
  have hgen := (C10.C11_complete s n).2
  have hnorm : ∀ w ∈ generate s n, ∃ u, (∀ a ∈ u, Exists s a) ∧ w = u.map (Locality.enc s) ∧ nf u = some u := fun w hw => normal_iff.mp ((hgen w).mp hw).2
  let back : List Nat → List Op := fun w => w.map (opOf s)
  have hback : ∀ u : List Op, (∀ a ∈ u, Exists s a) → back (u.map (Locality.enc s)) = u := by
    intro u hu
    show (u.map (Locality.enc s)).map (opOf s) = u
    rw [List.map_map]
    conv_rhs => rw [← List.map_id u]
    exact List.map_congr_left fun a ha => opOf_enc (hu a ha)
  have hlist : (generate s n).map (sequence s) = ((generate s n).map back).map (stored s) := by
    rw [List.map_map]
    apply List.map_congr_left
    intro w hw
    obtain ⟨u, hu, rfl, hn⟩ := hnorm w hw
    have hl : u.length ≤ n := by simpa using ((hgen _).mp hw).1
    rw [Function.comp, hback u hu, sequence_normal h ((hgen _).mp hw).2 (by rw [List.length_map]; omega)]
    unfold stored
    rw [hn]
  have hwords : ∀ u ∈ (generate s n).map back, (∀ a ∈ u, Exists s a) ∧ 2 * u.length + ([] : List Op).length ≤ 2 * n := by
    intro u hu
    obtain ⟨w, hw, rfl⟩ := List.mem_map.mp hu
    obtain ⟨u, hx, rfl, hn⟩ := hnorm w hw
    have hl : u.length ≤ n := by simpa using ((hgen _).mp hw).1
    rw [hback u hx]
    exact ⟨hx, by simpa using hl⟩
  have hat : ∀ (i : Nat) x a, (generate s n)[i]? = some x → C10.Names s a x → ((generate s n).map back)[i]? = some a := by
    intro i x a hi ha
    obtain ⟨h1, rfl⟩ := C10.names_iff.mp ha
    rw [List.getElem?_map, hi, Option.map_some, hback a h1]
  obtain ⟨t', M, h1, h2, hk, h3, h4, h5, h6⟩ := C98_matrix h (m := []) (by simp) (.inl ⟨rfl, rfl⟩) hwords ht
  rw [hlist]
  refine ⟨t', M, h1, h2, ⟨hk.1, ?_⟩, by simpa using h3, h4 (.refl _), ?_, ?_⟩
  · intro u hu hlen hz
    have split : u = (u.take n) ++ u.drop n := (List.take_append_drop n u).symm
    have listed : ∀ x y : List Op, (∀ a ∈ x, Exists s a) → x.length ≤ n → nf x = some y → y ∈ (generate s n).map back := by
      intro x y hx hl hn
      have hy : ∀ a ∈ y, Exists s a := fun a ha => hx a (nf_mem hn a ha)
      refine List.mem_map.mpr ⟨y.map (Locality.enc s), (hgen _).mpr ⟨by simpa using (nf_length hn).trans hl, normal_iff.mpr ⟨y, hy, rfl, nf_idem hn⟩⟩, hback y hy⟩
    cases ha : nf (u.take n).reverse with
    | none =>
      have := same_append ((nf_zero_iff _).mp ha).reverse [] (u.drop n)
      simp only [Option.map_some, List.reverse_reverse, Option.map_none, List.nil_append, List.take_append_drop] at this
      exact absurd this hz
    | some a =>
      cases hb : nf (u.drop n) with
      | none =>
        have := same_append ((nf_zero_iff _).mp hb) (u.take n) []
        simp only [Option.map_some, Option.map_none, List.append_nil, List.take_append_drop] at this
        exact absurd this hz
      | some b =>
        have ma := listed _ a (fun x hx => hu x (List.mem_of_mem_take (List.mem_reverse.mp hx))) (by rw [List.length_reverse, List.length_take]; omega) ha
        have mb := listed _ b (fun x hx => hu x (List.mem_of_mem_drop hx)) (by rw [List.length_drop]; omega) hb
        have key := hk.2 a ma b mb
        have s1 : SameOperator (some (u.take n).reverse) (some a) := by rw [← ha]; exact nf_sound _
        have s2 : SameOperator (some (u.drop n)) (some b) := by rw [← hb]; exact nf_sound _
        have a1 := same_append s1.reverse [] (u.drop n)
        have a2 := same_append s2 a.reverse []
        simp only [Option.map_some, List.reverse_reverse, List.nil_append, List.append_nil, List.take_append_drop] at a1 a2
        rw [stored_same (a1.trans a2)]
        simpa using key
  · intro i j k l x y z w a b c d hi hj hk hl ha hb hc hd e
    simpa using h5 i j k l a b c d (hat i x a hi ha) (hat j y b hj hb) (hat k z c hk hc) (hat l w d hl hd) e
  · intro A _ _ _ _ P φ v hP hs hφ hv
    obtain ⟨k1, k2⟩ := h6 A P φ v hP hs hφ hv
    refine ⟨fun i j x y a b hi hj ha hb => by simpa using k1 i j a b (hat i x a hi ha) (hat j y b hj hb), fun hpos => ?_⟩
    have := k2 (fun a => by simpa using hpos a)
    have hlen : ((generate s n).map back).length = (generate s n).length := List.length_map _
    exact this.submatrix (Fin.cast hlen.symm)

/-! ## Two parties with two measurements of two outcomes each -/

def chsh : Scenario := [[2, 2], [2, 2]]

theorem chsh_room : Room chsh 6 := ⟨by decide, by decide⟩

/-- Levels 1 to 3 from new tables. -/
example (n : Nat) (hn : n ≤ 3) : ∃ t' M, createMatrix (host chsh) Table.new (momentFn (host chsh)) ((generate chsh n).map (sequence chsh)) = some (t', some M) ∧
    M.sym.hermitian = true := by
  obtain ⟨t', M, h1, -, -, -, h2, -⟩ := C98_level chsh n (chsh_room.mono (by omega)) .new
  exact ⟨t', M, h1, h2⟩

/-- A localizing matrix, and values: all operators 1, and the identity as functional on the complex numbers. -/
example : ∃ t' M v, createMatrix (host chsh) Table.new (localizingFn (host chsh) (stored chsh [⟨0, 0, 0⟩])) ([[], [⟨0, 1, 0⟩], [⟨1, 0, 0⟩, ⟨1, 1, 0⟩]].map (stored chsh)) =
      some (t', some M) ∧ M.sym.hermitian = true ∧ Agrees t' (moment chsh (fun a => if a.out = 0 then (1 : ℂ) else 0) LinearMap.id) v ∧
      valueAt v M.sym.mat 1 2 = 1 := by
  have hP : Represents fun a : Op => if a.out = 0 then (1 : ℂ) else 0 := by
    refine ⟨fun a b _ => mul_comm _ _, fun a => by split <;> simp, fun a b _ _ hne => ?_⟩
    by_cases h1 : a.out = 0
    · by_cases h2 : b.out = 0
      · exact absurd (h1.trans h2.symm) hne
      · simp [h2]
    · simp [h1]
  have hst : ∀ a : Op, star (if a.out = 0 then (1 : ℂ) else 0) = if a.out = 0 then (1 : ℂ) else 0 := fun a => by split <;> simp
  obtain ⟨t', M, h1, h2, -, -, h3, -, h4⟩ := C98_matrix chsh_room (m := [⟨0, 0, 0⟩]) (by simp [Locality.Exists, chsh]) (.inr rfl)
    (us := [[], [⟨0, 1, 0⟩], [⟨1, 0, 0⟩, ⟨1, 1, 0⟩]]) (by simp [Locality.Exists, chsh]) .new
  obtain ⟨v, hv⟩ := C98_values chsh_room h2 (φ := LinearMap.id) hP hst (fun a => rfl)
  refine ⟨t', M, v, h1, h3 (.refl _), hv, ?_⟩
  rw [(h4 ℂ _ LinearMap.id v hP hst (fun a => rfl) hv).1 1 2 [⟨0, 1, 0⟩] [⟨1, 0, 0⟩, ⟨1, 1, 0⟩] rfl rfl]
  simp

end Moment.C98
