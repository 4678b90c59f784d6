import Verif.Proof.InflationContext
import Verif.Proof.SymbolValues
import Verif.Props.C82_MomentMatrix

/-! # C114: moment matrices of inflation scenarios

From end to end: word lists (C51), simplification (C12), canonical moments (C14), hashes (C02), symbol table (C27) and matrices (C70, C82) together. -/

namespace Moment.C114
open Moment.Symbols (Table)
open Moment.SymbolMatrix Moment.OperatorMatrix Moment.Inflation
open Moment.C12 (ContextOf Names names_iff)
open scoped ComplexOrder Matrix

variable {n : Causal} {c : Inflation.Ctx} {L : Nat}

/-- The functor of moment matrices, with the empty word in the middle, or that of localizing matrices. -/
def Middle (n : Causal) (c : Inflation.Ctx) (m : List Op) (f : HSeq → HSeq → HSeq) : Prop :=
  (f = momentFn (host c) ∧ m = []) ∨ f = localizingFn (host c) (stored n c m)

theorem word_in {us : List (List Op)} {m : List Op} (hm : ∀ a ∈ m, Exists n c.infl a)
    (hw : ∀ u ∈ us, (∀ a ∈ u, Exists n c.infl a) ∧ 2 * u.length + m.length ≤ L) : ∀ a ∈ us, ∀ b ∈ us, Word n c L (a ++ (m ++ b)) := by
  intro a ha b hb
  have := (hw a ha).2
  have := (hw b hb).2
  refine ⟨fun x hx => ?_, by simp only [List.length_append]; omega⟩
  rcases List.mem_append.mp hx with hx | hx
  · exact (hw a ha).1 x hx
  · exact (List.mem_append.mp hx).elim (hm x) ((hw b hb).1 x)

theorem shown_seq (hb : Built n c) (h : Room c L) {u : List Op} (hu : Word n c L u) : IsSeq c L (shown c (stored n c u)) := by
  obtain ⟨σ, v, -, h2, -, h4, -⟩ := shown_stored hb h hu
  rw [h4]
  exact stored_seq hb h2

/-- The words of the matrix. -/
theorem used_words (hb : Built n c) (h : Room c L) {m : List Op} (hm : ∀ a ∈ m, Exists n c.infl a) {f : HSeq → HSeq → HSeq} (hf : Middle n c m f)
    {us : List (List Op)} (hw : ∀ u ∈ us, (∀ a ∈ u, Exists n c.infl a) ∧ 2 * u.length + m.length ≤ L) :
    C82.SelfAdjoint (host c) (us.map (stored n c)) ∧
    (∀ a ∈ us, ∀ b ∈ us, f ((host c).env.conj (stored n c a)) (stored n c b) = stored n c (a ++ (m ++ b))) ∧
    Usable (host c) (IsSeq c L) (C82.used (host c) f (us.map (stored n c))) := by
  have good := word_in hm hw
  have hsa : C82.SelfAdjoint (host c) (us.map (stored n c)) := by
    intro _ w hx
    obtain ⟨a, ha, rfl⟩ := List.mem_map.mp hx
    exact conj_stored hb h ⟨(hw a ha).1, by have := (hw a ha).2; omega⟩
  have app : ∀ a ∈ us, ∀ b ∈ us, f ((host c).env.conj (stored n c a)) (stored n c b) = stored n c (a ++ (m ++ b)) := by
    intro a ha b hb'
    have la := (hw a ha).2
    have lb := (hw b hb').2
    rw [hsa rfl _ (List.mem_map.mpr ⟨a, ha, rfl⟩)]
    rcases hf with ⟨rfl, rfl⟩ | rfl
    · exact mul_stored hb h (good a ha b hb')
    · unfold localizingFn
      rw [mul_stored hb h (u := m) (v := b) ⟨fun x hx => (List.mem_append.mp hx).elim (hm x) ((hw b hb').1 x), by rw [List.length_append]; omega⟩]
      exact mul_stored hb h (good a ha b hb')
  refine ⟨hsa, app, C82.used_square _ _ _, fun w hx => ?_, fun h => by simp [host] at h⟩
  obtain ⟨_, ha0, _, hb0, rfl⟩ := C82.used_mem hsa hx
  obtain ⟨a, ha, rfl⟩ := List.mem_map.mp ha0
  obtain ⟨b, hb', rfl⟩ := List.mem_map.mp hb0
  rw [app a ha b hb']
  exact shown_seq hb h (good a ha b hb')

theorem matrix_spec (hb : Built n c) (h : Room c L) {m : List Op} (hm : ∀ a ∈ m, Exists n c.infl a) {f : HSeq → HSeq → HSeq} (hf : Middle n c m f)
    {us : List (List Op)} (hw : ∀ u ∈ us, (∀ a ∈ u, Exists n c.infl a) ∧ 2 * u.length + m.length ≤ L) {t : Table} (ht : Ready (host c) (IsSeq c L) t) :
    ∃ t' M, createMatrix (host c) t f (us.map (stored n c)) = some (t', some M) ∧ M.sym.mat.dim = us.length ∧ M.sym.hermitian = true ∧
      (Grown (host c) (IsSeq c L) t → Grown (host c) (IsSeq c L) t') ∧
      (Extends t t' ∧ ∀ a ∈ us, ∀ b ∈ us, (t'.hashes.lookup (shown c (stored n c (a ++ (m ++ b)))).hash).isSome) ∧
      (∀ (F : HSeq → ℂ) v, Moments (env c) (IsSeq c L) F → (∀ u, Word n c L u → F (shown c (stored n c u)) = F (stored n c u)) → Agrees t' F v →
        ∀ i j a b, us[i]? = some a → us[j]? = some b → valueAt v M.sym.mat i j = F (stored n c (a ++ (m ++ b)))) := by
  have hS := setting hb h
  obtain ⟨hsa, app, hu⟩ := used_words hb h hm hf hw
  have good := word_in hm hw
  obtain ⟨t', M, h1, h2, -, h3⟩ := C82.C82_entries_partial hS ht f hsa hu
  have hext := create_extends hS (ht.fit hS) hu h1
  refine ⟨t', M, h1, by simpa using h2, ?_, fun hg => .matrix hg hu h1, ⟨hext.1, ?_⟩, ?_⟩
  · have stable : ∀ u : List Op, Word n c L u → (host c).env.conj (stored n c u) = stored n c u := fun u hu => conj_stored hb h hu
    refine C82.C82_flag hS ht f hsa hu ?_ ?_ h1
    · rintro _ ha0 _ hb0
      obtain ⟨a, ha, rfl⟩ := List.mem_map.mp ha0
      obtain ⟨b, hb', rfl⟩ := List.mem_map.mp hb0
      rw [app a ha b hb', app b hb' a ha, stable _ (good a ha b hb')]
      refine stored_same hb (good a ha b hb').1 (good b hb' a ha).1 (same_perm ?_)
      calc (a ++ (m ++ b)).Perm ((m ++ b) ++ a) := List.perm_append_comm
        _ |>.Perm ((b ++ m) ++ a) := List.perm_append_comm.append_right a
        _ |>.Perm (b ++ (m ++ a)) := by rw [List.append_assoc]
    · rintro hal _ ha0 _ hb0
      obtain ⟨a, ha, rfl⟩ := List.mem_map.mp ha0
      obtain ⟨b, hb', rfl⟩ := List.mem_map.mp hb0
      rw [app a ha b hb', stable _ (good a ha b hb')]
      obtain ⟨σ, v, -, h5, -, h6, -⟩ := shown_stored hb h (good a ha b hb')
      have : (host c).env.simp (stored n c (a ++ (m ++ b))) = stored n c v := by
        rw [← h6]; exact (if_pos hal).symm
      rw [this, stable v h5]
  · intro a ha b hb'
    obtain ⟨i, hi⟩ := List.mem_iff_getElem?.mp ha
    obtain ⟨j, hj⟩ := List.mem_iff_getElem?.mp hb'
    have hd : (C82.used (host c) f (us.map (stored n c))).dim = us.length := by rw [C82.used_dim, List.length_map]
    have : (t'.hashes.lookup (word (C82.used (host c) f (us.map (stored n c))) i j).hash).isSome :=
      hext.2 i j ((List.getElem?_eq_some_iff.mp hi).1.trans_eq hd.symm) ((List.getElem?_eq_some_iff.mp hj).1.trans_eq hd.symm)
    rw [C82.used_word (host c) f (us.map (stored n c)) (a := (host c).env.conj (stored n c a)) (b := stored n c b)
      (C82.rowWords_get hsa (a := stored n c a) (by simp [hi])) (by simp [hj]), app a ha b hb'] at this
    exact this
  · intro F v hF hk hv i j a b hi hj
    have ma := List.mem_of_getElem? hi
    have mb := List.mem_of_getElem? hj
    rw [h3 F v hF hv ?_ i j (stored n c a) (stored n c b) (by simp [hi]) (by simp [hj]), app a ma b mb]
    rintro hal _ ha0 _ hb0
    obtain ⟨a, ha, rfl⟩ := List.mem_map.mp ha0
    obtain ⟨b, hb', rfl⟩ := List.mem_map.mp hb0
    rw [app a ha b hb', ← hk _ (good a ha b hb')]
    exact congrArg F (if_pos hal).symm

/-! ## Values exist -/

/-- A functional on the words that tells canonical moments apart. -/
noncomputable def apart (c : Inflation.Ctx) (w : HSeq) : ℂ :=
  if w.hash = 0 then 0 else Rewrite.phase w.sign * ((shown c { w with sign := .pos }).hash.toNat : ℂ)

theorem apart_moments (hb : Built n c) (h : Room c L) : Moments (env c) (IsSeq c L) (apart c) ∧
    ∀ w, IsSeq c L w → w.sign = .pos → (starRingEnd ℂ) (apart c w) = apart c w := by
  refine ⟨⟨by simp [apart, HSeq.zero], fun w _ => ?_, ?_, ?_⟩, fun w _ hw => ?_⟩
  · unfold apart
    by_cases h0 : w.hash = 0 <;> simp [h0, Rewrite.phase]
  · rintro w v (⟨h1, -⟩ | ⟨h1, h2, h3⟩) (⟨g1, -⟩ | ⟨g1, g2, g3⟩) e es
    · simp [apart, h1, g1]
    · exact absurd (g1 ▸ e ▸ h1) (h.ne g2.1 g3)
    · exact absurd (h1 ▸ e.symm ▸ g1) (h.ne h2.1 h3)
    · have he := h.inj h2.1 g2.1 h3 g3 (by rw [← h1, ← g1, e])
      simp [apart, e, es, he]
  · rintro w (⟨h1, -⟩ | ⟨h1, h2, h3⟩)
    · rw [conj_zero h1]; simp [apart, h1, HSeq.zero]
    · rw [conj_word hb h h1 h2 h3]
      unfold apart
      split
      · simp
      · rw [map_mul, phase_conj]; simp
  · unfold apart
    split
    · simp
    · rw [hw, map_mul]
      simp [Rewrite.phase]

theorem apart_stored (hb : Built n c) (h : Room c L) {u : List Op} (hu : Word n c L u) :
    apart c (stored n c u) = ((shown c (stored n c u)).hash.toNat : ℂ) ∧ apart c (shown c (stored n c u)) = apart c (stored n c u) := by
  have key : ∀ v, Word n c L v → apart c (stored n c v) = ((shown c (stored n c v)).hash.toNat : ℂ) := by
    intro v hv
    unfold apart
    have e : ({ stored n c v with sign := .pos } : HSeq) = stored n c v := by rw [← stored_sign (n := n) (c := c) v]
    rw [e, stored_sign]
    split
    · rename_i h0
      have hz : shown c (stored n c v) = HSeq.zero ∨ shown c (stored n c v) = stored n c v := by
        right
        unfold shown
        split
        · have : (stored n c v).ops = [] := by
            rcases stored_seq hb hv with ⟨-, h2⟩ | ⟨h1, h2, h3⟩
            · exact h2
            · exact absurd (h1 ▸ h0) (h.ne h2.1 h3)
          simp only [env]
          rw [asMoment.eq_def, if_pos (by rw [this]; rfl)]
          rfl
        · rfl
      rcases hz with hz | hz
      · rw [hz]; simp [HSeq.zero]
      · rw [hz, h0]; simp
    · simp [Rewrite.phase]
  refine ⟨key u hu, ?_⟩
  obtain ⟨σ, v, -, h2, -, h4, h5⟩ := shown_stored hb h hu
  rw [key u hu, h4, key v h2, h5]

/-- **C114.** Symbols have values in every functional: the premise on values in the other theorems can always be met. -/
theorem C114_values (hc : ContextOf n c) (h : Room c L) {t : Table} (ht : Grown (host c) (IsSeq c L) t) {A : Type} [Ring A] [Algebra ℂ A] [StarRing A]
    [StarModule ℂ A] {P : Op → A} {φ : A →ₗ[ℂ] ℂ} (hP : Represents n P) (hs : ∀ a, star (P a) = P a) (hφ : ∀ a, φ (star a) = (starRingEnd ℂ) (φ a)) :
    ∃ v, Agrees t (moment n c P φ) v := by
  have hb : Built n c := ⟨hc⟩
  have := moments hb h hP hs hφ
  refine ht.values (setting hb h) this.1 (fun _ => this.2) (this.2 _ (words hb h).one.1 rfl).symm

/-- **C114.** A symbol lacks a real basis element just if it is flagged as anti-Hermitian, and an imaginary one just if it is flagged as Hermitian; the parts that
are lacking vanish in all values. -/
theorem C114_basis {t : Table} (ht : Grown (host c) (IsSeq c L) t) :
    (∀ q ∈ t.syms, (q.re = none ↔ q.anti = true) ∧ (q.im = none ↔ q.herm = true)) ∧
    ∀ (F : HSeq → ℂ) v, Agrees t F v → ∀ id q, t.syms[id]? = some q → (q.re = none → (v id).re = 0) ∧ (q.im = none → (v id).im = 0) :=
  ⟨ht.parts fun _ => rfl, fun _ _ hv _ _ hq => ht.missing (fun _ => rfl) hv hq⟩

/-- **C114.** Every list of words, short enough for the hashes to be unique, gives a moment matrix, and a localizing matrix for each word `m`. The matrix is
flagged as Hermitian. The entries are the moments of `uᵢ† m uⱼ` in every algebra whose operators are self-adjoint and meet the relations of the scenario, for
every functional that does not see which copies of the sources are which, and if the functional is positive, then the matrix is positive semidefinite. Entries
are only equal if they stand for words that are equal after the copies of the sources have been permuted. Existing symbols stay as they are, and the canonical
moments of all entries have symbols afterwards. -/
theorem C114_matrix (hc : ContextOf n c) (h : Room c L) {m : List Op} (hm : ∀ a ∈ m, Exists n c.infl a) {f : HSeq → HSeq → HSeq} (hf : Middle n c m f)
    {us : List (List Op)} (hw : ∀ u ∈ us, (∀ a ∈ u, Exists n c.infl a) ∧ 2 * u.length + m.length ≤ L) {t : Table} (ht : Grown (host c) (IsSeq c L) t) :
    ∃ t' M, createMatrix (host c) t f (us.map (stored n c)) = some (t', some M) ∧ Grown (host c) (IsSeq c L) t' ∧
      (Extends t t' ∧ ∀ a ∈ us, ∀ b ∈ us, (t'.hashes.lookup (shown c (stored n c (a ++ (m ++ b)))).hash).isSome) ∧ M.sym.mat.dim = us.length ∧
      M.sym.hermitian = true ∧
      (∀ i j k l a b a' b', us[i]? = some a → us[j]? = some b → us[k]? = some a' → us[l]? = some b' → M.sym.mat.get? i j = M.sym.mat.get? k l →
        (shown c (stored n c (a ++ (m ++ b)))).hash = (shown c (stored n c (a' ++ (m ++ b')))).hash ∧
        ∃ σ τ, Relabelling c.infl σ ∧ Relabelling c.infl τ ∧
          SameOperator n (some ((a ++ m ++ b).map (relabel n σ))) (some ((a' ++ m ++ b').map (relabel n τ)))) ∧
      ∀ (A : Type) [Ring A] [Algebra ℂ A] [StarRing A] [StarModule ℂ A] (P : Op → A) (φ : A →ₗ[ℂ] ℂ) (v : Nat → ℂ), Represents n P →
        (∀ a, star (P a) = P a) → (∀ a, φ (star a) = (starRingEnd ℂ) (φ a)) → Exchangeable n c.infl P φ → Agrees t' (moment n c P φ) v →
        (∀ i j a b, us[i]? = some a → us[j]? = some b →
          valueAt v M.sym.mat i j = φ (star (a.map P).prod * (m.map P).prod * (b.map P).prod)) ∧
        ((∀ a, 0 ≤ φ (star a * (m.map P).prod * a)) → (Matrix.of fun i j : Fin us.length => valueAt v M.sym.mat i j).PosSemidef) := by
  have hb : Built n c := ⟨hc⟩
  have good := word_in hm hw
  obtain ⟨t', M, h1, h2, h3, h4, hx, h5⟩ := matrix_spec hb h hm hf hw ht.ready
  refine ⟨t', M, h1, h4 ht, hx, h2, h3, ?_, ?_⟩
  · intro i j k l a b a' b' hi hj hk hl e
    have hA := apart_moments hb h
    obtain ⟨v, hv⟩ := (h4 ht).values (setting hb h) hA.1 (fun _ => hA.2) (hA.2 _ (words hb h).one.1 rfl).symm
    have hv1 := h5 _ v hA.1 (fun u hu => (apart_stored hb h hu).2) hv i j a b hi hj
    have hv2 := h5 _ v hA.1 (fun u hu => (apart_stored hb h hu).2) hv k l a' b' hk hl
    have g1 := good a (List.mem_of_getElem? hi) b (List.mem_of_getElem? hj)
    have g2 := good a' (List.mem_of_getElem? hk) b' (List.mem_of_getElem? hl)
    have he : (shown c (stored n c (a ++ (m ++ b)))).hash = (shown c (stored n c (a' ++ (m ++ b')))).hash := by
      have : apart c (stored n c (a ++ (m ++ b))) = apart c (stored n c (a' ++ (m ++ b'))) := by
        rw [← hv1, ← hv2]
        unfold valueAt
        rw [e]
      rw [(apart_stored hb h g1).1, (apart_stored hb h g2).1] at this
      exact UInt64.toNat.inj (by exact_mod_cast this)
    obtain ⟨σ, x, s1, s2, s3, s4, -⟩ := shown_stored hb h g1
    obtain ⟨τ, y, r1, r2, r3, r4, -⟩ := shown_stored hb h g2
    refine ⟨he, σ, τ, s1, r1, ?_⟩
    rw [s4, r4] at he
    have := s3.trans ((stored_inj hb h s2 r2 he).trans r3.symm)
    simpa using this
  · intro A _ _ _ _ P φ v hP hs hφ hxc hv
    have hLm := (moments hb h hP hs hφ).1
    have vals : ∀ i j a b, us[i]? = some a → us[j]? = some b →
        valueAt v M.sym.mat i j = φ (star (a.map P).prod * (m.map P).prod * (b.map P).prod) := by
      intro i j a b hi hj
      rw [h5 _ v hLm (fun u hu => moment_shown hb h hP hxc hu) hv i j a b hi hj,
        moment_stored hb h hP φ (good a (List.mem_of_getElem? hi) b (List.mem_of_getElem? hj)), star_prod hP hs]
      simp only [List.map_append, List.prod_append, mul_assoc]
    refine ⟨vals, fun hpos => ?_⟩
    have e : (Matrix.of fun i j : Fin us.length => valueAt v M.sym.mat i j) =
        Matrix.of fun i j : Fin us.length => φ (star (us[i].map P).prod * (m.map P).prod * (us[j].map P).prod) := by
      ext i j
      rw [Matrix.of_apply, Matrix.of_apply]
      exact vals i j _ _ (List.getElem?_eq_getElem i.2) (List.getElem?_eq_getElem j.2)
    rw [e]
    exact C82.gram_posSemidef φ _ hpos _

/-- **C114, levels of the hierarchy.** The matrix of level `k`: rows and columns are the words that `InflationOperatorSequenceGenerator` lists. Afterwards the
canonical moments of all non-zero words of up to `2 * k` operators have symbols. -/
theorem C114_level (hc : ContextOf n c) (k : Nat) (h : Room c (2 * k)) {t : Table} (ht : Grown (host c) (IsSeq c (2 * k)) t) :
    ∃ t' M, createMatrix (host c) t (momentFn (host c)) ((generate c k).map (sequence c)) = some (t', some M) ∧ Grown (host c) (IsSeq c (2 * k)) t' ∧
      (Extends t t' ∧ ∀ u, (∀ a ∈ u, Exists n c.infl a) → u.length ≤ 2 * k → ¬ SameOperator n (some u) none →
        (t'.hashes.lookup (shown c (stored n c u)).hash).isSome) ∧
      M.sym.mat.dim = (generate c k).length ∧ M.sym.hermitian = true ∧
      (∀ i j p l x y z w a b a' b', (generate c k)[i]? = some x → (generate c k)[j]? = some y → (generate c k)[p]? = some z → (generate c k)[l]? = some w →
        Names n c a x → Names n c b y → Names n c a' z → Names n c b' w → M.sym.mat.get? i j = M.sym.mat.get? p l →
        ∃ σ τ, Relabelling c.infl σ ∧ Relabelling c.infl τ ∧
          SameOperator n (some ((a ++ b).map (relabel n σ))) (some ((a' ++ b').map (relabel n τ)))) ∧
      ∀ (A : Type) [Ring A] [Algebra ℂ A] [StarRing A] [StarModule ℂ A] (P : Op → A) (φ : A →ₗ[ℂ] ℂ) (v : Nat → ℂ), Represents n P →
        (∀ a, star (P a) = P a) → (∀ a, φ (star a) = (starRingEnd ℂ) (φ a)) → Exchangeable n c.infl P φ → Agrees t' (moment n c P φ) v →
        (∀ i j x y a b, (generate c k)[i]? = some x → (generate c k)[j]? = some y → Names n c a x → Names n c b y →
          valueAt v M.sym.mat i j = φ (star (a.map P).prod * (b.map P).prod)) ∧
        ((∀ a, 0 ≤ φ (star a * a)) → (Matrix.of fun i j : Fin (generate c k).length => valueAt v M.sym.mat i j).PosSemidef) := by
  have hb : Built n c := ⟨hc⟩
  have hgen := (C12.C51_complete hc k).2
  have hnorm : ∀ w ∈ generate c k, ∃ u, (∀ a ∈ u, Exists n c.infl a) ∧ w = u.map (Inflation.enc c) ∧ nf n c u = some u :=
    fun w hw => (normal_iff hb).mp ((hgen w).mp hw).2
  let back : List Nat → List Op := fun w => w.map (opOf n c)
  have hback : ∀ u : List Op, (∀ a ∈ u, Exists n c.infl a) → back (u.map (Inflation.enc c)) = u := by
    intro u hu
    show (u.map (Inflation.enc c)).map (opOf n c) = u
    rw [List.map_map]
    conv_rhs => rw [← List.map_id u]
    exact List.map_congr_left fun a ha => opOf_enc hb (hu a ha)
  have hlist : (generate c k).map (sequence c) = ((generate c k).map back).map (stored n c) := by
    rw [List.map_map]
    apply List.map_congr_left
    intro w hw
    obtain ⟨u, hu, rfl, hn⟩ := hnorm w hw
    have hl : u.length ≤ k := by simpa using ((hgen _).mp hw).1
    rw [Function.comp, hback u hu]
    exact construct_stored hb h ⟨hu, by omega⟩ _
  have hwords : ∀ u ∈ (generate c k).map back, (∀ a ∈ u, Exists n c.infl a) ∧ 2 * u.length + ([] : List Op).length ≤ 2 * k := by
    intro u hu
    obtain ⟨w, hw, rfl⟩ := List.mem_map.mp hu
    obtain ⟨u, hx, rfl, hn⟩ := hnorm w hw
    have hl : u.length ≤ k := by simpa using ((hgen _).mp hw).1
    rw [hback u hx]
    exact ⟨hx, by simpa using hl⟩
  have hat : ∀ (i : Nat) x a, (generate c k)[i]? = some x → Names n c a x → ((generate c k).map back)[i]? = some a := by
    intro i x a hi ha
    obtain ⟨h1, rfl⟩ := names_iff.mp ha
    rw [List.getElem?_map, hi, Option.map_some, hback a h1]
  obtain ⟨t', M, h1, h2, hk, h3, h4, h5, h6⟩ := C114_matrix hc h (m := []) (by simp) (.inl ⟨rfl, rfl⟩) hwords ht
  rw [hlist]
  refine ⟨t', M, h1, h2, ⟨hk.1, ?_⟩, by simpa using h3, h4, ?_, ?_⟩
  · intro u hu hlen hz
    have listed : ∀ x y : List Op, (∀ a ∈ x, Exists n c.infl a) → x.length ≤ k → nf n c x = some y → y ∈ (generate c k).map back := by
      intro x y hx hl hn
      have hy : ∀ a ∈ y, Exists n c.infl a := fun a ha => hx a (nf_mem hn a ha)
      refine List.mem_map.mpr ⟨y.map (Inflation.enc c), (hgen _).mpr ⟨by simpa using (nf_length hn).trans hl, (normal_iff hb).mpr ⟨y, hy, rfl, nf_idem hb hx hn⟩⟩, hback y hy⟩
    have xt : ∀ a ∈ u.take k, Exists n c.infl a := fun a ha => hu a (List.mem_of_mem_take ha)
    have xd : ∀ a ∈ u.drop k, Exists n c.infl a := fun a ha => hu a (List.mem_of_mem_drop ha)
    cases ha : nf n c (u.take k) with
    | none =>
      have := same_append ((nf_zero_iff hb xt).mp ha) [] (u.drop k)
      simp only [Option.map_some, Option.map_none, List.nil_append, List.take_append_drop] at this
      exact absurd this hz
    | some a =>
      cases hb' : nf n c (u.drop k) with
      | none =>
        have := same_append ((nf_zero_iff hb xd).mp hb') (u.take k) []
        simp only [Option.map_some, Option.map_none, List.append_nil, List.take_append_drop] at this
        exact absurd this hz
      | some b =>
        have ma := listed _ a xt (by rw [List.length_take]; omega) ha
        have mb := listed _ b xd (by rw [List.length_drop]; omega) hb'
        have key := hk.2 a ma b mb
        have s1 : SameOperator n (some (u.take k)) (some a) := by rw [← ha]; exact nf_sound _
        have s2 : SameOperator n (some (u.drop k)) (some b) := by rw [← hb']; exact nf_sound _
        have a1 := same_append s1 [] (u.drop k)
        have a2 := same_append s2 a []
        simp only [Option.map_some, List.nil_append, List.append_nil, List.take_append_drop] at a1 a2
        have xab : ∀ x ∈ a ++ b, Exists n c.infl x := fun x hx => (List.mem_append.mp hx).elim (fun h => xt x (nf_mem ha x h)) (fun h => xd x (nf_mem hb' x h))
        rw [stored_same hb hu xab (a1.trans a2)]
        simpa using key
  · intro i j p l x y z w a b a' b' hi hj hp hl ha hb' ha' hb'' e
    simpa using (h5 i j p l a b a' b' (hat i x a hi ha) (hat j y b hj hb') (hat p z a' hp ha') (hat l w b' hl hb'') e).2
  · intro A _ _ _ _ P φ v hP hs hφ hxc hv
    obtain ⟨k1, k2⟩ := h6 A P φ v hP hs hφ hxc hv
    refine ⟨fun i j x y a b hi hj ha hb => by simpa using k1 i j a b (hat i x a hi ha) (hat j y b hj hb), fun hpos => ?_⟩
    have := k2 (fun a => by simpa using hpos a)
    have hlen : ((generate c k).map back).length = (generate c k).length := List.length_map _
    exact this.submatrix (Fin.cast hlen.symm)

/-! ## Where it fails -/

open Moment.C12 (twoSources twoSourcesCtx swapFirst exNet exCtx exContext)

theorem two_context : ContextOf twoSources twoSourcesCtx := by unfold ContextOf; decide +kernel

theorem two_room : Room twoSourcesCtx 8 := ⟨by decide +kernel, by decide +kernel⟩

theorem swap_relabelling : Relabelling 2 swapFirst := by
  intro s
  have inv : ∀ v, swapFirst s (swapFirst s v) = v := by intro v; unfold swapFirst; split_ifs <;> simp_all
  have lt : ∀ v, v < 2 → swapFirst s v < 2 := by intro v hv; unfold swapFirst; split_ifs <;> omega
  exact ⟨fun v hv => lt v hv, fun v _ v' _ e => by rw [← inv v, e, inv], fun v hv => ⟨swapFirst s v, lt v hv, inv v⟩⟩

/-- Three operators of the network with two sources. -/
def wordU : List Op := [⟨0, [0, 0], 0⟩, ⟨0, [1, 0], 0⟩, ⟨0, [1, 1], 0⟩]

/-- The same with the copies of the first source swapped. -/
def wordV : List Op := [⟨0, [0, 0], 0⟩, ⟨0, [1, 0], 0⟩, ⟨0, [0, 1], 0⟩]

theorem exists_u : ∀ a ∈ wordU, Inflation.Exists twoSources twoSourcesCtx.infl a := by
  intro a ha
  unfold wordU at ha
  fin_cases ha <;> exact ⟨2, rfl, by decide +kernel, by decide, by decide⟩

theorem exists_v : ∀ a ∈ wordV, Inflation.Exists twoSources twoSourcesCtx.infl a := by
  intro a ha
  unfold wordV at ha
  fin_cases ha <;> exact ⟨2, rfl, by decide +kernel, by decide, by decide⟩

/-- **C114 is false for the converse:** entries whose words only differ by a permutation of the copies of a source can have different symbols. In the matrix of the
words `1`, `u` and `v`, where `v` is `u` with the copies of the first source swapped, the entries for `u` and for `v` differ. -/
theorem C114_refuted_orbit : ∃ (n : Causal) (c : Inflation.Ctx) (u v : List Op) (σ : Nat → Nat → Nat), ContextOf n c ∧ Relabelling c.infl σ ∧
    (∀ a ∈ u, Inflation.Exists n c.infl a) ∧ v.Perm (u.map (relabel n σ)) ∧
    ∃ t' M, createMatrix (host c) Table.new (momentFn (host c)) ([[], u, v].map (stored n c)) = some (t', some M) ∧
      M.sym.mat.get? 0 1 ≠ M.sym.mat.get? 0 2 := by
  obtain ⟨t', M, h1, -, -, -, -, h2, -⟩ := C114_matrix two_context two_room (m := []) (by simp) (.inl ⟨rfl, rfl⟩) (us := [[], wordU, wordV])
    (by
      intro w hw
      simp only [List.mem_cons, List.not_mem_nil, or_false] at hw
      rcases hw with rfl | rfl | rfl
      · exact ⟨by simp, by decide⟩
      · exact ⟨exists_u, by decide⟩
      · exact ⟨exists_v, by decide⟩) .new
  refine ⟨twoSources, twoSourcesCtx, wordU, wordV, swapFirst, two_context, swap_relabelling, exists_u, by decide +kernel, t', M, h1, fun e => ?_⟩
  have := (h2 0 1 0 2 [] wordU [] wordV rfl rfl rfl rfl e).1
  have key : ∀ w : List Op, (findPermutation twoSourcesCtx (stored twoSources twoSourcesCtx w).ops).nonTrivial = false →
      shown twoSourcesCtx (stored twoSources twoSourcesCtx w) = stored twoSources twoSourcesCtx w := by
    intro w hw
    unfold shown
    split
    · simp only [env]
      rw [asMoment.eq_def]
      split
      · rfl
      · rw [hw]; rfl
    · rfl
  rw [key _ (by decide +kernel), key _ (by decide +kernel)] at this
  exact absurd this (by decide +kernel)

/-- All operators of first outcomes are 1. -/
def ones (a : Op) : ℂ := if a.out = 0 then 1 else 0

theorem ones_represents (n : Causal) : Represents n ones := by
  unfold ones
  refine ⟨fun a b => mul_comm _ _, fun a _ => by split <;> simp, fun a b hab => ?_⟩
  by_cases h1 : a.out = 0
  · by_cases h2 : b.out = 0
    · exact absurd (h1.trans h2.symm) hab.2.2
    · simp [h2]
  · simp [h1]

theorem ones_star (a : Op) : star (ones a) = ones a := by unfold ones; split <;> simp

theorem ones_exchange (n : Causal) (level : Nat) : Exchangeable n level ones LinearMap.id := by
  intro σ u _ _
  rw [List.map_map]; rfl

/-- Minus the operator of the second copy. -/
def minusA : HSeq := HSeq.construct (hctx twoSourcesCtx) false [1] .neg

theorem sign_alias : (host twoSourcesCtx).env.aliases = true := by show canHaveAliases twoSourcesCtx = true; decide +kernel

theorem sign_one : (host twoSourcesCtx).env.conj (HSeq.identity .pos) = HSeq.identity .pos := by
  show HSeq.conjugate (hctx twoSourcesCtx) _ (HSeq.identity .pos) = HSeq.identity .pos
  decide +kernel

theorem sign_product : localizingFn (host twoSourcesCtx) minusA ((host twoSourcesCtx).env.conj (HSeq.identity .pos)) (HSeq.identity .pos) =
    ⟨hashWord 4 [1], [1], .neg⟩ := by
  rw [sign_one]
  unfold localizingFn host
  dsimp only
  decide +kernel

theorem sign_simp : (host twoSourcesCtx).env.simp ⟨hashWord 4 [1], [1], .neg⟩ = stored twoSources twoSourcesCtx [⟨0, [0, 0], 0⟩] := by
  show (asMoment twoSourcesCtx _).getD _ = _
  rw [asMoment.eq_def, if_neg (by decide), if_neg (by decide +kernel), if_neg (by decide +kernel), Option.getD_some]
  decide +kernel

theorem sign_self : C82.SelfAdjoint (host twoSourcesCtx) [HSeq.identity .pos] := by
  intro _ w hw
  rw [List.mem_singleton.mp hw]; exact sign_one

theorem first_word : Word twoSources twoSourcesCtx 8 [⟨0, [0, 0], 0⟩] := by
  refine ⟨fun a h => ?_, by decide⟩
  rw [List.mem_singleton.mp h]
  exact ⟨2, rfl, by decide +kernel, by decide, by decide⟩

/-- **C114 is false for words with signs:** `apply_permutation` drops the sign. The localizing matrix of `-A`, where the operator `A` is that of the second copy
of a source, has the moment of `A` in place of that of `-A`: +1 and not -1 for the functional that gives 1 to every product of operators. -/
theorem C114_refuted_sign : ∃ (n : Causal) (c : Inflation.Ctx) (a : Op) (P : Op → ℂ), ContextOf n c ∧ Inflation.Exists n c.infl a ∧ Represents n P ∧
    (∀ b, star (P b) = P b) ∧ Exchangeable n c.infl P LinearMap.id ∧ P a = 1 ∧
    ∃ t' M, createMatrix (host c) Table.new (localizingFn (host c) (HSeq.construct (hctx c) false [Inflation.enc c a] .neg)) [HSeq.identity .pos] =
        some (t', some M) ∧ (∃ v, Agrees t' (moment n c P LinearMap.id) v) ∧
      ∀ v, Agrees t' (moment n c P LinearMap.id) v → valueAt v M.sym.mat 0 0 = 1 := by
  have hb : Built twoSources twoSourcesCtx := ⟨two_context⟩
  have hS := setting hb two_room
  have ha : Inflation.Exists twoSources 2 ⟨0, [1, 0], 0⟩ := ⟨2, rfl, by decide +kernel, by decide, by decide⟩
  have hu : Usable (host twoSourcesCtx) (IsSeq twoSourcesCtx 8) (C82.used (host twoSourcesCtx) (localizingFn (host twoSourcesCtx) minusA) [HSeq.identity .pos]) := by
    refine ⟨C82.used_square _ _ _, fun w hx => ?_, fun h => by simp [host] at h⟩
    obtain ⟨p, hp, q, hq, rfl⟩ := C82.used_mem sign_self hx
    rw [List.mem_singleton.mp hp, List.mem_singleton.mp hq, if_pos sign_alias, sign_product, sign_simp]
    exact stored_seq hb first_word
  obtain ⟨t', M, h1, -, -, h4⟩ := C70.C70_value_partial hS (Ready.new (h := host twoSourcesCtx))
    (singleAliased (host twoSourcesCtx) (localizingFn (host twoSourcesCtx) minusA) (rowWords (host twoSourcesCtx) [HSeq.identity .pos]) [HSeq.identity .pos]).1
    (singleAliased (host twoSourcesCtx) (localizingFn (host twoSourcesCtx) minusA) (rowWords (host twoSourcesCtx) [HSeq.identity .pos]) [HSeq.identity .pos]).2 1 hu
  have hg : Grown (host twoSourcesCtx) (IsSeq twoSourcesCtx 8) t' := .matrix .new hu h1
  have hm := (moments hb two_room (ones_represents twoSources) ones_star (φ := LinearMap.id) (fun a => rfl)).1
  refine ⟨twoSources, twoSourcesCtx, ⟨0, [1, 0], 0⟩, ones, two_context, ha, ones_represents _, ones_star, ones_exchange _ _, rfl, t', M, ?_,
    C114_values two_context two_room hg (ones_represents _) ones_star (fun a => rfl), fun v hv => ?_⟩
  · have : Inflation.enc twoSourcesCtx ⟨0, [1, 0], 0⟩ = 1 := by decide +kernel
    rw [this]; exact h1
  · have hd : 0 < (C82.used (host twoSourcesCtx) (localizingFn (host twoSourcesCtx) minusA) [HSeq.identity .pos]).dim := by rw [C82.used_dim]; decide
    rw [h4 _ v hm hv 0 0 hd hd, one_mul]
    show moment _ _ _ _ (word (C82.used (host twoSourcesCtx) (localizingFn (host twoSourcesCtx) minusA) [HSeq.identity .pos]) 0 0) = 1
    rw [C82.used_word (host twoSourcesCtx) _ [HSeq.identity .pos] (C82.rowWords_get sign_self (a := HSeq.identity .pos) rfl) rfl, if_pos sign_alias, sign_product,
      sign_simp, moment_stored hb two_room (ones_represents _) LinearMap.id first_word]
    simp [ones]

/-! ## Examples -/

theorem ex_room : Room exCtx 8 := ⟨by decide +kernel, by decide +kernel⟩

/-- Levels 1 to 4 of a network with four observables, one of which is not projective and one of which has no source. -/
example (k : Nat) (hk : k ≤ 4) : ∃ t' M, createMatrix (host exCtx) Table.new (momentFn (host exCtx)) ((generate exCtx k).map (sequence exCtx)) =
    some (t', some M) ∧ M.sym.hermitian = true := by
  obtain ⟨t', M, h1, -, -, -, h2, -⟩ := C114_level exContext k (ex_room.mono (by omega)) .new
  exact ⟨t', M, h1, h2⟩

/-- A localizing matrix of that network, and values: all operators 1, and the identity as functional on the complex numbers. -/
example : ∃ t' M v, createMatrix (host exCtx) Table.new (localizingFn (host exCtx) (stored exNet exCtx [⟨2, [1], 0⟩]))
      ([[], [⟨0, [1], 0⟩], [⟨1, [0, 1], 0⟩, ⟨3, [], 0⟩]].map (stored exNet exCtx)) = some (t', some M) ∧ M.sym.hermitian = true ∧
      Agrees t' (moment exNet exCtx ones LinearMap.id) v ∧ valueAt v M.sym.mat 1 2 = 1 := by
  have e0 : Inflation.Exists exNet exCtx.infl ⟨0, [1], 0⟩ := ⟨2, rfl, by decide +kernel, by decide, by decide⟩
  have e1 : Inflation.Exists exNet exCtx.infl ⟨1, [0, 1], 0⟩ := ⟨3, rfl, by decide +kernel, by decide, by decide⟩
  have e2 : Inflation.Exists exNet exCtx.infl ⟨2, [1], 0⟩ := ⟨0, rfl, by decide +kernel, by decide, by decide⟩
  have e3 : Inflation.Exists exNet exCtx.infl ⟨3, [], 0⟩ := ⟨2, rfl, by decide +kernel, by decide, by decide⟩
  obtain ⟨t', M, h1, h2, -, -, h3, -, h4⟩ := C114_matrix exContext ex_room (m := [⟨2, [1], 0⟩]) (by simpa using e2) (.inr rfl)
    (us := [[], [⟨0, [1], 0⟩], [⟨1, [0, 1], 0⟩, ⟨3, [], 0⟩]])
    (by
      intro w hw
      simp only [List.mem_cons, List.not_mem_nil, or_false] at hw
      rcases hw with rfl | rfl | rfl
      · exact ⟨by simp, by decide⟩
      · exact ⟨by simpa using e0, by decide⟩
      · exact ⟨by simpa using ⟨e1, e3⟩, by decide⟩) .new
  obtain ⟨v, hv⟩ := C114_values exContext ex_room h2 (φ := LinearMap.id) (ones_represents _) ones_star (fun a => rfl)
  refine ⟨t', M, v, h1, h3, hv, ?_⟩
  rw [(h4 ℂ _ LinearMap.id v (ones_represents _) ones_star (fun a => rfl) (ones_exchange _ _) hv).1 1 2 [⟨0, [1], 0⟩] [⟨1, [0, 1], 0⟩, ⟨3, [], 0⟩] rfl rfl]
  simp [ones]

end Moment.C114
