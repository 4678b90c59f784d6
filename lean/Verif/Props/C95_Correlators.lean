import Verif.Props.C94_Probability

/-! # C95: full correlators

In scenarios in which all measurements have two outcomes, elements of the full-correlator tensor are polynomials in entries of the Collins-Gisin tensor
(and in symbols) whose value is that of the product of the observables, each the difference of the operators of its two outcomes. From 31 parties on
the number of terms does not fit into `int`. -/

namespace Moment.C95

open Moment.Probability Moment.Poly Moment.C94

/-- The element is the product of the observables. -/
def Correct (counts : List Nat) (t : Table) (cg : Gisin) (index : List Nat) (e : Element) : Prop :=
  ∀ (A : Type) [Ring A] [Algebra ℂ A] (P : Nat → Nat → Nat → A) (φ : A →ₗ[ℂ] ℂ), Complete (binary counts) P →
    (∀ v, Describes (binary counts) P φ v → value (entry v) e.gisin = φ (correlation P 0 index)) ∧
    (∀ v w p, Describes (binary counts) P φ v → Respects t w → Named (binary counts) cg P φ w → w 1 = φ 1 → e.symbols = some p →
      value w p = φ (correlation P 0 index))

/-- A list of terms, entries of the tensor with factors, that add up to the product of the observables. -/
def Expands (counts index : List Nat) (T : List (Nat × ℂ)) : Prop :=
  (∀ x ∈ T, ∃ idx, List.Forall₂ (· < ·) idx (counts.map (· + 1)) ∧ x.1 = position (counts.map (· + 1)) idx) ∧
  ∀ (A : Type) [Ring A] [Algebra ℂ A] (P : Nat → Nat → Nat → A) (φ : A →ₗ[ℂ] ℂ) (v : Nat → ℂ), Complete (binary counts) P →
    Describes (binary counts) P φ v → total v T = φ (correlation P 0 index)

theorem zeros_lt (counts : List Nat) (n : Nat) (h : n = counts.length) : List.Forall₂ (· < ·) (List.replicate n 0) (counts.map (· + 1)) := by
  subst h
  induction counts with
  | nil => simp
  | cons c counts ih => rw [List.length_cons, List.replicate_succ, List.map_cons]; exact List.Forall₂.cons (by omega) ih

theorem entry_zero {counts : List Nat} {A : Type} [Ring A] [Algebra ℂ A] {P : Nat → Nat → Nat → A} {φ : A →ₗ[ℂ] ℂ} {v : Nat → ℂ}
    (hv : Describes (binary counts) P φ v) : v 0 = φ 1 := by
  have := hv (List.replicate counts.length 0) (by rw [binary_dims]; exact zeros_lt counts _ rfl)
  rw [position_zeros] at this
  rw [this]
  congr 1
  have : ∀ (counts : List Nat) d, joint P d (gisinChoices (binary counts) (List.replicate counts.length 0)) = 1 := by
    intro counts
    induction counts with
    | nil => intro d; simp [gisinChoices, binary, joint]
    | cons c counts ih =>
      intro d
      have := ih (d + 1)
      have e : gisinChoices (binary (c :: counts)) (List.replicate (c :: counts).length 0) =
          none :: gisinChoices (binary counts) (List.replicate counts.length 0) := by
        rw [List.length_cons, List.replicate_succ]
        rfl
      rw [e, joint, this]
      simp [single]
  exact this counts 0

theorem gisin_const (v : Nat → ℂ) (terms : List (Nat × ℂ)) (c : ℂ) :
    value (entry v) (makeRaw byId (terms.map (fun x => term (x.1 + 1) x.2) ++ [term 1 c])) = total v (terms ++ [(0, c)]) := by
  rw [← gisin_value, List.map_append]
  rfl

theorem resolvePositive_value {cg : Gisin} {v w : Nat → ℂ} {T : List (Nat × ℂ)} : ∀ {l : List (Nat × ℂ)},
    (∀ x ∈ T, ∀ s, cg.symbol x.1 = some s → w s = v x.1) → resolvePositive cg T = some l → value w (l.map fun x => term x.1 x.2) = total v T := by
  induction T with
  | nil =>
    intro l _ h
    simp [resolvePositive] at h
    subst h
    rfl
  | cons x T ih =>
    intro l hw h
    unfold resolvePositive at h
    rw [List.mapM_cons] at h
    cases hs : cg.symbol x.1 with
    | none => simp [hs] at h
    | some s =>
      by_cases h0 : s > 0
      · cases hr : resolvePositive cg T with
        | none => unfold resolvePositive at hr; simp [hs, h0, hr] at h
        | some l' =>
          have hr' := hr
          unfold resolvePositive at hr'
          simp [hs, h0, hr'] at h
          subst h
          rw [List.map_cons, value_cons, ih (fun y hy => hw y (List.mem_cons_of_mem _ hy)) hr]
          have := hw x (by simp) s hs
          simp [total, Mono.value, term, this]
      · simp [hs, h0] at h

theorem resolvePositive_isSome {cg : Gisin} {T : List (Nat × ℂ)} (h : ∀ x ∈ T, ∃ s, cg.symbol x.1 = some s ∧ 0 < s) :
    (resolvePositive cg T).isSome = true := by
  induction T with
  | nil => simp [resolvePositive]
  | cons x T ih =>
    obtain ⟨s, hs, h0⟩ := h x (by simp)
    obtain ⟨l, hl⟩ := Option.isSome_iff_exists.mp (ih fun y hy => h y (List.mem_cons_of_mem _ hy))
    unfold resolvePositive at hl ⊢
    rw [List.mapM_cons, hl]
    simp [hs, h0]

theorem resolvePositive_known {cg : Gisin} {T : List (Nat × ℂ)} (h : (resolvePositive cg T).isSome = true) : ∀ x ∈ T, (cg.symbol x.1).isSome = true := by
  induction T with
  | nil => simp
  | cons x T ih =>
    unfold resolvePositive at h ih
    rw [List.mapM_cons] at h
    cases hs : cg.symbol x.1 with
    | none => simp [hs] at h
    | some s =>
      intro y hy
      rcases List.mem_cons.mp hy with rfl | hy
      · simp [hs]
      · refine ih ?_ y hy
        by_cases h0 : s > 0
        · simp [hs, h0] at h
          obtain ⟨a, ha⟩ := Option.isSome_iff_exists.mp h
          simp only [Option.bind_eq_some_iff] at ha
          obtain ⟨l, hl, _⟩ := ha
          rw [hl]; rfl
        · simp [hs, h0] at h

/-- Elements with one or two parties. -/
theorem withConstant_correct {counts : List Nat} (t : Table) (o : Order) (symbol : Nat → Option Nat) {index : List Nat} {terms : List (Nat × ℂ)} {c : ℂ}
    (h : Expands counts index (terms ++ [(0, c)])) :
    Correct counts t ⟨counts.map (· + 1), symbol⟩ index (withConstant t o ⟨counts.map (· + 1), symbol⟩ terms c) ∧
    ((∀ idx, List.Forall₂ (· < ·) idx (counts.map (· + 1)) → ∃ s, symbol (position (counts.map (· + 1)) idx) = some s ∧ 0 < s) →
      (withConstant t o ⟨counts.map (· + 1), symbol⟩ terms c).symbols.isSome = true) ∧
    Draws (counts.map (· + 1)) ⟨counts.map (· + 1), symbol⟩ (withConstant t o ⟨counts.map (· + 1), symbol⟩ terms c) := by
  refine ⟨fun A _ _ P φ hP => ⟨fun v hv => ?_, fun v w p hv hw hn h1 hp => ?_⟩, fun hs => ?_, ?_⟩
  · rw [withConstant, gisin_const, h.2 A P φ v hP hv]
  · obtain ⟨l, hl, rfl⟩ := Option.map_eq_some_iff.mp hp
    rw [make_value hw, value_append, resolvePositive_value (v := v) (fun x hx s hs => ?_) hl, ← h.2 A P φ v hP hv, total_append]
    · congr 1
      simp [value, Mono.value, term, total, h1, entry_zero hv]
    · obtain ⟨idx, i1, i2⟩ := h.1 x (List.mem_append_left _ hx)
      rw [← binary_dims] at i1 i2
      rw [i2] at hs ⊢
      rw [hn idx i1 s hs, hv idx i1]
  · unfold withConstant
    simp only [Option.isSome_map]
    refine resolvePositive_isSome fun x hx => ?_
    obtain ⟨idx, i1, i2⟩ := h.1 x (List.mem_append_left _ hx)
    rw [i2]
    exact hs idx i1
  · refine draws_of_terms (T := terms ++ [(0, c)]) (by simp [withConstant]) h.1 fun hs x hx h0 => ?_
    rcases List.mem_append.mp hx with hx | hx
    · simp only [withConstant, Option.isSome_map] at hs
      exact resolvePositive_known hs x hx
    · rw [List.mem_singleton] at hx; subst hx; exact absurd rfl h0

theorem total_attempt (v : Nat → ℂ) (G : List Mono) (h : ∀ m ∈ G, m.id ≠ 0 ∧ m.conj = false) :
    total v (G.map fun m => (m.id - 1, m.factor)) = value (entry v) G := by
  unfold total value
  rw [List.map_map]
  congr 1
  refine List.map_congr_left fun m hm => ?_
  obtain ⟨h1, h2⟩ := h m hm
  obtain ⟨n, hn⟩ := Nat.exists_eq_succ_of_ne_zero h1
  simp [Mono.value, h2, hn, entry]

/-- Elements with more parties. -/
theorem attempt_correct {counts : List Nat} (t : Table) (o : Order) (symbol : Nat → Option Nat) {index : List Nat} {terms : List (Nat × ℂ)} {c : ℂ}
    (h : Expands counts index (terms ++ [(0, c)])) (e : Element)
    (he : e = attempt t o ⟨counts.map (· + 1), symbol⟩ ⟨makeRaw byId (terms.map (fun x => term (x.1 + 1) x.2) ++ [term 1 c]), none⟩) :
    Correct counts t ⟨counts.map (· + 1), symbol⟩ index e ∧
    ((∀ idx, List.Forall₂ (· < ·) idx (counts.map (· + 1)) → ∃ s, symbol (position (counts.map (· + 1)) idx) = some s ∧ 0 < s) →
      e.symbols.isSome = true) ∧
    Draws (counts.map (· + 1)) ⟨counts.map (· + 1), symbol⟩ e := by
  have hG : ∀ m ∈ makeRaw byId (terms.map (fun x => term (x.1 + 1) x.2) ++ [term 1 c]), (m.id ≠ 0 ∧ m.conj = false) ∧
      ∃ x ∈ terms ++ [(0, c)], m.id - 1 = x.1 := by
    intro m hm
    obtain ⟨⟨y, hy, e1, e2⟩, _, h0⟩ := makeRaw_mem hm
    have hy' : y ∈ (terms ++ [(0, c)]).map fun (x : Nat × ℂ) => term (x.1 + 1) x.2 := by simpa using hy
    obtain ⟨x, hx, rfl⟩ := List.mem_map.mp hy'
    exact ⟨⟨h0, e2.symm⟩, x, hx, by rw [← e1]; rfl⟩
  have hvalid : ∀ x ∈ (makeRaw byId (terms.map (fun x => term (x.1 + 1) x.2) ++ [term 1 c])).map (fun m => (m.id - 1, m.factor)),
      ∃ idx, List.Forall₂ (· < ·) idx (counts.map (· + 1)) ∧ x.1 = position (counts.map (· + 1)) idx := by
    intro x hx
    obtain ⟨m, hm, rfl⟩ := List.mem_map.mp hx
    obtain ⟨_, y, hy, e⟩ := hG m hm
    obtain ⟨idx, i1, i2⟩ := h.1 y hy
    exact ⟨idx, i1, e.trans i2⟩
  unfold attempt at he
  dsimp only at he
  refine ⟨fun A _ _ P φ hP => ⟨fun v hv => ?_, fun v w p hv hw hn h1 hp => ?_⟩, fun hs => ?_, ?_⟩
  · have : e.gisin = makeRaw byId (terms.map (fun x => term (x.1 + 1) x.2) ++ [term 1 c]) := by rw [he]; split <;> rfl
    rw [this, gisin_const, h.2 A P φ v hP hv]
  · split at he
    · rename_i l hl
      rw [he] at hp
      simp only [Option.some.injEq] at hp
      rw [← hp, make_value hw, resolve_value (v := v) (fun x hx s hs => ?_) hl, total_attempt v _ (fun m hm => (hG m hm).1), gisin_const,
        h.2 A P φ v hP hv]
      obtain ⟨idx, i1, i2⟩ := hvalid x hx
      rw [← binary_dims] at i1 i2
      rw [i2] at hs ⊢
      rw [hn idx i1 s hs, hv idx i1]
    · rw [he] at hp
      simp at hp
  · have hsome : (resolve ⟨counts.map (· + 1), symbol⟩ ((makeRaw byId (terms.map (fun x => term (x.1 + 1) x.2) ++ [term 1 c])).map
        fun m => (m.id - 1, m.factor))).isSome = true := by
      rw [resolve_isSome]
      intro x hx
      obtain ⟨idx, i1, i2⟩ := hvalid x hx
      obtain ⟨s, hs1, _⟩ := hs idx i1
      rw [i2]
      simp [hs1]
    obtain ⟨l, hl⟩ := Option.isSome_iff_exists.mp hsome
    rw [hl] at he
    rw [he]
    rfl
  · have hg : e.gisin = makeRaw byId (terms.map (fun x => term (x.1 + 1) x.2) ++ [term 1 c]) := by rw [he]; split <;> rfl
    refine ⟨(draws_of_terms (cg := ⟨counts.map (· + 1), symbol⟩) (e := ⟨e.gisin, none⟩) (T := terms ++ [(0, c)]) (by simp [hg]) h.1 (by simp)).1,
      fun hs m hm _ => ?_⟩
    split at he
    · rename_i l hl
      have hl' := Option.isSome_iff_exists.mpr ⟨l, hl⟩
      rw [resolve_isSome] at hl'
      rw [hg] at hm
      exact hl' (m.id - 1, m.factor) (List.mem_map.mpr ⟨m, hm, rfl⟩)
    · rw [he] at hs
      simp at hs

theorem pick_valid {counts index : List Nat} (hx : List.Forall₂ (· < ·) index (counts.map (· + 1))) (b : List Bool) :
    List.Forall₂ (· < ·) (pick 0 (active index) b index) (counts.map (· + 1)) := pick_lt 0 _ _ _ _ hx (by simp)

theorem zero_valid (counts : List Nat) :
    ∃ idx, List.Forall₂ (· < ·) idx (counts.map (· + 1)) ∧ 0 = position (counts.map (· + 1)) idx :=
  ⟨List.replicate counts.length 0, zeros_lt counts _ rfl, (position_zeros _ _).symm⟩

/-- Sum over a range from both ends. -/
theorem middle_sum (f : Nat → ℂ) (n : Nat) : f n + ((List.range (n - 1)).map fun k => f (n - 1 - k)).sum + (if n = 0 then 0 else f 0) =
    ((List.range (n + 1)).map f).sum := by
  cases n with
  | zero => simp
  | succ n =>
    rw [Nat.add_sub_cancel, if_neg (by omega), List.range_succ, List.map_append, List.sum_append, List.range_succ_eq_map, List.map_cons, List.sum_cons, List.map_map]
    have : ((List.range n).map fun k => f (n - k)).sum = ((List.range n).map (f ∘ Nat.succ)).sum := by
      have h1 : (List.range n).map (f ∘ Nat.succ) = ((List.range n).map fun k => f (n - k)).reverse := by
        refine List.ext_getElem (by simp) fun i h1 h2 => ?_
        have : i < n := by simpa using h1
        simp only [List.getElem_map, List.getElem_range, List.getElem_reverse, List.length_map, List.length_range, Function.comp]
        congr 1
        omega
      rw [h1, List.sum_reverse]
    rw [this]
    simp
    ring

/-- All elements for at most 30 parties, with the entries that they are made of. -/
theorem correlators_made (counts : List Nat) (t : Table) (o : Order) (symbol : Nat → Option Nat) (index : List Nat)
    (hx : List.Forall₂ (· < ·) index (counts.map (· + 1))) (hn : index.countP (· > 0) ≤ 30) :
    ∃ e, makeCorrelator t o ⟨counts.map (· + 1), symbol⟩ (counts.map (· + 1)) index = some e ∧
      Correct counts t ⟨counts.map (· + 1), symbol⟩ index e ∧
      ((∀ idx, List.Forall₂ (· < ·) idx (counts.map (· + 1)) → ∃ s, symbol (position (counts.map (· + 1)) idx) = some s ∧ 0 < s) →
        e.symbols.isSome = true) ∧
      Draws (counts.map (· + 1)) ⟨counts.map (· + 1), symbol⟩ e := by
  have hlen : index.length = (counts.map (· + 1)).length := hx.length_eq
  have hinv : (involved index).length = marked (active index) := by rw [involved_eq, positions_length]
  have hcount : marked (active index) ≤ 30 := by
    have : marked (active index) = index.countP (· > 0) := by
      unfold marked active
      rw [List.count, List.countP_map]
      congr 1
      funext x
      simp
    omega
  have hself : pick 0 (active index) (List.replicate (marked (active index)) true) index = index := pick_true 0 _ index
  have hzero : position (counts.map (· + 1)) (pick 0 (active index) (List.replicate (marked (active index)) false) index) = 0 := by
    rw [pick_false, position_zeros]
  have hoff : ∀ b, Tensor.indexToOffsetNoChecks true (counts.map (· + 1)) (pick 0 (active index) b index) =
      position (counts.map (· + 1)) (pick 0 (active index) b index) := fun b => offset_eq (by rw [pick_length, hlen])
  have hoffx : Tensor.indexToOffsetNoChecks true (counts.map (· + 1)) index = position (counts.map (· + 1)) index := offset_eq hlen
  have hchk : ∀ b, Tensor.indexToOffset true (counts.map (· + 1)) (pick 0 (active index) b index) =
      some (position (counts.map (· + 1)) (pick 0 (active index) b index)) := fun b => by
    rw [Tensor.indexToOffset, if_pos ((Tensor.validate_iff _ _).mpr (pick_valid hx b)), hoff]
  unfold makeCorrelator
  match hm : involved index with
  | [] =>
    have hm0 : marked (active index) = 0 := by rw [← hinv, hm]; rfl
    have hφ : ∀ (A : Type) [Ring A] [Algebra ℂ A] (P : Nat → Nat → Nat → A) (φ : A →ₗ[ℂ] ℂ) (v : Nat → ℂ), Complete (binary counts) P →
        Describes (binary counts) P φ v → v 0 = φ (correlation P 0 index) := by
      intro A _ _ P φ v hP hv
      rw [← subsets_total hv hP hx, hm0]
      rw [hm0] at hzero
      simp only [List.replicate_zero] at hzero
      simp [allBits, marked, hzero]
    refine ⟨_, rfl, fun A _ _ P φ hP => ⟨fun v hv => ?_, fun v w p hv hw hn' h1 hp => ?_⟩, fun _ => rfl, ?_⟩
    · rw [makeId, makeRaw_value _ rfl, ← hφ A P φ v hP hv]
      simp [value, Mono.value, term, entry]
    · simp only [makeId, Option.some.injEq] at hp
      rw [← hp, makeRaw_value _ hw.zero, ← hφ A P φ v hP hv, entry_zero hv, ← h1]
      simp [value, Mono.value, term]
    · refine draws_of_terms (T := [(0, 1)]) rfl (fun x hx => ?_) fun _ x hx h0 => ?_
      · rw [List.mem_singleton] at hx; subst hx; exact zero_valid counts
      · rw [List.mem_singleton] at hx; subst hx; exact absurd rfl h0
  | [a] =>
    have hm1 : marked (active index) = 1 := by rw [← hinv, hm]; rfl
    have h := withConstant_correct t o symbol (counts := counts) (index := index) (terms := [(position (counts.map (· + 1)) index, 2)]) (c := -1) ⟨by
      intro x hx'
      rcases List.mem_append.mp hx' with h | h
      · rw [List.mem_singleton] at h; subst h; exact ⟨index, hx, rfl⟩
      · rw [List.mem_singleton] at h; subst h; exact zero_valid counts, by
      intro A _ _ P φ v hP hv
      rw [← subsets_total hv hP hx, hm1]
      rw [hm1] at hself hzero
      simp only [List.replicate_one] at hself hzero
      simp [allBits, marked, hself, hzero, total]⟩
    refine ⟨_, rfl, ?_⟩
    unfold makeOne
    dsimp only
    rw [hoffx]
    exact h
  | [a, b] =>
    have hm2 : marked (active index) = 2 := by rw [← hinv, hm]; rfl
    have ha : restrictTo index [a] = pick 0 (active index) [true, false] index := by
      rw [← restrictTo_pick index [true, false] (by rw [hm2]; rfl), hm]
      rfl
    have hb : restrictTo index [b] = pick 0 (active index) [false, true] index := by
      rw [← restrictTo_pick index [false, true] (by rw [hm2]; rfl), hm]
      rfl
    have h := withConstant_correct t o symbol (counts := counts) (index := index)
      (terms := [(position (counts.map (· + 1)) index, 4), (position (counts.map (· + 1)) (pick 0 (active index) [true, false] index), -2),
        (position (counts.map (· + 1)) (pick 0 (active index) [false, true] index), -2)]) (c := 1) ⟨by
      intro x hx'
      simp only [List.cons_append, List.nil_append, List.mem_cons, List.not_mem_nil, or_false] at hx'
      rcases hx' with rfl | rfl | rfl | rfl
      · exact ⟨index, hx, rfl⟩
      · exact ⟨_, pick_valid hx _, rfl⟩
      · exact ⟨_, pick_valid hx _, rfl⟩
      · exact zero_valid counts, by
      intro A _ _ P φ v hP hv
      rw [← subsets_total hv hP hx, hm2]
      rw [hm2] at hself hzero
      simp only [List.replicate_succ, List.replicate_zero] at hself hzero
      simp [allBits, marked, hself, hzero, total]
      norm_num⟩
    dsimp only
    unfold makeTwo
    dsimp only
    rw [ha, hb, hchk, hchk, hoffx]
    exact ⟨_, rfl, h⟩
  | a :: b :: c :: l =>
    have hn3 : 3 ≤ marked (active index) := by rw [← hinv, hm]; simp
    dsimp only
    rw [← hm]
    unfold makeGeneral
    dsimp only
    rw [hinv, if_neg (by omega)]
    refine ⟨_, rfl, attempt_correct t o symbol ?_ _ rfl⟩
    have hres : ∀ k < marked (active index) - 1, ∀ p ∈ partitions (marked (active index)) (marked (active index) - 1 - k),
        Tensor.indexToOffsetNoChecks true (counts.map (· + 1)) (restrictTo index (p.1.map fun i => (involved index).getD i 0)) =
          position (counts.map (· + 1)) (pick 0 (active index) p.2.2 index) := by
      intro k hk p hp
      obtain ⟨g1, _, g3⟩ := mem_partitions (by omega) hp
      rw [g3, restrictTo_pick index _ g1, hoff]
    constructor
    · intro x hx'
      rw [List.cons_append, List.mem_cons, List.mem_append, List.mem_singleton] at hx'
      rcases hx' with rfl | h | rfl
      · exact ⟨index, hx, hoffx⟩
      · obtain ⟨k, hk, h⟩ := List.mem_flatMap.mp h
        obtain ⟨p, hp, rfl⟩ := List.mem_map.mp h
        exact ⟨_, pick_valid hx p.2.2, hres k (List.mem_range.mp hk) p hp⟩
      · exact zero_valid counts
    · intro A _ _ P φ v hP hv
      rw [← subsets_total hv hP hx, ← sum_fields]
      rw [← middle_sum (fun K => ((partitions (marked (active index)) K).map fun p => 2 ^ marked p.2.2 * (-1) ^ (marked (active index) - marked p.2.2) *
        v (position (counts.map (· + 1)) (pick 0 (active index) p.2.2 index))).sum) (marked (active index)), if_neg (by omega)]
      rw [List.cons_append]
      have hcons : ∀ (x : Nat × ℂ) T, total v (x :: T) = x.2 * v x.1 + total v T := fun x T => by simp [total]
      rw [hcons, total_append, ← add_assoc]
      congr 1
      · congr 1
        · have := congrArg (fun l => (l.map fun b => 2 ^ marked b * (-1) ^ (marked (active index) - marked b) *
            v (position (counts.map (· + 1)) (pick 0 (active index) b index))).sum) (partitions_full (marked (active index)))
          simp only [List.map_map, Function.comp_def] at this
          rw [this, hoffx]
          have hmr : marked (List.replicate (marked (active index)) true) = marked (active index) := by
            conv_lhs => rw [marked, List.count_replicate_self]
          simp [hself, hmr]
        · rw [total_flatMap]
          congr 1
          refine List.map_congr_left fun k hk => ?_
          have hk' := List.mem_range.mp hk
          unfold total
          rw [List.map_map]
          congr 1
          refine List.map_congr_left fun p hp => ?_
          obtain ⟨_, g2, _⟩ := mem_partitions (by omega) hp
          simp only [Function.comp]
          rw [hres k hk' p hp, g2, factorAt_eq _ _ (by omega), show marked (active index) - (k + 1) = marked (active index) - 1 - k by omega,
            show marked (active index) - (marked (active index) - 1 - k) = k + 1 by omega]
      · rw [partitions_zero]
        have hmr : marked (List.replicate (marked (active index)) false) = 0 := by
          conv_lhs => unfold marked
          simp [List.count_replicate]
        simp [total, factorAt_eq, hzero, hmr]

/-- All elements for at most 30 parties. -/
theorem C95_correlators_partial (counts : List Nat) (t : Table) (o : Order) (symbol : Nat → Option Nat) (index : List Nat)
    (hx : List.Forall₂ (· < ·) index (counts.map (· + 1))) (hn : index.countP (· > 0) ≤ 30) :
    ∃ e, makeCorrelator t o ⟨counts.map (· + 1), symbol⟩ (counts.map (· + 1)) index = some e ∧
      Correct counts t ⟨counts.map (· + 1), symbol⟩ index e ∧
      ((∀ idx, List.Forall₂ (· < ·) idx (counts.map (· + 1)) → ∃ s, symbol (position (counts.map (· + 1)) idx) = some s ∧ 0 < s) →
        e.symbols.isSome = true) := by
  obtain ⟨e, a, b, c, _⟩ := correlators_made counts t o symbol index hx hn
  exact ⟨e, a, b, c⟩

/-- Three parties with two measurements each: the second measurement of the first party and the first of the others. -/
example (t : Table) (o : Order) : ∃ e, makeCorrelator t o ⟨[3, 3, 3], some⟩ [3, 3, 3] [2, 1, 1] = some e ∧
    Correct [2, 2, 2] t ⟨[3, 3, 3], some⟩ [2, 1, 1] e := by
  obtain ⟨e, h1, h2, _⟩ := C95_correlators_partial [2, 2, 2] t o some [2, 1, 1]
    (List.Forall₂.cons (by decide) (List.Forall₂.cons (by decide) (List.Forall₂.cons (by decide) List.Forall₂.nil))) (by decide)
  exact ⟨e, h1, h2⟩

/-- Operators that are complete: outcomes 0 with certainty. -/
example : Complete (A := ℂ) (binary [2, 2, 2]) (fun _ _ k => if k = 0 then 1 else 0) := by
  intro d mm m n hd hm
  have hmm : mm ∈ binary [2, 2, 2] := List.mem_of_getElem? hd
  have : mm = List.replicate 2 (2, false) := by simpa [binary] using hmm
  subst this
  have : (n, false) ∈ List.replicate 2 (2, false) := List.mem_of_getElem? hm
  have : n = 2 := by simpa using this
  subst this
  simp [Finset.sum_range_succ]

/-- Scenarios that can have correlators are those in which all measurements have two outcomes, and the dimensions of the tensors agree. -/
theorem C95_scenarios (s : Locality.Scenario) : canHaveCorrelators s = true ↔
    localityParties s = binary (s.map List.length) ∧ correlatorDims s = (s.map List.length).map (· + 1) ∧
      localityGisinDims s = (s.map List.length).map (· + 1) := by
  have hone : ∀ mmts : List Nat, (mmts.all (· == 2)) = true ↔ mmts.map (fun n => (n, false)) = List.replicate mmts.length (2, false) := by
    intro mmts
    rw [List.eq_replicate_iff]
    simp
  have hdims : correlatorDims s = (s.map List.length).map (· + 1) := by simp [correlatorDims]
  constructor
  · intro h
    unfold canHaveCorrelators at h
    rw [List.all_eq_true] at h
    have h1 : localityParties s = binary (s.map List.length) := by
      unfold localityParties binary
      rw [List.map_map]
      exact List.map_congr_left fun mmts hm => (hone mmts).mp (h mmts hm)
    refine ⟨h1, hdims, ?_⟩
    have : localityGisinDims s = gisinDims (localityParties s) := by
      simp only [localityGisinDims, gisinDims, localityParties, stored, List.map_map]
      refine List.map_congr_left fun mmts _ => ?_
      simp only [Function.comp_def, List.map_map, Bool.false_eq_true, if_false]
      congr 2
    rw [this, h1, binary_dims]
  · rintro ⟨h1, _, _⟩
    unfold canHaveCorrelators
    rw [List.all_eq_true]
    intro mmts hm
    rw [hone]
    unfold localityParties binary at h1
    rw [List.map_map] at h1
    exact List.map_inj_left.mp h1 mmts hm

example : canHaveCorrelators [[2, 2], [2]] = true ∧ canHaveCorrelators [[2, 3], [2]] = false := by decide

/-- With 31 parties there are valid indices whose elements cannot be made. -/
theorem C95_refuted_parties (t : Table) (o : Order) (symbol : Nat → Option Nat) : ∃ counts index : List Nat,
    List.Forall₂ (· < ·) index (counts.map (· + 1)) ∧
      makeCorrelator t o ⟨counts.map (· + 1), symbol⟩ (counts.map (· + 1)) index = none := by
  refine ⟨List.replicate 31 1, List.replicate 31 1, ?_, ?_⟩
  · rw [List.map_replicate]
    have : ∀ n, List.Forall₂ (· < ·) (List.replicate n 1) (List.replicate n (1 + 1)) := by
      intro n
      induction n with
      | zero => simp
      | succ n ih => rw [List.replicate_succ, List.replicate_succ]; exact List.Forall₂.cons (by omega) ih
    exact this 31
  · have h : ∃ a b c l, involved (List.replicate 31 1) = a :: b :: c :: l := ⟨0, 1, 2, _, rfl⟩
    obtain ⟨a, b, c, l, h⟩ := h
    unfold makeCorrelator
    rw [h]
    dsimp only
    rw [← h]
    unfold makeGeneral
    have hl : (involved (List.replicate 31 1)).length = 31 := by decide
    dsimp only
    rw [hl, if_pos (by omega)]

end Moment.C95
