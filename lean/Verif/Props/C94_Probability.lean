import Verif.Proof.Probability
import Verif.Proof.Tensor
import Mathlib.Tactic.IntervalCases
import Mathlib.Tactic.NoncommRing
import Mathlib.Tactic.NormNum

/-! # C94: the probability tensor

Every element of the probability tensor is a polynomial in entries of the Collins-Gisin tensor (and in symbols) whose value is that of the product of
the operators of the outcomes, whether these have operators of their own or are implied. The operators may be those of any algebra. -/

namespace Moment.C94

open Moment.Probability Moment.Poly

/-- Symbols of the entries of the Collins-Gisin tensor have the values of these entries. -/
def Named {A : Type} [Ring A] [Algebra ℂ A] (ps : Parties) (cg : Gisin) (P : Nat → Nat → Nat → A) (φ : A →ₗ[ℂ] ℂ) (w : Nat → ℂ) : Prop :=
  ∀ idx, List.Forall₂ (· < ·) idx (gisinDims ps) → ∀ s, cg.symbol (position (gisinDims ps) idx) = some s → w s = φ (joint P 0 (gisinChoices ps idx))

/-- The element is the product of the operators of the outcomes. -/
def Correct (ps : Parties) (t : Table) (cg : Gisin) (index : List Nat) (e : Element) : Prop :=
  ∀ (A : Type) [Ring A] [Algebra ℂ A] (P : Nat → Nat → Nat → A) (φ : A →ₗ[ℂ] ℂ), Complete ps P →
    (∀ v, Describes ps P φ v → value (entry v) e.gisin = φ (joint P 0 (fullChoices ps index))) ∧
    (∀ v w p, Describes ps P φ v → Respects t w → Named ps cg P φ w → e.symbols = some p → value w p = φ (joint P 0 (fullChoices ps index)))

theorem marked_zero : ∀ {fl : List Bool} {bs fs ds : List Nat}, Ranges fl bs fs ds → marked fl = 0 → List.Forall₂ (· < ·) bs ds ∧
    ∀ (A : Type) [Ring A] [Algebra ℂ A] (P : Nat → Nat → Nat → A) (ps : Parties) (d : Nat), ps.length = ds.length →
      joint P d (gisinChoices ps bs) = prodAll (-1) 1 fl (sums P d ps bs fs) := by
  intro fl bs fs ds h
  induction h with
  | nil =>
    intro _
    refine ⟨List.Forall₂.nil, fun A _ _ P ps d hp => ?_⟩
    rw [List.length_eq_zero_iff.mp hp]
    simp [gisinChoices, joint, prodAll]
  | free b d0 hb _ ih =>
    intro hm
    obtain ⟨g1, g2⟩ := ih (by simpa [marked] using hm)
    refine ⟨List.Forall₂.cons hb g1, fun A _ _ P ps d hp => ?_⟩
    cases ps with
    | nil => simp at hp
    | cons mm ps =>
      rw [sums, prodAll, ← g2 A P ps (d + 1) (by simpa using hp)]
      simp [gisinChoices, joint]
  | marked b f d h1 h2 h3 _ ih => intro hm; simp [marked] at hm

/-- The polynomial of Collins-Gisin entries has entries that exist, with positive numbers, and if the element has symbols, then all of them do, except
that the constant entry may not. -/
def Draws (dims : List Nat) (cg : Gisin) (e : Element) : Prop :=
  (∀ m ∈ e.gisin, m.id ≠ 0 ∧ m.conj = false ∧ ∃ idx, List.Forall₂ (· < ·) idx dims ∧ m.id - 1 = position dims idx) ∧
  (e.symbols.isSome = true → ∀ m ∈ e.gisin, m.id ≠ 1 → (cg.symbol (m.id - 1)).isSome = true)

theorem draws_of_terms {dims : List Nat} {cg : Gisin} {e : Element} {T : List (Nat × ℂ)} (hg : e.gisin = makeRaw byId (T.map fun x => term (x.1 + 1) x.2))
    (hv : ∀ x ∈ T, ∃ idx, List.Forall₂ (· < ·) idx dims ∧ x.1 = position dims idx)
    (hs : e.symbols.isSome = true → ∀ x ∈ T, x.1 ≠ 0 → (cg.symbol x.1).isSome = true) : Draws dims cg e := by
  have key : ∀ m ∈ e.gisin, (m.id ≠ 0 ∧ m.conj = false) ∧ ∃ x ∈ T, m.id - 1 = x.1 := by
    intro m hm
    rw [hg] at hm
    obtain ⟨⟨y, hy, e1, e2⟩, _, h0⟩ := makeRaw_mem hm
    obtain ⟨x, hx, rfl⟩ := List.mem_map.mp hy
    exact ⟨⟨h0, e2.symm⟩, x, hx, by rw [← e1]; rfl⟩
  refine ⟨fun m hm => ?_, fun h m hm h1 => ?_⟩
  · obtain ⟨⟨a, b⟩, x, hx, e⟩ := key m hm
    obtain ⟨idx, i1, i2⟩ := hv x hx
    exact ⟨a, b, idx, i1, e.trans i2⟩
  · obtain ⟨⟨a, _⟩, x, hx, e⟩ := key m hm
    rw [e]
    exact hs h x hx (by omega)

/-- All elements of the probability tensor, with the entries that they are made of. -/
theorem probability_made (ps : Parties) (h1 : ∀ mm ∈ ps, ∀ m ∈ mm, 1 ≤ m.1) (t : Table) (o : Order) (cg : Gisin) (hd : cg.dims = gisinDims ps)
    (index : List Nat) (hx : List.Forall₂ (· < ·) index (fullDims ps)) :
    ∃ e, makeElement t o cg (dimensionInfo (ps.map List.length) ps.flatten) index = some e ∧ Correct ps t cg index e ∧
      ((∀ idx, List.Forall₂ (· < ·) idx (gisinDims ps) → (cg.symbol (position (gisinDims ps) idx)).isSome = true) → e.symbols.isSome = true) ∧
      Draws (gisinDims ps) cg e := by
  have hR := (tables_spec (A := ℂ) ps 0 index h1 hx).1
  have hpl : ps.length = (gisinDims ps).length := (gisinDims_length ps).symm
  have hC : ∀ (A : Type) [Ring A] [Algebra ℂ A] (P : Nat → Nat → Nat → A), Complete ps P →
      prodAll (-1) 1 (flags ps index) (sums P 0 ps (bases ps index) (finals ps index)) = joint P 0 (fullChoices ps index) := by
    intro A _ _ P hP
    exact (tables_spec ps 0 index h1 hx).2 P (by simpa using hP)
  have hE : elementInfo 0 (dimensionInfo (ps.map List.length) ps.flatten) index = (bases ps index, finals ps index, positions 0 (flags ps index)) := by
    rw [dimensionInfo_eq, elementInfo_eq]; rfl
  unfold makeElement
  dsimp only
  rw [hE]
  dsimp only
  rw [positions_length, hd]
  by_cases h0 : marked (flags ps index) = 0
  · obtain ⟨g1, g2⟩ := marked_zero hR h0
    rw [if_pos h0, Tensor.indexToOffset, if_pos ((Tensor.validate_iff _ _).mpr g1), offset_eq g1.length_eq]
    refine ⟨_, rfl, fun A _ _ P φ hP => ⟨fun v hv => ?_, fun v w p hv hw hn hp => ?_⟩, fun hs => ?_, ?_⟩
    · have := gisin_value v [(position (gisinDims ps) (bases ps index), 1)]
      simp only [List.map_cons, List.map_nil] at this
      rw [this, ← hC A P hP, ← g2 A P ps 0 hpl, ← hv _ g1]
      simp [total]
    · dsimp only at hp
      cases hs : cg.symbol (position (gisinDims ps) (bases ps index)) with
      | none => rw [hs] at hp; simp at hp
      | some s =>
        rw [hs] at hp
        simp only [Option.map_some, Option.some.injEq] at hp
        rw [← hp, makeRaw_value w hw.zero, ← hC A P hP, ← g2 A P ps 0 hpl, ← hn _ g1 s hs]
        simp [value, Mono.value, term]
    · have := hs _ g1
      simpa using this
    · refine draws_of_terms (T := [(position (gisinDims ps) (bases ps index), 1)]) rfl (fun x hx => ?_) fun h x hx _ => ?_
      · rw [List.mem_singleton] at hx; subst hx; exact ⟨_, g1, rfl⟩
      · rw [List.mem_singleton] at hx; subst hx; simpa using h
  · rw [if_neg h0]
    have hne : ps ≠ [] := by
      rintro rfl
      exact h0 (by simp [flags, marked])
    refine ⟨_, rfl, fun A _ _ P φ hP => ⟨fun v hv => ?_, fun v w p hv hw hn hp => ?_⟩, fun hs => ?_, ?_⟩
    · rw [gisin_value, terms_total hv hne hR, hC A P hP]
    · dsimp only at hp
      obtain ⟨l, hl, rfl⟩ := Option.map_eq_some_iff.mp hp
      rw [make_value hw, resolve_value (v := v) (fun x hx s hs => ?_) hl, terms_total hv hne hR, hC A P hP]
      obtain ⟨idx, i1, i2⟩ := terms_valid hne hR hx
      rw [i2] at hs ⊢
      rw [hn idx i1 s hs, hv idx i1]
    · simp only [Option.isSome_map]
      rw [resolve_isSome]
      intro x hx
      obtain ⟨idx, i1, i2⟩ := terms_valid hne hR hx
      rw [i2]
      exact hs idx i1
    · refine draws_of_terms rfl (fun x hx => terms_valid hne hR hx) fun h x hx _ => ?_
      simp only [Option.isSome_map] at h
      exact resolve_isSome.mp h x hx

/-- All elements of the probability tensor. -/
theorem C94_probability (ps : Parties) (h1 : ∀ mm ∈ ps, ∀ m ∈ mm, 1 ≤ m.1) (t : Table) (o : Order) (cg : Gisin) (hd : cg.dims = gisinDims ps)
    (index : List Nat) (hx : List.Forall₂ (· < ·) index (fullDims ps)) :
    ∃ e, makeElement t o cg (dimensionInfo (ps.map List.length) ps.flatten) index = some e ∧ Correct ps t cg index e ∧
      ((∀ idx, List.Forall₂ (· < ·) idx (gisinDims ps) → (cg.symbol (position (gisinDims ps) idx)).isSome = true) → e.symbols.isSome = true) := by
  obtain ⟨e, a, b, c, _⟩ := probability_made ps h1 t o cg hd index hx
  exact ⟨e, a, b, c⟩

/-- Two parties with a measurement each, that of the first with three outcomes: the last outcomes of both. -/
example (t : Table) (o : Order) : ∃ e, makeElement t o ⟨[3, 2], some⟩ (dimensionInfo [1, 1] [(3, false), (2, false)]) [3, 2] = some e ∧
    Correct [[(3, false)], [(2, false)]] t ⟨[3, 2], some⟩ [3, 2] e ∧ e.symbols.isSome = true := by
  obtain ⟨e, h1, h2, h3⟩ := C94_probability [[(3, false)], [(2, false)]] (by decide) t o ⟨[3, 2], some⟩ rfl [3, 2]
    (List.Forall₂.cons (by decide) (List.Forall₂.cons (by decide) List.Forall₂.nil))
  exact ⟨e, h1, h2, h3 fun _ _ => rfl⟩

/-- The choices of that element, and operators for it. -/
example : fullChoices [[(3, false)], [(2, false)]] [3, 2] = [some (0, 2), some (0, 1)] ∧
    Complete (A := ℂ) [[(3, false)], [(2, false)]] (fun d _ k => if d = 0 then (if k = 0 then 1 / 2 else 1 / 4) else 1 / 2) ∧
    Describes (A := ℂ) [[(3, false)], [(2, false)]] (fun d _ k => if d = 0 then (if k = 0 then 1 / 2 else 1 / 4) else 1 / 2) LinearMap.id
      (fun n => [1, 1 / 2, 1 / 4, 1 / 2, 1 / 4, 1 / 8].getD n 0) := by
  refine ⟨by decide, fun d mm m n hd hm => ?_, fun idx hi => ?_⟩
  · rcases d with _ | _ | d
    · simp at hd; subst hd
      rcases m with _ | m
      · simp at hm; subst hm; norm_num [Finset.sum_range_succ]
      · simp at hm
    · simp at hd; subst hd
      rcases m with _ | m
      · simp at hm; subst hm; norm_num [Finset.sum_range_succ]
      · simp at hm
    · simp at hd
  · cases hi with
    | cons a hi => cases hi with
      | cons b hi =>
        cases hi
        rename_i x y
        have ha : x < 3 := a
        have hb : y < 2 := b
        interval_cases x <;> interval_cases y <;> norm_num [position, gisinDims, stored, joint, gisinChoices, single, choice, locate]

/-! ## Probabilities add up -/

theorem joint_set {A : Type} [Ring A] (P : Nat → Nat → Nat → A) (cs : List (Option (Nat × Nat))) : ∀ (d i : Nat), i < cs.length →
    ∃ L R : A, ∀ c, joint P d (cs.set i c) = L * single P (d + i) c * R := by
  induction cs with
  | nil => intro d i h; simp at h
  | cons c0 cs ih =>
    intro d i h
    cases i with
    | zero => exact ⟨1, joint P (d + 1) cs, fun c => by simp [joint]⟩
    | succ i =>
      obtain ⟨L, R, h'⟩ := ih (d + 1) i (by simpa using h)
      refine ⟨single P d c0 * L, R, fun c => ?_⟩
      rw [List.set_cons_succ, joint, h' c, show d + 1 + i = d + (i + 1) by omega]
      noncomm_ring

theorem fullChoices_set (ps : Parties) : ∀ (index : List Nat) (i x : Nat) (mm : List (Nat × Bool)), ps[i]? = some mm → index.length = ps.length →
    fullChoices ps (index.set i x) = (fullChoices ps index).set i (choice (outcomes mm) x) := by
  induction ps with
  | nil => intro index i x mm h; simp at h
  | cons m0 ps ih =>
    intro index i x mm h hl
    cases index with
    | nil => simp at hl
    | cons y index =>
      cases i with
      | zero =>
        simp at h
        subst h
        simp [fullChoices]
      | succ i =>
        have := ih index i x mm (by simpa using h) (by simpa using hl)
        simp only [fullChoices] at this
        simp [fullChoices, this]

theorem locate_at : ∀ (cs : List Nat) (m k n : Nat), cs[m]? = some n → k < n → locate cs ((cs.take m).sum + k) = some (m, k) := by
  intro cs
  induction cs with
  | nil => intro m k n h; simp at h
  | cons c cs ih =>
    intro m k n h hk
    cases m with
    | zero =>
      simp at h
      subst h
      simp [locate, hk]
    | succ m =>
      have := ih m k n (by simpa using h) hk
      rw [locate, List.take_succ_cons, List.sum_cons, if_neg (by omega), show c + (cs.take m).sum + k - c = (cs.take m).sum + k by omega, this]
      rfl

/-- Outcomes of a measurement of party `d`, whatever the others do: the values of the elements add up to that of the element without this
measurement. There is no signalling, and probabilities are normalized. -/
theorem C94_no_signalling (ps : Parties) (h1 : ∀ mm ∈ ps, ∀ m ∈ mm, 1 ≤ m.1) (t : Table) (o : Order) (cg : Gisin) (hd : cg.dims = gisinDims ps)
    (index : List Nat) (hx : List.Forall₂ (· < ·) index (fullDims ps)) (d m n : Nat) (mm : List (Nat × Bool)) (hmm : ps[d]? = some mm)
    (hm : mm[m]? = some (n, false)) {A : Type} [Ring A] [Algebra ℂ A] (P : Nat → Nat → Nat → A) (φ : A →ₗ[ℂ] ℂ) (hP : Complete ps P)
    (v : Nat → ℂ) (hv : Describes ps P φ v) :
    ∃ (whole : Element) (parts : Nat → Element),
      makeElement t o cg (dimensionInfo (ps.map List.length) ps.flatten) (index.set d 0) = some whole ∧
      (∀ k < n, makeElement t o cg (dimensionInfo (ps.map List.length) ps.flatten) (index.set d (1 + ((outcomes mm).take m).sum + k)) =
        some (parts k)) ∧
      ∑ k ∈ Finset.range n, value (entry v) (parts k).gisin = value (entry v) whole.gisin := by
  have hset : ∀ x, x < (outcomes mm).sum + 1 → List.Forall₂ (· < ·) (index.set d x) (fullDims ps) := by
    intro x hxl
    have hl := hx.length_eq
    rw [List.forall₂_iff_get] at hx ⊢
    refine ⟨by simpa using hx.1, fun i h2 h3 => ?_⟩
    by_cases hi : i = d
    · subst hi
      have hps : (fullDims ps)[i] = (outcomes mm).sum + 1 := by
        have : (fullDims ps)[i]? = some ((outcomes mm).sum + 1) := by simp [fullDims, hmm]
        exact (List.getElem?_eq_some_iff.mp this).2
      simp [hps, hxl]
    · have := hx.2 i (by simpa using h2) h3
      simp only [List.get_eq_getElem] at this ⊢
      rwa [List.getElem_set_ne (fun h => hi h.symm)]
  have hdl : d < ps.length := (List.getElem?_eq_some_iff.mp hmm).1
  have hil : index.length = ps.length := by simpa [fullDims] using hx.length_eq
  have hout : (outcomes mm)[m]? = some n := by simp [outcomes, hm]
  have hlt : ∀ k < n, 1 + ((outcomes mm).take m).sum + k < (outcomes mm).sum + 1 := by
    intro k hk
    have hs : ((outcomes mm).take m).sum + ((outcomes mm).drop m).sum = (outcomes mm).sum := by
      rw [← List.sum_append, List.take_append_drop]
    have hdr : (outcomes mm).drop m = n :: (outcomes mm).drop (m + 1) := by
      obtain ⟨q1, q2⟩ := List.getElem?_eq_some_iff.mp hout
      rw [List.drop_eq_getElem_cons q1, q2]
    rw [hdr, List.sum_cons] at hs
    omega
  obtain ⟨whole, w1, w2, _⟩ := C94_probability ps h1 t o cg hd _ (hset 0 (by omega))
  have hparts : ∀ k, ∃ e, k < n → makeElement t o cg (dimensionInfo (ps.map List.length) ps.flatten)
      (index.set d (1 + ((outcomes mm).take m).sum + k)) = some e ∧ Correct ps t cg (index.set d (1 + ((outcomes mm).take m).sum + k)) e := by
    intro k
    by_cases hk : k < n
    · obtain ⟨e, e1, e2, _⟩ := C94_probability ps h1 t o cg hd _ (hset _ (hlt k hk))
      exact ⟨e, fun _ => ⟨e1, e2⟩⟩
    · exact ⟨whole, fun h => absurd h hk⟩
  choose parts hp using hparts
  refine ⟨whole, parts, w1, fun k hk => (hp k hk).1, ?_⟩
  rw [(w2 A P φ hP).1 v hv, fullChoices_set ps index d 0 mm hmm hil]
  obtain ⟨L, R, hj⟩ := joint_set P (fullChoices ps index) 0 d (by simp [fullChoices, hil, hdl])
  rw [hj, Finset.sum_congr rfl fun k hk => by
    have hk' : k < n := by simpa using hk
    rw [((hp k hk').2 A P φ hP).1 v hv, fullChoices_set ps index d _ mm hmm hil, hj,
      show choice (outcomes mm) (1 + ((outcomes mm).take m).sum + k) = some (m, k) by
        rw [show 1 + ((outcomes mm).take m).sum + k = (((outcomes mm).take m).sum + k) + 1 by omega]
        exact locate_at _ _ _ _ hout hk']]
  rw [← map_sum, ← Finset.sum_mul, ← Finset.mul_sum]
  congr 3
  have := hP d mm m n hmm hm
  simp only [Nat.zero_add, single, choice]
  exact this

/-- The second of two measurements of the second party. -/
example (t : Table) (o : Order) {A : Type} [Ring A] [Algebra ℂ A] (P : Nat → Nat → Nat → A) (φ : A →ₗ[ℂ] ℂ)
    (hP : Complete [[(2, false)], [(2, false), (3, false)]] P) (v : Nat → ℂ) (hv : Describes [[(2, false)], [(2, false), (3, false)]] P φ v) :=
  C94_no_signalling [[(2, false)], [(2, false), (3, false)]] (by decide) t o ⟨[2, 4], some⟩ rfl [2, 0]
    (List.Forall₂.cons (by decide) (List.Forall₂.cons (by decide) List.Forall₂.nil)) 1 1 3 _ rfl rfl P φ hP v hv

/-! ## Scenarios -/

/-- The parties of a locality scenario. -/
def localityParties (s : Locality.Scenario) : Parties := s.map fun mmts => mmts.map fun n => (n, false)

/-- The tensor of the locality scenario. -/
theorem C94_locality (s : Locality.Scenario) (h1 : ∀ mmts ∈ s, ∀ n ∈ mmts, 1 ≤ n) (t : Table) (o : Order) (symbol : Nat → Option Nat)
    (index : List Nat) (hx : List.Forall₂ (· < ·) index (s.map fun mmts => mmts.sum + 1)) :
    ∃ e, makeElement t o ⟨localityGisinDims s, symbol⟩ (localityInfo s) index = some e ∧
      Correct (localityParties s) t ⟨localityGisinDims s, symbol⟩ index e := by
  have hdims : localityGisinDims s = gisinDims (localityParties s) := by
    simp only [localityGisinDims, gisinDims, localityParties, stored, List.map_map]
    refine List.map_congr_left fun mmts _ => ?_
    simp only [Function.comp_def, List.map_map, Bool.false_eq_true, if_false]
    congr 2
  have hinfo : localityInfo s = dimensionInfo ((localityParties s).map List.length) (localityParties s).flatten := by
    unfold localityInfo localityParties
    rw [List.map_flatten, List.map_map]
    congr 1
    simp [Function.comp_def]
  have hfull : fullDims (localityParties s) = s.map fun mmts => mmts.sum + 1 := by
    simp [fullDims, localityParties, outcomes, Function.comp_def]
  obtain ⟨e, e1, e2, _⟩ := C94_probability (localityParties s) (by
    intro mm hm m hmm
    obtain ⟨mmts, g1, rfl⟩ := List.mem_map.mp hm
    obtain ⟨n, g2, rfl⟩ := List.mem_map.mp hmm
    exact h1 mmts g1 n g2) t o ⟨localityGisinDims s, symbol⟩ hdims index (by rw [hfull]; exact hx)
  exact ⟨e, by rw [hinfo]; exact e1, e2⟩

example (t : Table) (o : Order) : ∃ e, makeElement t o ⟨localityGisinDims [[2, 2], [3]], some⟩ (localityInfo [[2, 2], [3]]) [4, 3] = some e ∧
    Correct (localityParties [[2, 2], [3]]) t ⟨localityGisinDims [[2, 2], [3]], some⟩ [4, 3] e :=
  C94_locality [[2, 2], [3]] (by decide) t o some [4, 3] (List.Forall₂.cons (by decide) (List.Forall₂.cons (by decide) List.Forall₂.nil))

/-- The variants of an inflation scenario, each a party with one measurement: all outcomes but the last have operators, and there is one operator for
an observable that is not projective. -/
def inflationParties (variants : List Nat) : Parties := variants.map fun n => [if n = 0 then (1, true) else (n, false)]

/-- The tensor of the inflation scenario (dimensions: inflation_collins_gisin.cpp:22-41). -/
theorem C94_inflation (variants : List Nat) (t : Table) (o : Order) (symbol : Nat → Option Nat) (index : List Nat)
    (hx : List.Forall₂ (· < ·) index (variants.map fun n => (if n = 0 then 1 else n) + 1)) :
    ∃ e, makeElement t o ⟨variants.map fun n => if n = 0 then 2 else n, symbol⟩ (inflationInfo variants) index = some e ∧
      Correct (inflationParties variants) t ⟨variants.map fun n => if n = 0 then 2 else n, symbol⟩ index e := by
  have hdims : (variants.map fun n => if n = 0 then 2 else n) = gisinDims (inflationParties variants) := by
    unfold gisinDims inflationParties
    rw [List.map_map]
    refine List.map_congr_left fun n _ => ?_
    by_cases h : n = 0 <;> simp [h, stored]
    omega
  have hinfo : inflationInfo variants = dimensionInfo ((inflationParties variants).map List.length) (inflationParties variants).flatten := by
    unfold inflationInfo inflationParties
    congr 1
    · simp [Function.comp_def]
    · clear hx hdims
      induction variants with
      | nil => rfl
      | cons n l ih => rw [List.map_cons, List.map_cons, ih]; rfl
  have hfull : fullDims (inflationParties variants) = variants.map fun n => (if n = 0 then 1 else n) + 1 := by
    unfold fullDims inflationParties
    rw [List.map_map]
    refine List.map_congr_left fun n _ => ?_
    by_cases h : n = 0 <;> simp [h, outcomes]
  obtain ⟨e, e1, e2, _⟩ := C94_probability (inflationParties variants) (by
    intro mm hm m hmm
    obtain ⟨n, g1, rfl⟩ := List.mem_map.mp hm
    rw [List.mem_singleton] at hmm
    subst hmm
    by_cases h : n = 0 <;> simp [h]
    omega) t o ⟨variants.map fun n => if n = 0 then 2 else n, symbol⟩ hdims index (by rw [hfull]; exact hx)
  exact ⟨e, by rw [hinfo]; exact e1, e2⟩

example (t : Table) (o : Order) := C94_inflation [2, 0, 3] t o some [2, 1, 3]
  (List.Forall₂.cons (by decide) (List.Forall₂.cons (by decide) (List.Forall₂.cons (by decide) List.Forall₂.nil)))

end Moment.C94
