import Verif.Proof.PolySystem

/-! # C97: refreshing tensors of probabilities and correlators

A locality system keeps a Collins-Gisin tensor, a probability tensor and a full-correlator tensor. However symbols are added and tensors are refreshed, the
elements keep the values of the observables they stand for, and refreshing finds all polynomials that can be found. -/

namespace Moment.C97
open Moment.PolyTensor
open Moment.Symbols (Table Env)
open Moment.SymbolMatrix
open Moment.Locality (Scenario Room IsSeq Represents moment)
open Moment.Probability (Element joint gisinChoices gisinDims fullDims fullChoices position correlation Complete Describes entry canHaveCorrelators
  correlatorDims binary)
open Moment.C94 (localityParties)
open Moment.C93 (Valid product Present)
open Moment.Gisin (Reach construct)

/-- The element has the value of the observable `X`: as polynomial in entries of the Collins-Gisin tensor, and, if it has one, as polynomial in symbols of
the table. It only has the latter if the words of all entries have symbols. -/
structure Right (s : Scenario) (t : Table) (X : Target) (e : Element) : Prop where
  entries : ∀ (A : Type) [Ring A] [Algebra ℂ A] (P : Nat → Nat → Nat → A) (φ : A →ₗ[ℂ] ℂ), Complete (localityParties s) P →
    ∀ v, Describes (localityParties s) P φ v → Poly.value (entry v) e.gisin = φ (X A P)
  symbols : ∀ (A : Type) [Ring A] [Algebra ℂ A] (P : Locality.Op → A) (φ : A →ₗ[ℂ] ℂ) (v : Nat → ℂ), Represents P →
    Complete (localityParties s) (fun d m k => P ⟨d, m, k⟩) → Agrees t (moment s P φ) v → ∀ p, e.symbols = some p →
    Poly.value v p = φ (X A fun d m k => P ⟨d, m, k⟩)
  words : e.symbols.isSome = true → ∀ idx, Mentions s e idx → Present t (C98.stored s (product s idx))

/-- The product of the operators of outcomes. -/
def outcomeAt (s : Scenario) (index : List Nat) : Target := fun _ _ _ P => joint P 0 (fullChoices (localityParties s) index)

/-- The product of observables. -/
def correlatorAt (index : List Nat) : Target := fun _ _ _ P => correlation P 0 index

/-- What can happen to a system: symbols are added (by any of the operations that add symbols), and tensors are refreshed. -/
inductive Run (s : Scenario) (L : Nat) (o : Poly.Order) : System → Prop
  | new {t : Table} : Ready (Locality.host s) (IsSeq s L) t → Run s L o ⟨t, none, none, none⟩
  | grow {S : System} {t : Table} : Run s L o S → Ready (Locality.host s) (IsSeq s L) t → Extends S.table t → Run s L o { S with table := t }
  | gisin {S S' : System} {b : Bool} : Run s L o S → S.refreshGisin s = some (S', b) → Run s L o S'
  | prob {S S' : System} {b : Bool} : Run s L o S → S.refreshProb s o = some (S', b) → Run s L o S'
  | corr {S S' : System} {b : Option Bool} : Run s L o S → S.refreshCorr s o = some (S', b) → Run s L o S'

theorem position_zero : ∀ {idx ds : List Nat}, List.Forall₂ (· < ·) idx ds → position ds idx = 0 → ∀ i ∈ idx, i = 0
  | _, _, .nil, _ => by simp
  | _, _, .cons (a := a) (b := b) h hs, hp => by
    unfold position at hp
    have h1 : a = 0 := by omega
    have h2 : b * position _ _ = 0 := (Nat.add_eq_zero_iff.mp hp).2
    have h3 : position _ _ = 0 := (Nat.mul_eq_zero.mp h2).resolve_left (by omega)
    intro i hi
    rcases List.mem_cons.mp hi with rfl | hi
    · exact h1
    · exact position_zero hs h3 i hi

theorem chosen_zero : ∀ (ps : Probability.Parties) (idx : List Nat) (d : Nat), (∀ i ∈ idx, i = 0) → Gisin.chosen d (gisinChoices ps idx) = []
  | [], _, _, _ => by simp [gisinChoices, Gisin.chosen]
  | _ :: _, [], _, _ => by simp [gisinChoices, Gisin.chosen]
  | mm :: ps, i :: idx, d, h => by
    have hi : i = 0 := h i (by simp)
    subst hi
    have ih := chosen_zero ps idx (d + 1) fun i hi => h i (List.mem_cons_of_mem _ hi)
    unfold gisinChoices at ih ⊢
    rw [List.zipWith_cons_cons]
    simpa [Probability.choice, Gisin.chosen] using ih

theorem probDims_eq (s : Scenario) : probDims s = fullDims (localityParties s) := by
  unfold probDims fullDims localityParties Probability.outcomes
  rw [List.map_map]
  refine List.map_congr_left fun mmts _ => ?_
  simp [Function.comp_def]

section
variable {s : Scenario} {L : Nat} (hne : s ≠ []) (h : Room s L) (hL : s.length ≤ L)
include hne h hL

theorem good_right {t : Table} (ht : Ready (Locality.host s) (IsSeq s L) t) {G : Gisin.Tensor} (hG : Reach s t G) {X : Target} {e : Element}
    (he : Good (localityParties s) (MatrixBasis.polyTable t) (G.view s t) X e) : Right s t X e := by
  refine ⟨he.gisin, fun A _ _ P φ v hP hc hv p hp => ?_, fun hs idx hm => ?_⟩
  · let d : Nat → ℂ := fun k =>
      φ (joint (fun d m k => P ⟨d, m, k⟩) 0 (gisinChoices (localityParties s) (MultiDim.nth true (Probability.localityGisinDims s) k)))
    refine he.symbols A _ φ hc d v p (fun idx hi => ?_) hv.flags (C93.C93_value hne h hL ht hG hP φ hv) ?_ hp
    · obtain ⟨k, -, g1, g2⟩ := C93.valid_nth hi
      rw [g2]
      show φ _ = _
      rw [g1]
    · obtain ⟨sym, h1, h2⟩ := present_identity h ht
      rw [hv.word 1 sym _ h1 h2]
      simp [moment, HSeq.identity, Locality.product, Rewrite.phase]
  · obtain ⟨hx, m, hm, hid⟩ := hm
    by_cases h1 : m.id = 1
    · have hp : position (gisinDims (localityParties s)) idx = 0 := by omega
      have : product s idx = [] := chosen_zero _ _ _ (position_zero hx hp)
      rw [this, stored_nil]
      obtain ⟨sym, a, b⟩ := present_identity h ht
      exact ⟨1, sym, a, b⟩
    · have hk := he.draws.2 hs m hm h1
      rw [hid, Nat.add_sub_cancel] at hk
      obtain ⟨t0, hext, hmade⟩ := hG.made
      rw [view_made hne h hL hmade hx] at hk
      rw [← found_present hne h hL ht hx]
      cases hv : G.isVirtual with
      | true => rw [hv] at hk; exact hk
      | false =>
        rw [hv] at hk
        obtain ⟨j, hj⟩ := Option.isSome_iff_exists.mp hk
        rw [found_mono hext (by simpa using hj)]
        rfl

/-- How elements of a kind of tensor are made. -/
structure Kind (s : Scenario) (L : Nat) (o : Poly.Order) (dims : List Nat) (make : Table → Gisin.Tensor → List Nat → Option Element) (X : List Nat → Target)
    (ok : List Nat → Prop) : Prop where
  ne : dims ≠ []
  small : Moment.Tensor.elementCount dims ≤ 1024 → ∀ index, List.Forall₂ (· < ·) index dims → ok index
  make : ∀ t G, Ready (Locality.host s) (IsSeq s L) t → Reach s t G → ∀ index, List.Forall₂ (· < ·) index dims → ok index → ∃ e, make t G index = some e ∧
    Good (localityParties s) (MatrixBasis.polyTable t) (G.view s t) (X index) e ∧
    ((∀ idx, Valid s idx → ∃ j, (G.view s t).symbol (position (gisinDims (localityParties s)) idx) = some j ∧ 0 < j) → e.symbols.isSome = true)

omit hne h hL in
theorem nth_of {dims index : List Nat} (hx : List.Forall₂ (· < ·) index dims) : ∃ k < dims.prod, MultiDim.nth true dims k = index ∧
    Moment.Tensor.indexToOffsetNoChecks true dims index = k := by
  obtain ⟨k, hk, rfl⟩ := (MultiDim.nth_mem true dims index).mpr hx
  exact ⟨k, hk, rfl, Moment.Tensor.rank_nth true dims k hk⟩

omit hne h hL in
theorem element_good {o : Poly.Order} {dims : List Nat} {make : Table → Gisin.Tensor → List Nat → Option Element} {X : List Nat → Target}
    {ok : List Nat → Prop} (hK : Kind s L o dims make X ok) {t : Table} (ht : Ready (Locality.host s) (IsSeq s L) t) {G : Gisin.Tensor} (hG : Reach s t G)
    {T : PolyTensor.Tensor} (hT : Holds (localityParties s) (MatrixBasis.polyTable t) (G.view s t) dims X T) {index : List Nat}
    (hx : List.Forall₂ (· < ·) index dims) (hok : ok index) : ∃ e, T.element dims (make t G) index = some e ∧
      Good (localityParties s) (MatrixBasis.polyTable t) (G.view s t) (X index) e := by
  unfold Tensor.element
  cases hv : T.isVirtual with
  | true =>
    obtain ⟨e, h1, h2, -⟩ := hK.make t G ht hG index hx hok
    exact ⟨e, by simpa using h1, h2⟩
  | false =>
    obtain ⟨k, hk, rfl, hr⟩ := nth_of hx
    rw [hr]
    have hlt : k < T.data.length := by rw [hT.size hv]; exact hk
    exact ⟨T.data[k], by simp [hlt], hT.good hv k _ (List.getElem?_eq_getElem hlt)⟩

omit hne h hL in
/-- Elements with position, in tensors that store them. -/
theorem element_all {ps : Probability.Parties} {pt : Poly.Table} {cg : Probability.Gisin} {dims : List Nat} {X : List Nat → Target} {T : PolyTensor.Tensor}
    (hT : Holds ps pt cg dims X T) (hv : T.isVirtual = false) (make : List Nat → Option Element) (Q : Element → Prop) :
    (∀ e ∈ T.data, Q e) ↔ ∀ index e, List.Forall₂ (· < ·) index dims → T.element dims make index = some e → Q e := by
  unfold Tensor.element
  simp only [hv, Bool.false_eq_true, if_false]
  constructor
  · intro hq index e _ he
    exact hq e (List.mem_of_getElem? he)
  · intro hq e he
    obtain ⟨k, hk⟩ := List.mem_iff_getElem?.mp he
    have hlt : k < dims.prod := by rw [← hT.size hv]; exact (List.getElem?_eq_some_iff.mp hk).1
    exact hq (MultiDim.nth true dims k) e ((MultiDim.nth_mem true dims _).mp ⟨k, hlt, rfl⟩) (by rw [Moment.Tensor.rank_nth true dims k hlt]; exact hk)

theorem view_positive {t : Table} (ht : Ready (Locality.host s) (IsSeq s L) t) {G : Gisin.Tensor} (hc : construct s t = some G) {idx : List Nat}
    (hx : Valid s idx) (hp : Present t (C98.stored s (product s idx))) :
    ∃ j, (G.view s t).symbol (position (gisinDims (localityParties s)) idx) = some j ∧ 0 < j := by
  rw [view_made hne h hL hc hx]
  rw [ite_self]
  have hf := (found_present hne h hL ht hx).mpr hp
  obtain ⟨j, hj⟩ := Option.isSome_iff_exists.mp hf
  refine ⟨j, hj, ?_⟩
  rcases Nat.eq_zero_or_pos j with rfl | hpos
  · exfalso
    unfold found at hj
    rw [Option.bind_eq_some_iff] at hj
    obtain ⟨e, h1, h2⟩ := hj
    obtain ⟨j, sym, g1, g2, -, g4, -⟩ := Gisin.find_blank h ht (Gisin.word_spec h hL hx).2 (C93.product_self s idx) h1
    rw [h2, Option.some.injEq] at g1
    subst g1
    have hz := (ht.fit (Locality.setting s L h)).inv.zero
    unfold Table.keys at hz
    rw [List.getElem?_map, g2, Option.map_some, Option.some.injEq] at hz
    simp only [Symbols.Sym.key, Prod.mk.injEq] at hz
    rw [g4, Option.some.injEq] at hz
    obtain ⟨x, k1, -, -, -, k5, -⟩ := C93.C93_entry hne h hL ht (.new hc) hx
    obtain ⟨tt, -, m1, -⟩ := C93.element_made hne h hL (t := t) hc hx
    rw [k1, Option.some.injEq] at m1
    apply k5
    have hseq : x.seq = C98.stored s (product s idx) := by
      rw [m1]
      unfold Gisin.upd
      cases hf : (Gisin.Entry.blank (C98.stored s (product s idx))).find (Locality.env s) tt with
      | none => rfl
      | some e => exact Gisin.find_seq hf
    rw [hseq, hz.2.1]
    rfl
  · exact hpos

/-- Refreshing one kind of tensor, when the Collins-Gisin tensor has been refreshed. -/
theorem refresh_kind {o : Poly.Order} {dims : List Nat} {make : Table → Gisin.Tensor → List Nat → Option Element} {X : List Nat → Target}
    {ok : List Nat → Prop} (hK : Kind s L o dims make X ok) {t : Table} (ht : Ready (Locality.host s) (IsSeq s L) t) {G : Gisin.Tensor}
    (hc : construct s t = some G) {oT : Option PolyTensor.Tensor}
    (hT : ∀ T, oT = some T → Holds (localityParties s) (MatrixBasis.polyTable t) (G.view s t) dims X T) :
    ∃ T, refreshPoly (MatrixBasis.polyTable t) o (G.view s t) (build dims (make t G)) oT = some (T, T.hasAll) ∧
      Holds (localityParties s) (MatrixBasis.polyTable t) (G.view s t) dims X T ∧
      ((∀ idx, Valid s idx → Present t (C98.stored s (product s idx))) → ∀ index e, List.Forall₂ (· < ·) index dims → ok index →
        T.element dims (make t G) index = some e → e.symbols.isSome = true) ∧
      ∀ T0, oT = some T0 → T.isVirtual = T0.isVirtual ∧ (T.isVirtual = false → ∀ index e, List.Forall₂ (· < ·) index dims →
        T.element dims (make t G) index = some e →
        (∃ e0, T0.element dims (make t G) index = some e0 ∧ e.gisin = e0.gisin ∧ (e0.symbols.isSome = true → e = e0)) ∧
        (e.symbols.isSome = true ↔ ∀ idx, Mentions s e idx → Present t (C98.stored s (product s idx)))) := by
  have hG : Reach s t G := .new hc
  have virt : ∀ {T : PolyTensor.Tensor}, T.isVirtual = true → (∀ idx, Valid s idx → Present t (C98.stored s (product s idx))) →
      ∀ index e, List.Forall₂ (· < ·) index dims → ok index → T.element dims (make t G) index = some e → e.symbols.isSome = true := by
    intro T hv hp index e hx hok he
    unfold Tensor.element at he
    rw [if_pos hv] at he
    obtain ⟨e', h1, -, h3⟩ := hK.make t G ht hG index hx hok
    rw [he, Option.some.injEq] at h1
    subst h1
    exact h3 fun idx hi => view_positive hne h hL ht hc hi (hp idx hi)
  cases oT with
  | none =>
    obtain ⟨T, h1, h2, h3⟩ := build_holds (ps := localityParties s) (t := MatrixBasis.polyTable t) (cg := G.view s t) (X := X) (make := make t G) hK.ne
      fun hs index hx => by
        obtain ⟨e, a, b, -⟩ := hK.make t G ht hG index hx (hK.small hs index hx)
        exact ⟨e, a, b⟩
    refine ⟨T, by simp [refreshPoly, h1], h2, fun hp index e hx hok he => ?_, fun T0 h => by simp at h⟩
    cases hv : T.isVirtual with
    | true => exact virt hv hp index e hx hok he
    | false =>
      obtain ⟨k, hk, rfl, hr⟩ := nth_of hx
      unfold Tensor.element at he
      simp only [hv, Bool.false_eq_true, if_false, hr] at he
      obtain ⟨e', g1, g2⟩ := (h3 hv).2 k hk
      rw [he, Option.some.injEq] at g2
      subst g2
      obtain ⟨e'', k1, -, k3⟩ := hK.make t G ht hG _ hx hok
      rw [g1, Option.some.injEq] at k1
      subst k1
      exact k3 fun idx hi => view_positive hne h hL ht hc hi (hp idx hi)
  | some T0 =>
    have hT0 := hT T0 rfl
    obtain ⟨f1, f2, f3, f4, f5⟩ := fill_eq hT0.tidy (MatrixBasis.polyTable t) o (G.view s t)
    have hH := hT0.fill o
    have main : T0.isVirtual = false → ∀ index e, List.Forall₂ (· < ·) index dims →
        (T0.fill (MatrixBasis.polyTable t) o (G.view s t)).1.element dims (make t G) index = some e →
        (∃ e0, T0.element dims (make t G) index = some e0 ∧ e.gisin = e0.gisin ∧ (e0.symbols.isSome = true → e = e0)) ∧
        (e.symbols.isSome = true ↔ ∀ idx, Mentions s e idx → Present t (C98.stored s (product s idx))) := by
      intro hv index e hx he
      obtain ⟨k, hk, rfl, hr⟩ := nth_of hx
      unfold Tensor.element at he ⊢
      simp only [f2, hv, Bool.false_eq_true, if_false, hr, f4 hv, List.getElem?_map] at he ⊢
      rw [Option.map_eq_some_iff] at he
      obtain ⟨e0, he0, rfl⟩ := he
      have hgood := hT0.good hv k e0 he0
      refine ⟨⟨e0, he0, renew_gisin _ _ _ _, fun h0 => by simp [renew, h0]⟩, fun hs idx hm => ?_, fun hp => ?_⟩
      · exact (good_right hne h hL ht hG (hgood.renew o)).words hs idx hm
      · rw [renew_isSome]
        refine Or.inr fun x hx => ?_
        obtain ⟨m, hm, rfl⟩ := List.mem_map.mp hx
        obtain ⟨m0, -, idx, i1, i2⟩ := hgood.draws.1 m hm
        dsimp only
        obtain ⟨j, hj, -⟩ := view_positive hne h hL ht hc i1 (hp idx ⟨i1, m, by rw [renew_gisin]; exact hm, by omega⟩)
        rw [i2, hj]
        rfl
    refine ⟨(T0.fill (MatrixBasis.polyTable t) o (G.view s t)).1, ?_, hH, fun hp index e hx hok he => ?_, fun T1 h1 => ?_⟩
    · rw [refreshPoly_some, ← f3]
    · cases hv : T0.isVirtual with
      | true => exact virt (f2.trans hv) hp index e hx hok he
      | false => exact (main hv index e hx he).2.mpr fun idx hm => hp idx hm.1
    · rw [Option.some.injEq] at h1
      subst h1
      exact ⟨f2, fun hv => main (f2.symm.trans hv)⟩

end

/-! ## The two kinds -/

theorem prob_kind {s : Scenario} {L : Nat} (hne : s ≠ []) (h1 : ∀ mmts ∈ s, ∀ n ∈ mmts, 1 ≤ n) (o : Poly.Order) :
    Kind s L o (probDims s) (probElement s o) (outcomeAt s) (fun _ => True) := by
  refine ⟨by simpa [probDims] using hne, fun _ _ _ => trivial, fun t G _ _ index hx _ => ?_⟩
  have hinfo : Probability.localityInfo s = Probability.dimensionInfo ((localityParties s).map List.length) (localityParties s).flatten := by
    unfold Probability.localityInfo localityParties
    rw [List.map_flatten, List.map_map]
    congr 1
    simp [Function.comp_def]
  obtain ⟨e, e1, e2, e3, e4⟩ := C94.probability_made (localityParties s) (by
    intro mm hm m hmm
    obtain ⟨mmts, g1, rfl⟩ := List.mem_map.mp hm
    obtain ⟨n, g2, rfl⟩ := List.mem_map.mp hmm
    exact h1 mmts g1 n g2) (MatrixBasis.polyTable t) o (G.view s t) (Gisin.dims_eq s) index (by rw [← probDims_eq]; exact hx)
  refine ⟨e, by unfold probElement; rw [hinfo]; exact e1, ⟨e4, fun A _ _ P φ hc v hv => (e2 A P φ hc).1 v hv,
    fun A _ _ P φ hc v w p hv hw hn _ hp => (e2 A P φ hc).2 v w p hv hw hn hp⟩, fun hall => e3 fun idx hi => ?_⟩
  obtain ⟨j, hj, -⟩ := hall idx hi
  rw [hj]
  rfl

theorem count_small : ∀ {index dims : List Nat}, List.Forall₂ (· < ·) index dims → 2 ^ index.countP (· > 0) ≤ dims.prod
  | _, _, .nil => by simp
  | _, _, .cons (a := a) (b := b) hlt hs => by
    have ih := count_small hs
    rw [List.countP_cons, List.prod_cons]
    split
    · rename_i h
      have hb : 2 ≤ b := by
        have : a > 0 := by simpa using h
        omega
      rw [Nat.pow_succ, Nat.mul_comm]
      exact Nat.mul_le_mul hb ih
    · rw [Nat.add_zero]
      exact ih.trans (Nat.le_mul_of_pos_left _ (by omega))

theorem corr_kind {s : Scenario} {L : Nat} (hne : s ≠ []) (hb : canHaveCorrelators s = true) (o : Poly.Order) :
    Kind s L o (correlatorDims s) (corrElement s o) correlatorAt (fun index => index.countP (· > 0) ≤ 30) := by
  obtain ⟨b1, b2, b3⟩ := (C95.C95_scenarios s).mp hb
  have hdne : correlatorDims s ≠ [] := by simpa [correlatorDims] using hne
  refine ⟨hdne, fun hs index hx => ?_, fun t G _ _ index hx hok => ?_⟩
  · rw [Moment.Tensor.count_eq _ hdne] at hs
    have := (count_small hx).trans hs
    by_contra hc
    have : 2 ^ 31 ≤ 2 ^ index.countP (· > 0) := Nat.pow_le_pow_right (by omega) (by omega)
    omega
  · rw [b2] at hx
    have hd : gisinDims (localityParties s) = (s.map List.length).map (· + 1) := by rw [← Gisin.dims_eq, b3]
    have hview : G.view s t = ⟨(s.map List.length).map (· + 1), (G.view s t).symbol⟩ := by
      rw [← b3]; rfl
    obtain ⟨e, e1, e2, e3, e4⟩ := C95.correlators_made (s.map List.length) (MatrixBasis.polyTable t) o (G.view s t).symbol index hx hok
    rw [← hview] at e1 e2 e4
    refine ⟨e, by unfold corrElement; rw [b2]; exact e1, ⟨by rw [hd]; exact e4, fun A _ _ P φ hc v hv => ?_, fun A _ _ P φ hc v w p hv hw hn hone hp => ?_⟩,
      fun hall => e3 fun idx hi => ?_⟩
    · rw [b1] at hc hv
      exact (e2 A P φ hc).1 v hv
    · rw [b1] at hc hv hn
      exact (e2 A P φ hc).2 v w p hv hw hn hone hp
    · have := hall idx (by unfold Valid; rw [hd]; exact hi)
      rw [hd] at this
      exact this

/-! ## All that can happen -/

/-- What always holds. -/
structure Sane (s : Scenario) (L : Nat) (S : System) : Prop where
  ready : Ready (Locality.host s) (IsSeq s L) S.table
  gisin : ∀ G, S.gisin = some G → Reach s S.table G
  prob : ∀ T, S.prob = some T → ∃ G, S.gisin = some G ∧ Holds (localityParties s) (MatrixBasis.polyTable S.table) (G.view s S.table) (probDims s) (outcomeAt s) T
  corr : ∀ T, S.corr = some T → canHaveCorrelators s = true ∧
    ∃ G, S.gisin = some G ∧ Holds (localityParties s) (MatrixBasis.polyTable S.table) (G.view s S.table) (correlatorDims s) correlatorAt T

section
variable {s : Scenario} {L : Nat} (hne : s ≠ []) (h1 : ∀ mmts ∈ s, ∀ n ∈ mmts, 1 ≤ n) (h : Room s L) (hL : s.length ≤ L) (o : Poly.Order)
include hne h hL

/-- After the Collins-Gisin tensor has been refreshed. -/
theorem sane_gisin {S : System} (hS : Sane s L S) : ∃ G, refreshGisin s S.table S.gisin = some (G, G.hasAllSymbols) ∧ construct s S.table = some G ∧
    Sane s L { S with gisin := some G } := by
  obtain ⟨G, g1, g2⟩ := refreshGisin_spec hne h hL hS.gisin
  refine ⟨G, g1, g2, ⟨hS.ready, fun G' hG => ?_, fun T hT => ?_, fun T hT => ?_⟩⟩
  · dsimp only at hG
    rw [Option.some.injEq] at hG
    subst hG
    exact .new g2
  · obtain ⟨G0, a, b⟩ := hS.prob T hT
    exact ⟨G, rfl, b.grow (grows_refresh hne h hL (hS.gisin G0 a) g2)⟩
  · obtain ⟨hb, G0, a, b⟩ := hS.corr T hT
    exact ⟨hb, G, rfl, b.grow (grows_refresh hne h hL (hS.gisin G0 a) g2)⟩

include h1

theorem sane_prob {S : System} (hS : Sane s L S) : ∃ G T, construct s S.table = some G ∧
    S.refreshProb s o = some (⟨S.table, some G, some T, S.corr⟩, T.hasAll) ∧ Sane s L ⟨S.table, some G, some T, S.corr⟩ ∧
      ((∀ idx, Valid s idx → Present S.table (C98.stored s (product s idx))) → ∀ index e, List.Forall₂ (· < ·) index (probDims s) →
        T.element (probDims s) (probElement s o S.table G) index = some e → e.symbols.isSome = true) ∧
      ∀ T0, S.prob = some T0 → T.isVirtual = T0.isVirtual ∧ (T.isVirtual = false → ∀ index e, List.Forall₂ (· < ·) index (probDims s) →
        T.element (probDims s) (probElement s o S.table G) index = some e →
        (∃ e0, T0.element (probDims s) (probElement s o S.table G) index = some e0 ∧ e.gisin = e0.gisin ∧ (e0.symbols.isSome = true → e = e0)) ∧
        (e.symbols.isSome = true ↔ ∀ idx, Mentions s e idx → Present S.table (C98.stored s (product s idx)))) := by
  obtain ⟨G, g1, g2, g3⟩ := sane_gisin hne h hL hS
  obtain ⟨T, t1, t2, t3, t4⟩ := refresh_kind hne h hL (prob_kind (L := L) hne h1 o) hS.ready g2 (oT := S.prob) (fun T hT => by
    obtain ⟨G', a, b⟩ := g3.prob T hT
    dsimp only at a
    rw [Option.some.injEq] at a
    subst a
    exact b)
  refine ⟨G, T, g2, ?_, ⟨hS.ready, g3.gisin, fun T' hT' => ?_, g3.corr⟩, fun hp index e hx => t3 hp index e hx trivial, t4⟩
  · unfold System.refreshProb
    rw [g1, Option.bind_some]
    dsimp only
    rw [t1]
    rfl
  · dsimp only at hT'
    rw [Option.some.injEq] at hT'
    subst hT'
    exact ⟨G, rfl, t2⟩

omit h1

theorem sane_corr {S : System} (hS : Sane s L S) (hb : canHaveCorrelators s = true) : ∃ G T, construct s S.table = some G ∧
    S.refreshCorr s o = some (⟨S.table, some G, S.prob, some T⟩, some T.hasAll) ∧ Sane s L ⟨S.table, some G, S.prob, some T⟩ ∧
      ((∀ idx, Valid s idx → Present S.table (C98.stored s (product s idx))) → ∀ index e, List.Forall₂ (· < ·) index (correlatorDims s) →
        index.countP (· > 0) ≤ 30 → T.element (correlatorDims s) (corrElement s o S.table G) index = some e → e.symbols.isSome = true) ∧
      ∀ T0, S.corr = some T0 → T.isVirtual = T0.isVirtual ∧ (T.isVirtual = false → ∀ index e, List.Forall₂ (· < ·) index (correlatorDims s) →
        T.element (correlatorDims s) (corrElement s o S.table G) index = some e →
        (∃ e0, T0.element (correlatorDims s) (corrElement s o S.table G) index = some e0 ∧ e.gisin = e0.gisin ∧ (e0.symbols.isSome = true → e = e0)) ∧
        (e.symbols.isSome = true ↔ ∀ idx, Mentions s e idx → Present S.table (C98.stored s (product s idx)))) := by
  obtain ⟨G, g1, g2, g3⟩ := sane_gisin hne h hL hS
  obtain ⟨T, t1, t2, t3, t4⟩ := refresh_kind hne h hL (corr_kind (L := L) hne hb o) hS.ready g2 (oT := S.corr) (fun T hT => by
    obtain ⟨-, G', a, b⟩ := g3.corr T hT
    dsimp only at a
    rw [Option.some.injEq] at a
    subst a
    exact b)
  refine ⟨G, T, g2, ?_, ⟨hS.ready, g3.gisin, g3.prob, fun T' hT' => ?_⟩, t3, t4⟩
  · unfold System.refreshCorr
    rw [g1, Option.bind_some, if_neg (by simp [hb])]
    dsimp only
    rw [t1]
    rfl
  · dsimp only at hT'
    rw [Option.some.injEq] at hT'
    subst hT'
    exact ⟨hb, G, rfl, t2⟩

include h1

theorem Run.sane {S : System} (hS : Run s L o S) : Sane s L S := by
  induction hS with
  | new ht => exact ⟨ht, fun _ h => by simp at h, fun _ h => by simp at h, fun _ h => by simp at h⟩
  | @grow S t _ ht he ih =>
    refine ⟨ht, fun G hG => .grow (ih.gisin G hG) he, fun T hT => ?_, fun T hT => ?_⟩
    · obtain ⟨G, a, b⟩ := ih.prob T hT
      exact ⟨G, a, b.grow (grows_table hne h hL (ih.gisin G a) he)⟩
    · obtain ⟨hb, G, a, b⟩ := ih.corr T hT
      exact ⟨hb, G, a, b.grow (grows_table hne h hL (ih.gisin G a) he)⟩
  | gisin _ hr ih =>
    obtain ⟨G, g1, -, g3⟩ := sane_gisin hne h hL ih
    unfold System.refreshGisin at hr
    rw [g1, Option.map_some, Option.some.injEq, Prod.mk.injEq] at hr
    rw [← hr.1]
    exact g3
  | prob _ hr ih =>
    obtain ⟨G, T, -, g1, g2, -⟩ := sane_prob hne h1 h hL o ih
    rw [g1, Option.some.injEq, Prod.mk.injEq] at hr
    rw [← hr.1]
    exact g2
  | @corr S S' b _ hr ih =>
    cases hb : canHaveCorrelators s with
    | true =>
      obtain ⟨G, T, -, g1, g2, -⟩ := sane_corr hne h hL o ih hb
      rw [g1, Option.some.injEq, Prod.mk.injEq] at hr
      rw [← hr.1]
      exact g2
    | false =>
      have hn : S.corr = none := by
        cases hc : S.corr with
        | none => rfl
        | some T => have := (ih.corr T hc).1; rw [hb] at this; simp at this
      obtain ⟨G, g1, -, g3⟩ := sane_gisin hne h hL ih
      unfold System.refreshCorr at hr
      rw [g1, Option.bind_some, if_pos (by simp [hn, hb]), Option.some.injEq, Prod.mk.injEq] at hr
      rw [← hr.1]
      exact g3

end

/-- **C97, elements.** At all times the elements of the probability tensor and of the full-correlator tensor, where these exist, have the values of their
observables (the latter for at most 30 parties with a measurement, C95). -/
theorem C97_elements {s : Scenario} {L : Nat} (hne : s ≠ []) (h1 : ∀ mmts ∈ s, ∀ n ∈ mmts, 1 ≤ n) (h : Room s L) (hL : s.length ≤ L) (o : Poly.Order)
    {S : System} (hS : Run s L o S) :
    (∀ T, S.prob = some T → ∃ G, S.gisin = some G ∧ ∀ index, List.Forall₂ (· < ·) index (fullDims (localityParties s)) →
      ∃ e, T.element (probDims s) (probElement s o S.table G) index = some e ∧ Right s S.table (outcomeAt s index) e) ∧
    (∀ T, S.corr = some T → canHaveCorrelators s = true ∧ ∃ G, S.gisin = some G ∧
      ∀ index, List.Forall₂ (· < ·) index (s.map fun mmts => mmts.length + 1) → index.countP (· > 0) ≤ 30 →
        ∃ e, T.element (correlatorDims s) (corrElement s o S.table G) index = some e ∧ Right s S.table (correlatorAt index) e) := by
  have hs := hS.sane hne h1 h hL o
  refine ⟨fun T hT => ?_, fun T hT => ?_⟩
  · obtain ⟨G, a, b⟩ := hs.prob T hT
    refine ⟨G, a, fun index hx => ?_⟩
    obtain ⟨e, e1, e2⟩ := element_good (prob_kind (L := L) hne h1 o) hs.ready (hs.gisin G a) b (by rw [probDims_eq]; exact hx) trivial
    exact ⟨e, e1, good_right hne h hL hs.ready (hs.gisin G a) e2⟩
  · obtain ⟨hb, G, a, b⟩ := hs.corr T hT
    refine ⟨hb, G, a, fun index hx hok => ?_⟩
    obtain ⟨e, e1, e2⟩ := element_good (corr_kind (L := L) hne hb o) hs.ready (hs.gisin G a) b hx hok
    exact ⟨e, e1, good_right hne h hL hs.ready (hs.gisin G a) e2⟩

/-- What refreshing a tensor does: `T` is the tensor afterwards, `r` what is returned, and `T0` the tensor before, if there was one. -/
structure Refreshed (s : Scenario) (t : Table) (dims : List Nat) (make : List Nat → Option Element) (ok : List Nat → Prop) (T0 : Option PolyTensor.Tensor)
    (T : PolyTensor.Tensor) (r : Bool) : Prop where
  /-- The returned value: for tensors that store their elements, whether all have symbols. -/
  result : T.isVirtual = false → (r = true ↔ ∀ index e, List.Forall₂ (· < ·) index dims → T.element dims make index = some e → e.symbols.isSome = true)
  virt : T.isVirtual = true → r = true
  /-- If all words of the Collins-Gisin tensor have symbols, then so do all elements. -/
  complete : (∀ idx, Valid s idx → Present t (C98.stored s (product s idx))) → ∀ index e, List.Forall₂ (· < ·) index dims → ok index →
    T.element dims make index = some e → e.symbols.isSome = true
  /-- If there was a tensor, then elements keep their polynomials, and those that had none in symbols get one if and only if all words they need have
  symbols. -/
  kept : ∀ T0', T0 = some T0' → T.isVirtual = T0'.isVirtual ∧ (T.isVirtual = false → ∀ index e, List.Forall₂ (· < ·) index dims →
    T.element dims make index = some e →
      (∃ e0, T0'.element dims make index = some e0 ∧ e.gisin = e0.gisin ∧ (e0.symbols.isSome = true → e = e0)) ∧
      (e.symbols.isSome = true ↔ ∀ idx, Mentions s e idx → Present t (C98.stored s (product s idx))))

/-- **C97, refreshing probabilities.** `RefreshProbabilityTensor` succeeds at all times. -/
theorem C97_probability {s : Scenario} {L : Nat} (hne : s ≠ []) (h1 : ∀ mmts ∈ s, ∀ n ∈ mmts, 1 ≤ n) (h : Room s L) (hL : s.length ≤ L) (o : Poly.Order)
    {S : System} (hS : Run s L o S) : ∃ S' r G T, S.refreshProb s o = some (S', r) ∧ Run s L o S' ∧ S' = ⟨S.table, some G, some T, S.corr⟩ ∧
      construct s S.table = some G ∧ Refreshed s S.table (probDims s) (probElement s o S.table G) (fun _ => True) S.prob T r := by
  obtain ⟨G, T, g1, g2, g3, g4, g5⟩ := sane_prob hne h1 h hL o (hS.sane hne h1 h hL o)
  obtain ⟨G', a, b⟩ := g3.prob T rfl
  refine ⟨_, _, G, T, g2, .prob hS g2, rfl, g1, ⟨fun hv => ?_, b.tidy.virt, fun hp index e hx _ => g4 hp index e hx, g5⟩⟩
  rw [b.tidy.all hv]
  exact element_all b hv _ fun e => e.symbols.isSome = true

/-- **C97, refreshing correlators.** `RefreshFullCorrelator` succeeds at all times if all measurements have two outcomes. Otherwise there is an exception. -/
theorem C97_correlators {s : Scenario} {L : Nat} (hne : s ≠ []) (h1 : ∀ mmts ∈ s, ∀ n ∈ mmts, 1 ≤ n) (h : Room s L) (hL : s.length ≤ L) (o : Poly.Order)
    {S : System} (hS : Run s L o S) :
    ((∀ mmts ∈ s, ∀ n ∈ mmts, n = 2) → ∃ S' r G T, S.refreshCorr s o = some (S', some r) ∧ Run s L o S' ∧ S' = ⟨S.table, some G, S.prob, some T⟩ ∧
      construct s S.table = some G ∧
      Refreshed s S.table (correlatorDims s) (corrElement s o S.table G) (fun index => index.countP (· > 0) ≤ 30) S.corr T r) ∧
    ((∃ mmts ∈ s, ∃ n ∈ mmts, n ≠ 2) → ∃ S', S.refreshCorr s o = some (S', none) ∧ Run s L o S' ∧ S'.corr = none) := by
  have hs := hS.sane hne h1 h hL o
  have hcan : canHaveCorrelators s = true ↔ ∀ mmts ∈ s, ∀ n ∈ mmts, n = 2 := by simp [canHaveCorrelators]
  refine ⟨fun h2 => ?_, fun h2 => ?_⟩
  · have hb := hcan.mpr h2
    obtain ⟨G, T, g1, g2, g3, g4, g5⟩ := sane_corr hne h hL o hs hb
    obtain ⟨-, G', a, b⟩ := g3.corr T rfl
    refine ⟨_, _, G, T, g2, .corr hS g2, rfl, g1, ⟨fun hv => ?_, b.tidy.virt, fun hp index e hx hok => g4 hp index e hx hok, g5⟩⟩
    rw [b.tidy.all hv]
    exact element_all b hv _ fun e => e.symbols.isSome = true
  · have hb : canHaveCorrelators s = false := by
      by_contra hc
      obtain ⟨mmts, m1, n, m2, m3⟩ := h2
      exact m3 (hcan.mp (by simpa using hc) mmts m1 n m2)
    have hn : S.corr = none := by
      cases hc : S.corr with
      | none => rfl
      | some T => have := (hs.corr T hc).1; rw [hb] at this; simp at this
    obtain ⟨G, g1, -, -⟩ := sane_gisin hne h hL hs
    have hr : S.refreshCorr s o = some (⟨S.table, some G, S.prob, S.corr⟩, none) := by
      unfold System.refreshCorr
      rw [g1, Option.bind_some, if_pos (by simp [hn, hb])]
    exact ⟨_, hr, .corr hS hr, hn⟩

/-- Two parties with two measurements each: the tensors are made when only 0 and 1 have symbols, then the moment matrix of level 1 is made, and refreshing
finds the polynomials of all probabilities and correlators. -/
example (o : Poly.Order) : ∃ S0 S1 S2 S3 S4 : System, Run C98.chsh 2 o S0 ∧ (∃ r, S0.refreshProb C98.chsh o = some (S1, r)) ∧ Extends S1.table S2.table ∧
    S2.prob = S1.prob ∧ S2.refreshProb C98.chsh o = some (S3, true) ∧ S3.refreshCorr C98.chsh o = some (S4, some true) ∧ Run C98.chsh 2 o S4 := by
  have hroom : Room C98.chsh 2 := C98.chsh_room.mono (by omega)
  have hne : C98.chsh ≠ [] := by simp [C98.chsh]
  have h1 : ∀ mmts ∈ C98.chsh, ∀ n ∈ mmts, 1 ≤ n := by simp [C98.chsh]
  have h2 : ∀ mmts ∈ C98.chsh, ∀ n ∈ mmts, n = 2 := by simp [C98.chsh]
  have hR0 : Run C98.chsh 2 o ⟨Table.new, none, none, none⟩ := .new .new
  obtain ⟨S1, r1, G1, T1, a1, a2, a3, a4, -⟩ := C97_probability hne h1 hroom (Nat.le_refl 2) o hR0
  obtain ⟨t', M, b1, b2, ⟨b3, -⟩, -⟩ := C98.C98_level C98.chsh 1 hroom .new
  obtain ⟨T, hT⟩ := Gisin.construct_some hroom (Nat.le_refl 2) Table.new
  obtain ⟨t2, M2, c1, c2, -, c3⟩ := C93.C93_complete (n := 1) hne hroom (Nat.le_refl 2) .new (.new hT)
  rw [b1] at c1
  simp only [Option.some.injEq, Prod.mk.injEq] at c1
  obtain ⟨rfl, -⟩ := c1
  have hpres : ∀ idx, Valid C98.chsh idx → Present t' (C98.stored C98.chsh (product C98.chsh idx)) := by
    intro idx hx
    obtain ⟨T', r, f1, f2, f3, f4, -⟩ := (C93.C93_refresh hne hroom (Nat.le_refl 2) b2.ready).2 T c2
    obtain ⟨e, e1, e2⟩ := c3 idx hx
    rw [f1] at e1
    have hp : Present t' e.seq := by
      by_contra hc
      exact e2 ((f4 idx e hx e1).mpr hc)
    obtain ⟨tt, -, m1, -⟩ := C93.element_made hne hroom (Nat.le_refl 2) (t := t') f3 hx
    rw [e1, Option.some.injEq] at m1
    have hseq : e.seq = C98.stored C98.chsh (product C98.chsh idx) := by
      rw [m1]
      unfold Gisin.upd
      cases hf : (Gisin.Entry.blank (C98.stored C98.chsh (product C98.chsh idx))).find (Locality.env C98.chsh) tt with
      | none => rfl
      | some e => exact Gisin.find_seq hf
    rwa [hseq] at hp
  have ht : S1.table = Table.new := by rw [a3]
  have hR2 : Run C98.chsh 2 o { S1 with table := t' } := .grow a2 b2.ready (by rw [ht]; exact b3)
  obtain ⟨S3, r3, G3, T3, d1, d2, d3, d4, d5⟩ := C97_probability hne h1 hroom (Nat.le_refl 2) o hR2
  obtain ⟨S4, r4, G4, T4, g1, g2, g3, g4, g5⟩ := (C97_correlators hne h1 hroom (Nat.le_refl 2) o d2).1 h2
  have ht3 : S3.table = t' := by rw [d3]
  have hr3 : r3 = true := by
    cases hv : T3.isVirtual with
    | true => exact d5.virt hv
    | false => exact (d5.result hv).mpr fun index e hx he => d5.complete hpres index e hx trivial he
  have hr4 : r4 = true := by
    cases hv : T4.isVirtual with
    | true => exact g5.virt hv
    | false =>
      refine (g5.result hv).mpr fun index e hx he => g5.complete (by rw [ht3]; exact hpres) index e hx ?_ he
      have hlen := hx.length_eq
      have : index.countP (· > 0) ≤ index.length := List.countP_le_length
      have hl : (correlatorDims C98.chsh).length = 2 := rfl
      omega
  subst hr3 hr4
  exact ⟨_, S1, { S1 with table := t' }, S3, S4, hR0, ⟨r1, a1⟩, by rw [ht]; exact b3, rfl, d1, g1, g2⟩

end Moment.C97
