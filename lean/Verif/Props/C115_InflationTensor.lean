import Verif.Proof.InflationTensor
import Verif.Props.C114_InflationMatrix

/-! # C115: Collins-Gisin and probability tensors of inflation scenarios

Every copy of every observable is a dimension. Entries have the words of products of operators, one for each copy that is measured; their symbols are those of the
words, or of the words with the copies of the sources permuted; elements of the probability tensor have the values of the products for all outcomes. -/

namespace Moment.C115
open Moment.Symbols (Table)
open Moment.SymbolMatrix Moment.OperatorMatrix Moment.Inflation
open Moment.C12 (ContextOf Names names_iff twoSources twoSourcesCtx exNet exCtx exContext)
open Moment.Gisin (Entry)

variable {n : Causal} {c : Inflation.Ctx} {L : Nat}

/-- **C115, dimensions.** The tensors have a dimension for each copy of each observable, and no other. -/
theorem C115_dimensions (hc : ContextOf n c) : (copies n c).Nodup ∧ (∀ x, x ∈ copies n c ↔ x.Valid n c.infl) ∧
    (Inflation.gisinDims c).length = (copies n c).length ∧ (Inflation.fullDims c).length = (copies n c).length ∧
    ∀ (d : Nat) x k, (copies n c)[d]? = some x → n.outcomes[x.obs]? = some k →
      (Inflation.gisinDims c)[d]? = some (if k = 0 then 2 else k) ∧ (Inflation.fullDims c)[d]? = some (if k = 0 then 2 else k + 1) := by
  have hb : Built n c := ⟨hc⟩
  refine ⟨copies_nodup hb, fun x => copies_mem hb, by rw [dims_eq, copies]; simp, by rw [fullDims_eq, copies]; simp, fun d x k hd hk => ?_⟩
  unfold copies at hd
  rw [List.getElem?_map, Option.map_eq_some_iff] at hd
  obtain ⟨⟨o, v⟩, hd, rfl⟩ := hd
  have ho : (obsAt c o).outcomes = k := obsAt_outcomes hb hk
  rw [dims_eq, fullDims_eq, List.getElem?_map, List.getElem?_map, hd, Option.map_some, Option.map_some]
  unfold Obs.projective
  dsimp only
  rw [ho]
  by_cases h0 : k = 0 <;> simp [h0]

/-- **C115.** Every index has an element. Its word names the product of the operators of the copies that the index measures, has no sign and is its own conjugate.
If the element has a symbol, it is a symbol of the table; its word is that of the element or, if the element is marked as alias, that of the product with the copies
of the sources permuted. -/
theorem C115_entry (hc : ContextOf n c) (hne : Inflation.gisinDims c ≠ []) (h : Room c L) (hL : (copies n c).length ≤ L) {t : Table} {T : Gisin.Tensor}
    (hT : Inflation.Reach c L t T) {idx : List Nat} (hx : Inflation.Valid c idx) :
    ∃ e, gisinElement c t T idx = some e ∧ gisinAt c t T (Probability.position (Inflation.gisinDims c) idx) = some e ∧
      (∃ u, Names n c u e.seq.ops ∧ SameOperator n (some (picked (copies n c) idx)) (some u)) ∧ e.seq.sign = .pos ∧ e.seq.hash ≠ 0 ∧
      (env c).conj e.seq = e.seq ∧
      (∀ j, e.id = some j → ∃ sym q, t.syms[j]? = some sym ∧ sym.id = j ∧ sym.seq = some q ∧ e.re = sym.re ∧
        (e.aliased = false ∧ q = e.seq ∨ e.aliased = true ∧ ∃ σ u, Relabelling c.infl σ ∧ Names n c u q.ops ∧
          SameOperator n (some ((picked (copies n c) idx).map (relabel n σ))) (some u))) ∧
      (T.isVirtual = true → e.id = none → ¬ Present c t e.seq) := by
  have hb : Built n c := ⟨hc⟩
  have hL' : (variants c).length ≤ L := by simpa [copies] using hL
  obtain ⟨e, e1, e2, e3, e4⟩ := element_spec (n := n) hb h hL' hne hT hx
  obtain ⟨-, hW⟩ := word_spec (n := n) hb h hL' hx
  have nz := product_nonzero hb hW.1
  have nm : ∀ v : List Op, Word n c L v → ¬ SameOperator n (some v) none →
      (∃ u, Names n c u (stored n c v).ops ∧ SameOperator n (some v) (some u)) ∧ (stored n c v).hash ≠ 0 := by
    intro v hv hz
    rw [← nf_zero_iff hb hv.1] at hz
    obtain ⟨u, hu⟩ := Option.ne_none_iff_exists'.mp hz
    have hs : stored n c v = ⟨hashWord (UInt64.ofNat (operatorCount c)) (u.map (Inflation.enc c)), u.map (Inflation.enc c), .pos⟩ := by
      unfold stored; rw [hu]
    refine ⟨⟨u, ?_, ?_⟩, ?_⟩
    · rw [hs]
      exact names_iff.mpr ⟨fun a ha => hv.1 a (nf_mem hu a ha), rfl⟩
    · exact hu ▸ nf_sound v
    · rcases stored_seq hb hv with ⟨h1, h2⟩ | ⟨h1, h2, h3⟩
      · rw [hs] at h2
        rw [hs, show u.map (Inflation.enc c) = [] from h2]
        exact h.ne (u := []) (by intro x hx; simp at hx) (Nat.zero_le _)
      · rw [h1]; exact h.ne h2.1 h3
  refine ⟨e, e1, e2, by rw [e3]; exact (nm _ hW nz).1, by rw [e3]; exact stored_sign _, by rw [e3]; exact (nm _ hW nz).2,
    by rw [e3]; exact conj_stored hb h hW, fun j hj => ?_, fun hv hid => ?_⟩
  · rcases e4 with ⟨e4, -⟩ | ⟨e4, -⟩
    · rw [hj] at e4; simp at e4
    · obtain ⟨j', sym, q, g1, g2, g3, g4, g5, g6⟩ := e4.symbol
      rw [hj, Option.some.injEq] at g1
      subst g1
      refine ⟨sym, q, g2, g3, g4, g5, ?_⟩
      rcases g6 with ⟨g6, g7⟩ | ⟨g6, -, g7⟩
      · exact .inl ⟨g6, by rw [g7, e3]⟩
      · obtain ⟨σ, v, k1, k2, k3, k4, -⟩ := shown_stored hb h hW
        have nz' : ¬ SameOperator n (some v) none := fun hz => relabel_nonzero hb hW.1 k1 (k3.trans hz)
        obtain ⟨⟨u, m1, m2⟩, -⟩ := nm v k2 nz'
        exact .inr ⟨g6, σ, u, k1, by rw [g7, k4]; exact m1, k3.trans m2⟩
  · rcases e4 with ⟨-, e4, -⟩ | ⟨e4, -⟩
    · rw [e3, ← found_iff hb h hT.ready hW, e4 hv]; simp
    · exact absurd hid e4.id_ne

/-- **C115, refreshed tensors.** Tensors can be made for every table. After `fill_missing_symbols` elements lack a symbol only if the table has neither a symbol
for their word nor one for its canonical form; what is returned is whether no symbols are missing, for tensors that store their elements. -/
theorem C115_refresh (hc : ContextOf n c) (hne : Inflation.gisinDims c ≠ []) (h : Room c L) (hL : (copies n c).length ≤ L) :
    (∀ t, ∃ T, makeGisin c t = some T) ∧
    ∀ t T, Inflation.Reach c L t T → ∃ T' r, T.fill (env c) t = (T', r) ∧ Inflation.Reach c L t T' ∧
      (∀ idx e, Inflation.Valid c idx → gisinElement c t T' idx = some e → (e.id = none ↔ ¬ Present c t e.seq)) ∧
      (T.isVirtual = false → (r = true ↔ ∀ idx e, Inflation.Valid c idx → gisinElement c t T' idx = some e → e.id ≠ none) ∧ T'.hasAllSymbols = r) := by
  have hb : Built n c := ⟨hc⟩
  have hL' : (variants c).length ≤ L := by simpa [copies] using hL
  refine ⟨makeGisin_some hb h hL' hne, fun t T hT => ?_⟩
  obtain ⟨f1, f2, f3⟩ := fill_spec (n := n) hb h hL' hne hT
  have hR : Inflation.Reach c L t (T.fill (env c) t).1 := .fill hT
  refine ⟨(T.fill (env c) t).1, (T.fill (env c) t).2, rfl, hR, fun idx e hx he => ?_, fun hv => ⟨?_, (f2 hv).symm⟩⟩
  · obtain ⟨e', e1, -, e3, e4⟩ := element_spec (n := n) hb h hL' hne hR hx
    obtain ⟨-, hW⟩ := word_spec (n := n) hb h hL' hx
    rw [he, Option.some.injEq] at e1
    subst e1
    rw [e3]
    rcases e4 with ⟨e4, e5, e6⟩ | ⟨e4, -⟩
    · refine ⟨fun _ => ?_, fun _ => e4⟩
      cases hv : (T.fill (env c) t).1.isVirtual with
      | true => rw [← found_iff hb h hT.ready hW, e5 hv]; simp
      | false => exact f3 idx hx (f1 ▸ hv) (e6 hv).1
    · exact ⟨fun hn => absurd hn e4.id_ne, fun hp => absurd e4.present hp⟩
  · rw [f2 hv, List.isEmpty_iff]
    have hv' : (T.fill (env c) t).1.isVirtual = false := f1.trans hv
    constructor
    · intro hm idx e hx he
      obtain ⟨e', e1, -, -, e4⟩ := element_spec (n := n) hb h hL' hne hR hx
      rw [he, Option.some.injEq] at e1
      subst e1
      rcases e4 with ⟨-, -, e6⟩ | ⟨e4, -⟩
      · have := (e6 hv').1
        rw [hm] at this
        simp at this
      · exact e4.id_ne
    · intro hall
      obtain ⟨ws, g⟩ := (hR.shape hb h hL' hne).2.2 hv'
      by_contra hm
      obtain ⟨k, hk⟩ := List.exists_mem_of_ne_nil _ hm
      have hlt := g.inside k hk
      rw [(words_get hne g.words).1] at hlt
      have hx : Inflation.Valid c (MultiDim.nth true (Inflation.gisinDims c) k) := (MultiDim.nth_mem true _ _).mp ⟨k, hlt, rfl⟩
      obtain ⟨e', e1, -, -, e4⟩ := element_spec (n := n) hb h hL' hne hR hx
      have hp : Probability.position (Inflation.gisinDims c) (MultiDim.nth true (Inflation.gisinDims c) k) = k := by
        rw [← Probability.offset_eq hx.length_eq, Tensor.rank_nth true _ _ hlt]
      rcases e4 with ⟨e4, -⟩ | ⟨-, e5⟩
      · exact hall _ _ hx e1 e4
      · exact e5 hv' (by rw [hp]; exact hk)

/-- **C115, values.** In every algebra whose operators meet the relations of the network, for every functional that does not see which copies of the sources are
which, the symbols of the entries have the values of the products of operators that their indices name. -/
theorem C115_value (hc : ContextOf n c) (hne : Inflation.gisinDims c ≠ []) (h : Room c L) (hL : (copies n c).length ≤ L) {t : Table} {T : Gisin.Tensor}
    (hT : Inflation.Reach c L t T) {A : Type} [Ring A] [Algebra ℂ A] {P : Op → A} (hP : Represents n P) {φ : A →ₗ[ℂ] ℂ} (hφ : Exchangeable n c.infl P φ)
    {v : Nat → ℂ} (hv : Agrees t (moment n c P φ) v) {idx : List Nat} (hx : Inflation.Valid c idx) {e : Entry} (he : gisinElement c t T idx = some e) {j : Nat}
    (hj : e.id = some j) : v j = φ ((picked (copies n c) idx).map P).prod := by
  have hb : Built n c := ⟨hc⟩
  have hL' : (variants c).length ≤ L := by simpa [copies] using hL
  obtain ⟨e', e1, -, -, e4⟩ := element_spec (n := n) hb h hL' hne hT hx
  obtain ⟨-, hW⟩ := word_spec (n := n) hb h hL' hx
  rw [he, Option.some.injEq] at e1
  subst e1
  rcases e4 with ⟨e4, -⟩ | ⟨e4, -⟩
  · rw [hj] at e4; simp at e4
  · obtain ⟨j', sym, q, g1, g2, -, g4, -, g6⟩ := e4.symbol
    rw [hj, Option.some.injEq] at g1
    subst g1
    rw [hv.word j sym q g2 g4, ← moment_stored hb h hP φ hW]
    rcases g6 with ⟨-, rfl⟩ | ⟨-, -, rfl⟩
    · rfl
    · exact moment_shown hb h hP hφ hW

/-- **C115, probabilities.** Every element of the probability tensor has the value of the product of the operators of the outcomes that its index names, also of
the last outcomes, which have no operators of their own. If no symbols are missing in the Collins-Gisin tensor, every element has its polynomial. -/
theorem C115_probability (hc : ContextOf n c) (hne : Inflation.gisinDims c ≠ []) (h : Room c L) (hL : (copies n c).length ≤ L) {t : Table} {T : Gisin.Tensor}
    (hT : Inflation.Reach c L t T) (o : Poly.Order) {index : List Nat} (hx : List.Forall₂ (· < ·) index (Inflation.fullDims c)) :
    ∃ e, Probability.makeElement (MatrixBasis.polyTable t) o (gisinView c t T) (Probability.inflationInfo (variantOutcomes c)) index = some e ∧
      ((∀ idx, Inflation.Valid c idx → ∃ x, gisinElement c t T idx = some x ∧ x.id ≠ none) → e.symbols.isSome) ∧
      ∀ (A : Type) [Ring A] [Algebra ℂ A] (P : Op → A) (φ : A →ₗ[ℂ] ℂ) (v : Nat → ℂ), Represents n P → Sums n P → Exchangeable n c.infl P φ →
        Agrees t (moment n c P φ) v → ∀ p, e.symbols = some p → Poly.value v p = φ ((picked (copies n c) index).map P).prod := by
  have hb : Built n c := ⟨hc⟩
  have hL' : (variants c).length ≤ L := by simpa [copies] using hL
  have hinfo : Probability.inflationInfo (variantOutcomes c) =
      Probability.dimensionInfo ((C94.inflationParties (variantOutcomes c)).map List.length) (C94.inflationParties (variantOutcomes c)).flatten := by
    unfold Probability.inflationInfo C94.inflationParties
    congr 1
    · simp [Function.comp_def]
    · generalize variantOutcomes c = l
      induction l with
      | nil => rfl
      | cons n l ih => rw [List.map_cons, List.map_cons, ih]; rfl
  obtain ⟨e, e1, e2, e3⟩ := C94.C94_probability (C94.inflationParties (variantOutcomes c)) (by
    intro mm hm m hmm
    obtain ⟨k, g1, rfl⟩ := List.mem_map.mp hm
    rw [List.mem_singleton] at hmm
    subst hmm
    by_cases h : k = 0 <;> simp [h]
    omega) (MatrixBasis.polyTable t) o (gisinView c t T) parties_gisin.symm index (by rw [parties_full]; exact hx)
  have view : ∀ idx, Inflation.Valid c idx → ∃ x, gisinElement c t T idx = some x ∧
      (gisinView c t T).symbol (Probability.position (Inflation.gisinDims c) idx) = x.id := by
    intro idx hi
    obtain ⟨x, x1, x2, -⟩ := element_spec (n := n) hb h hL' hne hT hi
    refine ⟨x, x1, ?_⟩
    unfold gisinView
    dsimp only
    rw [x2]; rfl
  refine ⟨e, by rw [hinfo]; exact e1, fun hall => e3 fun idx hi => ?_, fun A _ _ P φ v hP hS hφ hv p hp => ?_⟩
  · rw [parties_gisin] at hi ⊢
    obtain ⟨x, g1, g2⟩ := hall idx hi
    obtain ⟨x', k1, k2⟩ := view idx hi
    rw [g1, Option.some.injEq] at k1
    subst k1
    rw [k2]
    exact Option.isSome_iff_ne_none.mpr g2
  · have jg : ∀ idx, Inflation.Valid c idx → Probability.joint (fun d _ k => P ((copyAt n c d).op k)) 0
        (Probability.gisinChoices (C94.inflationParties (variantOutcomes c)) idx) = ((picked (copies n c) idx).map P).prod := by
      intro idx hi
      have := joint_gisin P (copyAt n c) (counted n c) idx 0 copyAt_counted (by rw [counted_snd, parties_gisin]; exact hi)
      rw [counted_snd, counted_fst] at this
      exact this
    have jf := joint_full P (copyAt n c) (counted n c) index 0 copyAt_counted (by rw [counted_snd, parties_full]; exact hx)
    rw [counted_snd, counted_fst] at jf
    rw [← jf]
    refine (e2 A _ φ (sums_complete hb hS)).2
      (fun k => φ ((picked (copies n c) (MultiDim.nth true (Inflation.gisinDims c) k)).map P).prod) v p (fun idx hi => ?_) hv.flags (fun idx hi s hs => ?_) hp
    · rw [parties_gisin] at hi ⊢
      obtain ⟨k, -, g1, g2⟩ := Inflation.valid_nth hi
      rw [g2, jg idx hi]
      dsimp only
      rw [g1]
    · rw [parties_gisin] at hi hs
      obtain ⟨x, k1, k2⟩ := view idx hi
      rw [jg idx hi]
      exact C115_value hc hne h hL hT hP hφ hv hi k1 (k2 ▸ hs)

/-- **C115, completeness.** After the moment matrix of level `k` has been made, where `2 * k` is at least the number of copies, no symbols are missing. -/
theorem C115_complete (hc : ContextOf n c) (hne : Inflation.gisinDims c ≠ []) {k : Nat} (h : Room c (2 * k)) (hL : (copies n c).length ≤ 2 * k) {t : Table}
    (ht : Grown (host c) (IsSeq c (2 * k)) t) {T : Gisin.Tensor} (hT : Inflation.Reach c (2 * k) t T) :
    ∃ t' M, createMatrix (host c) t (momentFn (host c)) ((generate c k).map (sequence c)) = some (t', some M) ∧ Grown (host c) (IsSeq c (2 * k)) t' ∧
      Inflation.Reach c (2 * k) t' T ∧ (T.fill (env c) t').2 = true ∧
      ∀ idx, Inflation.Valid c idx → ∃ e, gisinElement c t' (T.fill (env c) t').1 idx = some e ∧ e.id ≠ none := by
  have hb : Built n c := ⟨hc⟩
  have hL' : (variants c).length ≤ 2 * k := by simpa [copies] using hL
  obtain ⟨t', M, h1, h2, ⟨hext, hk⟩, -⟩ := C114.C114_level hc k h ht
  have hR : Inflation.Reach c (2 * k) t' T := .grow hT hext h2.ready
  obtain ⟨T', r, g1, g2, g3, g4⟩ := (C115_refresh hc hne h hL).2 t' T hR
  have full : ∀ idx e, Inflation.Valid c idx → gisinElement c t' T' idx = some e → e.id ≠ none := by
    intro idx e hx he hn
    refine (g3 idx e hx he).mp hn ?_
    obtain ⟨-, hW⟩ := word_spec (n := n) hb h hL' hx
    have hf := find_known hb h h2.ready hW (.inr (hk _ hW.1 hW.2 (product_nonzero hb hW.1)))
    obtain ⟨x, k1, -, k2, -⟩ := element_spec (n := n) hb h hL' hne g2 hx
    rw [he, Option.some.injEq] at k1
    subst k1
    rw [k2]
    exact (found_iff hb h h2.ready hW).mp hf
  refine ⟨t', M, h1, h2, hR, ?_, fun idx hx => ?_⟩
  · rw [g1]
    cases hv : T.isVirtual with
    | true =>
      unfold Gisin.Tensor.fill at g1
      rw [if_pos hv, Prod.mk.injEq] at g1
      exact g1.2.symm
    | false => exact ((g4 hv).1).mpr full
  · rw [g1]
    obtain ⟨e, he, -⟩ := element_spec (n := n) hb h hL' hne g2 hx
    exact ⟨e, he, full idx e hx he⟩

/-! ## Ranges of measurements -/

/-- The indices of a tensor that lie in the box are exactly those where the requested copies are measured (with the requested outcome, if one is given) and no
others; the box does not leave the tensor. -/
def Selects (c : Inflation.Ctx) (dims : List Nat) (reqs : List ((Nat × Nat) × Option Nat)) (lo hi : List Nat) : Prop :=
  lo.length = dims.length ∧ List.Forall₂ (· ≤ ·) hi dims ∧ ∀ idx, List.Forall₂ (· < ·) idx dims →
    ((∀ (d i l u : Nat), idx[d]? = some i → lo[d]? = some l → hi[d]? = some u → l ≤ i ∧ i < u) ↔
      ∀ (d i : Nat) x, idx[d]? = some i → (variants c)[d]? = some x → match i with
        | 0 => ∀ r ∈ reqs, r.1 ≠ x
        | k + 1 => ∃ r ∈ reqs, r.1 = x ∧ (r.2 = none ∨ r.2 = some k))

theorem range_selects (hb : Built n c) {dims : List Nat} (hd : dims.length = (variants c).length) (hp : ∀ D ∈ dims, 1 ≤ D)
    {reqs : List ((Nat × Nat) × Option Nat)}
    (hr : ∀ r ∈ reqs, ∃ (d D : Nat), (variants c)[d]? = some r.1 ∧ dims[d]? = some D ∧ ∀ k, r.2 = some k → k + 1 < D) :
    (reqs.Pairwise (fun a b => a.1 ≠ b.1) →
      ∃ lo hi, (requests c reqs).bind (Gisin.range (slotsOf dims) dims.length) = some (some (lo, hi)) ∧ Selects c dims reqs lo hi) ∧
    (¬ reqs.Pairwise (fun a b => a.1 ≠ b.1) → (requests c reqs).bind (Gisin.range (slotsOf dims) dims.length) = some none) := by
  obtain ⟨s1, s2⟩ := range_spec hb hd (reqs := reqs) fun r h => by
    obtain ⟨d, -, h1, -⟩ := hr r h
    exact List.mem_of_getElem? h1
  refine ⟨fun hpw => ?_, s2⟩
  obtain ⟨lo, hi, h1, h2, h3, h4⟩ := s1 hpw
  have var : ∀ d < dims.length, ∃ x, (variants c)[d]? = some x := fun d h => ⟨_, List.getElem?_eq_getElem (by omega)⟩
  have dim : ∀ d < dims.length, ∃ D, dims[d]? = some D ∧ 1 ≤ D := fun d h => ⟨_, List.getElem?_eq_getElem h, hp _ (List.getElem_mem h)⟩
  have bound : ∀ r ∈ reqs, ∀ d D : Nat, (variants c)[d]? = some r.1 → dims[d]? = some D → ∀ k, r.2 = some k → k + 1 < D := by
    intro r h d D g1 g2 k hk
    obtain ⟨d', D', e1, e2, e3⟩ := hr r h
    have : d' = d := (dimOf_unique hb e1).symm.trans (dimOf_unique hb g1)
    subst this
    rw [g2, Option.some.injEq] at e2
    subst e2
    exact e3 k hk
  have pick : ∀ x, (∀ r ∈ reqs, r.1 ≠ x) ∨ ∃ r ∈ reqs, r.1 = x := fun x => by
    by_cases h : ∃ r ∈ reqs, r.1 = x
    · exact .inr h
    · exact .inl fun r hr e => h ⟨r, hr, e⟩
  have only : ∀ r ∈ reqs, ∀ r' ∈ reqs, r.1 = r'.1 → r = r' := by
    intro r h r' h' e
    by_contra hne
    have : Std.Symm fun a b : (Nat × Nat) × Option Nat => a.1 ≠ b.1 := ⟨fun a b h => h.symm⟩
    exact List.Pairwise.forall hpw h h' hne e
  refine ⟨lo, hi, h1, h2, ?_, fun idx hx => ?_⟩
  · rw [List.forall₂_iff_get]
    refine ⟨h3, fun d g1 g2 => ?_⟩
    obtain ⟨x, hx⟩ := var d g2
    obtain ⟨D, hD, hD1⟩ := dim d g2
    have eD := (List.getElem?_eq_some_iff.mp hD).2
    simp only [List.get_eq_getElem, eD]
    rcases pick x with hno | ⟨r, hr', rfl⟩
    · obtain ⟨-, e2⟩ := (h4 d D x hD hx).1 hno
      rw [(List.getElem?_eq_some_iff.mp e2).2]
      exact hD1
    · obtain ⟨-, e2⟩ := (h4 d D _ hD hx).2 r hr' rfl
      rw [(List.getElem?_eq_some_iff.mp e2).2]
      cases hk : r.2 with
      | none => simp only [Option.elim_none]; omega
      | some k =>
        have := bound r hr' d D hx hD k hk
        simp only [Option.elim_some]; omega
  · have hl := hx.length_eq
    have one : ∀ (d i : Nat) x, idx[d]? = some i → (variants c)[d]? = some x → ∃ l u, lo[d]? = some l ∧ hi[d]? = some u ∧
        ((l ≤ i ∧ i < u) ↔ match i with
          | 0 => ∀ r ∈ reqs, r.1 ≠ x
          | k + 1 => ∃ r ∈ reqs, r.1 = x ∧ (r.2 = none ∨ r.2 = some k)) := by
      intro d i x hi' hx'
      obtain ⟨g1, g2⟩ := List.getElem?_eq_some_iff.mp hi'
      obtain ⟨D, hD, -⟩ := dim d (by omega)
      have hiD : i < D := by
        have := (List.forall₂_iff_get.mp hx).2 d g1 (by omega)
        simpa [g2, (List.getElem?_eq_some_iff.mp hD).2] using this
      rcases pick x with hno | ⟨r, hr', rfl⟩
      · obtain ⟨e1, e2⟩ := (h4 d D x hD hx').1 hno
        refine ⟨0, 1, e1, e2, ?_⟩
        cases i with
        | zero => simpa using hno
        | succ k =>
          dsimp only
          refine ⟨fun h => by omega, ?_⟩
          rintro ⟨r, q1, q2, -⟩
          exact absurd q2 (hno r q1)
      · obtain ⟨e1, e2⟩ := (h4 d D _ hD hx').2 r hr' rfl
        refine ⟨_, _, e1, e2, ?_⟩
        cases i with
        | zero =>
          dsimp only
          refine ⟨fun h => by omega, fun h => absurd rfl (h r hr')⟩
        | succ k =>
          dsimp only
          constructor
          · rintro ⟨q1, q2⟩
            refine ⟨r, hr', rfl, ?_⟩
            cases hk : r.2 with
            | none => exact .inl rfl
            | some k' =>
              rw [hk] at q1 q2
              simp only [Option.getD_some, Option.elim_some] at q1 q2
              exact .inr (by congr 1; omega)
          · rintro ⟨r', q1, q2, q3⟩
            obtain rfl := only r' q1 r hr' q2
            rcases q3 with q3 | q3 <;> rw [q3] <;> simp only [Option.getD_none, Option.elim_none, Option.getD_some, Option.elim_some] <;> omega
    constructor
    · intro hbox d i x hi' hx'
      obtain ⟨l, u, a1, a2, a3⟩ := one d i x hi' hx'
      exact a3.mp (hbox d i l u hi' a1 a2)
    · intro hall d i l u a1 a2 a3
      obtain ⟨x, hx'⟩ := var d (by have := (List.getElem?_eq_some_iff.mp a1).1; omega)
      obtain ⟨l', u', b1, b2, b3⟩ := one d i x a1 hx'
      rw [a2, Option.some.injEq] at b1
      rw [a3, Option.some.injEq] at b2
      subst b1 b2
      exact b3.mpr (hall d i x a1 hx')

theorem gisin_pos : ∀ D ∈ Inflation.gisinDims c, 1 ≤ D := by
  intro D hD
  rw [dims_eq] at hD
  obtain ⟨x, -, rfl⟩ := List.mem_map.mp hD
  by_cases h : (obsAt c x.1).outcomes = 0 <;> simp [Obs.projective, h]
  omega

theorem full_pos : ∀ D ∈ Inflation.fullDims c, 1 ≤ D := by
  intro D hD
  rw [fullDims_eq] at hD
  obtain ⟨x, -, rfl⟩ := List.mem_map.mp hD
  split <;> omega

/-- **C115, ranges.** Requests that name different copies, and outcomes that exist, give the box of exactly the wanted indices, in the Collins-Gisin tensor (where
the last outcomes do not exist) and in the probability tensor; if a copy is named twice, there is an exception. -/
theorem C115_range_partial (hc : ContextOf n c) {reqs : List ((Nat × Nat) × Option Nat)} :
    ((∀ r ∈ reqs, ∃ (d D : Nat), (variants c)[d]? = some r.1 ∧ (Inflation.gisinDims c)[d]? = some D ∧ ∀ k, r.2 = some k → k + 1 < D) →
      (reqs.Pairwise (fun a b => a.1 ≠ b.1) → ∃ lo hi, gisinRange c reqs = some (some (lo, hi)) ∧ Selects c (Inflation.gisinDims c) reqs lo hi) ∧
      (¬ reqs.Pairwise (fun a b => a.1 ≠ b.1) → gisinRange c reqs = some none)) ∧
    ((∀ r ∈ reqs, ∃ (d D : Nat), (variants c)[d]? = some r.1 ∧ (Inflation.fullDims c)[d]? = some D ∧ ∀ k, r.2 = some k → k + 1 < D) →
      (reqs.Pairwise (fun a b => a.1 ≠ b.1) → ∃ lo hi, fullRange c reqs = some (some (lo, hi)) ∧ Selects c (Inflation.fullDims c) reqs lo hi) ∧
      (¬ reqs.Pairwise (fun a b => a.1 ≠ b.1) → fullRange c reqs = some none)) := by
  have hb : Built n c := ⟨hc⟩
  refine ⟨fun hr => ?_, fun hr => ?_⟩
  · unfold gisinRange
    rw [gisinSlots_dims]
    exact range_selects hb (by rw [dims_eq]; simp) gisin_pos hr
  · exact range_selects hb (by rw [fullDims_eq]; simp) full_pos hr

/-- **C115, elements of outcomes.** Outcomes of different copies give the index of the element that measures these copies, with these outcomes, and no others. -/
theorem C115_outcome_partial (hc : ContextOf n c) {fixed : List ((Nat × Nat) × Nat)}
    (hr : ∀ r ∈ fixed, ∃ (d D : Nat), (variants c)[d]? = some r.1 ∧ (Inflation.fullDims c)[d]? = some D ∧ r.2 + 1 < D) :
    (fixed.Pairwise (fun a b => a.1 ≠ b.1) → ∃ idx, outcomeIndex c fixed = some (some idx) ∧ List.Forall₂ (· < ·) idx (Inflation.fullDims c) ∧
      ∀ (d i : Nat) x, idx[d]? = some i → (variants c)[d]? = some x → match i with
        | 0 => ∀ r ∈ fixed, r.1 ≠ x
        | k + 1 => (x, k) ∈ fixed) ∧
    (¬ fixed.Pairwise (fun a b => a.1 ≠ b.1) → outcomeIndex c fixed = some none) := by
  have hb : Built n c := ⟨hc⟩
  have hd : (Inflation.fullDims c).length = (variants c).length := by rw [fullDims_eq]; simp
  have hpw : (fixed.map fun r => (r.1, some r.2)).Pairwise (fun a b => a.1 ≠ b.1) ↔ fixed.Pairwise (fun a b => a.1 ≠ b.1) := by rw [List.pairwise_map]
  obtain ⟨s1, s2⟩ := range_spec hb hd (reqs := fixed.map fun r => (r.1, some r.2)) fun r h => by
    obtain ⟨q, hq, rfl⟩ := List.mem_map.mp h
    obtain ⟨d, -, h1, -⟩ := hr q hq
    exact List.mem_of_getElem? h1
  rw [hpw] at s1 s2
  refine ⟨fun hp => ?_, fun hp => ?_⟩
  · obtain ⟨lo, hi, h1, h2, -, h4⟩ := s1 hp
    have one : ∀ (d D : Nat) x, (Inflation.fullDims c)[d]? = some D → (variants c)[d]? = some x → ∃ i, lo[d]? = some i ∧ i < D ∧ match i with
        | 0 => ∀ r ∈ fixed, r.1 ≠ x
        | k + 1 => (x, k) ∈ fixed := by
      intro d D x hD hx
      by_cases h : ∃ r ∈ fixed, r.1 = x
      · obtain ⟨r, hr', rfl⟩ := h
        obtain ⟨e1, -⟩ := (h4 d D _ hD hx).2 (r.1, some r.2) (List.mem_map.mpr ⟨r, hr', rfl⟩) rfl
        obtain ⟨d', D', g1, g2, g3⟩ := hr r hr'
        have : d' = d := (dimOf_unique hb g1).symm.trans (dimOf_unique hb hx)
        subst this
        rw [hD, Option.some.injEq] at g2
        subst g2
        refine ⟨r.2 + 1, by rw [e1]; simp [Nat.add_comm], g3, hr'⟩
      · push Not at h
        obtain ⟨e1, -⟩ := (h4 d D x hD hx).1 fun r hr' => by
          obtain ⟨q, hq, rfl⟩ := List.mem_map.mp hr'
          exact h q hq
        exact ⟨0, e1, full_pos D (List.mem_of_getElem? hD), h⟩
    refine ⟨lo, ?_, ?_, fun d i x hi' hx => ?_⟩
    · unfold outcomeIndex fullRange
      rw [show fullSlots c = slotsOf (Inflation.fullDims c) from rfl, h1]
      rfl
    · rw [List.forall₂_iff_get]
      refine ⟨h2, fun d g1 g2 => ?_⟩
      obtain ⟨i, e1, e2, -⟩ := one d _ _ (List.getElem?_eq_getElem g2) (List.getElem?_eq_getElem (by omega))
      simpa [(List.getElem?_eq_some_iff.mp e1).2] using e2
    · have hlt := (List.getElem?_eq_some_iff.mp hi').1
      obtain ⟨i', e1, -, e3⟩ := one d _ x (List.getElem?_eq_getElem (by omega)) hx
      rw [hi', Option.some.injEq] at e1
      subst e1
      exact e3
  · unfold outcomeIndex fullRange
    rw [show fullSlots c = slotsOf (Inflation.fullDims c) from rfl, s2 hp]
    rfl

/-- **C115, refuted: numbers of copies.** The number of a copy is not checked. The number after the last copy of the last observable is read out of bounds; the
number after the last copy of another observable gives the range of the next observable. -/
theorem C115_refuted_bound : ContextOf twoSources twoSourcesCtx ∧ (0, 4) ∉ variants twoSourcesCtx ∧ gisinRange twoSourcesCtx [((0, 4), none)] = none ∧
    fullRange twoSourcesCtx [((0, 4), none)] = none ∧ gisinRange twoSourcesCtx [((0, 5), none)] = some none ∧
    ContextOf exNet exCtx ∧ (0, 2) ∉ variants exCtx ∧ (1, 0) ∈ variants exCtx ∧
    gisinRange exCtx [((0, 2), none)] = gisinRange exCtx [((1, 0), none)] ∧ (gisinRange exCtx [((0, 2), none)]).join.isSome ∧
    outcomeIndex exCtx [((0, 2), 1)] = outcomeIndex exCtx [((1, 0), 1)] ∧ (outcomeIndex exCtx [((0, 2), 1)]).join.isSome := by
  refine ⟨C114.two_context, by decide, by decide, by decide, by decide, exContext, by decide, by decide, by decide, by decide, by decide, by decide⟩

/-- **C115, refuted: numbers of outcomes.** Outcomes are not checked. In the Collins-Gisin tensor the last outcome, which has no operator, gives a box outside the
tensor. In the probability tensor an outcome that does not exist gives an index outside the tensor, which is used without checks: it has the position of the first
outcome of the next copy. -/
theorem C115_refuted_outcome : gisinRange twoSourcesCtx [((0, 0), some 1)] = some (some ([2, 0, 0, 0], [3, 1, 1, 1])) ∧
    Inflation.gisinDims twoSourcesCtx = [2, 2, 2, 2] ∧
    outcomeIndex twoSourcesCtx [((0, 0), 2)] = some (some [3, 0, 0, 0]) ∧ outcomeIndex twoSourcesCtx [((0, 1), 0)] = some (some [0, 1, 0, 0]) ∧
    Inflation.fullDims twoSourcesCtx = [3, 3, 3, 3] ∧
    Tensor.indexToOffsetNoChecks true (Inflation.fullDims twoSourcesCtx) [3, 0, 0, 0] =
      Tensor.indexToOffsetNoChecks true (Inflation.fullDims twoSourcesCtx) [0, 1, 0, 0] := by
  refine ⟨by decide, by decide, by decide, by decide, by decide, by decide⟩

/-- A network of one observable with many outcomes. -/
def manyNet : Causal := ⟨[1026], []⟩

def manyCtx : Inflation.Ctx := ⟨⟨[⟨1026, [0], true⟩], 0⟩, 1⟩

theorem manyContext : ContextOf manyNet manyCtx := by unfold ContextOf; decide +kernel

/-- **C115, refuted: tensors that are not stored.** A tensor of more than 1024 elements says that no symbols are missing, whatever the table is. -/
theorem C115_refuted_virtual :
    (∀ c t T, Tensor.elementCount (Inflation.gisinDims c) > 1024 → makeGisin c t = some T → T.fill (env c) t = (T, true) ∧ T.hasAllSymbols = true) ∧
    ∃ T e, makeGisin manyCtx Table.new = some T ∧ T.fill (env manyCtx) Table.new = (T, true) ∧ T.hasAllSymbols = true ∧
      gisinElement manyCtx Table.new T [1] = some e ∧ e.id = none := by
  have h1 : ∀ c t T, Tensor.elementCount (Inflation.gisinDims c) > 1024 → makeGisin c t = some T → T.fill (env c) t = (T, true) ∧ T.hasAllSymbols = true := by
    intro c t T hb hT
    unfold makeGisin at hT
    rw [if_pos hb, Option.some.injEq] at hT
    subst hT
    exact ⟨rfl, rfl⟩
  refine ⟨h1, ?_⟩
  have hroom : Room manyCtx 1 := ⟨by decide +kernel, by decide +kernel⟩
  have hbig : Tensor.elementCount (Inflation.gisinDims manyCtx) > 1024 := by decide +kernel
  have hx : Inflation.Valid manyCtx [1] := List.Forall₂.cons (by decide) List.Forall₂.nil
  have hne : Inflation.gisinDims manyCtx ≠ [] := by decide
  have hl : (copies manyNet manyCtx).length ≤ 1 := by decide +kernel
  obtain ⟨c1, c2⟩ := C115_refresh manyContext hne hroom hl
  obtain ⟨T, hT⟩ := c1 Table.new
  have hR : Inflation.Reach manyCtx 1 Table.new T := .new Ready.new hT
  obtain ⟨g2, g3⟩ := h1 _ _ _ hbig hT
  obtain ⟨T', r, k1, -, k2, -⟩ := c2 _ T hR
  rw [g2, Prod.mk.injEq] at k1
  obtain ⟨rfl, -⟩ := k1
  have hb : Built manyNet manyCtx := ⟨manyContext⟩
  obtain ⟨-, hW⟩ := word_spec (n := manyNet) hb hroom (by decide +kernel) hx
  obtain ⟨e, e1, -, e3, -⟩ := element_spec (n := manyNet) hb hroom (by decide +kernel) hne hR hx
  refine ⟨T, e, hT, g2, g3, e1, (k2 _ _ hx e1).mpr ?_⟩
  have hal : (env manyCtx).aliases = false := by show canHaveAliases manyCtx = false; decide +kernel
  have hsh : shown manyCtx e.seq = e.seq := by unfold shown; rw [hal]; rfl
  have hops : e.seq.ops = [0] := by rw [e3]; decide +kernel
  rintro ⟨j, sym, q1, q2⟩
  rw [hsh, or_self] at q2
  have : sym ∈ Table.new.syms := List.mem_of_getElem? q1
  simp only [Table.new, List.mem_cons, List.not_mem_nil, or_false] at this
  rcases this with rfl | rfl <;> have q3 := Option.some.inj q2 <;> rw [← q3] at hops <;>
    simp [HSeq.zero, HSeq.identity] at hops

/-! ## Examples -/

/-- Four copies of one observable: after the second level nothing is missing, and every probability has its polynomial. -/
example : ∃ t' T, Inflation.Reach twoSourcesCtx 4 t' T ∧ (∀ idx, Inflation.Valid twoSourcesCtx idx → ∃ e, gisinElement twoSourcesCtx t' T idx = some e ∧ e.id ≠ none) ∧
    ∀ o index, List.Forall₂ (· < ·) index [3, 3, 3, 3] → ∃ e, Probability.makeElement (MatrixBasis.polyTable t') o (gisinView twoSourcesCtx t' T)
      (Probability.inflationInfo (variantOutcomes twoSourcesCtx)) index = some e ∧ e.symbols.isSome := by
  have hroom : Room twoSourcesCtx (2 * 2) := C114.two_room.mono (by omega)
  have hne : Inflation.gisinDims twoSourcesCtx ≠ [] := by decide
  have hl : (copies twoSources twoSourcesCtx).length ≤ 2 * 2 := by decide +kernel
  obtain ⟨T, hT⟩ := (C115_refresh C114.two_context hne hroom hl).1 Table.new
  obtain ⟨t', M, -, -, h2, -, h3⟩ := C115_complete (k := 2) C114.two_context hne hroom hl .new (.new Ready.new hT)
  refine ⟨t', _, .fill h2, h3, fun o index hx => ?_⟩
  obtain ⟨e, e1, e2, -⟩ := C115_probability C114.two_context hne hroom hl (.fill h2) o (index := index) (by
    rw [show Inflation.fullDims twoSourcesCtx = [3, 3, 3, 3] by decide]; exact hx)
  exact ⟨e, e1, e2 h3⟩

/-- The copies, and the operators that an index names. -/
example : copies twoSources twoSourcesCtx = [⟨0, [0, 0]⟩, ⟨0, [1, 0]⟩, ⟨0, [0, 1]⟩, ⟨0, [1, 1]⟩] ∧
    picked (copies twoSources twoSourcesCtx) [0, 1, 0, 2] = [⟨0, [1, 0], 0⟩, ⟨0, [1, 1], 1⟩] := by decide +kernel

/-- Operators that meet the relations and add up to one: outcomes that are the same in all copies. -/
example : ∃ P : Op → ℂ, Represents twoSources P ∧ Sums twoSources P ∧ Exchangeable twoSources 2 P LinearMap.id ∧ P ⟨0, [0, 1], 0⟩ = 1 := by
  refine ⟨fun a => if a.out = 0 then 1 else 0, ⟨fun a b => mul_comm _ _, fun a _ => by split <;> simp, fun a b h => ?_⟩, ?_, ?_, by simp⟩
  · by_cases h1 : a.out = 0
    · have : b.out ≠ 0 := fun h2 => h.2.2 (h1.trans h2.symm)
      simp [this]
    · simp [h1]
  · intro o k copy _
    rw [Finset.sum_range_succ']
    simp
  · intro σ u _ _
    congr 2
    rw [List.map_map]
    rfl

/-- All outcomes of one copy with the first outcome of another. -/
example : ∃ lo hi, gisinRange exCtx [((1, 3), none), ((0, 1), some 0)] = some (some (lo, hi)) ∧
    Selects exCtx (Inflation.gisinDims exCtx) [((1, 3), none), ((0, 1), some 0)] lo hi :=
  ((C115_range_partial exContext).1 (by
    intro r hr
    simp only [List.mem_cons, List.not_mem_nil, or_false] at hr
    rcases hr with rfl | rfl
    · exact ⟨5, 3, by decide, by decide, by decide⟩
    · exact ⟨1, 2, by decide, by decide, by decide⟩)).1 (by decide)

/-- The last outcome of a copy with the only outcome of an observable that is not projective. -/
example : ∃ idx, outcomeIndex exCtx [((1, 3), 2), ((2, 0), 0)] = some (some idx) ∧ List.Forall₂ (· < ·) idx (Inflation.fullDims exCtx) := by
  obtain ⟨idx, h1, h2, -⟩ := (C115_outcome_partial exContext (fixed := [((1, 3), 2), ((2, 0), 0)]) (by
    intro r hr
    simp only [List.mem_cons, List.not_mem_nil, or_false] at hr
    rcases hr with rfl | rfl
    · exact ⟨5, 4, by decide, by decide, by decide⟩
    · exact ⟨6, 2, by decide, by decide, by decide⟩)).1 (by decide)
  exact ⟨idx, h1, h2⟩

end Moment.C115
