import Verif.Proof.GisinSymbols
import Verif.Proof.GisinRange

/-! # C93: Collins-Gisin tensors of locality scenarios

Entries have the words and symbols of products of projectors; tensors that are refreshed when symbols have been added are the tensors that would be made
anew; elements of the probability tensor have the values of the products for all outcomes. -/

namespace Moment.C93
open Moment.Symbols (Table Env)
open Moment.SymbolMatrix
open Moment.Locality (Scenario SameOperator Represents Room IsSeq moment)
open Moment.Probability (locate choice joint gisinChoices gisinDims fullDims fullChoices position Complete makeElement)
open Moment.C94 (localityParties)
open Moment.OperatorMatrix (createMatrix momentFn)
open Moment.Gisin (Entry Reach construct chosen upd)

/-- The index names an element of the tensor. -/
abbrev Valid (s : Scenario) (idx : List Nat) : Prop := List.Forall₂ (· < ·) idx (gisinDims (localityParties s))

/-- The operators that an index stands for: at most one for each party, in the order of the parties. -/
abbrev product (s : Scenario) (idx : List Nat) : List Locality.Op := chosen 0 (gisinChoices (localityParties s) idx)

theorem make_eq {c : Env} (hc : c.aliases = false) (t : Table) (w : HSeq) : Entry.make c t w = upd c t (Entry.blank w) := by
  unfold Entry.make upd
  have : (t.lookup c w).2 = false := by
    unfold Table.lookup
    split
    · rfl
    · simp [hc]
  rw [this]
  rfl

theorem valid_nth {s : Scenario} {idx : List Nat} (hx : Valid s idx) :
    ∃ k < (Probability.localityGisinDims s).prod, MultiDim.nth true (Probability.localityGisinDims s) k = idx ∧
      position (gisinDims (localityParties s)) idx = k := by
  obtain ⟨k, hk, rfl⟩ := (MultiDim.nth_mem true (Probability.localityGisinDims s) idx).mpr (by rw [Gisin.dims_eq]; exact hx)
  refine ⟨k, hk, rfl, ?_⟩
  rw [← Gisin.dims_eq, ← Probability.offset_eq (by have := hx.length_eq; rwa [← Gisin.dims_eq] at this), Tensor.rank_nth true _ _ hk]

/-- Elements of a tensor that was made for table `t0`. -/
theorem element_made {s : Scenario} {L : Nat} (hne : s ≠ []) (h : Room s L) (hL : s.length ≤ L) {t0 t : Table} {T : Gisin.Tensor}
    (hT : construct s t0 = some T) {idx : List Nat} (hx : Valid s idx) :
    ∃ tt, (tt = t ∧ T.isVirtual = true ∨ tt = t0 ∧ T.isVirtual = false) ∧
      T.element s t idx = some (upd (Locality.env s) tt (Entry.blank (C98.stored s (product s idx)))) ∧
      T.atOffset s t (position (gisinDims (localityParties s)) idx) = some (upd (Locality.env s) tt (Entry.blank (C98.stored s (product s idx)))) := by
  have hw := (Gisin.word_spec h hL hx).1
  obtain ⟨k, hk, rfl, hp⟩ := valid_nth hx
  have hdne : Probability.localityGisinDims s ≠ [] := by simpa [Probability.localityGisinDims] using hne
  unfold construct at hT
  dsimp only at hT
  unfold Gisin.Tensor.element Gisin.Tensor.atOffset
  rw [hp, Tensor.toIndex_eq true _ _ hk, Tensor.rank_nth true _ _ hk]
  split at hT
  · rw [Option.some.injEq] at hT
    subst hT
    refine ⟨t, Or.inl ⟨rfl, rfl⟩, ?_, ?_⟩ <;> simp only [if_true, hw, Option.map_some, make_eq (c := Locality.env s) rfl]
  · rw [Option.map_eq_some_iff] at hT
    obtain ⟨ws, h1, rfl⟩ := hT
    rw [Gisin.indices_eq hdne] at h1
    obtain ⟨-, h2⟩ := Gisin.mapM_get h1
    obtain ⟨w, h3, h4⟩ := h2 k _ (by rw [List.getElem?_map, List.getElem?_range hk]; rfl)
    rw [hw, Option.some.injEq] at h3
    subst h3
    refine ⟨t0, Or.inr ⟨rfl, rfl⟩, ?_, ?_⟩ <;>
      simp only [Bool.false_eq_true, if_false, Gisin.search_eq, List.getElem?_map, h4, Option.map_some]

theorem product_self (s : Scenario) (idx : List Nat) : SameOperator (some (product s idx).reverse) (some (product s idx)) := by
  have hp := (Gisin.chosen_party (gisinChoices (localityParties s) idx) 0).2.1
  exact Gisin.same_perm (List.reverse_perm _) (List.pairwise_reverse.mpr (hp.imp fun h => by omega))

theorem product_normal (s : Scenario) (idx : List Nat) : Locality.nf (product s idx) = some (product s idx) :=
  Gisin.nf_ascending (Gisin.chosen_party (gisinChoices (localityParties s) idx) 0).2.1

/-- Some symbol of the table has the word. -/
def Present (t : Table) (w : HSeq) : Prop := ∃ (j : Nat) (sym : Symbols.Sym), t.syms[j]? = some sym ∧ sym.seq = some w

theorem found_iff {s : Scenario} {L : Nat} (h : Room s L) (hL : s.length ≤ L) {t : Table} (ht : Ready (Locality.host s) (IsSeq s L) t) {idx : List Nat}
    (hx : Valid s idx) : ((Entry.blank (C98.stored s (product s idx))).find (Locality.env s) t).isSome ↔ Present t (C98.stored s (product s idx)) := by
  have hW := (Gisin.word_spec h hL hx).2
  constructor
  · intro hf
    obtain ⟨e, he⟩ := Option.isSome_iff_exists.mp hf
    obtain ⟨j, sym, -, h2, -, h3, -⟩ := Gisin.find_blank h ht hW (product_self s idx) he
    exact ⟨j, sym, h2, h3⟩
  · rintro ⟨j, sym, h1, h2⟩
    apply Gisin.find_known h ht
    have hfit := ht.fit (Locality.setting s L h)
    obtain ⟨-, h3, -⟩ := hfit.inv.full j (C98.stored s (product s idx)) sym.conj (by
      unfold Table.keys
      rw [List.getElem?_map, h1, Option.map_some]
      have : sym.id = j := by
        have := hfit.inv.ids j
        unfold Table.keys at this
        simp only [List.getElem?_map, h1, Option.map_some] at this
        simpa [Symbols.Sym.key] using this
      simp [Symbols.Sym.key, h2, this])
    rw [h3]; rfl

/-- **C93.** Every index has an element. Its word is the product of the operators that the index stands for: the numbers of the operators in the order of the
parties, equal to its own conjugate. If the element has a symbol, the symbol is one of the table, and its word is exactly that of the element. -/
theorem C93_entry {s : Scenario} {L : Nat} (hne : s ≠ []) (h : Room s L) (hL : s.length ≤ L) {t : Table} (ht : Ready (Locality.host s) (IsSeq s L) t)
    {T : Gisin.Tensor} (hT : Reach s t T) {idx : List Nat} (hx : Valid s idx) :
    ∃ e, T.element s t idx = some e ∧ T.atOffset s t (position (gisinDims (localityParties s)) idx) = some e ∧
      C10.Names s (product s idx) e.seq.ops ∧ e.seq.sign = .pos ∧ e.seq.hash ≠ 0 ∧ (Locality.env s).conj e.seq = e.seq ∧ e.aliased = false ∧
      (∀ j, e.id = some j → ∃ sym, t.syms[j]? = some sym ∧ sym.id = j ∧ sym.seq = some e.seq ∧ e.re = sym.re) ∧
      (T.isVirtual = true → e.id = none → ¬ Present t e.seq) := by
  obtain ⟨t0, hext, hmade⟩ := hT.made
  obtain ⟨tt, htt, h1, h2⟩ := element_made hne h hL (t := t) hmade hx
  have hW := (Gisin.word_spec h hL hx).2
  have hseq : (upd (Locality.env s) tt (Entry.blank (C98.stored s (product s idx)))).seq = C98.stored s (product s idx) := by
    unfold upd
    cases hf : (Entry.blank (C98.stored s (product s idx))).find (Locality.env s) tt with
    | none => rfl
    | some e => exact Gisin.find_seq hf
  have hst : C98.stored s (product s idx) = ⟨hashWord (UInt64.ofNat (Locality.operatorCount s)) ((product s idx).map (Locality.enc s)),
      (product s idx).map (Locality.enc s), .pos⟩ := by
    unfold C98.stored
    rw [product_normal]
  refine ⟨_, h1, h2, ?_, ?_, ?_, ?_, ?_, ?_, ?_⟩
  · rw [hseq, hst]
    exact C10.names_iff.mpr ⟨hW.1, rfl⟩
  · rw [hseq]; exact C98.stored_sign _ _
  · rw [hseq, hst]
    dsimp only
    refine h.ne ?_ (by simpa using hW.2)
    exact (Locality.normal_iff.mpr ⟨product s idx, hW.1, rfl, product_normal s idx⟩ : Locality.Normal s _).lt
  · rw [hseq, C98.conj_stored h hW]; exact C98.stored_same (product_self s idx)
  · unfold upd
    cases hf : (Entry.blank (C98.stored s (product s idx))).find (Locality.env s) tt with
    | none => rfl
    | some e =>
      rcases htt with ⟨rfl, -⟩ | ⟨rfl, -⟩
      · obtain ⟨_, _, -, -, -, -, -, h8, -⟩ := Gisin.find_blank h ht hW (product_self s idx) hf
        exact h8
      · obtain ⟨_, _, -, -, -, -, -, h8, -⟩ := Gisin.find_blank h ht hW (product_self s idx) (Gisin.find_mono (c := Locality.env s) rfl hext hf)
        exact h8
  · intro j hj
    have hf : (Entry.blank (C98.stored s (product s idx))).find (Locality.env s) t =
        some (upd (Locality.env s) tt (Entry.blank (C98.stored s (product s idx)))) := by
      have hs : (Entry.blank (C98.stored s (product s idx))).find (Locality.env s) tt =
          some (upd (Locality.env s) tt (Entry.blank (C98.stored s (product s idx)))) := by
        cases hf : (Entry.blank (C98.stored s (product s idx))).find (Locality.env s) tt with
        | none =>
          unfold upd at hj
          rw [hf] at hj
          simp [Entry.blank] at hj
        | some e => simp [upd, hf]
      rcases htt with ⟨rfl, -⟩ | ⟨rfl, -⟩
      · exact hs
      · exact Gisin.find_mono (c := Locality.env s) rfl hext hs
    obtain ⟨j', sym, g1, g2, g3, g4, g5, -, -⟩ := Gisin.find_blank h ht hW (product_self s idx) hf
    rw [hj, Option.some.injEq] at g1
    subst g1
    exact ⟨sym, g2, g3, by rw [hseq]; exact g4, g5⟩
  · intro hv hid hp
    rcases htt with ⟨rfl, -⟩ | ⟨-, hnv⟩
    · rw [hseq] at hp
      obtain ⟨e, he⟩ := Option.isSome_iff_exists.mp ((found_iff h hL ht hx).mpr hp)
      obtain ⟨j, _, g1, -⟩ := Gisin.find_blank h ht hW (product_self s idx) he
      simp [upd, he, g1] at hid
    · simp [hv] at hnv

/-- **C93, refreshed tensors.** Tensors can be made for every table. After `fill_missing_symbols` a tensor is the one that would be made anew for the table; its
elements lack a symbol only if no symbol has their word; and what is returned is whether no symbols are missing, for tensors that store their elements. -/
theorem C93_refresh {s : Scenario} {L : Nat} (hne : s ≠ []) (h : Room s L) (hL : s.length ≤ L) {t : Table} (ht : Ready (Locality.host s) (IsSeq s L) t) :
    (∃ T, construct s t = some T) ∧
    ∀ T, Reach s t T → ∃ T' r, T.fill (Locality.env s) t = (T', r) ∧ Reach s t T' ∧ construct s t = some T' ∧
      (∀ idx e, Valid s idx → T'.element s t idx = some e → (e.id = none ↔ ¬ Present t e.seq)) ∧
      (T.isVirtual = false → (r = true ↔ ∀ idx e, Valid s idx → T'.element s t idx = some e → e.id ≠ none) ∧ T'.hasAllSymbols = r) := by
  refine ⟨Gisin.construct_some h hL t, fun T hT => ?_⟩
  obtain ⟨t0, hext, hmade⟩ := hT.made
  obtain ⟨T', hc, hf⟩ := Gisin.fill_construct hext hmade
  have hR : Reach s t T' := .new hc
  have key : ∀ idx e, Valid s idx → T'.element s t idx = some e → e = upd (Locality.env s) t (Entry.blank (C98.stored s (product s idx))) := by
    intro idx e hx he
    obtain ⟨tt, htt, h1, -⟩ := element_made hne h hL (t := t) hc hx
    have : tt = t := by rcases htt with ⟨e, -⟩ | ⟨e, -⟩ <;> exact e
    rw [this] at h1
    rw [h1, Option.some.injEq] at he
    exact he.symm
  have hid : ∀ idx e, Valid s idx → T'.element s t idx = some e →
      (e.id = none ↔ (Entry.blank (C98.stored s (product s idx))).find (Locality.env s) t = none) ∧ e.seq = C98.stored s (product s idx) := by
    intro idx e hx he
    rw [key idx e hx he]
    unfold upd
    cases hf : (Entry.blank (C98.stored s (product s idx))).find (Locality.env s) t with
    | none => simp [Entry.blank]
    | some e' =>
      obtain ⟨j, _, g1, _⟩ := Gisin.find_blank h ht (Gisin.word_spec h hL hx).2 (product_self s idx) hf
      exact ⟨by simp [g1], Gisin.find_seq hf⟩
  refine ⟨T', _, hf, hR, hc, fun idx e hx he => ?_, fun hv => ⟨?_, rfl⟩⟩
  · obtain ⟨h1, h2⟩ := hid idx e hx he
    rw [h1, h2, ← found_iff h hL ht hx]
    simp
  · have hdne : Probability.localityGisinDims s ≠ [] := by simpa [Probability.localityGisinDims] using hne
    have hdata : ∃ ws, ((List.range (Probability.localityGisinDims s).prod).map (MultiDim.nth true (Probability.localityGisinDims s))).mapM (Gisin.word s) = some ws ∧
        T'.missing = Gisin.gaps (Locality.env s) t 0 (ws.map Entry.blank) := by
      unfold construct at hc hmade
      dsimp only at hc hmade
      split at hc
      · rename_i hbig
        rw [if_pos hbig, Option.some.injEq] at hmade
        rw [← hmade] at hv
        simp at hv
      · rw [Option.map_eq_some_iff] at hc
        obtain ⟨ws, h1, rfl⟩ := hc
        rw [Gisin.indices_eq hdne] at h1
        exact ⟨ws, h1, by simp [Gisin.search_eq]⟩
    obtain ⟨ws, h1, h2⟩ := hdata
    obtain ⟨hlen, hget⟩ := Gisin.mapM_get h1
    unfold Gisin.Tensor.hasAllSymbols
    rw [h2, List.isEmpty_iff, Gisin.gaps_nil_iff]
    constructor
    · intro hall idx e hx he
      rw [ne_eq, (hid idx e hx he).1]
      obtain ⟨k, hk, rfl, -⟩ := valid_nth hx
      obtain ⟨w, h3, h4⟩ := hget k _ (by rw [List.getElem?_map, List.getElem?_range hk]; rfl)
      rw [(Gisin.word_spec h hL hx).1, Option.some.injEq] at h3
      subst h3
      have := hall _ (List.mem_map.mpr ⟨_, List.mem_of_getElem? h4, rfl⟩)
      intro hn
      rw [hn] at this
      simp at this
    · intro hall b hb
      obtain ⟨w, hw, rfl⟩ := List.mem_map.mp hb
      obtain ⟨k, hk⟩ := List.mem_iff_getElem?.mp hw
      have hklt := (List.getElem?_eq_some_iff.mp hk).1
      rw [hlen, List.length_map, List.length_range] at hklt
      obtain ⟨w', h3, h4⟩ := hget k _ (by rw [List.getElem?_map, List.getElem?_range hklt]; rfl)
      rw [hk, Option.some.injEq] at h4
      subst h4
      have hx := Gisin.nth_dims hklt
      rw [(Gisin.word_spec h hL hx).1, Option.some.injEq] at h3
      subst h3
      obtain ⟨e, he, -⟩ := C93_entry hne h hL ht hR hx
      have := hall _ e hx he
      rw [ne_eq, (hid _ e hx he).1] at this
      exact Option.isSome_iff_ne_none.mpr this

/-- **C93, values.** In every algebra whose operators are self-adjoint and meet the relations of the scenario, the symbols of the entries have the values of
the products of the projectors that their indices name. -/
theorem C93_value {s : Scenario} {L : Nat} (hne : s ≠ []) (h : Room s L) (hL : s.length ≤ L) {t : Table} (ht : Ready (Locality.host s) (IsSeq s L) t)
    {T : Gisin.Tensor} (hT : Reach s t T) {A : Type} [Ring A] [Algebra ℂ A] {P : Locality.Op → A} (hP : Represents P) (φ : A →ₗ[ℂ] ℂ) {v : Nat → ℂ}
    (hv : Agrees t (moment s P φ) v) :
    C94.Named (localityParties s) (T.view s t) (fun d m k => P ⟨d, m, k⟩) φ v := by
  intro idx hx j hj
  obtain ⟨e, h1, h2, h3, h4, -, -, -, h5, -⟩ := C93_entry hne h hL ht hT hx
  obtain ⟨t0, hext, hmade⟩ := hT.made
  obtain ⟨tt, -, -, g2⟩ := element_made hne h hL (t := t) hmade hx
  have hW := (Gisin.word_spec h hL hx).2
  have hseq : e.seq = C98.stored s (product s idx) := by
    rw [h2, Option.some.injEq] at g2
    rw [g2]
    unfold upd
    cases hf : (Entry.blank (C98.stored s (product s idx))).find (Locality.env s) tt with
    | none => rfl
    | some e => exact Gisin.find_seq hf
  unfold Gisin.Tensor.view at hj
  dsimp only at hj
  rw [h2, Option.bind_some] at hj
  obtain ⟨sym, k1, -, k2, -⟩ := h5 j hj
  rw [hv.word j sym e.seq k1 k2, Locality.moment_op, hseq, C98.op_stored h hW hP, Gisin.chosen_joint P]

/-- **C93, probabilities.** The elements of the probability tensor, made from the symbols of the Collins-Gisin tensor, have the values of the products of the
projectors for all outcomes, also those that have no operators of their own. If no symbols are missing, every element has its polynomial. -/
theorem C93_probability {s : Scenario} {L : Nat} (hne : s ≠ []) (h1 : ∀ mmts ∈ s, ∀ n ∈ mmts, 1 ≤ n) (h : Room s L) (hL : s.length ≤ L) {t : Table}
    (ht : Ready (Locality.host s) (IsSeq s L) t) {T : Gisin.Tensor} (hT : Reach s t T) (o : Poly.Order) {index : List Nat}
    (hx : List.Forall₂ (· < ·) index (fullDims (localityParties s))) :
    ∃ e, makeElement (MatrixBasis.polyTable t) o (T.view s t) (Probability.localityInfo s) index = some e ∧
      ((∀ idx, Valid s idx → ∃ x, T.element s t idx = some x ∧ x.id ≠ none) → e.symbols.isSome) ∧
      ∀ (A : Type) [Ring A] [Algebra ℂ A] (P : Locality.Op → A) (φ : A →ₗ[ℂ] ℂ) (v : Nat → ℂ), Represents P →
        Complete (localityParties s) (fun d m k => P ⟨d, m, k⟩) → Agrees t (moment s P φ) v → ∀ p, e.symbols = some p →
        Poly.value v p = φ (joint (fun d m k => P ⟨d, m, k⟩) 0 (fullChoices (localityParties s) index)) := by
  have hinfo : Probability.localityInfo s = Probability.dimensionInfo ((localityParties s).map List.length) (localityParties s).flatten := by
    unfold Probability.localityInfo localityParties
    rw [List.map_flatten, List.map_map]
    congr 1
    simp [Function.comp_def]
  obtain ⟨e, e1, e2, e3⟩ := C94.C94_probability (localityParties s) (by
    intro mm hm m hmm
    obtain ⟨mmts, g1, rfl⟩ := List.mem_map.mp hm
    obtain ⟨n, g2, rfl⟩ := List.mem_map.mp hmm
    exact h1 mmts g1 n g2) (MatrixBasis.polyTable t) o (T.view s t) (Gisin.dims_eq s) index hx
  refine ⟨e, by rw [hinfo]; exact e1, fun hall => e3 fun idx hi => ?_, fun A _ _ P φ v hP hc hv p hp => ?_⟩
  · obtain ⟨x, g1, g2⟩ := hall idx hi
    obtain ⟨x', k1, k2, -⟩ := C93_entry hne h hL ht hT hi
    rw [g1, Option.some.injEq] at k1
    subst k1
    unfold Gisin.Tensor.view
    dsimp only
    rw [k2, Option.bind_some]
    exact Option.isSome_iff_ne_none.mpr g2
  · let d : Nat → ℂ := fun k =>
      φ (joint (fun d m k => P ⟨d, m, k⟩) 0 (gisinChoices (localityParties s) (MultiDim.nth true (Probability.localityGisinDims s) k)))
    refine (e2 A _ φ hc).2 d v p (fun idx hi => ?_) hv.flags (C93_value hne h hL ht hT hP φ hv) hp
    obtain ⟨k, -, g1, g2⟩ := valid_nth hi
    rw [g2]
    show φ _ = _
    rw [g1]

/-- **C93, completeness.** After the moment matrix of level `n` has been made, with at least half as many levels as there are parties, no symbols are missing. -/
theorem C93_complete {s : Scenario} {n : Nat} (hne : s ≠ []) (h : Room s (2 * n)) (hL : s.length ≤ 2 * n) {t : Table}
    (ht : Grown (Locality.host s) (IsSeq s (2 * n)) t) {T : Gisin.Tensor} (hT : Reach s t T) :
    ∃ t' M, createMatrix (Locality.host s) t (momentFn (Locality.host s)) ((Locality.generate s n).map (Locality.sequence s)) = some (t', some M) ∧
      Reach s t' T ∧ (T.fill (Locality.env s) t').2 = true ∧
      ∀ idx, Valid s idx → ∃ e, (T.fill (Locality.env s) t').1.element s t' idx = some e ∧ e.id ≠ none := by
  obtain ⟨t', M, h1, h2, ⟨hext, hk⟩, -⟩ := C98.C98_level s n h ht
  have hR : Reach s t' T := .grow hT hext
  obtain ⟨T', r, g1, g2, g3, g4, g5⟩ := (C93_refresh hne h hL h2.ready).2 T hR
  have full : ∀ idx e, Valid s idx → T'.element s t' idx = some e → e.id ≠ none := by
    intro idx e hx he hn
    refine (g4 idx e hx he).mp hn ?_
    have hW := (Gisin.word_spec h hL hx).2
    have hf := Gisin.find_known h h2.ready (hk (product s idx) hW.1 hW.2 (by
      rw [← Locality.nf_zero_iff, product_normal]
      simp))
    obtain ⟨x, k1, -, k2, k3, -⟩ := C93_entry hne h hL h2.ready g2 hx
    rw [he, Option.some.injEq] at k1
    subst k1
    have hseq : e.seq = C98.stored s (product s idx) := by
      obtain ⟨tt, -, m1, -⟩ := element_made hne h hL (t := t') g3 hx
      rw [he, Option.some.injEq] at m1
      rw [m1]
      unfold upd
      cases hf : (Entry.blank (C98.stored s (product s idx))).find (Locality.env s) tt with
      | none => rfl
      | some e => exact Gisin.find_seq hf
    rw [hseq]
    exact (found_iff h hL h2.ready hx).mp hf
  refine ⟨t', M, h1, hR, ?_, fun idx hx => ?_⟩
  · rw [g1]
    cases hv : T.isVirtual with
    | true =>
      unfold Gisin.Tensor.fill at g1
      rw [if_pos hv, Prod.mk.injEq] at g1
      exact g1.2.symm
    | false => exact ((g5 hv).1).mpr full
  · rw [g1]
    obtain ⟨e, he, -⟩ := C93_entry hne h hL h2.ready g2 hx
    exact ⟨e, he, full idx e hx he⟩

/-! ## Ranges of measurements -/

/-- The box has exactly the indices where each requested party has the requested measurement (with the requested outcome, if one is given), and all other
parties have none. -/
def Selects (s : Scenario) (reqs : List (Nat × Option Nat)) (lo hi : List Nat) : Prop :=
  lo.length = s.length ∧ hi.length = s.length ∧ ∀ idx, Valid s idx →
    ((∀ (d i l u : Nat), idx[d]? = some i → lo[d]? = some l → hi[d]? = some u → l ≤ i ∧ i < u) ↔
      ∀ d < s.length, match (gisinChoices (localityParties s) idx)[d]? with
        | some none => ∀ r ∈ reqs, ∀ j, locate (s.map List.length) r.1 ≠ some (d, j)
        | some (some (m, k)) => ∃ r ∈ reqs, locate (s.map List.length) r.1 = some (d, m) ∧ (r.2 = none ∨ r.2 = some k)
        | none => False)

theorem slots_offset {s : Scenario} : ∀ g ∈ Gisin.slots s, 1 ≤ g.offset := by
  have h1 : ∀ (p : Nat) (mmts : List Nat) (o : Nat), 1 ≤ o → ∀ g ∈ Gisin.partySlots p o mmts, 1 ≤ g.offset := by
    intro p mmts
    induction mmts with
    | nil => intro o _ g hg; simp [Gisin.partySlots] at hg
    | cons n mmts ih =>
      intro o ho g hg
      rw [Gisin.partySlots, List.mem_cons] at hg
      rcases hg with rfl | hg
      · exact ho
      · exact ih _ (by omega) g hg
  have h2 : ∀ (s : Scenario) (p : Nat), ∀ g ∈ Gisin.slotsFrom p s, 1 ≤ g.offset := by
    intro s
    induction s with
    | nil => intro p g hg; simp [Gisin.slotsFrom] at hg
    | cons mmts s ih =>
      intro p g hg
      rw [Gisin.slotsFrom, List.mem_append] at hg
      exact hg.elim (h1 p mmts 1 (by omega) g) (ih _ g)
  exact h2 s 0

/-- The party of a measurement. -/
def partyOf (s : Scenario) (m : Nat) : Nat := ((locate (s.map List.length) m).map Prod.fst).getD 0

/-- **C93, ranges.** Requests that name measurements of different parties, and outcomes that have operators, give the box of exactly the wanted indices; if
two of them name the same party, there is an exception. -/
theorem C93_range_partial (s : Scenario) (reqs : List (Nat × Option Nat))
    (hv : ∀ r ∈ reqs, ∃ p j mmts n, locate (s.map List.length) r.1 = some (p, j) ∧ s[p]? = some mmts ∧ mmts[j]? = some n ∧ ∀ k, r.2 = some k → k + 1 < n) :
    (reqs.Pairwise (fun a b => partyOf s a.1 ≠ partyOf s b.1) →
      ∃ lo hi, Gisin.range (Gisin.slots s) s.length reqs = some (some (lo, hi)) ∧ Selects s reqs lo hi) ∧
    (¬ reqs.Pairwise (fun a b => partyOf s a.1 ≠ partyOf s b.1) → Gisin.range (Gisin.slots s) s.length reqs = some none) := by
  have hslot : ∀ r ∈ reqs, ∃ g, (Gisin.slots s)[r.1]? = some g ∧ g.party = partyOf s r.1 ∧ g.party < s.length ∧
      ∃ j mmts n, locate (s.map List.length) r.1 = some (g.party, j) ∧ s[g.party]? = some mmts ∧ mmts[j]? = some n ∧ (∀ k, r.2 = some k → k + 1 < n) ∧
        g.offset = 1 + ((mmts.map Locality.numOperators).take j).sum ∧ g.length = Locality.numOperators n := by
    intro r hr
    obtain ⟨p, j, mmts, n, h1, h2, h3, h4⟩ := hv r hr
    obtain ⟨mmts', n', g1, g2, g3⟩ := Gisin.slots_get h1
    rw [h2, Option.some.injEq] at g1
    subst g1
    rw [h3, Option.some.injEq] at g2
    subst g2
    exact ⟨_, g3, by simp [partyOf, h1], (List.getElem?_eq_some_iff.mp h2).1, j, mmts, n, h1, h2, h3, h4, rfl, rfl⟩
  refine ⟨fun hpw => ?_, fun hd => ?_⟩
  · obtain ⟨lo, hi, h1, h2, h3, h4, h5⟩ := Gisin.ranges_spec (gm := Gisin.slots s) slots_offset (partyOf s) reqs (List.replicate s.length 0)
      (List.replicate s.length 1) (by simp) (by
        intro r hr
        obtain ⟨g, g1, g2, g3, -⟩ := hslot r hr
        exact ⟨g, g1, g2, by simpa using g3, by simp [g3]⟩) hpw
    rw [List.length_replicate] at h2 h3
    refine ⟨lo, hi, h1, h2, h3, fun idx hx => ?_⟩
    have hlen : idx.length = s.length := by simpa [gisinDims, localityParties] using hx.length_eq
    have one : ∀ d (hd : d < s.length), ∃ i l u, idx[d]? = some i ∧ lo[d]? = some l ∧ hi[d]? = some u ∧
        ((l ≤ i ∧ i < u) ↔ match (gisinChoices (localityParties s) idx)[d]? with
          | some none => ∀ r ∈ reqs, ∀ j, locate (s.map List.length) r.1 ≠ some (d, j)
          | some (some (m, k)) => ∃ r ∈ reqs, locate (s.map List.length) r.1 = some (d, m) ∧ (r.2 = none ∨ r.2 = some k)
          | none => False) := by
      intro d hd
      have hi' : idx[d]? = some idx[d] := List.getElem?_eq_getElem (by omega)
      have hch : (gisinChoices (localityParties s) idx)[d]? = some (choice (s[d].map Locality.numOperators) idx[d]) := by
        unfold gisinChoices
        rw [List.getElem?_zipWith, hi', show (localityParties s)[d]? = some (s[d].map fun n => (n, false)) by
          unfold localityParties
          rw [List.getElem?_map, List.getElem?_eq_getElem hd]
          rfl]
        dsimp only
        rw [Gisin.stored_locality]
      have hb : idx[d] < (s[d].map Locality.numOperators).sum + 1 := by
        have := (List.forall₂_iff_get.mp hx).2 d (by omega) (by simpa [gisinDims, localityParties] using hd)
        simpa [gisinDims, localityParties, Gisin.stored_locality] using this
      rw [hch]
      by_cases hreq : ∀ r ∈ reqs, partyOf s r.1 ≠ d
      · obtain ⟨e1, e2⟩ := h4 d hreq
        refine ⟨idx[d], 0, 1, hi', by rw [e1]; simp [hd], by rw [e2]; simp [hd], ?_⟩
        have hno : ∀ r ∈ reqs, ∀ j, locate (s.map List.length) r.1 ≠ some (d, j) := by
          intro r hr j e
          exact hreq r hr (by simp [partyOf, e])
        cases hc : choice (s[d].map Locality.numOperators) idx[d] with
        | none =>
          simp only [Nat.zero_le, true_and]
          refine ⟨fun _ => hno, fun _ => ?_⟩
          cases hi0 : idx[d] with
          | zero => omega
          | succ i =>
            rw [hi0] at hc hb
            obtain ⟨x, hx⟩ := Gisin.locate_some (s[d].map Locality.numOperators) i (by omega)
            rw [choice, hx] at hc
            simp at hc
        | some x =>
          obtain ⟨m, k⟩ := x
          simp only [Nat.zero_le, true_and]
          constructor
          · intro h0
            have : idx[d] = 0 := by omega
            rw [this] at hc
            simp [choice] at hc
          · rintro ⟨r, hr, e, -⟩
            exact absurd e (hno r hr m)
      · push Not at hreq
        obtain ⟨r, hr, hp⟩ := hreq
        obtain ⟨g, g1, g2, g3, j, mmts, n, g4, g5, g6, g7, g8, g9⟩ := hslot r hr
        have hgd : g.party = d := g2.trans hp
        obtain ⟨e1, e2⟩ := h5 r hr g g1
        rw [hgd] at e1 e2 g4 g5
        have hmm : s[d] = mmts := (List.getElem?_eq_some_iff.mp g5).2
        have honly : ∀ r' ∈ reqs, ∀ m, locate (s.map List.length) r'.1 = some (d, m) → r' = r := by
          intro r' hr' m e
          by_contra hne'
          have hp' : partyOf s r'.1 = d := by simp [partyOf, e]
          have : Std.Symm fun a b : Nat × Option Nat => partyOf s a.1 ≠ partyOf s b.1 := ⟨fun a b h => h.symm⟩
          have : partyOf s r'.1 ≠ partyOf s r.1 := List.Pairwise.forall hpw hr' hr hne'
          exact this (hp'.trans hp.symm)
        refine ⟨idx[d], _, _, hi', e1, e2, ?_⟩
        have hget : (mmts.map Locality.numOperators)[j]? = some (Locality.numOperators n) := by rw [List.getElem?_map, g6]; rfl
        rw [hmm]
        cases hc : choice (mmts.map Locality.numOperators) idx[d] with
        | none =>
          have hi0 : idx[d] = 0 := by
            cases hi0 : idx[d] with
            | zero => rfl
            | succ i =>
              rw [hi0, hmm] at hb
              rw [hi0] at hc
              obtain ⟨x, hx⟩ := Gisin.locate_some (mmts.map Locality.numOperators) i (by omega)
              rw [choice, hx] at hc
              simp at hc
          constructor
          · rintro ⟨hl, -⟩
            exfalso
            rw [hi0] at hl
            have : 1 ≤ g.lower r.2 := by
              cases r.2 <;> simp only [Gisin.Slot.lower] <;> omega
            omega
          · intro hno
            exact absurd g4 (hno r hr j)
        | some x =>
          obtain ⟨m, k⟩ := x
          obtain ⟨i, hi0⟩ : ∃ i, idx[d] = i + 1 := by
            cases hi0 : idx[d] with
            | zero => rw [hi0] at hc; simp [choice] at hc
            | succ i => exact ⟨i, rfl⟩
          rw [hi0] at hc ⊢
          have hloc : locate (mmts.map Locality.numOperators) i = some (m, k) := hc
          dsimp only
          constructor
          · rintro ⟨hl, hu⟩
            have hgoal : ∃ k', locate (mmts.map Locality.numOperators) i = some (j, k') ∧ (r.2 = none ∨ r.2 = some k') := by
              cases hr2 : r.2 with
              | none =>
                rw [hr2] at hl hu
                simp only [Gisin.Slot.lower, Gisin.Slot.upper] at hl hu
                exact ⟨i - ((mmts.map Locality.numOperators).take j).sum, (Gisin.locate_spec _ _ _ _).mpr ⟨_, hget, by omega, by omega⟩, Or.inl rfl⟩
              | some k' =>
                rw [hr2] at hl hu
                simp only [Gisin.Slot.lower, Gisin.Slot.upper] at hl hu
                have := g7 k' hr2
                exact ⟨k', (Gisin.locate_spec _ _ _ _).mpr ⟨_, hget, by unfold Locality.numOperators; omega, by omega⟩, Or.inr rfl⟩
            obtain ⟨k', q1, q2⟩ := hgoal
            rw [hloc, Option.some.injEq, Prod.mk.injEq] at q1
            obtain ⟨rfl, rfl⟩ := q1
            exact ⟨r, hr, g4, q2⟩
          · rintro ⟨r', hr', q1, q2⟩
            obtain rfl := honly r' hr' m q1
            rw [g4, Option.some.injEq, Prod.mk.injEq] at q1
            obtain ⟨-, rfl⟩ := q1
            obtain ⟨c, w1, w2, w3⟩ := (Gisin.locate_spec _ _ _ _).mp hloc
            rw [hget, Option.some.injEq] at w1
            subst w1
            rcases q2 with q2 | q2 <;> rw [q2] <;> simp only [Gisin.Slot.lower, Gisin.Slot.upper] <;> omega
    constructor
    · intro hbox d hd
      obtain ⟨i, l, u, a1, a2, a3, a4⟩ := one d hd
      exact a4.mp (hbox d i l u a1 a2 a3)
    · intro hall d i l u a1 a2 a3
      have hd : d < s.length := by
        have := (List.getElem?_eq_some_iff.mp a1).1
        omega
      obtain ⟨i', l', u', b1, b2, b3, b4⟩ := one d hd
      rw [a1, Option.some.injEq] at b1
      rw [a2, Option.some.injEq] at b2
      rw [a3, Option.some.injEq] at b3
      subst b1 b2 b3
      exact b4.mpr (hall d hd)
  · exact Gisin.ranges_twice slots_offset (partyOf s) reqs _ _ (fun r hr => by
      obtain ⟨g, g1, g2, g3, -⟩ := hslot r hr
      exact ⟨g, g1, g2, by simpa using g3⟩) (Or.inr hd)

/-- **C93, refuted: bounds of measurement numbers.** The number after the last measurement is not refused: the list of measurements is read out of bounds,
in every scenario, after whatever other requests that are met. -/
theorem C93_refuted_bound (s : Scenario) (reqs : List (Nat × Option Nat)) (lo hi : List Nat)
    (h : Gisin.range (Gisin.slots s) s.length reqs = some (some (lo, hi))) (k : Option Nat) :
    Gisin.range (Gisin.slots s) s.length (reqs ++ [((s.map List.length).sum, k)]) = none ∧
    ∀ m > (s.map List.length).sum, Gisin.range (Gisin.slots s) s.length (reqs ++ [(m, k)]) = some none := by
  have hl : (Gisin.slots s).length = (s.map List.length).sum := Gisin.slots_length s 0
  unfold Gisin.range at h ⊢
  constructor
  · rw [Gisin.ranges_append, h, Option.bind_some]
    dsimp only
    rw [Gisin.ranges, if_neg (by omega), List.getElem?_eq_none (by omega)]
  · intro m hm
    rw [Gisin.ranges_append, h, Option.bind_some]
    dsimp only
    rw [Gisin.ranges, if_pos (by omega)]

/-- **C93, refuted: implied outcomes.** A request for the last outcome of a measurement, which has no operator, is not refused. It gives the entry for the
first outcome of the next measurement, or an index that is not in the tensor. -/
theorem C93_refuted_outcome :
    (Gisin.range (Gisin.slots [[2, 2]]) 1 [(0, some 1)] = some (some ([2], [3])) ∧ product [[2, 2]] [2] = [⟨0, 1, 0⟩]) ∧
    (Gisin.range (Gisin.slots [[2]]) 1 [(0, some 1)] = some (some ([2], [3])) ∧ ¬ Valid [[2]] [2]) := by
  refine ⟨⟨by decide, by decide⟩, by decide, ?_⟩
  intro h
  have := (List.forall₂_cons.mp h).1
  simp [Probability.stored, localityParties] at this

/-- **C93, refuted: tensors that are not stored.** A tensor of more than 1024 elements says that no symbols are missing, whatever the table is; the table of
a new system has no symbol for the first projector. -/
theorem C93_refuted_virtual :
    (∀ s t T, Tensor.elementCount (Probability.localityGisinDims s) > 1024 → construct s t = some T →
      T.fill (Locality.env s) t = (T, true) ∧ T.hasAllSymbols = true) ∧
    ∃ T e, construct [[1026]] Table.new = some T ∧ T.fill (Locality.env [[1026]]) Table.new = (T, true) ∧ T.hasAllSymbols = true ∧
      T.element [[1026]] Table.new [1] = some e ∧ e.id = none := by
  have h1 : ∀ s t T, Tensor.elementCount (Probability.localityGisinDims s) > 1024 → construct s t = some T →
      T.isVirtual = true ∧ T.fill (Locality.env s) t = (T, true) ∧ T.hasAllSymbols = true := by
    intro s t T hb hT
    unfold construct at hT
    dsimp only at hT
    rw [if_pos hb, Option.some.injEq] at hT
    subst hT
    exact ⟨rfl, rfl, rfl⟩
  refine ⟨fun s t T hb hT => (h1 s t T hb hT).2, ?_⟩
  have hroom : Room [[1026]] 1 := ⟨by decide, by decide⟩
  have hb : Tensor.elementCount (Probability.localityGisinDims [[1026]]) > 1024 := by decide
  have hx : Valid [[1026]] [1] := List.Forall₂.cons (by decide) List.Forall₂.nil
  have hready := (Grown.new (h := Locality.host [[1026]]) (W := IsSeq [[1026]] 1)).ready
  obtain ⟨T, hT⟩ := Gisin.construct_some hroom (Nat.le_refl 1) Table.new
  obtain ⟨g1, g2, g3⟩ := h1 _ _ _ hb hT
  obtain ⟨T', r, k1, -, -, k2, -⟩ := (C93_refresh (by simp) hroom (Nat.le_refl 1) hready).2 T (.new hT)
  rw [g2, Prod.mk.injEq] at k1
  obtain ⟨rfl, -⟩ := k1
  obtain ⟨e, e1, -, e2, -, e3, -⟩ := C93_entry (by simp) hroom (Nat.le_refl 1) hready (.new hT) hx
  refine ⟨T, e, hT, g2, g3, e1, (k2 _ _ hx e1).mpr ?_⟩
  have hops : e.seq.ops = [0] := by
    have := (C10.names_iff.mp e2).2
    rw [this]
    decide
  rintro ⟨j, sym, q1, q2⟩
  have : sym ∈ Table.new.syms := List.mem_of_getElem? q1
  simp only [Table.new, List.mem_cons, List.not_mem_nil, or_false] at this
  rcases this with rfl | rfl <;> have q3 := Option.some.inj q2 <;> rw [← q3] at hops <;>
    simp [HSeq.zero, HSeq.identity] at hops

/-! ## Examples -/

/-- Two parties with two measurements of two outcomes each: after the first level nothing is missing, and every probability has its polynomial. -/
example : ∃ t' T, Reach C98.chsh t' T ∧ (∀ idx, Valid C98.chsh idx → ∃ e, T.element C98.chsh t' idx = some e ∧ e.id ≠ none) ∧
    ∀ o index, List.Forall₂ (· < ·) index [5, 5] → ∃ e, makeElement (MatrixBasis.polyTable t') o (T.view C98.chsh t') (Probability.localityInfo C98.chsh) index =
      some e ∧ e.symbols.isSome := by
  have hroom : Room C98.chsh 2 := C98.chsh_room.mono (by omega)
  obtain ⟨T, hT⟩ := Gisin.construct_some hroom (Nat.le_refl 2) Table.new
  obtain ⟨t', M, h1, h2, -, h3⟩ := C93_complete (n := 1) (by simp [C98.chsh]) hroom (Nat.le_refl 2) .new (.new hT)
  have hg : Grown (Locality.host C98.chsh) (IsSeq C98.chsh 2) t' := by
    obtain ⟨t2, M2, g1, g2, -⟩ := C98.C98_level C98.chsh 1 hroom .new
    rw [g1] at h1
    simp only [Option.some.injEq, Prod.mk.injEq] at h1
    exact h1.1 ▸ g2
  refine ⟨t', _, .fill h2, h3, fun o index hx => ?_⟩
  obtain ⟨e, e1, e2, -⟩ := C93_probability (by simp [C98.chsh]) (by simp [C98.chsh]) hroom (Nat.le_refl 2) hg.ready (.fill h2) o
    (index := index) (by simpa [fullDims, localityParties, C98.chsh, Probability.outcomes] using hx)
  exact ⟨e, e1, e2 h3⟩

/-- All outcomes of the first measurement of the first party with the first outcome of the second measurement of the second party. -/
example : ∃ lo hi, Gisin.range (Gisin.slots C98.chsh) 2 [(0, none), (3, some 0)] = some (some (lo, hi)) ∧ Selects C98.chsh [(0, none), (3, some 0)] lo hi :=
  (C93_range_partial C98.chsh [(0, none), (3, some 0)] (by
    intro r hr
    simp only [List.mem_cons, List.not_mem_nil, or_false] at hr
    rcases hr with rfl | rfl
    · exact ⟨0, 0, [2, 2], 2, by decide, by decide, by decide, by decide⟩
    · exact ⟨1, 1, [2, 2], 2, by decide, by decide, by decide, by decide⟩)).1 (by decide)

end Moment.C93
