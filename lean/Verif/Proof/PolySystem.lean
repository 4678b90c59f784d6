import Verif.Proof.PolyTensor

/-! # Proofs about the tensors of a locality system -/

namespace Moment.PolyTensor
open Moment.Symbols (Table Env)
open Moment.SymbolMatrix
open Moment.Locality (Scenario Room IsSeq)
open Moment.Probability (joint gisinChoices gisinDims fullDims fullChoices position correlation)
open Moment.C94 (localityParties)
open Moment.C93 (Valid product Present)
open Moment.Gisin (Entry Reach construct upd)

theorem respects_extends {t t' : Table} (h : Extends t t') {w : Nat → ℂ} (hw : Poly.Respects (MatrixBasis.polyTable t') w) :
    Poly.Respects (MatrixBasis.polyTable t) w := by
  have key : ∀ (i : Nat) s, t.syms[i]? = some s → t'.syms[i]? = some s := by
    intro i s hs
    obtain ⟨r, hr⟩ := h.syms
    rw [← hr, List.getElem?_append_left (List.getElem?_eq_some_iff.mp hs).1]
    exact hs
  refine ⟨hw.zero, fun i hi => hw.herm i ?_, fun i hi => hw.anti i ?_⟩
  · unfold MatrixBasis.polyTable at hi ⊢
    dsimp only at hi ⊢
    cases hs : t.syms[i]? with
    | none => rw [hs] at hi; simp at hi
    | some s => rw [key i s hs]; rwa [hs] at hi
  · unfold MatrixBasis.polyTable at hi ⊢
    dsimp only at hi ⊢
    cases hs : t.syms[i]? with
    | none => rw [hs] at hi; simp at hi
    | some s => rw [key i s hs]; rwa [hs] at hi

/-- The symbol that a search finds for an index. -/
def found (s : Scenario) (t : Table) (idx : List Nat) : Option Nat :=
  ((Entry.blank (C98.stored s (product s idx))).find (Locality.env s) t).bind Entry.id

theorem found_mono {s : Scenario} {t t' : Table} (h : Extends t t') {idx : List Nat} {j : Nat} (hj : found s t idx = some j) : found s t' idx = some j := by
  unfold found at hj ⊢
  rw [Option.bind_eq_some_iff] at hj
  obtain ⟨e, h1, h2⟩ := hj
  rw [Gisin.find_mono (c := Locality.env s) rfl h h1]
  exact h2

theorem upd_id (s : Scenario) (t : Table) (idx : List Nat) :
    (upd (Locality.env s) t (Entry.blank (C98.stored s (product s idx)))).id = found s t idx := by
  unfold upd found
  cases (Entry.blank (C98.stored s (product s idx))).find (Locality.env s) t <;> rfl

section
variable {s : Scenario} {L : Nat} (hne : s ≠ []) (h : Room s L) (hL : s.length ≤ L)
include hne h hL

theorem view_made {t0 t : Table} {G : Gisin.Tensor} (hG : construct s t0 = some G) {idx : List Nat} (hx : Valid s idx) :
    (G.view s t).symbol (position (gisinDims (localityParties s)) idx) = found s (if G.isVirtual then t else t0) idx := by
  obtain ⟨tt, h1, -, h2⟩ := C93.element_made hne h hL (t := t) hG hx
  unfold Gisin.Tensor.view
  dsimp only
  rw [h2, Option.bind_some, upd_id]
  rcases h1 with ⟨rfl, hv⟩ | ⟨rfl, hv⟩ <;> simp [hv]

/-- When the table grows, so do the symbols of a tensor. -/
theorem grows_table {t t' : Table} {G : Gisin.Tensor} (hG : Reach s t G) (he : Extends t t') :
    Grows (localityParties s) (MatrixBasis.polyTable t) (MatrixBasis.polyTable t') (G.view s t) (G.view s t') := by
  obtain ⟨t0, -, hm⟩ := hG.made
  refine ⟨fun w hw => respects_extends he hw, fun idx hx j hj => ?_⟩
  rw [view_made hne h hL hm hx] at hj ⊢
  cases hv : G.isVirtual with
  | true => rw [hv] at hj; exact found_mono he hj
  | false => rw [hv] at hj; exact hj

/-- When the Collins-Gisin tensor is refreshed, its symbols grow. -/
theorem grows_refresh {t : Table} {G G' : Gisin.Tensor} (hG : Reach s t G) (hm' : construct s t = some G') :
    Grows (localityParties s) (MatrixBasis.polyTable t) (MatrixBasis.polyTable t) (G.view s t) (G'.view s t) := by
  obtain ⟨t0, he, hm⟩ := hG.made
  refine ⟨fun w hw => hw, fun idx hx j hj => ?_⟩
  rw [view_made hne h hL hm hx] at hj
  rw [view_made hne h hL hm' hx]
  cases hv : G.isVirtual with
  | true => rw [hv] at hj; simpa using hj
  | false => rw [hv] at hj; simpa using found_mono he hj

theorem found_present {t : Table} (ht : Ready (Locality.host s) (IsSeq s L) t) {idx : List Nat} (hx : Valid s idx) :
    (found s t idx).isSome = true ↔ Present t (C98.stored s (product s idx)) := by
  rw [← C93.found_iff h hL ht hx]
  unfold found
  cases hf : (Entry.blank (C98.stored s (product s idx))).find (Locality.env s) t with
  | none => simp
  | some e =>
    obtain ⟨j, _, g1, _⟩ := Gisin.find_blank h ht (Gisin.word_spec h hL hx).2 (C93.product_self s idx) hf
    simp [g1]

theorem refreshGisin_spec {t : Table} {og : Option Gisin.Tensor} (hG : ∀ G, og = some G → Reach s t G) :
    ∃ G', refreshGisin s t og = some (G', G'.hasAllSymbols) ∧ construct s t = some G' := by
  cases og with
  | none =>
    obtain ⟨G, hg⟩ := Gisin.construct_some h hL t
    exact ⟨G, by simp [refreshGisin, hg], hg⟩
  | some G =>
    obtain ⟨t0, he, hm⟩ := (hG G rfl).made
    obtain ⟨G', h1, h2⟩ := Gisin.fill_construct he hm
    refine ⟨G', ?_, h1⟩
    unfold refreshGisin
    dsimp only
    split
    · rename_i ha
      rw [← h2]
      unfold Gisin.Tensor.hasAllSymbols at ha
      unfold Gisin.Tensor.fill
      split <;> rfl
    · rw [h2]

end

/-- `RefreshProbabilityTensor` and `RefreshFullCorrelator` make a tensor or fill it. -/
theorem refreshPoly_some {T : Tensor} (t : Poly.Table) (o : Poly.Order) (cg : Probability.Gisin) (made : Option Tensor) :
    refreshPoly t o cg made (some T) = some (T.fill t o cg) := by
  unfold refreshPoly
  dsimp only
  split
  · rename_i h
    unfold Tensor.fill
    rw [if_pos h]
  · rfl

/-- Words of entries that the polynomial of an element mentions. -/
def Mentions (s : Scenario) (e : Probability.Element) (idx : List Nat) : Prop :=
  Valid s idx ∧ ∃ m ∈ e.gisin, m.id = position (gisinDims (localityParties s)) idx + 1

/-- The identity is the word of symbol 1. -/
theorem present_identity {s : Scenario} {L : Nat} (h : Room s L) {t : Table} (ht : Ready (Locality.host s) (IsSeq s L) t) :
    ∃ sym, t.syms[1]? = some sym ∧ sym.seq = some (HSeq.identity .pos) := by
  have := (ht.fit (Locality.setting s L h)).inv.one
  unfold Table.keys at this
  rw [List.getElem?_map, Option.map_eq_some_iff] at this
  obtain ⟨sym, h1, h2⟩ := this
  refine ⟨sym, h1, ?_⟩
  simp only [Symbols.Sym.key, Prod.mk.injEq] at h2
  exact h2.2.1

theorem stored_nil (s : Scenario) : C98.stored s [] = HSeq.identity .pos := rfl

end Moment.PolyTensor
