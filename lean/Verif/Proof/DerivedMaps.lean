import Verif.Proof.Derived

/-! # The table of the new symbols -/

namespace Moment.Derived

open Classical
open Moment.Symbols (Table Sym)
open Moment.Poly (Mono value makeRaw makeRaw_value byId Respects value_cons value_append hermLoop isHermitian)
open Moment.MatrixBasis (polyTable)

/-- A positive answer of the test is right for all polynomials, also if Hermitian symbols are conjugated in them. -/
theorem hermLoop_any {t : Poly.Table} {v : Nat → ℂ} (hv : Respects t v) : ∀ (l : List Mono) (last : Option Mono),
    (∀ k, last = some k → k.conj = false) → hermLoop t last l = true →
    (starRingEnd ℂ) (value v (last.toList ++ l)) = value v (last.toList ++ l)
  | [], last, _, h => by
    cases last with
    | none => simp
    | some k => simp [hermLoop] at h
  | m :: l, last, hk, h => by
    rw [hermLoop.eq_def] at h
    dsimp only at h
    split at h
    · rename_i hz
      have ih := hermLoop_any hv l last hk h
      have : m.value v = 0 := by simp [Mono.value, hz]
      rw [value_append, value_cons, this, zero_add, ← value_append]
      exact ih
    · split at h
      · rename_i hh
        cases last with
        | some k => simp at h
        | none =>
          simp only [Option.isSome_none, Bool.false_eq_true, if_false] at h
          split at h
          · cases h
          · rename_i him
            have ih := hermLoop_any hv l none (by simp) h
            have hf : (starRingEnd ℂ) m.factor = m.factor := Complex.conj_eq_iff_im.mpr (by simpa using him)
            simp only [Option.toList_none, List.nil_append, value_cons, map_add] at ih ⊢
            rw [ih]
            simp [Mono.value, hf, hv.herm _ hh]
      · split at h
        · rename_i hh ha
          cases last with
          | some k => simp at h
          | none =>
            simp only [Option.isSome_none, Bool.false_eq_true, if_false] at h
            split at h
            · cases h
            · rename_i hre
              have ih := hermLoop_any hv l none (by simp) h
              have hf : (starRingEnd ℂ) m.factor = -m.factor := by
                apply Complex.ext
                · have : m.factor.re = 0 := by simpa using hre
                  simp [this]
                · simp
              simp only [Option.toList_none, List.nil_append, value_cons, map_add] at ih ⊢
              rw [ih]
              have hva := hv.anti _ ha
              cases hc : m.conj <;> simp [Mono.value, hf, hva, hc]
        · split at h
          · rename_i hc
            cases last with
            | none => simp at h
            | some k =>
              simp only at h
              split at h
              · cases h
              · split at h
                · cases h
                · rename_i hid hf
                  rw [not_ne_iff] at hid hf
                  have ih := hermLoop_any hv l none (by simp) h
                  simp only [Option.toList_none, List.nil_append] at ih
                  simp only [Option.toList_some, List.cons_append, List.nil_append, value_cons, map_add]
                  rw [ih]
                  simp only [Mono.value, hc, hk k rfl, hid, hf]
                  simp
                  ring
          · rename_i hc
            cases last with
            | some k => simp at h
            | none =>
              simp only [Option.isSome_none, Bool.false_eq_true, if_false] at h
              have ih := hermLoop_any hv l (some m) (by intro k hk; cases hk; simpa using hc) h
              simpa using ih

theorem populate_syms (f : List Mono → Bool) : ∀ (l : List (List Mono)) (u : Table),
    (l.foldl (fun u p => (u.create true (f p)).1) u).syms.length = u.syms.length + l.length ∧
    (∀ i, i < u.syms.length → (l.foldl (fun u p => (u.create true (f p)).1) u).syms[i]? = u.syms[i]?) ∧
    ∀ (i : Nat) (p : List Mono), l[i]? = some p → ∃ s, (l.foldl (fun u p => (u.create true (f p)).1) u).syms[u.syms.length + i]? = some s ∧
      s.herm = !f p ∧ s.anti = false
  | [], u => ⟨by simp, by simp, by simp⟩
  | p :: l, u => by
    rw [List.foldl_cons]
    obtain ⟨h1, h2, h3⟩ := populate_syms f l (u.create true (f p)).1
    have hl : (u.create true (f p)).1.syms.length = u.syms.length + 1 := by simp [Table.create]
    refine ⟨by rw [h1, hl, List.length_cons]; omega, ?_, ?_⟩
    · intro i hi
      rw [h2 i (by omega)]
      simp only [Table.create]
      rw [List.getElem?_append_left hi]
    · intro i q hq
      match i with
      | 0 =>
        simp only [List.getElem?_cons_zero, Option.some.injEq] at hq
        subst hq
        refine ⟨_, by rw [Nat.add_zero, h2 _ (by omega)]; simp only [Table.create]; rw [List.getElem?_append_right (by omega)]; simp; rfl, rfl, rfl⟩
      | i + 1 =>
        rw [List.getElem?_cons_succ] at hq
        obtain ⟨s, hs, e⟩ := h3 i q hq
        rw [hl, show u.syms.length + 1 + i = u.syms.length + (i + 1) by omega] at hs
        exact ⟨s, hs, e⟩

theorem populate_respects {t : Table} {l : List (List Mono)} {v : Nat → ℂ} (hl : 2 ≤ l.length) (h0 : l[0]? = some []) (h1 : pulled v l 1 = 1)
    (hv : Respects (polyTable t) v) : Respects (polyTable (populate t l)) (pulled v l) := by
  obtain ⟨a, b, c⟩ := populate_syms (fun p => !isHermitian (polyTable t) p) (l.drop 2) Table.new
  have hpop : populate t l = (l.drop 2).foldl (fun u p => (u.create true (!isHermitian (polyTable t) p)).1) Table.new := rfl
  rw [← hpop] at a b c
  have hn : Table.new.syms.length = 2 := rfl
  have hz : pulled v l 0 = 0 := by
    unfold pulled
    rw [List.getD_eq_getElem?_getD, h0]
    rfl
  have hreal : ∀ i, (polyTable (populate t l)).herm i = true → 2 ≤ i → (starRingEnd ℂ) (pulled v l i) = pulled v l i := by
    intro i hi h2
    by_cases hlt : i < l.length
    · have hp : (l.drop 2)[i - 2]? = some l[i] := by
        rw [List.getElem?_drop, show 2 + (i - 2) = i by omega, List.getElem?_eq_getElem hlt]
      obtain ⟨s, hs, e, -⟩ := c _ _ hp
      rw [hn, show 2 + (i - 2) = i by omega] at hs
      simp only [polyTable, hs, Option.any_some] at hi
      rw [e, Bool.not_not] at hi
      have := hermLoop_any hv l[i] none (by simp) hi
      unfold pulled
      rw [List.getD_eq_getElem _ _ hlt]
      simpa using this
    · unfold pulled
      rw [List.getD_eq_getElem?_getD, List.getElem?_eq_none (by omega)]
      simp
  refine ⟨hz, ?_, ?_⟩
  · intro i hi
    match i with
    | 0 => simp [hz]
    | 1 => simp [h1]
    | i + 2 => exact hreal _ hi (by omega)
  · intro i hi
    match i with
    | 0 => simp [hz]
    | 1 =>
      exfalso
      have := b 1 (by rw [hn]; omega)
      simp only [polyTable, this] at hi
      simp [Table.new, Sym.one, Sym.ofSeq] at hi
    | i + 2 =>
      by_cases hlt : i + 2 < l.length
      · have hp : (l.drop 2)[i]? = some l[i + 2] := by
          rw [List.getElem?_drop, show 2 + i = i + 2 by omega, List.getElem?_eq_getElem hlt]
        obtain ⟨s, hs, -, e⟩ := c _ _ hp
        rw [hn, show 2 + i = i + 2 by omega] at hs
        simp [polyTable, hs, e] at hi
      · unfold pulled
        rw [List.getD_eq_getElem?_getD, List.getElem?_eq_none (by omega)]
        simp

theorem built_maps {t : Table} {rows : Nat} {R : Nat → Nat → ℝ} {osg : List (Nat × Bool)} {out : Nat} {M : STM}
    (hB : Built t.syms.length rows R osg out M) : Maps t rows R osg M (populate t M.inverse) := by
  have hone : ∀ v : Nat → ℂ, v 0 = 0 → v 1 = 1 → pulled v M.inverse 1 = 1 := by
    intro v v0 v1
    unfold pulled
    rw [List.getD_eq_getElem?_getD, hB.second, Option.getD_some, value_scalar v0 v1]
    simp
  have hlen : (populate t M.inverse).syms.length = M.inverse.length := by
    have := (populate_syms (fun p => !isHermitian (polyTable t) p) (M.inverse.drop 2) Table.new).1
    have hn : Table.new.syms.length = 2 := rfl
    rw [show (M.inverse.drop 2).foldl (fun u p => (u.create true (!isHermitian (polyTable t) p)).1) Table.new = populate t M.inverse from rfl] at this
    rw [this, List.length_drop, hn, hB.inverse]
    omega
  refine ⟨hB.length, hlen, ?_, ?_, hone, hB.vals, hB.other, hB.monomial⟩
  · rw [hlen, hB.inverse]
    exact hB.shape
  · intro v v1 hv
    exact populate_respects (by rw [hB.inverse]; omega) hB.first (hone v hv.zero v1) hv

theorem unzip_length {I : DictionaryMap.Index} {n : Nat} {osg : List (Nat × Bool)} (h : unzip I n = some osg) : osg.length = n ∧
    ∀ i, i < n → osg[i]? = I.get i := by
  obtain ⟨h1, h2⟩ := SymRep.mapM_get _ _ h
  refine ⟨by simpa using h1, ?_⟩
  intro i hi
  rw [h2, List.getElem?_range hi]
  rfl

end Moment.Derived
