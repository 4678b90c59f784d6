import Verif.Proof.MatrixTimes

/-! # Every functional gives values to the symbols of matrices -/

namespace Moment.SymbolMatrix
open Moment.Symbols (Sym Table Env Words)
open Moment.MatrixBasis (Mat)

theorem phase_mul (a b : Sign) : Rewrite.phase (a.mul b) = Rewrite.phase a * Rewrite.phase b := by
  cases a <;> cases b <;> simp [Rewrite.phase, Sign.mul, Sign.code, Sign.ofCode]

theorem phase_unit (a : Sign) : Rewrite.phase a * Rewrite.phase a.conj = 1 := by
  cases a <;> simp [Rewrite.phase, Sign.conj, Sign.code, Sign.ofCode]

/-- The flags of a symbol are right for the moment of its word. -/
def Natural (L : HSeq → ℂ) (s : Sym) : Prop :=
  ∃ q, s.seq = some q ∧ (s.herm = true → (starRingEnd ℂ) (L q) = L q) ∧ (s.anti = true → (starRingEnd ℂ) (L q) = -L q)

theorem compare_neg {a b : HSeq} (h : HSeq.compareSameNegation a b = -1) (ha : a.sign = .pos) : a.hash = b.hash ∧ b.sign = .neg := by
  unfold HSeq.compareSameNegation at h
  rw [ha] at h
  split at h
  · simp at h
  · rename_i h1
    refine ⟨by simpa using h1, ?_⟩
    revert h
    cases b.sign <;> decide

theorem natural_pair {c : Env} {W : HSeq → Prop} (hW : Words c W) {L : HSeq → ℂ} (hL : Moments c W L) {a b : HSeq} (ha : W a) (hb : W b)
    (h : L b = (starRingEnd ℂ) (L a)) : Natural L (Sym.ofPair a b) := by
  have key : a.hash = b.hash →
      (starRingEnd ℂ) (L { a with sign := .pos }) = Rewrite.phase (b.sign.mul a.sign) * L { a with sign := .pos } := by
    intro hh
    have e1 := hL.phase a ha
    have e2 := hL.phase b hb
    have e3 : L { b with sign := .pos } = L { a with sign := .pos } := hL.hash _ _ (hW.sign _ hb) (hW.sign _ ha) hh.symm rfl
    rw [h, e1, map_mul, phase_conj, e3] at e2
    rw [phase_mul, mul_comm (Rewrite.phase b.sign), mul_assoc, ← e2, ← mul_assoc, phase_unit, one_mul]
  refine ⟨_, rfl, fun hh => ?_, fun hh => ?_⟩
  · simp only [Sym.ofPair, beq_iff_eq] at hh
    obtain ⟨h1, h2⟩ := compare_one hh
    rw [key h1, show b.sign.mul a.sign = .pos from h2.symm]
    simp [Rewrite.phase]
  · simp only [Sym.ofPair, beq_iff_eq] at hh
    obtain ⟨h1, h2⟩ := compare_neg hh rfl
    rw [key h1, show b.sign.mul a.sign = .neg from h2]
    simp [Rewrite.phase]

theorem natural_scan {c : Env} {W : HSeq → Prop} (hW : Words c W) {L : HSeq → ℂ} (hL : Moments c W L) : ∀ (l : List (HSeq × HSeq)) (known : List UInt64),
    (∀ p ∈ l, W p.1 ∧ W p.2 ∧ L p.2 = (starRingEnd ℂ) (L p.1)) → ∀ s ∈ scan l known, Natural L s
  | [], _, _, s, hs => by simp [scan] at hs
  | (e, v) :: l, known, hp, s, hs => by
    obtain ⟨h1, h2, h3⟩ := hp _ List.mem_cons_self
    have ih := fun k => natural_scan hW hL l k fun p hp' => hp p (List.mem_cons_of_mem _ hp')
    unfold scan at hs
    dsimp only at hs h1 h2 h3
    split at hs
    · exact ih _ s hs
    · split at hs
      · rename_i hc
        have hc : HSeq.compareSameNegation e v = 1 := by simpa using hc
        rcases List.mem_cons.mp hs with rfl | hs
        · refine ⟨e, rfl, fun _ => ?_, fun h => by simp [Sym.ofSeq] at h⟩
          rw [← h3]
          exact (hL.hash _ _ h1 h2 (compare_one hc).1 (compare_one hc).2).symm
        · exact ih _ s hs
      · rcases List.mem_cons.mp hs with rfl | hs
        · split
          · exact natural_pair hW hL h1 h2 h3
          · exact natural_pair hW hL h2 h1 (by rw [h3, Complex.conj_conj])
        · exact ih _ s hs

theorem natural_scanPlain {W : HSeq → Prop} {c : Env} (hW : Words c W) {L : HSeq → ℂ} (hr : ∀ w, W w → w.sign = .pos → (starRingEnd ℂ) (L w) = L w) :
    ∀ (l : List HSeq) (known : List UInt64), (∀ p ∈ l, W p) → ∀ s ∈ scanPlain l known, Natural L s
  | [], _, _, s, hs => by simp [scanPlain] at hs
  | e :: l, known, hp, s, hs => by
    have ih := fun k => natural_scanPlain hW hr l k fun p hp' => hp p (List.mem_cons_of_mem _ hp')
    unfold scanPlain at hs
    split at hs
    · exact ih _ s hs
    · rcases List.mem_cons.mp hs with rfl | hs
      · exact ⟨_, rfl, fun _ => hr _ (hW.sign _ (hp e List.mem_cons_self)) rfl, fun h => by simp [Sym.ofSeq] at h⟩
      · exact ih _ s hs

theorem natural_mergeSym {c : Env} {L : HSeq → ℂ} {t t' : Table} {e : Sym} {id : Nat} {b : Bool} (ht : ∀ s ∈ t.syms, Natural L s) (he : Natural L e)
    (h : t.mergeSym c e = some (t', id, b)) : ∀ s ∈ t'.syms, Natural L s := by
  unfold Table.mergeSym at h
  split at h
  · simp at h
  · split at h
    · simp only [Option.map_eq_some_iff, Prod.mk.injEq] at h
      obtain ⟨_, -, rfl, -⟩ := h
      exact ht
    · simp only [Option.some.injEq, Prod.mk.injEq] at h
      obtain ⟨rfl, -⟩ := h
      intro s hs
      rcases List.mem_append.mp hs with hs | hs
      · exact ht s hs
      · rw [List.mem_singleton.mp hs]
        exact he

theorem natural_mergeAll {c : Env} {L : HSeq → ℂ} : ∀ (l : List Sym) {t t' : Table} {ids : List Nat} {n : Nat}, (∀ s ∈ t.syms, Natural L s) →
    (∀ e ∈ l, Natural L e) → t.mergeAll c l = some (t', ids, n) → ∀ s ∈ t'.syms, Natural L s
  | [], t, t', ids, n, ht, _, h => by
    simp only [Table.mergeAll, Option.some.injEq, Prod.mk.injEq] at h
    rw [← h.1]; exact ht
  | e :: l, t, t', ids, n, ht, hl, h => by
    simp only [Table.mergeAll, Option.bind_eq_bind, Option.bind_eq_some_iff, Option.some.injEq, Prod.mk.injEq] at h
    obtain ⟨⟨t1, i1, b1⟩, h1, ⟨t2, i2, n2⟩, h2, h3, -⟩ := h
    dsimp only at h2 h3
    subst h3
    exact natural_mergeAll l (natural_mergeSym ht (hl e (by simp)) h1) (fun x hx => hl x (by simp [hx])) h2

/-- Tables that come about by the creation of matrices alone. -/
inductive Grown (h : Host) (W : HSeq → Prop) : Table → Prop
  | new : Grown h W Table.new
  | matrix {t t' : Table} {ops : Mat HSeq} {al : Option (Mat HSeq)} {f : ℂ} {M : Option MonoMat} : Grown h W t → Usable h W (al.getD ops) →
      create h t ops al f = some (t', M) → Grown h W t'

theorem Grown.ready {h : Host} {W : HSeq → Prop} {t : Table} (ht : Grown h W t) : Ready h W t := by
  induction ht with
  | new => exact .new
  | matrix _ hu hc ih => exact .matrix ih hu hc

/-- If the flags of all symbols are right for the moments of their words, then moments give values to all symbols. -/
theorem agrees_of_natural {h : Host} {W : HSeq → Prop} (hS : Setting h W) {L : HSeq → ℂ} (hL : Moments h.env W L) {t : Table} (ht : Ready h W t)
    (nat : ∀ s ∈ t.syms, Natural L s) : ∃ v, Agrees t L v := by
  have hfit := ht.fit hS
  have h0 : ∀ s q, t.syms[0]? = some s → s.seq = some q → q = HSeq.zero := by
    intro s q hs hq
    have := hfit.inv.zero
    unfold Table.keys at this
    rw [List.getElem?_map, hs] at this
    simp only [Option.map_some, Sym.key, Option.some.injEq, Prod.mk.injEq] at this
    rw [hq] at this
    exact Option.some.inj this.2.1
  refine ⟨fun id => (t.syms[id]?).elim 0 fun s => s.seq.elim 0 L, fun id s q hs hq => by simp [hs, hq], ?_, ?_, ?_⟩
  · cases hs : t.syms[0]? with
    | none => rfl
    | some s =>
      obtain ⟨q, hq, -⟩ := nat s (List.mem_of_getElem? hs)
      simp [hq, h0 s q hs hq, hL.zero]
  · intro i hi
    cases hs : t.syms[i]? with
    | none => simp [MatrixBasis.polyTable, hs] at hi
    | some s =>
      obtain ⟨q, hq, h2, -⟩ := nat s (List.mem_of_getElem? hs)
      simp only [MatrixBasis.polyTable, hs, Option.any_some] at hi
      simp [hq, h2 hi]
  · intro i hi
    cases hs : t.syms[i]? with
    | none => simp [MatrixBasis.polyTable, hs] at hi
    | some s =>
      obtain ⟨q, hq, -, h2⟩ := nat s (List.mem_of_getElem? hs)
      simp only [MatrixBasis.polyTable, hs, Option.any_some] at hi
      simp [hq, h2 hi]

/-- Every functional gives values to all symbols of such a table. In contexts in which all words are Hermitian moments must be real. -/
theorem Grown.values {h : Host} {W : HSeq → Prop} (hS : Setting h W) {L : HSeq → ℂ} (hL : Moments h.env W L)
    (hr : h.canNonHerm = false → ∀ w, W w → w.sign = .pos → (starRingEnd ℂ) (L w) = L w) (h1 : L (HSeq.identity .pos) = (starRingEnd ℂ) (L (HSeq.identity .pos)))
    {t : Table} (ht : Grown h W t) : ∃ v, Agrees t L v := by
  have hz : Natural L Sym.zero := ⟨_, rfl, fun _ => by simp [hL.zero], fun _ => by simp [hL.zero]⟩
  have ho : Natural L Sym.one := ⟨_, rfl, fun _ => h1.symm, fun h => by simp [Sym.one] at h⟩
  have nat : ∀ s ∈ t.syms, Natural L s := by
    induction ht with
    | new =>
      intro s hs
      simp only [Table.new, List.mem_cons, List.not_mem_nil, or_false] at hs
      rcases hs with rfl | rfl
      · exact hz
      · exact ho
    | matrix _ hu hc ih =>
      obtain ⟨ids, n, hm⟩ := create_merge h hc
      refine natural_mergeAll _ ih (fun e he => ?_) hm
      unfold identify at he
      rcases List.mem_cons.mp he with rfl | he
      · exact hz
      rcases List.mem_cons.mp he with rfl | he
      · exact ho
      split at he
      · refine natural_scan hS.words hL _ _ (fun p hp => ?_) e he
        obtain ⟨x, hx, rfl⟩ := List.mem_map.mp hp
        have hw := hu.mem x (mem_visited hu.square hx)
        split
        · exact ⟨hS.words.conj _ hw, hw, by dsimp only; rw [hL.conj x hw, Complex.conj_conj]⟩
        · exact ⟨hw, hS.words.conj _ hw, hL.conj x hw⟩
      · rename_i hc
        exact natural_scanPlain hS.words (hr (by simpa using hc)) _ _ (fun x hx => hu.mem x (mem_visited hu.square hx)) e he
  exact agrees_of_natural hS hL ht.ready nat

/-- In contexts in which no words are known to vanish, a symbol has no real basis element just if it is flagged as anti-Hermitian, and no imaginary one just
if it is flagged as Hermitian. -/
theorem Grown.parts {h : Host} {W : HSeq → Prop} (hn : ∀ w, h.env.null w = (false, false)) {t : Table} (ht : Grown h W t) :
    ∀ s ∈ t.syms, (s.re = none ↔ s.anti = true) ∧ (s.im = none ↔ s.herm = true) := by
  induction ht with
  | new =>
    intro s hs
    simp only [Table.new, List.mem_cons, List.not_mem_nil, or_false] at hs
    rcases hs with rfl | rfl <;> decide
  | matrix _ hu hc ih =>
    obtain ⟨ids, n, hm⟩ := create_merge h hc
    refine Symbols.flags_mergeAll (c := h.env) (P := fun s => (s.re = none ↔ s.anti = true) ∧ (s.im = none ↔ s.herm = true)) ?_ _ ih hm
    intro s w _ h1 h2
    rw [hn w, Bool.false_or] at h1 h2
    exact ⟨h2, h1⟩

/-- Then the parts of values for which there are no basis elements vanish. -/
theorem Grown.missing {h : Host} {W : HSeq → Prop} (hn : ∀ w, h.env.null w = (false, false)) {t : Table} (ht : Grown h W t) {L : HSeq → ℂ} {v : Nat → ℂ}
    (hv : Agrees t L v) {id : Nat} {s : Sym} (hs : t.syms[id]? = some s) : (s.re = none → (v id).re = 0) ∧ (s.im = none → (v id).im = 0) := by
  obtain ⟨h1, h2⟩ := ht.parts hn s (List.mem_of_getElem? hs)
  constructor
  · intro e
    have := hv.flags.anti id (by simp [MatrixBasis.polyTable, hs, h1.mp e])
    have := congrArg Complex.re this
    simp at this
    linarith
  · intro e
    have := hv.flags.herm id (by simp [MatrixBasis.polyTable, hs, h2.mp e])
    exact Complex.conj_eq_iff_im.mp this

/-- The second table has all symbols of the first. -/
structure Extends (t t' : Table) : Prop where
  syms : t.syms <+: t'.syms
  hashes : ∀ h k, t.hashes.lookup h = some k → t'.hashes.lookup h = some k

theorem Extends.refl (t : Table) : Extends t t := ⟨List.prefix_rfl, fun _ _ h => h⟩

theorem Extends.trans {t t' t'' : Table} (h : Extends t t') (h' : Extends t' t'') : Extends t t'' :=
  ⟨h.syms.trans h'.syms, fun a k e => h'.hashes a k (h.hashes a k e)⟩

/-- The creation of a matrix only adds symbols, and those of all its words are there afterwards. -/
theorem create_extends {h : Host} {W : HSeq → Prop} (hS : Setting h W) {t : Table} (ht : Fit h W t) {ops : Mat HSeq} {al : Option (Mat HSeq)} {f : ℂ}
    (hA : Usable h W (al.getD ops)) {t' : Table} {M : Option MonoMat} (hM : create h t ops al f = some (t', M)) :
    Extends t t' ∧ ∀ i j, i < (al.getD ops).dim → j < (al.getD ops).dim → (t'.hashes.lookup (word (al.getD ops) i j).hash).isSome := by
  obtain ⟨ids, n, h1⟩ := create_merge h hM
  obtain ⟨t1, ids1, n1, g1, g2, g3, g4⟩ := register hS ht hA (isHerm h.env (al.getD ops))
  rw [h1] at g1
  simp only [Option.some.injEq, Prod.mk.injEq] at g1
  obtain ⟨rfl, -, -⟩ := g1
  refine ⟨⟨mergeAll_prefix _ h1, fun a k e => g3.map a k e⟩, fun i j hi hj => ?_⟩
  by_cases hh : isHerm h.env (al.getD ops) = true
  · rcases Nat.le_total j i with hij | hij
    · exact g4 _ (visited_lower hA.square hi hij _)
    · have := g4 _ (visited_lower hA.square hj hij (isHerm h.env (al.getD ops)))
      rw [((isHerm_iff _ _).mp hh j i hij hj).1] at this
      exact (found_conj hS.words g2.inv _ (hA.mem _ (get_some hA.square hi hj).2)).mpr this
  · refine g4 _ ?_
    unfold visited
    rw [if_neg hh]
    exact (get_some hA.square hi hj).2

end Moment.SymbolMatrix
