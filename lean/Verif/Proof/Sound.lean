import Verif.Spec.Sound
import Verif.Proof.SymbolBasis
import Verif.Proof.Poly
import Mathlib.Tactic.Linarith

/-! # Histories lead to sound tables -/

namespace Moment.Symbols

/-- The first two symbols are zero and one, and all but the first have a part. -/
def Heads (l : List Sym) : Prop := ∃ s0 s1 r, l = s0 :: s1 :: r ∧ s0.id = 0 ∧ s0.herm = true ∧ s0.anti = true ∧ s1.herm = true ∧
  ∀ s ∈ s1 :: r, s.id ≠ 0 ∧ ¬ (s.herm = true ∧ s.anti = true)

theorem heads_snoc {l : List Sym} (h : Heads l) {s : Sym} (h1 : s.id ≠ 0) (h2 : ¬ (s.herm = true ∧ s.anti = true)) : Heads (l ++ [s]) := by
  obtain ⟨s0, s1, r, rfl, a, b, c, d, e⟩ := h
  refine ⟨s0, s1, r ++ [s], rfl, a, b, c, d, ?_⟩
  intro x hx
  rw [← List.cons_append, List.mem_append, List.mem_singleton] at hx
  rcases hx with hx | rfl
  · exact e x hx
  · exact ⟨h1, h2⟩

theorem heads_pos {l : List Sym} (h : Heads l) : l.length ≠ 0 := by
  obtain ⟨s0, s1, r, rfl, -⟩ := h
  simp

theorem heads_new : Heads Table.new.syms :=
  ⟨Sym.zero, Sym.one, [], rfl, rfl, rfl, rfl, rfl, by simp [Sym.one, Sym.ofSeq]⟩

theorem heads_create {t : Table} (h : Heads t.syms) (r i : Bool) (hp : r = true ∨ i = true) : Heads (t.create r i).1.syms :=
  heads_snoc h (heads_pos h) (by rcases hp with rfl | rfl <;> simp)

theorem heads_createMany (r i : Bool) (hp : r = true ∨ i = true) : ∀ (n : Nat) {t : Table}, Heads t.syms → Heads (t.createMany r i n).syms
  | 0, _, h => h
  | n + 1, _, h => heads_createMany r i hp n (heads_create h r i hp)

theorem heads_grown {t : Table} (h : Heads t.syms) (n : Nat) : Heads (t.grown n).syms := by
  unfold Table.grown
  split
  · exact heads_createMany _ _ (Or.inl rfl) _ h
  · exact h

theorem heads_mergeSym {c : Env} {t : Table} (h : Heads t.syms) {e : Sym} (he : ¬ (e.herm = true ∧ e.anti = true)) {r}
    (hr : t.mergeSym c e = some r) : Heads r.1.syms := by
  unfold Table.mergeSym at hr
  split at hr
  · simp at hr
  · split at hr
    · simp only [Option.map_eq_some_iff] at hr
      obtain ⟨s, -, rfl⟩ := hr
      exact h
    · simp only [Option.some.injEq] at hr
      subst hr
      exact heads_snoc h (heads_pos h) he

theorem heads_mergeAll {c : Env} : ∀ (l : List Sym) {t : Table}, Heads t.syms → (∀ e ∈ l, ¬ (e.herm = true ∧ e.anti = true)) → ∀ {r},
    t.mergeAll c l = some r → Heads r.1.syms
  | [], t, h, _, r, hr => by
    simp only [Table.mergeAll, Option.some.injEq] at hr
    subst hr
    exact h
  | e :: l, t, h, he, r, hr => by
    simp only [Table.mergeAll, Option.bind_eq_bind, Option.bind_eq_some_iff, Option.some.injEq] at hr
    obtain ⟨q, hq, q', hq', rfl⟩ := hr
    exact heads_mergeAll l (heads_mergeSym h (he e (by simp)) hq) (fun x hx => he x (by simp [hx])) (r := q') hq'

theorem ofPair_notBoth (w v : HSeq) : ¬ ((Sym.ofPair w v).herm = true ∧ (Sym.ofPair w v).anti = true) := by
  simp only [Sym.ofPair, beq_iff_eq]
  rintro ⟨h1, h2⟩
  rw [h1] at h2
  simp at h2

theorem fillMap_notBoth (c : Env) : ∀ (l : List HSeq) (m : List (UInt64 × Sym)),
    (∀ p ∈ m, ¬ (p.2.herm = true ∧ p.2.anti = true)) → ∀ p ∈ fillMap c l m, ¬ (p.2.herm = true ∧ p.2.anti = true)
  | [], m, h => h
  | w :: l, m, h => by
    unfold fillMap
    split
    · rename_i e he
      refine fillMap_notBoth c l _ ?_
      have hb : ¬ (e.herm = true ∧ e.anti = true) := by
        unfold fillEntry at he
        split at he
        · simp at he
        · dsimp only at he
          split at he
          · simp only [Option.some.injEq] at he
            subst he
            simp [Sym.ofSeq]
          · split at he
            · simp only [Option.some.injEq] at he
              subst he
              exact ofPair_notBoth _ _
            · simp at he
      have put : ∀ m : List (UInt64 × Sym), (∀ p ∈ m, ¬ (p.2.herm = true ∧ p.2.anti = true)) →
          ∀ p ∈ putAsc w.hash e m, ¬ (p.2.herm = true ∧ p.2.anti = true) := by
        intro m
        induction m with
        | nil =>
          intro _ p hp
          simp only [putAsc, List.mem_singleton] at hp
          subst hp
          exact hb
        | cons q m ih =>
          intro hm p hp
          unfold putAsc at hp
          split at hp
          · rcases List.mem_cons.mp hp with rfl | hp
            · exact hb
            · exact hm p hp
          · split at hp
            · exact hm p hp
            · rcases List.mem_cons.mp hp with rfl | hp
              · exact hm _ (by simp)
              · exact ih (fun x hx => hm x (by simp [hx])) p hp
      exact put m h
    · exact fillMap_notBoth c l m h

theorem flagLoop_notBoth (re im : Nat → Bool) : ∀ (l : List Sym) (ch : Bool), (flagLoop re im l ch).2.2 = none →
    (∀ s ∈ l, s.id ≠ 0 ∧ ¬ (s.herm = true ∧ s.anti = true)) →
    ∀ s ∈ (flagLoop re im l ch).1, s.id ≠ 0 ∧ ¬ (s.herm = true ∧ s.anti = true)
  | [], ch, _, _ => by simp [flagLoop]
  | s :: l, ch, h, hl => by
    have hs := hl s (by simp)
    have hl' := fun x hx => hl x (List.mem_cons_of_mem s hx)
    have fin : ∀ (s' : Sym) ch', (flagLoop re im l ch').2.2 = none → s'.id ≠ 0 → ¬ (s'.herm = true ∧ s'.anti = true) →
        ∀ x ∈ s' :: (flagLoop re im l ch').1, x.id ≠ 0 ∧ ¬ (x.herm = true ∧ x.anti = true) := by
      intro s' ch' h' h1 h2 x hx
      rcases List.mem_cons.mp hx with rfl | hx
      · exact ⟨h1, h2⟩
      · exact flagLoop_notBoth re im l ch' h' hl' x hx
    unfold flagLoop at h ⊢
    rw [if_neg hs.1] at h ⊢
    split at h
    · split at h
      · rename_i h1 h2
        rw [if_pos h1, if_pos h2]
        exact fin s ch h hs.1 hs.2
      · rename_i h1 h2
        rw [if_pos h1, if_neg h2]
        dsimp only at h ⊢
        split at h
        · simp at h
        · rename_i h3
          rw [if_neg h3]
          exact fin _ _ h hs.1 (by simp [h3])
    · split at h
      · rename_i h1 h2
        rw [if_neg h1, if_pos h2]
        dsimp only at h ⊢
        split at h
        · simp at h
        · rename_i h3
          rw [if_neg h3]
          exact fin _ _ h hs.1 (by simp [h3])
      · simp at h

theorem heads_flagLoop (re im : Nat → Bool) {l : List Sym} (hl : Heads l) (h : (flagLoop re im l false).2.2 = none) :
    Heads (flagLoop re im l false).1 := by
  obtain ⟨s0, s1, r, rfl, h0, a, b, c, e⟩ := hl
  have e0 : flagLoop re im (s0 :: s1 :: r) false =
      ({ s0 with herm := true, anti := true } :: (flagLoop re im (s1 :: r) false).1, (flagLoop re im (s1 :: r) false).2) := by
    conv_lhs => unfold flagLoop
    rw [if_pos h0]
  rw [e0] at h ⊢
  have nb := flagLoop_notBoth re im (s1 :: r) false h e
  have h1 := (e s1 (by simp)).1
  have key : ∃ s1' r', (flagLoop re im (s1 :: r) false).1 = s1' :: r' ∧ s1'.herm = true := by
    unfold flagLoop at h ⊢
    rw [if_neg h1] at h ⊢
    split
    · split
      · exact ⟨_, _, rfl, c⟩
      · dsimp only
        split
        · exact ⟨_, _, rfl, rfl⟩
        · exact ⟨_, _, rfl, rfl⟩
    · split
      · exact ⟨_, _, rfl, c⟩
      · exact ⟨_, _, rfl, c⟩
  obtain ⟨s1', r', k1, k2⟩ := key
  rw [k1] at nb ⊢
  exact ⟨_, s1', r', rfl, h0, rfl, rfl, k2, nb⟩

theorem renumLoop_flags : ∀ (l : List Sym) (b : Basis),
    (renumLoop l b).1.map (fun s => (s.id, s.herm, s.anti)) = l.map fun s => (s.id, s.herm, s.anti)
  | [], b => rfl
  | s :: l, b => by simp [renumLoop, renumLoop_flags l]

theorem heads_congr {l l' : List Sym} (h : l'.map (fun s => (s.id, s.herm, s.anti)) = l.map fun s => (s.id, s.herm, s.anti))
    (hl : Heads l) : Heads l' := by
  obtain ⟨s0, s1, r, rfl, h0, a, b, c, e⟩ := hl
  match l', h with
  | [], h => simp at h
  | [_], h => simp at h
  | s0' :: s1' :: r', h =>
    simp only [List.map_cons, List.cons.injEq, Prod.mk.injEq] at h
    obtain ⟨⟨a1, a2, a3⟩, ⟨b1, b2, b3⟩, h⟩ := h
    refine ⟨s0', s1', r', rfl, a1.trans h0, a2.trans a, a3.trans b, b2.trans c, ?_⟩
    intro s hs
    rcases List.mem_cons.mp hs with rfl | hs
    · have := e s1 (by simp)
      rwa [← b1, ← b2, ← b3] at this
    · have hm : (s.id, s.herm, s.anti) ∈ r'.map fun s => (s.id, s.herm, s.anti) := List.mem_map_of_mem hs
      rw [h] at hm
      obtain ⟨x, hx, hx'⟩ := List.mem_map.mp hm
      simp only [Prod.mk.injEq] at hx'
      have := e x (by simp [hx])
      rwa [hx'.1, hx'.2.1, hx'.2.2] at this

theorem heads_runOk {c : Env} : ∀ (l : List Op) {t : Table}, (∀ o ∈ l, o.Parts) → Heads t.syms → ∀ {t'}, runOk c t l = some t' → Heads t'.syms
  | [], t, _, h, t', hr => by
    simp only [runOk, Option.some.injEq] at hr
    exact hr ▸ h
  | o :: l, t, hp, h, t', hr => by
    have hp' := fun x hx => hp x (List.mem_cons_of_mem o hx)
    have ho := hp o (by simp)
    cases o with
    | create a b =>
      simp only [runOk, step, Option.bind_some] at hr
      exact heads_runOk l hp' (heads_create h a b ho) hr
    | createMany n a b =>
      simp only [runOk, step, Option.bind_some] at hr
      exact heads_runOk l hp' (heads_createMany a b ho n h) hr
    | seq w =>
      simp only [runOk, step, Table.mergeSeq, Option.bind_eq_some_iff, Option.map_eq_some_iff] at hr
      obtain ⟨r, ⟨q, hq, rfl⟩, hr⟩ := hr
      exact heads_runOk l hp' (heads_mergeSym h (ofPair_notBoth _ _) hq) hr
    | pair w =>
      simp only [runOk, step, Option.bind_eq_some_iff, Option.map_eq_some_iff] at hr
      obtain ⟨r, ⟨q, hq, rfl⟩, hr⟩ := hr
      exact heads_runOk l hp' (heads_mergeSym h (ofPair_notBoth _ _) hq) hr
    | herm w =>
      simp only [runOk, step, Option.bind_eq_some_iff, Option.map_eq_some_iff] at hr
      obtain ⟨r, ⟨q, hq, rfl⟩, hr⟩ := hr
      exact heads_runOk l hp' (heads_mergeSym h (by simp [Sym.ofSeq]) hq) hr
    | fill ws =>
      simp only [runOk, step, Table.fill, Option.bind_eq_some_iff, Option.map_eq_some_iff] at hr
      obtain ⟨r, ⟨q, ⟨q', hq', rfl⟩, rfl⟩, hr⟩ := hr
      refine heads_runOk l hp' (heads_mergeAll _ h ?_ hq') hr
      intro e he
      obtain ⟨p, hp, rfl⟩ := List.mem_map.mp he
      exact fillMap_notBoth c ws [] (by simp) p hp
    | bits n re im =>
      simp only [runOk] at hr
      split at hr
      · rename_i t1 b hf
        rcases (mergeBits_cases hf).2 with ⟨id, -, e⟩ | ⟨hnone, e⟩
        · simp at e
        · simp only [Flagged.done.injEq] at e
          refine heads_runOk l hp' ?_ hr
          rw [e.1]
          exact heads_congr (renumLoop_flags _ _) (heads_flagLoop re im (heads_grown h n) hnone)
      · simp at hr

theorem run_of_runOk {c : Env} : ∀ (l : List Op) {t t' : Table}, runOk c t l = some t' → run c t l = some t'
  | [], t, t', h => h
  | o :: l, t, t', h => by
    cases o with
    | bits n re im =>
      simp only [runOk] at h
      split at h
      · rename_i t1 b hf
        simp only [run, step, hf, Option.map_some, Option.bind_some]
        exact run_of_runOk l h
      · simp at h
    | _ =>
      simp only [runOk, Option.bind_eq_some_iff] at h
      obtain ⟨r, hr, h⟩ := h
      simp only [run, hr, Option.bind_some]
      exact run_of_runOk l h

/-- Histories without exceptions from merging bit sets, in contexts that declare no word null, lead to sound tables. -/
theorem sound_runOk (c : Env) (hnull : ∀ w, c.null w = (false, false)) (l : List Op) (hl : ∀ o ∈ l, o.Parts) {t : Table}
    (ht : runOk c Table.new l = some t) : Sound t := by
  obtain ⟨s0, s1, r, e, h0, a, b, d, f⟩ := heads_runOk l hl heads_new ht
  refine ⟨offsets_of_tinv (tinv_run l tinv_new (run_of_runOk l ht)), ?_, ?_, ?_, ?_⟩
  · refine flags_runOk (fun s h1 h2 => ⟨h1, h2⟩) (fun s w _ h1 h2 => ⟨?_, ?_⟩) l flags_new ht
    · rw [h1, hnull]; simp
    · rw [h2, hnull]; simp
  · rw [e]; exact ⟨s0, rfl, a, b⟩
  · rw [e]; exact ⟨s1, rfl, d⟩
  · rw [e]
    intro s hs hid
    rcases List.mem_cons.mp hs with rfl | hs
    · exact absurd h0 hid
    · exact (f s hs).2

/-! ## Values at points -/

theorem Reached.sound {t : Table} (h : Reached t) : Sound t := by
  obtain ⟨c, l, h1, h2, h3⟩ := h
  exact sound_runOk c h1 l h2 h3

theorem getElem?_id {t : Table} (h : Offsets t) {id : Nat} {s : Sym} (hs : t.syms[id]? = some s) : s.id = id := by
  have := congrArg (·[id]?) h.ids
  simp only [List.getElem?_map, hs, Option.map_some] at this
  have hlt := (List.getElem?_eq_some_iff.mp hs).1
  rw [List.getElem?_range hlt] at this
  simpa using this

theorem syms_get {t : Table} (h : Offsets t) {s : Sym} (hs : s ∈ t.syms) : t.syms[s.id]? = some s := by
  obtain ⟨i, hi⟩ := List.mem_iff_getElem?.mp hs
  rw [getElem?_id h hi]
  exact hi

theorem good_flags {t : Table} (h : Sound t) : (flags t).Good := by
  obtain ⟨s, h0, h1, h2⟩ := h.zero
  obtain ⟨s', h0', h1'⟩ := h.one
  refine ⟨by simp [flags, h0, h1], by simp [flags, h0, h2], by simp [flags, h0', h1'], fun i hi => ?_⟩
  simp only [flags]
  cases he : t.syms[i]? with
  | none => simp
  | some s =>
    simp only [Option.any_some]
    exact h.notBoth s (List.mem_of_getElem? he) (by rwa [getElem?_id h.offsets he])

theorem respects_point {t : Table} (h : Sound t) (a b : Nat → ℝ) : Poly.Respects (flags t) (point t a b) := by
  refine ⟨?_, ?_, ?_⟩
  · obtain ⟨s, h0, h1, h2⟩ := h.zero
    have := h.parts s (List.mem_of_getElem? h0)
    simp only [point, h0, Sym.at, this.1.mp h1, this.2.mp h2, Option.elim_none]
    rfl
  · intro i hi
    simp only [flags, point] at hi ⊢
    cases he : t.syms[i]? with
    | none => simp
    | some s =>
      simp only [he, Option.any_some] at hi
      rw [Complex.conj_eq_iff_im]
      simp [Sym.at, (h.parts s (List.mem_of_getElem? he)).1.mp hi]
  · intro i hi
    simp only [flags, point] at hi ⊢
    cases he : t.syms[i]? with
    | none => simp
    | some s =>
      simp only [he, Option.any_some] at hi
      apply Complex.ext
      · simp [Sym.at, (h.parts s (List.mem_of_getElem? he)).2.mp hi]
      · simp [Sym.at]

/-- Every assignment that respects the table is a point of it. -/
theorem point_of_respects {t : Table} (h : Sound t) {v : Nat → ℂ} (hv : Poly.Respects (flags t) v) :
    ∀ id < t.syms.length, point t (fun k => (v (t.basis.real.getD k 0)).re) (fun k => (v (t.basis.imag.getD k 0)).im) id = v id := by
  intro id hid
  have he : t.syms[id]? = some t.syms[id] := List.getElem?_eq_getElem hid
  have hm := List.mem_of_getElem? he
  have hi := getElem?_id h.offsets he
  set s := t.syms[id]
  obtain ⟨p1, p2⟩ := h.parts s hm
  simp only [point, he, Sym.at]
  apply Complex.ext
  · dsimp only
    cases hr : s.re with
    | none =>
      have := hv.anti id (by simp [flags, he, p2.mpr hr])
      have := congrArg Complex.re this
      simp only [Complex.conj_re, Complex.neg_re] at this
      simp only [Option.elim_none]
      linarith
    | some k =>
      have := (h.offsets.re s hm k).mp hr
      simp [Option.elim_some, List.getD_eq_getElem?_getD, this, hi]
  · dsimp only
    cases hr : s.im with
    | none =>
      have := hv.herm id (by simp [flags, he, p1.mpr hr])
      rw [Complex.conj_eq_iff_im] at this
      simp [this]
    | some k =>
      have := (h.offsets.im s hm k).mp hr
      simp [Option.elim_some, List.getD_eq_getElem?_getD, this, hi]

end Moment.Symbols
