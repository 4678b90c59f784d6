import Mathlib.Data.List.Nodup
import Mathlib.Data.List.Range
import Verif.Proof.SymbolTable

/-! # The basis lists of the symbol table -/

namespace Moment.Symbols

/-- Id and offsets of a symbol. -/
abbrev Off := Nat × Option Nat × Option Nat

def Sym.off (s : Sym) : Off := (s.id, s.re, s.im)

structure OInv (l : List Off) (b : Basis) : Prop where
  re : ∀ x ∈ l, ∀ k, x.2.1 = some k → b.real[k]? = some x.1 ∧ b.imOfRe[k]? = some x.2.2
  im : ∀ x ∈ l, ∀ k, x.2.2 = some k → b.imag[k]? = some x.1 ∧ b.reOfIm[k]? = some x.2.1
  reBack : ∀ (k id : Nat), b.real[k]? = some id → ∃ x ∈ l, x.1 = id ∧ x.2.1 = some k
  imBack : ∀ (k id : Nat), b.imag[k]? = some id → ∃ x ∈ l, x.1 = id ∧ x.2.2 = some k
  len : b.imOfRe.length = b.real.length ∧ b.reOfIm.length = b.imag.length

theorem getElem?_snoc {α} (l : List α) (a : α) (k : Nat) (x : α) (h : (l ++ [a])[k]? = some x) :
    l[k]? = some x ∨ (k = l.length ∧ x = a) := by
  rw [List.getElem?_append] at h
  split at h
  · exact Or.inl h
  · rename_i hk
    rcases Nat.lt_or_ge (k - l.length) 1 with h1 | h1
    · have : k = l.length := by omega
      subst this
      simp at h
      exact Or.inr ⟨rfl, h.symm⟩
    · rw [List.getElem?_eq_none (by simpa using h1)] at h
      simp at h

theorem getElem?_snoc_left {α} {l : List α} {a : α} {k : Nat} {x : α} (h : l[k]? = some x) : (l ++ [a])[k]? = some x := by
  rw [List.getElem?_append_left (List.getElem?_eq_some_iff.mp h).1]; exact h

theorem getElem?_snoc_last {α} (l : List α) (a : α) : (l ++ [a])[l.length]? = some a := by simp

theorem oinv_push {l b} (h : OInv l b) (n : Nat) (r i : Bool) :
    OInv (l ++ [(n, (b.push n r i).2.1, (b.push n r i).2.2)]) (b.push n r i).1 := by
  obtain ⟨h1, h2, h3, h4, h5, h6⟩ := h
  constructor
  · intro x hx k hk
    rcases List.mem_append.mp hx with hx | hx
    · obtain ⟨e1, e2⟩ := h1 x hx k hk
      cases r <;> simp only [Basis.push, if_true, if_false, Bool.false_eq_true]
      · exact ⟨e1, e2⟩
      · exact ⟨getElem?_snoc_left e1, getElem?_snoc_left e2⟩
    · simp only [List.mem_singleton] at hx
      subst hx
      cases r
      · simp [Basis.push] at hk
      · simp only [Basis.push, if_true, Option.some.injEq] at hk ⊢
        subst hk
        exact ⟨getElem?_snoc_last _ _, by rw [← h5]; exact getElem?_snoc_last _ _⟩
  · intro x hx k hk
    rcases List.mem_append.mp hx with hx | hx
    · obtain ⟨e1, e2⟩ := h2 x hx k hk
      cases i <;> simp only [Basis.push, if_true, if_false, Bool.false_eq_true]
      · exact ⟨e1, e2⟩
      · exact ⟨getElem?_snoc_left e1, getElem?_snoc_left e2⟩
    · simp only [List.mem_singleton] at hx
      subst hx
      cases i
      · simp [Basis.push] at hk
      · simp only [Basis.push, if_true, Option.some.injEq] at hk ⊢
        subst hk
        exact ⟨getElem?_snoc_last _ _, by rw [← h6]; exact getElem?_snoc_last _ _⟩
  · intro k id hk
    cases r
    · obtain ⟨x, hx, e⟩ := h3 k id (by simpa [Basis.push] using hk)
      exact ⟨x, by simp [hx], e⟩
    · simp only [Basis.push, if_true] at hk
      rcases getElem?_snoc _ _ _ _ hk with hk | ⟨hk, e⟩
      · obtain ⟨x, hx, e⟩ := h3 k id hk
        exact ⟨x, by simp [hx], e⟩
      · exact ⟨_, List.mem_append_right _ (List.mem_singleton.mpr rfl), e.symm, by simp [Basis.push, hk]⟩
  · intro k id hk
    cases i
    · obtain ⟨x, hx, e⟩ := h4 k id (by simpa [Basis.push] using hk)
      exact ⟨x, by simp [hx], e⟩
    · simp only [Basis.push, if_true] at hk
      rcases getElem?_snoc _ _ _ _ hk with hk | ⟨hk, e⟩
      · obtain ⟨x, hx, e⟩ := h4 k id hk
        exact ⟨x, by simp [hx], e⟩
      · exact ⟨_, List.mem_append_right _ (List.mem_singleton.mpr rfl), e.symm, by simp [Basis.push, hk]⟩
  · cases r <;> cases i <;> simp [Basis.push, h5, h6]

/-- Ids are positions, and offsets agree with the lists. -/
structure TInv (t : Table) : Prop where
  ids : t.syms.map Sym.id = List.range t.syms.length
  off : OInv (t.syms.map Sym.off) t.basis

theorem tinv_new : TInv Table.new := by
  refine ⟨rfl, ?_⟩
  constructor
  · intro x hx k hk
    simp [Table.new, Sym.zero, Sym.one, Sym.ofSeq, Sym.off] at hx
    rcases hx with rfl | rfl
    · simp at hk
    · simp at hk; subst hk; exact ⟨rfl, rfl⟩
  · intro x hx k hk
    simp [Table.new, Sym.zero, Sym.one, Sym.ofSeq, Sym.off] at hx
    rcases hx with rfl | rfl <;> simp at hk
  · intro k id hk
    have hb : Table.new.basis.real = [1] := rfl
    rw [hb] at hk
    rcases k with _ | k
    · simp at hk; subst hk; exact ⟨(1, some 0, none), by simp [Table.new, Sym.one, Sym.ofSeq, Sym.off], rfl, rfl⟩
    · simp at hk
  · intro k id hk
    have hb : Table.new.basis.imag = [] := rfl
    rw [hb] at hk
    simp at hk
  · exact ⟨rfl, rfl⟩

theorem ids_snoc {l : List Sym} (h : l.map Sym.id = List.range l.length) (s : Sym) (hs : s.id = l.length) :
    (l ++ [s]).map Sym.id = List.range (l ++ [s]).length := by
  simp [h, hs, List.range_succ]

theorem tinv_create {t : Table} (h : TInv t) (r i : Bool) : TInv (t.create r i).1 := by
  refine ⟨ids_snoc h.ids _ rfl, ?_⟩
  have := oinv_push h.off t.syms.length r i
  simpa [Table.create, Sym.off] using this

theorem tinv_createMany (r i : Bool) : ∀ (n : Nat) {t : Table}, TInv t → TInv (t.createMany r i n)
  | 0, _, h => h
  | n + 1, _, h => tinv_createMany r i n (tinv_create h r i)

theorem tinv_mergeSym {c : Env} {t : Table} (h : TInv t) {e : Sym} {r} (hr : t.mergeSym c e = some r) : TInv r.1 := by
  unfold Table.mergeSym at hr
  split at hr
  · simp at hr
  · rename_i w hw
    split at hr
    · simp only [Option.map_eq_some_iff] at hr
      obtain ⟨s, -, rfl⟩ := hr
      exact h
    · simp only [Option.some.injEq] at hr
      subst hr
      refine ⟨ids_snoc h.ids _ rfl, ?_⟩
      have := oinv_push h.off t.syms.length (!((c.null w).1 || e.anti)) (!((c.null w).2 || e.herm))
      simpa [Sym.off] using this

theorem tinv_mergeAll {c : Env} : ∀ (l : List Sym) {t : Table}, TInv t → ∀ {r}, t.mergeAll c l = some r → TInv r.1
  | [], t, h, r, hr => by simp [Table.mergeAll] at hr; subst hr; exact h
  | e :: l, t, h, r, hr => by
    simp only [Table.mergeAll, Option.bind_eq_bind, Option.bind_eq_some_iff, Option.some.injEq] at hr
    obtain ⟨q, hq, q', hq', rfl⟩ := hr
    exact tinv_mergeAll l (tinv_mergeSym h hq) (r := q') hq'

theorem flagLoop_off (re im : Nat → Bool) : ∀ l ch, (flagLoop re im l ch).1.map Sym.off = l.map Sym.off
  | [], ch => rfl
  | s :: l, ch => by
    unfold flagLoop
    split
    · simp [flagLoop_off re im l, Sym.off]
    · split
      · split
        · simp [flagLoop_off re im l]
        · dsimp only
          split
          · simp [Sym.off]
          · simp [flagLoop_off re im l, Sym.off]
      · split
        · dsimp only
          split
          · simp [Sym.off]
          · simp [flagLoop_off re im l, Sym.off]
        · rfl

theorem renumLoop_off : ∀ (l : List Sym) (b : Basis) (p : List Off), OInv p b →
    OInv (p ++ (renumLoop l b).1.map Sym.off) (renumLoop l b).2
  | [], b, p, h => by simpa [renumLoop] using h
  | s :: l, b, p, h => by
    have h1 := oinv_push h s.id (!s.anti) (!s.herm)
    have h2 := renumLoop_off l _ _ h1
    simpa [renumLoop, Sym.off] using h2

theorem renumLoop_ids : ∀ l b, (renumLoop l b).1.map Sym.id = l.map Sym.id
  | [], b => rfl
  | s :: l, b => by simp [renumLoop, renumLoop_ids l]

theorem renumLoop_length (l b) : (renumLoop l b).1.length = l.length := by
  have := congrArg List.length (renumLoop_ids l b)
  simpa using this

theorem flagLoop_ids (re im l ch) : (flagLoop re im l ch).1.map Sym.id = l.map Sym.id := by
  have := congrArg (List.map (fun x : Off => x.1)) (flagLoop_off re im l ch)
  simpa [Sym.off, Function.comp_def] using this

theorem flagLoop_length (re im l ch) : (flagLoop re im l ch).1.length = l.length := by
  have := congrArg List.length (flagLoop_ids re im l ch)
  simpa using this

theorem oinv_empty : OInv [] ⟨[], [], [], []⟩ := by constructor <;> simp

theorem tinv_renumerate {t : Table} (h : t.syms.map Sym.id = List.range t.syms.length) : TInv t.renumerate := by
  refine ⟨?_, ?_⟩
  · show (renumLoop _ _).1.map Sym.id = List.range (renumLoop _ _).1.length
    rw [renumLoop_ids, renumLoop_length]; exact h
  · have := renumLoop_off t.syms _ _ oinv_empty
    simpa [Table.renumerate] using this

/-- The table on which the loop of `merge_in(bitsets)` runs. -/
def Table.grown (t : Table) (n : Nat) : Table := if t.syms.length < n then t.createMany true true (n - t.syms.length) else t

theorem tinv_grown {t : Table} (h : TInv t) (n : Nat) : TInv (t.grown n) := by
  unfold Table.grown; split
  · exact tinv_createMany _ _ _ h
  · exact h

theorem mergeBits_cases {t : Table} {n re im f} (hf : t.mergeBits n re im = some f) :
    (t.grown n).syms.length ≤ n ∧
    ((∃ id, (flagLoop re im (t.grown n).syms false).2.2 = some id ∧
        f = .thrown { t.grown n with syms := (flagLoop re im (t.grown n).syms false).1 } id) ∨
      ((flagLoop re im (t.grown n).syms false).2.2 = none ∧
        f = .done (Table.renumerate { t.grown n with syms := (flagLoop re im (t.grown n).syms false).1 })
          (flagLoop re im (t.grown n).syms false).2.1)) := by
  unfold Table.mergeBits at hf
  dsimp only at hf
  change (if n < (t.grown n).syms.length then none else
    match (flagLoop re im (t.grown n).syms false).2.2 with
    | some id => some (.thrown { t.grown n with syms := (flagLoop re im (t.grown n).syms false).1 } id)
    | none => some (.done (Table.renumerate { t.grown n with syms := (flagLoop re im (t.grown n).syms false).1 })
        (flagLoop re im (t.grown n).syms false).2.1)) = some f at hf
  split at hf
  · simp at hf
  · refine ⟨by omega, ?_⟩
    split at hf <;> simp only [Option.some.injEq] at hf
    · rename_i id hid
      exact Or.inl ⟨id, hid, hf.symm⟩
    · rename_i hid
      exact Or.inr ⟨hid, hf.symm⟩

theorem tinv_flagged {t : Table} (h : TInv t) (re im) : TInv { t with syms := (flagLoop re im t.syms false).1 } :=
  ⟨by show (flagLoop _ _ _ _).1.map Sym.id = List.range (flagLoop _ _ _ _).1.length
      rw [flagLoop_ids, flagLoop_length]; exact h.ids,
   by show OInv ((flagLoop _ _ _ _).1.map Sym.off) _
      rw [flagLoop_off]; exact h.off⟩

theorem tinv_step {c : Env} {t : Table} (h : TInv t) {o : Op} {r} (hr : step c t o = some r) : TInv r.1 := by
  cases o with
  | create a b =>
    simp only [step, Option.some.injEq] at hr
    subst hr
    exact tinv_create h a b
  | createMany n a b =>
    simp only [step, Option.some.injEq] at hr
    subst hr
    exact tinv_createMany a b n h
  | seq w =>
    simp only [step, Table.mergeSeq, Option.map_eq_some_iff] at hr
    obtain ⟨q, hq, rfl⟩ := hr
    exact tinv_mergeSym h hq
  | pair w =>
    simp only [step, Option.map_eq_some_iff] at hr
    obtain ⟨q, hq, rfl⟩ := hr
    exact tinv_mergeSym h hq
  | herm w =>
    simp only [step, Option.map_eq_some_iff] at hr
    obtain ⟨q, hq, rfl⟩ := hr
    exact tinv_mergeSym h hq
  | fill ws =>
    simp only [step, Table.fill, Option.map_eq_some_iff] at hr
    obtain ⟨q, ⟨q', hq', rfl⟩, rfl⟩ := hr
    exact tinv_mergeAll _ h hq'
  | bits n re im =>
    simp only [step, Option.map_eq_some_iff] at hr
    obtain ⟨f, hf, rfl⟩ := hr
    have h1 := tinv_flagged (tinv_grown h n) re im
    rcases (mergeBits_cases hf).2 with ⟨id, -, rfl⟩ | ⟨-, rfl⟩
    · exact h1
    · exact tinv_renumerate h1.ids

theorem tinv_run {c : Env} : ∀ (l : List Op) {t : Table}, TInv t → ∀ {t'}, run c t l = some t' → TInv t'
  | [], t, h, t', hr => by
    simp only [run, Option.some.injEq] at hr
    exact hr ▸ h
  | o :: l, t, h, t', hr => by
    simp only [run, Option.bind_eq_some_iff] at hr
    obtain ⟨r, h1, h2⟩ := hr
    exact tinv_run l (tinv_step h h1) h2

theorem offsets_of_tinv {t : Table} (h : TInv t) : Offsets t := by
  have hnd : (t.syms.map Sym.id).Nodup := by rw [h.ids]; exact List.nodup_range
  have huniq : ∀ s ∈ t.syms, ∀ x ∈ t.syms.map Sym.off, x.1 = s.id → x = s.off := by
    intro s hs x hx e
    obtain ⟨s', hs', rfl⟩ := List.mem_map.mp hx
    rw [List.inj_on_of_nodup_map hnd hs' hs e]
  have hid : ∀ s ∈ t.syms, s.id < t.syms.length := by
    intro s hs
    have : s.id ∈ t.syms.map Sym.id := List.mem_map_of_mem hs
    rw [h.ids] at this
    exact List.mem_range.mp this
  constructor
  · exact h.ids
  · intro s hs k
    constructor
    · intro hk; exact (h.off.re s.off (List.mem_map_of_mem hs) k hk).1
    · intro hk
      obtain ⟨x, hx, e1, e2⟩ := h.off.reBack k _ hk
      rw [huniq s hs x hx e1] at e2
      exact e2
  · intro s hs k
    constructor
    · intro hk; exact (h.off.im s.off (List.mem_map_of_mem hs) k hk).1
    · intro hk
      obtain ⟨x, hx, e1, e2⟩ := h.off.imBack k _ hk
      rw [huniq s hs x hx e1] at e2
      exact e2
  · intro s hs k hk; exact (h.off.re s.off (List.mem_map_of_mem hs) k hk).2
  · intro s hs k hk; exact (h.off.im s.off (List.mem_map_of_mem hs) k hk).2
  · intro id hid'
    obtain ⟨k, hk⟩ := List.mem_iff_getElem?.mp hid'
    obtain ⟨x, hx, e1, -⟩ := h.off.reBack k _ hk
    obtain ⟨s, hs, rfl⟩ := List.mem_map.mp hx
    exact e1 ▸ hid s hs
  · intro id hid'
    obtain ⟨k, hk⟩ := List.mem_iff_getElem?.mp hid'
    obtain ⟨x, hx, e1, -⟩ := h.off.imBack k _ hk
    obtain ⟨s, hs, rfl⟩ := List.mem_map.mp hx
    exact e1 ▸ hid s hs
  · exact h.off.len

/-! ## Flags and offsets -/

/-- A symbol has no imaginary part if it is Hermitian and no real part if it is anti-Hermitian. -/
def FInv (t : Table) : Prop := ∀ s ∈ t.syms, (s.herm = true → s.im = none) ∧ (s.anti = true → s.re = none)

/-- … and has one otherwise. -/
def GInv (t : Table) : Prop := ∀ s ∈ t.syms, (s.herm = true ↔ s.im = none) ∧ (s.anti = true ↔ s.re = none)

theorem ginv_renumLoop : ∀ (l : List Sym) (b : Basis), ∀ s ∈ (renumLoop l b).1,
    (s.herm = true ↔ s.im = none) ∧ (s.anti = true ↔ s.re = none)
  | [], b, s, hs => by simp [renumLoop] at hs
  | s' :: l, b, s, hs => by
    simp only [renumLoop, List.mem_cons] at hs
    rcases hs with rfl | hs
    · cases h1 : s'.herm <;> cases h2 : s'.anti <;> simp [Basis.push]
    · exact ginv_renumLoop l _ s hs

theorem ginv_renumerate (t : Table) : GInv t.renumerate := ginv_renumLoop _ _

theorem finv_of_ginv {t} (h : GInv t) : FInv t := fun s hs => ⟨(h s hs).1.mp, (h s hs).2.mp⟩

theorem flags_new : GInv Table.new := by
  intro s hs
  simp [Table.new] at hs
  rcases hs with rfl | rfl <;> simp [Sym.zero, Sym.one, Sym.ofSeq]

theorem flags_create {P : Sym → Prop} {t : Table} (h : ∀ s ∈ t.syms, P s)
    (hP : ∀ s : Sym, (s.herm = true ↔ s.im = none) → (s.anti = true ↔ s.re = none) → P s) (r i : Bool) :
    ∀ s ∈ (t.create r i).1.syms, P s := by
  intro s hs
  simp only [Table.create, List.mem_append, List.mem_singleton] at hs
  rcases hs with hs | rfl
  · exact h s hs
  · apply hP
    · cases i <;> simp [Basis.push]
    · cases r <;> simp [Basis.push]

theorem flags_createMany {P : Sym → Prop}
    (hP : ∀ s : Sym, (s.herm = true ↔ s.im = none) → (s.anti = true ↔ s.re = none) → P s) (r i : Bool) :
    ∀ (n : Nat) {t : Table}, (∀ s ∈ t.syms, P s) → ∀ s ∈ (t.createMany r i n).syms, P s
  | 0, _, h => h
  | n + 1, _, h => flags_createMany hP r i n (flags_create h hP r i)

theorem flags_mergeSym {c : Env} {P : Sym → Prop} {t : Table} (h : ∀ s ∈ t.syms, P s) {e : Sym}
    (hP : ∀ s : Sym, ∀ w, s.seq = some w → (s.im = none ↔ ((c.null w).2 || s.herm) = true) →
      (s.re = none ↔ ((c.null w).1 || s.anti) = true) → P s) {r} (hr : t.mergeSym c e = some r) :
    ∀ s ∈ r.1.syms, P s := by
  unfold Table.mergeSym at hr
  split at hr
  · simp at hr
  · rename_i w hw
    split at hr
    · simp only [Option.map_eq_some_iff] at hr
      obtain ⟨s, -, rfl⟩ := hr
      exact h
    · simp only [Option.some.injEq] at hr
      subst hr
      intro s hs
      simp only [List.mem_append, List.mem_singleton] at hs
      rcases hs with hs | rfl
      · exact h s hs
      · refine hP _ w hw ?_ ?_
        · generalize ((c.null w).2 || e.herm) = b
          cases b <;> simp [Basis.push]
        · generalize ((c.null w).1 || e.anti) = b
          cases b <;> simp [Basis.push]

theorem flags_mergeAll {c : Env} {P : Sym → Prop}
    (hP : ∀ s : Sym, ∀ w, s.seq = some w → (s.im = none ↔ ((c.null w).2 || s.herm) = true) →
      (s.re = none ↔ ((c.null w).1 || s.anti) = true) → P s) :
    ∀ (l : List Sym) {t : Table}, (∀ s ∈ t.syms, P s) → ∀ {r}, t.mergeAll c l = some r → ∀ s ∈ r.1.syms, P s
  | [], t, h, r, hr => by simp [Table.mergeAll] at hr; subst hr; exact h
  | e :: l, t, h, r, hr => by
    simp only [Table.mergeAll, Option.bind_eq_bind, Option.bind_eq_some_iff, Option.some.injEq] at hr
    obtain ⟨q, hq, q', hq', rfl⟩ := hr
    exact flags_mergeAll hP l (flags_mergeSym h hP hq) (r := q') hq'

theorem flags_runOk {c : Env} {P : Sym → Prop}
    (hP : ∀ s : Sym, (s.herm = true ↔ s.im = none) → (s.anti = true ↔ s.re = none) → P s)
    (hM : ∀ s : Sym, ∀ w, s.seq = some w → (s.im = none ↔ ((c.null w).2 || s.herm) = true) →
      (s.re = none ↔ ((c.null w).1 || s.anti) = true) → P s) :
    ∀ (l : List Op) {t : Table}, (∀ s ∈ t.syms, P s) → ∀ {t'}, runOk c t l = some t' → ∀ s ∈ t'.syms, P s
  | [], t, h, t', hr => by
    simp only [runOk, Option.some.injEq] at hr
    exact hr ▸ h
  | o :: l, t, h, t', hr => by
    cases o with
    | create a b =>
      simp only [runOk, step, Option.bind_some] at hr
      exact flags_runOk hP hM l (flags_create h hP a b) hr
    | createMany n a b =>
      simp only [runOk, step, Option.bind_some] at hr
      exact flags_runOk hP hM l (flags_createMany hP a b n h) hr
    | seq w =>
      simp only [runOk, step, Table.mergeSeq, Option.bind_eq_some_iff, Option.map_eq_some_iff] at hr
      obtain ⟨r, ⟨q, hq, rfl⟩, hr⟩ := hr
      exact flags_runOk hP hM l (flags_mergeSym h hM hq) hr
    | pair w =>
      simp only [runOk, step, Option.bind_eq_some_iff, Option.map_eq_some_iff] at hr
      obtain ⟨r, ⟨q, hq, rfl⟩, hr⟩ := hr
      exact flags_runOk hP hM l (flags_mergeSym h hM hq) hr
    | herm w =>
      simp only [runOk, step, Option.bind_eq_some_iff, Option.map_eq_some_iff] at hr
      obtain ⟨r, ⟨q, hq, rfl⟩, hr⟩ := hr
      exact flags_runOk hP hM l (flags_mergeSym h hM hq) hr
    | fill ws =>
      simp only [runOk, step, Table.fill, Option.bind_eq_some_iff, Option.map_eq_some_iff] at hr
      obtain ⟨r, ⟨q, ⟨q', hq', rfl⟩, rfl⟩, hr⟩ := hr
      exact flags_runOk hP hM l (flags_mergeAll hM _ h hq') hr
    | bits n re im =>
      simp only [runOk] at hr
      split at hr
      · rename_i t1 b hf
        rcases (mergeBits_cases hf).2 with ⟨id, -, e⟩ | ⟨-, e⟩
        · simp at e
        · simp only [Flagged.done.injEq] at e
          refine flags_runOk hP hM l ?_ hr
          rw [e.1]
          intro s hs
          obtain ⟨g1, g2⟩ := ginv_renumerate _ s hs
          exact hP s g1 g2
      · simp at hr

end Moment.Symbols
