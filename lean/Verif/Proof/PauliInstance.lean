import Verif.Spec.PauliInstance
import Verif.Proof.PauliSystem
import Verif.Proof.PolyOrder
import Verif.Props.C71_RawPoly
import Verif.Props.C72_MatrixSum
import Verif.Props.C103_PauliMatrix

/-! # Tables and matrices of Pauli systems -/

namespace Moment.PauliInstance
open Moment.Symbols (Sym Table Env)
open Moment.SymbolMatrix Moment.OperatorMatrix Moment.PauliMatrix
open Moment.MatrixBasis (Mat)
open Moment.Pauli (Normal conjugate)
open Moment.C06 (IsWord)
open Moment.Poly (Mono)
open Moment.RawPoly (Raw total)
open Moment.LocalitySystem (Matrix termWord)

/-- A word with positive sign. -/
def Pos (n : Nat) (w : HSeq) : Prop := IsWord n w ∧ w.sign = .pos

theorem Pos.inj {n : Nat} (hn : Room n) {a b : HSeq} (ha : Pos n a) (hb : Pos n b) (e : a.hash = b.hash) : a = b := by
  have h := hn.inj (IsWord.letters ha.1) (IsWord.letters hb.1) (by rw [← ha.1.2.2.1, ← hb.1.2.2.1, e])
  rw [IsWord.eq ha.1, IsWord.eq hb.1, h, ha.2, hb.2]

theorem Pos.plain {n : Nat} {w : HSeq} (h : Pos n w) : ({ w with sign := .pos } : HSeq) = w := by rw [← h.2]

theorem Pos.conj {n : Nat} {w : HSeq} (h : Pos n w) : conjugate w = w := by
  unfold conjugate
  rw [h.2]
  exact h.plain

/-- A symbol as Pauli systems make them: zero, or Hermitian with a word of positive sign. -/
def Kept (n : Nat) (e : Sym) : Prop := (e.seq = some HSeq.zero ∧ e.herm = true) ∨ ∃ w, Pos n w ∧ e.seq = some w ∧ e.herm = true ∧ e.anti = false

/-- Tables of Pauli systems. -/
structure Sound (n : Nat) (y : Symmetry) (t : Table) : Prop where
  ready : Ready (host n y) (IsSeq n) t
  kept : ∀ e ∈ t.syms, Kept n e

theorem kept_zero (n : Nat) : Kept n Sym.zero := Or.inl ⟨rfl, rfl⟩

theorem pos_one (n : Nat) : Pos n (HSeq.identity .pos) :=
  ⟨⟨List.Pairwise.nil, by simp [HSeq.identity], rfl, by simp [HSeq.identity]⟩, rfl⟩

theorem kept_one (n : Nat) : Kept n Sym.one := Or.inr ⟨_, pos_one n, rfl, rfl, rfl⟩

theorem kept_seq {n : Nat} {w : HSeq} (h : Pos n w) : Kept n (Sym.ofSeq w) := Or.inr ⟨w, h, rfl, rfl, rfl⟩

theorem kept_pair {n : Nat} {w : HSeq} (h : Pos n w) : Kept n (Sym.ofPair w w) := by
  have e : w.sign.mul w.sign = .pos := by rw [h.2]; rfl
  have c : HSeq.compareSameNegation w w = 1 := by
    unfold HSeq.compareSameNegation
    rw [h.2]
    simp
    try rfl
  refine Or.inr ⟨w, h, ?_, ?_, ?_⟩
  · simp only [Sym.ofPair, h.plain]
  · simp only [Sym.ofPair, h.plain, e, c]; rfl
  · simp only [Sym.ofPair, h.plain, e, c]; rfl

theorem kept_scan {n : Nat} : ∀ (l : List HSeq) (known : List UInt64), (0 : UInt64) ∈ known → (∀ p ∈ l, IsSeq n p) → ∀ e ∈ scanPlain l known, Kept n e
  | [], _, _, _, e, he => by simp [scanPlain] at he
  | x :: l, known, h0, hp, e, he => by
    have ih := fun k h0 => kept_scan l k h0 fun p hp' => hp p (List.mem_cons_of_mem _ hp')
    unfold scanPlain at he
    split at he
    · exact ih _ h0 e he
    · rename_i hc
      rcases List.mem_cons.mp he with rfl | he
      · refine kept_seq ⟨(hp x List.mem_cons_self).resolve_left fun h => hc ?_, rfl⟩
        rw [List.contains_iff_mem, h.1]
        exact h0
      · exact ih _ (List.mem_cons_of_mem _ h0) e he

theorem kept_mergeSym {n : Nat} {c : Env} {t t' : Table} {e : Sym} {id : Nat} {b : Bool} (ht : ∀ e ∈ t.syms, Kept n e) (he : Kept n e)
    (h : t.mergeSym c e = some (t', id, b)) : ∀ e ∈ t'.syms, Kept n e := by
  unfold Table.mergeSym at h
  split at h
  · simp at h
  · split at h
    · simp only [Option.map_eq_some_iff, Prod.mk.injEq] at h
      obtain ⟨_, -, rfl, -⟩ := h
      exact ht
    · simp only [Option.some.injEq, Prod.mk.injEq] at h
      obtain ⟨rfl, -⟩ := h
      intro s hs
      rcases List.mem_append.mp hs with hs | hs
      · exact ht s hs
      · rw [List.mem_singleton.mp hs]
        exact he

theorem kept_mergeAll {n : Nat} {c : Env} : ∀ (l : List Sym) {t t' : Table} {ids : List Nat} {k : Nat}, (∀ e ∈ t.syms, Kept n e) →
    (∀ e ∈ l, Kept n e) → t.mergeAll c l = some (t', ids, k) → ∀ e ∈ t'.syms, Kept n e
  | [], t, t', ids, k, ht, _, h => by
    simp only [Table.mergeAll, Option.some.injEq, Prod.mk.injEq] at h
    rw [← h.1]; exact ht
  | e :: l, t, t', ids, k, ht, hl, h => by
    simp only [Table.mergeAll, Option.bind_eq_bind, Option.bind_eq_some_iff, Option.some.injEq, Prod.mk.injEq] at h
    obtain ⟨⟨t1, i1, b1⟩, h1, ⟨t2, i2, n2⟩, h2, h3, -⟩ := h
    dsimp only at h2 h3
    subst h3
    exact kept_mergeAll l (kept_mergeSym ht (hl e (by simp)) h1) (fun x hx => hl x (by simp [hx])) h2

theorem Sound.new (n : Nat) (y : Symmetry) : Sound n y Table.new := by
  refine ⟨.new, fun e he => ?_⟩
  simp only [Table.new, List.mem_cons, List.not_mem_nil, or_false] at he
  rcases he with rfl | rfl
  · exact kept_zero n
  · exact kept_one n

/-- Symbols can be found by their words. -/
theorem Sound.found {n : Nat} {y : Symmetry} {t : Table} (ht : Sound n y t) {i : Nat} {e : Sym} {w : HSeq} (he : t.syms[i]? = some e) (hs : e.seq = some w) :
    t.find w.hash = some (i, false) := by
  have hinv := (ht.ready.fit (setting n y)).inv
  have hk : t.keys[i]? = some (e.id, some w, e.conj) := by
    rw [Table.keys, List.getElem?_map, he, Option.map_some]
    simp [Sym.key, hs]
  have hid := hinv.ids _ _ hk
  dsimp only at hid
  rw [hid] at hk
  have := (hinv.full i w _ hk).2.1
  unfold Table.find
  rw [this]
  simp

/-- What is found for the hash of a word is its symbol. -/
theorem Sound.holds {n : Nat} (hn : Room n) {y : Symmetry} {t : Table} (ht : Sound n y t) {w : HSeq} (hw : Pos n w) {k : Nat × Bool}
    (hk : t.find w.hash = some k) : ∃ e, t.syms[k.1]? = some e ∧ e.seq = some w := by
  unfold Table.find at hk
  obtain ⟨i, hi, rfl⟩ := Option.map_eq_some_iff.mp hk
  obtain ⟨q, cq, h1, -, h2, h3⟩ := (ht.ready.fit (setting n y)).inv.sound _ i hi
  rw [Table.keys, List.getElem?_map, Option.map_eq_some_iff] at h1
  obtain ⟨e, he, hkey⟩ := h1
  have hseq : e.seq = some q := by
    simp only [Sym.key, Prod.mk.injEq] at hkey
    exact hkey.2.1
  refine ⟨e, he, ?_⟩
  have hp : 0 ≤ i := by
    by_contra hneg
    obtain ⟨a, b⟩ := h3 (by omega)
    exact b a
  rcases ht.kept e (List.mem_of_getElem? he) with ⟨z, -⟩ | ⟨x, hx, hxs, -⟩
  · rw [hseq, Option.some.injEq] at z
    exact absurd ((h2 hp).symm.trans (by rw [z]; rfl)) hw.1.2.2.2
  · rw [hseq, Option.some.injEq] at hxs
    subst hxs
    rw [hseq, Pos.inj hn hx hw (h2 hp)]

/-! ## Changes of tables -/

/-- The creation of a matrix. -/
theorem Sound.matrix {n : Nat} {y : Symmetry} {t : Table} (ht : Sound n y t) {ops : Mat HSeq} {al : Option (Mat HSeq)} {f : ℂ}
    (hu : Usable (host n y) (IsSeq n) (al.getD ops)) {t' : Table} {M : Option MonoMat} (hc : SymbolMatrix.create (host n y) t ops al f = some (t', M)) :
    Sound n y t' := by
  refine ⟨.matrix ht.ready hu hc, ?_⟩
  obtain ⟨ids, k, hmerge⟩ := create_merge (host n y) hc
  refine kept_mergeAll _ ht.kept (fun e he => ?_) hmerge
  unfold identify at he
  rcases List.mem_cons.mp he with rfl | he
  · exact kept_zero n
  rcases List.mem_cons.mp he with rfl | he
  · exact kept_one n
  rw [show (host n y).canNonHerm = false from rfl, if_neg (by simp)] at he
  exact kept_scan _ _ (by simp) (fun x hx => hu.mem x (mem_visited hu.square hx)) e he

/-- A new word. -/
theorem Sound.seq {n : Nat} {y : Symmetry} {t : Table} (ht : Sound n y t) {w : HSeq} (hw : Pos n w) (hy : y.aliases = false) {r}
    (hm : t.mergeSeq (env n y) w = some r) (hr : Ready (host n y) (IsSeq n) r.1) : Sound n y r.1 := by
  refine ⟨hr, ?_⟩
  unfold Table.mergeSeq at hm
  simp only [hw.plain, show (env n y).aliases = false from hy, Bool.false_eq_true, if_false] at hm
  rw [show (env n y).conj w = w from hw.conj] at hm
  exact kept_mergeSym (id := r.2.1) (b := r.2.2) ht.kept (kept_pair hw) hm

/-- All words of a list. -/
theorem Sound.fill {n : Nat} {y : Symmetry} {t : Table} (ht : Sound n y t) {ws : List HSeq} (hw : PauliMatrix.Plain n ws) :
    ∃ t' k, t.fill (env n y) ws = some (t', k) ∧ Sound n y t' ∧ t.syms <+: t'.syms := by
  have hlegal : Symbols.Op.Legal (host n y).env (IsSeq n) (.fill ws) := fun w h => .inr (hw w h).1
  have hplain : PlainOp (host n y).env (.fill ws) := fun w h _ => (hw w h).2
  have hkept : ∀ e ∈ (Symbols.fillMap (env n y) ws []).map Prod.snd, Kept n e := by
    intro e he
    obtain ⟨x, hx, rfl⟩ := List.mem_map.mp he
    rcases (Symbols.fillMap_spec (env n y) ws []).1 x hx with hx | ⟨w, hm, hx, -⟩
    · simp at hx
    · unfold Symbols.fillEntry at hx
      rw [show (env n y).conj w = w from Pos.conj (hw w hm)] at hx
      split at hx
      · simp at hx
      · simp only [if_true, Option.some.injEq] at hx
        rw [← hx]
        exact kept_seq (hw w hm)
  have hex : ∃ r, t.fill (env n y) ws = some r := by
    obtain ⟨t', k, e, -⟩ := Symbols.fill_keys (setting n y).words (ht.ready.fit (setting n y)).inv hlegal
    exact ⟨_, e⟩
  obtain ⟨⟨t', k⟩, hr⟩ := hex
  have hr' := hr
  unfold Table.fill at hr'
  obtain ⟨⟨t1, ids, j⟩, hm, e⟩ := Option.map_eq_some_iff.mp hr'
  simp only [Prod.mk.injEq] at e
  obtain ⟨rfl, rfl⟩ := e
  exact ⟨t1, j, hr, ⟨.step ht.ready hlegal hplain (r := none) (by simp [Symbols.step, host, hr]), kept_mergeAll _ ht.kept hkept hm⟩, mergeAll_prefix _ hm⟩

/-! ## Values -/

section
variable {A : Type} [Ring A] [Algebra ℂ A] [StarRing A] [StarModule ℂ A]

theorem Sound.values {n : Nat} (hn : Room n) {y : Symmetry} {t : Table} (ht : Sound n y t) {ρ : Nat → A} {φ : A →ₗ[ℂ] ℂ} (hρ : Represents n ρ)
    (hφ : Invariant n y ρ φ) : ∃ v, Agrees t (moment ρ φ) v := by
  refine agrees_of_natural (setting n y) (moment_moments hn y hρ hφ.star) ht.ready fun e he => ?_
  rcases ht.kept e he with ⟨h1, -⟩ | ⟨w, hw, h1, -, h3⟩
  · exact ⟨_, h1, fun _ => by simp [moment, HSeq.zero], fun _ => by simp [moment, HSeq.zero]⟩
  · exact ⟨_, h1, fun _ => moment_real hρ hφ.star (.inr hw.1) hw.2, fun hh => by rw [h3] at hh; cases hh⟩

/-- A term whose symbol has a word with positive sign. -/
def Known (n : Nat) (t : Table) (m : Mono) : Prop := ∃ e w, t.syms[m.id]? = some e ∧ e.seq = some w ∧ Pos n w

theorem Known.lt {n : Nat} {t : Table} {m : Mono} (h : Known n t m) : m.id < t.syms.length := by
  obtain ⟨e, w, h1, -⟩ := h
  exact (List.getElem?_eq_some_iff.mp h1).1

theorem Known.stays {n : Nat} {t t' : Table} {m : Mono} (h : Known n t m) (ht : t.syms <+: t'.syms) : Known n t' m := by
  obtain ⟨e, w, h1, h2, h3⟩ := h
  exact ⟨e, w, get_prefix ht h1, h2, h3⟩

/-- The word of a term, and its value. -/
theorem Sound.term {n : Nat} {y : Symmetry} {t : Table} (ht : Sound n y t) {m : Mono} (hm : Known n t m) :
    ∃ w, termWord t m = some w ∧ Pos n w ∧ ∀ (A : Type) [Ring A] [Algebra ℂ A] [StarRing A] [StarModule ℂ A] (ρ : Nat → A) (φ : A →ₗ[ℂ] ℂ) v,
      Agrees t (moment ρ φ) v → m.value v = m.factor * φ (operator ρ w) := by
  obtain ⟨e, w, h1, h2, h3⟩ := hm
  have herm : e.herm = true := by
    rcases ht.kept e (List.mem_of_getElem? h1) with ⟨-, h⟩ | ⟨_, _, _, h, -⟩ <;> exact h
  refine ⟨w, ?_, h3, fun A _ _ _ _ ρ φ v hv => ?_⟩
  · unfold termWord
    rw [h1, Option.bind_some, herm, h2]
    simp
  · have hval : v m.id = φ (operator ρ w) := by rw [hv.word _ _ _ h1 h2, moment_word h3.1]
    unfold Poly.Mono.value
    split
    · rw [agree_herm hv h1 herm, hval]
    · rw [hval]

theorem termWord_stays {t t' : Table} (h : t.syms <+: t'.syms) {m : Mono} (hm : m.id < t.syms.length) : termWord t' m = termWord t m := by
  unfold termWord
  rw [get_prefix h (List.getElem?_eq_getElem hm), List.getElem?_eq_getElem hm]

theorem polyOp_stays {t t' : Table} (h : t.syms <+: t'.syms) {A : Type} [Ring A] [Algebra ℂ A] (ρ : Nat → A) {p : List Mono}
    (hp : ∀ m ∈ p, m.id < t.syms.length) : polyOp t' p A ρ = polyOp t p A ρ := by
  unfold polyOp
  congr 1
  exact List.map_congr_left fun m hm => by rw [termWord_stays h (hp m hm)]

theorem Sound.poly {n : Nat} {y : Symmetry} {t : Table} (ht : Sound n y t) {ρ : Nat → A} {φ : A →ₗ[ℂ] ℂ} {v : Nat → ℂ} (hv : Agrees t (moment ρ φ) v) :
    ∀ {p : List Mono}, (∀ m ∈ p, Known n t m) → Poly.value v p = φ (polyOp t p A ρ)
  | [], _ => by simp [polyOp, Poly.value]
  | m :: p, hp => by
    obtain ⟨w, h1, -, h2⟩ := ht.term (hp m List.mem_cons_self)
    have ih := Sound.poly ht hv (p := p) fun x hx => hp x (List.mem_cons_of_mem _ hx)
    rw [Poly.value_cons, ih, h2 A ρ φ v hv]
    simp [polyOp, h1]

end

/-! ## Registered words, without symmetry -/

theorem register_sound {n : Nat} (hn : Room n) {y : Symmetry} (hy : y.aliases = false) : ∀ {q : Raw} {t : Table}, Sound n y t → (∀ e ∈ q, Pos n e.1) →
    ∃ t' l, RawPoly.registerStorage (env n y) t q = some (t', l) ∧ Sound n y t' ∧ t.syms <+: t'.syms ∧
      List.Forall₂ (fun e m => m.factor = e.2 ∧ ∃ x, t'.syms[m.id]? = some x ∧ x.seq = some e.1) q l
  | [], t, ht, _ => ⟨t, [], rfl, ht, List.prefix_rfl, .nil⟩
  | e :: q, t, ht, hq => by
    have he := hq e List.mem_cons_self
    have hq' := fun x hx => hq x (List.mem_cons_of_mem _ hx)
    have look : ∀ {t : Table}, (t.lookup (env n y) e.1).1 = t.find e.1.hash := by
      intro t
      unfold Table.lookup
      cases t.find e.1.hash with
      | some r => rfl
      | none => simp [show (env n y).aliases = false from hy]
    unfold RawPoly.registerStorage
    cases hk : (t.lookup (env n y) e.1).1 with
    | some k =>
      obtain ⟨t', l, h1, h2, h3, h4⟩ := register_sound hn hy ht hq'
      refine ⟨t', ⟨k.1, k.2, e.2⟩ :: l, by simp [h1], h2, h3, .cons ⟨rfl, ?_⟩ h4⟩
      obtain ⟨x, hx, hs⟩ := ht.holds hn he (look.symm.trans hk)
      exact ⟨x, get_prefix h3 hx, hs⟩
    | none =>
      obtain ⟨m, m1, m2, m3, m4⟩ := C71.lookup_after (setting n y) ht.ready (w := e.1) he.2 (by
        rw [show (host n y).env.aliases = false from hy, if_neg (by simp)]
        exact .inr he.1)
      obtain ⟨k, hk'⟩ := Option.isSome_iff_exists.mp m4
      have ms : Sound n y m.1 := ht.seq he hy m1 m2
      obtain ⟨t', l, h1, h2, h3, h4⟩ := register_sound hn hy ms hq'
      refine ⟨t', ⟨k.1, k.2, e.2⟩ :: l, ?_, h2, m3.trans h3, .cons ⟨rfl, ?_⟩ h4⟩
      · rw [show t.mergeSeq (env n y) e.1 = some m from m1, Option.bind_some, show (m.1.lookup (env n y) e.1).1 = some k from hk', Option.bind_some, h1]
        rfl
      · obtain ⟨x, hx, hs⟩ := ms.holds hn he (look.symm.trans hk')
        exact ⟨x, get_prefix h3 hx, hs⟩

end Moment.PauliInstance
