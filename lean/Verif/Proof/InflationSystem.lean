import Verif.Model.InflationSystem
import Verif.Proof.InflationContext
import Verif.Proof.FactorTable
import Verif.Proof.FactorContext
import Verif.Proof.MatrixSystemContract
import Verif.Proof.LocalitySystem
import Verif.Props.C114_InflationMatrix

/-! # Tables of inflation scenarios: the words of their symbols, and their factors -/

namespace Moment.InflationSystem
open Moment.Symbols (Sym Table Env)
open Moment.SymbolMatrix Moment.OperatorMatrix Moment.Inflation
open Moment.Poly (Mono)
open Moment.RawPoly (Raw total)
open Moment.LocalitySystem (Matrix termWord)

variable {n : Causal} {c : Inflation.Ctx} {L : Nat}

/-- A sequence as tables have them: the canonical moment of a word. -/
def Canon (n : Causal) (c : Inflation.Ctx) (L : Nat) (w : HSeq) : Prop := ∃ u, Word n c L u ∧ w = stored n c u ∧ shown c w = w

/-- A symbol as inflation systems make them: zero, or Hermitian with a canonical word. -/
def Kept (n : Causal) (c : Inflation.Ctx) (L : Nat) (e : Sym) : Prop :=
  e.herm = true ∧ (e.seq = some HSeq.zero ∨ ∃ w, Canon n c L w ∧ e.seq = some w ∧ e.anti = false)

/-- Tables of inflation systems. -/
structure Sound (n : Causal) (c : Inflation.Ctx) (L : Nat) (t : Table) : Prop where
  ready : Ready (host c) (IsSeq c L) t
  kept : ∀ e ∈ t.syms, Kept n c L e

theorem shown_zero (c : Inflation.Ctx) : shown c HSeq.zero = HSeq.zero := by
  unfold shown
  split
  · simp only [env]
    rw [asMoment.eq_def]
    rfl
  · rfl

theorem Canon.seq (hb : Built n c) {w : HSeq} (h : Canon n c L w) : IsSeq c L w := by
  obtain ⟨u, hu, rfl, -⟩ := h
  exact stored_seq hb hu

theorem Canon.sign {w : HSeq} (h : Canon n c L w) : w.sign = .pos := by
  obtain ⟨u, hu, rfl, -⟩ := h
  exact stored_sign u

theorem Canon.plain {w : HSeq} (h : Canon n c L w) : ({ w with sign := .pos } : HSeq) = w := by rw [← h.sign]

theorem Canon.conj (hb : Built n c) (h : Room c L) {w : HSeq} (hw : Canon n c L w) : (env c).conj w = w := by
  obtain ⟨u, hu, rfl, -⟩ := hw
  exact conj_stored hb h hu

theorem canon_shown (hb : Built n c) (h : Room c L) {u : List Op} (hu : Word n c L u) : Canon n c L (shown c (stored n c u)) := by
  obtain ⟨σ, v, -, h2, -, h4, h5⟩ := shown_stored hb h hu
  rw [h4]
  exact ⟨v, h2, rfl, h5⟩

theorem stored_nil : stored n c [] = HSeq.identity .pos := rfl

theorem canon_one : Canon n c L (HSeq.identity .pos) := by
  refine ⟨[], ⟨by simp, Nat.zero_le _⟩, rfl, ?_⟩
  unfold shown
  split
  · simp only [env]
    rw [asMoment.eq_def]
    rfl
  · rfl

theorem kept_zero : Kept n c L Sym.zero := ⟨rfl, .inl rfl⟩

theorem kept_one : Kept n c L Sym.one := ⟨rfl, .inr ⟨_, canon_one, rfl, rfl⟩⟩

theorem kept_seq {w : HSeq} (h : Canon n c L w) : Kept n c L (Sym.ofSeq w) := ⟨rfl, .inr ⟨w, h, rfl, rfl⟩⟩

theorem kept_pair {w : HSeq} (h : Canon n c L w) : Kept n c L (Sym.ofPair w w) := by
  have e : w.sign.mul w.sign = .pos := by rw [h.sign]; rfl
  have hc : HSeq.compareSameNegation w w = 1 := by
    unfold HSeq.compareSameNegation
    rw [h.sign]
    simp
    try rfl
  refine ⟨?_, .inr ⟨w, h, ?_, ?_⟩⟩
  · simp only [Sym.ofPair, h.plain, e, hc]; rfl
  · simp only [Sym.ofPair, h.plain]
  · simp only [Sym.ofPair, h.plain, e, hc]; rfl

theorem kept_scan : ∀ (l : List HSeq) (known : List UInt64), (∀ p ∈ l, Canon n c L p) → ∀ e ∈ scanPlain l known, Kept n c L e
  | [], _, _, e, he => by simp [scanPlain] at he
  | x :: l, known, hp, e, he => by
    have ih := fun k => kept_scan l k fun p hp' => hp p (List.mem_cons_of_mem _ hp')
    have hx := hp x List.mem_cons_self
    unfold scanPlain at he
    rw [hx.plain] at he
    split at he
    · exact ih _ e he
    · rcases List.mem_cons.mp he with rfl | he
      · exact kept_seq hx
      · exact ih _ e he

theorem kept_mergeSym {x : Env} {t t' : Table} {e : Sym} {id : Nat} {b : Bool} (ht : ∀ e ∈ t.syms, Kept n c L e) (he : Kept n c L e)
    (h : t.mergeSym x e = some (t', id, b)) : ∀ e ∈ t'.syms, Kept n c L e := by
  unfold Table.mergeSym at h
  split at h
  · simp at h
  · split at h
    · simp only [Option.map_eq_some_iff, Prod.mk.injEq] at h
      obtain ⟨_, -, rfl, -⟩ := h
      exact ht
    · simp only [Option.some.injEq, Prod.mk.injEq] at h
      obtain ⟨rfl, -⟩ := h
      intro s hs
      rcases List.mem_append.mp hs with hs | hs
      · exact ht s hs
      · rw [List.mem_singleton.mp hs]
        exact he

theorem kept_mergeAll {x : Env} : ∀ (l : List Sym) {t t' : Table} {ids : List Nat} {k : Nat}, (∀ e ∈ t.syms, Kept n c L e) →
    (∀ e ∈ l, Kept n c L e) → t.mergeAll x l = some (t', ids, k) → ∀ e ∈ t'.syms, Kept n c L e
  | [], t, t', ids, k, ht, _, h => by
    simp only [Table.mergeAll, Option.some.injEq, Prod.mk.injEq] at h
    rw [← h.1]; exact ht
  | e :: l, t, t', ids, k, ht, hl, h => by
    simp only [Table.mergeAll, Option.bind_eq_bind, Option.bind_eq_some_iff, Option.some.injEq, Prod.mk.injEq] at h
    obtain ⟨⟨t1, i1, b1⟩, h1, ⟨t2, i2, n2⟩, h2, h3, -⟩ := h
    dsimp only at h2 h3
    subst h3
    exact kept_mergeAll l (kept_mergeSym ht (hl e (by simp)) h1) (fun x hx => hl x (by simp [hx])) h2

theorem Sound.new : Sound n c L Table.new := by
  refine ⟨.new, fun e he => ?_⟩
  simp only [Table.new, List.mem_cons, List.not_mem_nil, or_false] at he
  rcases he with rfl | rfl
  · exact kept_zero
  · exact kept_one

/-- Symbols can be found by their words. -/
theorem Sound.found (hb : Built n c) (h : Room c L) {t : Table} (ht : Sound n c L t) {i : Nat} {e : Sym} {w : HSeq} (he : t.syms[i]? = some e)
    (hs : e.seq = some w) : t.find w.hash = some (i, false) := by
  have hinv := (ht.ready.fit (setting hb h)).inv
  have hk : t.keys[i]? = some (e.id, some w, e.conj) := by
    rw [Table.keys, List.getElem?_map, he, Option.map_some]
    simp [Sym.key, hs]
  have hid := hinv.ids _ _ hk
  dsimp only at hid
  rw [hid] at hk
  have := (hinv.full i w _ hk).2.1
  unfold Table.find
  rw [this]
  simp

theorem stored_zero (h : Room c L) (hb : Built n c) {u : List Op} (hu : Word n c L u) (h0 : (stored n c u).hash = 0) : stored n c u = HSeq.zero := by
  unfold stored at h0 ⊢
  cases hn : nf n c u with
  | none => rfl
  | some v =>
    rw [hn] at h0
    exact absurd h0 (h.ne ((normal_iff hb).mpr ⟨v, fun a ha => hu.1 a (nf_mem hn a ha), rfl, nf_idem hb hu.1 hn⟩ : Normal c _).1
      (by simpa using (nf_length hn).trans hu.2))

/-- Sequences of words with the same hash are the same. -/
theorem stored_hash (hb : Built n c) (h : Room c L) {u v : List Op} (hu : Word n c L u) (hv : Word n c L v)
    (e : (stored n c u).hash = (stored n c v).hash) : stored n c u = stored n c v := stored_same hb hu.1 hv.1 (stored_inj hb h hu hv e)

/-- What is found for the hash of a word is its symbol. -/
theorem Sound.holds (hb : Built n c) (h : Room c L) {t : Table} (ht : Sound n c L t) {u : List Op} (hu : Word n c L u) {k : Nat × Bool}
    (hk : t.find (stored n c u).hash = some k) : ∃ e, t.syms[k.1]? = some e ∧ e.seq = some (stored n c u) := by
  unfold Table.find at hk
  obtain ⟨i, hi, rfl⟩ := Option.map_eq_some_iff.mp hk
  obtain ⟨q, cq, h1, -, h2, h3⟩ := (ht.ready.fit (setting hb h)).inv.sound _ i hi
  rw [Table.keys, List.getElem?_map, Option.map_eq_some_iff] at h1
  obtain ⟨e, he, hkey⟩ := h1
  have hseq : e.seq = some q := by
    simp only [Sym.key, Prod.mk.injEq] at hkey
    exact hkey.2.1
  refine ⟨e, he, ?_⟩
  rcases (ht.kept e (List.mem_of_getElem? he)).2 with z | ⟨x, ⟨v, hv, rfl, -⟩, hxs, -⟩
  · rw [hseq, Option.some.injEq] at z
    subst z
    by_cases hp : 0 ≤ i
    · rw [hseq, stored_zero h hb hu (h2 hp).symm]
    · obtain ⟨a, b⟩ := h3 (by omega)
      rw [show (host c).env.conj HSeq.zero = _ from conj_zero rfl] at a
      exact absurd a b
  · rw [hseq, Option.some.injEq] at hxs
    subst hxs
    by_cases hp : 0 ≤ i
    · rw [hseq, stored_hash hb h hv hu (h2 hp)]
    · obtain ⟨a, -⟩ := h3 (by omega)
      rw [show (host c).env.conj (stored n c v) = _ from conj_stored hb h hv] at a
      rw [hseq, stored_hash hb h hv hu a]

/-! ## Changes of tables -/

/-- The creation of a matrix. -/
theorem Sound.matrix (hb : Built n c) (h : Room c L) {t : Table} (ht : Sound n c L t) {m : List Op} (hm : ∀ a ∈ m, Exists n c.infl a)
    {f : HSeq → HSeq → HSeq} (hf : C114.Middle n c m f) {us : List (List Op)} (hw : ∀ u ∈ us, (∀ a ∈ u, Exists n c.infl a) ∧ 2 * u.length + m.length ≤ L)
    {t' : Table} {M : Option MonoMat} (hc : createMatrix (host c) t f (us.map (stored n c)) = some (t', M)) : Sound n c L t' := by
  obtain ⟨hsa, app, hu⟩ := C114.used_words hb h hm hf hw
  refine ⟨.matrix ht.ready hu hc, ?_⟩
  obtain ⟨ids, k, hmerge⟩ := create_merge (host c) hc
  refine kept_mergeAll _ ht.kept (fun e he => ?_) hmerge
  unfold identify at he
  rcases List.mem_cons.mp he with rfl | he
  · exact kept_zero
  rcases List.mem_cons.mp he with rfl | he
  · exact kept_one
  rw [show (host c).canNonHerm = false from rfl, if_neg (by simp)] at he
  refine kept_scan _ _ (fun x hx => ?_) e he
  obtain ⟨_, ha0, _, hb0, rfl⟩ := C82.used_mem hsa (mem_visited hu.square hx)
  obtain ⟨a, ha, rfl⟩ := List.mem_map.mp ha0
  obtain ⟨b, hb', rfl⟩ := List.mem_map.mp hb0
  rw [app a ha b hb']
  exact canon_shown hb h (C114.word_in hm hw a ha b hb')

/-- A new word, in a context without aliases. -/
theorem Sound.seq (hb : Built n c) (h : Room c L) {t : Table} (ht : Sound n c L t) {u : List Op} (hu : Word n c L u) (hy : canHaveAliases c = false) {r}
    (hm : t.mergeSeq (env c) (stored n c u) = some r) (hr : Ready (host c) (IsSeq c L) r.1) : Sound n c L r.1 := by
  have hw : Canon n c L (stored n c u) := ⟨u, hu, rfl, by unfold shown; rw [show (env c).aliases = false from hy]; rfl⟩
  refine ⟨hr, ?_⟩
  unfold Table.mergeSeq at hm
  simp only [hw.plain, show (env c).aliases = false from hy, Bool.false_eq_true, if_false] at hm
  rw [hw.conj hb h] at hm
  exact kept_mergeSym (id := r.2.1) (b := r.2.2) ht.kept (kept_pair hw) hm

/-- A word that cannot be simplified as a moment is its own canonical moment. -/
theorem shown_fixed (hb : Built n c) {u : List Op} (hu : ∀ a ∈ u, Exists n c.infl a) (h : ((env c).aliases && (env c).canSimp (stored n c u)) = false) :
    shown c (stored n c u) = stored n c u := by
  unfold shown
  split
  · rename_i ha
    rw [ha, Bool.true_and] at h
    unfold stored at h ⊢
    cases hn : nf n c u with
    | none => simp only [env]; rw [asMoment.eq_def]; rfl
    | some v =>
      rw [hn] at h
      have hv : ∀ a ∈ v, Exists n c.infl a := fun a ha => hu a (nf_mem hn a ha)
      have h' : canBeSimplifiedAsMoment c (v.map (Inflation.enc c)) = false := h
      simp only [env]
      rw [asMoment.eq_def]
      dsimp only
      by_cases h1 : (v.map (Inflation.enc c)).isEmpty = true
      · rw [if_pos h1]; rfl
      · have hf : (findPermutation c (v.map (Inflation.enc c))).nonTrivial = false := by
          rw [← Bool.not_eq_true, flag_iff hb hv, ← alias_iff hb hv ha]
          simpa using h'
        rw [if_neg h1, if_pos (by rw [hf]; rfl)]
        rfl
  · rfl

/-- All words of a list. -/
theorem Sound.fill (hb : Built n c) (h : Room c L) {t : Table} (ht : Sound n c L t) {us : List (List Op)} (hu : ∀ u ∈ us, Word n c L u) :
    ∃ t' k, t.fill (env c) (us.map (stored n c)) = some (t', k) ∧ Sound n c L t' ∧ t.syms <+: t'.syms := by
  have hlegal : Symbols.Op.Legal (host c).env (IsSeq c L) (.fill (us.map (stored n c))) := by
    intro w hw
    obtain ⟨u, hx, rfl⟩ := List.mem_map.mp hw
    exact stored_seq hb (hu u hx)
  have hplain : PlainOp (host c).env (.fill (us.map (stored n c))) := by
    intro w hw _
    obtain ⟨u, hx, rfl⟩ := List.mem_map.mp hw
    exact stored_sign u
  have hkept : ∀ e ∈ (Symbols.fillMap (env c) (us.map (stored n c)) []).map Prod.snd, Kept n c L e := by
    intro e he
    obtain ⟨x, hx, rfl⟩ := List.mem_map.mp he
    rcases (Symbols.fillMap_spec (env c) (us.map (stored n c)) []).1 x hx with hx | ⟨w, hw, hx, -⟩
    · simp at hx
    · obtain ⟨u, hu', rfl⟩ := List.mem_map.mp hw
      unfold Symbols.fillEntry at hx
      split at hx
      · simp at hx
      · rename_i hcs
        rw [conj_stored hb h (hu u hu')] at hx
        simp only [if_true, Option.some.injEq] at hx
        rw [← hx]
        exact kept_seq ⟨u, hu u hu', rfl, shown_fixed hb (hu u hu').1 (by simpa using hcs)⟩
  have hex : ∃ r, t.fill (env c) (us.map (stored n c)) = some r := by
    obtain ⟨t', k, e, -⟩ := Symbols.fill_keys (words hb h) (ht.ready.fit (setting hb h)).inv hlegal
    exact ⟨_, e⟩
  obtain ⟨⟨t', k⟩, hr⟩ := hex
  have hr' := hr
  unfold Table.fill at hr'
  obtain ⟨⟨t1, ids, j⟩, hm, e⟩ := Option.map_eq_some_iff.mp hr'
  simp only [Prod.mk.injEq] at e
  obtain ⟨rfl, rfl⟩ := e
  exact ⟨t1, j, hr, ⟨.step ht.ready hlegal hplain (r := none) (by simp [Symbols.step, host, hr]), kept_mergeAll _ ht.kept hkept hm⟩, mergeAll_prefix _ hm⟩

theorem mergeSym_new {x : Env} {t t' : Table} {w : HSeq} {id : Nat} {b : Bool} (h : t.mergeSym x (Sym.ofSeq w) = some (t', id, b)) :
    ∀ i e, t.syms.length ≤ i → t'.syms[i]? = some e → e.seq = some w := by
  unfold Table.mergeSym at h
  split at h
  · simp at h
  · split at h
    · simp only [Option.map_eq_some_iff, Prod.mk.injEq] at h
      obtain ⟨_, -, rfl, -⟩ := h
      intro i e hi he
      rw [List.getElem?_eq_none hi] at he
      cases he
    · simp only [Option.some.injEq, Prod.mk.injEq] at h
      obtain ⟨rfl, -⟩ := h
      intro i e hi he
      rw [List.getElem?_append_right hi] at he
      have := List.mem_singleton.mp (List.mem_of_getElem? he)
      rw [this]
      rfl

/-- A single symbol for a canonical word. -/
theorem Sound.single (hb : Built n c) (h : Room c L) {t : Table} (ht : Sound n c L t) {w : HSeq} (hw : Canon n c L w) :
    ∃ t' id b, t.mergeSym (env c) (Sym.ofSeq w) = some (t', id, b) ∧ Sound n c L t' ∧ t.syms <+: t'.syms ∧ ∃ e, t'.syms[id]? = some e ∧ e.seq = some w := by
  have hS := setting hb h
  have hcj : ((env c).conj w).hash = w.hash := by rw [hw.conj hb h]
  have hprop : Symbols.Proper (env c) (IsSeq c L) (Sym.ofSeq w) w := Symbols.proper_ofSeq (hw.seq hb) hcj
  obtain ⟨t', id, b, h1, -, -, ⟨k, hk, hkid⟩, -⟩ := Symbols.mergeSym_keys hS.words (ht.ready.fit hS).inv hprop
  have h1 : t.mergeSym (env c) (Sym.ofSeq w) = some (t', id, b) := h1
  have hr : Ready (host c) (IsSeq c L) t' := .step ht.ready (o := .herm w) (r := some id) ⟨hw.seq hb, hcj⟩ hw.sign (by
    show (t.mergeSym (env c) (Sym.ofSeq w)).map _ = _
    rw [h1]
    rfl)
  have hs : Sound n c L t' := ⟨hr, kept_mergeSym ht.kept (kept_seq hw) h1⟩
  refine ⟨t', id, b, h1, hs, mergeSym_prefix h1, ?_⟩
  obtain ⟨u, hu, rfl, -⟩ := hw
  obtain ⟨e, he, hse⟩ := hs.holds hb h hu (k := (k.natAbs, decide (k < 0))) (by unfold Table.find; rw [hk]; rfl)
  exact ⟨e, hkid ▸ he, hse⟩

/-! ## Factors -/

/-- The word cannot be split into words that share no source. -/
def Whole (n : Causal) (g : List Op) : Prop := ∀ p q : List Op, (p ++ q).Perm g → p ≠ [] → q ≠ [] → ∃ a ∈ p, ∃ b ∈ q, Linked n a b

/-- The symbol of the table has the sequence. -/
def Has (t : Table) (k : Nat) (w : HSeq) : Prop := ∃ e, t.syms[k]? = some e ∧ e.seq = some w

theorem Has.stays {t t' : Table} {k : Nat} {w : HSeq} (h : Has t k w) (ht : t.syms <+: t'.syms) : Has t' k w := by
  obtain ⟨e, h1, h2⟩ := h
  exact ⟨e, get_prefix ht h1, h2⟩

/-- The symbols `l` are those of the factors of symbol `i`: zero is its own factor; otherwise the word of the symbol is a product of words that share no sources
and cannot be split any further, and the symbols have the canonical moments of these words. -/
def Splits (n : Causal) (c : Inflation.Ctx) (L : Nat) (t : Table) (i : Nat) (l : List Nat) : Prop :=
  (Has t i HSeq.zero ∧ l = [i]) ∨ ∃ gs ks, Has t i (stored n c gs.flatten) ∧ Word n c L gs.flatten ∧
    gs.Pairwise (fun g h => ∀ a ∈ g, ∀ b ∈ h, ¬ Linked n a b) ∧ (∀ g ∈ gs, Whole n g) ∧ l.Perm ks ∧
    List.Forall₂ (fun (g : List Op) (k : Nat) => Has t k (shown c (stored n c g))) gs ks

theorem Splits.stays {t t' : Table} {i : Nat} {l : List Nat} (h : Splits n c L t i l) (ht : t.syms <+: t'.syms) : Splits n c L t' i l := by
  rcases h with ⟨h1, h2⟩ | ⟨gs, ks, h1, h2, h3, h4, h5, h6⟩
  · exact .inl ⟨h1.stays ht, h2⟩
  · exact .inr ⟨gs, ks, h1.stays ht, h2, h3, h4, h5, h6.imp fun _ _ h => h.stays ht⟩

theorem canonicalMoment_eq : canonicalMoment c = shown c := rfl

theorem lookup_canon {t : Table} {w : HSeq} (hw : Canon n c L w) : (t.lookup (env c) w).1 = t.find w.hash := by
  obtain ⟨u, -, -, hs⟩ := hw
  unfold Table.lookup
  cases hf : t.find w.hash with
  | some r => rfl
  | none =>
    dsimp only
    split
    · rename_i ha
      have : (env c).simp w = w := (if_pos ha : shown c w = (env c).simp w).symm.trans hs
      simp [this]
    · rfl

theorem groups_stored (hb : Built n c) (h : Room c L) : ∀ {l : List (List Nat)} {gs : List (List Op)},
    l.map (simplify c) = gs.map (fun g => .word (g.map (Inflation.enc c))) → (∀ G ∈ l, C02.IsWord (operatorCount c) G ∧ G.length ≤ L) →
    (∀ g ∈ gs, nf n c g = some g) → l.map (sequence c) = gs.map (stored n c)
  | [], [], _, _, _ => rfl
  | [], _ :: _, e, _, _ => by simp at e
  | _ :: _, [], e, _, _ => by simp at e
  | G :: l, g :: gs, e, hl, hg => by
    simp only [List.map_cons, List.cons.injEq] at e ⊢
    obtain ⟨h1, h2⟩ := hl G List.mem_cons_self
    refine ⟨?_, groups_stored hb h e.2 (fun x hx => hl x (List.mem_cons_of_mem _ hx)) fun x hx => hg x (List.mem_cons_of_mem _ hx)⟩
    rw [Inflation.sequence, construct_word h _ _ h1 h2 e.1]
    unfold stored
    rw [hg g List.mem_cons_self]

theorem member_length {α : Type} {gs : List (List α)} {G : List α} (h : G ∈ gs) : G.length ≤ gs.flatten.length := by
  rw [List.length_flatten]
  exact List.single_le_sum (by simp) _ (List.mem_map_of_mem h)

/-- The factors of a word. -/
theorem factorSeqs_spec (hb : Built n c) (h : Room c L) {w : HSeq} (hw : Canon n c L w) (h0 : w ≠ HSeq.zero) : ∃ gs : List (List Op),
    factorSeqs c w = gs.map (stored n c) ∧ w = stored n c gs.flatten ∧ Word n c L gs.flatten ∧
    gs.Pairwise (fun g h => ∀ a ∈ g, ∀ b ∈ h, ¬ Linked n a b) ∧ ∀ g ∈ gs, Whole n g ∧ nf n c g = some g := by
  obtain ⟨u, hu, rfl, -⟩ := hw
  cases hn : nf n c u with
  | none => exact absurd (by unfold stored; rw [hn]) h0
  | some v =>
    have hv : ∀ a ∈ v, Exists n c.infl a := fun a ha => hu.1 a (nf_mem hn a ha)
    have hvn := nf_idem hb hu.1 hn
    have lv : v.length ≤ L := (nf_length hn).trans hu.2
    obtain ⟨gs, e1, e2, e3, e4, -, e6⟩ := factorize_spec hb hv hvn
    have es : stored n c u = ⟨hashWord (UInt64.ofNat (operatorCount c)) (v.map (Inflation.enc c)), v.map (Inflation.enc c), .pos⟩ := by unfold stored; rw [hn]
    have hfl : Word n c L gs.flatten := ⟨fun a ha => hv a (e2.mem_iff.mp ha), e2.length_eq.trans_le lv⟩
    refine ⟨gs, ?_, ?_, hfl, e3, fun g hg => ⟨e4 g hg, e6 g hg⟩⟩
    · unfold factorSeqs
      have ho : (stored n c u).ops = v.map (Inflation.enc c) := by rw [es]
      rw [ho]
      unfold factorize at e1
      split
      · rename_i hlen
        rw [if_pos hlen] at e1
        cases gs with
        | nil => simp at e1
        | cons g gs =>
          simp only [List.map_cons, List.cons.injEq, Outcome.word.injEq] at e1
          have e1' := List.map_eq_nil_iff.mp e1.2.symm
          subst e1'
          simp only [List.map_cons, List.map_nil, List.cons.injEq, and_true]
          rw [es]
          unfold stored
          rw [e6 g List.mem_cons_self, e1.1]
      · rename_i hlen
        rw [if_neg hlen] at e1
        obtain ⟨f1, -⟩ := factorGroups_spec c (v.map (Inflation.enc c))
        refine groups_stored hb h e1 (fun G hG => ⟨fun m hm => ?_, ?_⟩) e6
        · have := f1.mem_iff.mp (List.mem_flatten.mpr ⟨G, hG, hm⟩)
          obtain ⟨a, ha, rfl⟩ := List.mem_map.mp this
          exact enc_lt hb (hv a ha)
        · refine (member_length hG).trans ?_
          rw [f1.length_eq, List.length_map]
          exact lv
    · exact stored_same hb hu.1 hfl.1 ((hn ▸ nf_sound u : SameOperator n (some u) (some v)).trans (same_perm e2.symm))

theorem resolve_spec (hb : Built n c) (h : Room c L) : ∀ {gs : List (List Op)} {t : Table}, Sound n c L t → (∀ g ∈ gs, Word n c L g) →
    ∃ t' ks, resolve c t (gs.map (stored n c)) = some (t', ks) ∧ Sound n c L t' ∧ t.syms <+: t'.syms ∧
      List.Forall₂ (fun (g : List Op) (k : Nat) => Has t' k (shown c (stored n c g))) gs ks ∧
      ∀ i e, t.syms.length ≤ i → t'.syms[i]? = some e → ∃ g ∈ gs, e.seq = some (shown c (stored n c g))
  | [], t, ht, _ => ⟨t, [], rfl, ht, List.prefix_rfl, .nil, fun i e hi he => by rw [List.getElem?_eq_none hi] at he; cases he⟩
  | g :: gs, t, ht, hg => by
    have hgs := fun x hx => hg x (List.mem_cons_of_mem _ hx)
    have hcan := canon_shown hb h (hg g List.mem_cons_self)
    rw [List.map_cons, resolve, canonicalMoment_eq, lookup_canon hcan]
    cases hk : t.find (shown c (stored n c g)).hash with
    | some k =>
      obtain ⟨t', ks, h1, h2, h3, h4, h5⟩ := resolve_spec hb h ht hgs
      refine ⟨t', k.1 :: ks, by dsimp only; rw [h1]; rfl, h2, h3, .cons ?_ h4, fun i e hi he => ?_⟩
      · obtain ⟨v, hv, ev, -⟩ := hcan
        rw [ev] at hk ⊢
        exact Has.stays (ht.holds hb h hv hk) h3
      · obtain ⟨x, hx, hs⟩ := h5 i e hi he
        exact ⟨x, List.mem_cons_of_mem _ hx, hs⟩
    | none =>
      obtain ⟨t₁, id, b, m1, m2, m3, m4⟩ := ht.single hb h hcan
      obtain ⟨t', ks, h1, h2, h3, h4, h5⟩ := resolve_spec hb h m2 hgs
      refine ⟨t', id :: ks, by dsimp only; rw [m1, Option.bind_some]; dsimp only; rw [h1]; rfl, h2, m3.trans h3, .cons (Has.stays m4 h3) h4, fun i e hi he => ?_⟩
      by_cases hi' : i < t₁.syms.length
      · refine ⟨g, List.mem_cons_self, mergeSym_new m1 i e hi ?_⟩
        have e1 := get_prefix h3 (List.getElem?_eq_getElem hi')
        rw [he] at e1
        rw [List.getElem?_eq_getElem hi', e1]
      · obtain ⟨x, hx, hs⟩ := h5 i e (by omega) he
        exact ⟨x, List.mem_cons_of_mem _ hx, hs⟩

/-- The canonical moment of a word that cannot be split cannot be split. -/
theorem whole_shown (hb : Built n c) (h : Room c L) {g : List Op} (hg : Word n c L g) (hn : nf n c g = some g) (hw : Whole n g) :
    ∃ v, Word n c L v ∧ Whole n v ∧ shown c (stored n c g) = stored n c v ∧ shown c (stored n c v) = stored n c v := by
  by_cases hal : canHaveAliases c = true
  · have eg : ∀ x : List Op, nf n c x = some x → stored n c x = ⟨hashWord (UInt64.ofNat (operatorCount c)) (x.map (Inflation.enc c)), x.map (Inflation.enc c), .pos⟩ := by
      intro x hx
      unfold stored
      rw [hx]
    obtain ⟨fuel, v, σ, e1, e2, e3, e4, e5, e6, -⟩ := moment_spec hb g hg.1 hn
    have hv : Word n c L v := ⟨e4, by rw [e3.length_eq, List.length_map]; exact hg.2⟩
    have hsv : shown c (stored n c g) = stored n c v := by
      rw [show shown c (stored n c g) = (asMoment c (stored n c g)).getD (stored n c g) from if_pos hal]
      have := asMoment_word hb h fuel (stored n c g) (v.map (Inflation.enc c)) (by rw [eg g hn]; exact (normal_iff hb).mpr ⟨g, hg.1, rfl, hn⟩)
        (by rw [eg g hn]; simpa using hg.2) (by rw [eg g hn]; exact e1 fuel (Nat.le_refl _))
      rcases this with ⟨a1, a2⟩ | a2
      · rw [a2, Option.getD_some, eg v e5, a1, eg g hn]
      · rw [a2, Option.getD_some, eg v e5]
    obtain ⟨-, x, -, hx, -, h4, h5⟩ := shown_stored hb h hg
    refine ⟨v, hv, Inflation.Extend.connected_relabel e3 hw, hsv, ?_⟩
    rw [← hsv, h4, h5]
  · have : ∀ w, shown c w = w := fun w => if_neg (by simpa [env] using hal)
    exact ⟨g, hg, hw, this _, this _⟩

/-- A symbol that the loop over factors has made is its own factor. -/
theorem splits_new (hb : Built n c) (h : Room c L) {t : Table} {i : Nat} {g : List Op} (hg : Word n c L g) (hn : nf n c g = some g) (hw : Whole n g)
    (hi : Has t i (shown c (stored n c g))) : Splits n c L t i [i] := by
  obtain ⟨v, h1, h2, h3, h4⟩ := whole_shown hb h hg hn hw
  rw [h3] at hi
  refine .inr ⟨[v], [i], by simpa using hi, by simpa using h1, by simp, by simpa using h2, List.Perm.refl _, .cons ?_ .nil⟩
  rw [h4]
  exact hi

/-- Factor tables: all entries are right and sorted. -/
structure Factored (n : Causal) (c : Inflation.Ctx) (L : Nat) (S : State) : Prop where
  short : S.factors.length ≤ S.table.syms.length
  right : ∀ i l, S.factors[i]? = some l → Splits n c L S.table i l ∧ l.Pairwise (· ≤ ·)

theorem word_part {gs : List (List Op)} (h : Word n c L gs.flatten) {g : List Op} (hg : g ∈ gs) : Word n c L g :=
  ⟨fun a ha => h.1 a (List.mem_flatten.mpr ⟨g, hg, ha⟩), (member_length hg).trans h.2⟩

theorem analyse_spec (hb : Built n c) (h : Room c L) {S : State} (ht : Sound n c L S.table) {i : Nat} (hi : i < S.table.syms.length) :
    ∃ S' l, S.analyse c i = some S' ∧ Sound n c L S'.table ∧ S.table.syms <+: S'.table.syms ∧ S'.factors = S.factors ++ [l] ∧ Splits n c L S'.table i l ∧
      l.Pairwise (· ≤ ·) ∧ ∀ j, S.table.syms.length ≤ j → j < S'.table.syms.length → Splits n c L S'.table j [j] := by
  have he := List.getElem?_eq_getElem hi
  generalize S.table.syms[i] = e at he
  unfold State.analyse
  rw [he, Option.bind_some]
  have zero : e.seq = some HSeq.zero → ∃ S' l, (e.seq.bind fun w => (resolve c S.table (factorSeqs c w)).map fun r =>
      (⟨r.1, S.factors ++ [Inflation.Extend.sortNat r.2]⟩ : State)) = some S' ∧ Sound n c L S'.table ∧ S.table.syms <+: S'.table.syms ∧
      S'.factors = S.factors ++ [l] ∧ Splits n c L S'.table i l ∧ l.Pairwise (· ≤ ·) ∧
      ∀ j, S.table.syms.length ≤ j → j < S'.table.syms.length → Splits n c L S'.table j [j] := by
    intro hz
    have hf := ht.found hb h he hz
    have hr : resolve c S.table (factorSeqs c HSeq.zero) = some (S.table, [i]) := by
      have e1 : factorSeqs c HSeq.zero = [HSeq.zero] := if_pos (by simp [HSeq.zero])
      have e2 : (S.table.lookup (env c) HSeq.zero).1 = some (i, false) := by
        unfold Table.lookup
        rw [hf]
      rw [e1, resolve, canonicalMoment_eq, shown_zero, e2]
      rfl
    refine ⟨⟨S.table, S.factors ++ [[i]]⟩, [i], by rw [hz, Option.bind_some, hr]; rfl, ht, List.prefix_rfl, rfl, .inl ⟨⟨e, he, hz⟩, rfl⟩, by simp, ?_⟩
    intro j h1 h2
    exact absurd h2 (by simpa using h1)
  rcases (ht.kept e (List.mem_of_getElem? he)).2 with hz | ⟨w, hw, hs, -⟩
  · exact zero hz
  · by_cases h0 : w = HSeq.zero
    · exact zero (h0 ▸ hs)
    obtain ⟨gs, g1, g2, g3, g4, g5⟩ := factorSeqs_spec hb h hw h0
    obtain ⟨t', ks, r1, r2, r3, r4, r5⟩ := resolve_spec hb h ht fun g hg => word_part g3 hg
    refine ⟨⟨t', S.factors ++ [Inflation.Extend.sortNat ks]⟩, _, by rw [hs, Option.bind_some, g1, r1]; rfl, r2, r3, rfl, ?_, Inflation.Extend.sortNat_sorted ks, ?_⟩
    · exact .inr ⟨gs, ks, Has.stays ⟨e, he, g2 ▸ hs⟩ r3, g3, g4, fun g hg => (g5 g hg).1, Inflation.Extend.sortNat_perm ks, r4⟩
    · intro j h1 h2
      obtain ⟨g, hg, hgs⟩ := r5 j _ h1 (List.getElem?_eq_getElem h2)
      exact splits_new hb h (word_part g3 hg) (g5 g hg).2 (g5 g hg).1 ⟨_, List.getElem?_eq_getElem h2, hgs⟩

theorem analyseAll_spec (hb : Built n c) (h : Room c L) {N : Nat} : ∀ (k : Nat) {S : State}, Sound n c L S.table → S.factors.length + k = N → N ≤ S.table.syms.length →
    (∀ i l, S.factors[i]? = some l → Splits n c L S.table i l ∧ l.Pairwise (· ≤ ·)) → (∀ j, N ≤ j → j < S.table.syms.length → Splits n c L S.table j [j]) →
    ∃ S', (List.range' S.factors.length k).foldlM (State.analyse c) S = some S' ∧ Sound n c L S'.table ∧ S.table.syms <+: S'.table.syms ∧
      S.factors <+: S'.factors ∧ S'.factors.length = N ∧ (∀ i l, S'.factors[i]? = some l → Splits n c L S'.table i l ∧ l.Pairwise (· ≤ ·)) ∧
      ∀ j, N ≤ j → j < S'.table.syms.length → Splits n c L S'.table j [j]
  | 0, S, ht, h1, _, h3, h4 => ⟨S, rfl, ht, List.prefix_rfl, List.prefix_rfl, by omega, h3, h4⟩
  | k + 1, S, ht, h1, h2, h3, h4 => by
    obtain ⟨S₁, l, a1, a2, a3, a4, a5, a6, a7⟩ := analyse_spec hb h ht (i := S.factors.length) (by omega)
    have hlen : S₁.factors.length = S.factors.length + 1 := by rw [a4]; simp
    obtain ⟨S', b1, b2, b3, b4, b5, b6, b7⟩ := analyseAll_spec hb h (N := N) k a2 (by omega) (h2.trans a3.length_le) (fun i l' hl' => by
      rw [a4] at hl'
      by_cases hi : i < S.factors.length
      · rw [List.getElem?_append_left hi] at hl'
        exact ⟨(h3 i l' hl').1.stays a3, (h3 i l' hl').2⟩
      · rw [List.getElem?_append_right (by omega)] at hl'
        have hz : i - S.factors.length = 0 := by
          have := (List.getElem?_eq_some_iff.mp hl').1
          simpa using this
        have hi' : i = S.factors.length := by omega
        subst hi'
        simp only [Nat.sub_self, List.getElem?_cons_zero, Option.some.injEq] at hl'
        subst hl'
        exact ⟨a5, a6⟩) (fun j j1 j2 => by
      by_cases hj : j < S.table.syms.length
      · exact (h4 j j1 hj).stays a3
      · exact a7 j (by omega) j2)
    refine ⟨S', ?_, b2, a3.trans b3, (a4 ▸ List.prefix_append _ _).trans b4, b5, b6, b7⟩
    rw [List.range'_succ, List.foldlM_cons, a1, ← hlen]
    exact b1

/-- The factor table has an entry for each symbol. -/
def Complete (S : State) : Prop := S.factors.length = S.table.syms.length

theorem refresh_spec (hb : Built n c) (h : Room c L) {S : State} (ht : Sound n c L S.table) (hf : Factored n c L S) :
    ∃ S', S.refresh c = some S' ∧ Sound n c L S'.table ∧ S.table.syms <+: S'.table.syms ∧ S.factors <+: S'.factors ∧ Factored n c L S' ∧ Complete S' := by
  unfold State.refresh
  split
  · rename_i he
    exact ⟨S, rfl, ht, List.prefix_rfl, List.prefix_rfl, hf, he⟩
  · have hs := hf.short
    obtain ⟨S', b1, b2, b3, b4, b5, b6, b7⟩ := analyseAll_spec hb h (N := S.table.syms.length) (S.table.syms.length - S.factors.length) ht (by omega)
      (Nat.le_refl _) hf.right (fun j h1 h2 => by omega)
    have hl := b3.length_le
    refine ⟨⟨S'.table, S'.factors ++ (List.range' S.table.syms.length (S'.table.syms.length - S.table.syms.length)).map fun i => [i]⟩, by rw [b1]; rfl, b2, b3,
      b4.trans (List.prefix_append _ _), ⟨?_, ?_⟩, ?_⟩
    · simp only [List.length_append, List.length_map, List.length_range']
      omega
    · intro i l hl'
      dsimp only at hl'
      by_cases hi : i < S'.factors.length
      · rw [List.getElem?_append_left hi] at hl'
        exact b6 i l hl'
      · rw [List.getElem?_append_right (by omega), List.getElem?_map, Option.map_eq_some_iff] at hl'
        obtain ⟨j, hj, rfl⟩ := hl'
        obtain ⟨hlt, hj⟩ := List.getElem?_eq_some_iff.mp hj
        rw [List.getElem_range'] at hj
        rw [List.length_range'] at hlt
        have : j = i := by omega
        subst this
        exact ⟨b7 j (by omega) (by omega), by simp⟩
    · unfold Complete
      simp only [List.length_append, List.length_map, List.length_range']
      omega

theorem grow_spec (hb : Built n c) (h : Room c L) {S : State} (hf : Factored n c L S) {t : Table} (ht : Sound n c L t) (hp : S.table.syms <+: t.syms) :
    ∃ S', S.grow c t = some S' ∧ Sound n c L S'.table ∧ t.syms <+: S'.table.syms ∧ S.factors <+: S'.factors ∧ Factored n c L S' ∧ (Complete S → Complete S') := by
  have hf' : Factored n c L ⟨t, S.factors⟩ := ⟨hf.short.trans hp.length_le, fun i l hl => ⟨(hf.right i l hl).1.stays hp, (hf.right i l hl).2⟩⟩
  unfold State.grow
  split
  · obtain ⟨S', h1, h2, h3, h4, h5, h6⟩ := refresh_spec hb h (S := ⟨t, S.factors⟩) ht hf'
    exact ⟨S', h1, h2, h3, h4, h5, fun _ => h6⟩
  · rename_i hlt
    refine ⟨⟨t, S.factors⟩, rfl, ht, List.prefix_rfl, List.prefix_rfl, hf', fun hc => ?_⟩
    have := hp.length_le
    unfold Complete at hc ⊢
    dsimp only
    omega

theorem new_eq (c : Inflation.Ctx) : State.new c = some ⟨Table.new, [[0], [1]]⟩ := by
  have step : ∀ (i : Nat) (F : List (List Nat)) (w : HSeq), w.ops = [] → shown c w = w → ((Table.new.syms[i]?).bind Sym.seq) = some w → Table.new.find w.hash = some (i, false) →
      State.analyse c ⟨Table.new, F⟩ i = some ⟨Table.new, F ++ [[i]]⟩ := by
    intro i F w h1 h2 h3 h4
    obtain ⟨e, e1, e2⟩ := Option.bind_eq_some_iff.mp h3
    have hl : (Table.new.lookup (env c) w).1 = some (i, false) := by
      unfold Table.lookup
      rw [h4]
    have hfs : factorSeqs c w = [w] := if_pos (by simp [h1])
    unfold State.analyse
    rw [e1, Option.bind_some, e2, Option.bind_some, hfs, resolve, canonicalMoment_eq, h2, hl]
    rfl
  have s0 := step 0 [] HSeq.zero rfl (shown_zero c) (by rfl) (by decide)
  have s1 := step 1 [[0]] (HSeq.identity .pos) rfl (by
    unfold shown
    split
    · simp only [env]
      rw [asMoment.eq_def]
      rfl
    · rfl) (by rfl) (by decide)
  unfold State.new State.refresh
  rw [if_neg (by decide)]
  show ((List.range' 0 2).foldlM (State.analyse c) ⟨Table.new, []⟩).map _ = _
  rw [show List.range' 0 2 = [0, 1] from rfl, List.foldlM_cons, s0]
  show ((State.analyse c ⟨Table.new, [[0]]⟩ 1).bind _).map _ = _
  rw [s1]
  rfl

end Moment.InflationSystem
