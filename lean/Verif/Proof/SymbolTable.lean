import Mathlib.Tactic.Set
import Mathlib.Tactic.ByContra
import Mathlib.Order.Basic
import Mathlib.Tactic.Tauto
import Mathlib.Algebra.Order.Ring.Int
import Verif.Spec.SymbolTable

/-! # Invariants of the symbol table -/

namespace Moment.Symbols

theorem lookup_emplace (m : List (UInt64 × Int)) (k h : UInt64) (v : Int) :
    (emplace m k v).lookup h = if h = k ∧ m.lookup k = none then some v else m.lookup h := by
  unfold emplace
  by_cases hs : (m.lookup k).isSome
  · rw [if_pos hs, if_neg]
    rintro ⟨-, hn⟩
    simp [hn] at hs
  · have hn : m.lookup k = none := Option.not_isSome_iff_eq_none.mp hs
    rw [if_neg hs]
    by_cases hk : h = k
    · subst hk; simp [hn]
    · rw [if_neg (by tauto), List.lookup_cons]
      have : (h == k) = false := by simpa using hk
      rw [this]

/-- The part of a symbol that never changes: id, word and conjugate word. -/
abbrev Key := Nat × Option HSeq × Option HSeq

def Sym.key (s : Sym) : Key := (s.id, s.seq, s.conj)

def Table.keys (t : Table) : List Key := t.syms.map Sym.key

structure Inv (c : Env) (W : HSeq → Prop) (keys : List Key) (m : List (UInt64 × Int)) : Prop where
  ids : ∀ (i : Nat) (k : Key), keys[i]? = some k → k.1 = i
  zero : keys[0]? = some (0, some HSeq.zero, none)
  one : keys[1]? = some (1, some (HSeq.identity .pos), none)
  sound : ∀ (h : UInt64) (k : Int), m.lookup h = some k → ∃ q cq, keys[k.natAbs]? = some (k.natAbs, some q, cq) ∧ W q ∧
    (0 ≤ k → q.hash = h) ∧ (k < 0 → (c.conj q).hash = h ∧ q.hash ≠ h)
  full : ∀ (i : Nat) (q : HSeq) (cq : Option HSeq), keys[i]? = some (i, some q, cq) → W q ∧ m.lookup q.hash = some (i : Int) ∧
    m.lookup (c.conj q).hash = some (if (c.conj q).hash = q.hash then (i : Int) else -(i : Int)) ∧
    ∀ v, cq = some v → v.hash = (c.conj q).hash

/-- Keys are only appended and entries only added. -/
structure Ext (keys : List Key) (m : List (UInt64 × Int)) (keys' : List Key) (m' : List (UInt64 × Int)) : Prop where
  keys : ∀ (i : Nat) (k : Key), keys[i]? = some k → keys'[i]? = some k
  map : ∀ h k, m.lookup h = some k → m'.lookup h = some k

theorem Ext.refl (k m) : Ext k m k m := ⟨fun _ _ h => h, fun _ _ h => h⟩

theorem Ext.trans {k m k' m' k'' m''} (a : Ext k m k' m') (b : Ext k' m' k'' m'') : Ext k m k'' m'' :=
  ⟨fun i x h => b.keys i x (a.keys i x h), fun h x e => b.map h x (a.map h x e)⟩

theorem ext_append (keys : List Key) (m) (x : List Key) : Ext keys m (keys ++ x) m := by
  refine ⟨fun i k h => ?_, fun _ _ h => h⟩
  rw [List.getElem?_append_left (List.getElem?_eq_some_iff.mp h).1]; exact h

theorem inv_new (c : Env) (W) (hW : Words c W) : Inv c W Table.new.keys Table.new.hashes := by
  have hk : Table.new.keys = [(0, some HSeq.zero, none), (1, some (HSeq.identity .pos), none)] := rfl
  have hm : Table.new.hashes = [(1, 1), (0, 0)] := rfl
  rw [hk, hm]
  constructor
  · intro i k h
    match i with
    | 0 => simp at h; subst h; rfl
    | 1 => simp at h; subst h; rfl
    | i + 2 => simp at h
  · rfl
  · rfl
  · intro h k hl
    rw [List.lookup_cons] at hl
    by_cases h1 : h = 1
    · subst h1
      simp at hl
      subst hl
      exact ⟨_, _, rfl, hW.one.1, fun _ => rfl, fun h => by omega⟩
    · have : (h == 1) = false := by simpa using h1
      rw [this, List.lookup_cons] at hl
      by_cases h0 : h = 0
      · subst h0
        simp at hl
        subst hl
        exact ⟨_, _, rfl, hW.zero.1, fun _ => rfl, fun h => by omega⟩
      · have : (h == 0) = false := by simpa using h0
        rw [this] at hl
        simp at hl
  · intro i q cq h
    match i with
    | 0 =>
      simp at h
      obtain ⟨rfl, rfl⟩ := h
      refine ⟨hW.zero.1, rfl, ?_, by simp⟩
      rw [hW.zero.2]; rfl
    | 1 =>
      simp at h
      obtain ⟨rfl, rfl⟩ := h
      refine ⟨hW.one.1, rfl, ?_, by simp⟩
      rw [hW.one.2]; rfl
    | i + 2 => simp at h

theorem inv_append_none {c W keys m} (h : Inv c W keys m) : Inv c W (keys ++ [(keys.length, none, none)]) m := by
  have hlen : ∀ i k, keys[i]? = some k → i < keys.length := fun i k e => (List.getElem?_eq_some_iff.mp e).1
  have he := ext_append keys m [(keys.length, none, none)]
  constructor
  · intro i k e
    rw [List.getElem?_append] at e
    split at e
    · exact h.ids i k e
    · rename_i hi
      rcases Nat.lt_or_ge (i - keys.length) 1 with h1 | h1
      · have : i = keys.length := by omega
        subst this
        simp at e
        exact e ▸ rfl
      · rw [List.getElem?_eq_none (by simpa using h1)] at e
        simp at e
  · exact he.keys _ _ h.zero
  · exact he.keys _ _ h.one
  · intro x k e
    obtain ⟨q, cq, h1, h2⟩ := h.sound x k e
    exact ⟨q, cq, he.keys _ _ h1, h2⟩
  · intro i q cq e
    rw [List.getElem?_append] at e
    split at e
    · exact h.full i q cq e
    · rename_i hi
      rcases Nat.lt_or_ge (i - keys.length) 1 with h1 | h1
      · have : i = keys.length := by omega
        subst this
        simp at e
      · rw [List.getElem?_eq_none (by simpa using h1)] at e
        simp at e

/-- A symbol that may be merged: it has a word of the context and stores the hash of its conjugate. -/
structure Proper (c : Env) (W : HSeq → Prop) (e : Sym) (w : HSeq) : Prop where
  seq : e.seq = some w
  mem : W w
  conj : ∀ v, e.conj = some v → v.hash = (c.conj w).hash
  single : e.conj = none → (c.conj w).hash = w.hash
  herm : e.herm = true → (c.conj w).hash = w.hash

theorem Proper.hashConj {c W e w} (h : Proper c W e w) : e.hashConj w = (c.conj w).hash := by
  unfold Sym.hashConj
  cases hc : e.conj with
  | none => exact (h.single hc).symm
  | some v => exact h.conj v hc

/-- If the hash of a word is not in the table then neither is that of its conjugate. -/
theorem conj_absent {c W keys m} (hW : Words c W) (h : Inv c W keys m) {w : HSeq} (hw : W w) (hn : m.lookup w.hash = none) :
    m.lookup (c.conj w).hash = none := by
  cases hl : m.lookup (c.conj w).hash with
  | none => rfl
  | some k =>
    exfalso
    obtain ⟨q, cq, h1, hq, hp, hm⟩ := h.sound _ _ hl
    obtain ⟨-, f1, f2, -⟩ := h.full _ _ _ h1
    rcases lt_or_ge k 0 with hk | hk
    · obtain ⟨e, -⟩ := hm hk
      have := hW.hash _ _ (hW.conj _ hq) (hW.conj _ hw) e
      rw [hW.twice _ hq, hW.twice _ hw] at this
      rw [this, hn] at f1
      simp at f1
    · have e := hp hk
      have := hW.hash _ _ hq (hW.conj _ hw) e
      rw [hW.twice _ hw] at this
      rw [this, hn] at f2
      simp at f2

/-- What merging a symbol does to keys and hashes. -/
theorem mergeSym_keys {c W} (hW : Words c W) {t : Table} (h : Inv c W t.keys t.hashes) {e : Sym} {w : HSeq}
    (he : Proper c W e w) :
    ∃ t' id b, t.mergeSym c e = some (t', id, b) ∧ Inv c W t'.keys t'.hashes ∧
      Ext t.keys t.hashes t'.keys t'.hashes ∧ (∃ k, t'.hashes.lookup w.hash = some k ∧ k.natAbs = id) ∧
      (b = false → t' = t) ∧ (b = true → id = t.syms.length ∧ t.hashes.lookup w.hash = none) := by
  unfold Table.mergeSym
  rw [he.seq]
  dsimp only
  cases hl : t.hashes.lookup w.hash with
  | some k =>
    dsimp only
    obtain ⟨q, cq, h1, -, -, -⟩ := h.sound _ _ hl
    unfold Table.keys at h1
    rw [List.getElem?_map, Option.map_eq_some_iff] at h1
    obtain ⟨s, hs, hk⟩ := h1
    rw [hs]
    refine ⟨t, s.id, false, rfl, h, Ext.refl _ _, ⟨k, hl, ?_⟩, fun _ => rfl, by simp⟩
    have : s.id = k.natAbs := congrArg Prod.fst hk
    exact this.symm
  | none =>
    dsimp only
    have hca := conj_absent hW h he.mem hl
    rw [he.hashConj]
    generalize hsz : t.syms.length = n
    have hn : t.keys.length = n := by simp [Table.keys, hsz]
    -- the new map
    set m' := (if e.herm = true then emplace t.hashes w.hash n
      else emplace (emplace t.hashes w.hash n) (c.conj w).hash (-(n : Int))) with hm'
    have hlook : ∀ x, m'.lookup x = if x = w.hash then some (n : Int)
        else if x = (c.conj w).hash then some (-(n : Int)) else t.hashes.lookup x := by
      intro x
      rw [hm']
      split
      · rename_i hh
        rw [lookup_emplace]
        by_cases hx : x = w.hash
        · simp [hx, hl]
        · rw [if_neg (by tauto), if_neg hx, if_neg]
          rw [he.herm hh]; exact hx
      · rw [lookup_emplace, lookup_emplace, lookup_emplace]
        by_cases hx : x = w.hash
        · subst hx
          by_cases hc : (c.conj w).hash = w.hash
          · simp [hc, hl]
          · have hc' : w.hash ≠ (c.conj w).hash := fun h => hc h.symm
            simp [hc', hl]
        · rw [if_neg (show ¬ (x = w.hash ∧ _) by tauto), if_neg hx]
          by_cases hx2 : x = (c.conj w).hash
          · subst hx2
            simp [hx, hca]
          · rw [if_neg (by tauto), if_neg hx2]
    have hk' : ∀ a b, (t.syms ++ [{ e with seq := some w, id := n, re := a, im := b }]).map Sym.key =
        t.keys ++ [(n, some w, e.conj)] := by
      intro a b
      simp [Table.keys, Sym.key]
    refine ⟨_, n, true, rfl, ?_, ?_, ⟨n, ?_, by simp⟩, by simp, by simp⟩
    · show Inv c W (List.map Sym.key (_ ++ _)) m'
      rw [hk']
      have hlt : ∀ i k, t.keys[i]? = some k → i < n := fun i k e => hn ▸ (List.getElem?_eq_some_iff.mp e).1
      have hn2 : 2 ≤ n := hlt 1 _ h.one
      have hext := ext_append t.keys t.hashes [(n, some w, e.conj)]
      constructor
      · intro i k e'
        rw [List.getElem?_append] at e'
        split at e'
        · exact h.ids i k e'
        · rename_i hi
          rcases Nat.lt_or_ge (i - t.keys.length) 1 with h1 | h1
          · have : i = n := by omega
            subst this
            rw [hn] at e'
            simp at e'
            exact e' ▸ rfl
          · rw [List.getElem?_eq_none (by simpa using h1)] at e'
            simp at e'
      · exact hext.keys _ _ h.zero
      · exact hext.keys _ _ h.one
      · intro x k hx
        rw [hlook] at hx
        have hnew : (t.keys ++ [(n, some w, e.conj)])[n]? = some (n, some w, e.conj) := by
          rw [List.getElem?_append_right (by omega), hn]; simp
        split at hx
        · rename_i hxw
          simp at hx
          subst hx
          refine ⟨w, e.conj, by simpa using hnew, he.mem, fun _ => hxw.symm, fun h => by omega⟩
        · rename_i hxw
          split at hx
          · rename_i hxc
            simp at hx
            subst hx
            refine ⟨w, e.conj, by simpa using hnew, he.mem, fun h => by omega, fun _ => ⟨hxc.symm, fun h => hxw h.symm⟩⟩
          · obtain ⟨q, cq, h1, h2⟩ := h.sound _ _ hx
            exact ⟨q, cq, hext.keys _ _ h1, h2⟩
      · intro i q cq e'
        rw [List.getElem?_append] at e'
        split at e'
        · obtain ⟨g1, g2, g3, g4⟩ := h.full i q cq e'
          refine ⟨g1, ?_, ?_, g4⟩
          · rw [hlook, if_neg, if_neg]
            · exact g2
            · intro hx; rw [hx, hca] at g2; simp at g2
            · intro hx; rw [hx, hl] at g2; simp at g2
          · rw [hlook, if_neg, if_neg]
            · exact g3
            · intro hx; rw [hx, hca] at g3; simp at g3
            · intro hx; rw [hx, hl] at g3; simp at g3
        · rename_i hi
          rcases Nat.lt_or_ge (i - t.keys.length) 1 with h1 | h1
          · have : i = n := by omega
            subst this
            rw [hn] at e'
            simp at e'
            obtain ⟨rfl, rfl⟩ := e'
            refine ⟨he.mem, ?_, ?_, he.conj⟩
            · rw [hlook, if_pos rfl]
            · rw [hlook]
              split <;> simp
          · rw [List.getElem?_eq_none (by simpa using h1)] at e'
            simp at e'
    · show Ext _ _ (List.map Sym.key (_ ++ _)) m'
      rw [hk']
      refine ⟨(ext_append t.keys t.hashes _).keys, fun x k hx => ?_⟩
      rw [hlook, if_neg, if_neg]
      · exact hx
      · intro e'; rw [e', hca] at hx; simp at hx
      · intro e'; rw [e', hl] at hx; simp at hx
    · show m'.lookup _ = _
      rw [hlook, if_pos rfl]

theorem proper_ofPair {c W} (hW : Words c W) {w : HSeq} (hw : W w) :
    Proper c W (Sym.ofPair w (c.conj w)) { w with sign := .pos } := by
  have hs : (c.conj { w with sign := .pos }).hash = (c.conj w).hash := hW.hash _ _ (hW.sign _ hw) hw rfl
  refine ⟨rfl, hW.sign _ hw, ?_, ?_, ?_⟩
  · intro v hv
    simp only [Sym.ofPair, Option.some.injEq] at hv
    subst hv
    exact hs.symm
  · simp [Sym.ofPair]
  · intro hh
    rw [hs]
    simp only [Sym.ofPair, HSeq.compareSameNegation] at hh
    by_contra hne
    have : w.hash ≠ (c.conj w).hash := fun h => hne h.symm
    simp [this] at hh

theorem proper_ofSeq {c W} {w : HSeq} (hw : W w) (h : (c.conj w).hash = w.hash) : Proper c W (Sym.ofSeq w) w :=
  ⟨rfl, hw, by simp [Sym.ofSeq], fun _ => h, fun _ => h⟩

theorem create_keys {c W} {t : Table} (h : Inv c W t.keys t.hashes) (r i : Bool) :
    Inv c W (t.create r i).1.keys (t.create r i).1.hashes ∧ Ext t.keys t.hashes (t.create r i).1.keys (t.create r i).1.hashes := by
  have : (t.create r i).1.keys = t.keys ++ [(t.keys.length, none, none)] := by
    simp [Table.create, Table.keys, Sym.key]
  rw [this]
  exact ⟨inv_append_none h, ext_append _ _ _⟩

theorem createMany_keys {c W} (r i : Bool) : ∀ (n : Nat) {t : Table}, Inv c W t.keys t.hashes →
    Inv c W (t.createMany r i n).keys (t.createMany r i n).hashes ∧
      Ext t.keys t.hashes (t.createMany r i n).keys (t.createMany r i n).hashes
  | 0, t, h => ⟨h, Ext.refl _ _⟩
  | n + 1, t, h => by
    obtain ⟨h1, e1⟩ := create_keys h r i
    obtain ⟨h2, e2⟩ := createMany_keys r i n h1
    exact ⟨h2, e1.trans e2⟩

theorem flagLoop_keys (re im : Nat → Bool) : ∀ l ch, (flagLoop re im l ch).1.map Sym.key = l.map Sym.key
  | [], ch => rfl
  | s :: l, ch => by
    unfold flagLoop
    split
    · simp [flagLoop_keys re im l, Sym.key]
    · split
      · split
        · simp [flagLoop_keys re im l]
        · dsimp only
          split
          · simp [Sym.key]
          · simp [flagLoop_keys re im l, Sym.key]
      · split
        · dsimp only
          split
          · simp [Sym.key]
          · simp [flagLoop_keys re im l, Sym.key]
        · rfl

theorem renumLoop_keys : ∀ l b, (renumLoop l b).1.map Sym.key = l.map Sym.key
  | [], b => rfl
  | s :: l, b => by simp [renumLoop, renumLoop_keys l, Sym.key]

theorem mergeBits_keys {c W} {t : Table} (h : Inv c W t.keys t.hashes) {n re im f} (hf : t.mergeBits n re im = some f) :
    ∃ t', (f = .thrown t' (match f with | .thrown _ i => i | _ => 0) ∨ f = .done t' (match f with | .done _ b => b | _ => false)) ∧
      Inv c W t'.keys t'.hashes ∧ Ext t.keys t.hashes t'.keys t'.hashes := by
  unfold Table.mergeBits at hf
  dsimp only at hf
  set t1 := (if t.syms.length < n then t.createMany true true (n - t.syms.length) else t) with ht1
  have h1 : Inv c W t1.keys t1.hashes ∧ Ext t.keys t.hashes t1.keys t1.hashes := by
    rw [ht1]; split
    · exact createMany_keys _ _ _ h
    · exact ⟨h, Ext.refl _ _⟩
  split at hf
  · simp at hf
  · split at hf
    · simp at hf
      subst hf
      refine ⟨_, Or.inl rfl, ?_⟩
      have : Table.keys { t1 with syms := (flagLoop re im t1.syms false).1 } = t1.keys := flagLoop_keys _ _ _ _
      rw [this]; exact h1
    · simp at hf
      subst hf
      refine ⟨_, Or.inr rfl, ?_⟩
      have : Table.keys (Table.renumerate { t1 with syms := (flagLoop re im t1.syms false).1 }) = t1.keys := by
        show List.map Sym.key (renumLoop _ _).1 = _
        rw [renumLoop_keys]; exact flagLoop_keys _ _ _ _
      rw [this]; exact h1

theorem mergeAll_keys {c W} (hW : Words c W) : ∀ (l : List Sym) {t : Table}, Inv c W t.keys t.hashes →
    (∀ e ∈ l, ∃ w, Proper c W e w) →
    ∃ t' ids n, t.mergeAll c l = some (t', ids, n) ∧ Inv c W t'.keys t'.hashes ∧ Ext t.keys t.hashes t'.keys t'.hashes ∧
      ∀ e ∈ l, ∀ w, e.seq = some w → (t'.hashes.lookup w.hash).isSome
  | [], t, h, _ => ⟨t, [], 0, rfl, h, Ext.refl _ _, by simp⟩
  | e :: l, t, h, hp => by
    obtain ⟨w, hw⟩ := hp e (by simp)
    obtain ⟨t1, id, b, e1, i1, x1, ⟨k, hk, -⟩, -, -⟩ := mergeSym_keys hW h hw
    obtain ⟨t2, ids, n, e2, i2, x2, f2⟩ := mergeAll_keys hW l i1 (fun e' he' => hp e' (by simp [he']))
    refine ⟨t2, id :: ids, n + (if b then 1 else 0), ?_, i2, x1.trans x2, ?_⟩
    · simp [Table.mergeAll, e1, e2]
    · intro e' he' w' hw'
      rcases List.mem_cons.mp he' with rfl | he'
      · have := hw.seq
        rw [hw'] at this
        simp at this
        subst this
        simp [x2.map _ _ hk]
      · exact f2 e' he' w' hw'

theorem mem_putAsc (k : UInt64) (e : Sym) : ∀ (m : List (UInt64 × Sym)) (p : UInt64 × Sym), p ∈ putAsc k e m → p = (k, e) ∨ p ∈ m
  | [], p, h => by simpa [putAsc] using h
  | q :: l, p, h => by
    unfold putAsc at h
    split at h
    · simpa using h
    · split at h
      · exact Or.inr h
      · rcases List.mem_cons.mp h with rfl | h
        · simp
        · rcases mem_putAsc k e l p h with h | h
          · exact Or.inl h
          · exact Or.inr (by simp [h])

theorem putAsc_keys (k : UInt64) (e : Sym) : ∀ (m : List (UInt64 × Sym)),
    (∃ p ∈ putAsc k e m, p.1 = k) ∧ ∀ p ∈ m, ∃ q ∈ putAsc k e m, q.1 = p.1
  | [] => ⟨⟨(k, e), by simp [putAsc], rfl⟩, by simp⟩
  | q :: l => by
    unfold putAsc
    split
    · exact ⟨⟨(k, e), by simp, rfl⟩, fun p hp => ⟨p, by simp at hp ⊢; tauto, rfl⟩⟩
    · split
      · rename_i h
        exact ⟨⟨q, by simp, h.symm⟩, fun p hp => ⟨p, hp, rfl⟩⟩
      · obtain ⟨⟨p, h1, h2⟩, h3⟩ := putAsc_keys k e l
        refine ⟨⟨p, by simp [h1], h2⟩, fun p' hp' => ?_⟩
        rcases List.mem_cons.mp hp' with rfl | hp'
        · exact ⟨p', by simp, rfl⟩
        · obtain ⟨r, hr, hr'⟩ := h3 p' hp'
          exact ⟨r, by simp [hr], hr'⟩

theorem fillMap_spec (c : Env) : ∀ (l : List HSeq) (m : List (UInt64 × Sym)),
    (∀ p ∈ fillMap c l m, p ∈ m ∨ ∃ w ∈ l, fillEntry c w = some p.2 ∧ p.1 = w.hash) ∧
    (∀ p ∈ m, ∃ q ∈ fillMap c l m, q.1 = p.1) ∧
    (∀ w ∈ l, (fillEntry c w).isSome → ∃ q ∈ fillMap c l m, q.1 = w.hash)
  | [], m => ⟨fun p hp => Or.inl hp, fun p hp => ⟨p, hp, rfl⟩, by simp⟩
  | w :: l, m => by
    unfold fillMap
    cases he : fillEntry c w with
    | none =>
      dsimp only
      obtain ⟨a, b, d⟩ := fillMap_spec c l m
      refine ⟨fun p hp => ?_, b, ?_⟩
      · rcases a p hp with h | ⟨v, hv, h⟩
        · exact Or.inl h
        · exact Or.inr ⟨v, by simp [hv], h⟩
      · intro v hv hs
        rcases List.mem_cons.mp hv with rfl | hv
        · simp [he] at hs
        · exact d v hv hs
    | some e =>
      dsimp only
      obtain ⟨a, b, d⟩ := fillMap_spec c l (putAsc w.hash e m)
      obtain ⟨k1, k2⟩ := putAsc_keys w.hash e m
      refine ⟨fun p hp => ?_, fun p hp => ?_, ?_⟩
      · rcases a p hp with h | ⟨v, hv, h⟩
        · rcases mem_putAsc _ _ _ _ h with rfl | h
          · exact Or.inr ⟨w, by simp, he, rfl⟩
          · exact Or.inl h
        · exact Or.inr ⟨v, by simp [hv], h⟩
      · obtain ⟨q, hq, hq'⟩ := k2 p hp
        obtain ⟨q2, h2, h2'⟩ := b q hq
        exact ⟨q2, h2, h2'.trans hq'⟩
      · intro v hv hs
        rcases List.mem_cons.mp hv with rfl | hv
        · obtain ⟨q, hq, hq'⟩ := k1
          obtain ⟨q2, h2, h2'⟩ := b q hq
          exact ⟨q2, h2, h2'.trans hq'⟩
        · exact d v hv hs

theorem proper_fillEntry {c W} (hW : Words c W) {w : HSeq} (hw : W w) {e : Sym} (he : fillEntry c w = some e) :
    ∃ v, Proper c W e v ∧ v.hash = w.hash := by
  unfold fillEntry at he
  split at he
  · simp at he
  · dsimp only at he
    split at he
    · rename_i h
      simp at he
      subst he
      exact ⟨w, proper_ofSeq hw h.symm, rfl⟩
    · split at he
      · simp at he
        subst he
        exact ⟨_, proper_ofPair hW hw, rfl⟩
      · simp at he

theorem fill_keys {c W} (hW : Words c W) {t : Table} (h : Inv c W t.keys t.hashes) {ws : List HSeq} (hws : ∀ w ∈ ws, W w) :
    ∃ t' n, t.fill c ws = some (t', n) ∧ Inv c W t'.keys t'.hashes ∧ Ext t.keys t.hashes t'.keys t'.hashes ∧
      ∀ w ∈ ws, (fillEntry c w).isSome → (t'.hashes.lookup w.hash).isSome := by
  obtain ⟨a, -, d⟩ := fillMap_spec c ws []
  have hp : ∀ e ∈ (fillMap c ws []).map Prod.snd, ∃ w, Proper c W e w := by
    intro e he
    obtain ⟨p, hp, rfl⟩ := List.mem_map.mp he
    rcases a p hp with h | ⟨w, hw, h, -⟩
    · simp at h
    · obtain ⟨v, hv, -⟩ := proper_fillEntry hW (hws w hw) h
      exact ⟨v, hv⟩
  obtain ⟨t', ids, n, e1, i1, x1, f1⟩ := mergeAll_keys hW _ h hp
  refine ⟨t', n, by simp [Table.fill, e1], i1, x1, fun w hw hs => ?_⟩
  obtain ⟨q, hq, hq'⟩ := d w hw hs
  rcases a q hq with h | ⟨v, hv, h, hv'⟩
  · simp at h
  · obtain ⟨u, hu, hu'⟩ := proper_fillEntry hW (hws v hv) h
    have := f1 q.2 (List.mem_map_of_mem hq) u hu.seq
    rwa [hu', ← hv', hq'] at this

/-- The word an operation looks up, if it does. -/
theorem step_keys {c W} (hW : Words c W) {t : Table} (h : Inv c W t.keys t.hashes) {o : Op} (ho : o.Legal c W) {r}
    (hr : step c t o = some r) :
    Inv c W r.1.keys r.1.hashes ∧ Ext t.keys t.hashes r.1.keys r.1.hashes ∧
      ∀ w, o.Asks c w → ∃ k, r.1.hashes.lookup w.hash = some k ∧ r.2 = some k.natAbs := by
  cases o with
  | create a b =>
    simp only [step, Option.some.injEq] at hr
    subst hr
    exact ⟨(create_keys h a b).1, (create_keys h a b).2, fun w hw => hw.elim⟩
  | createMany n a b =>
    simp only [step, Option.some.injEq] at hr
    subst hr
    exact ⟨(createMany_keys a b n h).1, (createMany_keys a b n h).2, fun w hw => hw.elim⟩
  | seq w =>
    have hw : W (if c.aliases then c.simp { w with sign := .pos } else { w with sign := .pos }) := by
      have ho : W (if c.aliases then c.simp { w with sign := .pos } else w) := ho
      split at ho
      · rw [if_pos (by assumption)]; exact ho
      · rw [if_neg (by assumption)]; exact hW.sign _ ho
    obtain ⟨t', id, b, e1, i1, x1, ⟨k, hk, hk'⟩, -, -⟩ := mergeSym_keys hW h (proper_ofPair hW hw)
    simp only [step, Table.mergeSeq, e1, Option.map_some, Option.some.injEq] at hr
    subst hr
    refine ⟨i1, x1, fun v hv => ⟨k, ?_, by rw [hk']⟩⟩
    have : v.hash = (if c.aliases then c.simp { w with sign := .pos } else { w with sign := .pos }).hash := by
      have hv : v = _ := hv
      rw [hv]; split <;> rfl
    rw [this]; exact hk
  | pair w =>
    obtain ⟨t', id, b, e1, i1, x1, ⟨k, hk, hk'⟩, -, -⟩ := mergeSym_keys hW h (proper_ofPair hW ho)
    simp only [step, e1, Option.map_some, Option.some.injEq] at hr
    subst hr
    refine ⟨i1, x1, fun v hv => ⟨k, ?_, by rw [hk']⟩⟩
    have hv : v = w := hv
    rw [hv]; exact hk
  | herm w =>
    obtain ⟨t', id, b, e1, i1, x1, ⟨k, hk, hk'⟩, -, -⟩ := mergeSym_keys hW h (proper_ofSeq ho.1 ho.2)
    simp only [step, e1, Option.map_some, Option.some.injEq] at hr
    subst hr
    refine ⟨i1, x1, fun v hv => ⟨k, ?_, by rw [hk']⟩⟩
    have hv : v = w := hv
    rw [hv]; exact hk
  | fill ws =>
    obtain ⟨t', n, e1, i1, x1, -⟩ := fill_keys hW h (ws := ws) ho
    simp only [step, e1, Option.map_some, Option.some.injEq] at hr
    subst hr
    exact ⟨i1, x1, fun w hw => hw.elim⟩
  | bits n re im =>
    simp only [step, Option.map_eq_some_iff] at hr
    obtain ⟨f, hf, rfl⟩ := hr
    obtain ⟨t', hf', i1, x1⟩ := mergeBits_keys h hf
    refine ⟨?_, ?_, fun w hw => hw.elim⟩ <;>
    · rcases hf' with hf' | hf' <;> rw [hf'] <;> assumption

theorem run_keys {c W} (hW : Words c W) : ∀ (l : List Op) {t : Table}, Inv c W t.keys t.hashes → (∀ o ∈ l, o.Legal c W) →
    ∀ {t'}, run c t l = some t' → Inv c W t'.keys t'.hashes ∧ Ext t.keys t.hashes t'.keys t'.hashes
  | [], t, h, _, t', hr => by
    simp only [run, Option.some.injEq] at hr
    subst hr
    exact ⟨h, Ext.refl _ _⟩
  | o :: l, t, h, ho, t', hr => by
    simp only [run, Option.bind_eq_some_iff] at hr
    obtain ⟨r, h1, h2⟩ := hr
    obtain ⟨i1, x1, -⟩ := step_keys hW h (ho o (by simp)) h1
    obtain ⟨i2, x2⟩ := run_keys hW l i1 (fun o' h' => ho o' (by simp [h'])) h2
    exact ⟨i2, x1.trans x2⟩

end Moment.Symbols
