import Verif.Proof.SymbolBasis
import Verif.Props.C02_Hash

/-! # C27, C63, C64: the symbol table

`Words c W` collects what a context must provide: a set `W` of words closed under conjugation and change of sign on which the hash of
the conjugate depends on the hash only. `words_free` shows that all words of bounded length over a free alphabet are such a set. -/

namespace Moment.C27
open Moment.Symbols

/-! ## An instance: free words -/

/-- The context without rewriting rules over `r` letters (any vector storage), as the table sees it. -/
def freeEnv (r : Nat) : Env where
  conj := HSeq.conjugate { radix := r, simplify := fun w g => some (w, g) } false
  null _ := (false, false)
  aliases := false
  simp := id
  canSimp _ := false

/-- Zero, or a word of at most `L` letters with its hash. -/
def FreeWord (r L : Nat) (w : HSeq) : Prop :=
  (w.hash = 0 ∧ w.ops = []) ∨ (w.hash = hashWord (UInt64.ofNat r) w.ops ∧ C02.IsWord r w.ops ∧ w.ops.length ≤ L)

theorem words_free (r L : Nat) (hr : r < 2 ^ 64) (hL : (∑ k ∈ Finset.range (L + 1), r ^ k) < 2 ^ 64) :
    Words (freeEnv r) (FreeWord r L) := by
  have inj := C02.C02_hash_shortlex_partial r L hr hL
  have hnil : C02.IsWord r [] := by simp [C02.IsWord]
  have hrev : ∀ {w}, C02.IsWord r w → C02.IsWord r w.reverse := fun h o ho => h o (List.mem_reverse.mp ho)
  have cj0 : ∀ w : HSeq, w.hash = 0 → (freeEnv r).conj w = HSeq.zero := by
    intro w h
    simp [freeEnv, HSeq.conjugate, HSeq.isZero, h]
  have cj1 : ∀ w : HSeq, w.hash ≠ 0 → C02.IsWord r w.ops → w.ops.length ≤ L →
      (freeEnv r).conj w = ⟨hashWord (UInt64.ofNat r) w.ops.reverse, w.ops.reverse, w.sign.conj⟩ := by
    intro w h h1 h2
    have hz := (inj _ _ (hrev h1) (hrev h1) (by simpa using h2) (by simpa using h2)).2.2.1
    simp [freeEnv, HSeq.conjugate, HSeq.isZero, h, HSeq.construct, HSeq.toCanonical, HSeq.ctxHash, HSeq.hashOps, HSeq.movedFrom, hz]
  have ne0 : ∀ w : List Nat, C02.IsWord r w → w.length ≤ L → hashWord (UInt64.ofNat r) w ≠ 0 :=
    fun w h h' => (inj _ _ h h h' h').2.2.1
  constructor
  · exact ⟨Or.inl ⟨rfl, rfl⟩, by rw [cj0 _ rfl]; rfl⟩
  · refine ⟨Or.inr ⟨rfl, hnil, Nat.zero_le _⟩, ?_⟩
    rw [cj1 _ (by simp [HSeq.identity]) hnil (Nat.zero_le _)]
    rfl
  · rintro w (⟨h, -⟩ | ⟨h, h1, h2⟩)
    · rw [cj0 _ h]; exact Or.inl ⟨rfl, rfl⟩
    · rw [cj1 _ (h ▸ ne0 _ h1 h2) h1 h2]
      exact Or.inr ⟨rfl, hrev h1, by simpa using h2⟩
  · rintro w (h | h)
    · exact Or.inl h
    · exact Or.inr h
  · rintro w (⟨h, -⟩ | ⟨h, h1, h2⟩)
    · rw [cj0 _ h, cj0 _ rfl, h]; rfl
    · rw [cj1 _ (h ▸ ne0 _ h1 h2) h1 h2, cj1 _ (ne0 _ (hrev h1) (by simpa using h2)) (hrev h1) (by simpa using h2), h]
      simp
  · rintro w v (⟨h, -⟩ | ⟨h, h1, h2⟩) (⟨g, -⟩ | ⟨g, g1, g2⟩) e
    · rw [cj0 _ h, cj0 _ g]
    · exact absurd (g ▸ e ▸ h) (ne0 _ g1 g2)
    · exact absurd (h ▸ e.symm ▸ g) (ne0 _ h1 h2)
    · rw [h, g] at e
      have := (inj _ _ h1 g1 h2 g2).1.mp e
      rw [cj1 _ (h ▸ ne0 _ h1 h2) h1 h2, cj1 _ (g ▸ ne0 _ g1 g2) g1 g2, this]

/-- The words over three letters of length at most four. -/
example : Words (freeEnv 3) (FreeWord 3 4) := words_free 3 4 (by norm_num) (by decide)

/-! ## C27 -/

/-- A word registered by any operation, at any time, is found afterwards (whatever else happens, exceptions included) under the id
that was returned, and its conjugate under the same id; exactly one of the two is reported as conjugated, unless the word and its
conjugate have the same hash. -/
theorem C27_found {c : Env} {W : HSeq → Prop} (hW : Words c W) (before after : List Op) (o : Op) (w : HSeq)
    (hb : ∀ x ∈ before, x.Legal c W) (ho : o.Legal c W) (ha : ∀ x ∈ after, x.Legal c W) (hw : o.Asks c w) (hwW : W w)
    {t1 t2 t3 : Table} {ret : Option Nat} (h1 : run c Table.new before = some t1) (h2 : step c t1 o = some (t2, ret))
    (h3 : run c t2 after = some t3) :
    ∃ id b, ret = some id ∧ t3.find w.hash = some (id, b) ∧
      t3.find (c.conj w).hash = some (id, if (c.conj w).hash = w.hash then b else !b) ∧
      ((c.conj w).hash = w.hash → b = false) := by
  obtain ⟨i1, -⟩ := run_keys hW before (inv_new c W hW) hb h1
  obtain ⟨i2, -, a2⟩ := step_keys hW i1 ho h2
  obtain ⟨i3, x3⟩ := run_keys hW after i2 ha h3
  obtain ⟨k, hk, hret⟩ := a2 w hw
  have hk3 := x3.map _ _ hk
  obtain ⟨q, cq, hq, hqW, hp, hn⟩ := i3.sound _ _ hk3
  obtain ⟨-, f1, f2, -⟩ := i3.full _ _ _ hq
  refine ⟨k.natAbs, decide (k < 0), hret, by simp [Table.find, hk3], ?_, ?_⟩
  · rcases lt_or_ge k 0 with hk0 | hk0
    · obtain ⟨e1, e2⟩ := hn hk0
      have e3 := hW.hash _ _ (hW.conj _ hqW) hwW e1
      rw [hW.twice _ hqW] at e3
      have hne : (c.conj w).hash ≠ w.hash := by rw [← e3]; exact e2
      rw [if_neg hne, ← e3]
      unfold Table.find
      rw [f1]
      have : ¬ ((k.natAbs : Int) < 0) := by omega
      simp only [Option.map_some, Int.natAbs_natCast, this, hk0, decide_true, decide_false, Bool.not_true]
    · have e1 := hp hk0
      have e3 := hW.hash _ _ hqW hwW e1
      rw [e3, e1] at f2
      unfold Table.find
      rw [f2]
      have hk' : ¬ k < 0 := by omega
      by_cases hne : (c.conj w).hash = w.hash
      · have : ¬ ((k.natAbs : Int) < 0) := by omega
        simp only [if_pos hne, Option.map_some, Int.natAbs_natCast, this, hk', decide_false]
      · simp only [if_neg hne, Option.map_some, Option.some.injEq, Prod.mk.injEq, Int.natAbs_neg, Int.natAbs_natCast, true_and]
        have hne0 : k.natAbs ≠ 0 := by
          intro h0
          rw [h0] at hq
          have := i3.zero
          rw [hq] at this
          simp only [Option.some.injEq, Prod.mk.injEq] at this
          have hq0 : q = HSeq.zero := this.2.1
          subst hq0
          rw [hW.zero.2] at e3
          exact hne (e3.symm.trans e1)
        simp [hk']
        omega
  · intro he
    rw [decide_eq_false_iff_not]
    intro hk0
    obtain ⟨e1, e2⟩ := hn hk0
    have e3 := hW.hash _ _ (hW.conj _ hqW) hwW e1
    rw [hW.twice _ hqW, he] at e3
    exact e2 e3

/-- A lookup is never wrong: what is found under a hash is a symbol whose id is its position and whose word, or the conjugate of
whose word if reported as conjugated, has that hash. -/
theorem C27_sound {c : Env} {W : HSeq → Prop} (hW : Words c W) (l : List Op) (hl : ∀ x ∈ l, x.Legal c W) {t : Table}
    (ht : run c Table.new l = some t) {h : UInt64} {id : Nat} {b : Bool} (hf : t.find h = some (id, b)) :
    ∃ s q, t.syms[id]? = some s ∧ s.id = id ∧ s.seq = some q ∧ (if b then (c.conj q).hash = h else q.hash = h) := by
  obtain ⟨i1, -⟩ := run_keys hW l (inv_new c W hW) hl ht
  unfold Table.find at hf
  simp only [Option.map_eq_some_iff, Prod.mk.injEq] at hf
  obtain ⟨k, hk, rfl, rfl⟩ := hf
  obtain ⟨q, cq, hq, -, hp, hn⟩ := i1.sound _ _ hk
  unfold Table.keys at hq
  rw [List.getElem?_map, Option.map_eq_some_iff] at hq
  obtain ⟨s, hs, hs'⟩ := hq
  simp only [Sym.key, Prod.mk.injEq] at hs'
  refine ⟨s, q, hs, hs'.1, hs'.2.1, ?_⟩
  by_cases hk0 : k < 0
  · simpa [hk0] using (hn hk0).1
  · simpa [hk0] using hp (by omega)

/-- No two symbols share a word, nor does one have the conjugate of the other's word. -/
theorem C27_unique {c : Env} {W : HSeq → Prop} (hW : Words c W) (l : List Op) (hl : ∀ x ∈ l, x.Legal c W) {t : Table}
    (ht : run c Table.new l = some t) {i j : Nat} {s s' : Sym} {q q' : HSeq} (hi : t.syms[i]? = some s) (hj : t.syms[j]? = some s')
    (hs : s.seq = some q) (hs' : s'.seq = some q') (h : q.hash = q'.hash ∨ q.hash = (c.conj q').hash) : i = j := by
  obtain ⟨i1, -⟩ := run_keys hW l (inv_new c W hW) hl ht
  have key : ∀ {i : Nat} {s : Sym} {q : HSeq}, t.syms[i]? = some s → s.seq = some q → t.keys[i]? = some (i, some q, s.conj) := by
    intro i s q h1 h2
    have : t.keys[i]? = some s.key := by simp [Table.keys, h1]
    have e := i1.ids _ _ this
    rw [this]
    simp only [Sym.key] at e ⊢
    rw [e, h2]
  obtain ⟨-, a, -, -⟩ := i1.full _ _ _ (key hi hs)
  obtain ⟨-, b, b', -⟩ := i1.full _ _ _ (key hj hs')
  rcases h with h | h
  · rw [h, b] at a
    simp at a
    exact a.symm
  · rw [h, b'] at a
    simp only [Option.some.injEq] at a
    split at a <;> omega

/-- Symbols never move and never change their words: what stands at a position of the table stands there for ever, and its id is
the position. -/
theorem C27_stable {c : Env} {W : HSeq → Prop} (hW : Words c W) (before after : List Op) (hb : ∀ x ∈ before, x.Legal c W)
    (ha : ∀ x ∈ after, x.Legal c W) {t t' : Table} (h1 : run c Table.new before = some t) (h2 : run c t after = some t')
    {i : Nat} {s : Sym} (hs : t.syms[i]? = some s) :
    s.id = i ∧ ∃ s', t'.syms[i]? = some s' ∧ s'.id = i ∧ s'.seq = s.seq ∧ s'.conj = s.conj := by
  obtain ⟨i1, -⟩ := run_keys hW before (inv_new c W hW) hb h1
  obtain ⟨-, x2⟩ := run_keys hW after i1 ha h2
  have hk : t.keys[i]? = some s.key := by simp [Table.keys, hs]
  have e := i1.ids _ _ hk
  have hk' := x2.keys _ _ hk
  unfold Table.keys at hk'
  rw [List.getElem?_map, Option.map_eq_some_iff] at hk'
  obtain ⟨s', h1', h2'⟩ := hk'
  simp only [Sym.key, Prod.mk.injEq] at h2' e
  exact ⟨e, s', h1', h2'.1.trans e, h2'.2.1, h2'.2.2⟩

/-- Zero and one keep the ids 0 and 1. -/
theorem C27_reserved {c : Env} {W : HSeq → Prop} (hW : Words c W) (l : List Op) (hl : ∀ x ∈ l, x.Legal c W) {t : Table}
    (ht : run c Table.new l = some t) :
    (∃ s, t.syms[0]? = some s ∧ s.id = 0 ∧ s.seq = some HSeq.zero) ∧
    (∃ s, t.syms[1]? = some s ∧ s.id = 1 ∧ s.seq = some (HSeq.identity .pos)) ∧
    t.find 0 = some (0, false) ∧ t.find 1 = some (1, false) := by
  obtain ⟨i1, -⟩ := run_keys hW l (inv_new c W hW) hl ht
  have key : ∀ {i : Nat} {k}, t.keys[i]? = some k → ∃ s, t.syms[i]? = some s ∧ s.key = k := by
    intro i k h
    unfold Table.keys at h
    rwa [List.getElem?_map, Option.map_eq_some_iff] at h
  obtain ⟨s, hs, e⟩ := key i1.zero
  obtain ⟨s', hs', e'⟩ := key i1.one
  simp only [Sym.key, Prod.mk.injEq] at e e'
  refine ⟨⟨s, hs, e.1, e.2.1⟩, ⟨s', hs', e'.1, e'.2.1⟩, ?_, ?_⟩
  · have : t.hashes.lookup 0 = _ := (i1.full _ _ _ i1.zero).2.1
    simp [Table.find, this]
  · have : t.hashes.lookup 1 = _ := (i1.full _ _ _ i1.one).2.1
    simp [Table.find, this]

/-- After filling the table with all words of a generator (in a context without aliases) every one of them is found for ever, if
the generator has with each word one whose hash is that of its conjugate. -/
theorem C27_fill {c : Env} {W : HSeq → Prop} (hW : Words c W) (hal : c.aliases = false) (before after : List Op) (ws : List HSeq)
    (hb : ∀ x ∈ before, x.Legal c W) (hws : ∀ w ∈ ws, W w) (ha : ∀ x ∈ after, x.Legal c W)
    (hcl : ∀ w ∈ ws, ∃ v ∈ ws, v.hash = (c.conj w).hash)
    {t1 t2 t3 : Table} {n : Nat} (h1 : run c Table.new before = some t1) (h2 : t1.fill c ws = some (t2, n))
    (h3 : run c t2 after = some t3) : ∀ w ∈ ws, (t3.find w.hash).isSome := by
  obtain ⟨i1, -⟩ := run_keys hW before (inv_new c W hW) hb h1
  obtain ⟨t', n', e', i2, -, f2⟩ := fill_keys hW i1 hws
  rw [h2] at e'
  simp only [Option.some.injEq, Prod.mk.injEq] at e'
  obtain ⟨rfl, rfl⟩ := e'
  obtain ⟨-, x3⟩ := run_keys hW after i2 ha h3
  have entry : ∀ w, w.hash ≤ (c.conj w).hash → (fillEntry c w).isSome := by
    intro w hle
    unfold fillEntry
    rw [hal]
    simp only [Bool.false_and, Bool.false_eq_true, if_false]
    split
    · rfl
    · rename_i hne
      rw [if_pos]
      · rfl
      · rw [UInt64.lt_iff_toNat_lt]
        rw [UInt64.le_iff_toNat_le] at hle
        have : w.hash.toNat ≠ (c.conj w).hash.toNat := fun h => hne (UInt64.toNat_inj.mp h)
        omega
  have later : ∀ h, (t2.hashes.lookup h).isSome → (t3.find h).isSome := by
    intro h hs
    obtain ⟨k, hk⟩ := Option.isSome_iff_exists.mp hs
    simp [Table.find, x3.map _ _ hk]
  intro w hw
  by_cases hle : w.hash ≤ (c.conj w).hash
  · exact later _ (f2 w hw (entry w hle))
  · obtain ⟨v, hv, e⟩ := hcl w hw
    have e2 : (c.conj v).hash = w.hash := by
      rw [hW.hash v (c.conj w) (hws v hv) (hW.conj _ (hws w hw)) e, hW.twice _ (hws w hw)]
    have hv2 := f2 v hv (entry v (by
      rw [e, e2]
      rw [UInt64.le_iff_toNat_le] at hle ⊢
      omega))
    -- the conjugate is there, hence the word
    cases hl : t2.hashes.lookup w.hash with
    | some k => exact later _ (by simp [hl])
    | none =>
      have := conj_absent hW i2 (hws w hw) hl
      rw [← e] at this
      simp [this] at hv2

/-- Registering words is always defined: histories without bit sets never dereference anything invalid. -/
theorem C27_defined {c : Env} {W : HSeq → Prop} (hW : Words c W) (l : List Op) (hl : ∀ x ∈ l, x.Legal c W)
    (hbits : ∀ x ∈ l, ∀ n re im, x ≠ .bits n re im) : ∃ t, run c Table.new l = some t := by
  suffices H : ∀ (l : List Op) (t : Table), Inv c W t.keys t.hashes → (∀ x ∈ l, x.Legal c W) →
      (∀ x ∈ l, ∀ n re im, x ≠ .bits n re im) → ∃ t', run c t l = some t' from H l _ (inv_new c W hW) hl hbits
  intro l
  induction l with
  | nil => exact fun t _ _ _ => ⟨t, rfl⟩
  | cons o l ih =>
    intro t hi hl hbits
    have hd : ∃ r, step c t o = some r := by
      have hlo := hl o (by simp)
      cases o with
      | create a b => exact ⟨_, rfl⟩
      | createMany n a b => exact ⟨_, rfl⟩
      | seq w =>
        have hw : W (if c.aliases then c.simp { w with sign := .pos } else { w with sign := .pos }) := by
          have ho : W (if c.aliases then c.simp { w with sign := .pos } else w) := hlo
          split at ho
          · rw [if_pos (by assumption)]; exact ho
          · rw [if_neg (by assumption)]; exact hW.sign _ ho
        obtain ⟨t', id, b, e, -⟩ := mergeSym_keys hW hi (proper_ofPair hW hw)
        exact ⟨_, by simp only [step, Table.mergeSeq, e]; rfl⟩
      | pair w =>
        obtain ⟨t', id, b, e, -⟩ := mergeSym_keys hW hi (proper_ofPair hW hlo)
        exact ⟨_, by simp only [step, e]; rfl⟩
      | herm w =>
        obtain ⟨t', id, b, e, -⟩ := mergeSym_keys hW hi (proper_ofSeq hlo.1 hlo.2)
        exact ⟨_, by simp only [step, e]; rfl⟩
      | fill ws =>
        obtain ⟨t', n, e, -⟩ := fill_keys hW hi (ws := ws) hlo
        exact ⟨_, by simp only [step, e]; rfl⟩
      | bits n re im => exact absurd rfl (hbits _ (by simp) n re im)
    obtain ⟨r, hr⟩ := hd
    obtain ⟨i1, -, -⟩ := step_keys hW hi (hl o (by simp)) hr
    obtain ⟨t', ht'⟩ := ih r.1 i1 (fun x hx => hl x (by simp [hx])) (fun x hx => hbits x (by simp [hx]))
    exact ⟨t', by simp [run, hr, ht']⟩

/-- In a context with aliases, a word registered through `merge_in(OperatorSequence)` is found by `where` under the returned id, be
it canonical as a moment or not. `W` is the set of canonical words, `simp` gives the canonical word. -/
theorem C27_alias {c : Env} {W : HSeq → Prop} (hW : Words c W) (hal : c.aliases = true)
    (hcan : ∀ w, W w → (c.simp w).hash = w.hash) (hresp : ∀ w v : HSeq, w.hash = v.hash → (c.simp w).hash = (c.simp v).hash)
    (before after : List Op) (w : HSeq) (hb : ∀ x ∈ before, x.Legal c W) (ha : ∀ x ∈ after, x.Legal c W)
    (hw : W (c.simp { w with sign := .pos }))
    {t1 t2 t3 : Table} {ret : Option Nat} (h1 : run c Table.new before = some t1) (h2 : step c t1 (.seq w) = some (t2, ret))
    (h3 : run c t2 after = some t3) : ∃ id b, ret = some id ∧ (t3.lookup c w).1 = some (id, b) := by
  have hlegal : (Op.seq w).Legal c W := by
    show W (if c.aliases then _ else _)
    rw [hal]; exact hw
  obtain ⟨id, b, hret, hf, -, -⟩ := C27_found hW before after (.seq w) (c.simp { w with sign := .pos }) hb hlegal ha
    (by show _ = (if c.aliases then _ else _); rw [hal]; rfl) hw h1 h2 h3
  obtain ⟨i1, -⟩ := run_keys hW before (inv_new c W hW) hb h1
  obtain ⟨i2, -, -⟩ := step_keys hW i1 hlegal h2
  obtain ⟨i3, -⟩ := run_keys hW after i2 ha h3
  have hs : (c.simp { w with sign := .pos }).hash = (c.simp w).hash := hresp _ _ rfl
  rw [hs] at hf
  refine ⟨id, b, hret, ?_⟩
  unfold Table.lookup
  cases hd : t3.find w.hash with
  | none =>
    simp only [hal, if_true]
    split
    · exact hf
    · rename_i hne
      simp only [bne_iff_ne, ne_eq, not_not] at hne
      rw [hne, hd] at hf
      simp at hf
  | some r =>
    obtain ⟨j, b'⟩ := r
    have hcanon : (c.simp w).hash = w.hash := by
      unfold Table.find at hd
      simp only [Option.map_eq_some_iff, Prod.mk.injEq] at hd
      obtain ⟨k, hk, -, -⟩ := hd
      obtain ⟨q, cq, -, hqW, hp, hn⟩ := i3.sound _ _ hk
      rcases lt_or_ge k 0 with hk0 | hk0
      · have e := (hn hk0).1
        rw [← hresp _ _ e, hcan _ (hW.conj _ hqW), e]
      · have e := hp hk0
        rw [← hresp _ _ e, hcan _ hqW, e]
    rw [hcanon, hd] at hf
    simpa using hf

/-- A context with two letters in which the moment of the second equals that of the first. -/
def aliasEnv : Env :=
  { conj := id, null := fun _ => (false, false), aliases := true
    simp := fun w => if w.hash = 3 then ⟨2, [0], w.sign⟩ else w, canSimp := fun w => w.hash == 3 }

/-- The hypotheses of `C27_alias` hold there for the words other than the second letter. -/
example : Words aliasEnv (fun w => w.hash ≠ 3) ∧ (∀ w : HSeq, w.hash ≠ 3 → (aliasEnv.simp w).hash = w.hash) ∧
    (∀ w v : HSeq, w.hash = v.hash → (aliasEnv.simp w).hash = (aliasEnv.simp v).hash) ∧
    (∀ w : HSeq, (aliasEnv.simp { w with sign := .pos }).hash ≠ 3) := by
  refine ⟨⟨⟨by decide, rfl⟩, ⟨by decide, rfl⟩, fun _ h => h, fun _ h => h, fun _ _ => rfl, fun _ _ _ _ h => h⟩, ?_, ?_, ?_⟩
  · intro w h
    simp [aliasEnv, h]
  · intro w v h
    simp only [aliasEnv, h]
    split <;> simp_all
  · intro w
    simp only [aliasEnv]
    split
    · simp
    · assumption

/-- The second letter is registered as the first and found there. -/
example : (run aliasEnv Table.new [.seq ⟨3, [1], .pos⟩]).map (fun t => ((t.lookup aliasEnv ⟨3, [1], .pos⟩).1, t.find 2, t.find 3)) =
    some (some (2, false), some (2, false), none) := by decide +kernel

/-- Two letters, and their product registered after its conjugate: `ba` is found under the symbol of `ab`, as conjugated. -/
example : (run (freeEnv 2) Table.new [.pair ⟨hashWord 2 [0, 1], [0, 1], .pos⟩, .create true false,
      .seq ⟨hashWord 2 [1, 0], [1, 0], .neg⟩]).map
      (fun t => (t.find (hashWord 2 [0, 1]), t.find (hashWord 2 [1, 0]), t.syms.length)) =
    some (some (2, false), some (2, true), 4) := by decide +kernel

/-! ## C63 -/

/-- After any history (undefined behaviour apart) the offsets of the symbols and the lists of basis elements describe each other. -/
theorem C63_offsets (c : Env) (l : List Op) {t : Table} (ht : run c Table.new l = some t) : Offsets t :=
  offsets_of_tinv (tinv_run l tinv_new ht)

/-- If no merge of bit sets threw, a symbol marked Hermitian has no imaginary part and one marked anti-Hermitian no real part. -/
theorem C63_flags (c : Env) (l : List Op) {t : Table} (ht : runOk c Table.new l = some t) :
    ∀ s ∈ t.syms, (s.herm = true → s.im = none) ∧ (s.anti = true → s.re = none) := by
  refine flags_runOk (fun s h1 h2 => ⟨h1.mp, h2.mp⟩) (fun s w _ h1 h2 => ⟨fun h => ?_, fun h => ?_⟩) l
    (finv_of_ginv flags_new) ht
  · exact h1.mpr (by simp [h])
  · exact h2.mpr (by simp [h])

/-- ... and if the context never declares a word null, exactly those lack the part. -/
theorem C63_parts (c : Env) (hnull : ∀ w, c.null w = (false, false)) (l : List Op) {t : Table}
    (ht : runOk c Table.new l = some t) :
    ∀ s ∈ t.syms, (s.herm = true ↔ s.im = none) ∧ (s.anti = true ↔ s.re = none) := by
  refine flags_runOk (fun s h1 h2 => ⟨h1, h2⟩) (fun s w _ h1 h2 => ⟨?_, ?_⟩) l flags_new ht
  · rw [h1, hnull]; simp
  · rw [h2, hnull]; simp

example : (run (freeEnv 2) Table.new [.pair ⟨hashWord 2 [0, 1], [0, 1], .pos⟩, .seq ⟨hashWord 2 [1], [1], .pos⟩,
      .bits 5 (fun k => k != 4) (fun k => k != 1 && k != 3)]).map (fun t => (t.basis, t.syms.map fun s => (s.re, s.im))) =
    some (⟨[1, 2, 3], [2, 4], [none, some 0, none], [some 1, none]⟩,
      [(none, none), (some 0, none), (some 1, some 0), (some 2, none), (none, some 1)]) := by decide +kernel

/-! ## C64: the parts of a symbol's value -/

/-- The conjugate of a word without its sign equals the word. -/
def SelfConj (c : Env) (w : HSeq) : Prop :=
  (c.conj { w with sign := .pos }).hash = w.hash ∧ (c.conj { w with sign := .pos }).sign = .pos

/-- The conjugate of a word without its sign is minus the word. -/
def AntiSelfConj (c : Env) (w : HSeq) : Prop :=
  (c.conj { w with sign := .pos }).hash = w.hash ∧ (c.conj { w with sign := .pos }).sign = .neg

/-- Full statement: the symbol that gets added for a word is marked Hermitian exactly if the word is its own conjugate and
anti-Hermitian exactly if it is minus its conjugate. -/
def Marks (c : Env) (w : HSeq) (e : Sym) : Prop := (e.herm = true ↔ SelfConj c w) ∧ (e.anti = true ↔ AntiSelfConj c w)

/-- Conjugation treats the sign as a factor. -/
def SignFactor (c : Env) (w : HSeq) : Prop :=
  (c.conj w).hash = (c.conj { w with sign := .pos }).hash ∧
  (c.conj w).sign = w.sign.conj.mul (c.conj { w with sign := .pos }).sign

/-- Symbols made from a word and its conjugate are marked correctly, whatever sign the word has. Words equal to `±i` times their
conjugate do not occur among real-signed rules; the hypothesis `hreal` leaves them out. -/
theorem C64_pair_partial (c : Env) (w : HSeq) (hs : SignFactor c w)
    (hreal : (c.conj { w with sign := .pos }).sign = .pos ∨ (c.conj { w with sign := .pos }).sign = .neg) :
    Marks c w (Sym.ofPair w (c.conj w)) := by
  obtain ⟨e1, e2⟩ := hs
  have e3 : (w.sign.conj.mul (c.conj { w with sign := .pos }).sign).mul w.sign = (c.conj { w with sign := .pos }).sign := by
    generalize (c.conj { w with sign := .pos }).sign = g
    cases w.sign <;> cases g <;> rfl
  simp only [Marks, SelfConj, AntiSelfConj, Sym.ofPair, HSeq.compareSameNegation, e1, e2, e3]
  by_cases hh : w.hash = (c.conj { w with sign := .pos }).hash
  · rw [← hh]
    rcases hreal with h | h <;> rw [h] <;> simp [Sign.isImaginary, Sign.isNegative, Sign.code]
  · have h1 : (w.hash != (c.conj { w with sign := .pos }).hash) = true := by simpa using hh
    have h2 : (c.conj { w with sign := .pos }).hash ≠ w.hash := fun h => hh h.symm
    simp [h1, h2]

/-- `merge_in(OperatorSequence)` in a context without aliases therefore adds a correctly marked symbol. -/
theorem C64_merge_partial (c : Env) (hal : c.aliases = false) (t : Table) (w : HSeq)
    (hreal : (c.conj { w with sign := .pos }).sign = .pos ∨ (c.conj { w with sign := .pos }).sign = .neg)
    {t' : Table} {id : Nat} (h : t.mergeSeq c w = some (t', id, true)) : ∃ s, t'.syms[id]? = some s ∧ Marks c w s := by
  have hs : SignFactor c { w with sign := .pos } := ⟨rfl, by
    show _ = Sign.mul (Sign.conj .pos) _
    generalize (c.conj { w with sign := .pos }).sign = g
    cases g <;> rfl⟩
  have hm := C64_pair_partial c { w with sign := .pos } hs hreal
  simp only [Table.mergeSeq, hal, Table.mergeSym, Sym.ofPair, Bool.false_eq_true, if_false] at h
  split at h
  · simp only [Option.map_eq_some_iff] at h
    obtain ⟨s, -, h⟩ := h
    simp at h
  · simp only [Option.some.injEq, Prod.mk.injEq] at h
    obtain ⟨rfl, rfl, -⟩ := h
    exact ⟨_, getElem?_snoc_last _ _, hm⟩

/-- Symbols made by `fill_to_word_length` are marked correctly if no word is minus its conjugate. -/
theorem C64_fill_partial (c : Env) (w : HSeq) (hpos : w.sign = .pos) (hanti : (c.conj w).hash = w.hash → (c.conj w).sign = .pos)
    (hreal : (c.conj { w with sign := .pos }).sign = .pos ∨ (c.conj { w with sign := .pos }).sign = .neg)
    {e : Sym} (he : fillEntry c w = some e) : Marks c w e := by
  have hw : ({ w with sign := .pos } : HSeq) = w := by cases w; simp at hpos; subst hpos; rfl
  have hs : SignFactor c w := by
    refine ⟨by rw [hw], ?_⟩
    rw [hw, hpos]
    generalize (c.conj w).sign = g
    cases g <;> rfl
  unfold fillEntry at he
  split at he
  · simp at he
  · dsimp only at he
    split at he
    · rename_i hh
      simp only [Option.some.injEq] at he
      subst he
      simp only [Marks, SelfConj, AntiSelfConj, hw, Sym.ofSeq]
      have := hanti hh.symm
      simp [this, hh.symm]
    · split at he
      · simp only [Option.some.injEq] at he
        subst he
        exact C64_pair_partial c w hs hreal
      · simp at he

/-- Sorting with a sign for every exchange of different letters: what the rules `ba = -ab` for all pairs of letters compute. -/
def antiSort : List Nat → Sign → List Nat × Sign
  | [], g => ([], g)
  | o :: l, g =>
    let r := antiSort l g
    (r.1.filter (· < o) ++ o :: r.1.filter (fun x => o ≤ x),
      if (r.1.filter (· < o)).length % 2 = 0 then r.2 else r.2.negate)

/-- An algebra of anticommuting letters, as the table sees it. -/
def antiEnv : Env where
  conj := HSeq.conjugate { radix := 2, simplify := fun w g => some (antiSort w g) } false
  null _ := (false, false)
  aliases := false
  simp := id
  canSimp _ := false

/-- The product of two anticommuting letters. -/
def wordAB : HSeq := ⟨hashWord 2 [0, 1], [0, 1], .pos⟩

/-- The conjugate of the product `ab` of two anticommuting Hermitian letters is `-ab`. `merge_in(OperatorSequence)` marks its symbol
anti-Hermitian, `fill_to_word_length` makes it a Hermitian symbol with a real and without an imaginary part; afterwards that symbol
is what every other operation finds. -/
theorem C64_refuted_fill :
    AntiSelfConj antiEnv wordAB ∧
    (∃ t s, Table.new.mergeSeq antiEnv wordAB = some (t, 2, true) ∧ t.syms[2]? = some s ∧ Marks antiEnv wordAB s ∧
      s.herm = false ∧ s.re = none ∧ s.im = some 0) ∧
    (∃ t s, Table.new.fill antiEnv [wordAB] = some (t, 1) ∧ t.syms[2]? = some s ∧ s.seq = some wordAB ∧
      ¬ Marks antiEnv wordAB s ∧ s.herm = true ∧ s.anti = false ∧ s.re = some 1 ∧ s.im = none ∧
      t.mergeSeq antiEnv wordAB = some (t, 2, false)) := by
  have ha : AntiSelfConj antiEnv wordAB := by unfold AntiSelfConj; decide +kernel
  have hne : ¬ SelfConj antiEnv wordAB := by unfold SelfConj; decide +kernel
  refine ⟨ha, ?_, ?_⟩
  · refine ⟨_, _, rfl, rfl, ?_, by decide +kernel, by decide +kernel, by decide +kernel⟩
    refine ⟨⟨fun h => absurd h (by decide +kernel), fun h => absurd h hne⟩, ⟨fun _ => ha, fun _ => by decide +kernel⟩⟩
  · refine ⟨_, _, rfl, rfl, by decide +kernel, ?_, by decide +kernel, by decide +kernel, by decide +kernel, by decide +kernel, by decide +kernel⟩
    intro h
    exact hne (h.1.mp (by decide +kernel))

example : Marks antiEnv wordAB (Sym.ofPair wordAB (antiEnv.conj wordAB)) :=
  C64_pair_partial antiEnv wordAB ⟨rfl, by decide +kernel⟩ (Or.inr (by decide +kernel))

end Moment.C27
