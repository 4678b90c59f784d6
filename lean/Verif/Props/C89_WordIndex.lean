import Verif.Spec.DictionaryMap
import Verif.Proof.MatrixTimes
import Verif.Proof.SymmetryMapper
import Verif.Props.C27_SymbolTable
import Verif.Props.C87_Symmetries
import Verif.Proof.Basis

/-! # C89: from positions in the list of words to symbols -/

namespace Moment.C89
open Moment.Symbols Moment.SymbolMatrix Moment.DictionaryMap

variable {h : Host} {W : HSeq → Prop} {words : Nat → List HSeq}

/-- What an entry has to do with a word. -/
def Link (h : Host) (keys : List Key) (w : HSeq) (k : Int) : Prop := ∃ q cq, keys[k.natAbs]? = some (k.natAbs, some q, cq) ∧
  ((0 ≤ k ∧ q.hash = w.hash) ∨ (k ≤ 0 ∧ (h.env.conj q).hash = w.hash ∧ q.hash ≠ w.hash) ∨
    (k ≤ 0 ∧ h.env.aliases = true ∧ ((h.env.simp w).hash = q.hash ∨ ((h.env.simp w).hash = (h.env.conj q).hash ∧ (h.env.conj q).hash ≠ q.hash))))

theorem Link.ext {keys keys' : List Key} {m m' : List (UInt64 × Int)} (he : Ext keys m keys' m') {w : HSeq} {k : Int} (hl : Link h keys w k) :
    Link h keys' w k := by
  obtain ⟨q, cq, h1, h2⟩ := hl
  exact ⟨q, cq, he.keys _ _ h1, h2⟩

theorem matrix_ext {t t' : Table} {ops : MatrixBasis.Mat HSeq} {al : Option (MatrixBasis.Mat HSeq)} {f : ℂ} {M : Option MonoMat} (hS : Setting h W)
    (ht : Fit h W t) (hu : Usable h W (al.getD ops)) (hr : create h t ops al f = some (t', M)) :
    Fit h W t' ∧ ∀ w k, Link h t.keys w k → Link h t'.keys w k := by
  obtain ⟨t1, M1, h1, h2⟩ := create_spec hS ht f hu
  rw [h1] at hr
  simp only [Option.some.injEq, Prod.mk.injEq] at hr
  obtain ⟨rfl, -⟩ := hr
  refine ⟨h2.fit, ?_⟩
  rintro w k ⟨q, cq, e1, e2⟩
  refine ⟨q, cq, ?_, e2⟩
  unfold Table.keys at e1 ⊢
  rw [List.getElem?_map] at e1 ⊢
  obtain ⟨s, hs, hs'⟩ := Option.map_eq_some_iff.mp e1
  rw [get_prefix h2.grows hs, Option.map_some, hs']

theorem entry_link {t : Table} (hS : Setting h W) (ht : Fit h W t) {w : HSeq} (hp : w.sign = .pos) {k : Int} (he : DictionaryMap.entry h.env t w = some k) :
    Link h t.keys w k := by
  unfold DictionaryMap.entry at he
  rw [Option.bind_eq_some_iff] at he
  obtain ⟨r, hr, he⟩ := he
  rw [Option.bind_eq_some_iff] at he
  obtain ⟨s, hs, he⟩ := he
  rw [Option.map_eq_some_iff] at he
  obtain ⟨q, hq, he⟩ := he
  have hkey : t.keys[r.1]? = some (r.1, some q, s.conj) := by
    have e : t.keys[r.1]? = some s.key := by unfold Table.keys; rw [List.getElem?_map, hs]; rfl
    have := ht.inv.ids _ _ e
    rw [e]
    simp only [Sym.key] at this ⊢
    rw [this, hq]
  have hid : s.id = r.1 := by
    have e : t.keys[r.1]? = some s.key := by unfold Table.keys; rw [List.getElem?_map, hs]; rfl
    exact ht.inv.ids _ _ e
  have hqs : q.sign = .pos := ht.plain s (List.mem_of_getElem? hs) q hq
  have key : ∀ x : UInt64, t.find x = some r → q.hash = x ∨ ((h.env.conj q).hash = x ∧ q.hash ≠ x) := by
    intro x hx
    unfold Table.find at hx
    obtain ⟨y, hy, rfl⟩ := Option.map_eq_some_iff.mp hx
    obtain ⟨q', cq', h1, -, h3, h4⟩ := ht.inv.sound _ _ hy
    simp only at hkey
    rw [h1] at hkey
    simp only [Option.some.injEq, Prod.mk.injEq, true_and] at hkey
    obtain ⟨rfl, -⟩ := hkey
    by_cases hy0 : 0 ≤ y
    · exact .inl (h3 hy0)
    · exact .inr (h4 (by omega))
  have hnat : k.natAbs = r.1 := by
    rw [← he, hid]
    split <;> simp
  rw [Link, hnat]
  refine ⟨q, s.conj, hkey, ?_⟩
  have hbeq : q.hash ≠ w.hash → k ≤ 0 := by
    intro hne
    have : w.beq q = false := by
      simp only [HSeq.beq]
      simp [Ne.symm hne]
    rw [this] at he
    simp only [Bool.not_false, if_true] at he
    omega
  unfold Table.lookup at hr
  split at hr
  · rename_i r' hr'
    simp only [Option.some.injEq] at hr
    subst hr
    rcases key _ hr' with e | ⟨e1, e2⟩
    · left
      refine ⟨?_, e⟩
      have : w.beq q = true := by
        simp only [HSeq.beq]
        simp [e, hqs, hp]
      rw [this] at he
      simp only [Bool.not_true, Bool.false_eq_true, if_false] at he
      omega
    · exact .inr (.inl ⟨hbeq e2, e1, e2⟩)
  · rename_i hnone
    split at hr
    · rename_i ha
      simp only at hr
      split at hr
      · simp only at hr
        have hne : q.hash ≠ w.hash := by
          intro e
          have := (ht.inv.full _ _ _ hkey).2.1
          rw [e] at this
          simp [Table.find, this] at hnone
        refine .inr (.inr ⟨hbeq hne, ha, ?_⟩)
        rcases key _ hr with e | ⟨e1, e2⟩
        · exact .inl e.symm
        · exact .inr ⟨e1.symm, by rw [e1]; exact e2.symm⟩
      · simp at hr
    · simp at hr

/-- What is known of a reached state. -/
structure State (h : Host) (W : HSeq → Prop) (words : Nat → List HSeq) (t : Table) (I : Index) : Prop where
  fit : Fit h W t
  length : I.entries.length = (words I.maxLength).length
  link : ∀ (i : Nat) (w : HSeq) (k : Int), (words I.maxLength)[i]? = some w → I.entries[i]? = some k → Link h t.keys w k

theorem reached_state (hS : Setting h W) (hL : Lists W words) {t : Table} {I : Index} (hr : Reached h W words t I) : State h W words t I := by
  induction hr with
  | new =>
    have hf : Fit h W Table.new := Ready.fit hS .new
    refine ⟨hf, by simp [Index.new, hL.first], ?_⟩
    intro i w k hw hk
    simp only [Index.new, hL.first] at hw hk
    match i with
    | 0 =>
      simp only [List.getElem?_cons_zero, Option.some.injEq] at hw hk
      subst hw hk
      exact ⟨_, _, hf.inv.one, .inl ⟨by omega, rfl⟩⟩
    | i + 1 => simp at hw
  | step _ ho hp hr ih =>
    obtain ⟨h1, h2, -⟩ := step_keys hS.words ih.fit.inv ho hr
    exact ⟨⟨h1, plain_step ih.fit.plain hp hr⟩, ih.length, fun i w k a b => (ih.link i w k a b).ext h2⟩
  | matrix _ hu hr ih =>
    obtain ⟨h1, h2⟩ := matrix_ext hS ih.fit hu hr
    exact ⟨h1, ih.length, fun i w k a b => h2 _ _ (ih.link i w k a b)⟩
  | @update t I I' n b _ hr ih =>
    unfold Index.update at hr
    split at hr
    · simp only [Option.some.injEq, Prod.mk.injEq] at hr
      exact hr.1 ▸ ih
    · rename_i hn
      split at hr
      · simp at hr
      · rename_i hlen
        rw [Option.map_eq_some_iff] at hr
        obtain ⟨l, hl, hr⟩ := hr
        simp only [Prod.mk.injEq] at hr
        obtain ⟨rfl, -⟩ := hr
        obtain ⟨g1, g2⟩ := SymRep.mapM_get _ _ hl
        refine ⟨ih.fit, ?_, ?_⟩
        · simp only [List.length_append, g1, List.length_drop]
          omega
        · intro i w k hw hk
          simp only at hw hk
          by_cases hi : i < I.entries.length
          · rw [List.getElem?_append_left hi] at hk
            obtain ⟨s, hs⟩ := hL.grow I.maxLength n (by omega)
            rw [← hs, List.getElem?_append_left (by rw [← ih.length]; exact hi)] at hw
            exact ih.link i w k hw hk
          · rw [List.getElem?_append_right (by omega), g2, List.getElem?_drop,
              show I.entries.length + (i - I.entries.length) = i by omega, hw, Option.bind_some] at hk
            exact entry_link hS ih.fit (hL.mem n w (List.mem_of_getElem? hw)).2.1 hk

theorem link_value (hS : Setting h W) {t : Table} (ht : Fit h W t) {L : HSeq → ℂ} {v : Nat → ℂ} (hL : Moments h.env W L) (hk : Simplified h W L)
    (hv : Agrees t L v) {w : HSeq} (hw : W w) (hp : w.sign = .pos) {k : Int} (hl : Link h t.keys w k) :
    at' v (if k < 0 then ((-k).toNat, true) else (k.toNat, false)) = L w := by
  obtain ⟨q, cq, h1, h2⟩ := hl
  have hqW : W q := (ht.inv.full _ _ _ h1).1
  unfold Table.keys at h1
  rw [List.getElem?_map, Option.map_eq_some_iff] at h1
  obtain ⟨s, hs, hs'⟩ := h1
  simp only [Sym.key, Prod.mk.injEq] at hs'
  have hqs : q.sign = .pos := ht.plain s (List.mem_of_getElem? hs) q hs'.2.1
  have hvq : v k.natAbs = L q := hv.word _ _ _ hs hs'.2.1
  have hzero : v 0 = 0 := by
    have h0 := ht.inv.zero
    unfold Table.keys at h0
    rw [List.getElem?_map, Option.map_eq_some_iff] at h0
    obtain ⟨s0, g, g'⟩ := h0
    simp only [Sym.key, Prod.mk.injEq] at g'
    rw [hv.word 0 s0 _ g g'.2.1]
    exact hL.zero
  have neg : ∀ k' : Int, k' ≤ 0 → at' v (if k' < 0 then ((-k').toNat, true) else (k'.toNat, false)) = (starRingEnd ℂ) (v k'.natAbs) := by
    intro k' hk'
    by_cases hlt : k' < 0
    · rw [if_pos hlt]
      simp only [at', if_true]
      congr 2
      omega
    · have : k' = 0 := by omega
      subst this
      simp [at', hzero]
  rcases h2 with ⟨hk0, e⟩ | ⟨hk0, e, hne⟩ | ⟨hk0, ha, e⟩
  · rw [if_neg (by omega)]
    simp only [at', Bool.false_eq_true, if_false]
    rw [show k.toNat = k.natAbs by omega, hvq]
    exact hL.hash _ _ hqW hw e (hqs.trans hp.symm)
  · rw [neg k hk0, hvq, ← hL.conj q hqW]
    exact hL.hash _ _ (hS.words.conj _ hqW) hw e ((hS.plain q hqW hqs (by rw [e]; exact hne.symm)).trans hp.symm)
  · obtain ⟨a, b⟩ := hk.mem ha w hw hp
    rw [neg k hk0, hvq, ← hk.same ha w hw hp]
    rcases e with e | ⟨e, hne⟩
    · rw [hk.real ha q hqW hqs]
      exact hL.hash _ _ hqW a e.symm (hqs.trans b.symm)
    · rw [← hL.conj q hqW]
      exact hL.hash _ _ (hS.words.conj _ hqW) a e.symm ((hS.plain q hqW hqs hne).trans b.symm)

/-! ## Theorems -/

/-- After any history of table and index, the index knows the words up to its length, and no more, and at each position stands the symbol whose value is
the moment of the word there, or the conjugate of one whose value is the conjugate. Missing: contexts where moments of different words are the same and
are not real (`Simplified.real`), and contexts where the conjugate of a word acquires a sign (`Setting.plain`). -/
theorem C89_values_partial (hS : Setting h W) (hl : Lists W words) {t : Table} {I : Index} (hr : Reached h W words t I) :
    (∀ i, (I.get i).isSome ↔ i < (words I.maxLength).length) ∧
    ∀ (i : Nat) (w : HSeq) (r : Nat × Bool), (words I.maxLength)[i]? = some w → I.get i = some r →
      ∀ L v, Moments h.env W L → Simplified h W L → Agrees t L v → at' v r = L w := by
  have hst := reached_state hS hl hr
  refine ⟨?_, ?_⟩
  · intro i
    rw [← hst.length]
    simp [Index.get]
  · intro i w r hw hg L v hL hk hv
    unfold Index.get at hg
    obtain ⟨k, hk', rfl⟩ := Option.map_eq_some_iff.mp hg
    obtain ⟨a, b, -⟩ := hl.mem _ w (List.mem_of_getElem? hw)
    exact link_value hS hst.fit hL hk hv a b (hst.link i w k hw hk')

/-- An update is defined if all words are found in the table under symbols with words. Then the index knows all words up to the length asked for. -/
theorem C89_defined (hS : Setting h W) (hl : Lists W words) {t : Table} {I : Index} (hr : Reached h W words t I) (n : Nat)
    (hf : ∀ w ∈ words n, (t.lookup h.env w).1.isSome) :
    ∃ I' b, I.update h.env t words n = some (I', b) ∧ n ≤ I'.maxLength ∧ (b = true ↔ I.maxLength < n) := by
  have hst := reached_state hS hl hr
  unfold Index.update
  by_cases hn : n ≤ I.maxLength
  · exact ⟨I, false, by rw [if_pos hn], hn, by simp; omega⟩
  · rw [if_neg hn, if_neg (by rw [hst.length]; exact not_lt.mpr (hl.grow _ n (by omega)).length_le)]
    have : (((words n).drop I.entries.length).mapM (DictionaryMap.entry h.env t)).isSome := by
      rw [BasisVec.mapM_isSome]
      intro w hw
      have hw' := List.mem_of_mem_drop hw
      obtain ⟨r, hr⟩ := Option.isSome_iff_exists.mp (hf w hw')
      have key : ∀ x : UInt64, t.find x = some r → ∃ s q, t.syms[r.1]? = some s ∧ s.seq = some q := by
        intro x hx
        unfold Table.find at hx
        obtain ⟨y, hy, rfl⟩ := Option.map_eq_some_iff.mp hx
        obtain ⟨q', cq', h1, -⟩ := hst.fit.inv.sound _ _ hy
        unfold Table.keys at h1
        rw [List.getElem?_map, Option.map_eq_some_iff] at h1
        obtain ⟨s, hs, hs'⟩ := h1
        simp only [Sym.key, Prod.mk.injEq] at hs'
        exact ⟨s, q', hs, hs'.2.1⟩
      have : ∃ s q, t.syms[r.1]? = some s ∧ s.seq = some q := by
        have hr' := hr
        unfold Table.lookup at hr'
        split at hr'
        · rename_i r' h'
          simp only [Option.some.injEq] at hr'
          subst hr'
          exact key _ h'
        · split at hr'
          · simp only at hr'
            split at hr'
            · exact key _ hr'
            · simp at hr'
          · simp at hr'
      obtain ⟨s, q, hs, hq⟩ := this
      simp [DictionaryMap.entry, hr, hs, hq]
    obtain ⟨l, hl'⟩ := Option.isSome_iff_exists.mp this
    exact ⟨_, _, by rw [hl']; rfl, le_refl _, by simp; omega⟩

/-- Different positions that are not flagged as conjugates have different symbols; the symbol at no position is that of zero. -/
theorem C89_distinct (hS : Setting h W) (hl : Lists W words) {t : Table} {I : Index} (hr : Reached h W words t I)
    (hz : h.env.aliases = true → ∀ n, ∀ w ∈ words n, (h.env.simp w).hash ≠ 0) :
    (∀ i r, I.get i = some r → r.1 ≠ 0) ∧ ∀ i j id, I.get i = some (id, false) → I.get j = some (id, false) → i = j := by
  have hst := reached_state hS hl hr
  have hword : ∀ (i : Nat) (k : Int), I.entries[i]? = some k → ∃ w, (words I.maxLength)[i]? = some w ∧ Link h t.keys w k := by
    intro i k hk
    have hi := (List.getElem?_eq_some_iff.mp hk).1
    rw [hst.length] at hi
    exact ⟨_, List.getElem?_eq_getElem hi, hst.link i _ k (List.getElem?_eq_getElem hi) hk⟩
  have hk0 : ∀ (i : Nat) (k : Int), I.entries[i]? = some k → k ≠ 0 := by
    rintro i k hk rfl
    obtain ⟨w, hw, q, cq, h1, h2⟩ := hword i 0 hk
    have hq : q = HSeq.zero := by
      have := hst.fit.inv.zero
      simp only [Int.natAbs_zero] at h1
      rw [this] at h1
      simp only [Option.some.injEq, Prod.mk.injEq, true_and] at h1
      exact h1.1.symm
    subst hq
    have hm := List.mem_of_getElem? hw
    have hw0 := (hl.mem _ w hm).2.2
    have hz0 : (h.env.conj HSeq.zero).hash = 0 := hS.words.zero.2
    have hzh : HSeq.zero.hash = 0 := rfl
    rw [hz0, hzh] at h2
    rcases h2 with ⟨-, e⟩ | ⟨-, e, -⟩ | ⟨-, ha, e⟩
    · exact hw0 e.symm
    · exact hw0 e.symm
    · rcases e with e | e
      · exact hz ha _ w hm e
      · exact e.2 rfl
  refine ⟨?_, ?_⟩
  · intro i r hg
    unfold Index.get at hg
    obtain ⟨k, hk, rfl⟩ := Option.map_eq_some_iff.mp hg
    have := hk0 i k hk
    split <;> simp only <;> omega
  · intro i j id hi hj
    have pos : ∀ (i : Nat), I.get i = some (id, false) → ∃ k : Int, I.entries[i]? = some k ∧ 0 < k ∧ k.natAbs = id := by
      intro i hi
      unfold Index.get at hi
      obtain ⟨k, hk, e⟩ := Option.map_eq_some_iff.mp hi
      have := hk0 i k hk
      split at e
      · simp at e
      · simp only [Prod.mk.injEq, and_true] at e
        exact ⟨k, hk, by omega, by omega⟩
    obtain ⟨k, hk, k0, kid⟩ := pos i hi
    obtain ⟨k', hk', k0', kid'⟩ := pos j hj
    have : k = k' := by omega
    subst this
    obtain ⟨w, hw, q, cq, h1, h2⟩ := hword i k hk
    obtain ⟨w', hw', q', cq', h1', h2'⟩ := hword j k hk'
    rw [h1] at h1'
    simp only [Option.some.injEq, Prod.mk.injEq, true_and] at h1'
    obtain ⟨rfl, -⟩ := h1'
    have e1 : q.hash = w.hash := by
      rcases h2 with ⟨-, e⟩ | ⟨e, -⟩ | ⟨e, -⟩
      · exact e
      · omega
      · omega
    have e2 : q.hash = w'.hash := by
      rcases h2' with ⟨-, e⟩ | ⟨e, -⟩ | ⟨e, -⟩
      · exact e
      · omega
      · omega
    have hn := hl.nodup I.maxLength
    have a1 := (List.getElem?_eq_some_iff.mp hw).1
    have a2 := (List.getElem?_eq_some_iff.mp hw').1
    refine (List.Nodup.getElem_inj_iff hn (hi := by simpa using a1) (hj := by simpa using a2)).mp ?_
    rw [List.getElem_map, List.getElem_map, (List.getElem?_eq_some_iff.mp hw).2, (List.getElem?_eq_some_iff.mp hw').2, ← e1, e2]

/-- Without words of the same moment, every symbol in the index is there without flag as well, if with each word the list has its conjugate. -/
theorem C89_covered (hS : Setting h W) (hl : Lists W words) (ha : h.env.aliases = false) {t : Table} {I : Index} (hr : Reached h W words t I)
    (hc : ∀ w ∈ words I.maxLength, ∃ u ∈ words I.maxLength, u.hash = (h.env.conj w).hash)
    {i id : Nat} (hi : I.get i = some (id, true)) : ∃ j, I.get j = some (id, false) := by
  have hst := reached_state hS hl hr
  have hd := (C89_distinct hS hl hr (by simp [ha])).1
  obtain ⟨k, hk, e⟩ := Option.map_eq_some_iff.mp hi
  have hlt := (List.getElem?_eq_some_iff.mp hk).1
  rw [hst.length] at hlt
  have hw := List.getElem?_eq_getElem hlt
  obtain ⟨q, cq, h1, h2⟩ := hst.link i _ k hw hk
  have hkid : k < 0 ∧ k.natAbs = id := by
    split at e
    · simp only [Prod.mk.injEq, and_true] at e
      omega
    · simp at e
  obtain ⟨hq, l1, -, -⟩ := hst.fit.inv.full _ _ _ h1
  rcases h2 with ⟨e, -⟩ | ⟨-, e1, e2⟩ | ⟨-, e, -⟩
  · omega
  · obtain ⟨u, hu, eu⟩ := hc _ (List.mem_of_getElem? hw)
    have hwW := (hl.mem _ _ (List.mem_of_getElem? hw)).1
    have hqu : u.hash = q.hash := by
      rw [eu, ← hS.words.hash _ _ (hS.words.conj _ hq) hwW e1]
      exact hS.words.twice q hq
    obtain ⟨j, hj, rfl⟩ := List.getElem_of_mem hu
    have hj' := hj
    rw [← hst.length] at hj'
    obtain ⟨q', cq', g1, g2⟩ := hst.link j _ _ (List.getElem?_eq_getElem hj) (List.getElem?_eq_getElem hj')
    obtain ⟨-, l1', l2', -⟩ := hst.fit.inv.full _ _ _ g1
    refine ⟨j, ?_⟩
    have hgj : I.get j = some (if I.entries[j] < 0 then ((-I.entries[j]).toNat, true) else ((I.entries[j]).toNat, false)) := by
      unfold Index.get
      rw [List.getElem?_eq_getElem hj']
      rfl
    rcases g2 with ⟨p, e'⟩ | ⟨p, e1', e2'⟩ | ⟨-, e', -⟩
    · rw [e', hqu, l1] at l1'
      simp only [Option.some.injEq] at l1'
      rw [hgj, if_neg (by omega)]
      simp only [Option.some.injEq, Prod.mk.injEq, and_true]
      omega
    · rw [if_neg (by rw [e1']; exact e2'.symm), e1', hqu, l1] at l2'
      simp only [Option.some.injEq] at l2'
      omega
    · simp [ha] at e'
  · simp [ha] at e

/-- Without words of the same moment, a position flagged as a conjugate and one with the same symbol that is not have conjugate words. -/
theorem C89_conjugates (hS : Setting h W) (hl : Lists W words) (ha : h.env.aliases = false) {t : Table} {I : Index} (hr : Reached h W words t I)
    {i j id : Nat} (hi : I.get i = some (id, true)) (hj : I.get j = some (id, false)) {w u : HSeq} (hw : (words I.maxLength)[i]? = some w)
    (hu : (words I.maxLength)[j]? = some u) : (h.env.conj u).hash = w.hash := by
  have hst := reached_state hS hl hr
  have hd := (C89_distinct hS hl hr (by simp [ha])).1 _ _ hj
  obtain ⟨k, hk, e⟩ := Option.map_eq_some_iff.mp hi
  obtain ⟨k', hk', e'⟩ := Option.map_eq_some_iff.mp hj
  have a : k < 0 ∧ k.natAbs = id := by
    split at e
    · simp only [Prod.mk.injEq, and_true] at e
      omega
    · simp at e
  have b : 0 < k' ∧ k'.natAbs = id := by
    split at e'
    · simp at e'
    · simp only [Prod.mk.injEq, and_true] at e'
      omega
  obtain ⟨q, cq, h1, h2⟩ := hst.link i w k hw hk
  obtain ⟨q', cq', g1, g2⟩ := hst.link j u k' hu hk'
  rw [a.2] at h1
  rw [b.2, h1] at g1
  simp only [Option.some.injEq, Prod.mk.injEq, true_and] at g1
  obtain ⟨rfl, -⟩ := g1
  have e1 : (h.env.conj q).hash = w.hash := by
    rcases h2 with ⟨p, -⟩ | ⟨-, p, -⟩ | ⟨-, p, -⟩
    · omega
    · exact p
    · simp [ha] at p
  have e2 : q.hash = u.hash := by
    rcases g2 with ⟨-, p⟩ | ⟨p, -⟩ | ⟨p, -⟩
    · exact p
    · omega
    · omega
  have hqW : W q := (hst.fit.inv.full _ _ _ h1).1
  rw [← e1]
  exact (hS.words.hash q u hqW (hl.mem _ u (List.mem_of_getElem? hu)).1 e2).symm

/-! ## Instances -/

open Moment.GenericWords (visited generic getIfCanonical mapM_values) in
theorem free_words_eq (r n : Nat) : (C87.freeCtx r).words n =
    HSeq.identity .pos :: ((visited r n).map fun w => getIfCanonical { radix := r, simplify := fun w s => some (w, s) } false w).reduceOption := by
  show (generic _ r n).getD [] = _
  unfold generic
  rw [mapM_values _ (fun w => getIfCanonical { radix := r, simplify := fun w s => some (w, s) } false w) _ (fun _ _ => rfl)]
  rfl

/-- The lists of words without rewriting rules are as assumed. -/
theorem free_lists (r N : Nat) (hr : r < 2 ^ 64) (hL : (∑ k ∈ Finset.range (N + 1), r ^ k) < 2 ^ 64) :
    Lists (C27.FreeWord r N) fun n => (C87.freeCtx r).words (min n N) := by
  have hf := C87.free_faithful r hr hL (fun _ => (0 : ℝ))
  refine ⟨?_, ?_, ?_, ?_⟩
  · intro m n hmn
    have hmn' : min m N ≤ min n N := by omega
    generalize min m N = a at *
    generalize min n N = b at *
    obtain ⟨d, rfl⟩ := Nat.exists_eq_add_of_le hmn'
    rw [free_words_eq, free_words_eq]
    refine ⟨(((List.range' (1 + a) d).flatMap fun n => Fill.tuples n r 0).map fun w =>
      GenericWords.getIfCanonical { radix := r, simplify := fun w s => some (w, s) } false w).reduceOption, ?_⟩
    rw [List.cons_append, ← List.reduceOption_append, ← List.map_append]
    unfold GenericWords.visited
    rw [← List.flatMap_append, ← List.range'_append_1]
  · simp only [Nat.zero_min]
    rw [free_words_eq]
    simp [GenericWords.visited]
  · intro n w hw
    have hn : min n N ≤ N := by omega
    obtain ⟨l, h1, h2, rfl⟩ := ((C87.free_words r hr hL hn).2 w).mp hw
    exact ⟨.inr ⟨rfl, h1, by simp only [C70.letters]; omega⟩, rfl, hf.nonzero hn hw⟩
  · intro n
    exact hf.nodup (by omega)

theorem free_simplified (r N : Nat) (L : HSeq → ℂ) : Simplified (C70.freeHost r) (C27.FreeWord r N) L :=
  ⟨by simp [C70.freeHost, C27.freeEnv], by simp [C70.freeHost, C27.freeEnv], by simp [C70.freeHost, C27.freeEnv]⟩

/-- The list with each word has its conjugate. -/
theorem free_closed (r N : Nat) (hr : r < 2 ^ 64) (hL : (∑ k ∈ Finset.range (N + 1), r ^ k) < 2 ^ 64) {n : Nat} (hn : n ≤ N) :
    ∀ w ∈ (C87.freeCtx r).words n, ∃ u ∈ (C87.freeCtx r).words n, u.hash = ((C70.freeHost r).env.conj w).hash := by
  intro w hw
  have h0 := (C87.free_faithful r hr hL (fun _ => (0 : ℝ))).nonzero hn hw
  obtain ⟨l, h1, h2, rfl⟩ := ((C87.free_words r hr hL hn).2 w).mp hw
  refine ⟨C70.letters r l.reverse, ((C87.free_words r hr hL hn).2 _).mpr ⟨l.reverse, fun o ho => h1 o (List.mem_reverse.mp ho), by simpa using h2, rfl⟩, ?_⟩
  simp only [C70.letters] at h0
  have h3 : hashWord (UInt64.ofNat r) l.reverse ≠ 0 := C88.hash_one hr hL (fun o ho => h1 o (List.mem_reverse.mp ho)) (by rw [List.length_reverse]; omega)
  simp [C70.freeHost, C27.freeEnv, HSeq.conjugate, HSeq.isZero, HSeq.construct, HSeq.toCanonical, HSeq.ctxHash, HSeq.hashOps, HSeq.movedFrom, C70.letters, h0, h3]

/-- Two letters: the table is filled with the words of two letters, and the index updated to length two. -/
def sampleTable : Table := ((Table.new.fill (C27.freeEnv 2) ([[], [0], [1], [0, 0], [0, 1], [1, 0], [1, 1]].map fun l => C70.letters 2 l)).getD (Table.new, 0)).1

theorem sample_words : (C87.freeCtx 2).words 2 = [[], [0], [1], [0, 0], [0, 1], [1, 0], [1, 1]].map fun l => C70.letters 2 l := by
  have hL : (∑ k ∈ Finset.range (2 + 1), 2 ^ k) < 2 ^ 64 := by decide
  obtain ⟨h1, h2⟩ := C87.free_words 2 (by norm_num) hL (le_refl 2)
  have e : ((C87.freeCtx 2).words 2).map HSeq.ops = [[], [0], [1], [0, 0], [0, 1], [1, 0], [1, 1]] := by
    have hsorted : [[], [0], [1], [0, 0], [0, 1], [1, 0], [1, 1]].Pairwise (List.Shortlex (· < · : Nat → Nat → Prop)) := by
      simp [List.shortlex_def]
      decide
    have hne : ∀ {l : List (List Nat)}, l.Pairwise (List.Shortlex (· < ·)) → l.Nodup := by
      intro l hl
      refine hl.imp ?_
      rintro a b h rfl
      rcases List.shortlex_def.mp h with h | ⟨-, h⟩
      · omega
      · exact List.lt_irrefl _ h
    refine List.Perm.eq_of_pairwise (le := List.Shortlex (· < ·)) ?_ h1 hsorted ?_
    · intro a b _ _ hab hba
      exfalso
      rcases List.shortlex_def.mp hab with h | ⟨h, h'⟩ <;> rcases List.shortlex_def.mp hba with g | ⟨g, g'⟩
      · omega
      · omega
      · omega
      · exact lt_asymm (a := a) (b := b) h' g'
    · rw [List.perm_ext_iff_of_nodup (hne h1) (hne hsorted)]
      intro a
      rw [List.mem_map]
      constructor
      · rintro ⟨s, hs, rfl⟩
        obtain ⟨w, w1, w2, rfl⟩ := (h2 s).mp hs
        simp only [C70.letters]
        match w, w1, w2 with
        | [], _, _ => simp
        | [a], w1, _ =>
          have := w1 a (by simp)
          interval_cases a <;> simp
        | [a, b], w1, _ =>
          have := w1 a (by simp)
          have := w1 b (by simp)
          interval_cases a <;> interval_cases b <;> simp
        | a :: b :: c :: l, _, w2 => simp at w2
      · intro ha
        refine ⟨C70.letters 2 a, (h2 _).mpr ⟨a, ?_, ?_, rfl⟩, rfl⟩
        · revert a
          unfold C02.IsWord
          decide
        · revert a
          decide
  have e2 : (C87.freeCtx 2).words 2 = (((C87.freeCtx 2).words 2).map HSeq.ops).map fun l => C70.letters 2 l := by
    rw [List.map_map]
    conv_lhs => rw [← List.map_id ((C87.freeCtx 2).words 2)]
    refine List.map_congr_left fun s hs => ?_
    obtain ⟨w, -, -, rfl⟩ := (h2 s).mp hs
    rfl
  rw [e2, e]

/-- `ba` is at position 5, as the conjugate of the symbol of `ab`. -/
example : ∃ I, Reached (C70.freeHost 2) (C27.FreeWord 2 4) (fun n => (C87.freeCtx 2).words (min n 4)) sampleTable I ∧ I.maxLength = 2 ∧
    I.entries = [1, 2, 3, 4, 5, -5, 6] := by
  have e : Index.new.update (C70.freeHost 2).env sampleTable (fun n => (C87.freeCtx 2).words (min n 4)) 2 = some (⟨[1, 2, 3, 4, 5, -5, 6], 2⟩, true) := by
    have hw : (fun n => (C87.freeCtx 2).words (min n 4)) 2 = (C87.freeCtx 2).words 2 := rfl
    unfold Index.update
    rw [hw, sample_words]
    decide +kernel
  have hf : step (C70.freeHost 2).env Table.new (.fill ([[], [0], [1], [0, 0], [0, 1], [1, 0], [1, 1]].map fun l => C70.letters 2 l)) =
      some (sampleTable, none) := by
    decide +kernel
  refine ⟨_, .update (.step .new ?_ ?_ hf) e, rfl, rfl⟩
  · intro w hw
    obtain ⟨l, hl, rfl⟩ := List.mem_map.mp hw
    refine .inr ⟨rfl, ?_⟩
    revert l
    unfold C70.letters C02.IsWord
    decide
  · intro w hw _
    obtain ⟨l, hl, rfl⟩ := List.mem_map.mp hw
    rfl

end Moment.C89
