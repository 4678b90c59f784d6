import Verif.Spec.SymbolMatrix
import Verif.Proof.SymbolBasis
import Verif.Proof.MatrixMake

/-! # Proofs about matrices of symbols -/

namespace Moment.SymbolMatrix

open Moment.Symbols
open Moment.Poly (Mono)
open Moment.MatrixBasis (Mat SymMat)

theorem scalar_phase (s : Sign) : scalar s = Rewrite.phase s := by cases s <;> rfl

/-! ## Registering -/

theorem compare_one {a b : HSeq} (h : HSeq.compareSameNegation a b = 1) : a.hash = b.hash ∧ a.sign = b.sign := by
  unfold HSeq.compareSameNegation at h
  split at h
  · simp at h
  · rename_i h1
    split at h
    · simp at h
    · rename_i h2
      split at h
      · rename_i h3
        refine ⟨by simpa using h1, ?_⟩
        revert h2 h3
        cases a.sign <;> cases b.sign <;> decide
      · simp at h

theorem proper_pair {c W} (hW : Words c W) {e v : HSeq} (he : W e) (hv : v.hash = (c.conj e).hash) :
    Proper c W (Sym.ofPair e v) { e with sign := .pos } := by
  have hs : (c.conj { e with sign := .pos }).hash = (c.conj e).hash := hW.hash _ _ (hW.sign _ he) he rfl
  refine ⟨rfl, hW.sign _ he, ?_, ?_, ?_⟩
  · intro w hw
    simp only [Sym.ofPair, Option.some.injEq] at hw
    rw [← hw, hs, hv]
  · simp [Sym.ofPair]
  · intro h
    simp only [Sym.ofPair, beq_iff_eq] at h
    have := (compare_one h).1
    simp only at this
    rw [hs, ← hv, this]

/-- A word and its conjugate, in either order. -/
structure Partner (c : Env) (W : HSeq → Prop) (p : HSeq × HSeq) : Prop where
  fst : W p.1
  snd : W p.2
  fwd : p.2.hash = (c.conj p.1).hash
  back : p.1.hash = (c.conj p.2).hash
  plain : HSeq.compareSameNegation p.1 p.2 = 1 → p.1.sign = .pos

theorem scan_proper {c W} (hW : Words c W) : ∀ (l : List (HSeq × HSeq)) (known : List UInt64), (∀ p ∈ l, Partner c W p) →
    ∀ s ∈ scan l known, ∃ q, Proper c W s q ∧ q.sign = .pos
  | [], _, _, s, hs => by simp [scan] at hs
  | (e, v) :: l, known, hp, s, hs => by
    obtain ⟨h1, h2, h3, h4, h5⟩ := hp _ List.mem_cons_self
    simp only at h1 h2 h3 h4 h5
    have ih := fun k => scan_proper hW l k fun p hp' => hp p (List.mem_cons_of_mem _ hp')
    unfold scan at hs
    dsimp only at hs
    split at hs
    · exact ih _ s hs
    · split at hs
      · rename_i hc
        have hc : HSeq.compareSameNegation e v = 1 := by simpa using hc
        rcases List.mem_cons.mp hs with rfl | hs
        · exact ⟨e, proper_ofSeq h1 (by rw [← h3, (compare_one hc).1]), h5 hc⟩
        · exact ih _ s hs
      · rcases List.mem_cons.mp hs with rfl | hs
        · split
          · exact ⟨_, proper_pair hW h1 h3, rfl⟩
          · exact ⟨_, proper_pair hW h2 h4, rfl⟩
        · exact ih _ s hs

theorem scanPlain_proper {c W} (hW : Words c W) (hh : ∀ w, W w → (c.conj w).hash = w.hash) : ∀ (l : List HSeq) (known : List UInt64), (∀ p ∈ l, W p) →
    ∀ s ∈ scanPlain l known, ∃ q, Proper c W s q ∧ q.sign = .pos
  | [], _, _, s, hs => by simp [scanPlain] at hs
  | e :: l, known, hp, s, hs => by
    have ih := fun k => scanPlain_proper hW hh l k fun p hp' => hp p (List.mem_cons_of_mem _ hp')
    have he := hW.sign _ (hp e List.mem_cons_self)
    unfold scanPlain at hs
    split at hs
    · exact ih _ s hs
    · rcases List.mem_cons.mp hs with rfl | hs
      · exact ⟨_, proper_ofSeq he (hh _ he), rfl⟩
      · exact ih _ s hs

theorem zero_one_proper {c W} (hW : Words c W) : (∃ q, Proper c W Sym.zero q ∧ q.sign = .pos) ∧ ∃ q, Proper c W Sym.one q ∧ q.sign = .pos := by
  refine ⟨⟨HSeq.zero, ⟨rfl, hW.zero.1, ?_, ?_, ?_⟩, rfl⟩, HSeq.identity .pos, ⟨rfl, hW.one.1, ?_, ?_, ?_⟩, rfl⟩
  · simp [Sym.zero, Sym.ofSeq]
  · intro _; rw [hW.zero.2]; rfl
  · intro _; rw [hW.zero.2]; rfl
  · simp [Sym.one, Sym.ofSeq]
  · intro _; rw [hW.one.2]; rfl
  · intro _; rw [hW.one.2]; rfl

/-- Everything that was looked at can be found, if the symbols of the list can. -/
theorem scan_found {F : UInt64 → Prop} {c : Env} {W} (hW : Words c W) (hF : ∀ w, W w → (F w.hash ↔ F (c.conj w).hash)) :
    ∀ (l : List (HSeq × HSeq)) (known : List UInt64), (∀ p ∈ l, Partner c W p) → (∀ x ∈ known, F x) →
      (∀ s ∈ scan l known, ∀ q, s.seq = some q → F q.hash) → ∀ p ∈ l, F p.1.hash
  | [], _, _, _, _, p, hp => by simp at hp
  | (e, v) :: l, known, hp, hk, hs, p, hpl => by
    obtain ⟨h1, h2, h3, h4, h5⟩ := hp _ List.mem_cons_self
    simp only at h1 h2 h3 h4 h5
    have ih := fun k => scan_found hW hF l k fun p hp' => hp p (List.mem_cons_of_mem _ hp')
    have hev : F e.hash ↔ F v.hash := by rw [hF e h1, h3]
    unfold scan at hs
    dsimp only at hs
    split at hs
    · rename_i hc
      rcases List.mem_cons.mp hpl with rfl | hpl
      · simp only [Bool.or_eq_true, Bool.and_eq_true, List.contains_iff_mem] at hc
        rcases hc with hc | ⟨-, hc⟩
        · exact hk _ hc
        · exact hev.mpr (hk _ hc)
      · exact ih _ hk hs p hpl
    · split at hs
      · have he : F e.hash := hs _ List.mem_cons_self _ rfl
        rcases List.mem_cons.mp hpl with rfl | hpl
        · exact he
        · refine ih _ ?_ (fun s h => hs s (List.mem_cons_of_mem _ h)) p hpl
          intro x hx
          rcases List.mem_cons.mp hx with rfl | hx
          · exact he
          · exact hk x hx
      · have he : F e.hash := by
          have := hs _ List.mem_cons_self
          split at this
          · exact this { e with sign := .pos } rfl
          · exact hev.mpr (this { v with sign := .pos } rfl)
        rcases List.mem_cons.mp hpl with rfl | hpl
        · exact he
        · refine ih _ ?_ (fun s h => hs s (List.mem_cons_of_mem _ h)) p hpl
          intro x hx
          simp only [List.mem_cons] at hx
          rcases hx with rfl | rfl | hx
          · exact hev.mp he
          · exact he
          · exact hk x hx

theorem scanPlain_found {F : UInt64 → Prop} : ∀ (l : List HSeq) (known : List UInt64), (∀ x ∈ known, F x) →
      (∀ s ∈ scanPlain l known, ∀ q, s.seq = some q → F q.hash) → ∀ p ∈ l, F p.hash
  | [], _, _, _, p, hp => by simp at hp
  | e :: l, known, hk, hs, p, hpl => by
    unfold scanPlain at hs
    split at hs
    · rename_i hc
      rcases List.mem_cons.mp hpl with rfl | hpl
      · exact hk _ (by simpa using hc)
      · exact scanPlain_found l _ hk hs p hpl
    · have he : F e.hash := hs _ List.mem_cons_self { e with sign := .pos } rfl
      rcases List.mem_cons.mp hpl with rfl | hpl
      · exact he
      · refine scanPlain_found l _ ?_ (fun s h => hs s (List.mem_cons_of_mem _ h)) p hpl
        intro x hx
        rcases List.mem_cons.mp hx with rfl | hx
        · exact he
        · exact hk x hx

theorem visitLower_eq (n : Nat) : visitLower n = Triangle.all false true n := by
  unfold visitLower Locality.collect
  have h := Triangle.run_first false true n
  rw [dif_pos ⟨_, h⟩]
  exact Yields.unique (Exists.choose_spec (⟨_, h⟩ : ∃ l, Yields _ _ _ _ l)) h

theorem mem_visitLower {n r c o : Nat} : ((r, c), o) ∈ visitLower n ↔ c ≤ r ∧ r < n ∧ o = r + c * n := by
  rw [visitLower_eq, Triangle.mem_all]
  simp only [Triangle.lo, Triangle.hi]
  simp
  constructor
  · rintro ⟨h1, h2, h3, h4⟩; omega
  · rintro ⟨h1, h2, h3⟩; omega

theorem mem_visitUpper {n r c o : Nat} : ((r, c), o) ∈ MatrixBasis.visitUpper n ↔ r ≤ c ∧ c < n ∧ o = r + c * n := by
  rw [MatrixBasis.visitUpper_eq, Triangle.mem_all]
  simp only [Triangle.lo, Triangle.hi]
  simp
  constructor
  · rintro ⟨h1, h2, h3, h4⟩; omega
  · rintro ⟨h1, h2, h3⟩; omega

theorem get_some {A : Mat HSeq} (hA : A.Square) {i j : Nat} (hi : i < A.dim) (hj : j < A.dim) :
    A.data[i + j * A.dim]? = some (word A i j) ∧ word A i j ∈ A.data := by
  have h : i + j * A.dim < A.data.length := by rw [hA]; exact Triangle.off_lt hi hj
  have e : A.data[i + j * A.dim]? = some (A.data[i + j * A.dim]) := List.getElem?_eq_getElem h
  have e' : word A i j = A.data[i + j * A.dim] := by
    unfold word MatrixBasis.Mat.get?
    rw [e]; rfl
  exact ⟨by rw [e, e'], by rw [e']; exact List.getElem_mem h⟩

theorem get_none {A : Mat HSeq} (hA : A.Square) (x : HSeq) (hx : x ∈ A.data) : ∃ i j, i < A.dim ∧ j < A.dim ∧ x = word A i j := by
  obtain ⟨k, hk, rfl⟩ := List.getElem_of_mem hx
  have hk' := hk
  rw [hA] at hk'
  have hd : 0 < A.dim := by
    rcases Nat.eq_zero_or_pos A.dim with h | h
    · rw [h] at hk'; simp at hk'
    · exact h
  have h1 : k % A.dim < A.dim := Nat.mod_lt _ hd
  have h2 : k / A.dim < A.dim := Nat.div_lt_of_lt_mul hk'
  refine ⟨k % A.dim, k / A.dim, h1, h2, ?_⟩
  have := (get_some hA h1 h2).1
  have e : k % A.dim + k / A.dim * A.dim = k := by rw [Nat.mul_comm]; exact Nat.mod_add_div k A.dim
  rw [e, List.getElem?_eq_getElem hk] at this
  exact Option.some.inj this

theorem mem_visited {A : Mat HSeq} (hA : A.Square) {herm : Bool} {x : HSeq} (hx : x ∈ visited herm A) : x ∈ A.data := by
  unfold visited at hx
  split at hx
  · obtain ⟨⟨⟨r, c⟩, o⟩, hv, rfl⟩ := List.mem_map.mp hx
    obtain ⟨h1, h2, rfl⟩ := mem_visitLower.mp hv
    have := get_some hA h2 (Nat.lt_of_le_of_lt h1 h2)
    simp only [this.1, Option.getD_some]
    exact this.2
  · exact hx

theorem visited_lower {A : Mat HSeq} (hA : A.Square) {i j : Nat} (hi : i < A.dim) (hj : j ≤ i) (herm : Bool) : word A i j ∈ visited herm A := by
  have := get_some hA hi (Nat.lt_of_le_of_lt hj hi)
  unfold visited
  split
  · exact List.mem_map.mpr ⟨((i, j), i + j * A.dim), mem_visitLower.mpr ⟨hj, hi, rfl⟩, by simp only [this.1, Option.getD_some]⟩
  · exact this.2

/-! ## Hermitian matrices of words -/

theorem isHerm_iff (c : Env) (A : Mat HSeq) :
    isHerm c A = true ↔ ∀ i j, j ≤ i → i < A.dim → (word A i j).hash = (c.conj (word A j i)).hash ∧ (word A i j).sign = (c.conj (word A j i)).sign := by
  unfold isHerm firstNonHerm
  rw [Option.isNone_iff_eq_none, List.findSome?_eq_none_iff]
  simp only [List.findSome?_eq_none_iff, List.mem_range, List.mem_range'_1, ite_eq_left_iff, reduceCtorEq, imp_false, Bool.not_eq_true, Bool.not_eq_false]
  have hb : ∀ a b : HSeq, a.beq b = true ↔ a.hash = b.hash ∧ a.sign = b.sign := by
    intro a b
    unfold HSeq.beq
    by_cases h : a.hash = b.hash <;> simp [h]
  constructor
  · intro h i j h1 h2
    exact (hb _ _).mp (h j (by omega) i ⟨h1, by omega⟩)
  · intro h j hj i hi
    exact (hb _ _).mpr (h i j hi.1 (by omega))

/-! ## The table after registering -/

/-- The invariant of the table. -/
structure Fit (h : Host) (W : HSeq → Prop) (t : Table) : Prop where
  inv : Inv h.env W t.keys t.hashes
  plain : Plain t

theorem mergeSym_plain {c : Env} {t t' : Table} {e : Sym} {id : Nat} {b : Bool} (ht : Plain t) (he : ∀ q, e.seq = some q → q.sign = .pos)
    (h : t.mergeSym c e = some (t', id, b)) : Plain t' := by
  unfold Table.mergeSym at h
  split at h
  · simp at h
  · rename_i w hw
    split at h
    · simp only [Option.map_eq_some_iff, Prod.mk.injEq] at h
      obtain ⟨s, -, rfl, -⟩ := h
      exact ht
    · simp only [Option.some.injEq, Prod.mk.injEq] at h
      obtain ⟨rfl, -, -⟩ := h
      intro s hs q hq
      rcases List.mem_append.mp hs with hs | hs
      · exact ht s hs q hq
      · rw [List.mem_singleton.mp hs] at hq
        exact he q hq

theorem mergeAll_plain {c : Env} : ∀ (l : List Sym) {t t' : Table} {ids : List Nat} {n : Nat}, Plain t → (∀ e ∈ l, ∀ q, e.seq = some q → q.sign = .pos) →
    t.mergeAll c l = some (t', ids, n) → Plain t'
  | [], t, t', ids, n, ht, _, h => by
    simp only [Table.mergeAll, Option.some.injEq, Prod.mk.injEq] at h
    exact h.1 ▸ ht
  | e :: l, t, t', ids, n, ht, he, h => by
    unfold Table.mergeAll at h
    simp only [Option.bind_eq_bind, Option.bind_eq_some_iff, Option.some.injEq, Prod.mk.injEq] at h
    obtain ⟨⟨t1, id1, b1⟩, h1, ⟨t2, ids2, n2⟩, h2, rfl, -⟩ := h
    exact mergeAll_plain l (mergeSym_plain ht (he e List.mem_cons_self) h1) (fun e' he' => he e' (List.mem_cons_of_mem _ he')) h2

theorem found_conj {h : Host} {W : HSeq → Prop} (hW : Words h.env W) {t : Table} (ht : Inv h.env W t.keys t.hashes) (w : HSeq) (hw : W w) :
    (t.hashes.lookup w.hash).isSome ↔ (t.hashes.lookup (h.env.conj w).hash).isSome := by
  constructor
  · intro h1
    by_contra h2
    have h2 : t.hashes.lookup (h.env.conj w).hash = none := Option.not_isSome_iff_eq_none.mp h2
    have := conj_absent hW ht (hW.conj _ hw) h2
    rw [hW.twice _ hw] at this
    rw [this] at h1
    simp at h1
  · intro h1
    by_contra h2
    have h2 : t.hashes.lookup w.hash = none := Option.not_isSome_iff_eq_none.mp h2
    rw [conj_absent hW ht hw h2] at h1
    simp at h1

theorem partner_visited {h : Host} {W : HSeq → Prop} (hS : Setting h W) (hc : h.canNonHerm = true) {A : Mat HSeq} (hA : Usable h W A) {herm : Bool} :
    ∀ p ∈ ((visited herm A).map fun x => if herm then (h.env.conj x, x) else (x, h.env.conj x)), Partner h.env W p := by
  intro p hp
  obtain ⟨x, hx, rfl⟩ := List.mem_map.mp hp
  have hx := mem_visited hA.square hx
  have hw := hA.mem x hx
  have hpl := hA.plain hc x hx
  cases herm with
  | true =>
    refine ⟨hS.words.conj _ hw, hw, (hS.words.twice _ hw).symm, rfl, fun e => ?_⟩
    rw [if_pos rfl] at e ⊢
    rw [(compare_one e).2]
    exact hpl e
  | false =>
    refine ⟨hw, hS.words.conj _ hw, rfl, (hS.words.twice _ hw).symm, fun e => hpl ?_⟩
    simp only [Bool.false_eq_true, if_false] at e
    obtain ⟨e1, e2⟩ := compare_one e
    simp [HSeq.compareSameNegation, e1, e2]

/-- What registering does. -/
theorem register {h : Host} {W : HSeq → Prop} (hS : Setting h W) {t : Table} (ht : Fit h W t) {A : Mat HSeq} (hA : Usable h W A) (herm : Bool) :
    ∃ t' ids n, t.mergeAll h.env (identify h herm A) = some (t', ids, n) ∧ Fit h W t' ∧ Ext t.keys t.hashes t'.keys t'.hashes ∧
      ∀ x ∈ visited herm A, (t'.hashes.lookup x.hash).isSome := by
  have hW := hS.words
  have hprop : ∀ e ∈ identify h herm A, ∃ w, Proper h.env W e w ∧ w.sign = .pos := by
    intro e he
    unfold identify at he
    rcases List.mem_cons.mp he with rfl | he
    · exact (zero_one_proper hW).1
    rcases List.mem_cons.mp he with rfl | he
    · exact (zero_one_proper hW).2
    split at he
    · rename_i hc
      exact scan_proper hW _ _ (partner_visited hS hc hA) e he
    · rename_i hc
      exact scanPlain_proper hW (hS.herm (by simpa using hc)) _ _ (fun x hx => hA.mem x (mem_visited hA.square hx)) e he
  obtain ⟨t', ids, n, h1, h2, h3, h4⟩ := mergeAll_keys hW (identify h herm A) ht.inv fun e he => (hprop e he).imp fun w hw => hw.1
  refine ⟨t', ids, n, h1, ⟨h2, ?_⟩, h3, ?_⟩
  · refine mergeAll_plain _ ht.plain (fun e he q hq => ?_) h1
    obtain ⟨w, hw, hs⟩ := hprop e he
    rw [hw.seq] at hq
    exact Option.some.inj hq ▸ hs
  · have hknown : ∀ x ∈ ([1, 0] : List UInt64), (t'.hashes.lookup x).isSome := by
      intro x hx
      simp only [List.mem_cons, List.not_mem_nil, or_false] at hx
      rcases hx with rfl | rfl
      · have := (h2.full _ _ _ h2.one).2.1
        have e : (HSeq.identity .pos).hash = 1 := rfl
        rw [e] at this
        rw [this]; rfl
      · have := (h2.full _ _ _ h2.zero).2.1
        have e : HSeq.zero.hash = 0 := rfl
        rw [e] at this
        rw [this]; rfl
    unfold identify at h4
    intro x hx
    by_cases hc : h.canNonHerm = true
    · rw [if_pos hc] at h4
      have := scan_found (F := fun x => (t'.hashes.lookup x).isSome) hW (fun w hw => found_conj hW h2 w hw) _ _ (partner_visited hS hc hA) hknown
        (fun s hs q hq => h4 s (List.mem_cons_of_mem _ (List.mem_cons_of_mem _ hs)) q hq) _ (List.mem_map.mpr ⟨x, hx, rfl⟩)
      have hw := hA.mem x (mem_visited hA.square hx)
      cases herm with
      | true => exact (found_conj hW h2 x hw).mpr this
      | false => exact this
    · rw [if_neg hc] at h4
      exact scanPlain_found (F := fun x => (t'.hashes.lookup x).isSome) _ _ hknown
        (fun s hs q hq => h4 s (List.mem_cons_of_mem _ (List.mem_cons_of_mem _ hs)) q hq) x hx

/-! ## Entries -/

/-- What is known of the entry of a word. -/
structure EntryOf (t : Table) (f : ℂ) (w : HSeq) (m : Mono) (s : Sym) : Prop where
  eq : entry t f w = some (m, s)
  sym : t.syms[m.id]? = some s
  id : s.id = m.id
  factor : m.factor = f * scalar w.sign

theorem entry_spec {h : Host} {W : HSeq → Prop} (hS : Setting h W) {t : Table} (ht : Fit h W t) {w : HSeq} (hw : W w)
    (hf : (t.hashes.lookup w.hash).isSome) (f : ℂ) :
    ∃ m s, EntryOf t f w m s ∧ ∀ L v, Moments h.env W L → Agrees t L v →
      (if m.conj then (starRingEnd ℂ) (v m.id) else v m.id) * Rewrite.phase w.sign = L w := by
  obtain ⟨k, hk⟩ := Option.isSome_iff_exists.mp hf
  obtain ⟨q, cq, h1, hq, hp, hn⟩ := ht.inv.sound _ _ hk
  unfold Table.keys at h1
  rw [List.getElem?_map, Option.map_eq_some_iff] at h1
  obtain ⟨s, hs, hs'⟩ := h1
  simp only [Sym.key, Prod.mk.injEq] at hs'
  obtain ⟨hid, hseq, -⟩ := hs'
  refine ⟨⟨s.id, decide (k < 0), f * scalar w.sign⟩, s, ⟨?_, by rw [hid]; exact hs, rfl, rfl⟩, ?_⟩
  · simp [entry, Table.find, hk, hs]
  · intro L v hL hv
    have hpq : q.sign = .pos := ht.plain s (List.mem_of_getElem? hs) q hseq
    have hvq : v s.id = L q := hv.word _ _ _ (by rw [hid]; exact hs) hseq
    have hwp : W { w with sign := .pos } := hS.words.sign _ hw
    rw [hL.phase w hw, mul_comm]
    congr 1
    by_cases hk0 : k < 0
    · simp only [hk0, decide_true, if_true]
      obtain ⟨e1, e2⟩ := hn hk0
      rw [hvq, ← hL.conj q hq]
      exact hL.hash _ _ (hS.words.conj _ hq) hwp e1 (hS.plain q hq hpq (by rw [e1]; exact fun e => e2 e.symm))
    · simp only [hk0, decide_false, Bool.false_eq_true, if_false]
      rw [hvq]
      exact hL.hash _ _ hq hwp (hp (by omega)) hpq

theorem phase_conj (s : Sign) : (starRingEnd ℂ) (Rewrite.phase s) = Rewrite.phase s.conj := by
  cases s <;> simp [Rewrite.phase, Sign.conj, Sign.code, Sign.ofCode]

theorem agree_herm {t : Table} {L v} (hv : Agrees t L v) {id : Nat} {s : Sym} (hs : t.syms[id]? = some s) (hh : s.herm = true) :
    (starRingEnd ℂ) (v id) = v id :=
  hv.flags.herm id (by simp [MatrixBasis.polyTable, hs, hh])

/-- Writes, each of which is right at its place. -/
theorem foldl_set {α : Type} (P : Nat → α → Prop) : ∀ (ws : List (Nat × α)) (d : List α), (∀ w ∈ ws, P w.1 w.2 ∧ w.1 < d.length) →
    (ws.foldl (fun d w => d.set w.1 w.2) d).length = d.length ∧
      ∀ k, k < d.length → ((∃ w ∈ ws, w.1 = k) ∨ ∃ x, d[k]? = some x ∧ P k x) → ∃ x, (ws.foldl (fun d w => d.set w.1 w.2) d)[k]? = some x ∧ P k x
  | [], d, _ => ⟨rfl, fun k _ h => by simpa using h⟩
  | w :: ws, d, hw => by
    have h0 := hw w List.mem_cons_self
    obtain ⟨h1, h2⟩ := foldl_set P ws (d.set w.1 w.2) fun w' hw' => by
      rw [List.length_set]; exact hw w' (List.mem_cons_of_mem _ hw')
    rw [List.length_set] at h1 h2
    refine ⟨h1, fun k hk h => h2 k hk ?_⟩
    by_cases he : w.1 = k
    · subst he
      exact Or.inr ⟨w.2, by simp [h0.2], h0.1⟩
    · rcases h with ⟨w', hw', e⟩ | ⟨x, hx, hP⟩
      · rcases List.mem_cons.mp hw' with rfl | hw'
        · exact absurd e he
        · exact Or.inl ⟨w', hw', e⟩
      · exact Or.inr ⟨x, by rw [List.getElem?_set_ne he]; exact hx, hP⟩

/-- The value of a matrix of monomials at each place. -/
structure Stands (h : Host) (W : HSeq → Prop) (t : Table) (f : ℂ) (A : Mat HSeq) (S : Mat Mono) : Prop where
  dim : S.dim = A.dim
  square : S.Square
  known : ∀ m ∈ S.data, m.id < t.syms.length
  value : ∀ L v, Moments h.env W L → Agrees t L v → ∀ i j, i < A.dim → j < A.dim → valueAt v S i j = f * L (word A i j)

theorem index_inj {n i j i' j' : Nat} (hi : i < n) (hi' : i' < n) (e : i + j * n = i' + j' * n) : i = i' ∧ j = j' := by
  have h1 := congrArg (· % n) e
  simp only [Nat.add_mul_mod_self_right, Nat.mod_eq_of_lt hi, Nat.mod_eq_of_lt hi'] at h1
  subst h1
  have : j * n = j' * n := by omega
  exact ⟨rfl, Nat.eq_of_mul_eq_mul_right (by omega) this⟩

theorem build_spec {h : Host} {W : HSeq → Prop} (hS : Setting h W) {t : Table} (ht : Fit h W t) {A : Mat HSeq} (hA : Usable h W A) (f : ℂ)
    (hf : ∀ x ∈ visited (isHerm h.env A) A, (t.hashes.lookup x.hash).isSome) :
    ∃ S, build t f (isHerm h.env A) A = some S ∧ Stands h W t f A S := by
  have hlt : ∀ {m : Mono} {s : Sym}, t.syms[m.id]? = some s → m.id < t.syms.length := fun h => (List.getElem?_eq_some_iff.mp h).1
  unfold build
  by_cases hh : isHerm h.env A = true
  · rw [if_pos hh]
    rw [hh] at hf
    have hm := (isHerm_iff _ _).mp hh
    -- words of the upper triangle are found
    have hup : ∀ i j, i ≤ j → j < A.dim → (t.hashes.lookup (word A i j).hash).isSome := by
      intro i j h1 h2
      have := hf _ (visited_lower hA.square h2 h1 true)
      rw [(hm j i h1 h2).1] at this
      exact (found_conj hS.words ht.inv _ (hA.mem _ (get_some hA.square (by omega) h2).2)).mpr this
    -- the writes
    have key : ∀ v ∈ MatrixBasis.visitUpper A.dim, ∃ m s, EntryOf t f ((A.data[v.2]?).getD HSeq.zero) m s ∧
        (∀ L u, Moments h.env W L → Agrees t L u → m.value u = f * L (word A v.1.1 v.1.2)) ∧
        (∀ L u, Moments h.env W L → Agrees t L u → (mirror f ((A.data[v.2]?).getD HSeq.zero) (m, s)).value u = f * L (word A v.1.2 v.1.1)) := by
      rintro ⟨⟨i, j⟩, o⟩ hv
      obtain ⟨h1, h2, rfl⟩ := mem_visitUpper.mp hv
      have h3 : i < A.dim := by omega
      have hget := get_some hA.square h3 h2
      simp only [hget.1, Option.getD_some]
      have hw := hA.mem _ hget.2
      obtain ⟨m, s, he, hval⟩ := entry_spec hS ht hw (hup i j h1 h2) f
      refine ⟨m, s, he, ?_, ?_⟩
      · intro L u hL hu
        have := hval L u hL hu
        unfold Poly.Mono.value
        rw [he.factor, scalar_phase, ← this]
        ring
      · intro L u hL hu
        have := hval L u hL hu
        have hlow : L (word A j i) = (starRingEnd ℂ) (L (word A i j)) := by
          rw [← hL.conj _ hw]
          exact hL.hash _ _ (hA.mem _ (get_some hA.square h2 h3).2) (hS.words.conj _ hw) (hm j i h1 h2).1 (hm j i h1 h2).2
        rw [hlow, ← this]
        unfold Poly.Mono.value mirror
        simp only [map_mul, scalar_phase, he.id]
        by_cases hs : s.herm = true
        · have := agree_herm hu he.sym hs
          cases m.conj <;> simp [hs, this] <;> ring
        · cases m.conj <;> simp [hs] <;> ring
    have hws : hermWrites t f A = some ((MatrixBasis.visitUpper A.dim).map fun v =>
        let w := (A.data[v.2]?).getD HSeq.zero
        let e := ((entry t f w).getD (⟨0, false, 0⟩, Sym.zero))
        (v.2, e.1) :: if v.1.1 = v.1.2 then [] else [(v.1.2 + v.1.1 * A.dim, mirror f w e)]).flatten := by
      unfold hermWrites
      rw [MatrixBasis.mapM_some]
      · rfl
      · intro v hv
        obtain ⟨m, s, he, -⟩ := key v hv
        simp [he.eq]
    rw [hws]
    refine ⟨_, rfl, ?_⟩
    set ws := ((MatrixBasis.visitUpper A.dim).map fun v =>
        let w := (A.data[v.2]?).getD HSeq.zero
        let e := ((entry t f w).getD (⟨0, false, 0⟩, Sym.zero))
        (v.2, e.1) :: if v.1.1 = v.1.2 then [] else [(v.1.2 + v.1.1 * A.dim, mirror f w e)]).flatten with hwsdef
    let P : Nat → Mono → Prop := fun k m => m.id < t.syms.length ∧ ∀ i j, i < A.dim → j < A.dim → k = i + j * A.dim →
      ∀ L u, Moments h.env W L → Agrees t L u → m.value u = f * L (word A i j)
    have hP : ∀ w ∈ ws, P w.1 w.2 ∧ w.1 < (List.replicate (A.dim * A.dim) (⟨0, false, 0⟩ : Mono)).length := by
      intro w hw
      rw [hwsdef, List.mem_flatten] at hw
      obtain ⟨_, hl, hw⟩ := hw
      obtain ⟨⟨⟨i, j⟩, o⟩, hv, rfl⟩ := List.mem_map.mp hl
      obtain ⟨m, s, he, k1, k2⟩ := key _ hv
      obtain ⟨h1, h2, rfl⟩ := mem_visitUpper.mp hv
      have h3 : i < A.dim := by omega
      simp only at hw k1 k2 he
      rw [he.eq] at hw
      simp only [Option.getD_some] at hw
      rw [List.length_replicate]
      have hmid := hlt he.sym
      rcases List.mem_cons.mp hw with rfl | hw
      · refine ⟨⟨hmid, ?_⟩, Triangle.off_lt h3 h2⟩
        intro i' j' hi' hj' e
        obtain ⟨rfl, rfl⟩ := index_inj h3 hi' e
        exact k1
      · split at hw
        · simp at hw
        · rw [List.mem_singleton.mp hw]
          refine ⟨⟨by simp only [mirror, he.id]; exact hmid, ?_⟩, Triangle.off_lt h2 h3⟩
          intro i' j' hi' hj' e
          obtain ⟨rfl, rfl⟩ := index_inj h2 hi' e
          exact k2
    obtain ⟨hlen, hall⟩ := foldl_set P ws _ hP
    rw [List.length_replicate] at hlen hall
    have hcov : ∀ i j, i < A.dim → j < A.dim → ∃ w ∈ ws, w.1 = i + j * A.dim := by
      intro i j hi hj
      rw [hwsdef]
      rcases Nat.lt_or_ge j i with hlt' | hle
      · refine ⟨(i + j * A.dim, mirror f ((A.data[j + i * A.dim]?).getD HSeq.zero)
            ((entry t f ((A.data[j + i * A.dim]?).getD HSeq.zero)).getD (⟨0, false, 0⟩, Sym.zero))), List.mem_flatten.mpr
              ⟨_, List.mem_map.mpr ⟨((j, i), j + i * A.dim), mem_visitUpper.mpr ⟨by omega, hi, rfl⟩, rfl⟩, ?_⟩, rfl⟩
        have : ¬ j = i := by omega
        simp [this]
      · refine ⟨_, List.mem_flatten.mpr ⟨_, List.mem_map.mpr ⟨((i, j), i + j * A.dim), mem_visitUpper.mpr ⟨hle, hj, rfl⟩, rfl⟩, List.mem_cons_self⟩, rfl⟩
    refine ⟨rfl, hlen, ?_, ?_⟩
    · intro m hm'
      obtain ⟨k, hk, rfl⟩ := List.getElem_of_mem hm'
      simp only at hk
      have hk' := hk
      rw [hlen] at hk'
      have hd : 0 < A.dim := by
        rcases Nat.eq_zero_or_pos A.dim with e | e
        · rw [e] at hk'; simp at hk'
        · exact e
      have e : k % A.dim + k / A.dim * A.dim = k := by rw [Nat.mul_comm]; exact Nat.mod_add_div k A.dim
      obtain ⟨x, hx, hPx⟩ := hall k hk' (Or.inl (by
        have := hcov (k % A.dim) (k / A.dim) (Nat.mod_lt _ hd) (Nat.div_lt_of_lt_mul hk')
        rwa [e] at this))
      rw [List.getElem?_eq_getElem hk] at hx
      have := Option.some.inj hx
      simp only at this ⊢
      rw [this]
      exact hPx.1
    · intro L u hL hu i j hi hj
      obtain ⟨x, hx, hPx⟩ := hall _ (Triangle.off_lt hi hj) (Or.inl (hcov i j hi hj))
      unfold valueAt MatrixBasis.Mat.get?
      simp only
      rw [hx]
      exact hPx.2 i j hi hj rfl L u hL hu
  · rw [if_neg hh]
    have hh : isHerm h.env A = false := by simpa using hh
    rw [hh] at hf
    have hf : ∀ x ∈ A.data, (t.hashes.lookup x.hash).isSome := by simpa [visited] using hf
    let g : HSeq → Mono := fun w => ((entry t f w).map Prod.fst).getD ⟨0, false, 0⟩
    have hg : ∀ w ∈ A.data, (entry t f w).map Prod.fst = some (g w) ∧ (g w).id < t.syms.length ∧
        ∀ L u, Moments h.env W L → Agrees t L u → (g w).value u = f * L w := by
      intro w hw
      obtain ⟨m, s, he, hval⟩ := entry_spec hS ht (hA.mem w hw) (hf w hw) f
      have : g w = m := by simp [g, he.eq]
      rw [this]
      refine ⟨by simp [he.eq], hlt he.sym, ?_⟩
      intro L u hL hu
      have := hval L u hL hu
      unfold Poly.Mono.value
      rw [he.factor, scalar_phase, ← this]
      ring
    rw [MatrixBasis.mapM_some g fun w hw => (hg w hw).1]
    refine ⟨_, rfl, rfl, ?_, ?_, ?_⟩
    · have := hA.square
      unfold MatrixBasis.Mat.Square at this ⊢
      simpa using this
    · intro m hm
      obtain ⟨w, hw, rfl⟩ := List.mem_map.mp hm
      exact (hg w hw).2.1
    · intro L u hL hu i j hi hj
      have := get_some hA.square hi hj
      unfold valueAt MatrixBasis.Mat.get?
      simp only [List.getElem?_map, this.1, Option.map_some, Option.elim_some]
      exact (hg _ this.2).2.2 L u hL hu

end Moment.SymbolMatrix
