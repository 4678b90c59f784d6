import Verif.Model.SymbolQuery
import Verif.Proof.MatrixTimes
import Verif.Props.C27_SymbolTable
import Verif.Props.C129_RulesInput

/-! # C139: rows of the symbol table that are returned to the user -/

namespace Moment.C139
open Moment.RuleInput (Out cast16)
open Moment.SymbolQuery
open Moment.Symbols (Sym Table Env Op Words)
open Moment.C27 (freeEnv FreeWord)

/-! ## The whole table -/

/-- All rows, or those from a given symbol on: one for each symbol, in order of their numbers, with its word, its conjugate and whether it is Hermitian. -/
theorem C139_table {c : Env} {W : HSeq → Prop} (hW : Words c W) {l : List Op} (hl : ∀ x ∈ l, x.Legal c W) {t : Table} (ht : Symbols.run c Table.new l = some t)
    (seq : List Nat → HSeq) (n : Nat) : ∃ rows, run c seq t (.start n) = .ok ([1, t.syms.length - n], rows) ∧ rows.length = t.syms.length - n ∧
      (n = 0 → run c seq t .all = .ok ([1, t.syms.length], rows)) ∧
      ∀ i, n + i < t.syms.length → ∃ s r, t.syms[n + i]? = some s ∧ rows[i]? = some r ∧ r.symbol = ((n + i : Nat) : Int) ∧ r.operators = s.seq ∧
        r.conjugate = (if s.herm then s.seq else s.conj) ∧ r.hermitian = s.herm ∧ (∀ k, s.re = some k ↔ r.re = k + 1) ∧ ∀ k, s.im = some k ↔ r.im = k + 1 := by
  have hlen : (table t n).length = t.syms.length - n := by simp [table]
  refine ⟨table t n, by simp only [run, hlen], hlen, fun h => by subst h; simp only [run, hlen, Nat.sub_zero], fun i hi => ?_⟩
  have hs : t.syms[n + i]? = some t.syms[n + i] := List.getElem?_eq_getElem hi
  have hid := (C27.C27_stable hW l [] hl (by simp) ht rfl hs).1
  have one : ∀ (x : Option Nat) k, x = some k ↔ fromOne x = k + 1 := by
    intro x k
    cases x <;> simp [fromOne]
  refine ⟨t.syms[n + i], row t.syms[n + i] none none, hs, ?_, ?_, rfl, rfl, rfl, one _, one _⟩
  · rw [table, List.getElem?_map, List.getElem?_drop, hs]
    rfl
  · show ((t.syms[n + i]).id : Int) = _
    rw [hid]

/-! ## Rows that are new -/

/-- Operations that do not tell which symbols are real or imaginary. -/
def Grows (o : Op) : Prop := ∀ n re im, o ≠ .bits n re im

theorem createMany_prefix (re im : Bool) : ∀ (n : Nat) (t : Table), t.syms <+: (t.createMany re im n).syms
  | 0, t => List.prefix_refl _
  | n + 1, t => (show t.syms <+: (t.create re im).1.syms from List.prefix_append _ _).trans (createMany_prefix re im n _)

theorem step_prefix {c : Env} {t t' : Table} {o : Op} {r : Option Nat} (ho : Grows o) (h : Symbols.step c t o = some (t', r)) : t.syms <+: t'.syms := by
  cases o with
  | create a b =>
    simp only [Symbols.step, Option.some.injEq, Prod.mk.injEq] at h
    rw [← h.1]
    exact List.prefix_append _ _
  | createMany n a b =>
    simp only [Symbols.step, Option.some.injEq, Prod.mk.injEq] at h
    rw [← h.1]
    exact createMany_prefix a b n t
  | seq w =>
    simp only [Symbols.step, Option.map_eq_some_iff, Prod.mk.injEq] at h
    obtain ⟨m, hm, rfl, -⟩ := h
    unfold Table.mergeSeq at hm
    exact SymbolMatrix.mergeSym_prefix (id := m.2.1) (b := m.2.2) hm
  | pair w =>
    simp only [Symbols.step, Option.map_eq_some_iff, Prod.mk.injEq] at h
    obtain ⟨m, hm, rfl, -⟩ := h
    exact SymbolMatrix.mergeSym_prefix (id := m.2.1) (b := m.2.2) hm
  | herm w =>
    simp only [Symbols.step, Option.map_eq_some_iff, Prod.mk.injEq] at h
    obtain ⟨m, hm, rfl, -⟩ := h
    exact SymbolMatrix.mergeSym_prefix (id := m.2.1) (b := m.2.2) hm
  | fill ws =>
    simp only [Symbols.step, Table.fill, Option.map_eq_some_iff, Prod.mk.injEq] at h
    obtain ⟨m, ⟨m', hm, rfl⟩, rfl, -⟩ := h
    exact SymbolMatrix.mergeAll_prefix _ (ids := m'.2.1) (n := m'.2.2) hm
  | bits n a b => exact absurd rfl (ho n a b)

theorem run_prefix {c : Env} : ∀ {l : List Op} {t t' : Table}, (∀ o ∈ l, Grows o) → Symbols.run c t l = some t' → t.syms <+: t'.syms
  | [], t, t', _, h => by
    simp only [Symbols.run, Option.some.injEq] at h
    rw [h]
  | o :: l, t, t', ho, h => by
    simp only [Symbols.run, Option.bind_eq_some_iff] at h
    obtain ⟨r, h1, h2⟩ := h
    exact (step_prefix (ho o (by simp)) h1).trans (run_prefix (fun o' h' => ho o' (by simp [h'])) h2)

/-- Whatever is done to the table, the rows that were returned before followed by the rows from the first new symbol on are all rows. Missing: telling which symbols are real
or imaginary, see `C139_refuted_bits`. -/
theorem C139_new_partial {c : Env} {t t' : Table} {l : List Op} (hl : ∀ o ∈ l, Grows o) (h : Symbols.run c t l = some t') (seq : List Nat → HSeq) :
    ∃ old new, run c seq t .all = .ok ([1, old.length], old) ∧ run c seq t' (.start t.syms.length) = .ok ([1, new.length], new) ∧
      run c seq t' .all = .ok ([1, (old ++ new).length], old ++ new) := by
  obtain ⟨x, hx⟩ := run_prefix hl h
  refine ⟨table t 0, table t' t.syms.length, rfl, rfl, ?_⟩
  have : table t' 0 = table t 0 ++ table t' t.syms.length := by
    simp [table, ← hx]
  simp only [run, this]

/-- **Refuted.** If it is told that a symbol is real, its row changes although no symbol is new: the row that was returned before says that it has an imaginary part. -/
theorem C139_refuted_bits (c : Env) (seq : List Nat → HSeq) : ∃ t t' old new, Symbols.run c Table.new [.create true true] = some t ∧
    Symbols.run c t [.bits 3 (fun _ => true) fun _ => false] = some t' ∧ run c seq t .all = .ok ([1, 3], old) ∧ run c seq t' (.start t.syms.length) = .ok ([1, 0], []) ∧
    run c seq t' .all = .ok ([1, 3], new) ∧ (old[2]?).map Row.hermitian = some false ∧ (new[2]?).map Row.hermitian = some true ∧
    (old[2]?).map Row.im = some 1 ∧ (new[2]?).map Row.im = some 0 := by
  refine ⟨_, _, _, _, rfl, rfl, rfl, rfl, rfl, rfl, rfl, rfl, rfl⟩

/-! ## Searches -/

/-- The constructor of words without rules, over `r` letters. -/
def free (r : Nat) (w : List Nat) : HSeq := HSeq.construct { radix := r, simplify := fun w g => some (w, g) } false w .pos

theorem free_eq {r : Nat} {w : List Nat} (h : hashWord (UInt64.ofNat r) w ≠ 0) : free r w = ⟨hashWord (UInt64.ofNat r) w, w, .pos⟩ := by
  simp [free, HSeq.construct, HSeq.toCanonical, HSeq.ctxHash, HSeq.hashOps, HSeq.movedFrom, HSeq.isZero, h]

/-- Operators counted from one. -/
def counted (w : List Nat) : List Int := w.map fun (k : Nat) => (k : Int) + 1

theorem readOp_counted {w : List Nat} (h : ∀ k ∈ w, k < 32768) : Out.each readOp (counted w) = .ok w := by
  unfold counted
  rw [C125.each_ok, List.forall₂_map_left_iff, List.forall₂_same]
  intro k hk
  have := h k hk
  have e : cast16 ((k : Int) + 1 - 1) = k := by
    rw [add_sub_cancel_right]
    exact C125.cast16_id (by omega)
  unfold readOp
  rw [e, if_neg (by omega), if_neg (by omega), Int.toNat_natCast]

theorem findRow_free {r : Nat} (t : Table) (w : HSeq) : findRow (freeEnv r) t w = (t.find w.hash).bind fun k => (t.syms[k.1]?).map fun s => row s (some k.2) none := by
  unfold findRow Table.lookup
  cases t.find w.hash with
  | some k => rfl
  | none => rfl

/-- In a context without rules, the search for a word gives the row of the symbol with this word, or with the reversed word, which is said to be conjugated then; and no row
if there is no such symbol. A search for many gives for each the same, or a row with number -1. -/
theorem C139_search {r L : Nat} (hr : r ≤ 32768) (hL : (∑ k ∈ Finset.range (L + 1), r ^ k) < 2 ^ 64) {l : List Op} (hl : ∀ x ∈ l, x.Legal (freeEnv r) (FreeWord r L)) {t : Table}
    (ht : Symbols.run (freeEnv r) Table.new l = some t) {w : List Nat} (hw : C02.IsWord r w) (hwL : w.length ≤ L) :
    (run (freeEnv r) (free r) t (.word (counted w)) = .ok ([1, 0], []) ∧ run (freeEnv r) (free r) t (.words [1, 1] [counted w]) = .ok ([1, 1], [missing (freeEnv r)]) ∧
      ∀ s ∈ t.syms, ∀ q, s.seq = some q → q.hash ≠ 0 → q.ops ≠ w ∧ q.ops ≠ w.reverse) ∨
    ∃ s q b, s ∈ t.syms ∧ s.seq = some q ∧ q.hash ≠ 0 ∧ q.ops = (if b then w.reverse else w) ∧
      run (freeEnv r) (free r) t (.word (counted w)) = .ok ([1, 1], [row s (some b) none]) ∧
      run (freeEnv r) (free r) t (.words [1, 1] [counted w]) = .ok ([1, 1], [row s (some b) none]) := by
  have hr' : r < 2 ^ 64 := by omega
  have hW := C27.words_free r L hr' hL
  have inj := fun {a b : List Nat} (ha : C02.IsWord r a) (hb : C02.IsWord r b) (ha' : a.length ≤ L) (hb' : b.length ≤ L) => C02.C02_hash_shortlex_partial r L hr' hL a b ha hb ha' hb'
  have rev : ∀ {a : List Nat}, C02.IsWord r a → C02.IsWord r a.reverse := fun h o ho => h o (List.mem_reverse.mp ho)
  have hne := (inj hw hw hwL hwL).2.2.1
  have hh : (free r w).hash = hashWord (UInt64.ofNat r) w := by rw [free_eq hne]
  have hread := readOp_counted (w := w) fun k hk => (hw k hk).trans_le hr
  have cj : ∀ q : HSeq, FreeWord r L q → q.hash ≠ 0 → (C02.IsWord r q.ops ∧ q.ops.length ≤ L ∧ q.hash = hashWord (UInt64.ofNat r) q.ops) ∧
      ((freeEnv r).conj q).hash = hashWord (UInt64.ofNat r) q.ops.reverse := by
    rintro q (⟨h, -⟩ | ⟨h, h1, h2⟩) h0
    · exact absurd h h0
    · have hz := (inj (rev h1) (rev h1) (by simpa using h2) (by simpa using h2)).2.2.1
      refine ⟨⟨h1, h2, h⟩, ?_⟩
      simp [freeEnv, HSeq.conjugate, HSeq.isZero, h0, HSeq.construct, HSeq.toCanonical, HSeq.ctxHash, HSeq.hashOps, HSeq.movedFrom, hz]
  obtain ⟨i1, -⟩ := Symbols.run_keys hW l (Symbols.inv_new _ _ hW) hl ht
  cases hf : t.find (hashWord (UInt64.ofNat r) w) with
  | none =>
    refine .inl ⟨?_, ?_, fun s hs q hq h0 => ?_⟩
    · simp only [run, hread, Out.bind, findRow_free, hh, hf, Option.bind_none]
    · simp only [run, Out.each, hread, Out.bind, findRow_free, hh, hf, Option.bind_none, List.map_cons, List.map_nil, Option.getD_none]
    · obtain ⟨i, hi⟩ := List.mem_iff_getElem?.mp hs
      have hk : t.keys[i]? = some s.key := by simp [Table.keys, hi]
      have hid := i1.ids _ _ hk
      have hk' : t.keys[i]? = some (i, some q, s.conj) := by
        rw [hk]
        simp only [Sym.key] at hid ⊢
        rw [hid, hq]
      obtain ⟨f1, f2, f3, -⟩ := i1.full i q s.conj hk'
      obtain ⟨⟨-, -, g3⟩, g4⟩ := cj q f1 h0
      have hn : t.hashes.lookup (hashWord (UInt64.ofNat r) w) = none := by
        unfold Table.find at hf
        simpa using hf
      refine ⟨fun e => ?_, fun e => ?_⟩
      · rw [g3, e, hn] at f2
        cases f2
      · rw [g4, e, List.reverse_reverse, hn] at f3
        cases f3
  | some k =>
    have hf' := hf
    unfold Table.find at hf'
    obtain ⟨x, hx, rfl⟩ := Option.map_eq_some_iff.mp hf'
    obtain ⟨q, cq, hq, hqW, hp, hn⟩ := i1.sound _ _ hx
    unfold Table.keys at hq
    rw [List.getElem?_map, Option.map_eq_some_iff] at hq
    obtain ⟨s, hs, hs'⟩ := hq
    simp only [Sym.key, Prod.mk.injEq] at hs'
    have h0 : q.hash ≠ 0 := by
      intro h0
      by_cases hx0 : x < 0
      · have e1 := (hn hx0).1
        have e2 := hW.hash q HSeq.zero hqW hW.zero.1 h0
        rw [hW.zero.2, e1] at e2
        exact hne e2
      · exact hne ((hp (by omega)).symm.trans h0)
    obtain ⟨⟨g1, g2, g3⟩, g4⟩ := cj q hqW h0
    refine .inr ⟨s, q, decide (x < 0), List.mem_of_getElem? hs, hs'.2.1, h0, ?_, ?_, ?_⟩
    · by_cases hx0 : x < 0
      · have e1 := (hn hx0).1
        rw [g4] at e1
        have e2 := (inj (rev g1) hw (by simpa using g2) hwL).1.mp e1
        simp [hx0, ← e2]
      · have e1 := hp (by omega)
        rw [g3] at e1
        simpa [hx0] using (inj g1 hw g2 hwL).1.mp e1
    · simp only [run, hread, Out.bind, findRow_free, hh, hf, Option.bind_some, hs, Option.map_some]
    · simp only [run, Out.each, hread, Out.bind, findRow_free, hh, hf, Option.bind_some, hs, Option.map_some, List.map_cons, List.map_nil, Option.getD_some]

/-- Words with numbers below one are refused. -/
theorem C139_refused (c : Env) (seq : List Nat → HSeq) (t : Table) {l : List Int} (hl : ∀ x ∈ l, x ≤ 32768) (h : ∃ x ∈ l, x < 1) : run c seq t (.word l) = .refused := by
  have : Out.each readOp l = .refused := C129.each_refused (fun x hx => by
    unfold readOp
    have := hl x hx
    by_cases h1 : x < 1
    · rw [if_pos h1]
      exact fun e => by cases e
    · rw [if_neg h1, C125.cast16_id (by omega), if_neg (by omega)]
      exact fun e => by cases e) (by
    obtain ⟨x, hx, h1⟩ := h
    exact ⟨x, hx, by rw [readOp, if_pos h1]⟩)
  simp only [run, this, Out.bind]

/-- **Refuted.** Numbers of operators that do not exist are not refused: the operator after the last has the hash of the first operator twice, so that the search for it gives
the row of that word, in each table and for each number of operators. -/
theorem C139_refuted_range {r : Nat} (hr : r < 32768) (t : Table) :
    run (freeEnv r) (free r) t (.word [(r : Int) + 1]) = run (freeEnv r) (free r) t (.word [1, 1]) := by
  have h1 : Out.each readOp [(r : Int) + 1] = .ok [r] := readOp_counted (w := [r]) (by simpa using hr)
  have h2 : Out.each readOp [1, 1] = .ok [0, 0] := readOp_counted (w := [0, 0]) (by simp)
  have e : hashWord (UInt64.ofNat r) [r] = hashWord (UInt64.ofNat r) [0, 0] := by
    simp [hashWord, hashLoop, add_comm]
    rw [← add_assoc]
    rfl
  have hz : hashWord (UInt64.ofNat r) [r] ≠ 0 := by
    simp only [hashWord, hashLoop, List.reverse_cons, List.reverse_nil, List.nil_append]
    intro h0
    have := congrArg UInt64.toNat h0
    simp [UInt64.toNat_add, UInt64.toNat_mul, UInt64.toNat_ofNat'] at this
    omega
  have e' : (free r [r]).hash = (free r [0, 0]).hash := by rw [free_eq hz, free_eq (e ▸ hz), ← e]
  simp only [run, h1, h2, Out.bind, findRow_free, e']

/-! ## Examples -/

/-- With two operators and a symbol for the first operator twice, that symbol is found for the third operator. -/
example : ∃ t row, Symbols.run (freeEnv 2) Table.new [.seq (free 2 [0, 0])] = some t ∧ run (freeEnv 2) (free 2) t (.word [3]) = .ok ([1, 1], [row]) ∧
    row.symbol = 2 ∧ row.operators = some (free 2 [0, 0]) := ⟨_, _, rfl, rfl, rfl, rfl⟩

/-- The hypotheses of `C139_search` hold for words of at most four of three letters. -/
example : (∑ k ∈ Finset.range (4 + 1), 3 ^ k) < 2 ^ 64 ∧ C02.IsWord 3 [2, 0, 1] ∧ (Op.seq (free 3 [0, 2])).Legal (freeEnv 3) (FreeWord 3 4) := by
  refine ⟨by decide, by unfold C02.IsWord; decide, .inr ⟨rfl, ?_, ?_⟩⟩
  · show C02.IsWord 3 [0, 2]
    unfold C02.IsWord; decide
  · show [0, 2].length ≤ 4
    decide

end Moment.C139
