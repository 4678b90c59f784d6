import Verif.Model.MonoExport
import Verif.Props.C126_PolyInput

/-! # C130: monomials returned to the user as words

A row consists of operators, counted from one, and a coefficient. What it says is the coefficient times the moment of the word that the context makes of the
operators. -/

namespace Moment.C130
open Moment.MonoExport
open Moment.PolyInput (Value Streams stage supply found)
open Moment.RuleInput (Out)
open Moment.C125 (bind_ok each_ok)
open Moment.Poly (Mono)
open Moment.Symbols (Env Table Sym Offsets)
open Moment.SymbolMatrix (Host Setting Ready Moments Agrees Fit)
open Moment.C71 (SimpKeeps)

/-- What a row says. -/
def Says (resolve : List Nat → HSeq) (L : HSeq → ℂ) (r : Row) (z : ℂ) : Prop := ∃ u : List Nat, r.ops = u.map (· + 1) ∧ z = r.coefficient * L (resolve u)

/-- The context makes of the operators of a word the word without its sign. -/
structure Reads (resolve : List Nat → HSeq) (W : HSeq → Prop) (w : HSeq) : Prop where
  mem : W (resolve w.ops)
  pos : (resolve w.ops).sign = .pos
  hash : (resolve w.ops).hash = w.hash

/-- The words of all symbols, and their conjugates, are read back; all but the zero word, which looks like the empty word. -/
def ReadsAll (resolve : List Nat → HSeq) (W : HSeq → Prop) (t : Table) : Prop :=
  ∀ s ∈ t.syms, s.id ≠ 0 → ∀ w, s.seq = some w ∨ s.conj = some w → Reads resolve W w

/-- If a monomial is conjugated and its symbol is not Hermitian, then the conjugate word is another word, also without signs. -/
def Plainly (t : Table) (m : Mono) : Prop :=
  m.conj = true → ∀ s q u, t.syms[m.id]? = some s → s.herm = false → s.seq = some q → s.conj = some u → u.hash ≠ q.hash

variable {h : Host} {W : HSeq → Prop} {resolve : List Nat → HSeq} {L : HSeq → ℂ} {v : Nat → ℂ} {t : Table}

theorem reads_value (hS : Setting h W) (hL : Moments h.env W L) {w : HSeq} (hw : W w) (hr : Reads resolve W w) : Rewrite.phase w.sign * L (resolve w.ops) = L w := by
  rw [hL.phase w hw, hL.hash _ _ hr.mem (hS.words.sign w hw) hr.hash (by rw [hr.pos])]

/-- **C130, words.** A word with a factor is returned as what it is, whatever its sign. -/
theorem C130_word (hS : Setting h W) (hL : Moments h.env W L) {w : HSeq} (hw : W w) (hr : Reads resolve W w) (f : ℂ) : Says resolve L (partialWord w f) (f * L w) := by
  refine ⟨w.ops, rfl, ?_⟩
  rw [← reads_value hS hL hw hr, ← SymbolMatrix.scalar_phase]
  simp only [partialWord, row]
  ring

theorem key_of (ht : Fit h W t) {i : Nat} {s : Sym} (hs : t.syms[i]? = some s) : s.id = i ∧ t.keys[i]? = some (i, s.seq, s.conj) := by
  have h1 : t.keys[i]? = some (s.id, s.seq, s.conj) := by
    unfold Table.keys
    rw [List.getElem?_map, hs]
    rfl
  have h2 := ht.inv.ids i _ h1
  exact ⟨h2, by rw [h1, ← h2]⟩

/-- The table finds the word of a monomial. -/
theorem find_word (ht : Fit h W t) {m : Mono} (h0 : m.id ≠ 0) {s : Sym} (hs : t.syms[m.id]? = some s) {q w : HSeq} (hq : s.seq = some q)
    (hm : m.conj = true → s.herm = false) (hw : wordOf s m.conj = some w) (hp : Plainly t m) : t.find w.hash = some (m.id, m.conj) := by
  obtain ⟨-, hk⟩ := key_of ht hs
  rw [hq] at hk
  obtain ⟨-, f1, f2, f3⟩ := ht.inv.full _ _ _ hk
  unfold wordOf at hw
  by_cases hc : m.conj = true
  · rw [if_pos hc, SymbolMatrix.seqConj, if_neg (by simp [hm hc])] at hw
    have e := f3 w hw
    have hne := hp hc s q w hs (hm hc) hq hw
    rw [← e, if_neg hne] at f2
    simp only [Table.find, f2, Option.map_some, Int.natAbs_neg, Int.natAbs_natCast, hc, Option.some.injEq, Prod.mk.injEq, true_and, decide_eq_true_eq]
    omega
  · rw [if_neg hc, hq] at hw
    cases hw
    have : m.conj = false := by simpa using hc
    simp [Table.find, f1, this]

/-- One monomial. -/
theorem row_value (hS : Setting h W) (ht : Ready h W t) (hR : ReadsAll resolve W t) (hL : Moments h.env W L) (hv : Agrees t L v) {m : Mono} (h0 : m.id ≠ 0)
    (hp : Plainly t m) {s : Sym} (hs : t.syms[m.id]? = some s) (hn : s.seq ≠ none) {w : HSeq} (hw : wordOf s m.conj = some w) :
    Says resolve L (row w m.factor) (m.value v) := by
  refine ⟨w.ops, rfl, ?_⟩
  obtain ⟨q, hq⟩ := Option.ne_none_iff_exists'.mp hn
  have hf := ht.fit hS
  obtain ⟨hid, hk⟩ := key_of hf hs
  rw [hq] at hk
  obtain ⟨g0, -, -, g3⟩ := hf.inv.full _ _ _ hk
  have hmem := List.mem_of_getElem? hs
  have hpos := hf.plain s hmem q hq
  have hvq := hv.word _ _ _ hs hq
  have read : ∀ u, s.seq = some u ∨ s.conj = some u → Reads resolve W u := hR s hmem (by rw [hid]; exact h0)
  have hLq : L (resolve q.ops) = L q := by
    have := reads_value hS hL g0 (read q (.inl hq))
    rwa [hpos, Rewrite.phase_pos, one_mul] at this
  unfold Mono.value
  simp only [row]
  congr 1
  unfold wordOf at hw
  by_cases hc : m.conj = true
  · rw [if_pos hc] at hw ⊢
    unfold SymbolMatrix.seqConj at hw
    by_cases hh : s.herm = true
    · rw [if_pos hh, hq] at hw
      cases hw
      rw [SymbolMatrix.agree_herm hv hs hh, hLq, hvq]
    · rw [if_neg hh] at hw
      have hh' : s.herm = false := by simpa using hh
      have e := g3 w hw
      have hne := hp hc s q w hs hh' hq hw
      rw [e] at hne
      have r := read w (.inr hw)
      rw [hvq, ← hL.conj q g0, hL.hash _ _ r.mem (hS.words.conj q g0) (r.hash.trans e) (by rw [r.pos, hS.plain q g0 hpos hne])]
  · rw [if_neg hc] at hw ⊢
    rw [hq] at hw
    cases hw
    rw [hLq, hvq]

theorem term_ok {m : Mono} {r : FullRow} : term t m = .ok r ↔
    ∃ s w, t.syms[m.id]? = some s ∧ s.seq ≠ none ∧ wordOf s m.conj = some w ∧ r = full (row w m.factor) m.id m.conj s := by
  unfold term
  cases hs : t.syms[m.id]? with
  | none => simp
  | some s =>
    by_cases hn : s.seq = none
    · simp [hn]
    · cases hw : wordOf s m.conj with
      | none => simp [hn, hw]
      | some w =>
        simp only [Option.isNone_iff_eq_none, hn, if_false, hw, Option.elim_some, Out.ok.injEq, Option.some.injEq]
        constructor
        · rintro rfl
          exact ⟨s, w, rfl, hn, hw, rfl⟩
        · rintro ⟨s', w', rfl, -, h2, rfl⟩
          rw [hw] at h2
          cases h2
          rfl

/-- **C130, accepted.** A polynomial is returned in words exactly if all its symbols exist and have words. -/
theorem C130_accepted {p : List Mono} : (∃ l, sequences t p = .ok l) ↔
    ∀ m ∈ p, ∃ s, t.syms[m.id]? = some s ∧ s.seq ≠ none ∧ (m.conj = true → s.herm = true ∨ s.conj ≠ none) := by
  unfold sequences
  have step : ∀ m : Mono, (∃ r, term t m = .ok r) ↔ ∃ s, t.syms[m.id]? = some s ∧ s.seq ≠ none ∧ (m.conj = true → s.herm = true ∨ s.conj ≠ none) := by
    intro m
    simp only [term_ok]
    constructor
    · rintro ⟨r, s, w, h1, h2, h3, -⟩
      refine ⟨s, h1, h2, fun hc => ?_⟩
      rw [wordOf, if_pos hc, SymbolMatrix.seqConj] at h3
      by_cases hh : s.herm = true
      · exact .inl hh
      · rw [if_neg hh] at h3
        exact .inr (by simp [h3])
    · rintro ⟨s, h1, h2, h3⟩
      have : ∃ w, wordOf s m.conj = some w := by
        rw [← Option.ne_none_iff_exists']
        unfold wordOf
        by_cases hc : m.conj = true
        · rw [if_pos hc, SymbolMatrix.seqConj]
          by_cases hh : s.herm = true
          · rw [if_pos hh]; exact h2
          · rw [if_neg hh]; exact (h3 hc).resolve_left hh
        · rw [if_neg hc]; exact h2
      obtain ⟨w, hw⟩ := this
      exact ⟨_, s, w, h1, h2, hw, rfl⟩
  induction p with
  | nil => simp [Out.each]
  | cons m p ih =>
    rw [List.forall_mem_cons]
    refine Iff.trans ?_ (and_congr (step m) ih)
    simp only [each_ok]
    constructor
    · rintro ⟨_, h1⟩
      cases h1 with
      | cons a b => exact ⟨⟨_, a⟩, _, b⟩
    · rintro ⟨⟨r, a⟩, l, b⟩
      exact ⟨_, .cons a b⟩

/-- **C130, values.** What the rows of a polynomial say adds up to its value. Missing: symbols whose conjugate word is the same word up to a sign, as a sign of
the conjugate word is not returned. -/
theorem C130_values_partial (hS : Setting h W) (ht : Ready h W t) (hR : ReadsAll resolve W t) (hL : Moments h.env W L) (hv : Agrees t L v) {p : List Mono}
    (h0 : ∀ m ∈ p, m.id ≠ 0) (hp : ∀ m ∈ p, Plainly t m) {l : List FullRow} (hl : sequences t p = .ok l) :
    ∃ z : List ℂ, List.Forall₂ (fun r x => Says resolve L r.toRow x) l z ∧ z.sum = Poly.value v p := by
  refine ⟨p.map (Mono.value v), ?_, by rfl⟩
  rw [sequences, each_ok] at hl
  rw [List.forall₂_map_right_iff]
  refine List.Forall₂.flip ?_
  refine (List.Forall₂.imp (fun m r x => ?_) ((List.forall₂_and_left _ _).mpr ⟨fun m (hm : m ∈ p) => hm, hl⟩))
  obtain ⟨hm, hx⟩ := x
  obtain ⟨s, w, h1, h2, h3, rfl⟩ := term_ok.mp hx
  exact row_value hS ht hR hL hv (h0 m hm) (hp m hm) h1 h2 h3

/-- **C130, single monomials.** A monomial of a matrix of monomials is returned as in polynomials, with or without the columns on the symbol. Missing: as above. -/
theorem C130_monomial_partial (hS : Setting h W) (ht : Ready h W t) (hR : ReadsAll resolve W t) {m : Mono} (h0 : m.id ≠ 0) (hp : Plainly t m) :
    (t.syms.length ≤ m.id → partialMono t m = .refused ∧ fullMono t m = .refused) ∧
    ∀ r, partialMono t m = .ok r → ∃ x, fullMono t m = .ok x ∧ x.toRow = r ∧ ∀ s, t.syms[m.id]? = some s → s.seq ≠ none → sequences t [m] = .ok [x] ∧
      (Moments h.env W L → Agrees t L v → Says resolve L r (m.value v)) := by
  constructor
  · intro hk
    have : t.syms[m.id]? = none := List.getElem?_eq_none hk
    simp [partialMono, fullMono, this]
  · intro r hr
    cases hs : t.syms[m.id]? with
    | none => simp [partialMono, hs] at hr
    | some s =>
      cases hw : wordOf s m.conj with
      | none => simp [partialMono, hs, hw] at hr
      | some w =>
        have er : row w m.factor = r := by simpa [partialMono, hs, hw] using hr
        refine ⟨full (row w m.factor) m.id m.conj s, by simp [fullMono, hs, hw], er, fun s' hs' hn => ⟨?_, fun hL hv => ?_⟩⟩
        · cases hs'
          rw [sequences, each_ok]
          exact .cons (term_ok.mpr ⟨s, w, hs, hn, hw, rfl⟩) .nil
        · cases hs'
          rw [← er]
          exact row_value hS ht hR hL hv h0 hp hs hn hw

/-- **C130, symbols.** The columns on the symbol say which symbol it is, whether it is conjugated, and the places of its real and its imaginary part in the basis,
counted from one, with zero for a part that vanishes. -/
theorem C130_symbols (ht : Offsets t) {p : List Mono} {l : List FullRow} (hl : sequences t p = .ok l) : List.Forall₂ (fun m r =>
    r.id = m.id ∧ r.conj = m.conj ∧ (∀ k, r.re = k + 1 ↔ t.basis.real[k]? = some m.id) ∧ (∀ k, r.im = k + 1 ↔ t.basis.imag[k]? = some m.id)) p l := by
  rw [sequences, each_ok] at hl
  refine hl.imp fun m r hr => ?_
  obtain ⟨s, w, h1, -, -, rfl⟩ := term_ok.mp hr
  have hid : s.id = m.id := by
    have h2 : (t.syms.map Sym.id)[m.id]? = some s.id := by rw [List.getElem?_map, h1]; rfl
    rw [ht.ids, List.getElem?_range (List.getElem?_eq_some_iff.mp h1).1] at h2
    exact (Option.some.inj h2).symm
  have hm := List.mem_of_getElem? h1
  have key : ∀ (x : Option Nat) (k : Nat), fromOne x = k + 1 ↔ x = some k := by
    intro x k
    cases x <;> simp [fromOne]
  exact ⟨rfl, rfl, fun k => by rw [← hid, ← ht.re s hm k]; exact key _ _, fun k => by rw [← hid, ← ht.im s hm k]; exact key _ _⟩

/-- The rows as they are given to functions that take polynomials in words. -/
def asInput (l : List FullRow) : Value := .cell (l.map fun r => .cell [.ints (r.ops.map fun (k : Nat) => (k : Int)), .complexes [r.coefficient]])

/-- **C130, back.** A canonical polynomial that is returned in words, and given again, is the same polynomial. Missing: as above. -/
theorem C130_back_partial (hS : Setting h W) (ht : Ready h W t) (hR : ReadsAll resolve W t) {o : Poly.Order} (ho : Function.Injective o.rank) {p : List Mono}
    (hc : Poly.Canonical (MatrixBasis.polyTable t) o p) (hp : ∀ m ∈ p, Plainly t m) {l : List FullRow} (hl : sequences t p = .ok l) (s : Streams) {num : Nat}
    (hnum : num ≤ 32767) (hk : ∀ r ∈ l, ∀ k ∈ r.ops, k ≤ num) :
    ((stage s (asInput l)).bind (supply num resolve)).bind (found h.env t o) = .ok p := by
  have hf := ht.fit hS
  rw [sequences, each_ok] at hl
  have words : ∃ r : RawPoly.Raw, (stage s (asInput l)).bind (supply num resolve) = .ok r ∧
      List.Forall₂ (fun (m : Mono) (e : HSeq × ℂ) => (t.lookup h.env e.1).1 = some (m.id, m.conj) ∧ e.2 = m.factor) p r := by
    have items : ∃ x : List (List Nat × ℂ), List.Forall₂ C126.ItemSays (l.map fun r => .cell [.ints (r.ops.map fun (k : Nat) => (k : Int)), .complexes [r.coefficient]]) x ∧
        (∀ e ∈ x, ∀ k ∈ e.1, k < num) ∧
        List.Forall₂ (fun (m : Mono) (e : List Nat × ℂ) => (t.lookup h.env (resolve e.1)).1 = some (m.id, m.conj) ∧ e.2 = m.factor) p x := by
      clear s
      induction hl with
      | nil => exact ⟨[], .nil, by simp, .nil⟩
      | @cons m r p l a b ih =>
        have hc' : Poly.Canonical (MatrixBasis.polyTable t) o p :=
          ⟨hc.sorted.tail, fun x hx => hc.nonzero x (List.mem_cons_of_mem _ hx), fun x hx => hc.plain x (List.mem_cons_of_mem _ hx)⟩
        obtain ⟨x, i1, i2, i3⟩ := ih hc' (fun y hy => hp y (List.mem_cons_of_mem _ hy)) (fun y hy => hk y (List.mem_cons_of_mem _ hy))
        obtain ⟨s, w, h1, h2, h3, rfl⟩ := term_ok.mp a
        have hw : ∀ k ∈ w.ops, k < num := fun k hkk => by
          have := hk _ List.mem_cons_self (k + 1) (by simp only [full, row]; exact List.mem_map.mpr ⟨k, hkk, rfl⟩)
          omega
        obtain ⟨q, hq⟩ := Option.ne_none_iff_exists'.mp h2
        have hz := (hc.nonzero m List.mem_cons_self).2
        have hherm : m.conj = true → s.herm = false := fun g => by
          have := (hc.plain m List.mem_cons_self g).1
          simpa [MatrixBasis.polyTable, h1] using this
        have hfind := find_word hf hz h1 hq hherm h3 (hp m List.mem_cons_self)
        have hread : Reads resolve W w := by
          refine hR s (List.mem_of_getElem? h1) (by rw [(key_of hf h1).1]; exact hz) w ?_
          unfold wordOf SymbolMatrix.seqConj at h3
          split at h3
          · split at h3
            · exact .inl h3
            · exact .inr h3
          · exact .inl h3
        refine ⟨(w.ops, m.factor) :: x, .cons ?_ i1, ?_, .cons ⟨?_, rfl⟩ i3⟩
        · have e : ((full (row w m.factor) m.id m.conj s).ops.map fun (k : Nat) => (k : Int)) = w.ops.map fun (k : Nat) => (k : Int) + 1 := by
            simp [full, row, Function.comp_def]
          dsimp only
          rw [e]
          exact .two (.ints fun k hkk => by have := hw k hkk; omega) (.complex _)
        · intro e he
          rcases List.mem_cons.mp he with rfl | he
          · exact hw
          · exact i2 e he
        · unfold Table.lookup
          rw [hread.hash, hfind]
    obtain ⟨x, i1, i2, i3⟩ := items
    refine ⟨x.map fun e => (resolve e.1, e.2), ?_, ?_⟩
    · rw [asInput, C126.C126_words i1, if_pos i2]
    · rw [List.forall₂_map_right_iff]
      exact i3
  obtain ⟨r, h1, h2⟩ := words
  rw [h1, Out.bind, found]
  have : Out.each (fun e : HSeq × ℂ => Out.ofOption ((t.lookup h.env e.1).1.map fun k => (⟨k.1, k.2, e.2⟩ : Mono))) r = .ok p := by
    rw [each_ok]
    refine h2.flip.imp fun e m g => ?_
    rw [g.1, g.2]
    rfl
  rw [this, Out.bind, Poly.make_self ho hc]

/-! ## Lists of words -/

theorem fullWord_ok {c : Env} {w : HSeq} {r : FullRow} : fullWord c t w = .ok r ↔
    ∃ k s, (t.lookup c w).1 = some k ∧ t.syms[k.1]? = some s ∧ r = full (row w (if w.sign.isNegative then -1 else 1)) s.id k.2 s := by
  unfold fullWord
  cases hk : (t.lookup c w).1 with
  | none => simp
  | some k =>
    cases hs : t.syms[k.1]? with
    | none => simp [hs]
    | some s =>
      simp only [hs, Out.ok.injEq, Option.some.injEq]
      constructor
      · rintro rfl
        exact ⟨k, s, rfl, hs, rfl⟩
      · rintro ⟨k', s', rfl, h2, rfl⟩
        rw [hs] at h2
        cases h2
        rfl

/-- **C130, lists.** In lists of words with signs +1, the symbol of each row, times the coefficient, is the word; and with or without symbols the rows are the same.
Missing: words with signs; for the signs i and -i see `C130_refuted_imaginary`. -/
theorem C130_list_partial (hS : Setting h W) (ht : Ready h W t) {ws : List HSeq} (hw : ∀ w ∈ ws, W w ∧ w.sign = .pos) :
    ((∃ l, wordListFull h.env t ws = .ok l) ↔ ∀ w ∈ ws, (t.lookup h.env w).1.isSome) ∧ ∀ l, wordListFull h.env t ws = .ok l → l.map FullRow.toRow = wordList ws ∧
      (Moments h.env W L → SimpKeeps h W L → Agrees t L v → List.Forall₂ (fun w r => Mono.value v ⟨r.id, r.conj, r.coefficient⟩ = L w) ws l) := by
  have hf := ht.fit hS
  constructor
  · unfold wordListFull
    clear hw
    induction ws with
    | nil => simp [Out.each]
    | cons w ws ih =>
      rw [List.forall_mem_cons, ← ih]
      simp only [each_ok]
      constructor
      · rintro ⟨_, h1⟩
        cases h1 with
        | cons a b =>
          obtain ⟨k, s, h2, -⟩ := fullWord_ok.mp a
          exact ⟨by simp [h2], _, b⟩
      · rintro ⟨a, l, b⟩
        obtain ⟨k, hk⟩ := Option.isSome_iff_exists.mp a
        have := C71.lookup_lt hf hk
        exact ⟨_, .cons (fullWord_ok.mpr ⟨k, t.syms[k.1], hk, List.getElem?_eq_getElem this, rfl⟩) b⟩
  · intro l hl
    rw [wordListFull, each_ok] at hl
    constructor
    · clear ht
      induction hl with
      | nil => rfl
      | @cons w r ws l a b ih =>
        obtain ⟨k, s, -, -, rfl⟩ := fullWord_ok.mp a
        have e := (hw w List.mem_cons_self).2
        rw [List.map_cons, ih fun x hx => hw x (List.mem_cons_of_mem _ hx)]
        have e2 : Sign.pos.isNegative = false := by decide
        simp only [wordList, List.map_cons, partialWord, full, e, e2, SymbolMatrix.scalar]
        simp
    · intro hL hk hv
      refine List.Forall₂.imp (fun w r x => ?_) ((List.forall₂_and_left _ _).mpr ⟨fun w (hm : w ∈ ws) => hm, hl⟩)
      obtain ⟨hm, hx⟩ := x
      obtain ⟨k, s, h1, h2, rfl⟩ := fullWord_ok.mp hx
      obtain ⟨g1, g2⟩ := hw w hm
      have e : (full (row w (if w.sign.isNegative then -1 else 1)) s.id k.2 s).coefficient = 1 := by
        simp only [full, row, g2]
        rfl
      rw [e]
      have := C71.lookup_value hS hf hL hk hv g1 g2 h1 1
      rw [one_mul] at this
      rw [← this]
      simp only [full, (key_of hf h2).1]

/-- **C130, refuted: imaginary signs.** With information on symbols, the signs i and -i are returned as 1 and -1: the coefficients differ from those returned without symbols,
and what the rows say is not the moment of the word unless that vanishes. -/
theorem C130_refuted_imaginary (hS : Setting h W) (hL : Moments h.env W L) {w : HSeq} (hw : W w) (hr : Reads resolve W w) (hi : w.sign = .imag ∨ w.sign = .negImag) {r : FullRow}
    (ho : fullWord h.env t w = .ok r) : r.coefficient ≠ (partialWord w 1).coefficient ∧ (L w ≠ 0 → ¬ Says resolve L r.toRow (L w)) := by
  obtain ⟨k, s, -, -, rfl⟩ := fullWord_ok.mp ho
  have hne : (if w.sign.isNegative then -1 else 1 : ℂ) ≠ SymbolMatrix.scalar w.sign := by
    rcases hi with e | e <;> rw [e] <;> simp [Sign.isNegative, SymbolMatrix.scalar, Sign.code, Complex.ext_iff]
  refine ⟨by simpa [partialWord, full, row] using hne, ?_⟩
  rintro h0 ⟨u, hu, e⟩
  have hu' : w.ops = u := by
    simp only [full, row] at hu
    exact (List.map_injective_iff.mpr fun a b g => by simpa using g) hu
  rw [← hu', ← reads_value hS hL hw hr] at e
  have hz : L (resolve w.ops) ≠ 0 := fun g => h0 (by rw [← reads_value hS hL hw hr, g, mul_zero])
  rw [← SymbolMatrix.scalar_phase] at e
  simp only [full, row] at e
  exact hne (mul_right_cancel₀ hz e).symm

/-! ## Matrices -/

/-- **C130, matrices.** An entry of a matrix of words other than zero is returned as the word, with the factor of the matrix and the sign, and its symbol has the same
value. Missing: zero, see `C130_refuted_zero`. -/
theorem C130_matrix_partial (hS : Setting h W) (ht : Ready h W t) {w : HSeq} (hw : W w) (hr : Reads resolve W w) (f : ℂ) {m : Mono} {s : Sym}
    (he : SymbolMatrix.entry t f w = some (m, s)) : ∃ r, fullEntry t m w = .ok r ∧ r.id = m.id ∧ r.conj = m.conj ∧
      (Moments h.env W L → Agrees t L v → Says resolve L r.toRow (f * L w) ∧ Mono.value v ⟨r.id, r.conj, r.coefficient⟩ = f * L w) := by
  have hf := ht.fit hS
  have hsome : (t.hashes.lookup w.hash).isSome := by
    unfold SymbolMatrix.entry Table.find at he
    rw [Option.bind_eq_some_iff] at he
    obtain ⟨k, hk, -⟩ := he
    obtain ⟨x, hx, -⟩ := Option.map_eq_some_iff.mp hk
    simp [hx]
  obtain ⟨m', s', h1, h2⟩ := SymbolMatrix.entry_spec hS hf hw hsome f
  have e := h1.eq
  rw [he] at e
  cases e
  refine ⟨full (row w m.factor) m.id m.conj s, by simp [fullEntry, h1.sym], rfl, rfl, fun hL hv => ⟨⟨w.ops, rfl, ?_⟩, ?_⟩⟩
  · rw [← reads_value hS hL hw hr]
    simp only [full, row]
    rw [h1.factor, SymbolMatrix.scalar_phase]
    ring
  · have := h2 L v hL hv
    rw [← this]
    simp only [full, row, Mono.value]
    rw [h1.factor, SymbolMatrix.scalar_phase, mul_assoc, mul_comm (Rewrite.phase _)]
    rfl

/-- **C130, whole matrices.** The same for all entries of a matrix without zeros, in their order. -/
theorem C130_entries_partial (hS : Setting h W) (ht : Ready h W t) (f : ℂ) {l : List (Mono × HSeq)}
    (hl : ∀ e ∈ l, W e.2 ∧ Reads resolve W e.2 ∧ ∃ s, SymbolMatrix.entry t f e.2 = some (e.1, s)) : ∃ rs, monomials t l = .ok rs ∧
      (Moments h.env W L → Agrees t L v → List.Forall₂ (fun e r => r.id = e.1.id ∧ r.conj = e.1.conj ∧ Says resolve L r.toRow (f * L e.2) ∧
        Mono.value v ⟨r.id, r.conj, r.coefficient⟩ = f * L e.2) l rs) := by
  unfold monomials
  induction l with
  | nil => exact ⟨[], rfl, fun _ _ => .nil⟩
  | cons e l ih =>
    obtain ⟨rs, h1, h2⟩ := ih fun x hx => hl x (List.mem_cons_of_mem _ hx)
    obtain ⟨a, b, s, c⟩ := hl e List.mem_cons_self
    obtain ⟨r, g1, g2, g3, g4⟩ := C130_matrix_partial (L := L) (v := v) hS ht a b f c
    exact ⟨r :: rs, by simp only [Out.each, g1, h1, Out.bind], fun hL hv => .cons ⟨g2, g3, g4 hL hv⟩ (h2 hL hv)⟩

/-- **C130, refuted: zero.** The entry for the zero word is returned as the empty word with the factor of the matrix as coefficient. That says the factor, not zero. -/
theorem C130_refuted_zero (hS : Setting h W) (ht : Ready h W t) (h1 : resolve [] = HSeq.identity .pos) (f : ℂ) : ∃ m s r, SymbolMatrix.entry t f HSeq.zero = some (m, s) ∧
    fullEntry t m HSeq.zero = .ok r ∧ r.ops = [] ∧ r.coefficient = f ∧ ∀ L v, Moments h.env W L → Agrees t L v → L (HSeq.identity .pos) = 1 →
      Mono.value v m = 0 ∧ Says resolve L r.toRow f := by
  have hf := ht.fit hS
  have hz := (hf.inv.full 0 _ _ hf.inv.zero).2.1
  obtain ⟨m, s, e, g⟩ := SymbolMatrix.entry_spec hS hf hS.words.zero.1 (by rw [hz]; rfl) f
  have hfac : m.factor = f := by
    rw [e.factor]
    simp [HSeq.zero, SymbolMatrix.scalar]
  refine ⟨m, s, full (row HSeq.zero m.factor) m.id m.conj s, e.eq, by simp [fullEntry, e.sym], rfl, hfac, fun L v hL hv hi => ⟨?_, [], rfl, ?_⟩⟩
  · have := g L v hL hv
    rw [hL.zero] at this
    have hp : Rewrite.phase HSeq.zero.sign = 1 := Rewrite.phase_pos
    rw [hp, mul_one] at this
    unfold Mono.value
    rw [this, mul_zero]
  · simp only [full, row]
    rw [h1, hi, hfac, mul_one]

/-! ## Examples -/

/-- The word `ab` over two letters. -/
def ab : HSeq := C70.letters 2 [0, 1]

/-- The table after `ab` has been registered. -/
def table : Table :=
  { syms := [Sym.zero, Sym.one, { id := 2, seq := some ab, conj := some (C70.letters 2 [1, 0]), herm := false, anti := false, re := some 1, im := some 0 }]
    hashes := [((C70.letters 2 [1, 0]).hash, -2), (ab.hash, 2), (1, 1), (0, 0)]
    basis := ⟨[1, 2], [2], [none, some 0], [some 1]⟩ }

theorem table_ready : Ready (C70.freeHost 2) (C27.FreeWord 2 4) table := by
  refine Ready.step (o := .seq ab) (r := some 2) Ready.new ?_ trivial (by decide +kernel)
  exact .inr ⟨rfl, by unfold ab C70.letters C02.IsWord; decide, by decide⟩

theorem reads_letters {l : List Nat} (hl : C02.IsWord 2 l) (h4 : l.length ≤ 4) (g : Sign) : Reads (fun u => C70.letters 2 u) (C27.FreeWord 2 4) (C70.letters 2 l g) :=
  ⟨.inr ⟨rfl, hl, h4⟩, rfl, rfl⟩

theorem table_reads : ReadsAll (fun u => C70.letters 2 u) (C27.FreeWord 2 4) table := by
  intro s hs h0 w hw
  simp only [table, List.mem_cons, List.not_mem_nil, or_false] at hs
  rcases hs with rfl | rfl | rfl
  · exact absurd rfl h0
  · rcases hw with hw | hw
    · cases hw
      exact ⟨.inr ⟨rfl, by unfold HSeq.identity C02.IsWord; decide, by decide⟩, rfl, by decide⟩
    · cases hw
  · rcases hw with hw | hw <;> cases hw
    · exact reads_letters (by unfold C02.IsWord; decide) (by decide) .pos
    · exact reads_letters (by unfold C02.IsWord; decide) (by decide) .pos

/-- `3 + 2 (ab)* ` -/
noncomputable def poly : List Mono := [⟨1, false, 3⟩, ⟨2, true, 2⟩]

theorem poly_rows : sequences table poly = .ok [⟨⟨[], 3, 1⟩, 1, false, 1, 0⟩, ⟨⟨[2, 1], 2, (C70.letters 2 [1, 0]).hash⟩, 2, true, 2, 1⟩] := rfl

theorem poly_plainly : ∀ m ∈ poly, Plainly table m := by
  intro m hm
  simp only [poly, List.mem_cons, List.not_mem_nil, or_false] at hm
  rcases hm with rfl | rfl
  · intro h
    cases h
  · intro _ s q u h1 _ h2 h3
    simp only [table, List.getElem?_cons_succ, List.getElem?_cons_zero, Option.some.injEq] at h1
    subst h1
    cases h2
    cases h3
    decide

theorem poly_canonical : Poly.Canonical (MatrixBasis.polyTable table) Poly.byId poly := by
  refine ⟨by simp [poly, Poly.byId], ?_, ?_⟩ <;> intro m hm <;> simp only [poly, List.mem_cons, List.not_mem_nil, or_false] at hm <;> rcases hm with rfl | rfl
  · exact ⟨by norm_num, by decide⟩
  · exact ⟨by norm_num, by decide⟩
  · intro h
    cases h
  · exact fun _ => ⟨rfl, rfl⟩

example (L : HSeq → ℂ) (v : Nat → ℂ) (hL : Moments (C70.freeHost 2).env (C27.FreeWord 2 4) L) (hv : Agrees table L v) :
    ∃ z : List ℂ, List.Forall₂ (fun (r : FullRow) (x : ℂ) => Says (fun u => C70.letters 2 u) L r.toRow x)
      [⟨⟨[], 3, 1⟩, 1, false, 1, 0⟩, ⟨⟨[2, 1], 2, (C70.letters 2 [1, 0]).hash⟩, 2, true, 2, 1⟩] z ∧ z.sum = Poly.value v poly :=
  C130_values_partial C70.setting_sample table_ready table_reads hL hv (by simp [poly]) poly_plainly poly_rows

example : ∃ r, partialMono table ⟨2, true, 2⟩ = .ok r ∧ r.ops = [2, 1] := ⟨_, rfl, rfl⟩

example : ∀ e ∈ [((⟨2, false, 1⟩ : Mono), ab)], C27.FreeWord 2 4 e.2 ∧ Reads (fun u => C70.letters 2 u) (C27.FreeWord 2 4) e.2 ∧ ∃ s, SymbolMatrix.entry table 1 e.2 = some (e.1, s) := by
  intro e he
  simp only [List.mem_singleton] at he
  subst he
  refine ⟨.inr ⟨rfl, by unfold ab C70.letters C02.IsWord; decide, by decide⟩, reads_letters (by unfold C02.IsWord; decide) (by decide) .pos, ?_⟩
  have e : table.find ab.hash = some (2, false) := by decide +kernel
  refine ⟨{ id := 2, seq := some ab, conj := some (C70.letters 2 [1, 0]), herm := false, anti := false, re := some 1, im := some 0 }, ?_⟩
  unfold SymbolMatrix.entry
  dsimp only
  rw [e]
  have g : (1 : ℂ) * SymbolMatrix.scalar ab.sign = 1 := by simp [ab, C70.letters, SymbolMatrix.scalar, Sign.code]
  rw [g]
  rfl

example (s : Streams) : ((stage s (.cell [.cell [.ints [], .complexes [3]], .cell [.ints [2, 1], .complexes [2]]])).bind (supply 2 fun u => C70.letters 2 u)).bind
    (found (C70.freeHost 2).env table Poly.byId) = .ok poly :=
  C130_back_partial C70.setting_sample table_ready table_reads (fun _ _ e => e) poly_canonical poly_plainly poly_rows s (by decide) (by
    intro r hr
    simp only [List.mem_cons, List.not_mem_nil, or_false] at hr
    rcases hr with rfl | rfl <;> decide)

example (hL : Moments (C70.freeHost 2).env (C27.FreeWord 2 4) L) (h0 : L (C70.letters 2 [0, 1] .imag) ≠ 0) :
    ∃ r, fullWord (C70.freeHost 2).env table (C70.letters 2 [0, 1] .imag) = .ok r ∧ r.coefficient = 1 ∧
      ¬ Says (fun u => C70.letters 2 u) L r.toRow (L (C70.letters 2 [0, 1] .imag)) := by
  have hr : fullWord (C70.freeHost 2).env table (C70.letters 2 [0, 1] .imag) = .ok ⟨⟨[1, 2], 1, ab.hash⟩, 2, false, 2, 1⟩ := by
    refine fullWord_ok.mpr ⟨(2, false), _, by decide +kernel, rfl, ?_⟩
    have e : (C70.letters 2 [0, 1] .imag).sign.isNegative = false := by decide
    rw [e]
    rfl
  exact ⟨_, hr, rfl, (C130_refuted_imaginary C70.setting_sample hL (.inr ⟨rfl, by unfold C70.letters C02.IsWord; decide, by decide⟩)
    (reads_letters (by unfold C02.IsWord; decide) (by decide) .imag) (.inl rfl) hr).2 h0⟩

theorem ab_word : C27.FreeWord 2 4 ab := .inr ⟨rfl, by unfold ab C70.letters C02.IsWord; decide, by decide⟩

example : ∃ l, wordListFull (C70.freeHost 2).env table [HSeq.identity .pos, ab] = .ok l ∧ l.map FullRow.toRow = wordList [HSeq.identity .pos, ab] := by
  obtain ⟨h1, h2⟩ := C130_list_partial (L := fun _ => 0) (v := fun _ => 0) C70.setting_sample table_ready (ws := [HSeq.identity .pos, ab])
    (by simp only [List.mem_cons, List.not_mem_nil, or_false, forall_eq_or_imp, forall_eq]; exact ⟨⟨C70.setting_sample.words.one.1, rfl⟩, ab_word, rfl⟩)
  obtain ⟨l, hl⟩ := h1.mpr (by decide +kernel)
  exact ⟨l, hl, (h2 l hl).1⟩

example (hL : Moments (C70.freeHost 2).env (C27.FreeWord 2 4) L) (hv : Agrees table L v) : ∃ m s r, SymbolMatrix.entry table 5 ab = some (m, s) ∧ fullEntry table m ab = .ok r ∧
    Says (fun u => C70.letters 2 u) L r.toRow (5 * L ab) ∧ Mono.value v ⟨r.id, r.conj, r.coefficient⟩ = 5 * L ab := by
  obtain ⟨m, s, e, -⟩ := SymbolMatrix.entry_spec C70.setting_sample (table_ready.fit C70.setting_sample) ab_word (by decide +kernel) 5
  obtain ⟨r, h1, -, -, h2⟩ := C130_matrix_partial C70.setting_sample table_ready ab_word (reads_letters (by unfold C02.IsWord; decide) (by decide) .pos) 5 e.eq
  exact ⟨m, s, r, e.eq, h1, h2 hL hv⟩

example : ∃ m s r, SymbolMatrix.entry table 5 HSeq.zero = some (m, s) ∧ fullEntry table m HSeq.zero = .ok r ∧ r.ops = [] ∧ r.coefficient = 5 := by
  obtain ⟨m, s, r, h1, h2, h3, h4, -⟩ := C130_refuted_zero C70.setting_sample table_ready (resolve := fun u => C70.letters 2 u) (by decide) 5
  exact ⟨m, s, r, h1, h2, h3, h4⟩

end Moment.C130
