import Verif.Proof.ExtendedMatrix
import Mathlib.Algebra.BigOperators.Ring.Finset
import Mathlib.Algebra.BigOperators.Intervals
import Mathlib.Tactic.Ring
import Mathlib.Tactic.Linarith

/-! Values of symbols and of extended matrices. -/

set_option linter.unusedSectionVars false

namespace Moment.Inflation.Extend

variable {W : Type} [DecidableEq W] {sc : Scenario W} {D : W → Prop} {zero one : W} {E : Type} {mono : Nat → E}
  {M : Type} [CommMonoidWithZero M]

/-- A symbol whose word does not factorize is its only factor. -/
theorem fund_symbols {t : Table W} (h : Good sc D zero one t) {k : Nat} (hk : Fund sc t.syms k) {e : Entry W} (he : t.entries[k]? = some e) :
    e.symbols = [k] := by
  obtain ⟨w, hw, hb⟩ := hk
  obtain ⟨m, h1, h2⟩ := h.faithful k e w he hw
  rw [hb.1, List.forall₂_cons_left_iff] at h2
  obtain ⟨k', m', h3, h4, rfl⟩ := h2
  cases h4
  rw [hb.2] at h3
  rw [h.apart k' k w h3 hw] at h1
  exact List.perm_singleton.mp h1

theorem entry_at {t : Table W} (h : Good sc D zero one t) {k : Nat} {x : Option W} (hk : t.syms[k]? = some x) : ∃ e, t.entries[k]? = some e := by
  have := (List.getElem?_eq_some_iff.mp hk).1
  rw [← h.sync] at this
  exact ⟨_, List.getElem?_eq_getElem this⟩

theorem fund_one {t : Table W} (law : Lawful sc D zero one) (h : Good sc D zero one t) : Fund sc t.syms 1 := ⟨one, h.one_at, law.one_basic⟩
theorem fund_zero {t : Table W} (law : Lawful sc D zero one) (h : Good sc D zero one t) : Fund sc t.syms 0 := ⟨zero, h.zero_at, law.zero_basic⟩

/-- The value of a symbol from the values of symbols that do not factorize. -/
def spread (t : Table W) (f : Nat → M) (i : Nat) : M :=
  match t.entries[i]? with
  | some e => (e.symbols.map f).prod
  | none => 0

theorem spread_fund {t : Table W} (h : Good sc D zero one t) (f : Nat → M) {k : Nat} (hk : Fund sc t.syms k) : spread t f k = f k := by
  obtain ⟨e, he⟩ := entry_at h hk.choose_spec.1
  rw [spread, he]
  dsimp only
  rw [fund_symbols h hk he]
  simp

theorem spread_respects (law : Lawful sc D zero one) {t : Table W} (h : Good sc D zero one t) (f : Nat → M) (f0 : f 0 = 0) (f1 : f 1 = 1) :
    Respects t (spread t f) := by
  refine ⟨by rw [spread_fund h f (fund_zero law h), f0], by rw [spread_fund h f (fund_one law h), f1], ?_⟩
  intro i e he
  rw [spread, he]
  dsimp only
  congr 1
  exact List.map_congr_left fun k hk => (spread_fund h f (h.fund i e he k hk)).symm

theorem respects_factors {t : Table W} {v : Nat → M} (h : Respects t v) {k : Nat} {l : List Nat} (hk : FactorsOf t k l) : v k = (l.map v).prod := by
  obtain ⟨e, h1, rfl⟩ := hk
  exact h.product k e h1

theorem holds_value {t : Table W} (h : Good sc D zero one t) {v : Nat → M} (hv : Respects t v) {val : E → M} (hval : ∀ k, val (mono k) = v k) {m : Mat E} {i j : Nat}
    {a b : List Nat} (ha : Proper a) (hb : Proper b) (hh : Holds mono t m i j a b) :
    val (m.at_ i j) = (a.map v).prod * (b.map v).prod ∧ val (m.at_ j i) = (a.map v).prod * (b.map v).prod := by
  obtain ⟨k, h1, h2, h3⟩ := hh
  have : v k = (a.map v).prod * (b.map v).prod := by
    rw [respects_factors hv (find_factors h h1), combine_value v hv.at_zero hv.at_one ha hb]
  rw [h2, h3, hval, this]
  exact ⟨rfl, rfl⟩

theorem respects_grown {t t' : Table W} (h : Grown t t') {v : Nat → M} (hv : Respects t' v) : Respects t v :=
  ⟨hv.at_zero, hv.at_one, fun i e he => hv.product i e (get_prefix h.entries he)⟩

/-- The words of a matrix are among the symbols. -/
def Registered (sc : Scenario W) (t : Table W) (gens : List W) : Prop := ∀ g ∈ gens, some (sc.canonical g) ∈ t.syms

theorem sourced {t : Table W} (h : Good sc D zero one t) : ∀ {gens : List W}, Registered sc t gens → ∃ gs, List.Forall₂ (Sourced sc t) gens gs
  | [], _ => ⟨[], .nil⟩
  | g :: gens, hr => by
    obtain ⟨gs, hgs⟩ := sourced h (gens := gens) fun x hx => hr x (List.mem_cons_of_mem _ hx)
    obtain ⟨k, hk⟩ := List.mem_iff_getElem?.mp (hr g List.mem_cons_self)
    obtain ⟨e, he⟩ := entry_at h hk
    exact ⟨e.symbols :: gs, .cons ⟨k, place_apart h.apart hk, e, he, rfl⟩ hgs⟩

theorem factored {t : Table W} (h : Good sc D zero one t) : ∀ {l : List Nat}, (∀ k ∈ l, k < t.syms.length) → ∃ ls, List.Forall₂ (FactorsOf t) l ls
  | [], _ => ⟨[], .nil⟩
  | k :: l, hr => by
    obtain ⟨ls, hls⟩ := factored h (l := l) fun x hx => hr x (List.mem_cons_of_mem _ hx)
    obtain ⟨e, he⟩ := entry_at h (List.getElem?_eq_getElem (hr k List.mem_cons_self))
    exact ⟨e.symbols :: ls, .cons ⟨e, he, rfl⟩ hls⟩

/-- The result of an extension: the symbols `ks` of the words and `l` of the scalars. -/
structure Result (mono : Nat → E) (t' : Table W) (src m : Mat E) (gs ls : List (List Nat)) : Prop where
  dim : m.dim = src.dim + ls.length
  corner : ∀ i j, i < src.dim → j < src.dim → m.at_ i j = src.at_ i j
  side : ∀ (j : Nat) g, gs[j]? = some g → ∀ (i : Nat) l, ls[i]? = some l → Holds mono t' m j (src.dim + i) g l
  block : ∀ (i j : Nat) a b, i ≤ j → ls[i]? = some a → ls[j]? = some b → Holds mono t' m (src.dim + i) (src.dim + j) a b

/-- How many symbols an extension can add. -/
def atMost (gens scalars : Nat) : Nat := gens * scalars + triangle scalars

theorem single_spec' (law : Lawful sc D zero one) {t : Table W} (h : Good sc D zero one t) {gens : List W} {gs ls : List (List Nat)} {src : Mat E}
    {scalars : List Int} (hd : gens.length = src.dim) (hin : ∀ s ∈ scalars, 0 ≤ s ∧ s < t.syms.length)
    (hg : List.Forall₂ (Sourced sc t) gens gs) (hl : List.Forall₂ (FactorsOf t) (scalars.map Int.toNat) ls) :
    (∃ t' m, single sc mono t gens src scalars = .ok (t', m) ∧ Good sc D zero one t' ∧ Ext t t' ∧ Result mono t' src m gs ls ∧
      t'.entries.length ≤ t.entries.length + atMost gens.length scalars.length) ∨
    (single sc mono t gens src scalars = .error .undefined ∧ 1 < scalars.length ∧
      t.cap < t.entries.length + atMost gens.length scalars.length) := by
  have hany : ¬ (scalars.any fun s => decide (s ≥ t.syms.length) || decide (s < 0)) = true := by
    simp only [List.any_eq_true, Bool.or_eq_true, decide_eq_true_eq, not_exists, not_and, not_or, ge_iff_le, not_le, not_lt]
    exact fun s hs => ⟨(hin s hs).2, (hin s hs).1⟩
  have hgl := hg.length_eq
  have hll := hl.length_eq
  rw [List.length_map] at hll
  obtain ⟨u, m1, h1, h2, h3, h4, h5, h6, h7⟩ := sides_spec (mono := mono) (old := src.dim) law gs gens t (src.pad mono (scalars.map Int.toNat).length) 0 h hg hl
    (by omega)
  have hstep : single sc mono t gens src scalars = block sc mono u m1 src.dim (scalars.map Int.toNat) := by
    rw [single, if_neg hany]
    simp only [bind, Except.bind]
    rw [h1]
  rw [hstep]
  rcases block_spec (mono := mono) law ls (scalars.map Int.toNat) u m1 src.dim h2 (hl.imp fun _ _ hx => factors_grown h3.grown hx) with
    ⟨v, m, g1, g2, g3, g4, g5, g6, g7⟩ | ⟨g1, g2, g3⟩
  · left
    refine ⟨v, m, g1, g2, h3.trans g3, ⟨?_, ?_, ?_, g5⟩, ?_⟩
    · rw [g4, h4]
      simp [Mat.pad, hll]
    · intro i j hi hj
      rw [g6 i j (by omega), h6 i j (by omega) (by omega), Mat.pad]
      dsimp only
      rw [if_pos ⟨hi, hj⟩]
    · intro j g hj i l hi
      have hjl := (List.getElem?_eq_some_iff.mp hj).1
      have := h5 j g hj i l hi
      rw [Nat.zero_add] at this
      exact this.mono' g3 (g6 _ _ (by omega)) (g6 _ _ (by omega))
    · rw [atMost, hgl, hll]; omega
  · right
    refine ⟨g1, by omega, ?_⟩
    rw [atMost, hgl, hll]
    by_contra hc
    by_cases hu : u.entries.length ≤ t.cap
    · have := (h3.fits hu).2
      omega
    · omega

/-! ## All products known -/

theorem combine_known {t : Table W} {a b : List Nat} (h : ∃ k, t.find (combineFactors a b) = some k) : ∃ k, t.combine sc a b = .ok (t, k) := by
  obtain ⟨k, hk⟩ := h
  exact ⟨k, by rw [Table.combine, hk]⟩

theorem sideRow_known {t : Table W} {row : Nat} {source : List Nat} : ∀ (ls : List (List Nat)) (scalars : List Nat) (m : Mat E) (col : Nat),
    List.Forall₂ (FactorsOf t) scalars ls → (∀ l ∈ ls, ∃ k, t.find (combineFactors source l) = some k) →
    ∃ m', sideRow sc mono row source t m col scalars = .ok (t, m')
  | [], scalars, m, col, hf, _ => by cases hf; exact ⟨m, rfl⟩
  | l :: ls, scalars, m, col, hf, hk => by
    obtain ⟨s, scalars, hsl, hrest, rfl⟩ := List.forall₂_cons_right_iff.mp hf
    obtain ⟨k, h1⟩ := combine_known (sc := sc) (hk l List.mem_cons_self)
    obtain ⟨m', h2⟩ := sideRow_known (row := row) ls scalars ((m.set row col (mono k)).set col row (mono k)) (col + 1) hrest
      fun x hx => hk x (List.mem_cons_of_mem _ hx)
    refine ⟨m', ?_⟩
    rw [sideRow, factors_ok hsl]
    simp only [bind, Except.bind]
    rw [h1]
    exact h2

theorem sides_known {t : Table W} {scalars : List Nat} {ls : List (List Nat)} {old : Nat} (hf : List.Forall₂ (FactorsOf t) scalars ls) :
    ∀ (gs : List (List Nat)) (gens : List W) (m : Mat E) (row : Nat), List.Forall₂ (Sourced sc t) gens gs →
    (∀ g ∈ gs, ∀ l ∈ ls, ∃ k, t.find (combineFactors g l) = some k) → ∃ m', sides sc mono scalars old t m row gens = .ok (t, m')
  | [], gens, m, row, hg, _ => by cases hg; exact ⟨m, rfl⟩
  | g :: gs, gens, m, row, hg, hk => by
    obtain ⟨w, gens, ⟨k, hk', hkf⟩, hrest, rfl⟩ := List.forall₂_cons_right_iff.mp hg
    obtain ⟨m1, h1⟩ := sideRow_known (sc := sc) (mono := mono) (row := row) ls scalars m old hf (hk g List.mem_cons_self)
    obtain ⟨m', h2⟩ := sides_known (old := old) hf gs gens m1 (row + 1) hrest fun x hx => hk x (List.mem_cons_of_mem _ hx)
    refine ⟨m', ?_⟩
    rw [sides, hk']
    simp only [bind, Except.bind]
    rw [factors_ok hkf]
    dsimp only
    rw [h1]
    exact h2

theorem blockRow_known {t : Table W} {row : Nat} {source : List Nat} : ∀ (ls : List (List Nat)) (scalars : List Nat) (m : Mat E) (col : Nat),
    List.Forall₂ (FactorsOf t) scalars ls → (∀ l ∈ ls, ∃ k, t.find (combineFactors source l) = some k) →
    ∃ m', blockRow sc mono row source t.moves t m col scalars = .ok (t, m')
  | [], scalars, m, col, hf, _ => by cases hf; exact ⟨m, rfl⟩
  | l :: ls, scalars, m, col, hf, hk => by
    obtain ⟨s, scalars, hsl, hrest, rfl⟩ := List.forall₂_cons_right_iff.mp hf
    obtain ⟨k, h1⟩ := combine_known (sc := sc) (hk l List.mem_cons_self)
    obtain ⟨m', h2⟩ := blockRow_known (row := row) ls scalars ((m.set row col (mono k)).set col row (mono k)) (col + 1) hrest
      fun x hx => hk x (List.mem_cons_of_mem _ hx)
    refine ⟨m', ?_⟩
    rw [blockRow, factors_ok hsl]
    simp only [bind, Except.bind]
    rw [if_neg (not_not.mpr rfl), h1]
    exact h2

theorem block_known {t : Table W} : ∀ (ls : List (List Nat)) (scalars : List Nat) (m : Mat E) (row : Nat), List.Forall₂ (FactorsOf t) scalars ls →
    (∀ (i j : Nat) a b, i ≤ j → ls[i]? = some a → ls[j]? = some b → ∃ k, t.find (combineFactors a b) = some k) →
    ∃ m', block sc mono t m row scalars = .ok (t, m')
  | [], scalars, m, row, hf, _ => by cases hf; exact ⟨m, rfl⟩
  | l :: ls, scalars, m, row, hf, hk => by
    obtain ⟨s, scalars, hsl, hrest, rfl⟩ := List.forall₂_cons_right_iff.mp hf
    obtain ⟨k, h1⟩ := combine_known (sc := sc) (hk 0 0 l l (Nat.le_refl 0) rfl rfl)
    obtain ⟨m1, h2⟩ := blockRow_known (sc := sc) (mono := mono) (row := row) ls scalars (m.set row row (mono k)) (row + 1) hrest fun x hx => by
      obtain ⟨j, hj⟩ := List.mem_iff_getElem?.mp hx
      exact hk 0 (j + 1) l x (by omega) rfl (by simpa using hj)
    obtain ⟨m', h3⟩ := block_known ls scalars m1 (row + 1) hrest fun i j a b hij hi hj =>
      hk (i + 1) (j + 1) a b (by omega) (by simpa using hi) (by simpa using hj)
    refine ⟨m', ?_⟩
    rw [block, factors_ok hsl]
    simp only [bind, Except.bind]
    rw [h1]
    dsimp only
    rw [h2]
    exact h3

theorem single_known {t : Table W} {gens : List W} {gs ls : List (List Nat)} {src : Mat E}
    {scalars : List Int} (hin : ∀ s ∈ scalars, 0 ≤ s ∧ s < t.syms.length)
    (hg : List.Forall₂ (Sourced sc t) gens gs) (hl : List.Forall₂ (FactorsOf t) (scalars.map Int.toNat) ls)
    (h1 : ∀ g ∈ gs, ∀ l ∈ ls, ∃ k, t.find (combineFactors g l) = some k)
    (h2 : ∀ (i j : Nat) a b, i ≤ j → ls[i]? = some a → ls[j]? = some b → ∃ k, t.find (combineFactors a b) = some k) :
    ∃ m, single sc mono t gens src scalars = .ok (t, m) := by
  have hany : ¬ (scalars.any fun s => decide (s ≥ t.syms.length) || decide (s < 0)) = true := by
    simp only [List.any_eq_true, Bool.or_eq_true, decide_eq_true_eq, not_exists, not_and, not_or, ge_iff_le, not_le, not_lt]
    exact fun s hs => ⟨(hin s hs).2, (hin s hs).1⟩
  obtain ⟨m1, e1⟩ := sides_known (mono := mono) (old := src.dim) hl gs gens (src.pad mono (scalars.map Int.toNat).length) 0 hg h1
  obtain ⟨m2, e2⟩ := block_known (sc := sc) (mono := mono) ls (scalars.map Int.toNat) m1 src.dim hl h2
  refine ⟨m2, ?_⟩
  rw [single, if_neg hany]
  simp only [bind, Except.bind]
  rw [e1]
  exact e2

end Moment.Inflation.Extend
