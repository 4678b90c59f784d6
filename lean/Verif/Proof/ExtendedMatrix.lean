import Verif.Proof.FactorTable

/-! Lemmas on extended matrices. -/

set_option linter.unusedSectionVars false

namespace Moment.Inflation.Extend

variable {W : Type} [DecidableEq W] {sc : Scenario W} {D : W → Prop} {zero one : W} {E : Type} {mono : Nat → E}

/-- A list of factors of the table. -/
def Labels (sc : Scenario W) (t : Table W) (l : List Nat) : Prop := Proper l ∧ ∀ k ∈ l, Fund sc t.syms k

theorem Labels.grow {t t' : Table W} (h : Grown t t') {l : List Nat} (hl : Labels sc t l) : Labels sc t' l :=
  ⟨hl.1, fun k hk => (hl.2 k hk).mono h.syms⟩

/-- No two symbols have the same factors. -/
def Injective (t : Table W) : Prop := ∀ (i j : Nat) l, FactorsOf t i l → FactorsOf t j l → i = j

/-- What adding combinations of factors does to a table. -/
structure Ext (t t' : Table W) : Prop where
  grown : Grown t t'
  fresh : ∀ i, t.syms.length ≤ i → i < t'.syms.length → t'.syms[i]? = some none
  finds : ∀ l k, t.find l = some k → t'.find l = some k
  fits : t'.entries.length ≤ t.cap → t'.moves = t.moves ∧ t'.cap = t.cap
  inj : Injective t → Injective t'
  fixed : t'.entries.length = t.entries.length → t' = t

theorem Ext.refl (t : Table W) : Ext t t :=
  ⟨Grown.refl t, fun i h h' => absurd h' (by omega), fun _ _ h => h, fun _ => ⟨rfl, rfl⟩, id, fun _ => rfl⟩

theorem Ext.trans {a b c : Table W} (h : Ext a b) (h' : Ext b c) : Ext a c := by
  have h1 := prefix_le h.grown.entries
  have h2 := prefix_le h'.grown.entries
  refine ⟨h.grown.trans h'.grown, ?_, fun l k hk => h'.finds l k (h.finds l k hk), ?_, fun hi => h'.inj (h.inj hi), ?_⟩
  · intro i hi hi'
    by_cases hb : i < b.syms.length
    · exact get_prefix h'.grown.syms (h.fresh i hi hb)
    · exact h'.fresh i (by omega) hi'
  · intro hc
    obtain ⟨e1, e2⟩ := h.fits (by omega)
    obtain ⟨e3, e4⟩ := h'.fits (by omega)
    exact ⟨e3.trans e1, e4.trans e2⟩
  · intro he
    have e1 := h'.fixed (by omega)
    subst e1
    exact h.fixed (by omega)

theorem wordsOf_ok {syms : List (Option W)} : ∀ {l : List Nat}, (∀ k ∈ l, Fund sc syms k) → ∃ ws, wordsOf syms l = .ok ws ∧ ws.length = l.length
  | [], _ => ⟨[], rfl, rfl⟩
  | k :: l, h => by
    obtain ⟨w, hw, -⟩ := h k List.mem_cons_self
    obtain ⟨ws, h1, h2⟩ := wordsOf_ok fun x hx => h x (List.mem_cons_of_mem _ hx)
    exact ⟨w :: ws, by rw [wordsOf, hw, h1]; rfl, by simp [h2]⟩

theorem combine_labels {t : Table W} (law : Lawful sc D zero one) (h : Good sc D zero one t) {a b : List Nat} (ha : Labels sc t a)
    (hb : Labels sc t b) : Labels sc t (combineFactors a b) := by
  refine ⟨combine_proper ha.1 hb.1, fun k hk => ?_⟩
  rcases combine_mem hk with hk | hk | rfl | rfl
  · exact ha.2 k hk
  · exact hb.2 k hk
  · exact ⟨zero, h.zero_at, law.zero_basic⟩
  · exact ⟨one, h.one_at, law.one_basic⟩

theorem find_factors {t : Table W} (h : Good sc D zero one t) {l : List Nat} {k : Nat} (hk : t.find l = some k) : FactorsOf t k l := by
  obtain ⟨e, h1, h2⟩ := h.found _ k hk
  exact ⟨e, h1, (path_inj h2).symm⟩

theorem register_spec (law : Lawful sc D zero one) {t : Table W} (h : Good sc D zero one t) {l : List Nat} (hl : Labels sc t l)
    (hn : t.find l = none) :
    ∃ t', t.register sc l = .ok (t', t.syms.length) ∧ Good sc D zero one t' ∧ Ext t t' ∧ t'.find l = some t.syms.length ∧
      t'.entries.length = t.entries.length + 1 := by
  have hpre : t.syms <+: t.syms ++ [none] := List.prefix_append _ _
  obtain ⟨ws, hws, hlen⟩ := wordsOf_ok (sc := sc) (syms := t.syms ++ [none]) fun k hk => (hl.2 k hk).mono hpre
  have hget : ∀ (i : Nat) w, (t.syms ++ [none])[i]? = some (some w) → t.syms[i]? = some (some w) := by
    intro i w hi
    rcases get_push hi with hi | ⟨-, hi⟩
    · exact hi
    · cases hi
  have hcore : Core sc D zero one { t with syms := t.syms ++ [none] } :=
    ⟨h.at_most.trans (prefix_le hpre), fun i w hi => h.words i w (hget i w hi), apart_push h.apart (by intro w hw; cases hw),
      get_prefix hpre h.zero_at, get_prefix hpre h.one_at, h.ids, h.proper, fun i e he k hk => (h.fund i e he k hk).mono hpre,
      fun i e w he hi => (h.faithful i e w he (hget i w hi)).mono hpre, h.count, h.ordered, h.found, h.kept⟩
  have hadd := hcore.add (e := ⟨t.syms.length, [], ws, l⟩) h.sync.symm (by simp [h.sync]) hl.1 (fun k hk => (hl.2 k hk).mono hpre)
    (fun w hw => by
      have := hget _ w hw
      rw [h.sync] at this
      simp at this) hlen
  obtain ⟨cap, moves, he, hcap⟩ := push_index (sc := sc) { t with syms := t.syms ++ [none] } ⟨t.syms.length, [], ws, l⟩
  rw [he] at hadd
  dsimp only at he hadd
  have hfind := (C36.add_spec t.syms.length (path l) t.tree h.ordered).2
  refine ⟨_, by rw [Table.register, hws]; rfl, ?_, ?_, ?_, ?_⟩
  · rw [he]
    exact ⟨⟨hadd, by intro i hi hi'; simp at hi hi'; have := h.sync; omega⟩, by simp [h.sync]⟩
  · rw [he]
    refine ⟨⟨hpre, List.prefix_append _ _⟩, ?_, ?_, ?_, ?_, ?_⟩
    · intro i hi hi'
      simp only [List.length_append, List.length_singleton] at hi'
      have : i = t.syms.length := by omega
      subst this
      simp
    · intro m k hk
      rw [Table.find]
      dsimp only
      rw [hfind]
      split
      · rename_i hp
        rw [path_inj hp, hn] at hk
        cases hk
      · exact hk
    · intro hc
      simp only [List.length_append, List.length_singleton] at hc
      rcases hcap with hcap | hcap
      · exact ⟨hcap.1, hcap.2⟩
      · have := hcap.2
        dsimp only at this
        omega
    · intro hi i j m him hjm
      have key : ∀ i : Nat, FactorsOf (W := W) ⟨t.syms ++ [none], t.entries ++ [⟨t.syms.length, [], ws, l⟩], Index.add t.syms.length (path l) t.tree, cap, moves⟩ i m →
          FactorsOf t i m ∨ (i = t.entries.length ∧ m = l) := by
        rintro i ⟨e, h1, h2⟩
        rcases get_push h1 with h1 | ⟨h3, rfl⟩
        · exact Or.inl ⟨e, h1, h2⟩
        · exact Or.inr ⟨h3, h2.symm⟩
      have hno : ∀ i : Nat, ¬ FactorsOf t i l := by
        rintro i ⟨e, h1, h2⟩
        obtain ⟨k, hk⟩ := h.kept i e h1
        rw [h2, hn] at hk
        cases hk
      rcases key i him with h1 | ⟨h1, rfl⟩ <;> rcases key j hjm with h2 | ⟨h2, h3⟩
      · exact hi i j m h1 h2
      · subst h3; exact absurd h1 (hno i)
      · exact absurd h2 (hno j)
      · omega
    · intro hc
      simp at hc
  · rw [he, Table.find]
    dsimp only
    rw [hfind, if_pos rfl]
  · rw [he]; simp

theorem combine_spec (law : Lawful sc D zero one) {t : Table W} (h : Good sc D zero one t) {a b : List Nat} (ha : Labels sc t a)
    (hb : Labels sc t b) :
    ∃ t' k, t.combine sc a b = .ok (t', k) ∧ Good sc D zero one t' ∧ Ext t t' ∧ t'.find (combineFactors a b) = some k ∧
      t'.entries.length ≤ t.entries.length + 1 := by
  rw [Table.combine]
  cases hf : t.find (combineFactors a b) with
  | some k => exact ⟨t, k, rfl, h, Ext.refl t, hf, by omega⟩
  | none =>
    obtain ⟨t', h1, h2, h3, h4, h5⟩ := register_spec law h (combine_labels law h ha hb) hf
    exact ⟨t', _, h1, h2, h3, h4, by omega⟩

theorem factors_labels {t : Table W} (h : Good sc D zero one t) {k : Nat} {l : List Nat} (hk : FactorsOf t k l) : Labels sc t l := by
  obtain ⟨e, h1, rfl⟩ := hk
  exact ⟨h.proper k e h1, h.fund k e h1⟩

theorem factors_ok {t : Table W} {k : Nat} {l : List Nat} (hk : FactorsOf t k l) : t.factors k = .ok l := by
  obtain ⟨e, h1, rfl⟩ := hk
  rw [Table.factors, h1]

theorem factors_grown {t t' : Table W} (h : Grown t t') {k : Nat} {l : List Nat} (hk : FactorsOf t k l) : FactorsOf t' k l := by
  obtain ⟨e, h1, h2⟩ := hk
  exact ⟨e, get_prefix h.entries h1, h2⟩

/-- One symbol holds the combination of two lists, and is written at two places. -/
def Holds (mono : Nat → E) (t : Table W) (m : Mat E) (i j : Nat) (a b : List Nat) : Prop :=
  ∃ k, t.find (combineFactors a b) = some k ∧ m.at_ i j = mono k ∧ m.at_ j i = mono k

theorem Holds.mono' {t t' : Table W} (h : Ext t t') {m m' : Mat E} {i j : Nat} {a b : List Nat} (hh : Holds mono t m i j a b)
    (h1 : m'.at_ i j = m.at_ i j) (h2 : m'.at_ j i = m.at_ j i) : Holds mono t' m' i j a b := by
  obtain ⟨k, g1, g2, g3⟩ := hh
  exact ⟨k, h.finds _ k g1, h1.trans g2, h2.trans g3⟩

/-- The loop over the scalars for a word. -/
theorem sideRow_spec (law : Lawful sc D zero one) {row : Nat} {source : List Nat} : ∀ (ls : List (List Nat)) (scalars : List Nat) (t : Table W)
    (m : Mat E) (col : Nat), Good sc D zero one t → Labels sc t source → List.Forall₂ (FactorsOf t) scalars ls → row < col →
    ∃ t' m', sideRow sc mono row source t m col scalars = .ok (t', m') ∧ Good sc D zero one t' ∧ Ext t t' ∧ m'.dim = m.dim ∧
      (∀ i l, ls[i]? = some l → Holds mono t' m' row (col + i) source l) ∧
      (∀ a b, ¬ (a = row ∧ col ≤ b ∧ b < col + ls.length) → ¬ (b = row ∧ col ≤ a ∧ a < col + ls.length) → m'.at_ a b = m.at_ a b) ∧
      t'.entries.length ≤ t.entries.length + ls.length
  | [], scalars, t, m, col, h, _, hf, _ => by
    cases hf
    exact ⟨t, m, rfl, h, Ext.refl t, rfl, by simp, fun _ _ _ _ => rfl, by simp⟩
  | l :: ls, scalars, t, m, col, h, hs, hf, hlt => by
    obtain ⟨s, scalars, hsl, hrest, rfl⟩ := List.forall₂_cons_right_iff.mp hf
    obtain ⟨u, k, h1, h2, h3, h4, h5⟩ := combine_spec law h hs (factors_labels h hsl)
    obtain ⟨v, m', g1, g2, g3, g4, g5, g6, g7⟩ := sideRow_spec (row := row) law ls scalars u ((m.set row col (mono k)).set col row (mono k)) (col + 1) h2
      (hs.grow h3.grown) (hrest.imp fun _ _ hx => factors_grown h3.grown hx) (by omega)
    refine ⟨v, m', ?_, g2, h3.trans g3, g4, ?_, ?_, by simp; omega⟩
    · rw [sideRow, factors_ok hsl]
      simp only [bind, Except.bind]
      rw [h1]
      exact g1
    · intro i l' hi
      cases i with
      | zero =>
        simp only [List.getElem?_cons_zero, Option.some.injEq] at hi
        subst hi
        refine ⟨k, g3.finds _ _ h4, ?_, ?_⟩
        · rw [g6 _ _ (by omega) (by omega)]
          simp only [Mat.set]
          split <;> simp
        · rw [g6 _ _ (by omega) (by omega)]
          simp [Mat.set]
      | succ i =>
        have := g5 i l' (by simpa using hi)
        rwa [show col + 1 + i = col + (i + 1) by omega] at this
    · intro a b hab hba
      simp only [List.length_cons] at hab hba
      rw [g6 a b (by omega) (by omega)]
      simp only [Mat.set]
      rw [if_neg (by omega), if_neg (by omega)]

/-- The factors of the words of the moment matrix. -/
def Sourced (sc : Scenario W) (t : Table W) (g : W) (l : List Nat) : Prop := ∃ k, place t.syms (sc.canonical g) = some k ∧ FactorsOf t k l

theorem Sourced.grow {t t' : Table W} (ha : Apart t'.syms) (h : Grown t t') {g : W} {l : List Nat} (hk : Sourced sc t g l) : Sourced sc t' g l := by
  obtain ⟨k, h1, h2⟩ := hk
  exact ⟨k, place_apart ha (get_prefix h.syms (place_some h1)), factors_grown h h2⟩

/-- The loop over the words. -/
theorem sides_spec (law : Lawful sc D zero one) {scalars : List Nat} {ls : List (List Nat)} {old : Nat} : ∀ (gs : List (List Nat)) (gens : List W)
    (t : Table W) (m : Mat E) (row : Nat), Good sc D zero one t → List.Forall₂ (Sourced sc t) gens gs → List.Forall₂ (FactorsOf t) scalars ls →
    row + gs.length ≤ old →
    ∃ t' m', sides sc mono scalars old t m row gens = .ok (t', m') ∧ Good sc D zero one t' ∧ Ext t t' ∧ m'.dim = m.dim ∧
      (∀ j g, gs[j]? = some g → ∀ i l, ls[i]? = some l → Holds mono t' m' (row + j) (old + i) g l) ∧
      (∀ a b, ¬ (row ≤ a ∧ a < row + gs.length ∧ old ≤ b ∧ b < old + ls.length) →
        ¬ (row ≤ b ∧ b < row + gs.length ∧ old ≤ a ∧ a < old + ls.length) → m'.at_ a b = m.at_ a b) ∧
      t'.entries.length ≤ t.entries.length + gs.length * ls.length
  | [], gens, t, m, row, h, hg, _, _ => by
    cases hg
    exact ⟨t, m, rfl, h, Ext.refl t, rfl, by simp, fun _ _ _ _ => rfl, by simp⟩
  | g :: gs, gens, t, m, row, h, hg, hf, hlt => by
    obtain ⟨w, gens, ⟨k, hk, hkf⟩, hrest, rfl⟩ := List.forall₂_cons_right_iff.mp hg
    simp only [List.length_cons] at hlt
    obtain ⟨u, m1, h1, h2, h3, h4, h5, h6, h7⟩ := sideRow_spec (row := row) (mono := mono) law ls scalars t m old h (factors_labels h hkf) hf (by omega)
    obtain ⟨v, m', g1, g2, g3, g4, g5, g6, g7⟩ := sides_spec (old := old) law gs gens u m1 (row + 1) h2 (hrest.imp fun _ _ hx => hx.grow h2.apart h3.grown)
      (hf.imp fun _ _ hx => factors_grown h3.grown hx) (by omega)
    refine ⟨v, m', ?_, g2, h3.trans g3, g4.trans h4, ?_, ?_, ?_⟩
    · rw [sides, hk]
      simp only [bind, Except.bind]
      rw [factors_ok hkf]
      dsimp only
      rw [h1]
      exact g1
    · intro j g' hj i l hi
      have hil := (List.getElem?_eq_some_iff.mp hi).1
      cases j with
      | zero =>
        simp only [List.getElem?_cons_zero, Option.some.injEq] at hj
        subst hj
        exact (h5 i l hi).mono' g3 (g6 _ _ (by omega) (by omega)) (g6 _ _ (by omega) (by omega))
      | succ j =>
        have := g5 j g' (by simpa using hj) i l hi
        rwa [show row + 1 + j = row + (j + 1) by omega] at this
    · intro a b hab hba
      simp only [List.length_cons] at hab hba
      rw [g6 a b (by omega) (by omega), h6 a b (by omega) (by omega)]
    · simp only [List.length_cons, Nat.add_mul, Nat.one_mul]; omega

/-- The loop to the right of the diagonal. -/
theorem blockRow_spec (law : Lawful sc D zero one) {row moves : Nat} {source : List Nat} : ∀ (ls : List (List Nat)) (scalars : List Nat) (t : Table W)
    (m : Mat E) (col : Nat), Good sc D zero one t → Labels sc t source → List.Forall₂ (FactorsOf t) scalars ls → row < col →
    (∃ t' m', blockRow sc mono row source moves t m col scalars = .ok (t', m') ∧ Good sc D zero one t' ∧ Ext t t' ∧ m'.dim = m.dim ∧
      (∀ i l, ls[i]? = some l → Holds mono t' m' row (col + i) source l) ∧
      (∀ a b, ¬ (a = row ∧ col ≤ b ∧ b < col + ls.length) → ¬ (b = row ∧ col ≤ a ∧ a < col + ls.length) → m'.at_ a b = m.at_ a b) ∧
      t'.entries.length ≤ t.entries.length + ls.length) ∨
    (blockRow sc mono row source moves t m col scalars = .error .undefined ∧ ls ≠ [] ∧ (t.moves = moves → t.cap < t.entries.length + ls.length))
  | [], scalars, t, m, col, h, _, hf, _ => by
    cases hf
    exact Or.inl ⟨t, m, rfl, h, Ext.refl t, rfl, by simp, fun _ _ _ _ => rfl, by simp⟩
  | l :: ls, scalars, t, m, col, h, hs, hf, hlt => by
    obtain ⟨s, scalars, hsl, hrest, rfl⟩ := List.forall₂_cons_right_iff.mp hf
    by_cases hm : t.moves = moves
    swap
    · right
      refine ⟨?_, by simp, fun h => absurd h hm⟩
      rw [blockRow, factors_ok hsl]
      simp only [bind, Except.bind]
      rw [if_pos hm]
    obtain ⟨u, k, h1, h2, h3, h4, h5⟩ := combine_spec law h hs (factors_labels h hsl)
    have hstep : ∀ r, blockRow sc mono row source moves u ((m.set row col (mono k)).set col row (mono k)) (col + 1) scalars = r →
        blockRow sc mono row source moves t m col (s :: scalars) = r := by
      intro r hr
      rw [blockRow, factors_ok hsl]
      simp only [bind, Except.bind]
      rw [if_neg (not_not.mpr hm), h1]
      exact hr
    rcases blockRow_spec (row := row) (moves := moves) law ls scalars u ((m.set row col (mono k)).set col row (mono k)) (col + 1) h2
      (hs.grow h3.grown) (hrest.imp fun _ _ hx => factors_grown h3.grown hx) (by omega) with ⟨v, m', g1, g2, g3, g4, g5, g6, g7⟩ | ⟨g1, g2, g3⟩
    · left
      refine ⟨v, m', hstep _ g1, g2, h3.trans g3, g4, ?_, ?_, by simp; omega⟩
      · intro i l' hi
        cases i with
        | zero =>
          simp only [List.getElem?_cons_zero, Option.some.injEq] at hi
          subst hi
          refine ⟨k, g3.finds _ _ h4, ?_, ?_⟩
          · rw [g6 _ _ (by omega) (by omega)]
            simp only [Mat.set]
            split <;> simp
          · rw [g6 _ _ (by omega) (by omega)]
            simp [Mat.set]
        | succ i =>
          have := g5 i l' (by simpa using hi)
          rwa [show col + 1 + i = col + (i + 1) by omega] at this
      · intro a b hab hba
        simp only [List.length_cons] at hab hba
        rw [g6 a b (by omega) (by omega)]
        simp only [Mat.set]
        rw [if_neg (by omega), if_neg (by omega)]
    · right
      refine ⟨hstep _ g1, by simp, fun _ => ?_⟩
      by_contra hc
      simp only [List.length_cons] at hc
      have hls : 0 < ls.length := List.length_pos_iff.mpr g2
      obtain ⟨e1, e2⟩ := h3.fits (by omega)
      have := g3 (e1.trans hm)
      omega

/-- The number of entries on and above the diagonal of the block. -/
def triangle : Nat → Nat
  | 0 => 0
  | n + 1 => n + 1 + triangle n

/-- The bottom-right block. -/
theorem block_spec (law : Lawful sc D zero one) : ∀ (ls : List (List Nat)) (scalars : List Nat) (t : Table W) (m : Mat E) (row : Nat),
    Good sc D zero one t → List.Forall₂ (FactorsOf t) scalars ls →
    (∃ t' m', block sc mono t m row scalars = .ok (t', m') ∧ Good sc D zero one t' ∧ Ext t t' ∧ m'.dim = m.dim ∧
      (∀ i j a b, i ≤ j → ls[i]? = some a → ls[j]? = some b → Holds mono t' m' (row + i) (row + j) a b) ∧
      (∀ a b, ¬ (row ≤ a ∧ a < row + ls.length ∧ row ≤ b ∧ b < row + ls.length) → m'.at_ a b = m.at_ a b) ∧
      t'.entries.length ≤ t.entries.length + triangle ls.length) ∨
    (block sc mono t m row scalars = .error .undefined ∧ 1 < ls.length ∧ t.cap < t.entries.length + triangle ls.length)
  | [], scalars, t, m, row, h, hf => by
    cases hf
    exact Or.inl ⟨t, m, rfl, h, Ext.refl t, rfl, by simp, fun _ _ _ => rfl, by simp [triangle]⟩
  | l :: ls, scalars, t, m, row, h, hf => by
    obtain ⟨s, scalars, hsl, hrest, rfl⟩ := List.forall₂_cons_right_iff.mp hf
    have hl := factors_labels h hsl
    obtain ⟨u, k, h1, h2, h3, h4, h5⟩ := combine_spec law h hl hl
    have hrow := blockRow_spec (mono := mono) (row := row) (moves := t.moves) law ls scalars u (m.set row row (mono k)) (row + 1) h2 (hl.grow h3.grown)
      (hrest.imp fun _ _ hx => factors_grown h3.grown hx) (by omega)
    have hstep : block sc mono t m row (s :: scalars) =
        (blockRow sc mono row l t.moves u (m.set row row (mono k)) (row + 1) scalars).bind fun r => block sc mono r.1 r.2 (row + 1) scalars := by
      rw [block, factors_ok hsl]
      simp only [bind, Except.bind]
      rw [h1]
    rcases hrow with ⟨v, m1, g1, g2, g3, g4, g5, g6, g7⟩ | ⟨g1, g2, g3⟩
    · rw [g1] at hstep
      rcases block_spec law ls scalars v m1 (row + 1) g2 (hrest.imp fun _ _ hx => factors_grown (h3.trans g3).grown hx) with
        ⟨w, m', k1, k2, k3, k4, k5, k6, k7⟩ | ⟨k1, k2, k3⟩
      · left
        refine ⟨w, m', by rw [hstep]; exact k1, k2, (h3.trans g3).trans k3, k4.trans g4, ?_, ?_, by simp [triangle]; omega⟩
        · intro i j a b hij hi hj
          cases i with
          | zero =>
            simp only [List.getElem?_cons_zero, Option.some.injEq] at hi
            subst hi
            cases j with
            | zero =>
              simp only [List.getElem?_cons_zero, Option.some.injEq] at hj
              subst hj
              refine ⟨k, k3.finds _ _ (g3.finds _ _ h4), ?_, ?_⟩ <;>
              · rw [k6 _ _ (by omega), g6 _ _ (by omega) (by omega)]
                simp [Mat.set]
            | succ j =>
              have := g5 j b (by simpa using hj)
              rw [show row + 1 + j = row + (j + 1) by omega] at this
              exact this.mono' k3 (k6 _ _ (by omega)) (k6 _ _ (by omega))
          | succ i =>
            cases j with
            | zero => omega
            | succ j =>
              have := k5 i j a b (by omega) (by simpa using hi) (by simpa using hj)
              rwa [show row + 1 + i = row + (i + 1) by omega, show row + 1 + j = row + (j + 1) by omega] at this
        · intro a b hab
          simp only [List.length_cons] at hab
          rw [k6 a b (by omega), g6 a b (by omega) (by omega)]
          simp only [Mat.set]
          rw [if_neg (by omega)]
      · right
        refine ⟨by rw [hstep]; exact k1, by simp only [List.length_cons]; omega, ?_⟩
        by_contra hc
        simp only [List.length_cons, triangle] at hc
        obtain ⟨n, hn⟩ : ∃ n, ls.length = n + 1 := ⟨ls.length - 1, by omega⟩
        have ht : n + 1 ≤ triangle ls.length := by rw [hn, triangle]; omega
        obtain ⟨e1, e2⟩ := (h3.trans g3).fits (by omega)
        omega
    · right
      refine ⟨by rw [hstep, g1]; rfl, ?_, ?_⟩
      · have := List.length_pos_iff.mpr g2
        simp only [List.length_cons]; omega
      · by_contra hc
        simp only [List.length_cons, triangle] at hc
        obtain ⟨e1, e2⟩ := h3.fits (by omega)
        have := g3 e1
        omega

end Moment.Inflation.Extend
