import Verif.Model.FactorTable
import Verif.Spec.Extend
import Verif.Props.C36_IndexTree
import Verif.Props.C12_Inflation
import Mathlib.Algebra.BigOperators.Group.List.Basic
import Mathlib.Algebra.BigOperators.GroupWithZero.Action
import Mathlib.Algebra.GroupWithZero.Basic
import Mathlib.Data.List.Sort

/-! Lemmas on factor tables. -/

set_option linter.unusedSectionVars false

namespace Moment.Inflation.Extend

variable {W : Type} [DecidableEq W]

/-! ## Looking up words -/

theorem place_some {syms : List (Option W)} {w : W} {k : Nat} (h : place syms w = some k) : syms[k]? = some (some w) := by
  rw [place, List.idxOf?, List.findIdx?_eq_some_iff_getElem] at h
  obtain ⟨hk, h, -⟩ := h
  rw [List.getElem?_eq_getElem hk, beq_iff_eq.mp h]

theorem place_none {syms : List (Option W)} {w : W} : place syms w = none ↔ some w ∉ syms := by
  rw [place, List.idxOf?, List.findIdx?_eq_none_iff]
  constructor
  · intro h hm
    have := h _ hm
    simp at this
  · intro h x hx
    rw [beq_eq_false_iff_ne]
    rintro rfl
    exact h hx

/-- No word occurs twice. -/
def Apart (syms : List (Option W)) : Prop := ∀ (i j : Nat) (w : W), syms[i]? = some (some w) → syms[j]? = some (some w) → i = j

theorem place_apart {syms : List (Option W)} (h : Apart syms) {w : W} {k : Nat} (hk : syms[k]? = some (some w)) : place syms w = some k := by
  cases hp : place syms w with
  | none => exact absurd (List.mem_of_getElem? hk) (place_none.mp hp)
  | some j => rw [h j k w (place_some hp) hk]

theorem apart_push {syms : List (Option W)} (h : Apart syms) {x : Option W} (hx : ∀ w, x = some w → some w ∉ syms) : Apart (syms ++ [x]) := by
  intro i j w hi hj
  rw [List.getElem?_append] at hi hj
  split at hi <;> split at hj
  · exact h i j w hi hj
  · rename_i h1 h2
    have hxw : x = some w := by
      cases e : j - syms.length with
      | zero => rw [e] at hj; simpa using hj
      | succ n => rw [e] at hj; simp at hj
    exact absurd (List.mem_of_getElem? hi) (hx w hxw)
  · rename_i h1 h2
    have hxw : x = some w := by
      cases e : i - syms.length with
      | zero => rw [e] at hi; simpa using hi
      | succ n => rw [e] at hi; simp at hi
    exact absurd (List.mem_of_getElem? hj) (hx w hxw)
  · cases e : i - syms.length with
    | zero =>
      cases e' : j - syms.length with
      | zero => omega
      | succ n => rw [e'] at hj; simp at hj
    | succ n => rw [e] at hi; simp at hi

theorem get_prefix {α : Type} {l l' : List α} (h : l <+: l') {i : Nat} {x : α} (hi : l[i]? = some x) : l'[i]? = some x := by
  obtain ⟨m, rfl⟩ := h
  rw [List.getElem?_append_left (List.getElem?_eq_some_iff.mp hi).1, hi]

theorem apart_prefix {l l' : List (Option W)} (h : l <+: l') (ha : Apart l') : Apart l :=
  fun i j w hi hj => ha i j w (get_prefix h hi) (get_prefix h hj)

/-! ## Sorting and combining lists of factors -/

theorem insertNat_perm (x : Nat) : ∀ l, (insertNat x l).Perm (x :: l)
  | [] => List.Perm.refl _
  | y :: l => by
    rw [insertNat]
    split
    · exact List.Perm.refl _
    · exact ((insertNat_perm x l).cons y).trans (List.Perm.swap x y l)

theorem sortNat_perm : ∀ l, (sortNat l).Perm l
  | [] => List.Perm.refl _
  | x :: l => (insertNat_perm x _).trans ((sortNat_perm l).cons x)

theorem insertNat_sorted (x : Nat) : ∀ l : List Nat, l.Pairwise (· ≤ ·) → (insertNat x l).Pairwise (· ≤ ·)
  | [], _ => by simp [insertNat]
  | y :: l, h => by
    rw [insertNat]
    split
    · rename_i hx
      refine List.pairwise_cons.mpr ⟨fun z hz => ?_, h⟩
      rcases List.mem_cons.mp hz with rfl | hz
      · exact hx
      · exact hx.trans ((List.pairwise_cons.mp h).1 z hz)
    · rename_i hx
      refine List.pairwise_cons.mpr ⟨fun z hz => ?_, insertNat_sorted x l (List.pairwise_cons.mp h).2⟩
      rcases List.mem_cons.mp ((insertNat_perm x l).mem_iff.mp hz) with rfl | hz
      · omega
      · exact (List.pairwise_cons.mp h).1 z hz

theorem sortNat_sorted : ∀ l, (sortNat l).Pairwise (· ≤ ·)
  | [] => List.Pairwise.nil
  | x :: l => insertNat_sorted x _ (sortNat_sorted l)

/-- Lists of factors as the tables have them: a zero stands first, and lists without zero are sorted. -/
def Proper (l : List Nat) : Prop := l.head? = some 0 ∨ (l.Pairwise (· ≤ ·) ∧ 0 ∉ l ∧ l ≠ [])

theorem proper_sorted {l : List Nat} (h : l.Pairwise (· ≤ ·)) (hne : l ≠ []) : Proper l := by
  cases l with
  | nil => exact absurd rfl hne
  | cons x l =>
    by_cases hx : x = 0
    · subst hx; exact Or.inl rfl
    · refine Or.inr ⟨h, ?_, hne⟩
      intro h0
      rcases List.mem_cons.mp h0 with e | e
      · exact hx e.symm
      · have := (List.pairwise_cons.mp h).1 0 e; omega

theorem proper_ne {l : List Nat} (h : Proper l) : l ≠ [] := by
  rcases h with h | h
  · rintro rfl; simp at h
  · exact h.2.2

theorem merge_head_left {l r : List Nat} (h : l.head? = some 0) : (l.merge r).head? = some 0 := by
  cases l with
  | nil => simp at h
  | cons x l =>
    simp only [List.head?_cons, Option.some.injEq] at h
    subst h
    cases r with
    | nil => simp
    | cons y r => rw [List.cons_merge_cons]; simp

theorem merge_head_right {l r : List Nat} (h : r.head? = some 0) : (l.merge r).head? = some 0 := by
  cases r with
  | nil => simp at h
  | cons y r =>
    simp only [List.head?_cons, Option.some.injEq] at h
    subst h
    cases l with
    | nil => simp
    | cons x l =>
      rw [List.cons_merge_cons]
      split
      · rename_i hx; simp at hx; simp [hx]
      · simp

theorem combine_mem {a b : List Nat} {k : Nat} (h : k ∈ combineFactors a b) : k ∈ a ∨ k ∈ b ∨ k = 0 ∨ k = 1 := by
  have hm : ∀ x, x ∈ a.merge b → x ∈ a ∨ x ∈ b := fun x hx => List.mem_append.mp ((List.merge_perm_append _).mem_iff.mp hx)
  rw [combineFactors_eq] at h
  split_ifs at h with h1 h2 h3 h4
  · simp at h; tauto
  · rcases List.mem_append.mp h with h | h
    · have := hm k h; tauto
    · simp at h; tauto
  · simp at h; tauto
  · have := hm k ((List.dropWhile_sublist _).mem h); tauto
  · have := hm k h; tauto

theorem combine_proper {a b : List Nat} (ha : Proper a) (hb : Proper b) : Proper (combineFactors a b) := by
  have h1 : (a.isEmpty && b.isEmpty) = false := by
    have := proper_ne ha
    cases a <;> simp_all
  by_cases h0 : (a.merge b).head? = some 0
  · rw [combineFactors_eq, h1]
    simp only [Bool.false_eq_true, if_false, if_pos h0]
    left
    rw [List.head?_append, h0]; rfl
  · have ha' := ha.resolve_left fun h => h0 (merge_head_left h)
    have hb' := hb.resolve_left fun h => h0 (merge_head_right h)
    have hz : 0 ∉ a ++ b := by simp [ha'.2.1, hb'.2.1]
    have h := C12.C15_combine_partial a b ha'.1 hb'.1 hz
    refine proper_sorted h.1 ?_
    intro e
    rw [e] at h
    split at h
    · simp at h
    · rename_i hne; exact hne (List.nil_perm.mp h.2)

/-- The value of the combination is the product. -/
theorem combine_value {M : Type} [CommMonoidWithZero M] (f : Nat → M) (f0 : f 0 = 0) (f1 : f 1 = 1) {a b : List Nat} (ha : Proper a) (hb : Proper b) :
    ((combineFactors a b).map f).prod = (a.map f).prod * (b.map f).prod := by
  have h1 : (a.isEmpty && b.isEmpty) = false := by
    have := proper_ne ha
    cases a <;> simp_all
  have hzero : ∀ l : List Nat, l.head? = some 0 → (l.map f).prod = 0 := fun l hl =>
    List.prod_eq_zero (List.mem_map.mpr ⟨0, List.mem_of_mem_head? hl, f0⟩)
  by_cases h0 : (a.merge b).head? = some 0
  · have hl : (combineFactors a b).head? = some 0 := by
      rw [combineFactors_eq, h1]
      simp only [Bool.false_eq_true, if_false, if_pos h0]
      rw [List.head?_append, h0]; rfl
    rw [hzero _ hl, ← List.prod_append, ← List.map_append]
    refine (List.prod_eq_zero (List.mem_map.mpr ⟨0, ?_, f0⟩)).symm
    exact (List.merge_perm_append _).mem_iff.mp (List.mem_of_mem_head? h0)
  · have ha' := ha.resolve_left fun h => h0 (merge_head_left h)
    have hb' := hb.resolve_left fun h => h0 (merge_head_right h)
    exact C12.C15_value f f0 f1 a b ha'.1 hb'.1

/-! ## The invariant -/

variable {sc : Scenario W} {D : W → Prop} {zero one : W}

/-- Symbol `k` has a word that does not factorize. -/
def Fund (sc : Scenario W) (syms : List (Option W)) (k : Nat) : Prop := ∃ w, syms[k]? = some (some w) ∧ Basic sc w

theorem Fund.mono {l l' : List (Option W)} (h : l <+: l') {k : Nat} (hk : Fund sc l k) : Fund sc l' k := by
  obtain ⟨w, h1, h2⟩ := hk
  exact ⟨w, get_prefix h h1, h2⟩

/-- The factors of a word are those of its entry. -/
def Faithful (sc : Scenario W) (syms : List (Option W)) (w : W) (l : List Nat) : Prop :=
  ∃ m, l.Perm m ∧ List.Forall₂ (fun f k => syms[k]? = some (some (sc.canonical f))) (sc.factorize w) m

theorem Faithful.mono {l l' : List (Option W)} (h : l <+: l') {w : W} {m : List Nat} (hk : Faithful sc l w m) : Faithful sc l' w m := by
  obtain ⟨m', h1, h2⟩ := hk
  exact ⟨m', h1, h2.imp fun _ _ hx => get_prefix h hx⟩

/-- The state of the tables, also while symbols are being analysed or added. -/
structure Core (sc : Scenario W) (D : W → Prop) (zero one : W) (t : Table W) : Prop where
  at_most : t.entries.length ≤ t.syms.length
  words : ∀ (i : Nat) w, t.syms[i]? = some (some w) → D w
  apart : Apart t.syms
  zero_at : t.syms[0]? = some (some zero)
  one_at : t.syms[1]? = some (some one)
  ids : ∀ (i : Nat) e, t.entries[i]? = some e → e.id = i
  proper : ∀ (i : Nat) e, t.entries[i]? = some e → Proper e.symbols
  fund : ∀ (i : Nat) e, t.entries[i]? = some e → ∀ k ∈ e.symbols, Fund sc t.syms k
  faithful : ∀ (i : Nat) e w, t.entries[i]? = some e → t.syms[i]? = some (some w) → Faithful sc t.syms w e.symbols
  count : ∀ (i : Nat) e, t.entries[i]? = some e → e.seqs.length = e.symbols.length
  ordered : C36.Ordered t.tree.2
  found : ∀ p k, Index.find t.tree p = some k → ∃ e, t.entries[k]? = some e ∧ p = path e.symbols
  kept : ∀ (i : Nat) e, t.entries[i]? = some e → ∃ k, t.find e.symbols = some k

/-- In addition, the symbols without entry have words. -/
structure Inv (sc : Scenario W) (D : W → Prop) (zero one : W) (t : Table W) : Prop extends Core sc D zero one t where
  pending : ∀ i, t.entries.length ≤ i → i < t.syms.length → ∃ w, t.syms[i]? = some (some w)

theorem path_inj {l m : List Nat} (h : path l = path m) : l = m :=
  List.map_injective_iff.mpr (fun _ _ h => Int.ofNat.inj h) h

/-- Adding an entry with its path. -/
theorem push_index (t : Table W) (e : Entry W) : ∃ cap moves, (t.push sc e).index e.symbols e.id =
    ⟨t.syms, t.entries ++ [e], Index.add e.id (path e.symbols) t.tree, cap, moves⟩ ∧
    ((moves = t.moves ∧ cap = t.cap) ∨ (moves = t.moves + 1 ∧ t.cap ≤ t.entries.length)) := by
  rw [Table.push]
  split
  · exact ⟨_, _, rfl, Or.inl ⟨rfl, rfl⟩⟩
  · exact ⟨_, _, rfl, Or.inr ⟨rfl, by omega⟩⟩

theorem get_push {α : Type} {l : List α} {x y : α} {i : Nat} (h : (l ++ [x])[i]? = some y) : l[i]? = some y ∨ (i = l.length ∧ y = x) := by
  rw [List.getElem?_append] at h
  split at h
  · exact Or.inl h
  · rename_i hi
    cases e : i - l.length with
    | zero => rw [e] at h; simp at h; exact Or.inr ⟨by omega, h.symm⟩
    | succ n => rw [e] at h; simp at h

/-- A new entry keeps the invariant. -/
theorem Core.add {t : Table W} (h : Core sc D zero one t) {e : Entry W} (hid : e.id = t.entries.length) (hlt : t.entries.length < t.syms.length)
    (hp : Proper e.symbols) (hf : ∀ k ∈ e.symbols, Fund sc t.syms k)
    (hw : ∀ w, t.syms[t.entries.length]? = some (some w) → Faithful sc t.syms w e.symbols) (hc : e.seqs.length = e.symbols.length) :
    Core sc D zero one ((t.push sc e).index e.symbols e.id) := by
  obtain ⟨cap, moves, he, -⟩ := push_index (sc := sc) t e
  rw [he]
  obtain ⟨ho, hfind⟩ := C36.add_spec e.id (path e.symbols) t.tree h.ordered
  refine ⟨by simp; omega, h.words, h.apart, h.zero_at, h.one_at, ?_, ?_, ?_, ?_, ?_, ho, ?_, ?_⟩
  · intro i x hx
    rcases get_push hx with hx | ⟨rfl, rfl⟩
    · exact h.ids i x hx
    · exact hid
  · intro i x hx
    rcases get_push hx with hx | ⟨rfl, rfl⟩
    · exact h.proper i x hx
    · exact hp
  · intro i x hx
    rcases get_push hx with hx | ⟨rfl, rfl⟩
    · exact h.fund i x hx
    · exact hf
  · intro i x w hx hs
    rcases get_push hx with hx | ⟨rfl, rfl⟩
    · exact h.faithful i x w hx hs
    · exact hw w hs
  · intro i x hx
    rcases get_push hx with hx | ⟨rfl, rfl⟩
    · exact h.count i x hx
    · exact hc
  · intro p k hk
    rw [hfind] at hk
    split at hk
    · rename_i hpe
      cases hk
      refine ⟨e, ?_, hpe⟩
      rw [hid]; simp
    · obtain ⟨x, h1, h2⟩ := h.found p k hk
      exact ⟨x, by rw [List.getElem?_append_left (List.getElem?_eq_some_iff.mp h1).1, h1], h2⟩
  · intro i x hx
    rw [Table.find]
    dsimp only
    rw [hfind]
    split
    · exact ⟨_, rfl⟩
    · rename_i hne
      rcases get_push hx with hx | ⟨rfl, rfl⟩
      · exact h.kept i x hx
      · exact absurd rfl hne

theorem Inv.add {t : Table W} (h : Inv sc D zero one t) {e : Entry W} (hid : e.id = t.entries.length) (hlt : t.entries.length < t.syms.length)
    (hp : Proper e.symbols) (hf : ∀ k ∈ e.symbols, Fund sc t.syms k)
    (hw : ∀ w, t.syms[t.entries.length]? = some (some w) → Faithful sc t.syms w e.symbols) (hc : e.seqs.length = e.symbols.length) :
    Inv sc D zero one ((t.push sc e).index e.symbols e.id) := by
  refine ⟨h.toCore.add hid hlt hp hf hw hc, ?_⟩
  obtain ⟨cap, moves, he, -⟩ := push_index (sc := sc) t e
  rw [he]
  intro i hi hi'
  simp only [List.length_append, List.length_singleton] at hi
  exact h.pending i (by omega) hi'

/-! ## New symbols -/

theorem resolve_spec : ∀ (l : List W) (syms : List (Option W)), Apart syms → (∀ f ∈ l, D (sc.canonical f) ∧ Basic sc (sc.canonical f)) →
    syms <+: (resolve sc syms l).1 ∧ Apart (resolve sc syms l).1 ∧
    (∀ i, syms.length ≤ i → i < (resolve sc syms l).1.length → ∃ w, (resolve sc syms l).1[i]? = some (some w) ∧ Basic sc w ∧ D w) ∧
    List.Forall₂ (fun f k => (resolve sc syms l).1[k]? = some (some (sc.canonical f))) l (resolve sc syms l).2
  | [], syms, h, _ => ⟨List.prefix_rfl, h, fun i h1 h2 => absurd h2 (by simp only [resolve]; omega), List.Forall₂.nil⟩
  | f :: l, syms, h, hl => by
    rw [resolve]
    dsimp only
    cases hp : place syms (sc.canonical f) with
    | some k =>
      obtain ⟨h1, h2, h3, h4⟩ := resolve_spec l syms h fun x hx => hl x (List.mem_cons_of_mem _ hx)
      exact ⟨h1, h2, h3, List.Forall₂.cons (get_prefix h1 (place_some hp)) h4⟩
    | none =>
      have ha : Apart (syms ++ [some (sc.canonical f)]) := apart_push h fun w hw => by
        cases hw; exact place_none.mp hp
      obtain ⟨h1, h2, h3, h4⟩ := resolve_spec l _ ha fun x hx => hl x (List.mem_cons_of_mem _ hx)
      have hk : (resolve sc (syms ++ [some (sc.canonical f)]) l).1[syms.length]? = some (some (sc.canonical f)) := get_prefix h1 (by simp)
      refine ⟨(List.prefix_append _ _).trans h1, h2, ?_, List.Forall₂.cons hk h4⟩
      intro i hi hi'
      by_cases he : i = syms.length
      · subst he
        have := hl f List.mem_cons_self
        exact ⟨_, hk, this.2, this.1⟩
      · exact h3 i (by simp; omega) hi'

/-- The table has grown. -/
structure Grown (t t' : Table W) : Prop where
  syms : t.syms <+: t'.syms
  entries : t.entries <+: t'.entries

theorem Grown.refl (t : Table W) : Grown t t := ⟨List.prefix_rfl, List.prefix_rfl⟩
theorem Grown.trans {a b c : Table W} (h : Grown a b) (h' : Grown b c) : Grown a c := ⟨h.syms.trans h'.syms, h.entries.trans h'.entries⟩

theorem prefix_le {α : Type} {l l' : List α} (h : l <+: l') : l.length ≤ l'.length := h.length_le

theorem analyse_spec (law : Lawful sc D zero one) {t : Table W} (h : Inv sc D zero one t) (hlt : t.entries.length < t.syms.length) :
    ∃ t', t.analyse sc t.entries.length = .ok t' ∧ Inv sc D zero one t' ∧ t'.entries.length = t.entries.length + 1 ∧ Grown t t' ∧
      ∀ i, t.syms.length ≤ i → i < t'.syms.length → Fund sc t'.syms i := by
  obtain ⟨w, hw⟩ := h.pending _ le_rfl hlt
  have hD := h.words _ w hw
  rw [Table.analyse, hw]
  dsimp only
  obtain ⟨h1, h2, h3, h4⟩ := resolve_spec (sc := sc) (D := D) (sc.factorize w) t.syms h.apart (law.basic w hD)
  set r := resolve sc t.syms (sc.factorize w) with hr
  have hinv : Inv sc D zero one { t with syms := r.1 } := by
    refine ⟨⟨h.at_most.trans (prefix_le h1), ?_, h2, get_prefix h1 h.zero_at, get_prefix h1 h.one_at, h.ids, h.proper,
      fun i e he k hk => (h.fund i e he k hk).mono h1, ?_, h.count, h.ordered, h.found, h.kept⟩, ?_⟩
    rotate_left 2
    · intro i hi hi'
      by_cases hlt : i < t.syms.length
      · obtain ⟨w, hw⟩ := h.pending i hi hlt
        exact ⟨w, get_prefix h1 hw⟩
      · obtain ⟨w, hw, -⟩ := h3 i (by omega) hi'
        exact ⟨w, hw⟩
    · intro i x hx
      by_cases hlt : i < t.syms.length
      · refine h.words i x ?_
        have := get_prefix h1 (List.getElem?_eq_getElem hlt)
        dsimp only at hx
        rw [this] at hx
        rw [List.getElem?_eq_getElem hlt, hx]
      · obtain ⟨y, hy, -, hD⟩ := h3 i (by omega) (List.getElem?_eq_some_iff.mp hx).1
        dsimp only at hx
        rw [hy] at hx
        cases hx
        exact hD
    · intro i e x he hx
      have hi : i < t.syms.length := lt_of_lt_of_le (List.getElem?_eq_some_iff.mp he).1 h.at_most
      refine (h.faithful i e x he ?_).mono h1
      have := get_prefix h1 (List.getElem?_eq_getElem hi)
      dsimp only at hx
      rw [this] at hx
      rw [List.getElem?_eq_getElem hi, hx]
  have hsort := sortNat_perm r.2
  have hlen : r.2.length = (sc.factorize w).length := h4.length_eq.symm
  refine ⟨_, rfl, hinv.add (e := ⟨t.entries.length, sc.factorize w, (sc.factorize w).map sc.canonical, sortNat r.2⟩) rfl
    (lt_of_lt_of_le hlt (prefix_le h1)) ?_ ?_ ?_ ?_, ?_, ?_, ?_⟩
  · refine proper_sorted (sortNat_sorted _) fun e => ?_
    dsimp only at e
    have := hsort.length_eq
    rw [e, hlen] at this
    exact law.some_factor w hD (List.length_eq_zero_iff.mp this.symm)
  · intro k hk
    obtain ⟨f, hf, hfk⟩ := (List.forall₂_iff_get.mp h4 |> fun ⟨hl, hg⟩ => by
      obtain ⟨n, hn, hnk⟩ := List.getElem_of_mem (hsort.mem_iff.mp hk)
      exact ⟨(sc.factorize w)[n]'(by omega), List.getElem_mem _, by have := hg n (by omega) hn; simpa [hnk] using this⟩ :
      ∃ f ∈ sc.factorize w, r.1[k]? = some (some (sc.canonical f)))
    exact ⟨_, hfk, (law.basic w hD f hf).2⟩
  · intro x hx
    have : x = w := by
      have h' := get_prefix h1 hw
      dsimp only at hx
      rw [h'] at hx
      cases hx; rfl
    subst this
    exact ⟨r.2, hsort, h4⟩
  · simp [hsort.length_eq, hlen]
  · obtain ⟨cap, moves, he, -⟩ := push_index (sc := sc) { t with syms := r.1 } ⟨t.entries.length, sc.factorize w, (sc.factorize w).map sc.canonical, sortNat r.2⟩
    dsimp only at he
    rw [he]; simp
  · obtain ⟨cap, moves, he, -⟩ := push_index (sc := sc) { t with syms := r.1 } ⟨t.entries.length, sc.factorize w, (sc.factorize w).map sc.canonical, sortNat r.2⟩
    dsimp only at he
    rw [he]
    exact ⟨h1, List.prefix_append _ _⟩
  · obtain ⟨cap, moves, he, -⟩ := push_index (sc := sc) { t with syms := r.1 } ⟨t.entries.length, sc.factorize w, (sc.factorize w).map sc.canonical, sortNat r.2⟩
    dsimp only at he
    rw [he]
    intro i hi hi'
    obtain ⟨y, hy, hb, -⟩ := h3 i hi hi'
    exact ⟨y, hy, hb⟩

theorem single_spec {t : Table W} (h : Inv sc D zero one t) (hlt : t.entries.length < t.syms.length) (hf : Fund sc t.syms t.entries.length) :
    ∃ t', t.single sc t.entries.length = .ok t' ∧ Inv sc D zero one t' ∧ t'.entries.length = t.entries.length + 1 ∧ Grown t t' ∧
      t'.syms = t.syms := by
  obtain ⟨w, hw, hb⟩ := hf
  rw [Table.single, hw]
  dsimp only
  obtain ⟨cap, moves, he, -⟩ := push_index (sc := sc) t ⟨t.entries.length, [w], [w], [t.entries.length]⟩
  dsimp only at he
  refine ⟨_, rfl, h.add (e := ⟨t.entries.length, [w], [w], [t.entries.length]⟩) rfl hlt (proper_sorted (by simp) (by simp)) ?_ ?_ rfl, ?_, ?_, ?_⟩
  · intro k hk
    simp only [List.mem_singleton] at hk
    subst hk
    exact ⟨w, hw, hb⟩
  · intro x hx
    rw [hw] at hx
    cases hx
    refine ⟨[t.entries.length], List.Perm.refl _, ?_⟩
    rw [hb.1]
    exact List.Forall₂.cons (by rw [hw, hb.2]) List.Forall₂.nil
  · rw [he]; simp
  · rw [he]; exact ⟨List.prefix_rfl, List.prefix_append _ _⟩
  · rw [he]

theorem analyse_all (law : Lawful sc D zero one) : ∀ (n : Nat) {t : Table W}, Inv sc D zero one t → t.entries.length + n ≤ t.syms.length →
    ∃ t', (List.range' t.entries.length n).foldlM (Table.analyse sc) t = .ok t' ∧ Inv sc D zero one t' ∧
      t'.entries.length = t.entries.length + n ∧ Grown t t' ∧ ∀ i, t.syms.length ≤ i → i < t'.syms.length → Fund sc t'.syms i
  | 0, t, h, _ => ⟨t, rfl, h, rfl, Grown.refl t, fun i h1 h2 => absurd h2 (by omega)⟩
  | n + 1, t, h, hn => by
    obtain ⟨u, h1, h2, h3, h4, h5⟩ := analyse_spec law h (by omega)
    obtain ⟨v, g1, g2, g3, g4, g5⟩ := analyse_all law n h2 (by have := prefix_le h4.syms; omega)
    refine ⟨v, ?_, g2, by omega, h4.trans g4, ?_⟩
    · rw [List.range'_succ, List.foldlM_cons, h1]
      rw [h3] at g1
      exact g1
    · intro i hi hi'
      by_cases hlt : i < u.syms.length
      · exact (h5 i hi hlt).mono g4.syms
      · exact g5 i (by omega) hi'

theorem single_all : ∀ (n : Nat) {t : Table W}, Inv sc D zero one t → t.entries.length + n = t.syms.length →
    (∀ i, t.entries.length ≤ i → i < t.syms.length → Fund sc t.syms i) →
    ∃ t', (List.range' t.entries.length n).foldlM (Table.single sc) t = .ok t' ∧ Inv sc D zero one t' ∧
      t'.entries.length = t.entries.length + n ∧ Grown t t' ∧ t'.syms = t.syms
  | 0, t, h, _, _ => ⟨t, rfl, h, rfl, Grown.refl t, rfl⟩
  | n + 1, t, h, hn, hf => by
    obtain ⟨u, h1, h2, h3, h4, h5⟩ := single_spec h (by omega) (hf _ le_rfl (by omega))
    obtain ⟨v, g1, g2, g3, g4, g5⟩ := single_all n h2 (by rw [h5]; omega) (by rw [h5]; intro i hi; exact hf i (by omega))
    refine ⟨v, ?_, g2, by omega, h4.trans g4, by rw [g5, h5]⟩
    rw [List.range'_succ, List.foldlM_cons, h1]
    rw [h3] at g1
    exact g1

/-- The tables are in step. -/
structure Good (sc : Scenario W) (D : W → Prop) (zero one : W) (t : Table W) : Prop extends Inv sc D zero one t where
  sync : t.entries.length = t.syms.length

theorem refresh_spec (law : Lawful sc D zero one) {t : Table W} (h : Inv sc D zero one t) :
    ∃ t', t.refresh sc = .ok t' ∧ Good sc D zero one t' ∧ Grown t t' ∧ ∀ i, t.syms.length ≤ i → i < t'.syms.length → Fund sc t'.syms i := by
  have hm := h.at_most
  obtain ⟨u, h1, h2, h3, h4, h5⟩ := analyse_all law (t.syms.length - t.entries.length) h (by omega)
  have hu := prefix_le h4.syms
  obtain ⟨v, g1, g2, g3, g4, g5⟩ := single_all (u.syms.length - t.syms.length) h2 (by omega) fun i hi hi' => h5 i (by omega) hi'
  refine ⟨v, ?_, ⟨g2, by rw [g5]; omega⟩, h4.trans g4, ?_⟩
  · rw [Table.refresh, h1]
    have e : u.entries.length = t.syms.length := by omega
    rw [e] at g1
    exact g1
  · intro i hi hi'
    rw [g5] at hi' ⊢
    exact h5 i hi hi'

theorem new_spec (law : Lawful sc D zero one) : ∃ t, Table.new sc zero one = .ok t ∧ Good sc D zero one t := by
  have h : Inv sc D zero one ⟨[some zero, some one], [], (none, .nil), 0, 0⟩ := by
    refine ⟨⟨by simp, ?_, ?_, rfl, rfl, by simp, by simp, by simp, by simp, by simp, trivial, ?_, by simp⟩, ?_⟩
    rotate_left 3
    · intro i _ hi
      simp only [List.length_cons, List.length_nil] at hi
      match i, hi with
      | 0, _ => exact ⟨zero, rfl⟩
      | 1, _ => exact ⟨one, rfl⟩
    · intro i w hw
      match i, hw with
      | 0, hw => simp at hw; subst hw; exact law.word_zero
      | 1, hw => simp at hw; subst hw; exact law.word_one
    · intro i j w hi hj
      match i, j, hi, hj with
      | 0, 0, _, _ => rfl
      | 1, 1, _, _ => rfl
      | 0, 1, hi, hj => simp at hi hj; exact absurd (hi.trans hj.symm) law.different
      | 1, 0, hi, hj => simp at hi hj; exact absurd (hj.trans hi.symm) law.different
    · intro p k hk
      rw [C36.find_empty] at hk
      cases hk
  obtain ⟨t, h1, h2, -⟩ := refresh_spec law h
  exact ⟨t, h1, h2⟩

/-- New words are added to the symbols, and then the factor table is refreshed. -/
theorem grow_spec (law : Lawful sc D zero one) {t : Table W} (h : Good sc D zero one t) {ws : List W} (hn : ws.Nodup)
    (hw : ∀ w ∈ ws, D w ∧ some w ∉ t.syms) :
    ∃ t', ({ t with syms := t.syms ++ ws.map some }).refresh sc = .ok t' ∧ Good sc D zero one t' ∧ Grown t t' ∧ t.syms ++ ws.map some <+: t'.syms ∧
      ∀ i, t.syms.length + ws.length ≤ i → i < t'.syms.length → Fund sc t'.syms i := by
  have hpre : t.syms <+: t.syms ++ ws.map some := List.prefix_append _ _
  have hget : ∀ (i : Nat) w, (t.syms ++ ws.map some)[i]? = some (some w) →
      t.syms[i]? = some (some w) ∨ (t.syms.length ≤ i ∧ ws[i - t.syms.length]? = some w) := by
    intro i w hi
    rw [List.getElem?_append] at hi
    split at hi
    · exact Or.inl hi
    · rename_i hle
      rw [List.getElem?_map] at hi
      cases hx : ws[i - t.syms.length]? with
      | none => rw [hx] at hi; simp at hi
      | some y => rw [hx] at hi; simp at hi; subst hi; exact Or.inr ⟨by omega, rfl⟩
  have hinv : Inv sc D zero one { t with syms := t.syms ++ ws.map some } := by
    refine ⟨⟨h.at_most.trans (prefix_le hpre), ?_, ?_, get_prefix hpre h.zero_at, get_prefix hpre h.one_at, h.ids, h.proper,
      fun i e he k hk => (h.fund i e he k hk).mono hpre, ?_, h.count, h.ordered, h.found, h.kept⟩, ?_⟩
    rotate_left 3
    · intro i hi hi'
      have hs := h.sync
      simp only [List.length_append, List.length_map] at hi hi'
      refine ⟨ws[i - t.syms.length]'(by omega), ?_⟩
      dsimp only
      rw [List.getElem?_append_right (by omega), List.getElem?_map, List.getElem?_eq_getElem (by omega)]
      rfl
    · intro i w hi
      rcases hget i w hi with h' | h'
      · exact h.words i w h'
      · exact (hw w (List.mem_of_getElem? h'.2)).1
    · intro i j w hi hj
      rcases hget i w hi with h' | h' <;> rcases hget j w hj with h'' | h''
      · exact h.apart i j w h' h''
      · exact absurd (List.mem_of_getElem? h') (hw w (List.mem_of_getElem? h''.2)).2
      · exact absurd (List.mem_of_getElem? h'') (hw w (List.mem_of_getElem? h'.2)).2
      · have := (List.nodup_iff_getElem?_ne_getElem?.mp hn)
        by_contra hne
        rcases Nat.lt_or_ge (i - t.syms.length) (j - t.syms.length) with hl | hl
        · exact this _ _ hl (List.getElem?_eq_some_iff.mp h''.2).1 (h'.2.trans h''.2.symm)
        · exact this (j - t.syms.length) (i - t.syms.length) (by omega) (List.getElem?_eq_some_iff.mp h'.2).1 (h''.2.trans h'.2.symm)
    · intro i e w he hi
      have hlt : i < t.syms.length := lt_of_lt_of_le (List.getElem?_eq_some_iff.mp he).1 h.at_most
      refine (h.faithful i e w he ?_).mono hpre
      dsimp only at hi
      rwa [List.getElem?_append_left hlt] at hi
  obtain ⟨t', h1, h2, h3, h4⟩ := refresh_spec law hinv
  refine ⟨t', h1, h2, ⟨hpre.trans h3.syms, h3.entries⟩, h3.syms, ?_⟩
  intro i hi hi'
  exact h4 i (by simpa using hi) hi'

end Moment.Inflation.Extend
