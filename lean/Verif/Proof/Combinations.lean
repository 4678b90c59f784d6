import Verif.Model.Combinations
import Verif.Proof.Successor
import Mathlib.Data.List.Sublists
import Mathlib.Data.List.Range
import Mathlib.Data.List.Perm.Subperm

namespace Moment

/-- Comparison from the last entry on. -/
def Colex (u v : List Nat) : Prop := List.Lex (· < ·) u.reverse v.reverse

theorem lex_snoc : ∀ {u v : List Nat}, u.length = v.length → ∀ x y,
    (List.Lex (· < ·) (u ++ [x]) (v ++ [y]) ↔ List.Lex (· < ·) u v ∨ (u = v ∧ x < y))
  | [], [], _, x, y => by
    constructor
    · intro h
      cases h with
      | rel h => exact Or.inr ⟨rfl, h⟩
      | cons h => cases h
    · rintro (h | ⟨_, h⟩)
      · cases h
      · exact List.Lex.rel h
  | a :: u, b :: v, hl, x, y => by
    have ih := lex_snoc (u := u) (v := v) (by simpa using hl) x y
    constructor
    · intro h
      cases h with
      | rel h => exact Or.inl (List.Lex.rel h)
      | cons h =>
        rcases ih.mp h with h | ⟨h1, h⟩
        · exact Or.inl (List.Lex.cons h)
        · exact Or.inr ⟨by rw [h1], h⟩
    · rintro (h | ⟨h1, h⟩)
      · cases h with
        | rel h => exact List.Lex.rel h
        | cons h => exact List.Lex.cons (ih.mpr (Or.inl h))
      · cases h1
        exact List.Lex.cons (ih.mpr (Or.inr ⟨rfl, h⟩))

theorem colex_cons {u v : List Nat} (h : u.length = v.length) (x y : Nat) :
    Colex (x :: u) (y :: v) ↔ Colex u v ∨ (u = v ∧ x < y) := by
  unfold Colex
  rw [List.reverse_cons, List.reverse_cons, lex_snoc (by simpa using h)]
  simp

theorem colex_trans (a b c : List Nat) (h1 : Colex a b) (h2 : Colex b c) : Colex a c := lex_trans _ _ _ h1 h2
theorem colex_irrefl (a : List Nat) : ¬ Colex a a := lex_irrefl _
theorem not_colex_nil {w : List Nat} (h : w.length = 0) : ¬ Colex [] w := by
  rw [List.length_eq_zero_iff.mp h]; exact colex_irrefl _

end Moment

namespace Moment.Comb

/-- Strictly increasing, entries from `J` up to `N - 1`. -/
def Valid (N J : Nat) (w : List Nat) : Prop := w.Pairwise (· < ·) ∧ ∀ x ∈ w, J ≤ x ∧ x < N

theorem Valid.tail {N J a : Nat} {v : List Nat} (h : Valid N J (a :: v)) : Valid N (J + 1) v := by
  obtain ⟨h1, h2⟩ := h
  rw [List.pairwise_cons] at h1
  refine ⟨h1.2, fun x hx => ?_⟩
  have := h1.1 x hx
  have := h2 a (by simp)
  have := h2 x (by simp [hx])
  omega

theorem incExclusive_spec (N : Nat) : ∀ (J : Nat) (l : List Nat), l ≠ [] → Valid N J l →
    (incExclusive N J l).1.length = l.length ∧
    ((incExclusive N J l).2 = true → ∀ w, w.length = l.length → Valid N J w → ¬ Colex l w) ∧
    ((incExclusive N J l).2 = false → Valid N J (incExclusive N J l).1 ∧ Colex l (incExclusive N J l).1 ∧
      ∀ w, w.length = l.length → Valid N J w → Colex l w → w = (incExclusive N J l).1 ∨ Colex (incExclusive N J l).1 w)
  | _, [], h, _ => absurd rfl h
  | J, [x], _, hv => by
    have hx := hv.2 x (by simp)
    simp only [incExclusive, decide_eq_true_eq, decide_eq_false_iff_not]
    refine ⟨rfl, ?_, ?_⟩
    · intro h w hw hvw
      match w, hw with
      | [a], _ =>
        rw [colex_cons rfl]
        have := hvw.2 a (by simp)
        rintro (h' | ⟨_, h'⟩)
        · exact colex_irrefl _ h'
        · omega
    · intro h
      refine ⟨⟨by simp, by simp; omega⟩, ?_, ?_⟩
      · rw [colex_cons rfl]; exact Or.inr ⟨rfl, by omega⟩
      · intro w hw hvw hc
        match w, hw with
        | [a], _ =>
          rw [colex_cons rfl] at hc
          rcases hc with h' | ⟨_, h'⟩
          · exact absurd h' (colex_irrefl _)
          · rcases Nat.eq_or_lt_of_le (show x + 1 ≤ a from h') with h2 | h2
            · left; rw [h2]
            · right; rw [colex_cons rfl]; exact Or.inr ⟨rfl, h2⟩
  | J, x :: y :: rest, _, hv => by
    have ih := incExclusive_spec N (J + 1) (y :: rest) (by simp) hv.tail
    have hxy : x < y := (List.pairwise_cons.mp hv.1).1 y (by simp)
    have hx := hv.2 x (by simp)
    rw [incExclusive]
    by_cases h : x + 1 ≥ y
    · rw [if_pos h]
      refine ⟨by simp [ih.1], ?_, ?_⟩
      · intro ht w hw hvw
        match w, hw with
        | a :: v, hw =>
          have hl : v.length = (y :: rest).length := by simpa using hw
          rw [colex_cons hl.symm]
          rintro (h' | ⟨h1, h'⟩)
          · exact ih.2.1 ht v hl hvw.tail h'
          · subst h1
            have : a < y := (List.pairwise_cons.mp hvw.1).1 y (by simp)
            omega
      · intro hf
        obtain ⟨i1, i2, i3⟩ := ih.2.2 hf
        refine ⟨⟨?_, ?_⟩, ?_, ?_⟩
        · rw [List.pairwise_cons]
          exact ⟨fun z hz => by have := i1.2 z hz; omega, i1.1⟩
        · intro z hz
          rcases List.mem_cons.mp hz with rfl | hz
          · omega
          · have := i1.2 z hz; omega
        · rw [colex_cons ih.1.symm]; exact Or.inl i2
        · intro w hw hvw hc
          match w, hw with
          | a :: v, hw =>
            have hl : v.length = (y :: rest).length := by simpa using hw
            rw [colex_cons hl.symm] at hc
            rw [colex_cons (by rw [ih.1, hl])]
            rcases hc with h' | ⟨h1, h'⟩
            · rcases i3 v hl hvw.tail h' with h2 | h2
              · subst h2
                have := (hvw.2 a (by simp)).1
                rcases Nat.eq_or_lt_of_le this with h3 | h3
                · left; rw [h3]
                · right; exact Or.inr ⟨rfl, h3⟩
              · right; exact Or.inl h2
            · subst h1
              have : a < y := (List.pairwise_cons.mp hvw.1).1 y (by simp)
              omega
    · rw [if_neg h]
      refine ⟨rfl, by simp, fun _ => ⟨⟨?_, ?_⟩, ?_, ?_⟩⟩
      · rw [List.pairwise_cons]
        refine ⟨?_, (List.pairwise_cons.mp hv.1).2⟩
        intro z hz
        rcases List.mem_cons.mp hz with rfl | hz
        · omega
        · have := (List.pairwise_cons.mp (List.pairwise_cons.mp hv.1).2).1 z hz; omega
      · intro z hz
        rcases List.mem_cons.mp hz with rfl | hz
        · have := hv.2 y (by simp); omega
        · exact hv.2 z (by simp only [List.mem_cons] at hz ⊢; exact Or.inr hz)
      · rw [colex_cons rfl]; exact Or.inr ⟨rfl, by omega⟩
      · intro w hw hvw hc
        match w, hw with
        | a :: v, hw =>
          have hl : v.length = (y :: rest).length := by simpa using hw
          rw [colex_cons hl.symm] at hc ⊢
          rcases hc with h' | ⟨h1, h'⟩
          · exact Or.inr (Or.inl h')
          · subst h1
            rcases Nat.eq_or_lt_of_le (show x + 1 ≤ a from h') with h2 | h2
            · left; rw [h2]
            · right; exact Or.inr ⟨rfl, h2⟩

/-- The subsets enumerated. -/
def Subsets (N K : Nat) : Set (List Nat) := {v | v.length = K ∧ v.Pairwise (· < ·) ∧ ∀ x ∈ v, x < N}

theorem subsets_finite (N K : Nat) : (Subsets N K).Finite :=
  (finite_words K N).subset fun _ hv => ⟨hv.1, hv.2.2⟩

theorem valid_iff {N K : Nat} {w : List Nat} : w ∈ Subsets N K ↔ w.length = K ∧ Valid N 0 w := by
  unfold Subsets Valid; simp

theorem colex_min : ∀ (J : Nat) (w : List Nat), w.Pairwise (· < ·) → (∀ x ∈ w, J ≤ x) →
    w = List.range' J w.length ∨ Colex (List.range' J w.length) w
  | _, [], _, _ => Or.inl rfl
  | J, a :: w, h1, h2 => by
    rw [List.pairwise_cons] at h1
    have ha := h2 a (by simp)
    have ih := colex_min (J + 1) w h1.2 (fun x hx => by have := h1.1 x hx; omega)
    rw [List.length_cons, List.range'_succ]
    rw [colex_cons (by simp)]
    rcases ih with ih | ih
    · rcases Nat.eq_or_lt_of_le ha with h3 | h3
      · left; rw [h3]; congr 1; rw [← h3]; exact ih
      · right; exact Or.inr ⟨ih.symm, h3⟩
    · right; exact Or.inl ih

theorem exclusive_run (N K : Nat) (hK : K ≤ N) :
    ∃ l, Yields (next false N K) atEnd value (first false K) l ∧ l.Pairwise Colex ∧ ∀ v, v ∈ l ↔ v ∈ Subsets N K := by
  have hfirst : value (first false K) ∈ Subsets N K := by
    unfold value first Subsets
    simp only [Bool.false_eq_true, if_false, Set.mem_ofPred_eq, List.length_range, true_and]
    exact ⟨List.pairwise_lt_range, fun x hx => by rw [List.mem_range] at hx; omega⟩
  obtain ⟨l, h1, h2, h3⟩ := Yields.of_successor (next := next false N K) (atEnd := atEnd) (value := value) (Subsets N K)
    (subsets_finite N K) Colex colex_trans colex_irrefl (fun s => value s ∈ Subsets N K)
    (by
      intro s hI he
      have hlen : s.indices.length = K := hI.1
      unfold next
      by_cases h0 : K = 0
      · left
        rw [if_pos h0]
        refine ⟨rfl, ?_⟩
        intro x hx
        have : value s = [] := List.length_eq_zero_iff.mp (by show s.indices.length = 0; omega)
        rw [this]
        exact not_colex_nil (by rw [hx.1, h0])
      · rw [if_neg h0]
        simp only [Bool.false_eq_true, if_false]
        have hne : s.indices ≠ [] := by intro h; rw [h] at hlen; simp at hlen; omega
        obtain ⟨k0, k1, k2⟩ := incExclusive_spec N 0 s.indices hne (valid_iff.mp hI).2
        have hd : s.done = false := by simpa [atEnd] using he
        by_cases hf : (incExclusive N 0 s.indices).2 = true
        · left
          refine ⟨by simp [atEnd, hf], ?_⟩
          intro x hx
          exact k1 hf x (by rw [hx.1, hlen]) (valid_iff.mp hx).2
        · right
          simp only [Bool.not_eq_true] at hf
          obtain ⟨j1, j2, j3⟩ := k2 hf
          have hin : (incExclusive N 0 s.indices).1 ∈ Subsets N K := valid_iff.mpr ⟨by rw [k0, hlen], j1⟩
          refine ⟨by simp [atEnd, hf, hd], hin, hin, j2, ?_⟩
          intro x hx hc
          exact j3 x (by rw [hx.1, hlen]) (valid_iff.mp hx).2 hc)
    (first false K) hfirst (by simp [atEnd, first]) hfirst
  refine ⟨l, h1, h2, fun v => ?_⟩
  rw [h3]
  refine ⟨fun h => h.1, fun h => ⟨h, ?_⟩⟩
  have hm := colex_min 0 v h.2.1 (by simp)
  rw [h.1] at hm
  simpa [value, first, List.range_eq_range'] using hm

theorem mem_sublists (N K : Nat) (v : List Nat) : v ∈ Subsets N K ↔ v ∈ (List.range N).sublistsLen K := by
  rw [List.mem_sublistsLen]
  unfold Subsets
  simp only [Set.mem_ofPred_eq]
  constructor
  · rintro ⟨h1, h2, h3⟩
    refine ⟨?_, h1⟩
    have : v = (List.range N).filter (· ∈ v) := by
      apply List.Perm.eq_of_pairwise (le := (· < ·)) (fun a b _ _ h1 h2 => absurd h1 (by omega)) h2
        (List.Pairwise.filter _ List.pairwise_lt_range)
      rw [List.perm_ext_iff_of_nodup (h2.imp fun h => by omega) (List.Nodup.filter _ List.nodup_range)]
      intro a
      simp only [List.mem_filter, List.mem_range, decide_eq_true_eq]
      exact ⟨fun h => ⟨h3 a h, h⟩, fun h => h.2⟩
    rw [this]; exact List.filter_sublist
  · rintro ⟨h1, h2⟩
    exact ⟨h2, List.pairwise_lt_range.sublist h1, fun x hx => List.mem_range.mp (h1.subset hx)⟩

end Moment.Comb

namespace Moment.TriIndex

/-- One increment, on reversed indices: entries have gap at least `g`, entry with `p` entries after it stays below `b p`. -/
def inc (g : Nat) (b : Nat → Nat) : List Nat → Option (List Nat)
  | [] => none
  | x :: rest => if x + 1 ≥ b rest.length then (inc g b rest).map fun r => (r.headD 0 + g) :: r else some ((x + 1) :: rest)

def Valid (g : Nat) (b : Nat → Nat) : List Nat → Prop
  | [] => True
  | x :: u => x < b u.length ∧ (∀ y ∈ u, y + g ≤ x) ∧ Valid g b u

theorem inc_length (g : Nat) (b : Nat → Nat) : ∀ l r, inc g b l = some r → r.length = l.length
  | [], r, h => by simp [inc] at h
  | x :: rest, r, h => by
    rw [inc] at h
    split at h
    · rw [Option.map_eq_some_iff] at h
      obtain ⟨r', h', rfl⟩ := h
      simp [inc_length g b rest r' h']
    · cases h; simp

theorem head_max {g : Nat} {b : Nat → Nat} {r : List Nat} (h : Valid g b r) : ∀ y ∈ r, y ≤ r.headD 0 := by
  cases r with
  | nil => simp
  | cons z r =>
    intro y hy
    rcases List.mem_cons.mp hy with rfl | hy
    · simp
    · have := h.2.1 y hy; simp; omega

theorem inc_spec (g : Nat) (b : Nat → Nat) (hb : ∀ p, b (p + 1) = b p + g) : ∀ l, Valid g b l →
    (inc g b l = none → ∀ w, w.length = l.length → Valid g b w → ¬ Colex l w) ∧
    (∀ r, inc g b l = some r → Valid g b r ∧ Colex l r ∧
      ∀ w, w.length = l.length → Valid g b w → Colex l w → w = r ∨ Colex r w)
  | [], _ => ⟨fun _ w hw _ => not_colex_nil hw, fun r h => by simp [inc] at h⟩
  | x :: rest, hv => by
    obtain ⟨ih1, ih2⟩ := inc_spec g b hb rest hv.2.2
    rw [inc]
    by_cases h : x + 1 ≥ b rest.length
    · rw [if_pos h]
      constructor
      · intro hn w hw hvw
        rw [Option.map_eq_none_iff] at hn
        match w, hw with
        | a :: v, hw =>
          have hl : v.length = rest.length := by simpa using hw
          rw [colex_cons hl.symm]
          rintro (h' | ⟨h1, h'⟩)
          · exact ih1 hn v hl hvw.2.2 h'
          · subst h1; have := hvw.1; omega
      · intro r hr
        rw [Option.map_eq_some_iff] at hr
        obtain ⟨r', hr', rfl⟩ := hr
        obtain ⟨i1, i2, i3⟩ := ih2 r' hr'
        have hlr := inc_length g b _ _ hr'
        have hne : r' ≠ [] := by
          intro h0; subst h0
          have : rest = [] := List.length_eq_zero_iff.mp (by simpa using hlr.symm)
          subst this; simp [inc] at hr'
        refine ⟨⟨?_, ?_, i1⟩, ?_, ?_⟩
        · cases r' with
          | nil => exact absurd rfl hne
          | cons z r'' =>
            have := i1.1
            simp only [List.headD_cons, List.length_cons, hb]
            omega
        · intro y hy
          have := head_max i1 y hy
          omega
        · rw [colex_cons hlr.symm]; exact Or.inl i2
        · intro w hw hvw hc
          match w, hw with
          | a :: v, hw =>
            have hl : v.length = rest.length := by simpa using hw
            rw [colex_cons hl.symm] at hc
            rw [colex_cons (by rw [hlr, hl])]
            rcases hc with h' | ⟨h1, h'⟩
            · rcases i3 v hl hvw.2.2 h' with h2 | h2
              · subst h2
                have h3 : v.headD 0 + g ≤ a := by
                  cases v with
                  | nil => exact absurd rfl hne
                  | cons z v => exact hvw.2.1 z (by simp)
                rcases Nat.eq_or_lt_of_le h3 with h4 | h4
                · left; rw [h4]
                · right; exact Or.inr ⟨rfl, h4⟩
              · right; exact Or.inl h2
            · subst h1; have := hvw.1; omega
    · rw [if_neg h]
      refine ⟨by simp, ?_⟩
      intro r hr
      cases hr
      refine ⟨⟨by omega, fun y hy => by have := hv.2.1 y hy; omega, hv.2.2⟩, ?_, ?_⟩
      · rw [colex_cons rfl]; exact Or.inr ⟨rfl, by omega⟩
      · intro w hw hvw hc
        match w, hw with
        | a :: v, hw =>
          have hl : v.length = rest.length := by simpa using hw
          rw [colex_cons hl.symm] at hc ⊢
          rcases hc with h' | ⟨h1, h'⟩
          · exact Or.inr (Or.inl h')
          · subst h1
            rcases Nat.eq_or_lt_of_le (show x + 1 ≤ a from h') with h2 | h2
            · left; rw [h2]
            · right; exact Or.inr ⟨rfl, h2⟩

/-- Climbing followed by filling is one increment. -/
theorem climb_inc (b : Nat → Nat) : ∀ l,
    (climb b l).map (fun r => List.replicate r.1 (r.2.headD 0) ++ r.2) = inc 0 b l ∧
    (climb b l).map (fun r => (List.range' (r.2.headD 0 + 1) r.1).reverse ++ r.2) = inc 1 b l ∧
    (∀ r, climb b l = some r → r.2 ≠ [])
  | [] => by simp [climb, inc]
  | x :: rest => by
    obtain ⟨ih1, ih2, ih3⟩ := climb_inc b rest
    rw [climb, inc, inc]
    by_cases h : x + 1 ≥ b rest.length
    · rw [if_pos h, if_pos h, if_pos h, ← ih1, ← ih2, Option.map_map, Option.map_map, Option.map_map]
      refine ⟨?_, ?_, ?_⟩
      · cases hc : climb b rest with
        | none => rfl
        | some r =>
          simp only [Option.map_some, Function.comp_def, Option.some_inj, List.replicate_succ, List.cons_append, Nat.add_zero]
          congr 1
          cases r.1 with
          | zero => simp
          | succ n => simp [List.replicate_succ]
      · cases hc : climb b rest with
        | none => rfl
        | some r =>
          simp only [Option.map_some, Function.comp_def, Option.some_inj]
          rw [List.range'_concat, List.reverse_append]
          simp only [List.reverse_cons, List.reverse_nil, List.nil_append, List.cons_append]
          congr 1
          cases hr : r.1 with
          | zero => simp
          | succ n => rw [List.range'_concat, List.reverse_append]; simp; omega
      · intro r hr
        rw [Option.map_eq_some_iff] at hr
        obtain ⟨r', h', rfl⟩ := hr
        exact ih3 r' h'
    · rw [if_neg h, if_neg h, if_neg h]
      refine ⟨by simp, by simp, ?_⟩
      intro r hr; cases hr; simp

/-- Nondecreasing (with repetition) or strictly increasing words. -/
def Words (duplicates : Bool) (N K : Nat) : Set (List Nat) :=
  {v | v.length = K ∧ v.Pairwise (if duplicates then (· ≤ ·) else (· < ·)) ∧ ∀ x ∈ v, x < N}

theorem words_finite (d : Bool) (N K : Nat) : (Words d N K).Finite := (finite_words K N).subset fun _ hv => ⟨hv.1, hv.2.2⟩

theorem valid_dup (N : Nat) : ∀ l : List Nat, Valid 0 (fun _ => N) l ↔ l.Pairwise (· ≥ ·) ∧ ∀ x ∈ l, x < N
  | [] => by simp [Valid]
  | x :: u => by
    rw [Valid, valid_dup N u, List.pairwise_cons]
    simp only [List.mem_cons, forall_eq_or_imp, Nat.add_zero]
    tauto

theorem valid_unique (N W : Nat) (hW : W ≤ N) : ∀ l : List Nat, l.length ≤ W →
    (Valid 1 (fun p => 1 + N + p - W) l ↔ l.Pairwise (· > ·) ∧ ∀ x ∈ l, x + W < N + l.length)
  | [], _ => by simp [Valid]
  | x :: u, hl => by
    simp only [List.length_cons] at hl
    rw [Valid, valid_unique N W hW u (by omega), List.pairwise_cons]
    simp only [List.mem_cons, forall_eq_or_imp, List.length_cons]
    constructor
    · rintro ⟨h1, h2, h3, h4⟩
      exact ⟨⟨fun y hy => h2 y hy, h3⟩, by omega, fun y hy => by have := h4 y hy; omega⟩
    · rintro ⟨⟨h2, h3⟩, h1, h4⟩
      refine ⟨by omega, fun y hy => by have := h2 y hy; omega, h3, fun y hy => by have := h2 y hy; omega⟩

theorem words_valid (d : Bool) (N K : Nat) (hK : d = true ∨ K ≤ N) (v : List Nat) : v ∈ Words d N K ↔
    v.reverse.length = K ∧ Valid (if d then 0 else 1) (fun p => if d then N else 1 + N + p - K) v.reverse := by
  unfold Words
  simp only [Set.mem_ofPred_eq, List.length_reverse]
  refine and_congr_right fun hl => ?_
  cases d
  · simp only [Bool.false_eq_true, if_false]
    rw [valid_unique N K (by simpa using hK) _ (by simp [hl]), List.pairwise_reverse]
    simp only [List.mem_reverse, List.length_reverse, hl]
    refine and_congr_right fun _ => forall_congr' fun x => imp_congr_right fun _ => by omega
  · simp only [if_true]
    rw [valid_dup, List.pairwise_reverse]
    simp

/-- Least word. -/
theorem min_word (d : Bool) : ∀ (J : Nat) (w : List Nat), (w.Pairwise (if d then (· ≤ ·) else (· < ·))) → (∀ x ∈ w, J ≤ x) →
    w = (if d then List.replicate w.length J else List.range' J w.length) ∨
      List.Lex (· < ·) (if d then List.replicate w.length J else List.range' J w.length) w
  | _, [], _, _ => by left; cases d <;> rfl
  | J, a :: w, h1, h2 => by
    rw [List.pairwise_cons] at h1
    have ha := h2 a (by simp)
    rcases Nat.eq_or_lt_of_le ha with h3 | h3
    · subst h3
      have ih := min_word d (if d then J else J + 1) w h1.2 (by
        intro x hx
        have := h1.1 x hx
        cases d <;> simp at this ⊢ <;> omega)
      cases d
      · simp only [Bool.false_eq_true, if_false, List.length_cons, List.range'_succ] at ih ⊢
        rcases ih with ih | ih
        · left; congr 1
        · right; exact List.Lex.cons ih
      · simp only [if_true, List.length_cons, List.replicate_succ] at ih ⊢
        rcases ih with ih | ih
        · left; congr 1
        · right; exact List.Lex.cons ih
    · right
      cases d
      · simp only [Bool.false_eq_true, if_false, List.length_cons, List.range'_succ]; exact List.Lex.rel h3
      · simp only [if_true, List.length_cons, List.replicate_succ]; exact List.Lex.rel h3

/-- What `next` does in terms of `inc`. -/
theorem next_eq (d : Bool) (N K : Nat) (s : State) :
    next d N K s = match inc (if d then 0 else 1) (fun p => if d then N else 1 + N + p - K) s.indices.reverse with
      | none => { s with global := s.global + 1, done := true }
      | some r => { indices := r.reverse, global := s.global + 1, done := s.done } := by
  unfold next
  obtain ⟨h1, h2, _⟩ := climb_inc (fun p => if d then N else 1 + N + p - K) s.indices.reverse
  cases d
  · simp only [Bool.false_eq_true, if_false] at h1 h2 ⊢
    rw [← h2]
    cases climb (fun p => 1 + N + p - K) s.indices.reverse with
    | none => rfl
    | some r => simp
  · simp only [if_true] at h1 h2 ⊢
    rw [← h1]
    cases climb (fun p => N) s.indices.reverse with
    | none => rfl
    | some r => simp

theorem run_first (d : Bool) (N K : Nat) (hK : 0 < K) :
    ∃ l, Yields (next d N K) atEnd State.indices (first d N K) l ∧ l.Pairwise (List.Lex (· < ·)) ∧ ∀ v, v ∈ l ↔ v ∈ Words d N K := by
  by_cases hempty : N = 0 ∨ (d = false ∧ N < K)
  · refine ⟨[], Yields.done ?_, by simp, ?_⟩
    · unfold atEnd first
      rcases hempty with rfl | ⟨rfl, h⟩
      · simp
      · simp [h]
    · intro v
      simp only [List.not_mem_nil, false_iff]
      rintro ⟨h1, h2, h3⟩
      rcases hempty with rfl | ⟨rfl, h⟩
      · cases v with
        | nil => simp at h1; omega
        | cons a v => exact absurd (h3 a (by simp)) (by omega)
      · simp only [Bool.false_eq_true, if_false] at h2
        have := (Comb.mem_sublists N K v).mp ⟨h1, h2, h3⟩
        rw [List.mem_sublistsLen] at this
        have := this.1.length_le
        simp at this; omega
  · have hN : 0 < N := by omega
    have hK2 : d = true ∨ K ≤ N := by cases d <;> simp_all
    have hf : first d N K = { indices := if d then List.replicate K 0 else List.range K, global := 0, done := false } := by
      unfold first
      cases d
      · have : K ≤ N := by simpa using hK2
        simp; omega
      · simp; omega
    have hfirst : (first d N K).indices ∈ Words d N K := by
      rw [hf]
      unfold Words
      cases d
      · have : K ≤ N := by simpa using hK2
        simp only [Bool.false_eq_true, if_false, Set.mem_ofPred_eq, List.length_range, true_and]
        exact ⟨List.pairwise_lt_range, fun x hx => by rw [List.mem_range] at hx; omega⟩
      · simp only [if_true, Set.mem_ofPred_eq, List.length_replicate, true_and]
        exact ⟨List.pairwise_replicate.mpr (Or.inr (Nat.le_refl _)), fun x hx => by rw [List.eq_of_mem_replicate hx]; exact hN⟩
    have hb : ∀ p, (fun p => if d = true then N else 1 + N + p - K) (p + 1) =
        (fun p => if d = true then N else 1 + N + p - K) p + (if d = true then 0 else 1) := by
      intro p
      cases d
      · have : K ≤ N := by simpa using hK2
        simp; omega
      · simp
    obtain ⟨l, h1, h2, h3⟩ := Yields.of_successor (next := next d N K) (atEnd := atEnd) (value := State.indices) (Words d N K)
      (words_finite d N K) (List.Lex (· < ·)) lex_trans lex_irrefl (fun s => s.indices ∈ Words d N K)
      (by
        intro s hI he
        have hval := (words_valid d N K hK2 _).mp hI
        obtain ⟨k1, k2⟩ := inc_spec _ _ hb s.indices.reverse hval.2
        rw [next_eq]
        cases hi : inc (if d then 0 else 1) (fun p => if d then N else 1 + N + p - K) s.indices.reverse with
        | none =>
          left
          refine ⟨rfl, ?_⟩
          intro x hx hc
          have hx' := (words_valid d N K hK2 _).mp hx
          exact k1 hi x.reverse (by rw [hx'.1, hval.1]) hx'.2 (by unfold Colex; simpa using hc)
        | some r =>
          right
          obtain ⟨j1, j2, j3⟩ := k2 r hi
          have hlr := inc_length _ _ _ _ hi
          have hin : r.reverse ∈ Words d N K := (words_valid d N K hK2 _).mpr ⟨by rw [List.reverse_reverse, hlr, hval.1], by simpa using j1⟩
          refine ⟨he, hin, hin, by unfold Colex at j2; simpa using j2, ?_⟩
          intro x hx hc
          have hx' := (words_valid d N K hK2 _).mp hx
          rcases j3 x.reverse (by rw [hx'.1, hval.1]) hx'.2 (by unfold Colex; simpa using hc) with h | h
          · left; simp [← h]
          · right; unfold Colex at h; simpa using h)
      (first d N K) hfirst (by rw [hf]; simp [atEnd]) hfirst
    refine ⟨l, h1, h2, fun v => ?_⟩
    rw [h3]
    refine ⟨fun h => h.1, fun h => ⟨h, ?_⟩⟩
    have hm := min_word d 0 v h.2.1 (by simp)
    rw [h.1] at hm
    rw [hf]
    cases d
    · simpa [List.range_eq_range'] using hm
    · simpa using hm

/-- The global index counts. -/
theorem globals (d : Bool) (N K : Nat) : ∀ (s : State) (l : List (List Nat)), Yields (next d N K) atEnd State.indices s l →
    Yields (next d N K) atEnd value s (l.zip (List.range' s.global l.length)) := by
  intro s l h
  induction h with
  | done he => exact Yields.done he
  | @step s l hn _ ih =>
    rw [List.length_cons, List.range'_succ, List.zip_cons_cons]
    refine Yields.step hn ?_
    have : (next d N K s).global = s.global + 1 := by
      rw [next_eq]; split <;> rfl
    rw [this] at ih; exact ih

end Moment.TriIndex

namespace Moment.Comb
open TriIndex

theorem incInclusive_eq (N : Nat) : ∀ l : List Nat, l ≠ [] →
    inc 0 (fun _ => N) l = if (incInclusive N l).2 then none else some (incInclusive N l).1
  | [], h => absurd rfl h
  | [x], _ => by
    simp only [inc, incInclusive, Option.map_none, ge_iff_le, decide_eq_true_eq]
  | x :: y :: rest, _ => by
    have ih := incInclusive_eq N (y :: rest) (by simp)
    rw [inc, incInclusive]
    by_cases h : x + 1 ≥ N
    · simp only [h, if_true]
      rw [ih]
      by_cases hb : (incInclusive N (y :: rest)).2 = true <;> simp [hb]
    · simp only [h, if_false]; simp

end Moment.Comb

namespace Moment

/-- An iterator over nondecreasing words on `Comb.State` that steps by `inc`. -/
theorem inclusive_run (nxt : Comb.State → Comb.State) (N K : Nat) (hN : 0 < N ∨ K = 0)
    (h0 : K = 0 → ∀ s, (nxt s).done = true)
    (hstep : 0 < K → ∀ s : Comb.State, s.done = false → s.indices.length = K →
      match TriIndex.inc 0 (fun _ => N) s.indices.reverse with
      | none => (nxt s).done = true
      | some r => nxt s = { indices := r.reverse, done := false }) :
    ∃ l, Yields nxt Comb.atEnd Comb.value { indices := List.replicate K 0, done := false } l ∧
      l.Pairwise (List.Lex (· < ·)) ∧ ∀ v, v ∈ l ↔ v ∈ TriIndex.Words true N K := by
  rcases Nat.eq_zero_or_pos K with rfl | hK
  · refine ⟨[[]], Yields.step (by simp [Comb.atEnd]) (Yields.done (h0 rfl _)), by simp, ?_⟩
    intro v
    unfold TriIndex.Words
    simp only [List.mem_singleton, Set.mem_ofPred_eq, List.length_eq_zero_iff]
    constructor
    · rintro rfl; simp
    · exact fun h => h.1
  · have hN' : 0 < N := by omega
    have hfirst : List.replicate K 0 ∈ TriIndex.Words true N K := by
      unfold TriIndex.Words
      simp only [if_true, Set.mem_ofPred_eq, List.length_replicate, true_and]
      exact ⟨List.pairwise_replicate.mpr (Or.inr (Nat.le_refl _)), fun x hx => by rw [List.eq_of_mem_replicate hx]; exact hN'⟩
    obtain ⟨l, h1, h2, h3⟩ := Yields.of_successor (next := nxt) (atEnd := Comb.atEnd) (value := Comb.value) (TriIndex.Words true N K)
      (TriIndex.words_finite true N K) (List.Lex (· < ·)) lex_trans lex_irrefl (fun s => s.indices ∈ TriIndex.Words true N K)
      (by
        intro s hI he
        have hd : s.done = false := by simpa [Comb.atEnd] using he
        have hval := (TriIndex.words_valid true N K (Or.inl rfl) _).mp hI
        simp only [if_true] at hval
        obtain ⟨k1, k2⟩ := TriIndex.inc_spec 0 (fun _ => N) (fun _ => rfl) s.indices.reverse hval.2
        have hs := hstep hK s hd hI.1
        cases hi : TriIndex.inc 0 (fun _ => N) s.indices.reverse with
        | none =>
          left
          rw [hi] at hs
          refine ⟨hs, ?_⟩
          intro x hx hc
          have hx' := (TriIndex.words_valid true N K (Or.inl rfl) _).mp hx
          exact k1 hi x.reverse (by rw [hx'.1, hval.1]) (by simpa using hx'.2) (by unfold Colex; simpa [Comb.value] using hc)
        | some r =>
          right
          rw [hi] at hs
          simp only at hs
          obtain ⟨j1, j2, j3⟩ := k2 r hi
          have hlr := TriIndex.inc_length _ _ _ _ hi
          have hin : r.reverse ∈ TriIndex.Words true N K :=
            (TriIndex.words_valid true N K (Or.inl rfl) _).mpr ⟨by rw [List.reverse_reverse, hlr, hval.1], by simpa using j1⟩
          rw [hs]
          refine ⟨by simp [Comb.atEnd], hin, hin, by unfold Colex at j2; simpa [Comb.value] using j2, ?_⟩
          intro x hx hc
          have hx' := (TriIndex.words_valid true N K (Or.inl rfl) _).mp hx
          rcases j3 x.reverse (by rw [hx'.1, hval.1]) (by simpa using hx'.2) (by unfold Colex; simpa [Comb.value] using hc) with h | h
          · left; simp [← h, Comb.value]
          · right; unfold Colex at h; simpa [Comb.value] using h)
      { indices := List.replicate K 0, done := false } hfirst (by simp [Comb.atEnd]) hfirst
    refine ⟨l, h1, h2, fun v => ?_⟩
    rw [h3]
    refine ⟨fun h => h.1, fun h => ⟨h, ?_⟩⟩
    have hm := TriIndex.min_word true 0 v h.2.1 (by simp)
    rw [h.1] at hm
    simpa [Comb.value] using hm

end Moment

namespace Moment.Comb

theorem inclusive_exact (N K : Nat) (hN : 0 < N ∨ K = 0) :
    ∃ l, Yields (next true N K) atEnd value (first true K) l ∧ l.Pairwise (List.Lex (· < ·)) ∧ ∀ v, v ∈ l ↔ v ∈ TriIndex.Words true N K := by
  refine inclusive_run (next true N K) N K hN ?_ ?_
  · intro h s; unfold next; rw [if_pos h]
  · intro hK s hd hl
    have hne : s.indices.reverse ≠ [] := by
      intro h; have := congrArg List.length h; simp [hl] at this; omega
    rw [incInclusive_eq N _ hne]
    unfold next
    have hK0 : K ≠ 0 := by omega
    by_cases hb : (incInclusive N s.indices.reverse).2 = true
    · simp [hb, hK0]
    · simp [hb, hd, hK0]

end Moment.Comb

namespace Moment.OrdPerm

theorem exact_run (N K : Nat) (hN : 0 < N) :
    ∃ l, Yields (next N K) Comb.atEnd Comb.value (first K) l ∧ l.Pairwise (List.Lex (· < ·)) ∧ ∀ v, v ∈ l ↔ v ∈ TriIndex.Words true N K := by
  refine inclusive_run (next N K) N K (Or.inl hN) ?_ ?_
  · intro h s; unfold next; rw [if_pos h]
  · intro hK s hd hl
    unfold next
    rw [if_neg (by omega), ← (TriIndex.climb_inc (fun _ => N) s.indices.reverse).1]
    cases TriIndex.climb (fun _ => N) s.indices.reverse with
    | none => rfl
    | some r => simp [hd]

end Moment.OrdPerm

namespace Moment.Comb

theorem scan_spec : ∀ (steps i left : Nat) (prim : List Nat), prim.Pairwise (· < ·) → (∀ x ∈ prim, i ≤ x ∧ x < i + steps) →
    left + prim.length = steps →
    scan steps i left prim = ((List.range' i steps).filter (fun x => ! decide (x ∈ prim)), (List.range' i steps).map fun x => decide (x ∈ prim)) ∧
      (scan steps i left prim).1.length = left
  | 0, i, left, prim, _, _, h => by
    have : left = 0 := by omega
    subst this
    simp [scan]
  | steps + 1, i, 0, prim, hp, hr, h => by
    have hall : ∀ x, i ≤ x → x < i + (steps + 1) → x ∈ prim := by
      intro x h1 h2
      have hs : List.Subperm prim (List.range' i (steps + 1)) := by
        rw [List.subperm_ext_iff]
        intro y hy
        have := hr y hy
        rw [List.count_eq_one_of_mem (hp.imp fun h => by omega) hy,
          List.count_eq_one_of_mem List.nodup_range' (by rw [List.mem_range'_1]; omega)]
      have hperm := hs.perm_of_length_le (by simp; omega)
      rw [hperm.mem_iff, List.mem_range'_1]; omega
    constructor
    · rw [scan]
      congr 1
      · symm; rw [List.filter_eq_nil_iff]
        intro x hx
        rw [List.mem_range'_1] at hx
        simp [hall x hx.1 hx.2]
      · apply List.ext_getElem (by simp)
        intro n h1 h2
        simp only [List.getElem_replicate, List.getElem_map, List.getElem_range', Nat.one_mul]
        rw [eq_comm, decide_eq_true_eq]
        simp at h1
        exact hall _ (by omega) (by omega)
    · simp [scan]
  | steps + 1, i, left + 1, [], hp, hr, h => by
    obtain ⟨ih1, ih2⟩ := scan_spec steps (i + 1) left [] (by simp) (by simp) (by simp at h ⊢; omega)
    rw [scan]
    constructor
    · rw [ih1]; simp [List.range'_succ]
    · simp [ih2]
  | steps + 1, i, left + 1, p :: ps, hp, hr, h => by
    rw [scan]
    rw [List.pairwise_cons] at hp
    by_cases hpi : p = i
    · subst hpi
      rw [if_pos rfl]
      obtain ⟨ih1, ih2⟩ := scan_spec steps (p + 1) (left + 1) ps hp.2 (fun x hx => by
        have := hp.1 x hx; have := hr x (by simp [hx]); omega) (by simp at h; omega)
      constructor
      · rw [ih1, List.range'_succ]
        have hc : ∀ x ∈ List.range' (p + 1) steps, (x ∈ p :: ps ↔ x ∈ ps) := by
          intro x hx
          rw [List.mem_range'_1] at hx
          rw [List.mem_cons]
          constructor
          · rintro (h | h)
            · omega
            · exact h
          · exact Or.inr
        refine Prod.ext ?_ ?_
        · simp only [List.filter_cons, List.mem_cons, true_or, decide_true, Bool.not_true, Bool.false_eq_true, if_false]
          apply List.filter_congr
          intro x hx
          rw [decide_eq_decide.mpr (List.mem_cons.symm.trans (hc x hx))]
        · simp only [List.map_cons, List.mem_cons, true_or, decide_true]
          congr 1
          apply List.map_congr_left
          intro x hx
          exact decide_eq_decide.mpr ((List.mem_cons.symm.trans (hc x hx)).symm)
      · exact ih2
    · rw [if_neg hpi]
      have hpr := hr p (by simp)
      have hni : i ∉ p :: ps := by
        intro hi
        rcases List.mem_cons.mp hi with h | h
        · exact hpi h.symm
        · have := hp.1 i h; omega
      obtain ⟨ih1, ih2⟩ := scan_spec steps (i + 1) left (p :: ps) (List.pairwise_cons.mpr hp) (fun x hx => by
        have := hr x hx
        have : x ≠ i := by rintro rfl; exact hni hx
        omega) (by simp at h ⊢; omega)
      constructor
      · rw [ih1, List.range'_succ, List.filter_cons, List.map_cons, decide_eq_false hni]
        simp
      · simp [ih2]

/-- What the partition iterator reports for one subset. -/
def report (N : Nat) (v : List Nat) : List Nat × List Nat × List Bool :=
  (v, (List.range N).filter (fun x => ! decide (x ∈ v)), (List.range N).map fun x => decide (x ∈ v))

theorem partition_run (N K : Nat) (hK : K ≤ N) (l : List (List Nat)) (h : Yields (next false N K) atEnd value (first false K) l)
    (hl : ∀ v, v ∈ l ↔ v ∈ Subsets N K) : Yields (pnext N K) patEnd pvalue (pfirst N K) (l.map (report N)) := by
  -- along the run, all primary values are subsets
  have hstay : ∀ s l', Yields (next false N K) atEnd value s l' → (∀ v ∈ l', v ∈ Subsets N K) →
      ∀ t : PState, t.primary = s → t.done = s.done → t.complement.length = N - K →
      (s.done = false → pvalue t = report N (value s)) → Yields (pnext N K) patEnd pvalue t (l'.map (report N)) := by
    intro s l' hy
    induction hy with
    | done he => intro _ t ht hd _ _; exact Yields.done (by unfold patEnd; rw [hd]; exact he)
    | @step s l' hn hrest ih =>
      intro hsub t ht hd hcl hval
      have hsd : s.done = false := by simpa [atEnd] using hn
      rw [List.map_cons, ← hval hsd]
      refine Yields.step (by unfold patEnd; rw [hd, hsd]; simp) ?_
      refine ih (fun v hv => hsub v (by simp [hv])) _ ?_ ?_ ?_ ?_
      · unfold pnext; rw [ht]; dsimp only; split <;> rfl
      · unfold pnext
        rw [ht]
        dsimp only
        split
        · rename_i hx; rw [hx]
        · rename_i hx; simp only [hd, hsd]; simpa using hx
      · unfold pnext
        rw [ht]
        dsimp only
        split
        · exact hcl
        · rename_i hx
          have hin : (next false N K s).indices ∈ Subsets N K := by
            cases hrest with
            | done he => exact absurd he hx
            | step _ _ => exact hsub _ (by simp [value])
          have := (scan_spec N 0 t.complement.length (next false N K s).indices hin.2.1
            (fun x hx => by have := hin.2.2 x hx; omega) (by rw [hcl, hin.1]; omega)).2
          rw [hcl] at this
          simp [this, hcl]
      · intro hnd
        unfold pnext
        rw [ht, if_neg (by simp [hnd])]
        have hin : (next false N K s).indices ∈ Subsets N K := by
          cases hrest with
          | done he => exact absurd he (by simp [atEnd, hnd])
          | step _ _ => exact hsub _ (by simp [value])
        obtain ⟨e1, e2⟩ := scan_spec N 0 t.complement.length (next false N K s).indices hin.2.1
          (fun x hx => by have := hin.2.2 x hx; omega) (by rw [hcl, hin.1]; omega)
        unfold pvalue report value
        simp only
        rw [e2, List.drop_length, List.append_nil, e1, List.range_eq_range']
  refine hstay _ _ h (fun v hv => (hl v).mp hv) _ rfl rfl (by simp [pfirst]) ?_
  intro _
  unfold pvalue pfirst report value first
  simp only [Bool.false_eq_true, if_false]
  have hmem : ∀ x, x ∈ List.range K ↔ x < K := fun x => List.mem_range
  have hsplit : List.range N = List.range K ++ List.range' K (N - K) := by
    rw [List.range_eq_range', List.range_eq_range']
    have := List.range'_append_1 (s := 0) (m := K) (n := N - K)
    rw [Nat.zero_add] at this
    rw [this]; congr 1; omega
  refine Prod.ext rfl (Prod.ext ?_ ?_)
  · show List.range' K (N - K) = _
    simp only [hsplit, List.filter_append]
    rw [List.filter_eq_nil_iff.mpr, List.nil_append, eq_comm, List.filter_eq_self]
    · intro x hx; rw [List.mem_range'_1] at hx; simp; omega
    · intro x hx; simpa using hx
  · show List.replicate K true ++ List.replicate (N - K) false = _
    simp only [hsplit, List.map_append]
    congr 1
    · apply List.ext_getElem (by simp)
      intro n h1 h2; simp at h1 h2 ⊢; exact h1
    · apply List.ext_getElem (by simp)
      intro n h1 h2; simp at h1 h2 ⊢

end Moment.Comb
