import Verif.Model.IndexInput
import Verif.Props.C115_InflationTensor
import Mathlib.Tactic.Linarith
import Mathlib.Tactic.NormNum

/-! # C127: indices of measurements and outcomes

Indices are given as arrays with one row for each measurement or outcome, counted from one. They are to be read as the numbers that stand there, counted from zero, and to
be refused if there is no such measurement or outcome. -/

namespace Moment.C127

open Moment.IndexInput
open Moment.C12 (ContextOf twoSources twoSourcesCtx)

/-! ## Specification -/

/-- The array shows a table of numbers: it has so many rows and columns, and the entries are the numbers. -/
structure Shows (a : Arr) (table : List (List Nat)) (width : Nat) : Prop where
  dims : a.dims = [table.length, width]
  widths : ∀ l ∈ table, l.length = width
  entries : ∀ (i j : Nat) (l : List Nat) (x : Nat), table[i]? = some l → l[j]? = some x → a.entry i j = x

/-- Positive numbers that fit. -/
def Countable (table : List (List Nat)) : Prop := ∀ l ∈ table, ∀ x ∈ l, 1 ≤ x ∧ x ≤ 2 ^ 64

/-- There is such a measurement. -/
def Measurement (s : List (List Nat)) (party mmt : Nat) : Prop := ∃ mmts, s[party]? = some mmts ∧ mmt < mmts.length

/-- There is such an outcome, or, if the last outcome does not count, such an operator. -/
def Outcome (s : List (List Nat)) (inclusive : Bool) (party mmt outcome : Nat) : Prop :=
  ∃ mmts n, s[party]? = some mmts ∧ mmts[mmt]? = some n ∧ (if inclusive = true then outcome < n else outcome + 1 < n)

/-! ## Entries -/

theorem floor_nat (k : Nat) (h : 1 ≤ k) : ⌊((k : ℚ) - 1)⌋.toNat = k - 1 := by
  have : ((k : ℚ) - 1) = ((k - 1 : Nat) : ℚ) := by push_cast [h]; ring
  rw [this, Int.floor_natCast]
  simp

theorem getD_of {table : List (List Nat)} {i j : Nat} {l : List Nat} {x : Nat} (h : table[i]? = some l) (h' : l[j]? = some x) : (table.getD i []).getD j 0 = x := by
  rw [List.getD_eq_getElem?_getD (l := table), h, Option.getD_some, List.getD_eq_getElem?_getD, h', Option.getD_some]

/-- Rows of numbers are read as these numbers, counted from zero. -/
theorem row_nat (l : List Nat) (h : ∀ x ∈ l, 1 ≤ x ∧ x ≤ 2 ^ 64) : row (l.map fun (k : Nat) => (k : ℚ)) = .value (l.map fun k => k - 1) := by
  unfold row
  rw [if_neg, if_neg]
  · congr 1
    rw [List.map_map]
    exact List.map_congr_left fun k hk => floor_nat k (h k hk).1
  · simp only [List.any_eq_true, List.mem_map, decide_eq_true_eq, not_exists, not_and]
    rintro x ⟨k, hk, rfl⟩
    have := (h k hk).2
    have : (k : ℚ) ≤ 2 ^ 64 := by exact_mod_cast this
    linarith
  · simp only [List.any_eq_true, List.mem_map, decide_eq_true_eq, not_exists, not_and, not_lt]
    rintro x ⟨k, hk, rfl⟩
    exact_mod_cast (h k hk).1

theorem rows_nat : ∀ (table : List (List Nat)), Countable table →
    rows (table.map fun l => l.map fun (k : Nat) => (k : ℚ)) = .value (table.map fun l => l.map fun k => k - 1)
  | [], _ => rfl
  | l :: rest, h => by
    rw [List.map_cons, rows, row_nat l (h l (by simp)), rows_nat rest fun m hm => h m (by simp [hm])]
    rfl

/-- The rows that are read are those of the table. -/
theorem cells_eq {a : Arr} {table : List (List Nat)} {width : Nat} (h : Shows a table width) :
    ((List.range (a.dims.getD 0 0)).map fun i => (List.range width).map fun j => a.entry i j) = table.map fun l => l.map fun (k : Nat) => (k : ℚ) := by
  apply List.ext_getElem?
  intro i
  rw [h.dims]
  simp only [List.getD_cons_zero, List.getElem?_map]
  by_cases hi : i < table.length
  · rw [List.getElem?_range hi, List.getElem?_eq_getElem hi]
    simp only [Option.map_some, Option.some.injEq]
    have hw := h.widths table[i] (List.getElem_mem hi)
    apply List.ext_getElem?
    intro j
    simp only [List.getElem?_map]
    by_cases hj : j < width
    · rw [List.getElem?_range hj, List.getElem?_eq_getElem (by omega)]
      simp only [Option.map_some, Option.some.injEq]
      exact h.entries i j _ _ (List.getElem?_eq_getElem hi) (List.getElem?_eq_getElem (by omega))
    · rw [List.getElem?_eq_none (by simp; omega), List.getElem?_eq_none (by omega)]
      rfl
  · rw [List.getElem?_eq_none (by simp; omega), List.getElem?_eq_none (by omega)]
    rfl

theorem readList_eq {a : Arr} {table : List (List Nat)} {width : Nat} (h : Shows a table width) (hc : Countable table) (hw : width ≠ 0) :
    readList width a = .value (table.map fun l => l.map fun k => k - 1) := by
  unfold readList
  split
  · rename_i h0
    unfold Arr.count at h0
    rw [h.dims] at h0
    simp only [List.prod_cons, List.prod_nil, mul_one, Nat.mul_eq_zero] at h0
    have : table = [] := by
      rcases h0 with h0 | h0
      · exact List.length_eq_zero_iff.mp h0
      · exact absurd h0 hw
    rw [this]; rfl
  · rw [cells_eq h, rows_nat table hc]

/-- **C127.** A table of two columns is read as measurements, one of three columns as outcomes: each number is read as it stands there, counted from zero. -/
theorem C127_tables {a : Arr} {table : List (List Nat)} (hc : Countable table) :
    (Shows a table 2 → readOne a = .value (table.map fun l => (l.getD 0 0 - 1, l.getD 1 0 - 1), [])) ∧
    (Shows a table 3 → readOne a = .value ([], table.map fun l => (l.getD 0 0 - 1, l.getD 1 0 - 1, l.getD 2 0 - 1))) ∧
    ∀ (b : Arr) (outcomes : List (List Nat)), Countable outcomes → Shows a table 2 → Shows b outcomes 3 →
      readTwo a b = .value (table.map fun l => (l.getD 0 0 - 1, l.getD 1 0 - 1), outcomes.map fun l => (l.getD 0 0 - 1, l.getD 1 0 - 1, l.getD 2 0 - 1)) := by
  have hp : ∀ (table : List (List Nat)), (∀ l ∈ table, l.length = 2) →
      (table.map fun l => l.map fun k => k - 1).map pair = table.map fun l => (l.getD 0 0 - 1, l.getD 1 0 - 1) := by
    intro table hl
    rw [List.map_map]
    refine List.map_congr_left fun l h => ?_
    match l, hl l h with
    | [x, y], _ => rfl
  have ht : ∀ (table : List (List Nat)), (∀ l ∈ table, l.length = 3) →
      (table.map fun l => l.map fun k => k - 1).map triplet = table.map fun l => (l.getD 0 0 - 1, l.getD 1 0 - 1, l.getD 2 0 - 1) := by
    intro table hl
    rw [List.map_map]
    refine List.map_congr_left fun l h => ?_
    match l, hl l h with
    | [x, y, z], _ => rfl
  have hz : ∀ {a : Arr} {table : List (List Nat)} {w : Nat}, w ≠ 0 → Shows a table w → a.count = 0 → table = [] := by
    intro a table w hw h h0
    unfold Arr.count at h0
    rw [h.dims] at h0
    simp only [List.prod_cons, List.prod_nil, mul_one, Nat.mul_eq_zero] at h0
    rcases h0 with h0 | h0
    · exact List.length_eq_zero_iff.mp h0
    · exact absurd h0 hw
  refine ⟨fun h => ?_, fun h => ?_, fun b outcomes hco h h' => ?_⟩
  · unfold readOne
    split
    · rename_i h0; rw [hz (by decide) h h0]; rfl
    · rw [readList_eq h hc (by decide), h.dims]
      simp only [List.length_cons, List.length_nil, List.getD_cons_succ, List.getD_cons_zero, Res.map, hp table h.widths]
      rfl
  · unfold readOne
    split
    · rename_i h0; rw [hz (by decide) h h0]; rfl
    · rw [readList_eq h hc (by decide), h.dims]
      simp only [List.length_cons, List.length_nil, List.getD_cons_succ, List.getD_cons_zero, Res.map, ht table h.widths]
      rfl
  · unfold readTwo
    rw [if_neg (by rw [h.dims]; simp), if_neg (by rw [h'.dims]; simp), readList_eq h hc (by decide), readList_eq h' hco (by decide)]
    simp only [Res.map, hp table h.widths, ht outcomes h'.widths]

/-- Two rows of three columns. -/
def sample : Arr := ⟨[2, 3], fun i j => ((([[1, 2, 1], [2, 1, 3]] : List (List Nat)).getD i []).getD j 0 : Nat)⟩

theorem sample_shows : Shows sample [[1, 2, 1], [2, 1, 3]] 3 where
  dims := rfl
  widths := by simp
  entries := by
    intro i j l x hl hx
    show (((([[1, 2, 1], [2, 1, 3]] : List (List Nat)).getD i []).getD j 0 : Nat) : ℚ) = x
    rw [getD_of hl hx]

example : Shows sample [[1, 2, 1], [2, 1, 3]] 3 ∧ Countable [[1, 2, 1], [2, 1, 3]] := ⟨sample_shows, by simp [Countable]⟩

/-- **C127.** What is not a table of two or three columns is refused, unless it is empty, and so are tables with an entry below one before any number that is too large. -/
theorem C127_refused (a : Arr) (h : a.count ≠ 0) :
    ((∀ n, a.dims ≠ [n, 2] ∧ a.dims ≠ [n, 3]) → readOne a = .refused) ∧
    (∀ b, (∀ n, a.dims ≠ [n, 2]) → readTwo a b = .refused) ∧ (∀ b, (∀ n, a.dims ≠ [n, 3]) → readTwo b a = .refused) ∧
    ∀ n w, a.dims = [n, w] → w = 2 ∨ w = 3 → (∃ i < n, ∃ j < w, a.entry i j < 1) → (∀ i < n, ∀ j < w, a.entry i j ≤ 2 ^ 64) → readOne a = .refused := by
  have hd : ∀ w : Nat, a.dims.length = 2 → a.dims.getD 1 0 = w → ∃ n, a.dims = [n, w] := by
    intro w h1 h2
    match hm : a.dims, h1 with
    | [n, m], _ => exact ⟨n, by rw [hm] at h2; simp at h2; rw [h2]⟩
  have hr : ∀ (l : List (List ℚ)), (∃ cells ∈ l, ∃ x ∈ cells, x < 1) → (∀ cells ∈ l, ∀ x ∈ cells, x ≤ 2 ^ 64) → rows l = .refused := by
    intro l
    induction l with
    | nil => rintro ⟨_, h, _⟩; simp at h
    | cons cells rest ih =>
      intro h1 h2
      rw [rows]
      have hno : ¬ (cells.any (fun x => decide (2 ^ 64 ≤ x - 1)) = true) := by
        simp only [List.any_eq_true, decide_eq_true_eq, not_exists, not_and]
        intro x hx hle
        have := h2 cells (by simp) x hx
        linarith
      by_cases hc : cells.any (· < 1) = true
      · unfold row; rw [if_pos hc]
      · have : row cells = .value (cells.map fun x => ⌊x - 1⌋.toNat) := by unfold row; rw [if_neg hc, if_neg hno]
        rw [this]
        obtain ⟨c, hm, x, hx, hlt⟩ := h1
        have hcr : c ∈ rest := by
          rcases List.mem_cons.mp hm with rfl | hm
          · exact absurd (List.any_eq_true.mpr ⟨x, hx, by simpa using hlt⟩) hc
          · exact hm
        dsimp only
        rw [ih ⟨c, hcr, x, hx, hlt⟩ fun c hc => h2 c (by simp [hc])]
        rfl
  refine ⟨fun hn => ?_, fun b hn => ?_, fun b hn => ?_, fun n w hdims hw hbad hsmall => ?_⟩
  · unfold readOne
    rw [if_neg h]
    split
    · rfl
    · rename_i h2
      simp only [ne_eq, not_not] at h2
      rw [if_neg, if_neg]
      · intro h3; obtain ⟨n, e⟩ := hd 3 h2 h3; exact (hn n).2 e
      · intro h3; obtain ⟨n, e⟩ := hd 2 h2 h3; exact (hn n).1 e
  · unfold readTwo
    rw [if_pos]
    refine ⟨h, ?_⟩
    by_contra hc
    push Not at hc
    obtain ⟨n, e⟩ := hd 2 hc.1 hc.2
    exact hn n e
  · unfold readTwo
    split
    · rfl
    · rw [if_pos]
      refine ⟨h, ?_⟩
      by_contra hc
      push Not at hc
      obtain ⟨n, e⟩ := hd 3 hc.1 hc.2
      exact hn n e
  · have hl : readList w a = .refused := by
      unfold readList
      rw [if_neg h, hdims]
      apply hr
      · obtain ⟨i, hi, j, hj, hlt⟩ := hbad
        exact ⟨_, List.mem_map.mpr ⟨i, by simpa using hi, rfl⟩, _, List.mem_map.mpr ⟨j, by simpa using hj, rfl⟩, hlt⟩
      · intro cells hc x hx
        obtain ⟨i, hi, rfl⟩ := List.mem_map.mp hc
        obtain ⟨j, hj, rfl⟩ := List.mem_map.mp hx
        exact hsmall i (by simpa using hi) j (by simpa using hj)
    unfold readOne
    rw [if_neg h]
    rcases hw with rfl | rfl
    · rw [hl, hdims]; rfl
    · rw [hl, hdims]; rfl

example : (⟨[1, 4], fun _ _ => 1⟩ : Arr).count ≠ 0 ∧ ∀ n, (⟨[1, 4], fun _ _ => 1⟩ : Arr).dims ≠ [n, 2] ∧ (⟨[1, 4], fun _ _ => 1⟩ : Arr).dims ≠ [n, 3] := by
  simp [Arr.count]

example : (⟨[1, 2], fun _ _ => 0⟩ : Arr).count ≠ 0 ∧ ∃ i < 1, ∃ j < 2, (⟨[1, 2], fun _ _ => 0⟩ : Arr).entry i j < 1 := by
  refine ⟨by simp [Arr.count], 0, by decide, 0, by decide, by norm_num⟩

/-- **C127.** Empty arrays are empty lists, whatever their dimensions are. -/
theorem C127_empty (a b : Arr) (h : a.count = 0) (h' : b.count = 0) : readOne a = .value ([], []) ∧ readTwo a b = .value ([], []) := by
  refine ⟨by unfold readOne; rw [if_pos h], ?_⟩
  unfold readTwo readList
  rw [if_neg (by simp [h]), if_neg (by simp [h']), if_pos h, if_pos h']
  rfl

example : (⟨[0, 7], fun _ _ => 0⟩ : Arr).count = 0 := rfl

/-! ## Refusals -/

theorem readAll_iff {α : Type} {f : α → Option α} {ok : α → Prop} (h : ∀ x, (ok x → f x = some x) ∧ (¬ ok x → f x = none)) :
    ∀ l, ((∀ x ∈ l, ok x) → readAll f l = some l) ∧ ((∃ x ∈ l, ¬ ok x) → readAll f l = none)
  | [] => ⟨fun _ => rfl, by rintro ⟨_, h, _⟩; simp at h⟩
  | x :: rest => by
    obtain ⟨ih1, ih2⟩ := readAll_iff h rest
    refine ⟨fun ha => ?_, fun ⟨y, hy, hn⟩ => ?_⟩
    · rw [readAll, (h x).1 (ha x (by simp)), ih1 fun y hy => ha y (by simp [hy])]; rfl
    · rw [readAll]
      by_cases hx : ok x
      · rw [(h x).1 hx]
        rcases List.mem_cons.mp hy with rfl | hy
        · exact absurd hx hn
        · dsimp only; rw [ih2 ⟨y, hy, hn⟩]; rfl
      · rw [(h x).2 hx]

theorem readPM_iff (s : List (List Nat)) (x : Nat × Nat) : (Measurement s x.1 x.2 → readPM s x = some x) ∧ (¬ Measurement s x.1 x.2 → readPM s x = none) := by
  unfold readPM Measurement
  by_cases h1 : x.1 < s.length
  · have e : s.getD x.1 [] = s[x.1] := by rw [List.getD_eq_getElem?_getD, List.getElem?_eq_getElem h1]; rfl
    rw [if_neg (by omega), e, List.getElem?_eq_getElem h1]
    refine ⟨fun ⟨m, hm, hl⟩ => ?_, fun hn => ?_⟩
    · simp only [Option.some.injEq] at hm; subst hm; rw [if_neg (by omega)]
    · rw [if_pos]; by_contra hc; exact hn ⟨_, rfl, by omega⟩
  · rw [if_pos (by omega), List.getElem?_eq_none (by omega)]
    simp

theorem readPMO_iff (s : List (List Nat)) (inclusive : Bool) (x : Nat × Nat × Nat) :
    (Outcome s inclusive x.1 x.2.1 x.2.2 → readPMO s inclusive x = some x) ∧ (¬ Outcome s inclusive x.1 x.2.1 x.2.2 → readPMO s inclusive x = none) := by
  unfold readPMO Outcome
  by_cases h1 : x.1 < s.length
  · have e : s.getD x.1 [] = s[x.1] := by rw [List.getD_eq_getElem?_getD, List.getElem?_eq_getElem h1]; rfl
    rw [if_neg (by omega), List.getElem?_eq_getElem h1]
    dsimp only
    rw [e]
    by_cases h2 : x.2.1 < s[x.1].length
    · have e2 : (s[x.1]).getD x.2.1 0 = s[x.1][x.2.1] := by rw [List.getD_eq_getElem?_getD, List.getElem?_eq_getElem h2]; rfl
      rw [if_neg (by omega), e2]
      refine ⟨fun ⟨m, n, hm, hl, hk⟩ => ?_, fun hn => ?_⟩
      · simp only [Option.some.injEq] at hm
        subst hm
        rw [List.getElem?_eq_getElem h2, Option.some.injEq] at hl
        rw [hl, if_neg]
        cases inclusive <;> simp at hk ⊢ <;> omega
      · rw [if_pos]
        by_contra hc
        refine hn ⟨_, _, rfl, List.getElem?_eq_getElem h2, ?_⟩
        cases inclusive <;> simp at hc ⊢ <;> omega
    · rw [if_pos (by omega)]
      refine ⟨fun ⟨m, n, hm, hl, _⟩ => ?_, fun _ => rfl⟩
      simp only [Option.some.injEq] at hm
      subst hm
      rw [List.getElem?_eq_none (by omega)] at hl
      simp at hl
  · rw [if_pos (by omega), List.getElem?_eq_none (by omega)]
    simp

/-- **C127.** In locality scenarios lists of measurements are accepted, unchanged, exactly if all of them exist, and lists of outcomes exactly if all of them exist, or
have operators where those are asked for. -/
theorem C127_locality (s : List (List Nat)) (inclusive : Bool) (free : List (Nat × Nat)) (fixed : List (Nat × Nat × Nat)) :
    ((∀ x ∈ free, Measurement s x.1 x.2) → readAll (readPM s) free = some free) ∧
    ((∃ x ∈ free, ¬ Measurement s x.1 x.2) → readAll (readPM s) free = none) ∧
    ((∀ x ∈ fixed, Outcome s inclusive x.1 x.2.1 x.2.2) → readAll (readPMO s inclusive) fixed = some fixed) ∧
    ((∃ x ∈ fixed, ¬ Outcome s inclusive x.1 x.2.1 x.2.2) → readAll (readPMO s inclusive) fixed = none) :=
  ⟨(readAll_iff (readPM_iff s) free).1, (readAll_iff (readPM_iff s) free).2, (readAll_iff (readPMO_iff s inclusive) fixed).1,
    (readAll_iff (readPMO_iff s inclusive) fixed).2⟩

example : Outcome [[2, 3], [2]] true 0 1 2 ∧ ¬ Outcome [[2, 3], [2]] false 0 1 2 ∧ Outcome [[2, 3], [2]] false 0 1 1 := by
  refine ⟨⟨_, _, rfl, rfl, by simp⟩, ?_, ⟨_, _, rfl, rfl, by simp⟩⟩
  rintro ⟨m, n, h1, h2, h3⟩
  simp at h1; subst h1; simp at h2; subst h2; simp at h3

/-- There is such a copy of an observable. -/
def Copy (c : Inflation.Ctx) (x : Nat × Nat) : Prop := ∃ ob, c.net.observables[x.1]? = some ob ∧ x.2 < ob.copies c.infl

/-- There is such an outcome, or operator, of a copy of an observable. An observable with 0 outcomes stands for one operator. -/
def CopyOutcome (c : Inflation.Ctx) (inclusive : Bool) (x : Nat × Nat × Nat) : Prop :=
  ∃ ob, c.net.observables[x.1]? = some ob ∧ x.2.1 < ob.copies c.infl ∧
    if ob.outcomes = 0 then x.2.2 = 0 else if inclusive = true then x.2.2 < ob.outcomes else x.2.2 + 1 < ob.outcomes

theorem readOV_iff (c : Inflation.Ctx) (x : Nat × Nat) : (Copy c x → readOV c x = some x) ∧ (¬ Copy c x → readOV c x = none) := by
  unfold readOV Copy Inflation.obsAt
  by_cases h1 : x.1 < c.net.observables.length
  · rw [if_neg (by omega), List.getD_eq_getElem?_getD, List.getElem?_eq_getElem h1, Option.getD_some]
    refine ⟨fun ⟨m, hm, hl⟩ => ?_, fun hn => ?_⟩
    · simp only [Option.some.injEq] at hm; subst hm; rw [if_neg (by omega)]
    · rw [if_pos]; by_contra hc; exact hn ⟨_, rfl, by omega⟩
  · rw [if_pos (by omega), List.getElem?_eq_none (by omega)]
    simp

/-- Which outcomes are accepted: one more than there are. -/
theorem readOVO_eq (c : Inflation.Ctx) (inclusive : Bool) (x : Nat × Nat × Nat) :
    readOVO c inclusive x = some x ∨ readOVO c inclusive x = none := by
  unfold readOVO
  dsimp only
  generalize (if inclusive then (Inflation.obsAt c x.1).outcomes else (Inflation.obsAt c x.1).outcomes - 1) = bound
  split
  · exact Or.inr rfl
  · split
    · exact Or.inr rfl
    · split
      · by_cases h : x.2.2 > bound
        · exact Or.inr (if_pos h)
        · exact Or.inl (if_neg h)
      · by_cases h : x.2.2 ≠ 0
        · exact Or.inr (if_pos h)
        · exact Or.inl (if_neg h)

theorem readOVO_some (c : Inflation.Ctx) (inclusive : Bool) (x : Nat × Nat × Nat) :
    readOVO c inclusive x = some x ↔ ∃ ob, c.net.observables[x.1]? = some ob ∧ x.2.1 < ob.copies c.infl ∧
      if ob.outcomes = 0 then x.2.2 = 0 else if inclusive = true then x.2.2 < ob.outcomes + 1 else x.2.2 < ob.outcomes := by
  unfold readOVO Inflation.obsAt
  by_cases h1 : x.1 < c.net.observables.length
  · rw [if_neg (by omega)]
    dsimp only
    rw [List.getD_eq_getElem?_getD, List.getElem?_eq_getElem h1, Option.getD_some]
    generalize c.net.observables[x.1] = ob
    have hp : ob.projective = true ↔ ob.outcomes ≠ 0 := by simp [Inflation.Obs.projective]
    simp only [Option.some.injEq]
    constructor
    · intro h
      refine ⟨ob, rfl, ?_⟩
      split at h
      · simp at h
      · refine ⟨by omega, ?_⟩
        split at h
        · rename_i hpr
          rw [if_neg (hp.mp hpr)]
          have := hp.mp hpr
          cases inclusive <;> simp at h ⊢ <;> omega
        · rename_i hpr
          rw [if_pos (by by_contra hc; exact hpr (hp.mpr hc))]
          split at h
          · simp at h
          · omega
    · rintro ⟨ob', rfl, h2, h3⟩
      rw [if_neg (by omega)]
      split
      · rename_i hpr
        rw [if_neg (hp.mp hpr)] at h3
        rw [if_neg]
        have := hp.mp hpr
        cases inclusive <;> simp at * <;> omega
      · rename_i hpr
        rw [if_pos (by by_contra hc; exact hpr (hp.mpr hc))] at h3
        rw [if_neg (by simpa using h3)]
  · rw [if_pos (by omega), List.getElem?_eq_none (by omega)]
    simp

/-- **C127, partial.** In inflation scenarios lists of copies are accepted, unchanged, exactly if all of them exist. Lists of outcomes are accepted if all of them exist,
and refused if one is beyond the first that does not exist, or belongs to no copy. (What is missing: the first outcome that does not exist is accepted,
`C127_refuted_outcome`.) -/
theorem C127_inflation_partial (c : Inflation.Ctx) (inclusive : Bool) (free : List (Nat × Nat)) (fixed : List (Nat × Nat × Nat)) :
    ((∀ x ∈ free, Copy c x) → readAll (readOV c) free = some free) ∧ ((∃ x ∈ free, ¬ Copy c x) → readAll (readOV c) free = none) ∧
    ((∀ x ∈ fixed, CopyOutcome c inclusive x) → readAll (readOVO c inclusive) fixed = some fixed) ∧
    ((∃ x ∈ fixed, ¬ CopyOutcome c inclusive x ∧ ¬ ∃ k, x.2.2 = k + 1 ∧ CopyOutcome c inclusive (x.1, x.2.1, k)) →
      (∀ ob ∈ c.net.observables, ob.outcomes ≠ 1) → readAll (readOVO c inclusive) fixed = none) := by
  have hg := readAll_iff (f := readOVO c inclusive) (ok := fun x => readOVO c inclusive x = some x)
    (fun x => ⟨id, fun hn => (readOVO_eq c inclusive x).resolve_left hn⟩) fixed
  refine ⟨(readAll_iff (readOV_iff c) free).1, (readAll_iff (readOV_iff c) free).2, fun h => hg.1 fun x hx => ?_, fun ⟨x, hx, hn, hn'⟩ ho => hg.2 ⟨x, hx, fun h => ?_⟩⟩
  · rw [readOVO_some]
    obtain ⟨ob, h1, h2, h3⟩ := h x hx
    refine ⟨ob, h1, h2, ?_⟩
    by_cases h0 : ob.outcomes = 0
    · rw [if_pos h0] at h3 ⊢; exact h3
    · rw [if_neg h0] at h3 ⊢
      cases inclusive <;> simp at h3 ⊢ <;> omega
  · rw [readOVO_some] at h
    obtain ⟨ob, h1, h2, h3⟩ := h
    by_cases h0 : ob.outcomes = 0
    · rw [if_pos h0] at h3
      exact hn ⟨ob, h1, h2, by rw [if_pos h0]; exact h3⟩
    · rw [if_neg h0] at h3
      have h11 := ho ob (List.mem_of_getElem? h1)
      by_cases hk : x.2.2 = 0
      · refine hn ⟨ob, h1, h2, ?_⟩
        rw [if_neg h0]
        cases inclusive <;> simp at h3 ⊢ <;> omega
      · refine hn' ⟨x.2.2 - 1, by omega, ob, h1, h2, ?_⟩
        rw [if_neg h0]
        cases inclusive <;> simp at h3 ⊢ <;> omega

example : ContextOf twoSources twoSourcesCtx ∧ CopyOutcome twoSourcesCtx true (0, 3, 1) ∧ ∀ ob ∈ twoSourcesCtx.net.observables, ob.outcomes ≠ 1 := by
  refine ⟨C114.two_context, ⟨_, rfl, by decide, by decide⟩, by decide⟩

/-- **C127, refuted: the outcome after the last.** For an observable of two outcomes the row `1 1 3` is accepted as an outcome, although there is none; in the probability
tensor its index is outside the tensor, and has the position of the first outcome of the next copy. Where outcomes need an operator, the row `1 1 2` of the last
outcome is accepted, and the box in the Collins-Gisin tensor is outside the tensor. -/
theorem C127_refuted_outcome : (∃ a, Shows a [[1, 1, 3]] 3 ∧ readOne a = .value ([], [(0, 0, 2)])) ∧
    ¬ CopyOutcome twoSourcesCtx true (0, 0, 2) ∧ readAll (readOVO twoSourcesCtx true) [(0, 0, 2)] = some [(0, 0, 2)] ∧
    (∃ i, Inflation.outcomeIndex twoSourcesCtx [((0, 0), 2)] = some (some i) ∧ ¬ List.Forall₂ (· < ·) i (Inflation.fullDims twoSourcesCtx) ∧
      ∃ j, Inflation.outcomeIndex twoSourcesCtx [((0, 1), 0)] = some (some j) ∧ i ≠ j ∧
        Tensor.indexToOffsetNoChecks true (Inflation.fullDims twoSourcesCtx) i = Tensor.indexToOffsetNoChecks true (Inflation.fullDims twoSourcesCtx) j) ∧
    ¬ CopyOutcome twoSourcesCtx false (0, 0, 1) ∧ readAll (readOVO twoSourcesCtx false) [(0, 0, 1)] = some [(0, 0, 1)] ∧
    ∃ lo hi, Inflation.gisinRange twoSourcesCtx [((0, 0), some 1)] = some (some (lo, hi)) ∧ ¬ List.Forall₂ (· < ·) lo (Inflation.gisinDims twoSourcesCtx) := by
  obtain ⟨g1, g2, g3, g4, g5, g6⟩ := C115.C115_refuted_outcome
  have hs : Shows ⟨[1, 3], fun i j => (((([[1, 1, 3]] : List (List Nat)).getD i []).getD j 0 : Nat) : ℚ)⟩ [[1, 1, 3]] 3 := by
    refine ⟨rfl, by simp, ?_⟩
    intro i j l x hl hx
    show (((([[1, 1, 3]] : List (List Nat)).getD i []).getD j 0 : Nat) : ℚ) = x
    rw [getD_of hl hx]
  refine ⟨⟨_, hs, (C127_tables (by simp [Countable])).2.1 hs⟩, ?_, by decide, ⟨_, g3, ?_, _, g4, by decide, g6⟩, ?_, by decide, _, _, g1, ?_⟩
  · rintro ⟨ob, h1, _, h3⟩
    have : ob = ⟨2, [0, 1], false⟩ := by simpa [twoSourcesCtx] using h1.symm
    subst this; simp at h3
  · rw [g5]; decide
  · rintro ⟨ob, h1, _, h3⟩
    have : ob = ⟨2, [0, 1], false⟩ := by simpa [twoSourcesCtx] using h1.symm
    subst this; simp at h3
  · rw [g2]; decide

/-- **C127, refuted: fractions.** Entries have to be positive integers, but fractions above one are accepted and cut off. -/
theorem C127_refuted_fraction : readOne ⟨[1, 2], fun _ _ => 5 / 2⟩ = .value ([(1, 1)], []) ∧ ¬ ∃ k : Nat, (5 / 2 : ℚ) = k := by
  constructor
  · have : row [(5 / 2 : ℚ), 5 / 2] = .value [1, 1] := by
      unfold row
      have h : ⌊(5 / 2 : ℚ) - 1⌋ = 1 := by rw [Int.floor_eq_iff]; norm_num
      rw [if_neg (by simp; norm_num), if_neg (by simp; norm_num), List.map_cons, List.map_cons, List.map_nil, h]
      rfl
    simp only [readOne, readList, Arr.count, List.prod_cons, List.prod_nil, List.length_cons, List.length_nil, List.getD_cons_zero, List.getD_cons_succ]
    norm_num
    rw [show List.replicate 2 (5 / 2 : ℚ) = [5 / 2, 5 / 2] from rfl, rows, this]
    rfl
  · rintro ⟨k, h⟩
    have h2 : (5 : ℚ) = 2 * k := by linarith
    have : (5 : Int) = 2 * k := by exact_mod_cast h2
    omega

end Moment.C127
