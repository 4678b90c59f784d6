import Verif.Model.NumericInput
import Mathlib.Algebra.Group.Nat.Defs
import Mathlib.Algebra.Group.Int.Defs
import Mathlib.Data.List.Nodup
import Mathlib.Tactic.Common

/-! # C140: matrices of numbers are read as they are, whatever form they are given in -/

namespace Moment.C140
open Moment.NumericInput
open Moment.RuleInput (Out)

variable {α : Type} [AddMonoid α] [DecidableEq α]

/-- What a matrix says about one entry. -/
inductive Says : Input α → Nat → Nat → α → Prop
  | dense {rows cols f r c} : r < rows → c < cols → Says (.dense rows cols f) r c (f r c)
  | stored {rows cols es r c x} : (r, c, x) ∈ es → Says (.sparse rows cols es) r c x
  | absent {rows cols es r c} : (∀ x, (r, c, x) ∉ es) → Says (.sparse rows cols es) r c 0
  | number {rows cols f r c x} : r < rows → c < cols → f r c = .number x → Says (.text rows cols f) r c x
  | null {rows cols f r c} : r < rows → c < cols → f r c = .null → Says (.text rows cols f) r c 0

/-- The dimensions. -/
def shape : Input α → Nat × Nat
  | .dense rows cols _ => (rows, cols)
  | .sparse rows cols _ => (rows, cols)
  | .text rows cols _ => (rows, cols)

/-- Sparse matrices of MATLAB: positions are in range, no position twice. Texts: none is blank. -/
def Proper : Input α → Prop
  | .dense _ _ _ => True
  | .sparse rows cols es => (∀ e ∈ es, e.1 < rows ∧ e.2.1 < cols) ∧ (es.map fun e => (e.1, e.2.1)).Nodup
  | .text rows cols f => ∀ r c, r < rows → c < cols → f r c ≠ .blank

theorem flat_only {β : Type} (n a : Nat) (g : Nat → List β) (h : ∀ k, k ≠ a → g k = []) :
    (List.range n).flatMap g = if a < n then g a else [] := by
  induction n with
  | zero => simp
  | succ n ih =>
    rw [List.range_succ, List.flatMap_append, ih]
    by_cases e : n = a
    · subst e; simp
    · have hn := h n e
      by_cases l : a < n
      · simp [l, hn, Nat.lt_succ_of_lt l]
      · have : ¬ a < n + 1 := by omega
        simp [l, hn, this]

theorem values_compress (rows cols : Nat) (es : List (Nat × Nat × α)) (r c : Nat) (hr : r < rows) (hc : c < cols) :
    (valuesAt (compress rows cols es) r c).sum = (valuesAt es r c).sum := by
  unfold compress
  rw [valuesAt, List.flatMap_assoc, flat_only cols c _, if_pos hc, List.flatMap_assoc, flat_only rows r _, if_pos hr]
  · cases h : valuesAt es r c <;> simp
  · intro k hk
    cases h : valuesAt es k c <;> simp [hk]
  · intro k hk
    rw [List.flatMap_assoc, List.flatMap_eq_nil_iff]
    intro q _
    cases h : valuesAt es q k <;> simp [hk]

theorem values_nonZeros (rows cols : Nat) (f : Nat → Nat → α) (r c : Nat) (hr : r < rows) (hc : c < cols) :
    (valuesAt (nonZeros rows cols f) r c).sum = f r c := by
  unfold nonZeros
  rw [valuesAt, List.flatMap_assoc, flat_only rows r _, if_pos hr, List.flatMap_assoc, flat_only cols c _, if_pos hc]
  · by_cases h : f r c = 0 <;> simp [h]
  · intro k hk
    by_cases h : f r k = 0 <;> simp [h, hk]
  · intro k hk
    rw [List.flatMap_assoc, List.flatMap_eq_nil_iff]
    intro q _
    by_cases h : f k q = 0 <;> simp [h, hk]

theorem coeff_triplets (rows cols : Nat) (es : List (Nat × Nat × α)) (r c : Nat) (hr : r < rows) (hc : c < cols) :
    (tripletToSparse rows cols es).coeff r c = (valuesAt es r c).sum := by
  unfold Sparse.coeff tripletToSparse
  cases es with
  | nil => simp
  | cons e es => simpa using values_compress rows cols (e :: es) r c hr hc

theorem values_absent (es : List (Nat × Nat × α)) (r c : Nat) (h : ∀ x, (r, c, x) ∉ es) : valuesAt es r c = [] := by
  rw [valuesAt, List.flatMap_eq_nil_iff]
  rintro ⟨a, b, x⟩ hm
  by_cases e : a = r ∧ b = c
  · obtain ⟨rfl, rfl⟩ := e; exact absurd hm (h x)
  · simp [e]

theorem values_stored (es : List (Nat × Nat × α)) (hn : (es.map fun e => (e.1, e.2.1)).Nodup) (r c : Nat) (x : α) (h : (r, c, x) ∈ es) : valuesAt es r c = [x] := by
  induction es with
  | nil => simp at h
  | cons e es ih =>
    rw [List.map_cons, List.nodup_cons] at hn
    rcases List.mem_cons.1 h with h | h
    · subst h
      have : valuesAt es r c = [] := values_absent es r c fun y hy => hn.1 (List.mem_map.2 ⟨_, hy, rfl⟩)
      rw [valuesAt] at this ⊢
      simp [this]
    · have := ih hn.2 h
      have ne : ¬ (e.1 = r ∧ e.2.1 = c) := fun q => hn.1 (List.mem_map.2 ⟨_, h, by simp [q.1, q.2]⟩)
      rw [valuesAt] at this ⊢
      simp [this, ne]

theorem noBlank {rows cols : Nat} {f : Nat → Nat → Text α} (h : Proper (.text rows cols f)) : anyBlank rows cols f = false := by
  unfold anyBlank
  rw [List.any_eq_false]
  intro r hr
  rw [Bool.not_eq_true, List.any_eq_false]
  intro c hc
  have := h r c (List.mem_range.1 hr) (List.mem_range.1 hc)
  cases e : f r c <;> simp_all

/-- Read into a sparse matrix, every entry is what the input says. -/
theorem C140_sparse (i : Input α) (h : Proper i) : ∃ m : Sparse α, readSparse i = .ok m ∧ (m.rows, m.cols) = shape i ∧
    ∀ r c x, r < (shape i).1 → c < (shape i).2 → Says i r c x → m.coeff r c = x := by
  cases i with
  | dense rows cols f =>
    refine ⟨_, rfl, rfl, ?_⟩
    rintro r c x hr hc ⟨⟩
    change r < rows at hr
    change c < cols at hc
    rw [coeff_triplets _ _ _ _ _ hr hc, values_nonZeros _ _ _ _ _ hr hc]
  | sparse rows cols es =>
    refine ⟨_, rfl, rfl, ?_⟩
    intro r c x hr hc s
    change r < rows at hr
    change c < cols at hc
    rw [coeff_triplets _ _ _ _ _ hr hc]
    cases s with
    | stored hm => rw [values_stored es h.2 r c x hm]; simp
    | absent hm => rw [values_absent es r c hm]; simp
  | text rows cols f =>
    refine ⟨tripletToSparse rows cols (nonZeros rows cols fun r c => (f r c).value), by simp [readSparse, noBlank h], rfl, ?_⟩
    intro r c x hr hc s
    change r < rows at hr
    change c < cols at hc
    rw [coeff_triplets _ _ _ _ _ hr hc, values_nonZeros _ _ _ _ _ hr hc]
    cases s with
    | number _ _ e => rw [e]; rfl
    | null _ _ e => rw [e]; rfl

theorem fold_writes (es : List (Nat × Nat × α)) (hn : (es.map fun e => (e.1, e.2.1)).Nodup) (f : Nat → Nat → α) (r c : Nat) :
    (∀ x, (r, c, x) ∈ es → es.foldl (fun f e => fun r c => if r = e.1 ∧ c = e.2.1 then e.2.2 else f r c) f r c = x) ∧
    ((∀ x, (r, c, x) ∉ es) → es.foldl (fun f e => fun r c => if r = e.1 ∧ c = e.2.1 then e.2.2 else f r c) f r c = f r c) := by
  induction es generalizing f with
  | nil => simp
  | cons e es ih =>
    rw [List.map_cons, List.nodup_cons] at hn
    obtain ⟨i1, i2⟩ := ih hn.2 (fun r c => if r = e.1 ∧ c = e.2.1 then e.2.2 else f r c)
    refine ⟨fun x hx => ?_, fun hx => ?_⟩
    · rcases List.mem_cons.1 hx with hx | hx
      · subst hx
        rw [List.foldl_cons, i2 fun y hy => hn.1 (List.mem_map.2 ⟨_, hy, rfl⟩)]
        simp
      · rw [List.foldl_cons]; exact i1 x hx
    · rw [List.foldl_cons, i2 fun y hy => hx y (List.mem_cons_of_mem _ hy)]
      have : ¬ (r = e.1 ∧ c = e.2.1) := fun q => hx e.2.2 (by rw [q.1, q.2]; exact List.mem_cons_self ..)
      simp [this]

/-- Read into a dense matrix, every entry is what the input says. -/
theorem C140_dense (i : Input α) (h : Proper i) : ∃ f : Nat → Nat → α, readDense i = .ok ((shape i).1, (shape i).2, f) ∧
    ∀ r c x, r < (shape i).1 → c < (shape i).2 → Says i r c x → f r c = x := by
  cases i with
  | dense rows cols f =>
    refine ⟨f, rfl, ?_⟩
    rintro r c x hr hc ⟨⟩
    rfl
  | sparse rows cols es =>
    refine ⟨_, rfl, ?_⟩
    intro r c x hr hc s
    cases s with
    | stored hm => exact (fold_writes es h.2 _ r c).1 x hm
    | absent hm => exact (fold_writes es h.2 _ r c).2 hm
  | text rows cols f =>
    refine ⟨fun r c => (f r c).value, by simp [readDense, noBlank h, shape], ?_⟩
    intro r c x hr hc s
    cases s with
    | number _ _ e => simp only [e]; rfl
    | null _ _ e => simp only [e]; rfl

/-- No zeros are stored for matrices that are not sparse. -/
theorem C140_stored (i : Input α) (m : Sparse α) (hi : ∀ rows cols es, i ≠ .sparse rows cols es) (h : readSparse i = .ok m) : ∀ e ∈ m.stored, e.2.2 ≠ 0 := by
  have key : ∀ rows cols (f : Nat → Nat → α), ∀ e ∈ (tripletToSparse rows cols (nonZeros rows cols f)).stored, e.2.2 ≠ 0 := by
    intro rows cols f e he
    unfold tripletToSparse at he
    simp only at he
    split_ifs at he with q
    · simp at he
    · unfold compress at he
      obtain ⟨c, hc, he⟩ := List.mem_flatMap.1 he
      obtain ⟨r, hr, he⟩ := List.mem_flatMap.1 he
      have v := values_nonZeros rows cols f r c (List.mem_range.1 hr) (List.mem_range.1 hc)
      cases hv : valuesAt (nonZeros rows cols f) r c with
      | nil => simp [hv] at he
      | cons y l =>
        rw [hv] at he v
        simp only [List.mem_singleton] at he
        subst he
        simp only
        rw [v]
        have hy : y ∈ valuesAt (nonZeros rows cols f) r c := by rw [hv]; exact List.mem_cons_self ..
        unfold valuesAt at hy
        obtain ⟨⟨a, b, z⟩, hz, hy⟩ := List.mem_flatMap.1 hy
        by_cases ab : a = r ∧ b = c
        · obtain ⟨rfl, rfl⟩ := ab
          unfold nonZeros at hz
          obtain ⟨a', _, hz⟩ := List.mem_flatMap.1 hz
          obtain ⟨b', _, hz⟩ := List.mem_flatMap.1 hz
          by_cases fz : f a' b' = 0
          · simp [fz] at hz
          · simp only [ne_eq, fz, not_false_eq_true, if_true, List.mem_singleton, Prod.mk.injEq] at hz
            rw [hz.1, hz.2.1]; exact fz
        · simp [ab] at hy
  cases i with
  | dense rows cols f => simp only [readSparse, Out.ok.injEq] at h; subst h; exact key _ _ _
  | sparse rows cols es => exact absurd rfl (hi rows cols es)
  | text rows cols f =>
    simp only [readSparse] at h
    split_ifs at h
    simp only [Out.ok.injEq] at h; subst h; exact key _ _ _

/-- What was returned is a proper matrix and says what was stored: given again, the entries are the same, in both forms. -/
theorem C140_again (i : Input α) (m : Sparse α) (h : readSparse i = .ok m) : Proper (exportSparse m) ∧ shape (exportSparse m) = (m.rows, m.cols) ∧
    ∀ r c, r < m.rows → c < m.cols → Says (exportSparse m) r c (m.coeff r c) := by
  have nd : ∀ rows cols (es : List (Nat × Nat × α)), (∀ e ∈ compress rows cols es, e.1 < rows ∧ e.2.1 < cols) ∧ ((compress rows cols es).map fun e => (e.1, e.2.1)).Nodup := by
    intro rows cols es
    constructor
    · intro e he
      unfold compress at he
      obtain ⟨c, hc, he⟩ := List.mem_flatMap.1 he
      obtain ⟨r, hr, he⟩ := List.mem_flatMap.1 he
      cases hv : valuesAt es r c with
      | nil => simp [hv] at he
      | cons y l =>
        rw [hv] at he
        simp only [List.mem_singleton] at he
        subst he
        exact ⟨List.mem_range.1 hr, List.mem_range.1 hc⟩
    · unfold compress
      rw [List.map_flatMap, List.nodup_flatMap]
      refine ⟨fun c _ => ?_, ?_⟩
      · rw [List.map_flatMap, List.nodup_flatMap]
        refine ⟨fun r _ => ?_, ?_⟩
        · cases valuesAt es r c <;> simp
        · refine List.Pairwise.imp ?_ (List.nodup_range (n := rows))
          intro a b hab
          simp only [Function.onFun, List.disjoint_left]
          intro p hp hq
          cases ha : valuesAt es a c <;> cases hb : valuesAt es b c <;> simp_all
      · refine List.Pairwise.imp ?_ (List.nodup_range (n := cols))
        intro a b hab
        simp only [Function.onFun, List.disjoint_left]
        intro p hp hq
        rw [List.map_flatMap] at hp hq
        obtain ⟨r, _, hp⟩ := List.mem_flatMap.1 hp
        obtain ⟨s, _, hq⟩ := List.mem_flatMap.1 hq
        cases ha : valuesAt es r a <;> cases hb : valuesAt es s b <;> simp_all
  have pr : ∀ rows cols (es : List (Nat × Nat × α)), Proper (Input.sparse rows cols (tripletToSparse rows cols es).stored) := by
    intro rows cols es
    unfold tripletToSparse
    simp only
    split_ifs
    · exact ⟨by simp, by simp⟩
    · exact nd rows cols es
  have form : ∃ rows cols es, m = tripletToSparse rows cols es := by
    cases i with
    | dense rows cols f => simp only [readSparse, Out.ok.injEq] at h; exact ⟨_, _, _, h.symm⟩
    | sparse rows cols es => simp only [readSparse, Out.ok.injEq] at h; exact ⟨_, _, _, h.symm⟩
    | text rows cols f =>
      simp only [readSparse] at h
      split_ifs at h
      simp only [Out.ok.injEq] at h; exact ⟨_, _, _, h.symm⟩
  obtain ⟨rows, cols, es, rfl⟩ := form
  have ex : exportSparse (tripletToSparse rows cols es) = .sparse rows cols (tripletToSparse rows cols es).stored := by
    unfold exportSparse
    split_ifs with q
    · rw [List.length_eq_zero_iff.1 q]; rfl
    · rfl
  rw [ex]
  refine ⟨pr rows cols es, rfl, ?_⟩
  intro r c _ _
  by_cases q : ∃ x, (r, c, x) ∈ (tripletToSparse rows cols es).stored
  · obtain ⟨x, hx⟩ := q
    have : (tripletToSparse rows cols es).coeff r c = x := by
      unfold Sparse.coeff
      rw [values_stored _ (pr rows cols es).2 r c x hx]; simp
    rw [this]
    exact .stored hx
  · have q : ∀ x, (r, c, x) ∉ (tripletToSparse rows cols es).stored := fun x hx => q ⟨x, hx⟩
    have : (tripletToSparse rows cols es).coeff r c = 0 := by
      unfold Sparse.coeff
      rw [values_absent _ r c q]; simp
    rw [this]
    exact .absent q

/-- Texts that are no numbers are not refused, but read as zero, in both forms. -/
theorem C140_refuted_junk : ∃ (i : Input Int) (m : Sparse Int) (f : Nat → Nat → Int), i = .text 1 1 (fun _ _ => .junk) ∧
    readSparse i = .ok m ∧ m.coeff 0 0 = 0 ∧ readDense i = .ok (1, 1, f) ∧ f 0 0 = 0 :=
  ⟨_, _, _, rfl, rfl, by decide, rfl, rfl⟩

/-- A blank text is read as a number that is not determined. -/
theorem C140_refuted_blank : ∃ i : Input Int, i = .text 1 1 (fun _ _ => .blank) ∧ readSparse i = .undefined ∧ readDense i = .undefined :=
  ⟨_, rfl, rfl, rfl⟩

/-- Two entries, not in the order of columns, and a text with a number and a null. -/
example : Proper (.sparse 2 2 [(0, 1, 5), (1, 0, (-3 : Int))]) ∧
    Proper (.text 1 2 fun _ c => if c = 0 then .number (4 : Int) else .null) ∧
    (∃ m, readSparse (.sparse 2 2 [(0, 1, 5), (1, 0, (-3 : Int))]) = .ok m ∧ m.stored = [(1, 0, -3), (0, 1, 5)]) ∧
    (∃ m, readSparse (.dense 2 2 fun r c => if r = c then 0 else (7 : Int)) = .ok m ∧ m.stored = [(1, 0, 7), (0, 1, 7)]) := by
  refine ⟨⟨by decide, by decide⟩, ?_, ⟨_, rfl, by decide⟩, ⟨_, rfl, by decide⟩⟩
  intro r c _ _
  by_cases h : c = 0 <;> simp [h]

end Moment.C140
