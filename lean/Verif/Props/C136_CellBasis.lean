import Verif.Model.CellBasis
import Verif.Props.C126_PolyInput
import Verif.Props.C129_RulesInput
import Verif.Props.C25_Basis

/-! # C136: the basis matrices of a cell of polynomials have the polynomials as columns -/

namespace Moment.C136
open Moment.RuleInput (Out)
open Moment.PolyInput Moment.CellBasis Moment.C126
open Moment.SymbolText (Doubles)
open Moment.Symbols Moment.BasisVec
open Moment.Poly (Mono)
open Moment.C113 (Standard)

/-! ## Specification -/

/-- The value of a sum of terms. -/
noncomputable def total (v : Nat → ℂ) (l : List Mono) : ℂ := (l.map fun m => m.factor * if m.conj then (starRingEnd ℂ) (v m.id) else v m.id).sum

/-- Every cell says a sum of terms; texts are short. -/
def Given (s : Streams) (D : Doubles) (l : List Value) (ms : List (List Mono)) : Prop := List.Forall₂ (fun x m => Short x ∧ Says s D.round x m) l ms

/-- All symbols are known. -/
def Known (t : Table) (ms : List (List Mono)) : Prop := ∀ m ∈ ms, ∀ e ∈ m, e.id < t.syms.length

/-! ## Steps -/

theorem cells_given {s : Streams} {D : Doubles} (hD : Standard D) {l : List Value} {ms : List (List Mono)} (h : Given s D l ms) : cells s D l = .ok ms := by
  rw [cells, C125.each_ok]
  exact h.imp fun x m hm => readTerms_says hD hm.1 hm.2

theorem polynomials_known {t : Table} {o : Poly.Order} {ms : List (List Mono)} (h : Known t ms) :
    polynomials t o ms = .ok (ms.map (Poly.make (MatrixBasis.polyTable t) o)) :=
  C129.each_map fun m hm => if_pos (h m hm)

theorem polynomials_unknown {t : Table} {o : Poly.Order} {ms : List (List Mono)} (h : ¬Known t ms) : polynomials t o ms = .refused := by
  refine C129.each_refused (fun m _ => ?_) ?_
  · unfold toPolynomial
    split <;> exact fun e => by cases e
  · unfold Known at h
    push Not at h
    obtain ⟨m, hm, e, he, hk⟩ := h
    exact ⟨m, hm, if_neg fun g => absurd (g e he) (by omega)⟩

/-! ## Theorems -/

/-- If all symbols are known and two or three outputs are asked for, column `c` of the two matrices, applied to the values of the basis elements, is the value of the
polynomial in cell `c`. -/
theorem C136_columns {s : Streams} {D : Doubles} (hD : Standard D) {t : Table} (ht : Reached t) {o : Poly.Order} (ho : Function.Injective o.rank) {l : List Value}
    {ms : List (List Mono)} (h : Given s D l ms) (hk : Known t ms) {n : Nat} (hn : n = 2 ∨ n = 3) :
    ∃ r, generate s D t o n l = .ok r ∧ SortedTriplets t.basis.real.length l.length r.1 ∧ SortedTriplets t.basis.imag.length l.length r.2 ∧
      ∀ (c : Nat) (m : List Mono), ms[c]? = some m → ∀ a b : Nat → ℝ,
        colDot r.1 c (fun k => (a k : ℂ)) + colDot r.2 c (fun k => (b k : ℂ)) = total (point t a b) m := by
  obtain ⟨r, h1, h2, h3, h4⟩ := C25.C25_columns t ht o (ms.map (Poly.make (MatrixBasis.polyTable t) o))
    (fun p hp => by
      obtain ⟨m, -, rfl⟩ := List.mem_map.mp hp
      exact Poly.make_canonical _ o ho m)
    (fun p hp e he => by
      obtain ⟨m, hm, rfl⟩ := List.mem_map.mp hp
      obtain ⟨y, hy, g⟩ := Poly.make_ids he
      rw [← g]
      exact hk m hm y hy)
  have hl : l.length = ms.length := h.length_eq
  rw [List.length_map, ← hl] at h2 h3
  refine ⟨r, ?_, h2, h3, fun c m hc a b => ?_⟩
  · simp only [generate, cells_given hD h, Out.bind, counted, polynomials_known hk, h1, Out.ofOption, assign]
    rcases hn with rfl | rfl <;> rfl
  · rw [h4 c (Poly.make (MatrixBasis.polyTable t) o m) (by rw [List.getElem?_map, hc]; rfl) a b]
    exact Poly.make_value (respects_point ht.sound a b) o m

/-- If a symbol is not known, or no or more than three outputs are asked for, the call is refused. -/
theorem C136_refused {s : Streams} {D : Doubles} (hD : Standard D) {t : Table} {o : Poly.Order} {l : List Value} {ms : List (List Mono)} (h : Given s D l ms) {n : Nat}
    (hn : ¬Known t ms ∨ n = 0 ∨ 3 < n) : generate s D t o n l = .refused := by
  simp only [generate, cells_given hD h, Out.bind, counted]
  by_cases hc : 3 < n ∨ n < 1
  · rw [if_pos hc]
  · rw [if_neg hc]
    rcases hn with hk | hn
    · simp only [polynomials_unknown hk]
    · omega

/-- With one output, which is permitted, the second matrix is written beyond the outputs, for all polynomials whatsoever. -/
theorem C136_refuted_one {s : Streams} {D : Doubles} (hD : Standard D) {t : Table} {o : Poly.Order} {l : List Value} {ms : List (List Mono)}
    (h : Given s D l ms) (hk : Known t ms) : generate s D t o 1 l = .undefined := by
  have hm : ∃ r, BasisVec.monolith t (ms.map (Poly.make (MatrixBasis.polyTable t) o)) 0 = some r := by
    have key : ∀ (ps : List (List Mono)) (k : Nat), (∀ p ∈ ps, ∀ e ∈ p, e.id < t.syms.length) → ∃ r, BasisVec.monolith t ps k = some r := by
      intro ps
      induction ps with
      | nil => exact fun k _ => ⟨_, rfl⟩
      | cons p ps ih =>
        intro k hp
        obtain ⟨r, hr⟩ := ih (k + 1) fun q hq => hp q (by simp [hq])
        have := (C25.C25_throws t p).1.mpr (hp p (by simp))
        unfold complexVec at this
        rw [Option.isSome_map] at this
        obtain ⟨x, hx⟩ := Option.isSome_iff_exists.mp this
        rw [BasisVec.monolith, hx, hr]
        exact ⟨_, rfl⟩
    refine key _ _ fun p hp e he => ?_
    obtain ⟨m, hm, rfl⟩ := List.mem_map.mp hp
    obtain ⟨y, hy, g⟩ := Poly.make_ids he
    rw [← g]
    exact hk m hm y hy
  obtain ⟨r, hr⟩ := hm
  simp only [generate, cells_given hD h, Out.bind, counted, polynomials_known hk, hr, Out.ofOption, assign]
  rfl

/-! ## Example -/

/-- The polynomials `3 #2 + i #2*` and `#1` in a table with one further symbol. -/
example : Standard C113.exact ∧ Reached C25.demo ∧ Function.Injective Poly.byId.rank ∧ ∃ l ms, Given ⟨fun _ => none, fun _ => none⟩ C113.exact l ms ∧ Known C25.demo ms ∧ ms.length = 2 := by
  refine ⟨C113.exact_standard, C25.demo_reached, C21.byId_injective,
    [.cell [.cell [.ints [2], .doubles [3]], .cell [.ints [2], .complexes [Complex.I], .bools [true]]], .cell [.cell [.ints [1]]]],
    [[⟨2, false, ((3 : ℝ) : ℂ)⟩, ⟨2, true, Complex.I⟩], [⟨1, false, 1⟩]],
    .cons ⟨trivial, .cells (.cons (.two (.int 2) (.double 3)) (.cons (.three (.int 2) (.complex _) (.bool true)) .nil))⟩
      (.cons ⟨trivial, .cells (.cons (.one (.int 1)) .nil)⟩ .nil), ?_, rfl⟩
  intro m hm e he
  have hl : C25.demo.syms.length = 3 := rfl
  simp only [List.mem_cons, List.not_mem_nil, or_false] at hm
  rcases hm with rfl | rfl
  · simp only [List.mem_cons, List.not_mem_nil, or_false] at he
    rcases he with rfl | rfl <;> simp [hl]
  · simp only [List.mem_singleton] at he
    subst he
    simp [hl]

end Moment.C136
