import Verif.Proof.DerivedMaps
import Mathlib.Tactic.IntervalCases

/-! # C90: maps between systems of symbols -/

namespace Moment.C90
open Moment.Symbols (Table)
open Moment.Derived
open Moment.DictionaryMap (Index at')
open Moment.Poly (Mono value)

/-! ## Theorems -/

/-- From a dense matrix whose first column is that of the identity, with no more rows than columns, and any processor that solves cores, a map is made. It
maps each symbol to a polynomial of the new symbols, whose value is the combination of the moments of the words given by the column of the word of the
symbol, if the new symbols have the values of the polynomials of the inverse map. New symbols that are marked Hermitian then have real values. -/
theorem C90_dense {t : Table} {I : Index} {osg : List (Nat × Bool)} {R : Dense} {solve : Core → Solved} (hI : unzip I R.cols = some osg)
    (hP : Positions t.syms.length osg) (hr : 1 ≤ R.rows) (hrc : R.rows ≤ R.cols) (h00 : R.val 0 0 = 1) (h0 : ∀ i, 0 < i → i < R.rows → R.val i 0 = 0)
    (hS : ∀ C, Core.ofDense (skipped osg) R = some C → Solves C (solve C)) :
    ∃ M u, ofDense t I solve R = some (some (M, u)) ∧ Maps t R.rows R.val osg M u := by
  obtain ⟨C, hC, hC'⟩ := ofDense_core (skip := skipped osg) hr (by omega) h00 h0
  obtain ⟨M, hM, hB⟩ := construct_spec hP (unzip_length hI).1 hrc hr h00 h0 hC' (hS C hC)
  exact ⟨M, _, by simp [ofDense, hI, hC, hM], built_maps hB⟩

/-- The same from a sparse matrix. -/
theorem C90_sparse {t : Table} {I : Index} {osg : List (Nat × Bool)} {A : Sparse} {solve : Core → Solved} (hI : unzip I A.cols = some osg)
    (hP : Positions t.syms.length osg) (hA : A.Fine) (hr : 1 ≤ A.rows) (hrc : A.rows ≤ A.cols) (hc0 : A.col 0 = [(0, 1)])
    (hS : ∀ C, Core.ofSparse (skipped osg) A = some C → Solves C (solve C)) :
    ∃ M u, ofSparse t I solve A = some (some (M, u)) ∧ Maps t A.rows A.coeff osg M u := by
  have h00 : A.coeff 0 0 = 1 := by simp [Sparse.coeff, hc0]
  have h0 : ∀ i, 0 < i → i < A.rows → A.coeff i 0 = 0 := by
    intro i hi _
    unfold Sparse.coeff
    rw [hc0, lookup_none (by simp; omega)]
    rfl
  obtain ⟨C, hC, hC'⟩ := ofSparse_core (skip := skipped osg) hA hr (by omega) h00 (by simp [hc0])
  obtain ⟨M, hM, hB⟩ := construct_spec hP (unzip_length hI).1 hrc hr h00 h0 hC' (hS C hC)
  exact ⟨M, _, by simp [ofSparse, hI, hC, hM], built_maps hB⟩

/-- The processor that decomposes into triangular factors solves all cores that it decomposes correctly, those without rows or columns included. -/
theorem C90_lu {C : Core} {F : LU} (hF : F.Factors C.core) : Solves C (luSolve C F) := luSolve_solves hF

/-- If the index knows fewer words than the matrix has columns, or the first column is not that of the identity, no map is made: an exception is thrown. -/
theorem C90_rejected {t : Table} {I : Index} {R : Dense} {solve : Core → Solved}
    (h : (∃ j, j < R.cols ∧ I.get j = none) ∨ R.cols < 1 ∨ R.rows < 1 ∨ R.val 0 0 ≠ 1 ∨ ∃ i, 0 < i ∧ i < R.rows ∧ R.val i 0 ≠ 0) :
    ofDense t I solve R = some none := by
  unfold ofDense
  cases hu : unzip I R.cols with
  | none => rfl
  | some osg =>
    have hC : Core.ofDense (skipped osg) R = none := by
      unfold Core.ofDense
      by_cases h1 : R.cols < 1 ∨ R.rows < 1
      · rw [if_pos h1]
      · rw [if_neg h1, if_pos]
        rcases h with ⟨j, hj, hn⟩ | h | h | h | ⟨i, hi, hi', hne⟩
        · have := (unzip_length hu).2 j hj
          rw [hn, List.getElem?_eq_getElem (by rw [(unzip_length hu).1]; exact hj)] at this
          cases this
        · exact absurd (.inl h) h1
        · exact absurd (.inr h) h1
        · exact .inl h
        · right
          by_contra hp
          exact hne (plainCol_iff.mp (by simpa using hp) i hi hi')
    simp [hC]

/-- If the solution of a processor has wrong dimensions, an exception is thrown. -/
theorem C90_checked {size : Nat} {osg : List (Nat × Bool)} {C : Core} {S : Solved} (hd : S.dense = true)
    (h : S.map.rows ≠ C.core.rows ∨ S.map.cols ≠ S.output ∨ S.inv.rows ≠ S.output ∨ S.inv.cols ≠ C.core.cols) : construct size osg C S = some none := by
  unfold construct
  rw [if_pos]
  simp only [Solved.fits, hd, Bool.not_true, Bool.false_or, Bool.and_eq_false_iff, beq_eq_false_iff_ne]
  rcases h with h | h | h | h
  · exact .inl (.inl (.inl h.symm))
  · exact .inl (.inl (.inr h))
  · exact .inl (.inr h)
  · exact .inr h

/-! ## Instances -/

/-- The average of the identity and the exchange of two letters. -/
noncomputable def swapAverage : Dense := ⟨3, 3, fun i j => if i = 0 ∧ j = 0 then 1 else if 1 ≤ i ∧ 1 ≤ j then 1 / 2 else 0⟩

def swapOsg : List (Nat × Bool) := [(1, false), (2, false), (3, false)]

/-- The decomposition of the core of the average. -/
noncomputable def swapLU : LU := ⟨fun i j => if i = 0 then 1 / 2 else if j = 0 then 1 else 0, 1, id, id⟩

/-- A table with two further Hermitian symbols. -/
def swapTable : Table := Table.createMany Table.new true false 2

theorem swap_core {C : Core} (h : Core.ofDense (skipped swapOsg) swapAverage = some C) : swapLU.Factors C.core := by
  obtain ⟨C', hC', hc⟩ := ofDense_core (skip := skipped swapOsg) (R := swapAverage) (by simp [swapAverage]) (by simp [swapAverage]) (by simp [swapAverage])
    (by intro i hi h; simp only [swapAverage]; rw [if_neg (by omega), if_neg (by omega)])
  rw [hC'] at h
  cases h
  unfold Core.ofDense at hC'
  rw [if_neg (by simp [swapAverage]), if_neg (by
    rw [plainCol_iff.mpr (by intro i hi h; simp only [swapAverage]; rw [if_neg (by omega), if_neg (by omega)])]
    simp [swapAverage])] at hC'
  have hk : kept (skipped swapOsg) 3 = [1, 2] := by decide
  have hp : ∀ j, 1 ≤ j → plainCol swapAverage j = false := by
    intro j hj
    rw [Bool.eq_false_iff]
    intro h
    have := plainCol_iff.mp h 1 (by omega) (by simp [swapAverage])
    simp [swapAverage, hj] at this
  have hcols : ((kept (skipped swapOsg) swapAverage.cols).filter fun j => !plainCol swapAverage j) = [1, 2] := by
    show ((kept (skipped swapOsg) 3).filter fun j => !plainCol swapAverage j) = [1, 2]
    rw [hk]
    simp [hp]
  have hrows : ((List.range' 1 (swapAverage.rows - 1)).filter fun i => [1, 2].any fun j => decide (swapAverage.val i j ≠ 0)) = [1, 2] := by
    show ((List.range' 1 2).filter _) = [1, 2]
    simp [List.range', swapAverage]
  simp only [hcols, hrows, Option.some.injEq] at hC'
  subst hC'
  have hsum : (Finset.range (min 2 2)) = {0, 1} := by decide
  refine ⟨by simp [swapLU], ?_, ?_⟩
  · intro i j hi hj
    simp only [List.length_cons, List.length_nil] at hi hj
    simp only [List.length_cons, List.length_nil]
    rw [hsum, Finset.sum_pair (by decide)]
    interval_cases i <;> interval_cases j <;> simp [swapAverage, swapLU, LU.lower, LU.upper]
  · intro t j h1 h2
    simp only [List.length_cons, List.length_nil] at h2
    have h1' : 1 ≤ t := h1
    have : t = 1 := by omega
    subst this
    simp only [LU.upper, swapLU]
    split
    · rw [if_neg (by omega), if_neg (by omega)]
    · rfl

theorem swap_positions : Positions swapTable.syms.length swapOsg := by
  refine ⟨rfl, by decide, by decide, ?_, by decide⟩
  intro i j id hi hj
  match i, j with
  | 0, 0 | 1, 1 | 2, 2 => rfl
  | 0, 1 | 0, 2 | 1, 0 | 1, 2 | 2, 0 | 2, 1 => simp [swapOsg] at hi hj; omega
  | i + 3, _ => simp [swapOsg] at hi
  | 0, j + 3 | 1, j + 3 | 2, j + 3 => simp [swapOsg] at hj

/-- The hypotheses hold for the exchange of two letters: there is a map, and it sends both letters to polynomials whose value is half the sum of their
moments. -/
example : ∃ M u, ofDense swapTable ⟨[1, 2, 3], 1⟩ (fun C => luSolve C swapLU) swapAverage = some (some (M, u)) ∧
    ∀ v : Nat → ℂ, v 0 = 0 → v 1 = 1 → ∃ p, M.map[2]? = some p ∧ value (pulled v M.inverse) p = (v 2 + v 3) / 2 := by
  obtain ⟨M, u, h1, h2⟩ := C90_dense (t := swapTable) (I := ⟨[1, 2, 3], 1⟩) (R := swapAverage) (osg := swapOsg) (solve := fun C => luSolve C swapLU)
    (by rfl) swap_positions (by simp [swapAverage]) (by simp [swapAverage]) (by simp [swapAverage])
    (by intro i hi h; simp only [swapAverage]; rw [if_neg (by omega), if_neg (by omega)]) (fun C hC => C90_lu (swap_core hC))
  refine ⟨M, u, h1, fun v v0 v1 => ?_⟩
  obtain ⟨p, hp, e⟩ := h2.value v v0 v1 1 2 rfl
  refine ⟨p, hp, ?_⟩
  rw [e, combined]
  simp only [show swapAverage.rows = 3 from rfl, Finset.sum_range_succ, Finset.sum_range_zero]
  simp [swapAverage, swapOsg, at', v1]
  ring

/-- A matrix with three rows and two columns. -/
noncomputable def tall : Dense := ⟨3, 2, fun i j => if i = 0 ∧ j = 0 then 1 else if i = 2 ∧ j = 1 then 1 else 0⟩

theorem tall_core : Core.ofDense (skipped [(1, false), (2, false)]) tall =
    some ⟨2, [1], [2], [], [0], ⟨1, 1, fun k l => tall.val ([2].getD l 0) ([1].getD k 0)⟩⟩ := by
  have h0 : plainCol tall 0 = true := plainCol_iff.mpr (by intro i hi _; simp only [tall]; rw [if_neg (by omega), if_neg (by omega)])
  have h1 : plainCol tall 1 = false := by
    rw [Bool.eq_false_iff]
    intro h
    have := plainCol_iff.mp h 2 (by omega) (by simp [tall])
    simp [tall] at this
  have hk : kept (skipped [(1, false), (2, false)]) tall.cols = [1] := by decide
  have hrows : ((List.range' 1 (tall.rows - 1)).filter fun i => [1].any fun j => decide (tall.val i j ≠ 0)) = [2] := by
    show ((List.range' 1 2).filter _) = [2]
    simp [List.range', tall]
  unfold Core.ofDense
  rw [if_neg (by simp [tall]), if_neg (by rw [h0]; simp [tall])]
  simp only [hk, List.filter_cons, List.filter_nil, h1, Bool.not_false, if_true, Bool.false_eq_true, if_false, hrows]
  simp [tall]

/-- A matrix with more rows than columns makes the constructor read the list of symbols out of range. -/
theorem C90_refuted_rows : ∃ (R : Dense) (F : LU), R.val 0 0 = 1 ∧ (∀ i, 0 < i → i < R.rows → R.val i 0 = 0) ∧
    (∀ C, Core.ofDense (skipped [(1, false), (2, false)]) R = some C → F.Factors C.core) ∧
    ofDense swapTable ⟨[1, 2, 3], 1⟩ (fun C => luSolve C F) R = none := by
  refine ⟨tall, ⟨fun _ _ => 1, 1, id, id⟩, by simp [tall], by intro i hi h; simp only [tall]; rw [if_neg (by omega), if_neg (by omega)], ?_, ?_⟩
  · intro C hC
    rw [tall_core] at hC
    cases hC
    refine ⟨by simp, ?_, ?_⟩
    · intro i j hi hj
      simp only at hi hj
      have : i = 0 := by omega
      have : j = 0 := by omega
      subst i j
      simp [tall, LU.lower, LU.upper]
    · intro t j h1 h2
      simp only at h1 h2
      omega
  · have hu : unzip ⟨[1, 2, 3], 1⟩ tall.cols = some [(1, false), (2, false)] := by rfl
    unfold ofDense
    rw [hu]
    simp only [tall_core]
    have hs : swapTable.syms.length = 4 := by rfl
    rw [hs]
    simp only [luSolve, one_ne_zero, or_self, if_false]
    simp [construct, Solved.fits, assign, writeConstants, writeCore, forward, Dense.get?, backward, LU.upper]

/-- Matrices are only accepted if the first column, that of the identity, is the identity. -/
theorem C90_identity_column (skip : Nat → Bool) (C : Core) :
    (∀ R, Core.ofDense skip R = some C → R.val 0 0 = 1 ∧ ∀ i, 0 < i → i < R.rows → R.val i 0 = 0) ∧
    (∀ A, Core.ofSparse skip A = some C → A.col 0 = [(0, 1)]) := by
  refine ⟨fun R h => ?_, fun A h => ?_⟩
  · unfold Core.ofDense at h
    split at h
    · simp at h
    · split at h
      · simp at h
      · rename_i h2
        rw [not_or] at h2
        exact ⟨not_not.mp h2.1, fun i hi hr => plainCol_iff.mp (by simpa using h2.2) i hi hr⟩
  · unfold Core.ofSparse at h
    split at h
    · simp at h
    · split at h
      · simp at h
      · rename_i h2
        rw [not_or] at h2
        obtain ⟨x, hx⟩ := List.length_eq_one_iff.mp (not_not.mp h2.1)
        have h3 := not_not.mp h2.2
        unfold Sparse.coeff at h3
        rw [hx] at h3 ⊢
        obtain ⟨r, c⟩ := x
        by_cases hr : r = 0
        · subst hr; simp at h3; rw [h3]
        · have : (0 == r) = false := by simpa using fun h => hr h.symm
          simp [List.lookup, this] at h3

example : ∃ C, Core.ofSparse (fun _ => false) ⟨1, 1, fun _ => [(0, 1)]⟩ = some C := by
  unfold Core.ofSparse
  rw [if_neg (by simp), if_neg (by simp [Sparse.coeff])]
  exact ⟨_, rfl⟩

end Moment.C90
