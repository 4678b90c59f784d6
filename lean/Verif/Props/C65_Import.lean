import Verif.Proof.Import

/-! # C65, C66: importing matrices

A table of symbols stands for the set of all assignments `v` of complex numbers to symbols with `v 0 = 0` that respect the marks Hermitian
and anti-Hermitian. -/

namespace Moment.C65
open Moment.Symbols Moment.Import
open Moment.Poly (Mono)

/-- Tables that occur. -/
def Reachable (t : Table) : Prop := ∃ c l, run c Table.new l = some t

/-- What the bit sets of an import say. -/
theorem sem_import {realOnly isComplex isHermitian : Bool} {n size : Nat} {M : Nat → Nat → Mono} {v : Nat → ℂ} (hv : v 0 = 0)
    (hg : RealFactors n M) (hs : ∀ i < n, ∀ j < n, (M i j).id < size) (hnr : (realOnly && isComplex) = false) {b : Bits}
    (hb : (if isHermitian then (if isComplex then hermLoop M 0 n ⟨fun _ => true, fun _ => !realOnly⟩
      else symLoop M 0 n ⟨fun _ => true, fun _ => !realOnly⟩) else some ⟨fun _ => true, fun _ => !realOnly⟩) = some b) :
    Sem size (if isComplex || realOnly then b else (elems n M).foldl (fun b x => b.noIm x.id) b) v ↔
      Claimed realOnly isComplex isHermitian n M size v := by
  have hgood : ∀ i < n, ∀ j < n, Good (M i j) := fun i hi j hj => hg i hi j hj
  have h0 : Sem size ⟨fun _ => true, fun _ => !realOnly⟩ v ↔ (realOnly = true → ∀ id < size, (v id).im = 0) := by
    unfold Sem
    cases realOnly <;> simp
  -- the structural part
  have h1 : Sem size b v ↔ (realOnly = true → ∀ id < size, (v id).im = 0) ∧
      (isHermitian = true → if isComplex then HermitianAt n M v else SymmetricAt n M v) := by
    cases isHermitian
    · simp only [Bool.false_eq_true, if_false, Option.some.injEq] at hb
      subst hb
      simp [h0]
    · cases isComplex
      · simp only [if_true, Bool.false_eq_true, if_false] at hb
        rw [symLoop_sem hv hgood hs n 0 (by omega) hb, h0]
        simp only [forall_const, Bool.false_eq_true, if_false]
        refine and_congr_right fun _ => ?_
        constructor
        · intro h i hi j hj
          rcases Nat.lt_trichotomy i j with hij | rfl | hij
          · exact h i j (by omega) hij hj
          · rfl
          · exact (h j i (by omega) hij hi).symm
        · exact fun h a c _ hac hc => h a (by omega) c hc
      · simp only [if_true] at hb
        rw [hermLoop_sem hv hgood hs n 0 (by omega) hb, h0]
        simp only [forall_const, if_true]
        refine and_congr_right fun _ => ?_
        have hd : ∀ a < n, (v (M a a).id).im = 0 ↔ value v (M a a) = starRingEnd ℂ (value v (M a a)) := by
          intro a ha
          rw [← real_iff hv (hgood a ha a ha), ← Complex.conj_eq_iff_im]
          exact eq_comm
        constructor
        · rintro ⟨h, h'⟩ i hi j hj
          rcases Nat.lt_trichotomy i j with hij | rfl | hij
          · exact h i j (by omega) hij hj
          · exact (hd i hi).mp (h' i (by omega) hi)
          · rw [h j i (by omega) hij hi]; simp
        · exact fun h => ⟨fun a c _ hac hc => h a (by omega) c hc, fun a _ ha => (hd a ha).mpr (h a ha a ha)⟩
  unfold Claimed
  rw [← and_assoc, ← h1]
  have hR : (∀ x ∈ elems n M, (v x.id).im = 0) ↔ RealAt n M v := by
    constructor
    · intro h i hi j hj
      exact (real_iff hv (hgood i hi j hj)).mpr (h _ (mem_elems.mpr ⟨i, hi, j, hj, rfl⟩))
    · intro h x hx
      obtain ⟨i, hi, j, hj, rfl⟩ := mem_elems.mp hx
      exact (real_iff hv (hgood i hi j hj)).mp (h i hi j hj)
  have hlt : ∀ x ∈ elems n M, x.id < size := by
    intro x hx
    obtain ⟨i, hi, j, hj, rfl⟩ := mem_elems.mp hx
    exact hs i hi j hj
  cases hc : isComplex
  · cases hr : realOnly
    · simp only [Bool.or_self, Bool.false_eq_true, if_false, forall_const]
      rw [noIm_all _ hlt, hR]
    · simp only [Bool.or_true, if_true, forall_const]
      refine ⟨fun h => ⟨h, hR.mp fun x hx => ?_⟩, fun h => h.1⟩
      exact (h1.mp h).1 hr x.id (hlt x hx)
  · simp

/-- The parts of an import that reaches the symbol table. -/
theorem import_cases {realOnly isComplex isHermitian : Bool} {t : Table} {n : Nat} {M : Nat → Nat → Mono} {o : Outcome}
    (h : importMatrix realOnly isComplex isHermitian t n M = some o) :
    (o = .notReal) ∨ (o = .mismatch) ∨ ∃ b f, (realOnly && isComplex) = false ∧
      (if isHermitian then (if isComplex then hermLoop M 0 n ⟨fun _ => true, fun _ => !realOnly⟩
        else symLoop M 0 n ⟨fun _ => true, fun _ => !realOnly⟩) else some ⟨fun _ => true, fun _ => !realOnly⟩) = some b ∧
      t.mergeBits (maxId t n M + 1)
        (if isComplex || realOnly then b else (elems n M).foldl (fun b x => b.noIm x.id) b).re
        (if isComplex || realOnly then b else (elems n M).foldl (fun b x => b.noIm x.id) b).im = some f ∧
      ((∃ t' ch, f = .done t' ch ∧ o = .done t') ∨ ∃ t' id, f = .thrown t' id ∧ o = .zero t' id) := by
  unfold importMatrix at h
  split at h
  · simp only [Option.some.injEq] at h
    exact Or.inl h.symm
  · rename_i hnr
    dsimp only at h
    split at h
    · simp only [Option.some.injEq] at h
      exact Or.inr (Or.inl h.symm)
    · rename_i b hb
      simp only [Option.map_eq_some_iff] at h
      obtain ⟨f, hf, ho⟩ := h
      refine Or.inr (Or.inr ⟨b, f, by simpa using hnr, hb, hf, ?_⟩)
      cases f with
      | done t' ch => exact Or.inl ⟨t', ch, rfl, ho.symm⟩
      | thrown t' id => exact Or.inr ⟨t', id, rfl, ho.symm⟩

/-- An accepted import narrows the set of assignments by exactly what it claims: an assignment respects the new table if and only if it
respected the old one, makes the matrix Hermitian (symmetric, if imported as real) in case it was declared so, and real in case it
was declared real. Partial: the factors in the matrix are real, see `C65_refuted_diagonal` and `C65_refuted_complex_factor`. -/
theorem C65_exact_partial {realOnly isComplex isHermitian : Bool} {t t' : Table} (ht : Reachable t) {n : Nat} {M : Nat → Nat → Mono}
    (hg : RealFactors n M) (h : importMatrix realOnly isComplex isHermitian t n M = some (.done t')) (v : Nat → ℂ) (hv : v 0 = 0) :
    Respects t' v ↔ Respects t v ∧ Claimed realOnly isComplex isHermitian n M t'.syms.length v := by
  obtain ⟨c, l, hrun⟩ := ht
  have hT := tinv_run l tinv_new hrun
  obtain ⟨hlen, hids⟩ := maxId_spec t n M
  rcases import_cases h with h | h | ⟨b, f, hnr, hb, hf, h⟩
  · simp at h
  · simp at h
  · have hsem := fun v hv => sem_import (v := v) hv hg hids hnr hb
    generalize (if isComplex || realOnly then b else (elems n M).foldl (fun b x => b.noIm x.id) b) = B at hf hsem
    rcases h with ⟨t'', ch, rfl, ho⟩ | ⟨t'', id, rfl, ho⟩
    · simp only [Outcome.done.injEq] at ho
      subst ho
      rcases (mergeBits_cases hf).2 with ⟨id, -, e⟩ | ⟨hnone, e⟩
      · simp at e
      · simp only [Flagged.done.injEq] at e
        have hgl : (t.grown (maxId t n M + 1)).syms.length = maxId t n M + 1 := grown_length (by omega)
        have hlen' : t'.syms.length = maxId t n M + 1 := by
          rw [e.1]
          show (renumLoop _ _).1.length = _
          rw [renumLoop_length]
          show (flagLoop _ _ _ _).1.length = _
          rw [flagLoop_length, hgl]
        rw [hlen', ← hsem v hv]
        have hT' := tinv_grown hT (maxId t n M + 1)
        have e1 : Respects t' v ↔ RespectsL (flagLoop B.re B.im (t.grown (maxId t n M + 1)).syms false).1 v := by
          rw [e.1]
          exact respects_renum _ _
        rw [e1, flagLoop_sem hv _ _ _ _ hnone, respects_grown]
        refine and_congr_right fun _ => ?_
        rw [forall_syms hT' (P := fun id => (B.im id = false → (v id).im = 0) ∧ (B.re id = false → (v id).re = 0)), hgl]
        rfl
    · simp at ho

/-- An import is only rejected with `zero_symbol` if what it claims, together with what was known, forces the named symbol to be zero. -/
theorem C65_zero_partial {realOnly isComplex isHermitian : Bool} {t t' : Table} (ht : Reachable t) {n : Nat} {M : Nat → Nat → Mono}
    (hg : RealFactors n M) {id : Nat} (h : importMatrix realOnly isComplex isHermitian t n M = some (.zero t' id)) :
    id ≠ 0 ∧ ∀ v : Nat → ℂ, v 0 = 0 → Respects t v → Claimed realOnly isComplex isHermitian n M t'.syms.length v → v id = 0 := by
  obtain ⟨c, l, hrun⟩ := ht
  have hT := tinv_run l tinv_new hrun
  obtain ⟨hlen, hids⟩ := maxId_spec t n M
  rcases import_cases h with h | h | ⟨b, f, hnr, hb, hf, h⟩
  · simp at h
  · simp at h
  · have hsem := fun v hv => sem_import (v := v) hv hg hids hnr hb
    generalize (if isComplex || realOnly then b else (elems n M).foldl (fun b x => b.noIm x.id) b) = B at hf hsem
    rcases h with ⟨t'', ch, rfl, ho⟩ | ⟨t'', id', rfl, ho⟩
    · simp at ho
    · simp only [Outcome.zero.injEq] at ho
      obtain ⟨rfl, rfl⟩ := ho
      rcases (mergeBits_cases hf).2 with ⟨id2, hid, e⟩ | ⟨-, e⟩
      · simp only [Flagged.thrown.injEq] at e
        obtain ⟨e1, rfl⟩ := e
        have hgl : (t.grown (maxId t n M + 1)).syms.length = maxId t n M + 1 := grown_length (by omega)
        have hlen' : t'.syms.length = maxId t n M + 1 := by
          rw [e1]
          show (flagLoop _ _ _ _).1.length = _
          rw [flagLoop_length, hgl]
        obtain ⟨h0, s, hs, hsid, hz⟩ := flagLoop_zero _ _ _ _ _ hid
        refine ⟨h0, fun v hv hr hc => ?_⟩
        rw [hlen', ← hsem v hv] at hc
        have hslt : s.id < maxId t n M + 1 := by
          have := (forall_syms (tinv_grown hT (maxId t n M + 1)) (P := fun id => id < (t.grown (maxId t n M + 1)).syms.length)).mpr
            (fun id h => h) s hs
          rwa [hgl] at this
        exact hz v (respects_grown.mpr hr) (hc _ hslt).1 (hc _ hslt).2
      · simp at e

theorem rowLoop_none {f : Mono → Mono → Bits → Option Bits} {M : Nat → Nat → Mono} {i : Nat}
    (hf : ∀ u l b, f u l b = none → mismatch u l) : ∀ (m j : Nat) (b : Bits), rowLoop f M i j m b = none →
      ∃ k, j ≤ k ∧ k < j + m ∧ mismatch (M i k) (M k i)
  | 0, j, b, h => by simp [rowLoop] at h
  | m + 1, j, b, h => by
    simp only [rowLoop, Option.bind_eq_none_iff] at h
    cases hb : f (M i j) (M j i) b with
    | none => exact ⟨j, le_rfl, by omega, hf _ _ _ hb⟩
    | some b' =>
      obtain ⟨k, h1, h2, h3⟩ := rowLoop_none hf m (j + 1) b' (h b' hb)
      exact ⟨k, by omega, by omega, h3⟩

theorem symPair_none (u l : Mono) (b : Bits) (h : symPair u l b = none) : mismatch u l := by
  unfold symPair at h
  split at h
  · assumption
  · split at h <;> split at h <;> simp at h

theorem hermPair_none (u l : Mono) (b : Bits) (h : hermPair u l b = none) : mismatch u l := by
  rw [hermPair_eq] at h
  exact symPair_none u ⟨l.id, !l.conj, l.factor⟩ b h

theorem symLoop_none {M : Nat → Nat → Mono} : ∀ (m i : Nat) (b : Bits), symLoop M i m b = none →
    ∃ a k, i ≤ a ∧ a < k ∧ k < i + m ∧ mismatch (M a k) (M k a)
  | 0, i, b, h => by simp [symLoop] at h
  | m + 1, i, b, h => by
    simp only [symLoop, Option.bind_eq_none_iff] at h
    cases hb : rowLoop symPair M i (i + 1) m b with
    | none =>
      obtain ⟨k, h1, h2, h3⟩ := rowLoop_none symPair_none m (i + 1) b hb
      exact ⟨i, k, le_rfl, by omega, by omega, h3⟩
    | some b' =>
      obtain ⟨a, k, h1, h2, h3, h4⟩ := symLoop_none m (i + 1) b' (h b' hb)
      exact ⟨a, k, by omega, h2, by omega, h4⟩

theorem hermLoop_none {M : Nat → Nat → Mono} : ∀ (m i : Nat) (b : Bits), hermLoop M i m b = none →
    ∃ a k, i ≤ a ∧ a < k ∧ k < i + m ∧ mismatch (M a k) (M k a)
  | 0, i, b, h => by simp [hermLoop] at h
  | m + 1, i, b, h => by
    simp only [hermLoop, Option.bind_eq_none_iff] at h
    cases hb : rowLoop hermPair M i (i + 1) m (b.noIm (M i i).id) with
    | none =>
      obtain ⟨k, h1, h2, h3⟩ := rowLoop_none hermPair_none m (i + 1) _ hb
      exact ⟨i, k, le_rfl, by omega, by omega, h3⟩
    | some b' =>
      obtain ⟨a, k, h1, h2, h3, h4⟩ := hermLoop_none m (i + 1) b' (h b' hb)
      exact ⟨a, k, by omega, h2, by omega, h4⟩

/-- Every import has an outcome (no out-of-range access to the bit sets); a mismatch is only reported if there is one, and the rejection
of complex matrices only happens in real contexts. -/
theorem C65_outcome (realOnly isComplex isHermitian : Bool) (t : Table) (n : Nat) (M : Nat → Nat → Mono) :
    ∃ o, importMatrix realOnly isComplex isHermitian t n M = some o ∧
      (o = .notReal ↔ realOnly = true ∧ isComplex = true) ∧
      (o = .mismatch → isHermitian = true ∧ ∃ i j, i < j ∧ j < n ∧
        ((M i j).id ≠ (M j i).id ∨ Complex.normSq (M i j).factor ≠ Complex.normSq (M j i).factor)) := by
  unfold importMatrix
  split
  · rename_i h
    exact ⟨_, rfl, by simpa using h, by simp⟩
  · rename_i hnr
    dsimp only
    split
    · rename_i hb
      refine ⟨_, rfl, by simpa using hnr, fun _ => ?_⟩
      split at hb
      · rename_i hh
        refine ⟨hh, ?_⟩
        split at hb
        · obtain ⟨a, k, -, h2, h3, h4⟩ := hermLoop_none n 0 _ hb
          exact ⟨a, k, h2, by omega, h4⟩
        · obtain ⟨a, k, -, h2, h3, h4⟩ := symLoop_none n 0 _ hb
          exact ⟨a, k, h2, by omega, h4⟩
      · simp at hb
    · rename_i b hb
      have hlen := (maxId_spec t n M).1
      have hgl : (t.grown (maxId t n M + 1)).syms.length = maxId t n M + 1 := grown_length (by omega)
      have hsome : ∀ re im, ∃ f, t.mergeBits (maxId t n M + 1) re im = some f := by
        intro re im
        cases hm : t.mergeBits (maxId t n M + 1) re im with
        | some f => exact ⟨f, rfl⟩
        | none =>
          exfalso
          unfold Table.mergeBits at hm
          dsimp only at hm
          change (if maxId t n M + 1 < (t.grown (maxId t n M + 1)).syms.length then none else _) = none at hm
          rw [if_neg (by omega)] at hm
          split at hm <;> simp at hm
      obtain ⟨f, hf⟩ := hsome (if isComplex || realOnly then b else (elems n M).foldl (fun b x => b.noIm x.id) b).re
        (if isComplex || realOnly then b else (elems n M).foldl (fun b x => b.noIm x.id) b).im
      rw [hf]
      cases f with
      | done t' ch => exact ⟨_, rfl, by simpa using hnr, by simp⟩
      | thrown t' id => exact ⟨_, rfl, by simpa using hnr, by simp⟩

/-! ## Examples and counterexamples -/

/-- The matrix `[[1, a], [-a, 1]]` with `a` the symbol 3. -/
def antiMatrix (i j : Nat) : Mono := match i, j with
  | 0, 1 => ⟨3, false, 1⟩
  | 1, 0 => ⟨3, false, -1⟩
  | _, _ => ⟨1, false, 1⟩

/-- The diagonal matrix of the symbols 2 and 3. -/
def diagMatrix (i j : Nat) : Mono := match i, j with
  | 0, 0 => ⟨2, false, 1⟩
  | 1, 1 => ⟨3, false, 1⟩
  | _, _ => ⟨0, false, 1⟩

/-- The table after the import of `antiMatrix`: symbol 2 is complex, symbol 3 imaginary. -/
def tableAnti : Table :=
  { syms := [Sym.zero, Sym.one, ⟨2, none, none, false, false, some 1, some 0⟩, ⟨3, none, none, false, true, none, some 1⟩]
    hashes := Table.new.hashes
    basis := ⟨[1, 2], [2, 3], [none, some 0], [some 1, none]⟩ }

/-- The table the rejected import of `diagMatrix` leaves: both symbols marked Hermitian, the basis unchanged. -/
def tableBroken : Table :=
  { tableAnti with
    syms := [Sym.zero, Sym.one, ⟨2, none, none, true, false, some 1, some 0⟩, ⟨3, none, none, true, true, none, some 1⟩] }

/-- The table after a later, unrelated import. -/
def tableLater : Table :=
  { syms := [Sym.zero, Sym.one, ⟨2, none, none, true, false, some 1, none⟩, ⟨3, none, none, true, true, none, none⟩]
    hashes := Table.new.hashes
    basis := ⟨[1, 2], [], [none, none], []⟩ }

theorem import_anti : importMatrix false true true Table.new 2 antiMatrix = some (.done tableAnti) := by
  have hm : ¬ mismatch (antiMatrix 0 1) (antiMatrix 1 0) := by simp [mismatch, antiMatrix]
  have hf : ¬ ((antiMatrix 0 1).factor = (antiMatrix 1 0).factor) := by
    simp only [antiMatrix]
    intro h
    have := congrArg Complex.re h
    norm_num at this
  have hc : ¬ ((antiMatrix 0 1).conj ≠ (antiMatrix 1 0).conj) := by simp [antiMatrix]
  have hp : ∀ b, hermPair (antiMatrix 0 1) (antiMatrix 1 0) b = some (b.noRe 3) := by
    intro b
    unfold hermPair
    rw [if_neg hm, if_pos hc, if_neg hf]
    rfl
  have hl : ∀ b, hermLoop antiMatrix 0 2 b = some (((b.noIm 1).noRe 3).noIm 1) := by
    intro b
    simp only [hermLoop, rowLoop, Option.bind_some, Nat.zero_add]
    rw [show (antiMatrix 0 0).id = 1 from rfl, show (antiMatrix 1 1).id = 1 from rfl, hp]
    rfl
  unfold importMatrix
  simp only [Bool.false_and, Bool.false_eq_true, if_false, if_true, hl, Bool.true_or]
  rfl

example : RealFactors 2 antiMatrix := by
  intro i hi j hj _
  match i, hi, j, hj with
  | 0, _, 0, _ => simp [antiMatrix]
  | 0, _, 1, _ => simp [antiMatrix]
  | 1, _, 0, _ => simp [antiMatrix]
  | 1, _, 1, _ => simp [antiMatrix]

theorem import_diag : importMatrix false true true tableAnti 2 diagMatrix = some (.zero tableBroken 3) := by
  have hm : ¬ mismatch (diagMatrix 0 1) (diagMatrix 1 0) := by simp [mismatch, diagMatrix]
  have hc : ¬ ((diagMatrix 0 1).conj ≠ (diagMatrix 1 0).conj) := by simp [diagMatrix]
  have hp : ∀ b, hermPair (diagMatrix 0 1) (diagMatrix 1 0) b = some (b.noIm 0) := by
    intro b
    unfold hermPair
    rw [if_neg hm, if_pos hc, if_pos (show (diagMatrix 0 1).factor = (diagMatrix 1 0).factor from rfl)]
    rfl
  have hl : ∀ b, hermLoop diagMatrix 0 2 b = some (((b.noIm 2).noIm 0).noIm 3) := by
    intro b
    simp only [hermLoop, rowLoop, Option.bind_some, Nat.zero_add]
    rw [show (diagMatrix 0 0).id = 2 from rfl, show (diagMatrix 1 1).id = 3 from rfl, hp]
    rfl
  unfold importMatrix
  simp only [Bool.false_and, Bool.false_eq_true, if_false, if_true, hl, Bool.true_or]
  rfl

/-- Importing the 1 × 1 identity matrix afterwards. -/
theorem import_one (t : Table) (h : t = tableBroken ∨ t = tableAnti) :
    importMatrix false true true t 1 (fun _ _ => ⟨1, false, 1⟩) = some (.done (if t = tableBroken then tableLater else tableAnti)) := by
  have hl : ∀ b, hermLoop (fun _ _ => ⟨1, false, 1⟩) 0 1 b = some (b.noIm 1) := fun b => rfl
  unfold importMatrix
  simp only [Bool.false_and, Bool.false_eq_true, if_false, if_true, hl, Bool.true_or]
  rcases h with rfl | rfl
  · rw [if_pos rfl]; rfl
  · rw [if_neg (by decide)]; rfl

theorem reachable_anti : Reachable tableAnti :=
  ⟨⟨id, fun _ => (false, false), false, id, fun _ => false⟩, [.bits 4 (fun k => k != 3) (fun k => k != 1)], rfl⟩

/-- The single element `i·a`. -/
noncomputable def imagDiag (_ _ : Nat) : Mono := ⟨2, false, Complex.I⟩

/-- Full statement fails for complex factors (1): the 1 × 1 matrix `[i·a]` declared Hermitian is accepted and `a` is marked real, whereas
it would have to be imaginary: `a = 1` respects the table but the matrix is not Hermitian. -/
theorem C65_refuted_diagonal : ∃ t', importMatrix false true true Table.new 1 imagDiag = some (.done t') ∧
    ∃ v : Nat → ℂ, v 0 = 0 ∧ v 1 = 1 ∧ Respects t' v ∧ ¬ HermitianAt 1 imagDiag v := by
  have hl : ∀ b, hermLoop imagDiag 0 1 b = some (b.noIm 2) := fun b => rfl
  refine ⟨⟨[Sym.zero, Sym.one, ⟨2, none, none, true, false, some 1, none⟩], Table.new.hashes, ⟨[1, 2], [], [none, none], []⟩⟩, ?_,
    fun k => if k = 0 then 0 else 1, by simp, by simp, ?_, ?_⟩
  · unfold importMatrix
    simp only [Bool.false_and, Bool.false_eq_true, if_false, if_true, hl, Bool.true_or]
    rfl
  · intro s hs
    simp only [List.mem_cons, List.not_mem_nil, or_false] at hs
    rcases hs with rfl | rfl | rfl <;> simp [Sym.zero, Sym.one, Sym.ofSeq]
  · intro h
    have := congrArg Complex.im (h 0 (by omega) 0 (by omega))
    simp [value, imagDiag] at this
    norm_num at this

/-- The matrix `[[1, i·a], [-i·a*, 1]]`, `a` the symbol 2. -/
noncomputable def imagPair (i j : Nat) : Mono := match i, j with
  | 0, 1 => ⟨2, false, Complex.I⟩
  | 1, 0 => ⟨2, true, -Complex.I⟩
  | _, _ => ⟨1, false, 1⟩

/-- Full statement fails for complex factors (2): a matrix that is Hermitian for every value of `a` is rejected because `a` would have to
be zero. -/
theorem C65_refuted_complex_factor : (∀ v : Nat → ℂ, v 1 = 1 → HermitianAt 2 imagPair v) ∧
    ∃ t', importMatrix false true true Table.new 2 imagPair = some (.zero t' 2) := by
  constructor
  · intro v hv i hi j hj
    match i, hi, j, hj with
    | 0, _, 0, _ => simp [value, imagPair, hv]
    | 0, _, 1, _ => simp [value, imagPair]
    | 1, _, 0, _ => simp [value, imagPair]
    | 1, _, 1, _ => simp [value, imagPair, hv]
  · have hm : ¬ mismatch (imagPair 0 1) (imagPair 1 0) := by simp [mismatch, imagPair]
    have hf : ¬ ((imagPair 0 1).factor = (imagPair 1 0).factor) := by
      simp only [imagPair]
      intro h
      have := congrArg Complex.im h
      norm_num at this
    have hc : ¬ ¬ ((imagPair 0 1).conj ≠ (imagPair 1 0).conj) := by simp [imagPair]
    have hp : ∀ b, hermPair (imagPair 0 1) (imagPair 1 0) b = some ((b.noRe 2).noIm 2) := by
      intro b
      unfold hermPair
      rw [if_neg hm, if_neg hc, if_neg hf]
      rfl
    have hl : ∀ b, hermLoop imagPair 0 2 b = some ((((b.noIm 1).noRe 2).noIm 2).noIm 1) := by
      intro b
      simp only [hermLoop, rowLoop, Option.bind_some, Nat.zero_add]
      rw [show (imagPair 0 0).id = 1 from rfl, show (imagPair 1 1).id = 1 from rfl, hp]
      rfl
    refine ⟨⟨[Sym.zero, Sym.one, ⟨2, none, none, false, false, some 1, some 0⟩], Table.new.hashes, ⟨[1, 2], [2], [none, some 0], [some 1]⟩⟩, ?_⟩
    unfold importMatrix
    simp only [Bool.false_and, Bool.false_eq_true, if_false, if_true, hl, Bool.true_or]
    rfl

/-! ## C66: a rejected import -/

/-- Full statement: a rejected import leaves the set of assignments unchanged. It does not change ids, words, offsets and basis lists.
Missing: the marks. -/
theorem C66_offsets_partial {realOnly isComplex isHermitian : Bool} {t t' : Table} {n : Nat} {M : Nat → Nat → Mono} {id : Nat}
    (h : importMatrix realOnly isComplex isHermitian t n M = some (.zero t' id)) :
    ∀ (i : Nat) (s : Sym), t.syms[i]? = some s → ∃ s' : Sym, t'.syms[i]? = some s' ∧ s'.id = s.id ∧ s'.seq = s.seq ∧ s'.conj = s.conj ∧
      s'.re = s.re ∧ s'.im = s.im := by
  rcases import_cases h with h | h | ⟨b, f, hnr, hb, hf, h⟩
  · simp at h
  · simp at h
  · generalize (if isComplex || realOnly then b else (elems n M).foldl (fun b x => b.noIm x.id) b) = B at hf
    rcases h with ⟨t'', ch, rfl, ho⟩ | ⟨t'', id', rfl, ho⟩
    · simp at ho
    · simp only [Outcome.zero.injEq] at ho
      obtain ⟨rfl, rfl⟩ := ho
      rcases (mergeBits_cases hf).2 with ⟨id2, hid, e⟩ | ⟨-, e⟩
      · simp only [Flagged.thrown.injEq] at e
        obtain ⟨e1, rfl⟩ := e
        intro i s hs
        have grown_get : ∀ (k : Nat) (t : Table), t.syms[i]? = some s → (t.createMany true true k).syms[i]? = some s := by
          intro k
          induction k with
          | zero => exact fun t h => h
          | succ k ih =>
            intro t h
            exact ih _ (getElem?_snoc_left h)
        have hs' : (t.grown (maxId t n M + 1)).syms[i]? = some s := by
          unfold Table.grown
          split
          · exact grown_get _ _ hs
          · exact hs
        have k1 := congrArg (·[i]?) (flagLoop_keys B.re B.im (t.grown (maxId t n M + 1)).syms false)
        have k2 := congrArg (·[i]?) (flagLoop_off B.re B.im (t.grown (maxId t n M + 1)).syms false)
        simp only [List.getElem?_map, hs', Option.map_some, Option.map_eq_some_iff] at k1 k2
        obtain ⟨s1, g1, g2⟩ := k1
        obtain ⟨s2, g3, g4⟩ := k2
        rw [g1] at g3
        simp only [Option.some.injEq] at g3
        subst g3
        simp only [Sym.key, Sym.off, Prod.mk.injEq] at g2 g4
        exact ⟨s1, by rw [e1]; exact g1, g2.1, g2.2.1, g2.2.2, g4.2.1, g4.2.2⟩
      · simp at e

/-- After importing `[[1, a], [-a, 1]]` (so `a` is imaginary) the import of `diag(b, a)` is rejected, but leaves `b` marked Hermitian
while it still has an imaginary basis element, and `a` marked both ways. The next import, which mentions neither, is accepted and then
`b` has lost its imaginary part and `a` has no basis element at all; without the rejected import nothing would have changed. -/
theorem C66_refuted : importMatrix false true true Table.new 2 antiMatrix = some (.done tableAnti) ∧
    importMatrix false true true tableAnti 2 diagMatrix = some (.zero tableBroken 3) ∧
    importMatrix false true true tableBroken 1 (fun _ _ => ⟨1, false, 1⟩) = some (.done tableLater) ∧
    importMatrix false true true tableAnti 1 (fun _ _ => ⟨1, false, 1⟩) = some (.done tableAnti) ∧
    (∃ v : Nat → ℂ, v 0 = 0 ∧ v 1 = 1 ∧ Respects tableAnti v ∧ ¬ Respects tableBroken v ∧ ¬ Respects tableLater v) ∧
    (∃ s ∈ tableBroken.syms, s.herm = true ∧ s.im = some 0) ∧
    (∃ s ∈ tableLater.syms, s.id = 3 ∧ s.re = none ∧ s.im = none) := by
  refine ⟨import_anti, import_diag, ?_, ?_, ⟨fun k => if k = 0 then 0 else if k = 1 then 1 else Complex.I, by simp, by simp, ?_, ?_, ?_⟩,
    ?_, ?_⟩
  · have := import_one tableBroken (Or.inl rfl)
    rwa [if_pos rfl] at this
  · have := import_one tableAnti (Or.inr rfl)
    rwa [if_neg (by decide)] at this
  · intro s hs
    simp only [tableAnti, List.mem_cons, List.not_mem_nil, or_false] at hs
    rcases hs with rfl | rfl | rfl | rfl <;> simp [Sym.zero, Sym.one, Sym.ofSeq]
  · intro h
    have := (h ⟨2, none, none, true, false, some 1, some 0⟩ (by simp [tableBroken])).1 rfl
    simp at this
  · intro h
    have := (h ⟨2, none, none, true, false, some 1, none⟩ (by simp [tableLater])).1 rfl
    simp at this
  · exact ⟨⟨2, none, none, true, false, some 1, some 0⟩, by simp [tableBroken], rfl, rfl⟩
  · exact ⟨⟨3, none, none, true, true, none, none⟩, by simp [tableLater], rfl, rfl, rfl⟩

/-- The exact statement applied: after the import of `antiMatrix` the assignments are those with `a* = -a`. -/
example (v : Nat → ℂ) (hv : v 0 = 0) (h1 : v 1 = 1) : Respects tableAnti v ↔ (v 3).re = 0 := by
  constructor
  · intro h
    exact (h ⟨3, none, none, false, true, none, some 1⟩ (by simp [tableAnti])).2 rfl
  · intro h s hs
    simp only [tableAnti, List.mem_cons, List.not_mem_nil, or_false] at hs
    rcases hs with rfl | rfl | rfl | rfl <;> simp [Sym.zero, Sym.one, Sym.ofSeq, hv, h1, h]

end Moment.C65
