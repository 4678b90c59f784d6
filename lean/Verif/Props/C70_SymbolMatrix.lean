import Verif.Proof.MatrixTimes
import Verif.Props.C27_SymbolTable
import Mathlib.Algebra.Star.Module
import Mathlib.Algebra.Star.BigOperators
import Mathlib.LinearAlgebra.Matrix.ConjTranspose

/-! # C70: matrices of symbols made from matrices of operators -/

namespace Moment.C70
open Moment.Symbols Moment.SymbolMatrix
open Moment.Poly (Mono)
open Moment.MatrixBasis (Mat)

/-! ## An instance: the free algebra and its states -/

/-- The context without rewriting rules over `r` letters. -/
def freeHost (r : Nat) : Host where
  env := C27.freeEnv r
  mul := HSeq.multiply { radix := r, simplify := fun w g => some (w, g) } false
  canNonHerm := true

theorem setting_free (r L : Nat) (hr : r < 2 ^ 64) (hL : (∑ k ∈ Finset.range (L + 1), r ^ k) < 2 ^ 64) :
    Setting (freeHost r) (C27.FreeWord r L) := by
  refine ⟨C27.words_free r L hr hL, ?_, by simp [freeHost]⟩
  intro w _ hs _
  simp only [freeHost, C27.freeEnv, HSeq.conjugate]
  split
  · rfl
  · simp [HSeq.construct, HSeq.toCanonical, hs, Sign.conj, Sign.code, Sign.ofCode]

/-- Every linear functional on a complex *-algebra that respects the star operation gives moments of the words, if the letters are self-adjoint. -/
theorem moments_free {A : Type*} [Ring A] [Algebra ℂ A] [StarRing A] [StarModule ℂ A] (ρ : Nat → A) (hρ : ∀ o, star (ρ o) = ρ o)
    (φ : A →ₗ[ℂ] ℂ) (hφ : ∀ a, φ (star a) = (starRingEnd ℂ) (φ a)) (r L : Nat) (hr : r < 2 ^ 64)
    (hL : (∑ k ∈ Finset.range (L + 1), r ^ k) < 2 ^ 64) :
    Moments (freeHost r).env (C27.FreeWord r L) fun w => if w.hash = 0 then 0 else φ (Rewrite.eval ρ (some (w.sign, w.ops))) := by
  have inj := C02.C02_hash_shortlex_partial r L hr hL
  have hrev : ∀ {w}, C02.IsWord r w → C02.IsWord r w.reverse := fun h o ho => h o (List.mem_reverse.mp ho)
  have ne0 : ∀ w : List Nat, C02.IsWord r w → w.length ≤ L → hashWord (UInt64.ofNat r) w ≠ 0 := fun w h h' => (inj _ _ h h h' h').2.2.1
  have hst : ∀ w : List Nat, star (Rewrite.evalWord ρ w) = Rewrite.evalWord ρ w.reverse := by
    intro w
    unfold Rewrite.evalWord
    induction w with
    | nil => simp
    | cons o w ih => simp [ih, hρ, star_mul]
  constructor
  · simp [HSeq.zero]
  · intro w _
    by_cases h : w.hash = 0
    · simp [h]
    · simp [h, Rewrite.eval, Rewrite.phase]
  · rintro w v (⟨h, -⟩ | ⟨h, h1, h2⟩) (⟨g, -⟩ | ⟨g, g1, g2⟩) e es
    · simp [h, g]
    · exact absurd (g ▸ e ▸ h) (ne0 _ g1 g2)
    · exact absurd (h ▸ e.symm ▸ g) (ne0 _ h1 h2)
    · rw [h, g] at e
      have := (inj _ _ h1 g1 h2 g2).1.mp e
      simp [h, g, this, es]
  · rintro w (⟨h, -⟩ | ⟨h, h1, h2⟩)
    · simp [freeHost, C27.freeEnv, HSeq.conjugate, HSeq.isZero, h, HSeq.zero]
    · have h0 : w.hash ≠ 0 := h ▸ ne0 _ h1 h2
      have hz := ne0 _ (hrev h1) (by simpa using h2)
      have e : (freeHost r).env.conj w = ⟨hashWord (UInt64.ofNat r) w.ops.reverse, w.ops.reverse, w.sign.conj⟩ := by
        simp [freeHost, C27.freeEnv, HSeq.conjugate, HSeq.isZero, h0, HSeq.construct, HSeq.toCanonical, HSeq.ctxHash, HSeq.hashOps, HSeq.movedFrom, hz]
      rw [e]
      simp only [hz, if_false, h0]
      rw [← hφ]
      congr 1
      simp only [Rewrite.eval]
      rw [star_smul, hst]
      congr 1
      exact (phase_conj w.sign).symm

/-- A word over `r` letters. -/
def letters (r : Nat) (l : List Nat) (s : Sign := .pos) : HSeq := ⟨hashWord (UInt64.ofNat r) l, l, s⟩

/-- The matrix with entries `gᵢ† gⱼ` where `g` is 1, a, b, ab. -/
def sample : Mat HSeq := ⟨4, [[], [0], [1], [1, 0], [0], [0, 0], [1, 0], [1, 0, 0], [1], [0, 1], [1, 1], [1, 0, 1],
  [0, 1], [0, 0, 1], [1, 0, 1], [1, 0, 0, 1]].map fun l => letters 2 l⟩

theorem usable_sample : Usable (freeHost 2) (C27.FreeWord 2 4) sample := by
  refine ⟨rfl, ?_, ?_⟩
  · intro w hw
    right
    simp only [sample, List.mem_map] at hw
    obtain ⟨l, hl, rfl⟩ := hw
    refine ⟨rfl, ?_⟩
    revert l
    unfold letters C02.IsWord
    decide
  · intro _ w hw _
    simp only [sample, List.mem_map] at hw
    obtain ⟨l, hl, rfl⟩ := hw
    rfl

theorem setting_sample : Setting (freeHost 2) (C27.FreeWord 2 4) := setting_free 2 4 (by norm_num) (by decide)

/-! ## Theorems -/

/-- Whatever happened to the table before, the creation of a matrix succeeds, and the value of each entry is the prefactor times the moment of the
word at its place. Missing: contexts where the conjugate of a word acquires a sign (`Setting.plain`, see `C70_refuted_conjugate`), and words with
negative sign that equal their conjugates (`Usable.plain`, see `C70_refuted_negative`). -/
theorem C70_value_partial {h : Host} {W : HSeq → Prop} (hS : Setting h W) {t : Table} (ht : Ready h W t) (ops : Mat HSeq) (al : Option (Mat HSeq))
    (f : ℂ) (hA : Usable h W (al.getD ops)) :
    ∃ t' M, create h t ops al f = some (t', some M) ∧ M.sym.mat.dim = (al.getD ops).dim ∧ M.sym.mat.Square ∧
      ∀ L v, Moments h.env W L → Agrees t' L v → ∀ i j, i < (al.getD ops).dim → j < (al.getD ops).dim →
        valueAt v M.sym.mat i j = f * L (word (al.getD ops) i j) := by
  obtain ⟨t', M, h1, h2⟩ := create_spec hS (ht.fit hS) f hA
  exact ⟨t', M, h1, h2.stands.dim, h2.stands.square, h2.stands.value⟩

/-- The matrix with 16 words of the free algebra over two letters, in a new table. -/
example : ∃ t' M, create (freeHost 2) Table.new sample none 3 = some (t', some M) ∧
    ∀ L v, Moments (freeHost 2).env (C27.FreeWord 2 4) L → Agrees t' L v → valueAt v M.sym.mat 3 2 = 3 * L (letters 2 [1, 0, 1]) := by
  obtain ⟨t', M, h1, h2, -, h3⟩ := C70_value_partial setting_sample Ready.new sample none 3 usable_sample
  exact ⟨t', M, h1, fun L v hL hv => h3 L v hL hv 3 2 (by decide) (by decide)⟩

/-- Moments of two matrices that do not commute, in the first basis vector. -/
example : Moments (freeHost 2).env (C27.FreeWord 2 4) fun w => if w.hash = 0 then 0 else
    Rewrite.eval (fun o => if o = 0 then !![1, 0; 0, -1] else !![0, 1; 1, 0] : Nat → Matrix (Fin 2) (Fin 2) ℂ) (some (w.sign, w.ops)) 0 0 := by
  refine moments_free (A := Matrix (Fin 2) (Fin 2) ℂ) _ ?_
    { toFun := fun a => a 0 0, map_add' := fun _ _ => rfl, map_smul' := fun _ _ => rfl } (fun a => rfl) 2 4 (by norm_num) (by decide)
  intro o
  split <;> (ext i j; fin_cases i <;> fin_cases j <;> simp [Matrix.star_eq_conjTranspose])

/-- The flag of the matrix says exactly whether each word is the conjugate of the word at the mirrored place (of the lower triangle). -/
theorem C70_flag {h : Host} {W : HSeq → Prop} (hS : Setting h W) {t : Table} (ht : Ready h W t) {ops : Mat HSeq} {al : Option (Mat HSeq)} {f : ℂ}
    (hA : Usable h W (al.getD ops)) {t' : Table} {M : MonoMat} (hM : create h t ops al f = some (t', some M)) :
    M.sym.hermitian = true ↔ ∀ i j, j ≤ i → i < (al.getD ops).dim →
      (word (al.getD ops) i j).hash = (h.env.conj (word (al.getD ops) j i)).hash ∧
        (word (al.getD ops) i j).sign = (h.env.conj (word (al.getD ops) j i)).sign := by
  obtain ⟨t1, M1, h1, h2⟩ := create_spec hS (ht.fit hS) f hA
  rw [h1] at hM
  simp only [Option.some.injEq, Prod.mk.injEq] at hM
  rw [← hM.2, h2.herm]
  exact isHerm_iff _ _

/-- The values of a matrix with real prefactor that is flagged as Hermitian form a Hermitian matrix. -/
theorem C70_hermitian {h : Host} {W : HSeq → Prop} (hS : Setting h W) {t : Table} (ht : Ready h W t) {ops : Mat HSeq} {al : Option (Mat HSeq)} {f : ℂ}
    (hA : Usable h W (al.getD ops)) (hf : (starRingEnd ℂ) f = f) {t' : Table} {M : MonoMat} (hM : create h t ops al f = some (t', some M))
    (hh : M.sym.hermitian = true) {L : HSeq → ℂ} {v : Nat → ℂ} (hL : Moments h.env W L) (hv : Agrees t' L v) (i j : Nat)
    (hi : i < (al.getD ops).dim) (hj : j < (al.getD ops).dim) : valueAt v M.sym.mat j i = (starRingEnd ℂ) (valueAt v M.sym.mat i j) := by
  have hflag := (C70_flag hS ht hA hM).mp hh
  obtain ⟨t1, M1, h1, -, -, h2⟩ := C70_value_partial hS ht ops al f hA
  rw [h1] at hM
  simp only [Option.some.injEq, Prod.mk.injEq] at hM
  obtain ⟨rfl, rfl⟩ := hM
  have key : ∀ i j, j ≤ i → i < (al.getD ops).dim → valueAt v M1.sym.mat i j = (starRingEnd ℂ) (valueAt v M1.sym.mat j i) := by
    intro i j hij hi
    rw [h2 L v hL hv i j hi (Nat.lt_of_le_of_lt hij hi), h2 L v hL hv j i (Nat.lt_of_le_of_lt hij hi) hi, map_mul, hf]
    have w1 := hA.mem _ (get_some hA.square hi (Nat.lt_of_le_of_lt hij hi)).2
    have w2 := hA.mem _ (get_some hA.square (Nat.lt_of_le_of_lt hij hi) hi).2
    rw [← hL.conj _ w2, hL.hash _ _ w1 (hS.words.conj _ w2) (hflag i j hij hi).1 (hflag i j hij hi).2]
  rcases le_total i j with e | e
  · exact key j i e hj
  · rw [key i j e hi, Complex.conj_conj]

example : isHerm (freeHost 2).env sample = true := by decide +kernel

/-- The search for a place that violates the symmetry finds the first one, column by column in the lower triangle. -/
theorem C70_first (c : Env) (A : Mat HSeq) (i j : Nat) (hf : firstNonHerm c A = some (i, j)) :
    j ≤ i ∧ i < A.dim ∧ ¬ ((word A i j).hash = (c.conj (word A j i)).hash ∧ (word A i j).sign = (c.conj (word A j i)).sign) ∧
      ∀ i' j', j' ≤ i' → i' < A.dim → (j' < j ∨ j' = j ∧ i' < i) →
        (word A i' j').hash = (c.conj (word A j' i')).hash ∧ (word A i' j').sign = (c.conj (word A j' i')).sign := by
  have hb : ∀ a b : HSeq, a.beq b = true ↔ a.hash = b.hash ∧ a.sign = b.sign := by
    intro a b
    unfold HSeq.beq
    by_cases h : a.hash = b.hash <;> simp [h]
  have hsplit : ∀ {α β : Type} (g : α → Option β) (l : List α) (x : β), l.findSome? g = some x →
      ∃ (p : List α) (a : α) (s : List α), l = p ++ a :: s ∧ g a = some x ∧ ∀ y ∈ p, g y = none := by
    intro α β g l x h
    exact List.findSome?_eq_some_iff.mp h
  obtain ⟨p, col, s, e1, h1, h2⟩ := hsplit _ _ _ hf
  obtain ⟨p', row, s', e2, h3, h4⟩ := hsplit _ _ _ h1
  split at h3
  · simp at h3
  · rename_i hne
    simp only [Option.some.injEq, Prod.mk.injEq] at h3
    obtain ⟨rfl, rfl⟩ := h3
    have hcol : col < A.dim := List.mem_range.mp (e1 ▸ by simp)
    have hrow : col ≤ row ∧ row < col + (A.dim - col) := by
      have : row ∈ List.range' col (A.dim - col) := e2 ▸ by simp
      simpa [List.mem_range'_1] using this
    refine ⟨hrow.1, by omega, fun h => hne ((hb _ _).mpr h), ?_⟩
    have hp : p.length = col := by
      have := congrArg (fun l => l[p.length]?) e1
      simp only [List.getElem?_append_right (Nat.le_refl _), Nat.sub_self, List.getElem?_cons_zero] at this
      exact (List.getElem?_eq_some_iff.mp this).2 ▸ by simp
    have hp' : col + p'.length = row := by
      have := congrArg (fun l => l[p'.length]?) e2
      simp only [List.getElem?_append_right (Nat.le_refl _), Nat.sub_self, List.getElem?_cons_zero] at this
      have := (List.getElem?_eq_some_iff.mp this).2
      simpa using this
    intro i' j' hij hi' hlt
    rcases hlt with hlt | ⟨rfl, hlt⟩
    · have hm : j' ∈ p := by
        have h5 : (List.range A.dim)[j']? = some j' := List.getElem?_range (by omega)
        rw [e1, List.getElem?_append_left (by omega)] at h5
        exact List.mem_of_getElem? h5
      have h6 := List.findSome?_eq_none_iff.mp (h2 _ hm) i' (List.mem_range'_1.mpr ⟨hij, by omega⟩)
      by_contra hc
      rw [if_neg (fun h => hc ((hb _ _).mp h))] at h6
      simp at h6
    · have hm : i' ∈ p' := by
        have h5 : (List.range' j' (A.dim - j'))[i' - j']? = some i' := by
          rw [List.getElem?_range' (by omega)]
          congr 1; omega
        rw [e2, List.getElem?_append_left (by omega)] at h5
        exact List.mem_of_getElem? h5
      have h6 := h4 _ hm
      by_contra hc
      rw [if_neg (fun h => hc ((hb _ _).mp h))] at h6
      simp at h6

/-- A matrix whose words at (1,0) and (2,1) are wrong. -/
example : firstNonHerm (freeHost 2).env ⟨3, ([[], [0], [1], [1], [0, 0], [0, 1], [1], [0, 1], [1, 1]].map fun l => letters 2 l)⟩ = some (1, 0) := by
  decide +kernel

/-- Creating the same matrix again adds no symbols and gives the same matrix. -/
theorem C70_repeat (h : Host) {t t' : Table} {ops : Mat HSeq} {al : Option (Mat HSeq)} {f : ℂ} {M : Option MonoMat}
    (hM : create h t ops al f = some (t', M)) : create h t' ops al f = some (t', M) := create_again h hM

/-- The symbols that were there before the creation of a matrix stay as they are: ids, words and flags. -/
theorem C70_stable {h : Host} {t t' : Table} {ops : Mat HSeq} {al : Option (Mat HSeq)} {f : ℂ} {M : Option MonoMat}
    (hM : create h t ops al f = some (t', M)) {id : Nat} {s : Sym} (hs : t.syms[id]? = some s) : t'.syms[id]? = some s := by
  obtain ⟨ids, n, h1⟩ := create_merge h hM
  exact get_prefix (mergeAll_prefix _ h1) hs

example : ∃ t' M, create (freeHost 2) Table.new sample none 1 = some (t', some M) ∧ create (freeHost 2) t' sample none 1 = some (t', some M) := by
  obtain ⟨t', M, h1, -⟩ := C70_value_partial setting_sample Ready.new sample none 1 usable_sample
  exact ⟨t', M, h1, C70_repeat _ h1⟩

/-! ## Refutations -/

theorem visitLower_one : visitLower 1 = [((0, 0), 0)] := by rw [visitLower_eq]; rfl

theorem visitUpper_one : MatrixBasis.visitUpper 1 = [((0, 0), 0)] := by rw [MatrixBasis.visitUpper_eq]; rfl

/-- The creation of a matrix with one word. -/
theorem create_one {h : Host} {t t' : Table} {w : HSeq} {f : ℂ} (hc : h.canNonHerm = true) {b : Bool} (hb : w.beq (h.env.conj w) = b)
    {ids : List Nat} {n : Nat}
    (hm : t.mergeAll h.env (Sym.zero :: Sym.one :: scan [if b then (h.env.conj w, w) else (w, h.env.conj w)] [1, 0]) = some (t', ids, n))
    {e : Mono × Sym} (he : entry t' f w = some e) {S : MatrixBasis.SymMat Mono} (hS : MatrixBasis.makeMono t' b ⟨1, [e.1]⟩ = some S) :
    create h t ⟨1, [w]⟩ none f = some (t', some ⟨some ⟨1, [w]⟩, none, S, f⟩) := by
  have hh : isHerm h.env ⟨1, [w]⟩ = b := by
    cases b <;> simp [isHerm, firstNonHerm, word, MatrixBasis.Mat.get?, List.range_succ, hb]
  have hv : visited b ⟨1, [w]⟩ = [w] := by cases b <;> simp [visited, visitLower_one]
  have hbd : build t' f b ⟨1, [w]⟩ = some ⟨1, [e.1]⟩ := by
    cases b <;> simp [build, hermWrites, visitUpper_one, he]
  simp only [create, convert, Option.getD_none, hh, identify, hc, if_true, fromOps, hv, List.map_cons, List.map_nil, hm, Option.map_some,
    Option.bind_some, hbd, hS]

/-- A matrix made with an imaginary prefactor is flagged as Hermitian although its values are not: one word, the identity, and prefactor i. -/
theorem C70_refuted_flag : ∃ t' M, create (freeHost 2) Table.new ⟨1, [HSeq.identity .pos]⟩ none Complex.I = some (t', some M) ∧
    M.sym.hermitian = true ∧ ∀ v : Nat → ℂ, v 1 = 1 → valueAt v M.sym.mat 0 0 = Complex.I := by
  refine ⟨Table.new, ⟨some ⟨1, [HSeq.identity .pos]⟩, none, ⟨⟨1, [⟨1, false, Complex.I⟩]⟩, true, true, false⟩, Complex.I⟩, ?_, rfl, ?_⟩
  · refine create_one (b := true) rfl (by decide +kernel) (ids := [0, 1]) (n := 0) (by decide +kernel) (e := (⟨1, false, Complex.I⟩, Sym.one)) ?_ ?_
    · have h4 : Table.new.find (HSeq.identity .pos).hash = some (1, false) := by decide +kernel
      simp only [entry, h4, Option.bind_some]
      simp [Table.new, scalar, HSeq.identity, Sym.one]
    · simp [Table.new, MatrixBasis.makeMono, MatrixBasis.plainMono, MatrixBasis.dropZero, Sym.one, Sym.ofSeq]
  · intro v hv
    simp [valueAt, MatrixBasis.Mat.get?, Poly.Mono.value, hv]

/-- The table after −a. -/
def negTable : Table := ⟨[Sym.zero, Sym.one, ⟨2, some (letters 2 [0] .neg), none, true, false, some 1, none⟩], [(2, 2), (1, 1), (0, 0)],
  ⟨[1, 2], [], [none, none], []⟩⟩

/-- A Hermitian word with negative sign that is met first becomes the word of its symbol with its sign; the entry of the matrix is then minus the
symbol, so that the sign occurs twice: the matrix made from the word −a stands for a. -/
theorem C70_refuted_negative : ∃ t' M s, create (freeHost 2) Table.new ⟨1, [letters 2 [0] .neg]⟩ none 1 = some (t', some M) ∧
    M.sym.mat = ⟨1, [⟨2, false, -1⟩]⟩ ∧ t'.syms[2]? = some s ∧ s.seq = some (letters 2 [0] .neg) ∧
    ∀ L v, Moments (freeHost 2).env (C27.FreeWord 2 4) L → Agrees t' L v → valueAt v M.sym.mat 0 0 = L (letters 2 [0]) := by
  refine ⟨negTable, ⟨some ⟨1, [letters 2 [0] .neg]⟩, none, ⟨⟨1, [⟨2, false, -1⟩]⟩, true, false, false⟩, 1⟩,
      ⟨2, some (letters 2 [0] .neg), none, true, false, some 1, none⟩, ?_, rfl, rfl, rfl, ?_⟩
  · refine create_one (b := true) rfl (by decide +kernel) (ids := [0, 1, 2]) (n := 1) (by decide +kernel)
      (e := (⟨2, false, -1⟩, ⟨2, some (letters 2 [0] .neg), none, true, false, some 1, none⟩)) ?_ ?_
    · have h4 : negTable.find (letters 2 [0] .neg).hash = some (2, false) := by decide +kernel
      simp only [entry, h4, Option.bind_some]
      simp [negTable, scalar, letters]
    · simp [negTable, MatrixBasis.makeMono, MatrixBasis.plainMono, MatrixBasis.dropZero]
  · intro L v hL hv
    have e1 := hv.word 2 _ _ rfl rfl
    have hw : C27.FreeWord 2 4 (letters 2 [0] .neg) := Or.inr ⟨rfl, by simp [letters, C02.IsWord], by simp [letters]⟩
    have e2 := hL.phase _ hw
    rw [e2] at e1
    simp only [valueAt, MatrixBasis.Mat.get?]
    simp [Poly.Mono.value, e1, letters, Rewrite.phase]

/-- The algebra of four letters with the rules (3,0) = −(1,2) and (2,1) = −(0,3), as far as words of two letters are concerned. -/
def turned : Ctx where
  radix := 4
  simplify w g := if w = [3, 0] then some ([1, 2], g.mul .neg) else if w = [2, 1] then some ([0, 3], g.mul .neg) else some (w, g)

/-- The same, as a host. -/
def turnedHost : Host where
  env := { C27.freeEnv 4 with conj := HSeq.conjugate turned false }
  mul := HSeq.multiply turned false
  canNonHerm := true

/-- The table after the word (1,2). -/
def turnedTable : Table := ⟨[Sym.zero, Sym.one, ⟨2, some (letters 4 [0, 3]), some (letters 4 [1, 2] .neg), false, false, some 1, some 0⟩],
  [((letters 4 [1, 2]).hash, -2), ((letters 4 [0, 3]).hash, 2), (1, 1), (0, 0)], ⟨[1, 2], [2], [none, some 0], [some 1]⟩⟩

/-- In an algebra where the conjugate of a word acquires a sign, the entry has the wrong sign: the word (1,2) becomes the conjugate of the symbol of
(0,3), although that conjugate is recorded, correctly, as −(1,2). So the value is minus the moment. -/
theorem C70_refuted_conjugate : ∃ t' M, create turnedHost Table.new ⟨1, [letters 4 [1, 2]]⟩ none 1 = some (t', some M) ∧
    M.sym.mat = ⟨1, [⟨2, true, 1⟩]⟩ ∧ t' = turnedTable ∧ turnedHost.env.conj (letters 4 [0, 3]) = letters 4 [1, 2] .neg ∧
    ∀ W L v, W (letters 4 [0, 3]) → W (letters 4 [1, 2] .neg) → Moments turnedHost.env W L → Agrees t' L v →
      valueAt v M.sym.mat 0 0 = - L (letters 4 [1, 2]) := by
  have hcj : turnedHost.env.conj (letters 4 [0, 3]) = letters 4 [1, 2] .neg := by decide +kernel
  refine ⟨turnedTable, ⟨some ⟨1, [letters 4 [1, 2]]⟩, none, ⟨⟨1, [⟨2, true, 1⟩]⟩, false, false, true⟩, 1⟩, ?_, rfl, rfl, hcj, ?_⟩
  · refine create_one (b := false) rfl (by decide +kernel) (ids := [0, 1, 2]) (n := 1) (by decide +kernel)
      (e := (⟨2, true, 1⟩, ⟨2, some (letters 4 [0, 3]), some (letters 4 [1, 2] .neg), false, false, some 1, some 0⟩)) ?_ ?_
    · have h4 : turnedTable.find (letters 4 [1, 2]).hash = some (2, true) := by decide +kernel
      simp only [entry, h4, Option.bind_some]
      simp [turnedTable, scalar, letters]
    · simp [turnedTable, MatrixBasis.makeMono, MatrixBasis.plainMono, MatrixBasis.dropZero]
  · intro W L v w1 w2 hL hv
    have e1 := hv.word 2 _ _ rfl rfl
    have e2 := hL.conj _ w1
    rw [hcj, hL.phase _ w2] at e2
    simp only [valueAt, MatrixBasis.Mat.get?]
    simp only [Rewrite.phase, letters] at e1 e2 ⊢
    rw [neg_eq_neg_one_mul, e2, ← e1]
    simp [Poly.Mono.value]

end Moment.C70
