import Verif.Props.C16_Rules
import Verif.Props.C04_OpSeq

/-! # C20 Conjugation of words; C54 products, conjugates and Hermitian types of operator sequences -/

namespace Moment.C20
open Moment Rules Rewrite

universe u

variable {p : Pre} {L : Nat}

/-- The pairing of operators with their adjoints, spelled out for the three conventions: every operator is its own adjoint; the adjoints follow
all operators; each operator is followed by its adjoint. -/
def AdjointOf (p : Pre) (a b : Nat) : Prop :=
  match p.mode with
  | .selfAdjoint => a = b ∧ a < p.raw
  | .bunched => (a < p.raw ∧ b = a + p.raw) ∨ (b < p.raw ∧ a = b + p.raw)
  | .interleaved => ∃ k < p.raw, (a = 2 * k ∧ b = 2 * k + 1) ∨ (a = 2 * k + 1 ∧ b = 2 * k)

theorem adj_spec {a : Nat} (h : a < p.num) (b : Nat) : AdjointOf p a b ↔ p.adj a = b := by
  obtain ⟨raw, mode⟩ := p
  cases mode with
  | selfAdjoint =>
    simp only [AdjointOf, Pre.adj]
    exact ⟨fun h => h.1, fun h' => ⟨h', h⟩⟩
  | bunched =>
    have hn : Pre.num ⟨raw, .bunched⟩ = 2 * raw := rfl
    rw [hn] at h
    simp only [AdjointOf, Pre.adj, hn]
    rcases Nat.lt_or_ge a raw with h1 | h1
    · rw [Nat.mod_eq_of_lt (by omega)]; omega
    · rw [show a + raw = (a - raw) + 2 * raw by omega, Nat.add_mod_right, Nat.mod_eq_of_lt (by omega)]; omega
  | interleaved =>
    have hn : Pre.num ⟨raw, .interleaved⟩ = 2 * raw := rfl
    rw [hn] at h
    simp only [AdjointOf, Pre.adj]
    have hx := xor_one_div a
    constructor
    · rintro ⟨k, hk, h | h⟩ <;> omega
    · intro h'
      exact ⟨a / 2, by omega, by omega⟩

/-- C20. The conjugate of a word: its operators in reverse order, each replaced by its adjoint. -/
theorem C20_conjugate_word {w : List Nat} (hw : ∀ o ∈ w, o < p.num) :
    List.Forall₂ (AdjointOf p) w.reverse (p.conjWord w) := by
  rw [conjWord_eq, List.forall₂_map_right_iff, List.forall₂_same]
  intro o ho
  exact (adj_spec (hw o (List.mem_reverse.mp ho)) _).mpr rfl

theorem adj_adj {a : Nat} (h : a < p.num) : p.adj (p.adj a) = a := by
  refine (adj_spec (adj_lt p h) _).mp ?_
  have := (adj_spec h (p.adj a)).mpr rfl
  obtain ⟨raw, mode⟩ := p
  cases mode with
  | selfAdjoint => exact ⟨this.1.symm, this.1 ▸ this.2⟩
  | bunched => exact this.symm
  | interleaved => exact this.imp fun k h => ⟨h.1, h.2.symm.imp And.symm And.symm⟩

/-- C20. Conjugating twice gives the word back. -/
theorem C20_involution {w : List Nat} (hw : ∀ o ∈ w, o < p.num) : p.conjWord (p.conjWord w) = w := by
  rw [conjWord_eq, conjWord_eq, ← List.map_reverse, List.reverse_reverse, List.map_map]
  conv_rhs => rw [← List.map_id w]
  exact List.map_congr_left fun a ha => adj_adj (hw a ha)

/-- C20. Conjugation reverses products. -/
theorem C20_reverses_products (u v : List Nat) : p.conjWord (u ++ v) = p.conjWord v ++ p.conjWord u := by
  simp [conjWord_eq]

/-- C20. The same for sequences with phase: conjugating twice gives the sequence back (zero included). -/
theorem C20_sequence_involution (hs : Small p L) {x : HSeq} (hx : GoodSeq p L x) (hz : x.hash = 0 → x = HSeq.zero) :
    p.conjSeq (p.conjSeq x) = x := by
  by_cases h0 : x.hash = 0
  · rw [hz h0]; rfl
  · have h1 : x.isZero = false := by simpa [HSeq.isZero] using h0
    have hx' : x.hash = p.hash x.ops := hx.2.resolve_left fun h => h0 h.1
    have h2 : p.conjSeq x = ⟨p.hash (p.conjWord x.ops), p.conjWord x.ops, x.sign.conj⟩ := by
      unfold Pre.conjSeq; rw [h1]; rfl
    have h3 : (p.conjSeq x).isZero = false := by
      rw [h2]; simpa [HSeq.isZero] using hash_ne_zero hs (conjWord_isWord hx.1)
    unfold Pre.conjSeq at h3 ⊢
    rw [h1] at h3 ⊢
    simp only [Bool.false_eq_true, if_false] at h3 ⊢
    rw [h3]
    simp only [Bool.false_eq_true, if_false]
    rw [C20_involution hx.1.1, ← hx']
    have : x.sign.conj.conj = x.sign := by cases x.sign <;> rfl
    rw [this]

/-- C20. In a `*`-algebra where paired operators are interpreted by adjoint elements, the conjugate sequence is the adjoint. -/
theorem C20_sequence_adjoint (hs : Small p L) {x : HSeq} (hx : GoodSeq p L x) {A : Type u} [Ring A] [StarRing A] [Algebra ℂ A] [StarModule ℂ A]
    (ρ : Nat → A) (hρ : ∀ a b, a < p.num → AdjointOf p a b → ρ b = star (ρ a)) :
    eval ρ (term (p.conjSeq x)) = star (eval ρ (term x)) :=
  eval_conjSeq hs hx fun o ho => hρ o _ ho ((adj_spec ho _).mpr rfl)

/-- The three conventions with two named operators. -/
example : Pre.conjWord ⟨2, .selfAdjoint⟩ [0, 1] = [1, 0] ∧ Pre.conjWord ⟨2, .bunched⟩ [0, 1] = [3, 2] ∧
    Pre.conjWord ⟨2, .interleaved⟩ [0, 2] = [3, 1] := by decide

example : Small ⟨2, .bunched⟩ 20 ∧ GoodSeq ⟨2, .bunched⟩ 20 ⟨Pre.hash ⟨2, .bunched⟩ [0, 3], [0, 3], .imag⟩ :=
  ⟨⟨by decide, by decide +kernel⟩, ⟨⟨by decide, by decide⟩, Or.inr rfl⟩⟩

/-! ### Conjugation by a context with non-self-adjoint operators -/

/-- The conjugation of an algebraic context loses the phase: the conjugate of `i x` comes out as `x*` (not `-i x*`). -/
theorem C20_refuted_phase (heap : Bool) :
    ctxConjugate ⟨1, .bunched⟩ (C04.plain 2) heap ⟨2, [0], .imag⟩ = ⟨3, [1], .pos⟩ ∧
    Pre.conjSeq ⟨1, .bunched⟩ ⟨2, [0], .imag⟩ = ⟨3, [1], .negImag⟩ ∧ Pre.hash ⟨1, .bunched⟩ [0] = 2 := by
  cases heap <;> decide

/-- For phase `+` it is right, for every simplification that is valid in the algebra. -/
theorem C20_context_partial (c : Ctx) (heap : Bool) {x : HSeq} (hmode : p.mode ≠ .selfAdjoint) (hsign : x.sign = .pos)
    (hx : x.hash ≠ 0) : ctxConjugate p c heap x = HSeq.construct c heap (p.conjWord x.ops) x.sign.conj := by
  unfold ctxConjugate
  have : x.isZero = false := by simpa [HSeq.isZero] using hx
  rw [if_neg hmode, this, hsign]
  rfl

end Moment.C20

namespace Moment.C54
open Moment Rules Rewrite C04

universe u

variable {A : Type u} [Ring A] [Algebra ℂ A]

/-- The value of an operator sequence under an interpretation of the operators: 0 if its hash is 0, else phase times product. -/
noncomputable def value (ρ : Nat → A) (x : HSeq) : A := if x.hash = 0 then 0 else phase x.sign • (x.ops.map ρ).prod

theorem value_eq (ρ : Nat → A) (x : HSeq) : value ρ x = eval ρ (term x) := by
  unfold value term
  split <;> rfl

/-- The simplification of the context keeps values. -/
def SoundSimplify (c : Ctx) (L : Nat) (ρ : Nat → A) : Prop :=
  ∀ w s, Fits c L w → phase s • (w.map ρ).prod =
    match c.simplify w s with
    | none => 0
    | some (w', s') => phase s' • (w'.map ρ).prod

/-- The simplification of the context does not make words longer and stays within its operators. -/
def Keeps (c : Ctx) (L : Nat) : Prop := ∀ w s w' s', Fits c L w → c.simplify w s = some (w', s') → Fits c L w'

/-- Hashes of words of at most `L` operators fit in 64 bits. -/
structure Hashable (c : Ctx) (L : Nat) : Prop where
  radix : c.radix < 2 ^ 64
  count : (∑ k ∈ Finset.range (L + 1), c.radix ^ k) < 2 ^ 64

theorem hash_ne (c : Ctx) (L : Nat) (h : Hashable c L) {w : List Nat} (hw : Fits c L w) : hashWord (UInt64.ofNat c.radix) w ≠ 0 :=
  (C02.C02_hash_shortlex_partial c.radix L h.radix h.count w w hw.1 hw.1 hw.2 hw.2).2.2.1

theorem hash_inj' (c : Ctx) (L : Nat) (h : Hashable c L) {v w : List Nat} (hv : Fits c L v) (hw : Fits c L w) :
    hashWord (UInt64.ofNat c.radix) v = hashWord (UInt64.ofNat c.radix) w ↔ v = w :=
  (C02.C02_hash_shortlex_partial c.radix L h.radix h.count v w hv.1 hw.1 hv.2 hw.2).1

variable {c : Ctx} {L : Nat} {ρ : Nat → A}

theorem construct_eq (h : Hashable c L) (heap : Bool) {w : List Nat} (hw : Fits c L w) (s : Sign) :
    HSeq.construct c heap w s =
      match c.simplify w s with
      | none => HSeq.zero
      | some (w', s') => ⟨HSeq.hashOps c w', w', s'⟩ := by
  have h0 : HSeq.hashOps c (HSeq.movedFrom heap w) ≠ 0 := by
    unfold HSeq.hashOps HSeq.movedFrom
    cases heap
    · simpa using hash_ne c L h hw
    · exact hash_ne c L h ⟨by intro o ho; simp at ho, by simp⟩
  unfold HSeq.construct HSeq.toCanonical
  dsimp only
  cases hsim : c.simplify w s with
  | none => rfl
  | some x =>
    obtain ⟨w', s'⟩ := x
    have : ∀ y : HSeq, y.hash ≠ 0 → HSeq.ctxHash c y = HSeq.hashOps c y.ops := by
      intro y hy; simp [HSeq.ctxHash, HSeq.isZero, hy]
    simp only
    rw [this]
    exact h0

/-- C54. Constructing a sequence keeps its value. -/
theorem C54_construct (h : Hashable c L) (hk : Keeps c L) (hc : SoundSimplify c L ρ) (heap : Bool) {w : List Nat} (hw : Fits c L w) (s : Sign) :
    value ρ (HSeq.construct c heap w s) = phase s • (w.map ρ).prod := by
  rw [construct_eq h heap hw, hc w s hw]
  cases hsim : c.simplify w s with
  | none => simp [value, HSeq.zero]
  | some x =>
    obtain ⟨w', s'⟩ := x
    have h1 : HSeq.hashOps c w' ≠ 0 := hash_ne c L h (hk w s w' s' hw hsim)
    simp [value, h1]

/-- C54. The product of two sequences has the product of the values. -/
theorem C54_multiply (h : Hashable c L) (hk : Keeps c L) (hc : SoundSimplify c L ρ) (heap : Bool) {x y : HSeq}
    (hxy : Fits c L (x.ops ++ y.ops)) : value ρ (HSeq.multiply c heap x y) = value ρ x * value ρ y := by
  unfold HSeq.multiply
  by_cases hx : x.hash = 0
  · have : x.isZero = true := by simp [HSeq.isZero, hx]
    simp [this, value, hx, HSeq.zero]
  · by_cases hy : y.hash = 0
    · have : y.isZero = true := by simp [HSeq.isZero, hy]
      simp [this, value, hy, HSeq.zero]
    · have h1 : x.isZero = false := by simpa [HSeq.isZero] using hx
      have h2 : y.isZero = false := by simpa [HSeq.isZero] using hy
      simp only [h1, h2, Bool.or_self, Bool.false_eq_true, if_false]
      rw [C54_construct h hk hc heap hxy]
      simp only [value, hx, hy, if_false, phase_mul, List.map_append, List.prod_append, smul_mul_smul_comm]

/-- C54. Unary minus. -/
theorem C54_negative (x : HSeq) : value ρ (HSeq.negative x) = - value ρ x := by
  unfold HSeq.negative
  by_cases hx : x.hash = 0
  · have : x.isZero = true := by simp [HSeq.isZero, hx]
    simp [this, value, hx, HSeq.zero]
  · have h1 : x.isZero = false := by simpa [HSeq.isZero] using hx
    simp only [h1, Bool.false_eq_true, if_false, value, hx]
    rw [← neg_smul]
    congr 1
    cases x.sign <;> simp [phase, Sign.negate, Sign.code, Sign.ofCode]

section Star
variable [StarRing A] [StarModule ℂ A]

/-- C54. Where the operators are self-adjoint, the conjugate sequence is the adjoint. -/
theorem C54_conjugate (h : Hashable c L) (hk : Keeps c L) (hc : SoundSimplify c L ρ) (hρ : ∀ o < c.radix, star (ρ o) = ρ o) (heap : Bool)
    {x : HSeq} (hx : Fits c L x.ops) : value ρ (HSeq.conjugate c heap x) = star (value ρ x) := by
  unfold HSeq.conjugate
  by_cases h0 : x.hash = 0
  · have : x.isZero = true := by simp [HSeq.isZero, h0]
    simp [this, value, h0, HSeq.zero]
  · have h1 : x.isZero = false := by simpa [HSeq.isZero] using h0
    simp only [h1, Bool.false_eq_true, if_false]
    rw [C54_construct h hk hc heap ⟨fun o ho => hx.1 o (List.mem_reverse.mp ho), by simpa using hx.2⟩]
    simp only [value, h0, if_false]
    rw [phase_conj, star_smul]
    congr 1
    have : ∀ w : List Nat, (∀ o ∈ w, o < c.radix) → (w.reverse.map ρ).prod = star (w.map ρ).prod := by
      intro w
      induction w with
      | nil => simp
      | cons a w ih =>
        intro hw
        rw [List.reverse_cons, List.map_append, List.prod_append, ih fun o ho => hw o (List.mem_cons_of_mem _ ho)]
        simp [hρ a (hw a (by simp))]
    exact this _ hx.1

omit [Algebra ℂ A] [StarRing A] [StarModule ℂ A] in
theorem value_congr (h : Hashable c L) {x y : HSeq} (hx : Describes c x) (hy : Describes c y) (fx : Fits c L x.ops) (fy : Fits c L y.ops)
    (he : x.hash = y.hash) : (x.ops.map ρ).prod = (y.ops.map ρ).prod ∨ (x.hash = 0 ∧ y.hash = 0) := by
  rcases hx with hx | hx <;> rcases hy with hy | hy
  · exact Or.inr ⟨hx.1, hy.1⟩
  · exact Or.inr ⟨hx.1, he ▸ hx.1⟩
  · exact Or.inr ⟨he.trans hy.1, hy.1⟩
  · left
    rw [hx, hy, hash_inj' c L h fx fy] at he
    rw [he]

/-- C54. The Hermitian type of a sequence is right: "zero" and "Hermitian" and "anti-Hermitian" are only reported for sequences whose value is so
in every representation by self-adjoint operators that respects the simplification. -/
theorem C54_hermitian_type (h : Hashable c L) (hk : Keeps c L) (hc : SoundSimplify c L ρ) (hρ : ∀ o < c.radix, star (ρ o) = ρ o) (heap : Bool)
    {x : HSeq} (hx : Fits c L x.ops) (hd : Describes c x) :
    match HSeq.hermitianType c heap x with
    | .zero => value ρ x = 0
    | .hermitian => star (value ρ x) = value ρ x
    | .antiHermitian => star (value ρ x) = - value ρ x
    | .notHermitian => True := by
  unfold HSeq.hermitianType
  by_cases he : x.ops = []
  · simp only [he, List.isEmpty_nil, if_true]
    by_cases h0 : x.hash = 0
    · have : x.isZero = true := by simp [HSeq.isZero, h0]
      simp [this, value, h0]
    · have h1 : x.isZero = false := by simpa [HSeq.isZero] using h0
      simp only [h1, Bool.false_eq_true, if_false]
      cases hsg : x.sign <;> simp [Sign.isImaginary, Sign.code, value, h0, he, hsg, phase]
  · have he' : x.ops.isEmpty = false := by simpa using he
    simp only [he', Bool.false_eq_true, if_false]
    have hcv := C54_conjugate (ρ := ρ) h hk hc hρ heap hx
    have h0 : x.hash ≠ 0 := by
      rcases hd with hd | hd
      · exact absurd hd.2 he
      · rw [hd]; exact hash_ne c L h hx
    have h1 : x.isZero = false := by simpa [HSeq.isZero] using h0
    have fr : Fits c L x.ops.reverse := ⟨fun o ho => hx.1 o (List.mem_reverse.mp ho), by simpa using hx.2⟩
    have hcd : Describes c (HSeq.conjugate c heap x) := by
      unfold HSeq.conjugate
      rw [h1]
      exact describes_construct c heap _ _ (hash_ne c L h fr)
    have hcf : Fits c L (HSeq.conjugate c heap x).ops := by
      unfold HSeq.conjugate HSeq.construct HSeq.toCanonical
      rw [h1]
      dsimp only
      cases hsim : c.simplify x.ops.reverse x.sign.conj with
      | none => exact ⟨by intro o ho; simp at ho, by simp⟩
      | some q => obtain ⟨w', s'⟩ := q; simpa [hsim] using hk _ _ _ _ fr hsim
    have cmp := C04_compare_same_negation x (HSeq.conjugate c heap x)
    by_cases hA : HSeq.compareSameNegation x (HSeq.conjugate c heap x) = 1
    · simp only [hA, if_true]
      obtain ⟨e1, e2⟩ := cmp.1.mp hA
      rcases value_congr (ρ := ρ) h hd hcd hx hcf e1 with e | e
      · rw [← hcv]
        simp only [value, h0, if_false, e1 ▸ h0, ← e, ← e2]
      · exact absurd e.1 h0
    · by_cases hB : HSeq.compareSameNegation x (HSeq.conjugate c heap x) = -1
      · simp only [hB]
        obtain ⟨e1, e2⟩ := cmp.2.1.mp hB
        rcases value_congr (ρ := ρ) h hd hcd hx hcf e1 with e | e
        · show star (value ρ x) = - value ρ x
          rw [← hcv]
          simp only [value, h0, if_false, e1 ▸ h0, ← e, e2]
          rw [← neg_smul]
          congr 1
          cases (HSeq.conjugate c heap x).sign <;> simp [phase, Sign.negate, Sign.code, Sign.ofCode]
        · exact absurd e.1 h0
      · simp only [hA, hB, if_false]

end Star

/-- Non-trivial instance: one operator with square 1 (`x x` simplifies to nothing), interpreted by `-1` in the complex numbers. -/
def involutionCtx : Ctx := { radix := 1, simplify := fun w s => some (if w.length % 2 = 0 then [] else [0], s) }

example : Hashable involutionCtx 20 ∧ Keeps involutionCtx 20 ∧ SoundSimplify (A := ℂ) involutionCtx 20 (fun _ => -1) ∧
    (∀ o < involutionCtx.radix, star ((fun _ => -1 : Nat → ℂ) o) = (fun _ => -1 : Nat → ℂ) o) ∧ Fits involutionCtx 20 [0, 0, 0] ∧
    HSeq.hermitianType involutionCtx false (HSeq.construct involutionCtx false [0, 0, 0] .imag) = .antiHermitian := by
  refine ⟨⟨by decide, by decide⟩, ?_, ?_, by simp, ⟨by intro o ho; simp at ho; subst ho; decide, by decide⟩, by decide⟩
  · intro w s w' s' hw h
    simp only [involutionCtx, Option.some.injEq, Prod.mk.injEq] at h
    rw [← h.1]
    split
    · exact ⟨by intro o ho; simp at ho, by simp⟩
    · rename_i hne
      refine ⟨by intro o ho; simp at ho; subst ho; decide, by simp⟩
  · intro w s _
    simp only [involutionCtx, List.map_const', List.prod_replicate]
    congr 1
    rcases Nat.even_or_odd w.length with he | ho
    · rw [if_pos (Nat.even_iff.mp he), he.neg_one_pow]; simp
    · rw [if_neg (by rw [Nat.odd_iff] at ho; omega), ho.neg_one_pow]; simp

/-- In a context without simplification, conjugating a (non-zero, consistent) sequence twice gives it back. -/
theorem C54_conjugate_twice (r L : Nat) (h : Hashable (plain r) L) (heap heap' : Bool) {x : HSeq} (hx : Fits (plain r) L x.ops)
    (hd : x.hash = hashWord (UInt64.ofNat r) x.ops) :
    HSeq.conjugate (plain r) heap' (HSeq.conjugate (plain r) heap x) = x := by
  have h0 : x.hash ≠ 0 := by rw [hd]; exact hash_ne (plain r) L h hx
  have fr : Fits (plain r) L x.ops.reverse := ⟨fun o ho => hx.1 o (List.mem_reverse.mp ho), by simpa using hx.2⟩
  have key : ∀ (hp : Bool) (y : HSeq), y.hash ≠ 0 → Fits (plain r) L y.ops →
      HSeq.conjugate (plain r) hp y = ⟨hashWord (UInt64.ofNat r) y.ops.reverse, y.ops.reverse, y.sign.conj⟩ := by
    intro hp y hy hf
    have h1 : y.isZero = false := by simpa [HSeq.isZero] using hy
    have fry : Fits (plain r) L y.ops.reverse := ⟨fun o ho => hf.1 o (List.mem_reverse.mp ho), by simpa using hf.2⟩
    unfold HSeq.conjugate
    rw [h1, if_neg (by simp), construct_eq h hp fry]
    rfl
  rw [key heap x h0 hx, key heap' _ (hash_ne (plain r) L h fr) fr]
  simp only [List.reverse_reverse, ← hd]
  have : x.sign.conj.conj = x.sign := by cases x.sign <;> rfl
  rw [this]

end Moment.C54
