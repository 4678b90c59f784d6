import Verif.Model.OpSeq
import Verif.Props.C02_Hash

/-! # C04: the stored hash of a word always describes the word

`Reach` lists the ways user code can obtain an operator word: constructors, unary minus, products, conjugation, appending.
`Describes`: the hash is the hash of the stored operators, or the word is the zero word (hash 0 and no operators). -/

namespace Moment.C04

open HSeq

/-- The stored hash describes the word. -/
def Describes (c : Ctx) (s : HSeq) : Prop :=
  (s.hash = 0 ∧ s.ops = []) ∨ s.hash = hashWord (UInt64.ofNat c.radix) s.ops

/-- The operators are operators of the context and their number is at most `L`. -/
def Fits (c : Ctx) (L : Nat) (w : List Nat) : Prop := C02.IsWord c.radix w ∧ w.length ≤ L

/-- Words obtainable through the public interface, from lists of at most `L` operators. `presortedHeap` and `appendZero` say
whether the presorted constructor may be used with heap storage and whether appending to the zero word may be used.
A vector of more than 16 operators is on the heap. -/
inductive Reach (c : Ctx) (L : Nat) (presortedHeap appendZero : Bool) : HSeq → Prop
  | zero : Reach c L presortedHeap appendZero HSeq.zero
  | identity (g : Sign) : Reach c L presortedHeap appendZero (HSeq.identity g)
  | construct (heap : Bool) (w : List Nat) (g : Sign) (h : w.length > 16 → heap = true) (hf : Fits c L w) :
      Reach c L presortedHeap appendZero (HSeq.construct c heap w g)
  | presorted (heap : Bool) (w : List Nat) (g : Sign) (h : w.length > 16 → heap = true) (hf : Fits c L w)
      (hp : heap = true → presortedHeap = true) :
      Reach c L presortedHeap appendZero (HSeq.constructPresorted c heap w g)
  | negative {s : HSeq} : Reach c L presortedHeap appendZero s → Reach c L presortedHeap appendZero (HSeq.negative s)
  | append {s : HSeq} (w : List Nat) : Reach c L presortedHeap appendZero s → (s.isZero = true → appendZero = true) →
      Fits c L (s.ops ++ w) → Reach c L presortedHeap appendZero (HSeq.append c s w)
  | multiply (heap : Bool) {s t : HSeq} : Reach c L presortedHeap appendZero s → Reach c L presortedHeap appendZero t →
      Fits c L (s.ops ++ t.ops) → Reach c L presortedHeap appendZero (HSeq.multiply c heap s t)
  | conjugate (heap : Bool) {s : HSeq} : Reach c L presortedHeap appendZero s → Fits c L s.ops →
      Reach c L presortedHeap appendZero (HSeq.conjugate c heap s)

theorem hashWord_nil (r : UInt64) : hashWord r [] = 1 := rfl

theorem describes_toCanonical (c : Ctx) (s : HSeq) (hz : s.hash ≠ 0) : Describes c (toCanonical c s) := by
  unfold toCanonical
  split
  · exact Or.inl ⟨rfl, rfl⟩
  · right; simp [ctxHash, isZero, hz, hashOps]

/-- Constructing from a list of operators whose raw hash is not 0 (automatic below the hashable length, see C02) gives a word
described by its hash. -/
theorem describes_construct (c : Ctx) (heap : Bool) (w : List Nat) (g : Sign)
    (hz : hashWord (UInt64.ofNat c.radix) w ≠ 0) : Describes c (construct c heap w g) := by
  apply describes_toCanonical
  unfold hashOps movedFrom
  cases heap
  · simpa using hz
  · simp [hashWord_nil]

/-- Part that holds: as long as every list of operators handed over is short enough for hashes not to overflow (the bound of C02), the
presorted constructor is only used with stack storage, and nothing is appended to the zero word, every obtainable word is
described by its hash, whatever the context's simplification does. -/
theorem C04_hash_describes_word_partial (c : Ctx) (L : Nat) (hr : c.radix < 2 ^ 64)
    (hL : (∑ k ∈ Finset.range (L + 1), c.radix ^ k) < 2 ^ 64)
    {s : HSeq} (h : Reach c L false false s) : Describes c s := by
  have hz : ∀ w, Fits c L w → hashWord (UInt64.ofNat c.radix) w ≠ 0 := fun w hw =>
    (C02.C02_hash_shortlex_partial c.radix L hr hL w w hw.1 hw.1 hw.2 hw.2).2.2.1
  induction h with
  | zero => exact Or.inl ⟨rfl, rfl⟩
  | identity g => exact Or.inr rfl
  | construct heap w g _ hf => exact describes_construct c heap w g (hz w hf)
  | presorted heap w g _ _ hp =>
    right
    cases heap
    · rfl
    · simp at hp
  | @negative s _ ih =>
    unfold HSeq.negative
    split
    · exact Or.inl ⟨rfl, rfl⟩
    · exact ih
  | @append s w _ ha _ ih =>
    apply describes_toCanonical
    have : s.isZero = false := by cases h : s.isZero <;> simp_all
    simpa [isZero] using this
  | @multiply heap s t _ _ hf _ _ =>
    unfold HSeq.multiply
    split
    · exact Or.inl ⟨rfl, rfl⟩
    · exact describes_construct c heap _ _ (hz _ hf)
  | @conjugate heap s _ hf _ =>
    unfold HSeq.conjugate
    split
    · exact Or.inl ⟨rfl, rfl⟩
    · refine describes_construct c heap _ _ (hz _ ⟨fun o ho => hf.1 o (by simpa using ho), by simpa using hf.2⟩)

/-- A context without simplifications over `r` operators (used in the witnesses). -/
def plain (r : Nat) : Ctx := { radix := r, simplify := fun w g => some (w, g) }

/-- Refutation 1: 17 presorted operators get the hash of the empty word. -/
theorem C04_refuted_presorted :
    ∃ s, Reach (plain 3) 17 true false s ∧ ¬ Describes (plain 3) s ∧ s.ops = List.replicate 17 0 ∧ s.hash = 1 := by
  refine ⟨constructPresorted (plain 3) true (List.replicate 17 0) .pos, ?_, ?_, rfl, rfl⟩
  · exact Reach.presorted true _ _ (by simp) ⟨by unfold C02.IsWord; simp [plain], by simp⟩ (by simp)
  · rintro (⟨h, _⟩ | h)
    · exact absurd h (by decide +kernel)
    · exact absurd h (by decide +kernel)

/-- Refutation 2: appending an operator to the zero word gives a word with operators whose hash says it is zero. -/
theorem C04_refuted_append_to_zero :
    ∃ s, Reach (plain 3) 17 false true s ∧ ¬ Describes (plain 3) s ∧ s.ops = [2] ∧ s.hash = 0 := by
  refine ⟨append (plain 3) HSeq.zero [2], Reach.append _ Reach.zero (by simp) ⟨by simp [C02.IsWord, plain, HSeq.zero], by simp [HSeq.zero]⟩, ?_, rfl, rfl⟩
  rintro (⟨_, h⟩ | h)
  · exact absurd h (by decide +kernel)
  · exact absurd h (by decide +kernel)

/-- Equality of words is decided by hash and sign: on words described by their hash, below the hashable length, and with the zero
word carried with positive sign, the test is exact. -/
theorem C04_equality_test_exact (c : Ctx) (L : Nat) (hr : c.radix < 2 ^ 64)
    (hL : (∑ k ∈ Finset.range (L + 1), c.radix ^ k) < 2 ^ 64)
    (s t : HSeq) (hs : Describes c s) (ht : Describes c t)
    (ws : C02.IsWord c.radix s.ops) (wt : C02.IsWord c.radix t.ops) (ls : s.ops.length ≤ L) (lt : t.ops.length ≤ L) :
    beq s t = true ↔ (s.hash = 0 ↔ t.hash = 0) ∧ s.ops = t.ops ∧ s.sign = t.sign := by
  have main := C02.C02_hash_shortlex_partial c.radix L hr hL
  have key : s.hash = t.hash ↔ (s.hash = 0 ↔ t.hash = 0) ∧ s.ops = t.ops := by
    rcases hs with ⟨h1, h2⟩ | h1 <;> rcases ht with ⟨h3, h4⟩ | h3
    · simp [h1, h2, h3, h4]
    · have := (main t.ops t.ops wt wt lt lt).2.2.1
      simp [h1, h3, this, Ne.symm this]
    · have := (main s.ops s.ops ws ws ls ls).2.2.1
      simp [h1, h3, this]
    · have a := (main s.ops s.ops ws ws ls ls).2.2.1
      have b := (main t.ops t.ops wt wt lt lt).2.2.1
      simp [h1, h3, a, b, (main s.ops t.ops ws wt ls lt).1]
  unfold beq
  by_cases h : s.hash = t.hash
  · have := key.mp h
    simp only [h, bne_self_eq_false, Bool.false_eq_true, if_false, beq_iff_eq]
    constructor
    · intro hh; exact ⟨by simp, this.2, hh⟩
    · exact fun hh => hh.2.2
  · have h' : (s.hash != t.hash) = true := by simpa using h
    simp only [h', if_true, Bool.false_eq_true, false_iff]
    rintro ⟨a, b, -⟩
    exact h (key.mpr ⟨a, b⟩)

/-- The three-valued comparison returns 1 for equal words, -1 for words with the same operators and opposite signs, else 0. -/
theorem C04_compare_same_negation (s t : HSeq) :
    (compareSameNegation s t = 1 ↔ s.hash = t.hash ∧ s.sign = t.sign) ∧
    (compareSameNegation s t = -1 ↔ s.hash = t.hash ∧ s.sign = t.sign.negate) ∧
    (compareSameNegation s t = 1 ∨ compareSameNegation s t = -1 ∨ compareSameNegation s t = 0) := by
  unfold compareSameNegation
  by_cases h : s.hash = t.hash
  · rcases s with ⟨a, b, sg⟩; rcases t with ⟨a', b', sg'⟩
    cases sg <;> cases sg' <;> simp_all [Sign.isImaginary, Sign.isNegative, Sign.negate, Sign.code, Sign.ofCode]
  · simp [h]

example : (5 : Nat) < 2 ^ 64 ∧ (∑ k ∈ Finset.range (20 + 1), 5 ^ k) < 2 ^ 64 ∧
    Reach (plain 5) 20 false false (multiply (plain 5) false (construct (plain 5) false [1, 4] .imag)
    (HSeq.negative (construct (plain 5) false [2] .pos))) := by
  have f : ∀ w : List Nat, (∀ o ∈ w, o < 5) → w.length ≤ 20 → Fits (plain 5) 20 w := fun w a b => ⟨a, b⟩
  refine ⟨by decide, by decide, Reach.multiply _ (Reach.construct _ _ _ (by simp) (f _ (by simp) (by simp)))
    (Reach.negative (Reach.construct _ _ _ (by simp) (f _ (by simp) (by simp)))) (f _ (by decide +kernel) (by decide +kernel))⟩

end Moment.C04
