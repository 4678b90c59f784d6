import Verif.Model.LocalizingInput
import Verif.Props.C126_PolyInput
import Verif.Props.C134_WordOps

/-! # C138: the expressions of localizing matrices are read as what they say -/

namespace Moment.C138
open Moment.RuleInput (Out cast16)
open Moment.PolyInput Moment.LocalizingInput
open Moment.SymbolText (Doubles)
open Moment.Symbols (Table)
open Moment.WordOps (Host)
open Moment.Rewrite (evalWord phase)

variable {s : Streams} {D : Doubles} {h : Host} {t : Table} {o : Poly.Order}

/-! ## Specification -/

/-- Arrays of integers, as integers or as `double`. -/
inductive Numbers : Value → List Int → Prop
  | ints {l : List Int} : Numbers (.ints l) l
  | doubles {l : List Int} : Numbers (.doubles (l.map fun (x : Int) => (x : ℝ))) l

/-- The number of the first operator. -/
def first (fromOne : Bool) : Int := if fromOne then 1 else 0

/-- All are numbers of operators. -/
def Known (size : Nat) (fromOne : Bool) (l : List Int) : Prop := ∀ x ∈ l, first fromOne ≤ x ∧ x < first fromOne + size

instance (size : Nat) (fromOne : Bool) (l : List Int) : Decidable (Known size fromOne l) := by unfold Known; infer_instance

/-- Numbers that fit in 16 bits, also after one is subtracted. -/
def Small (l : List Int) : Prop := ∀ x ∈ l, -32767 ≤ x ∧ x ≤ 32767

/-! ## Steps -/

theorem readOps_numbers {v : Value} {l : List Int} (hv : Numbers v l) (hl : Small l) : readOps s v = .ok l := by
  cases hv with
  | ints =>
    have : l.map cast16 = l := by
      conv_rhs => rw [← List.map_id l]
      refine List.map_congr_left fun x hx => C125.cast16_id ?_
      have := hl x hx
      omega
    simp only [readOps, this]
  | doubles =>
    simp only [readOps]
    rw [C125.each_ok, List.forall₂_map_left_iff, List.forall₂_same]
    intro x hx
    have := hl x hx
    unfold castReal
    rw [C126.towardsZero_int, if_pos ⟨by omega, by omega⟩]

theorem read_numbers {v : Value} {l : List Int} (hv : Numbers v l) (fromOne : Bool) :
    readExpression s D fromOne .sequence v = ((readOps s v).bind (offset fromOne)).bind fun l => .ok (.word l) := by
  cases hv <;> simp only [readExpression, readWord, if_true]

theorem localizing_numbers {v : Value} {l : List Int} (hv : Numbers v l) (hl : Small l) (fromOne : Bool) :
    localizing s D h t o fromOne .sequence v = (offset fromOne l).bind fun l => (WordOps.ranged h l).bind fun w => .ok (.word (h.seq w)) := by
  rw [localizing, read_numbers hv, readOps_numbers hv hl]
  simp only [Out.bind]
  cases offset fromOne l <;> rfl

/-! ## Theorems -/

/-- A word of numbers is read as the sequence of these operators, counted from one or from zero, if all of them exist; else it is refused. Missing: numbers that do not
fit in 16 bits (`C138_refuted_wrap`), and contexts with more operators than that. -/
theorem C138_word_partial {v : Value} {l : List Int} (hv : Numbers v l) (hl : Small l) (fromOne : Bool) :
    localizing s D h t o fromOne .sequence v =
      if Known h.size fromOne l then .ok (.word (h.seq (l.map fun x => (x - first fromOne).toNat))) else .refused := by
  rw [localizing_numbers hv hl]
  cases fromOne with
  | false =>
    rw [offset, if_neg (by simp)]
    simp only [Out.bind]
    rcases C134.ranged_ok h l with ⟨h1, h2⟩ | ⟨h1, x, hx, h2⟩
    · rw [h1, if_pos (show Known h.size false l by simpa [Known, first] using h2)]
      simp [first]
    · rw [h1, if_neg]
      intro hk
      have := hk x hx
      simp only [first] at this
      simp at this
      omega
  | true =>
    rw [offset, if_pos rfl]
    by_cases h0 : ∃ x ∈ l, x = 0
    · rw [C129.each_refused (fun x _ => by split <;> exact fun e => by cases e) (by
        obtain ⟨x, hx, e⟩ := h0
        exact ⟨x, hx, if_pos e⟩)]
      rw [if_neg]
      · rfl
      · obtain ⟨x, hx, rfl⟩ := h0
        intro hk
        have := (hk 0 hx).1
        simp [first] at this
    · have e : Out.each (fun (x : Int) => if x = 0 then Out.refused else .ok (cast16 (x - 1))) l = .ok (l.map fun x => x - 1) := by
        refine C129.each_map fun x hx => ?_
        have := hl x hx
        rw [if_neg fun e => h0 ⟨x, hx, e⟩, C125.cast16_id (by omega)]
      rw [e]
      simp only [Out.bind]
      rcases C134.ranged_ok h (l.map fun x => x - 1) with ⟨h1, h2⟩ | ⟨h1, x, hx, h2⟩
      · rw [h1, if_pos]
        · simp [first, Function.comp_def]
        · intro x hx
          have := h2 (x - 1) (List.mem_map.mpr ⟨x, hx, rfl⟩)
          simp only [first, if_true]
          omega
      · rw [h1, if_neg]
        intro hk
        obtain ⟨y, hy, rfl⟩ := List.mem_map.mp hx
        have := hk y hy
        simp only [first, if_true] at this
        omega

/-- In contexts whose sequences stand for their words, the word stands for the product of the given operators. -/
theorem C138_value {A : Type} [Ring A] [Algebra ℂ A] {L : Nat} {ρ : Nat → A} (hF : C134.Faithful h L ρ) {v : Value} {l : List Int} (hv : Numbers v l) (hl : Small l)
    {fromOne : Bool} (hk : Known h.size fromOne l) (hL : l.length ≤ L) :
    ∃ w, localizing s D h t o fromOne .sequence v = .ok (.word w) ∧
      (if w.hash = 0 then 0 else phase w.sign • evalWord ρ w.ops) = (l.map fun x => ρ (x - first fromOne).toNat).prod := by
  refine ⟨h.seq (l.map fun x => (x - first fromOne).toNat), by rw [C138_word_partial hv hl, if_pos hk], ?_⟩
  rw [hF _ (by
    intro y hy
    obtain ⟨x, hx, rfl⟩ := List.mem_map.mp hy
    have := hk x hx
    omega) (by simpa using hL), evalWord, List.map_map]
  rfl

/-- Words are only read without flags, and cells only with flags; cells say polynomials in symbols or in words as everywhere (C126), and nothing else is read. -/
theorem C138_kinds (fromOne : Bool) (k : Kind) :
    (∀ {v : Value} {l : List Int}, Numbers v l → k ≠ .sequence → localizing s D h t o fromOne k v = .refused) ∧
    (∀ l, localizing s D h t o fromOne .sequence (.cell l) = .refused) ∧
    (∀ l p, localizing s D h t o fromOne .symbols (.cell l) = .ok p ↔ ∃ q, importPolynomial s D t o (.cell l) = .ok q ∧ p = .symbols q) ∧
    (∀ l p, localizing s D h t o fromOne .operators (.cell l) = .ok p ↔ ∃ r, (stage s (.cell l)).bind (supply h.size h.seq) = .ok r ∧ p = .words r) ∧
    (∀ l, localizing s D h t o fromOne k (.bools l) = .refused) ∧ ∀ l, localizing s D h t o fromOne k (.complexes l) = .refused := by
  refine ⟨fun hv hk => ?_, fun l => rfl, fun l p => ?_, fun l p => ?_, fun l => rfl, fun l => rfl⟩
  · cases hv <;> simp only [localizing, readExpression, readWord, if_neg hk, Out.bind]
  · simp only [localizing, readExpression, importPolynomial]
    cases readTerms s D (.cell l) with
    | ok q =>
      simp only [Out.bind, toIndex]
      cases toPolynomial t o q with
      | ok q' => simpa using eq_comm
      | _ => simp
    | _ => simp [Out.bind]
  · simp only [localizing, readExpression]
    cases stage s (.cell l) with
    | ok q =>
      simp only [Out.bind, toIndex]
      cases supply h.size h.seq q with
      | ok q' => simpa using eq_comm
      | _ => simp
    | _ => simp [Out.bind]

/-- **Refuted.** Numbers that do not fit in 16 bits are not refused: 65537 is read as the first operator, in all contexts that have one, and not that
many. -/
theorem C138_refuted_wrap (hs : 0 < h.size) (hs' : h.size < 65537) : ¬Known h.size true [65537] ∧
    localizing s D h t o true .sequence (.ints [65537]) = .ok (.word (h.seq [0])) := by
  have e : cast16 65537 = 1 := by decide
  have e' : cast16 (1 - 1) = 0 := by decide
  refine ⟨fun hk => ?_, ?_⟩
  · have := (hk 65537 (by simp)).2
    simp only [first, if_true] at this
    omega
  · have hr : WordOps.ranged h [0] = .ok [0] := by
      simp only [WordOps.ranged, Out.each]
      rw [if_neg (by omega)]
      rfl
    simp only [localizing, readExpression, readWord, if_true, readOps, List.map_cons, List.map_nil, e, Out.bind, offset, Out.each]
    rw [if_neg (by decide), e']
    simp only [toIndex, hr, Out.bind]

/-- **Refuted.** The flag for counting from zero has no effect on polynomials in words: with it, the word `[1]` is the second operator, but in a cell it is the first; and
the word `[0]`, which is the first, is refused in a cell. -/
theorem C138_refuted_flag (hs : 1 < h.size) : localizing s D h t o false .sequence (.ints [1]) = .ok (.word (h.seq [1])) ∧
    localizing s D h t o false .operators (.cell [.cell [.ints [1]]]) = .ok (.words [(h.seq [0], 1)]) ∧
    localizing s D h t o false .sequence (.ints [0]) = .ok (.word (h.seq [0])) ∧
    localizing s D h t o false .operators (.cell [.cell [.ints [0]]]) = .refused := by
  refine ⟨?_, ?_, ?_, ?_⟩
  · rw [C138_word_partial .ints (by simp [Small]), if_pos (by simp [Known, first]; omega)]
    rfl
  · refine ((C138_kinds false .operators).2.2.2.1 _ _).mpr ⟨_, ?_, rfl⟩
    have e := C126.C126_words (s := s) (num := h.size) (resolve := h.seq) (l := [([0], 1)]) (.cons (.one (.ints (w := [0]) (by simp))) .nil)
    rw [if_pos (by simp; omega)] at e
    exact e
  · rw [C138_word_partial .ints (by simp [Small]), if_pos (by simp [Known, first]; omega)]
    rfl
  · have e : cast16 0 = 0 := by decide
    have : readOps s (.ints [0]) = .ok [0] := by simp only [readOps, List.map_cons, List.map_nil, e]
    simp [localizing, readExpression, stage, stageTerm, Out.each, Out.bind, this, fromOne]

/-! ## Examples -/

/-- Contexts with two operators, and words that are known and unknown. -/
example : Known 2 true [1, 2, 2] ∧ ¬Known 2 true [0] ∧ Known 2 false [0, 1] ∧ ¬Known 2 false [2] ∧ Small [1, 2, 2] := by
  refine ⟨by decide, by decide, by decide, by decide, by unfold Small; decide⟩

example : 1 < (WordOps.locality C10.exScenario).size := by decide +kernel

/-- The hypotheses of `C138_value` hold: numbers as operators, without simplification. -/
example (s : Streams) (D : Doubles) (t : Table) (o : Poly.Order) (ρ : Nat → ℂ) := C138_value (s := s) (D := D) (t := t) (o := o) (ρ := ρ) (L := 3) (fromOne := true)
  (h := ⟨2, fun w => ⟨1, w, .pos⟩, id, none⟩) (by intro w _ _; simp [phase]) (.ints (l := [2, 1, 2])) (by unfold Small; decide) (by decide) (by decide)

end Moment.C138
