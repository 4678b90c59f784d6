import Verif.Model.WordText
import Verif.Props.C122_PartyText
import Verif.Proof.InflationLists

/-! # C123: in generic, Pauli and inflation contexts, different words have different texts -/

namespace Moment.C123
open Moment.WordText
open Moment.Parties (Text joined joined_cons joined_inj letters digits_inj digits_digit cut negative)
open Moment.C122 (digits_cons digit_spec letters_inj joined_mark joined_not)

/-! ## Cutting texts -/

/-- Where a text is cut by the first character without a property. -/
theorem cut_first {p : Char → Bool} {a b a' b' : Text} (ha : ∀ x ∈ a, p x = true) (ha' : ∀ x ∈ a', p x = true) (hb : ∀ x, b.head? = some x → p x = false)
    (hb' : ∀ x, b'.head? = some x → p x = false) (h : a ++ b = a' ++ b') : a = a' ∧ b = b' := by
  have key : ∀ {a b : Text}, (∀ x ∈ a, p x = true) → (∀ x, b.head? = some x → p x = false) → (a ++ b).takeWhile p = a := by
    intro a b ha hb
    rw [List.takeWhile_append_of_pos ha]
    cases b with
    | nil => simp
    | cons y b => simp [hb y rfl]
  have e : a = a' := by rw [← key ha hb, h, key ha' hb']
  subst e
  exact ⟨rfl, List.append_cancel_left h⟩

/-- Signs are read off from texts that do not begin like signs. -/
theorem sign_cut {g g' : Sign} {b b' : Text} (hb : ∀ x, b.head? = some x → x ≠ 'i' ∧ x ≠ '-') (hb' : ∀ x, b'.head? = some x → x ≠ 'i' ∧ x ≠ '-')
    (h : signText g ++ b = signText g' ++ b') : g = g' ∧ b = b' := by
  have key : ∀ g, ∀ x ∈ signText g, (x == 'i' || x == '-') = true := by
    intro g
    cases g <;> decide
  obtain ⟨h1, h2⟩ := cut_first (p := fun x => x == 'i' || x == '-') (key g) (key g') (fun x hx => by simp [hb x hx]) (fun x hx => by simp [hb' x hx]) h
  refine ⟨?_, h2⟩
  cases g <;> cases g' <;> first | rfl | (exact absurd h1 (by decide))

theorem braced_inj {b : Bool} {t u : Text} (h : braced b t = braced b u) : t = u :=
  List.append_cancel_right (List.append_cancel_left h)

theorem braced_head {b : Bool} {t : Text} {q : Char → Prop} (h1 : q '<') (h2 : t ≠ []) (h3 : ∀ x, t.head? = some x → q x) : ∀ x, (braced b t).head? = some x → q x := by
  intro x hx
  unfold braced at hx
  cases b with
  | true =>
    simp at hx
    exact hx ▸ h1
  | false =>
    cases t with
    | nil => exact absurd rfl h2
    | cons y t =>
      simp at hx
      exact hx ▸ h3 y rfl

/-- Different words have different texts if different operators have. -/
theorem words_inj {α : Type} {t : α → Text} {good : α → Prop} (hc : ∀ a, good a → ';' ∉ t a ∧ t a ≠ []) (hi : ∀ a b, good a → good b → t a = t b → a = b) {w w' : List α}
    (hw : ∀ a ∈ w, good a) (hw' : ∀ a ∈ w', good a) (h : joined (w.map t) = joined (w'.map t)) : w = w' := by
  have e : w.map t = w'.map t := by
    apply joined_inj _ _ h
    · intro u hu
      obtain ⟨a, ha, rfl⟩ := List.mem_map.mp hu
      exact hc a (hw a ha)
    · intro u hu
      obtain ⟨a, ha, rfl⟩ := List.mem_map.mp hu
      exact hc a (hw' a ha)
  clear h
  induction w generalizing w' with
  | nil =>
    cases w' with
    | nil => rfl
    | cons => simp at e
  | cons a w ih =>
    cases w' with
    | nil => simp at e
    | cons a' w' =>
      simp only [List.map_cons, List.cons.injEq] at e
      rw [hi a a' (hw a (by simp)) (hw' a' (by simp)) e.1, ih (fun x hx => hw x (by simp [hx])) (fun x hx => hw' x (by simp [hx])) e.2]

theorem joined_head {t : Text} {ts : List Text} {c : Char} {r : Text} (h : t = c :: r) : ∃ r', joined (t :: ts) = c :: r' := by
  subst h
  cases ts with
  | nil => exact ⟨r, rfl⟩
  | cons u us => exact ⟨r ++ ';' :: joined (u :: us), rfl⟩

/-! ## Generic contexts -/

theorem generic_op {o : Nat} : ';' ∉ genericOp o ∧ genericOp o ≠ [] := by
  refine ⟨?_, by simp [genericOp]⟩
  intro h
  rcases List.mem_cons.mp h with h | h
  · exact absurd h (by decide)
  · exact (digit_spec (digits_digit h)).2.1 rfl

theorem generic_op_inj {a b : Nat} (h : genericOp a = genericOp b) : a = b := by
  have := digits_inj (List.cons.inj h).2
  omega

/-- The text without its sign. -/
def genericBody (b : Bool) : Option (List Nat × Sign) → Text
  | none => ['0']
  | some ([], .pos) | some ([], .neg) => ['1']
  | some ([], _) => []
  | some (w, _) => braced b (joined (w.map genericOp))

def signOf : Option (List Nat × Sign) → Sign
  | none => .pos
  | some (_, g) => g

theorem generic_eq (b : Bool) (v : Option (List Nat × Sign)) : generic b v = signText (signOf v) ++ genericBody b v := by
  match v with
  | none => rfl
  | some ([], g) => cases g <;> rfl
  | some (_ :: _, g) => rfl

theorem generic_word_head {b : Bool} {o : Nat} {w : List Nat} : ∀ x, (braced b (joined ((o :: w).map genericOp))).head? = some x → x = '<' ∨ x = 'X' := by
  obtain ⟨r, hr⟩ := joined_head (t := genericOp o) (ts := w.map genericOp) rfl
  rw [List.map_cons, hr]
  exact braced_head (q := fun x => x = '<' ∨ x = 'X') (.inl rfl) (by simp) fun x hx => by
    simp at hx
    exact .inr hx.symm

theorem generic_head {b : Bool} (v : Option (List Nat × Sign)) : ∀ x, (genericBody b v).head? = some x → x ≠ 'i' ∧ x ≠ '-' := by
  intro x hx
  match v with
  | none => simp [genericBody] at hx; subst hx; decide
  | some ([], g) => cases g <;> simp [genericBody] at hx <;> subst hx <;> decide
  | some (o :: w, g) =>
    rcases generic_word_head x hx with rfl | rfl <;> decide

/-- **C123** In generic contexts different words, zero, and words with another of the four signs have different texts. -/
theorem C123_generic (b : Bool) : Function.Injective (generic b) := by
  intro v v' h
  rw [generic_eq, generic_eq] at h
  obtain ⟨h1, h2⟩ := sign_cut (generic_head v) (generic_head v') h
  have hne : ∀ (o : Nat) (w : List Nat) (t : Text), t = [] ∨ t = ['0'] ∨ t = ['1'] → braced b (joined ((o :: w).map genericOp)) ≠ t := by
    intro o w t ht e
    have hl := generic_word_head (b := b) (o := o) (w := w)
    rw [e] at hl
    rcases ht with rfl | rfl | rfl
    · have : joined ((o :: w).map genericOp) = [] := by
        unfold braced at e
        exact (List.append_eq_nil_iff.mp (List.append_eq_nil_iff.mp e).2).1
      obtain ⟨r, hr⟩ := joined_head (t := genericOp o) (ts := w.map genericOp) rfl
      rw [List.map_cons, hr] at this
      simp at this
    · exact absurd (hl '0' rfl) (by decide)
    · exact absurd (hl '1' rfl) (by decide)
  match v, v' with
  | none, none => rfl
  | none, some ([], g) => cases g <;> simp [genericBody] at h2
  | some ([], g), none => cases g <;> simp [genericBody] at h2
  | none, some (o :: w, g) => exact absurd h2.symm (hne o w _ (.inr (.inl rfl)))
  | some (o :: w, g), none => exact absurd h2 (hne o w _ (.inr (.inl rfl)))
  | some ([], g), some ([], g') =>
    obtain rfl : g = g' := h1
    rfl
  | some ([], g), some (o :: w, g') => exact absurd h2.symm (hne o w _ (by cases g <;> simp [genericBody]))
  | some (o :: w, g), some ([], g') => exact absurd h2 (hne o w _ (by cases g' <;> simp [genericBody]))
  | some (o :: w, g), some (o' :: w', g') =>
    obtain rfl : g = g' := h1
    have := words_inj (good := fun _ => True) (fun _ _ => generic_op) (fun _ _ _ _ => generic_op_inj) (w := o :: w) (w' := o' :: w') (by simp) (by simp) (braced_inj h2)
    rw [this]

example : generic true (some ([0, 11], .negImag)) = "-i<X1;X12>".toList ∧ generic true (some ([0, 1, 1], .negImag)) ≠ generic true (some ([0, 11], .negImag)) :=
  ⟨by decide, fun h => absurd (C123_generic true h) (by decide)⟩

/-- **C123** The text of operators without sign is that of the word with sign plus. -/
theorem C123_generic_raw (b : Bool) (w : List Nat) : genericRaw b w = generic b (some (w, .pos)) := by
  unfold genericRaw generic
  cases w <;> rfl

example : genericRaw false [2] = "X3".toList := by rw [C123_generic_raw]; decide

/-! ## Pauli contexts -/

theorem pauli_letter (o : Nat) : ∃ x, pauliOp o = x :: Nat.toDigits 10 (o / 3 + 1) ∧ (x = 'X' ∧ o % 3 = 0 ∨ x = 'Y' ∧ o % 3 = 1 ∨ x = 'Z' ∧ o % 3 = 2) := by
  refine ⟨_, rfl, ?_⟩
  have : o % 3 = 0 ∨ o % 3 = 1 ∨ o % 3 = 2 := by omega
  rcases this with h | h | h <;> simp [h]

theorem pauli_head (w : List Nat) : ∀ x, (w.flatMap pauliOp).head? = some x → x = 'X' ∨ x = 'Y' ∨ x = 'Z' := by
  intro x hx
  cases w with
  | nil => simp at hx
  | cons o w =>
    obtain ⟨y, h1, h2⟩ := pauli_letter o
    rw [List.flatMap_cons, h1] at hx
    simp at hx
    subst hx
    rcases h2 with ⟨h, _⟩ | ⟨h, _⟩ | ⟨h, _⟩ <;> simp [h]

theorem pauli_inj : ∀ {w w' : List Nat}, w.flatMap pauliOp = w'.flatMap pauliOp → w = w'
  | [], [], _ => rfl
  | [], o :: w, h => by
    obtain ⟨y, h1, _⟩ := pauli_letter o
    rw [List.flatMap_cons, h1] at h
    simp at h
  | o :: w, [], h => by
    obtain ⟨y, h1, _⟩ := pauli_letter o
    rw [List.flatMap_cons, h1] at h
    simp at h
  | o :: w, o' :: w', h => by
    obtain ⟨y, h1, h2⟩ := pauli_letter o
    obtain ⟨y', h1', h2'⟩ := pauli_letter o'
    rw [List.flatMap_cons, List.flatMap_cons, h1, h1', List.cons_append, List.cons_append, List.cons.injEq] at h
    have hd : ∀ w : List Nat, ∀ x, (w.flatMap pauliOp).head? = some x → x.isDigit = false := by
      intro w x hx
      rcases pauli_head w x hx with rfl | rfl | rfl <;> decide
    obtain ⟨e1, e2⟩ := cut_first (p := Char.isDigit) (fun x hx => digits_digit hx) (fun x hx => digits_digit hx) (hd w) (hd w') h.2
    have e3 := digits_inj e1
    have e4 : o % 3 = o' % 3 := by
      have := h.1
      rcases h2 with ⟨a, b⟩ | ⟨a, b⟩ | ⟨a, b⟩ <;> rcases h2' with ⟨a', b'⟩ | ⟨a', b'⟩ | ⟨a', b'⟩ <;> rw [a, a'] at this <;> first | omega | exact absurd this (by decide)
    rw [show o = o' by omega, pauli_inj e2]

theorem pauli_body (w : List Nat) : (if w.isEmpty then ['I'] else w.flatMap pauliOp) ≠ [] ∧
    ∀ x, (if w.isEmpty then ['I'] else w.flatMap pauliOp).head? = some x → x = 'I' ∨ x = 'X' ∨ x = 'Y' ∨ x = 'Z' := by
  cases w with
  | nil => simp
  | cons o w =>
    refine ⟨?_, fun x hx => .inr (pauli_head (o :: w) x hx)⟩
    obtain ⟨y, h1, _⟩ := pauli_letter o
    simp [h1]

/-- **C123** In Pauli contexts different words have different texts. -/
theorem C123_pauli_raw (b : Bool) : Function.Injective (pauliRaw b) := by
  intro w w' h
  have h := braced_inj h
  match w, w' with
  | [], [] => rfl
  | [], o :: w =>
    have := pauli_head (o :: w) 'I' (by rw [show (o :: w).flatMap pauliOp = ['I'] from h.symm]; rfl)
    exact absurd this (by decide)
  | o :: w, [] =>
    have := pauli_head (o :: w) 'I' (by rw [show (o :: w).flatMap pauliOp = ['I'] from h]; rfl)
    exact absurd this (by decide)
  | o :: w, o' :: w' => exact pauli_inj h

example : pauliRaw true [0, 34] = "<X1Y12>".toList ∧ ∀ w, pauliRaw true w = "<X1Y12>".toList → w = [0, 34] :=
  ⟨by decide, fun w h => C123_pauli_raw true (h.trans (by decide))⟩

/-- **C123** In Pauli contexts different words, zero, and words with another of the four signs have different texts. -/
theorem C123_pauli (b : Bool) : Function.Injective (pauli b) := by
  have hh : ∀ w : List Nat, ∀ x, (pauliRaw b w).head? = some x → x = '<' ∨ x = 'I' ∨ x = 'X' ∨ x = 'Y' ∨ x = 'Z' := fun w =>
    braced_head (q := fun x => x = '<' ∨ x = 'I' ∨ x = 'X' ∨ x = 'Y' ∨ x = 'Z') (.inl rfl) (pauli_body w).1 fun x hx => .inr ((pauli_body w).2 x hx)
  have hs : ∀ w : List Nat, ∀ x, (pauliRaw b w).head? = some x → x ≠ 'i' ∧ x ≠ '-' := by
    intro w x hx
    rcases hh w x hx with rfl | rfl | rfl | rfl | rfl <;> decide
  have hz : ∀ (w : List Nat) (g : Sign), signText g ++ pauliRaw b w ≠ ['0'] := by
    intro w g e
    have := sign_cut (g := g) (g' := .pos) (b' := ['0']) (hs w) (by simp) e
    have := hh w '0' (by rw [this.2]; rfl)
    revert this
    decide
  intro v v' h
  match v, v' with
  | none, none => rfl
  | none, some (w, g) => exact absurd h.symm (hz w g)
  | some (w, g), none => exact absurd h (hz w g)
  | some (w, g), some (w', g') =>
    obtain ⟨rfl, h2⟩ := sign_cut (hs w) (hs w') h
    rw [C123_pauli_raw b h2]

example : pauli false (some ([], .negImag)) = "-iI".toList ∧ ∀ v, pauli false v = "-iI".toList → v = some ([], .negImag) :=
  ⟨by decide, fun v h => C123_pauli false (h.trans (by decide))⟩

/-! ## Inflation contexts -/

open Moment.Inflation (Causal Op Built Ctx obsAt operatorInfo variantIndices Obs.copies operatorCount enc enc_surj info_enc unflattenIndex unflatten_val val val_inj flattenIndex flatten_eq
  obsAt_eq obsAt_outcomes obs_get obs_get_iff unflatten_spec obsAt_copies)

/-- What letters are. -/
def upper (c : Char) : Bool := decide (65 ≤ c.toNat) && decide (c.toNat ≤ 90)

theorem letters_upper (k : Nat) : (∀ c ∈ letters true k, upper c = true) ∧ letters true k ≠ [] := by
  constructor
  · intro c hc
    unfold letters at hc
    obtain ⟨d, hd, rfl⟩ := List.mem_map.mp hc
    have h : d < 26 := (C46.C46_number k).2 d hd
    have key : ∀ d < 26, upper (Char.ofNat ((if true then 65 else 97) + d)) = true := by decide
    exact key d h
  · intro h
    unfold letters at h
    have e := List.map_eq_nil_iff.mp h
    have := (C46.C46_number k).1
    rw [e] at this
    simp [C46.number] at this

theorem digit_upper {c : Char} (h : c.isDigit = true) : upper c = false := by
  unfold upper
  unfold Char.isDigit at h
  have h2 : c.toNat ≤ 57 := by
    simp only [Bool.and_eq_true, decide_eq_true_eq] at h
    exact UInt32.le_iff_toNat_le.mp h.2
  simp
  omega

theorem upper_ne {c : Char} (h : upper c = true) : c ≠ ';' ∧ c ≠ '-' ∧ c ≠ '.' ∧ c ≠ '0' ∧ c ≠ '1' ∧ c ≠ '<' := by
  refine ⟨?_, ?_, ?_, ?_, ?_, ?_⟩ <;> rintro rfl <;> revert h <;> decide

/-- Lists of numbers between commas. -/
theorem commas_inj : ∀ {l l' : List Nat}, l.length = l'.length → [','].intercalate (l.map (Nat.toDigits 10)) = [','].intercalate (l'.map (Nat.toDigits 10)) → l = l'
  | [], [], _, _ => rfl
  | [], _ :: _, h, _ => by simp at h
  | _ :: _, [], h, _ => by simp at h
  | [a], [b], _, h => by
    simp [List.intercalate] at h
    rw [digits_inj h]
  | [_], _ :: _ :: _, h, _ => by simp at h
  | _ :: _ :: _, [_], h, _ => by simp at h
  | a :: b :: l, a' :: b' :: l', hl, h => by
    have key : ∀ (a b : Nat) (l : List Nat), [','].intercalate ((a :: b :: l).map (Nat.toDigits 10)) =
        Nat.toDigits 10 a ++ ',' :: [','].intercalate ((b :: l).map (Nat.toDigits 10)) := by
      intro a b l
      simp [List.intercalate]
    rw [key, key] at h
    have hc : ∀ n, ∀ x ∈ Nat.toDigits 10 n, ¬ x = ',' := by
      intro n x hx e
      have := digits_digit hx
      rw [e] at this
      revert this
      decide
    obtain ⟨e1, _, e2⟩ := cut (p := (· = ',')) (hc a) (hc a') rfl rfl h
    rw [digits_inj e1, commas_inj (by simpa using hl) e2]

/-- Lists of single digits. -/
theorem single_inj : ∀ {l l' : List Nat}, (∀ d ∈ l, d < 10) → (∀ d ∈ l', d < 10) → l.flatMap (Nat.toDigits 10) = l'.flatMap (Nat.toDigits 10) → l = l' := by
  have key : ∀ {l : List Nat}, (∀ d ∈ l, d < 10) → l.flatMap (Nat.toDigits 10) = l.map Nat.digitChar := by
    intro l hl
    induction l with
    | nil => rfl
    | cons a l ih =>
      rw [List.flatMap_cons, List.map_cons, Nat.toDigits_of_lt_base (hl a (by simp)), ih fun d hd => hl d (by simp [hd])]
      rfl
  intro l l' hl hl' h
  rw [key hl, key hl'] at h
  have inj : ∀ a < 10, ∀ b < 10, Nat.digitChar a = Nat.digitChar b → a = b := by decide
  clear key
  induction l generalizing l' with
  | nil =>
    cases l' with
    | nil => rfl
    | cons => simp at h
  | cons a l ih =>
    cases l' with
    | nil => simp at h
    | cons a' l' =>
      simp only [List.map_cons, List.cons.injEq] at h
      rw [inj a (hl a (by simp)) a' (hl' a' (by simp)) h.1, ih (fun d hd => hl d (by simp [hd])) (fun d hd => hl' d (by simp [hd])) h.2]

theorem copyText_inj {c : Ctx} {l l' : List Nat} (hl : ∀ d ∈ l, d < c.infl) (hl' : ∀ d ∈ l', d < c.infl) (hlen : l.length = l'.length) (h : copyText c l = copyText c l') : l = l' := by
  have h := List.append_cancel_right (List.append_cancel_left h)
  split at h
  · exact commas_inj hlen h
  · exact single_inj (fun d hd => by have := hl d hd; omega) (fun d hd => by have := hl' d hd; omega) h

theorem copyText_chars {c : Ctx} {l : List Nat} : ∀ x ∈ copyText c l, x.isDigit = true ∨ x = ',' ∨ x = '[' ∨ x = ']' := by
  have hi : ∀ l : List Nat, ∀ x ∈ [','].intercalate (l.map (Nat.toDigits 10)), x.isDigit = true ∨ x = ',' := by
    intro l
    induction l with
    | nil => simp [List.intercalate]
    | cons a l ih =>
      cases l with
      | nil =>
        intro x hx
        simp [List.intercalate] at hx
        exact .inl (digits_digit hx)
      | cons b l =>
        intro x hx
        have e : [','].intercalate ((a :: b :: l).map (Nat.toDigits 10)) = Nat.toDigits 10 a ++ ',' :: [','].intercalate ((b :: l).map (Nat.toDigits 10)) := by
          simp [List.intercalate]
        rw [e] at hx
        rcases List.mem_append.mp hx with hx | hx
        · exact .inl (digits_digit hx)
        · rcases List.mem_cons.mp hx with rfl | hx
          · exact .inr rfl
          · exact ih x hx
  intro x hx
  unfold copyText at hx
  rcases List.mem_append.mp hx with hx | hx
  · split at hx <;> simp at hx
    exact .inr (.inr (.inl hx))
  · rcases List.mem_append.mp hx with hx | hx
    · split at hx
      · exact (hi l x hx).imp id .inl
      · obtain ⟨a, _, ha⟩ := List.mem_flatMap.mp hx
        exact .inl (digits_digit ha)
    · split at hx <;> simp at hx
      exact .inr (.inr (.inr hx))

variable {n : Causal} {c : Ctx}

/-- The numbers that are written for a copy of an observable. -/
theorem indices_spec (h1 : 1 < c.infl) {o v : Nat} (hv : v < (obsAt c o).copies c.infl) :
    (∀ d ∈ variantIndices c o v, d < c.infl) ∧ (variantIndices c o v).length = (obsAt c o).sources.length ∧ val c.infl (variantIndices c o v) = v := by
  have hp : v < c.infl ^ (obsAt c o).sources.length := by
    rw [Obs.copies] at hv
    split at hv
    · exact Nat.lt_of_lt_of_le hv (Nat.one_le_pow _ _ (by omega))
    · exact hv
  obtain ⟨a, b, d⟩ := unflatten_spec (by omega) hp
  exact ⟨b, a, d⟩

/-- Copies are told apart by the numbers that are written for them. -/
theorem copy_inj (hb : Built n c) {o k v v' : Nat} (ho : n.outcomes[o]? = some k) (hv : v < (obsAt c o).copies c.infl) (hv' : v' < (obsAt c o).copies c.infl)
    (h : (if 1 < c.infl then copyText c (variantIndices c o v) else []) = if 1 < c.infl then copyText c (variantIndices c o v') else []) : v = v' := by
  by_cases h1 : 1 < c.infl
  · rw [if_pos h1, if_pos h1] at h
    obtain ⟨a1, a2, a3⟩ := indices_spec h1 hv
    obtain ⟨b1, b2, b3⟩ := indices_spec h1 hv'
    rw [← a3, ← b3, copyText_inj a1 b1 (by rw [a2, b2]) h]
  · have : (obsAt c o).copies c.infl ≤ 1 := by
      rw [obsAt_copies hb ho]
      have h0 : c.infl = 0 ∨ c.infl = 1 := by omega
      rcases h0 with h0 | h0 <;> rw [h0]
      · cases (n.sourcesOf o).length <;> simp
      · simp
    omega

theorem operator_info (hb : Built n c) {m : Nat} (hm : m < operatorCount c) : ∃ o k v out q, n.outcomes[o]? = some k ∧ v < (obsAt c o).copies c.infl ∧
    out < (obsAt c o).operators ∧ (operatorInfo c)[m]? = some ⟨o, v, out, q⟩ ∧ m = Inflation.operatorNumber c o v out := by
  obtain ⟨a, ha, rfl⟩ := enc_surj hb hm
  obtain ⟨⟨k, hk⟩, hv, hout⟩ := ha.operators hb
  exact ⟨_, k, _, _, _, hk, hv, hout, info_enc hb ha, rfl⟩

theorem op_text {m o v out : Nat} {q : Bool} (h : (operatorInfo c)[m]? = some ⟨o, v, out, q⟩) : inflationOp c m =
    letters true o ++ ((if 2 < (obsAt c o).outcomes then Nat.toDigits 10 out else []) ++ if 1 < c.infl then copyText c (variantIndices c o v) else []) := by
  unfold inflationOp
  rw [h]

theorem rest_chars {o v out : Nat} : ∀ x ∈ ((if 2 < (obsAt c o).outcomes then Nat.toDigits 10 out else []) ++ if 1 < c.infl then copyText c (variantIndices c o v) else [] : Text),
    x.isDigit = true ∨ x = ',' ∨ x = '[' ∨ x = ']' := by
  intro x hx
  rcases List.mem_append.mp hx with hx | hx
  · split at hx
    · exact .inl (digits_digit hx)
    · simp at hx
  · split at hx
    · exact copyText_chars x hx
    · simp at hx

theorem rest_upper {x : Char} (h : x.isDigit = true ∨ x = ',' ∨ x = '[' ∨ x = ']') : upper x = false := by
  rcases h with h | rfl | rfl | rfl
  · exact digit_upper h
  all_goals decide

theorem op_chars (hb : Built n c) {m : Nat} (hm : m < operatorCount c) : ';' ∉ inflationOp c m ∧ '-' ∉ inflationOp c m ∧ ∃ x r, inflationOp c m = x :: r ∧ upper x = true := by
  obtain ⟨o, k, v, out, q, ho, hv, hout, hi, _⟩ := operator_info hb hm
  rw [op_text hi]
  have hl := letters_upper o
  refine ⟨?_, ?_, ?_⟩
  · intro h
    rcases List.mem_append.mp h with h | h
    · exact (upper_ne (hl.1 _ h)).1 rfl
    · have := rest_chars _ h
      revert this
      decide
  · intro h
    rcases List.mem_append.mp h with h | h
    · exact (upper_ne (hl.1 _ h)).2.1 rfl
    · have := rest_chars _ h
      revert this
      decide
  · cases e : letters true o with
    | nil => exact absurd e hl.2
    | cons x r => exact ⟨x, _, rfl, hl.1 x (by rw [e]; simp)⟩

theorem op_inj (hb : Built n c) {a b : Nat} (ha : a < operatorCount c) (hb' : b < operatorCount c) (h : inflationOp c a = inflationOp c b) : a = b := by
  obtain ⟨o, k, v, out, q, ho, hv, hout, hi, rfl⟩ := operator_info hb ha
  obtain ⟨o', k', v', out', q', ho', hv', hout', hi', rfl⟩ := operator_info hb hb'
  rw [op_text hi, op_text hi'] at h
  obtain ⟨e1, e2⟩ := cut_first (p := upper) (letters_upper o).1 (letters_upper o').1 (fun x hx => rest_upper (rest_chars x (List.mem_of_mem_head? hx)))
    (fun x hx => rest_upper (rest_chars x (List.mem_of_mem_head? hx))) h
  obtain rfl := letters_inj e1
  rw [ho, Option.some.injEq] at ho'
  subst ho'
  by_cases h2 : 2 < (obsAt c o).outcomes
  · rw [if_pos h2, if_pos h2] at e2
    have hbr : needsBraces c = true := by
      unfold needsBraces
      rw [List.any_eq_true]
      exact ⟨obsAt c o, List.mem_of_getElem? (obs_get hb ho), by simpa using h2⟩
    have hd : ∀ v, ∀ x, (if 1 < c.infl then copyText c (variantIndices c o v) else []).head? = some x → x.isDigit = false := by
      intro v x hx
      split at hx
      · simp [copyText, hbr] at hx
        subst hx
        decide
      · simp at hx
    obtain ⟨e3, e4⟩ := cut_first (p := Char.isDigit) (fun x hx => digits_digit hx) (fun x hx => digits_digit hx) (hd v) (hd v') e2
    rw [digits_inj e3, copy_inj hb ho hv hv' e4]
  · rw [if_neg h2, if_neg h2, List.nil_append, List.nil_append] at e2
    have : (obsAt c o).operators ≤ 1 := by
      unfold Inflation.Obs.operators
      split <;> omega
    rw [copy_inj hb ho hv hv' e2, show out = out' by omega]

/-- Zero, or a word of operators of the context with sign plus or minus; the empty word has sign plus. -/
def Shown (c : Ctx) : Option (List Nat × Sign) → Prop
  | none => True
  | some (w, g) => (∀ m ∈ w, m < operatorCount c) ∧ (g = .pos ∨ g = .neg ∧ w ≠ [])

/-- **C123** In inflation contexts different words of operators, zero, the identity, and words with a minus sign have different texts, at all levels of inflation. -/
theorem C123_inflation (hb : Built n c) (b : Bool) {v v' : Option (List Nat × Sign)} (hv : Shown c v) (hv' : Shown c v') (h : inflation c b v = inflation c b v') : v = v' := by
  have hj : ∀ (o : Nat) (w : List Nat), (∀ m ∈ o :: w, m < operatorCount c) → ∃ x r, joined ((o :: w).map (inflationOp c)) = x :: r ∧ upper x = true := by
    intro o w hw
    obtain ⟨_, _, x, r, h1, h2⟩ := op_chars hb (hw o (by simp))
    obtain ⟨r', h3⟩ := joined_head (ts := w.map (inflationOp c)) h1
    exact ⟨x, r', h3, h2⟩
  have hm : ∀ w : List Nat, (∀ m ∈ w, m < operatorCount c) → '-' ∉ braced b (joined (w.map (inflationOp c))) := by
    intro w hw
    have := joined_not (c := '-') (by decide) (l := w.map (inflationOp c)) fun t ht => by
      obtain ⟨m, hm, rfl⟩ := List.mem_map.mp ht
      exact (op_chars hb (hw m hm)).2.1
    unfold braced
    cases b <;> simp [this]
  have hne : ∀ (o : Nat) (w : List Nat) (g : Sign), (∀ m ∈ o :: w, m < operatorCount c) → ∀ d : Char, d = '0' ∨ d = '1' → inflation c b (some (o :: w, g)) ≠ [d] := by
    intro o w g hw d hd e
    obtain ⟨x, r, h1, h2⟩ := hj o w hw
    have hx : x ∈ inflation c b (some (o :: w, g)) := by
      simp only [inflation, List.isEmpty_cons]
      refine List.mem_append_right _ (List.mem_append_right _ (List.mem_append_left _ ?_))
      rw [h1]
      simp
    rw [e] at hx
    have := upper_ne h2
    rcases hd with rfl | rfl <;> simp at hx <;> simp [hx] at this
  match v, v', hv, hv' with
  | none, none, _, _ => rfl
  | none, some ([], g), _, _ => exact absurd h (by simp [inflation])
  | some ([], g), none, _, _ => exact absurd h (by simp [inflation])
  | none, some (o :: w, g), _, hv' => exact absurd h.symm (hne o w g hv'.1 _ (.inl rfl))
  | some (o :: w, g), none, hv, _ => exact absurd h (hne o w g hv.1 _ (.inl rfl))
  | some ([], g), some ([], g'), hv, hv' =>
    rcases hv.2 with rfl | ⟨_, e⟩
    · rcases hv'.2 with rfl | ⟨_, e⟩
      · rfl
      · exact absurd rfl e
    · exact absurd rfl e
  | some ([], g), some (o :: w, g'), _, hv' => exact absurd h.symm (hne o w g' hv'.1 _ (.inr rfl))
  | some (o :: w, g), some ([], g'), hv, _ => exact absurd h (hne o w g hv.1 _ (.inr rfl))
  | some (o :: w, g), some (o' :: w', g'), hv, hv' =>
    have e : ∀ (o : Nat) (w : List Nat) (g : Sign), inflation c b (some (o :: w, g)) = (if negative g then ['-'] else []) ++ braced b (joined ((o :: w).map (inflationOp c))) := fun _ _ _ => rfl
    rw [e, e] at h
    have fin : ∀ {g : Sign}, braced b (joined ((o :: w).map (inflationOp c))) = braced b (joined ((o' :: w').map (inflationOp c))) → some (o :: w, g) = some (o' :: w', g) := by
      intro g h
      rw [words_inj (good := fun m => m < operatorCount c)
        (fun m hm => ⟨(op_chars hb hm).1, by obtain ⟨_, _, x, r, e, _⟩ := op_chars hb hm; rw [e]; simp⟩) (fun _ _ => op_inj hb) hv.1 hv'.1 (braced_inj h)]
    have a2 : g = .pos ∨ g = .neg := hv.2.imp id And.left
    have b2 : g' = .pos ∨ g' = .neg := hv'.2.imp id And.left
    rcases a2 with rfl | rfl <;> rcases b2 with rfl | rfl <;> simp only [negative, if_true, Bool.false_eq_true, if_false, List.nil_append] at h
    · exact fin h
    · exact absurd (by rw [h]; simp) (hm _ hv.1)
    · exact absurd (by rw [← h]; simp) (hm _ hv'.1)
    · exact fin (List.append_cancel_left h)

/-- Two observables that share a source, at level 2. -/
def pair : Causal := ⟨[3, 2], [[0, 1]]⟩

def pairCtx : Ctx := ⟨⟨[⟨3, [0], false⟩, ⟨2, [0], false⟩], 1⟩, 2⟩

theorem pair_built : Built pair pairCtx := ⟨by decide⟩

theorem pair_count : operatorCount pairCtx = 6 := by decide

example {a b : Nat} (ha : a < 6) (hb : b < 6) (h : inflation pairCtx true (some ([a], .pos)) = inflation pairCtx true (some ([b], .pos))) : a = b := by
  have := C123_inflation pair_built true (v := some ([a], .pos)) (v' := some ([b], .pos)) ⟨by simpa [pair_count] using ha, .inl rfl⟩ ⟨by simpa [pair_count] using hb, .inl rfl⟩ h
  simpa using this

/-- **C123** The text of an operator has the name of the observable, the outcome if there are more than two, and, with inflation, the copies of its sources, or 0 for an
observable without sources; numbers that are no operators are written as unknown. -/
theorem C123_inflation_operator (hb : Built n c) : (∀ a, Inflation.Exists n c.infl a → inflationOp c (enc c a) = letters true a.obs ++
      ((if ∃ k, n.outcomes[a.obs]? = some k ∧ 2 < k then Nat.toDigits 10 a.out else []) ++
        if 1 < c.infl then copyText c (if n.sourcesOf a.obs = [] then [0] else a.copy) else [])) ∧
    ∀ m, operatorCount c ≤ m → inflationOp c m = "[UNK:".toList ++ (Nat.toDigits 10 m ++ [']']) := by
  refine ⟨fun a ha => ?_, fun m hm => ?_⟩
  · have hi := info_enc hb ha
    rw [op_text hi]
    obtain ⟨k, h1, h2, h3, h4⟩ := ha
    have e1 : (2 < (obsAt c a.obs).outcomes) ↔ ∃ k, n.outcomes[a.obs]? = some k ∧ 2 < k := by
      rw [obsAt_outcomes hb h1]
      simp [h1]
    have e2 : 1 < c.infl → variantIndices c a.obs (flattenIndex c.infl a.copy) = if n.sourcesOf a.obs = [] then [0] else a.copy := by
      intro hl
      unfold variantIndices
      rw [flatten_eq, obsAt_eq hb h1]
      by_cases hs : n.sourcesOf a.obs = []
      · rw [if_pos (by simp [hs]), if_pos hs]
        have : a.copy = [] := List.length_eq_zero_iff.mp (by rw [h2, hs]; rfl)
        rw [this]
        have := unflatten_val (b := c.infl) (l := [0]) (by simp; omega)
        simpa [val] using this
      · rw [if_neg (by simpa using hs), if_neg hs]
        dsimp only
        rw [← h2]
        exact unflatten_val h3
    by_cases hl : 1 < c.infl
    · simp only [e1, e2 hl, if_pos hl]
    · simp only [e1, if_neg hl]
  · unfold inflationOp
    rw [List.getElem?_eq_none (by rw [Inflation.operatorInfo_length]; exact hm)]

example : inflationOp pairCtx 6 = "[UNK:6]".toList := (C123_inflation_operator pair_built).2 6 (by rw [pair_count])

/-- A copy of an observable that exists. -/
def Known (c : Ctx) (t : Nat × Nat × Nat) : Prop := ∃ ob, c.net.observables[t.1]? = some ob ∧ t.2.1 < ob.copies c.infl

/-- **C123** Different lists of outcomes of copies of observables have different texts. -/
theorem C123_outcomes (hb : Built n c) {l l' : List (Nat × Nat × Nat)} (hl : ∀ t ∈ l, Known c t) (hl' : ∀ t ∈ l', Known c t) (h : outcomesText c l = outcomesText c l') : l = l' := by
  have text : ∀ t, Known c t → ∃ k, n.outcomes[t.1]? = some k ∧ t.2.1 < (obsAt c t.1).copies c.infl ∧
      outcomeText c t = letters true t.1 ++ ((if 1 < c.infl then copyText c (variantIndices c t.1 t.2.1) else []) ++ '.' :: Nat.toDigits 10 t.2.2) := by
    rintro ⟨o, v, k⟩ ⟨ob, h1, h2⟩
    obtain ⟨k', g1, rfl⟩ := obs_get_iff hb h1
    refine ⟨k', g1, h2, ?_⟩
    unfold outcomeText
    dsimp only at h1 h2 ⊢
    rw [h1]
    dsimp only
    rw [if_neg (show ¬ (obsAt c o).copies c.infl ≤ v by omega), List.append_assoc]
  have copy : ∀ o v : Nat, ∀ x ∈ (if 1 < c.infl then copyText c (variantIndices c o v) else [] : Text), x.isDigit = true ∨ x = ',' ∨ x = '[' ∨ x = ']' := by
    intro o v x hx
    split at hx
    · exact copyText_chars x hx
    · simp at hx
  have chars : ∀ t, Known c t → ';' ∉ outcomeText c t ∧ ∃ x r, outcomeText c t = x :: r ∧ upper x = true := by
    intro t ht
    obtain ⟨k, h1, h2, h3⟩ := text t ht
    have hlet := letters_upper t.1
    rw [h3]
    constructor
    · intro h
      rcases List.mem_append.mp h with h | h
      · exact (upper_ne (hlet.1 _ h)).1 rfl
      · rcases List.mem_append.mp h with h | h
        · have := copy _ _ _ h
          revert this
          decide
        · rcases List.mem_cons.mp h with h | h
          · exact absurd h (by decide)
          · exact (digit_spec (digits_digit h)).2.1 rfl
    · cases e : letters true t.1 with
      | nil => exact absurd e hlet.2
      | cons x r => exact ⟨x, _, rfl, hlet.1 x (by rw [e]; simp)⟩
  have inj : ∀ t t', Known c t → Known c t' → outcomeText c t = outcomeText c t' → t = t' := by
    rintro ⟨o, v, k⟩ ⟨o', v', k'⟩ ht ht' e
    obtain ⟨j, h1, h2, h3⟩ := text _ ht
    obtain ⟨j', h1', h2', h3'⟩ := text _ ht'
    rw [h3, h3'] at e
    dsimp only at *
    have hh : ∀ o v k : Nat, ∀ x, ((if 1 < c.infl then copyText c (variantIndices c o v) else []) ++ '.' :: Nat.toDigits 10 k : Text).head? = some x → upper x = false := by
      intro o v k x hx
      rcases List.mem_append.mp (List.mem_of_mem_head? hx) with h | h
      · exact rest_upper (copy o v x h)
      · rcases List.mem_cons.mp h with rfl | h
        · decide
        · exact digit_upper (digits_digit h)
    obtain ⟨e1, e2⟩ := cut_first (p := upper) (letters_upper o).1 (letters_upper o').1 (hh o v k) (hh o' v' k') e
    obtain rfl := letters_inj e1
    have hp : ∀ o v : Nat, ∀ x ∈ (if 1 < c.infl then copyText c (variantIndices c o v) else [] : Text), ¬ x = '.' := by
      intro o v x hx e
      have := copy o v x hx
      rw [e] at this
      revert this
      decide
    obtain ⟨e3, _, e4⟩ := cut (p := (· = '.')) (hp o v) (hp o v') rfl rfl e2
    rw [copy_inj hb h1 h2 h2' e3, digits_inj e4]
  have hne : ∀ (t : Nat × Nat × Nat) (l : List (Nat × Nat × Nat)), (∀ u ∈ t :: l, Known c u) → outcomesText c (t :: l) ≠ ['1'] := by
    intro t l hl e
    obtain ⟨_, x, r, h1, h2⟩ := chars t (hl t (by simp))
    obtain ⟨r', h3⟩ := joined_head (ts := l.map (outcomeText c)) h1
    have : outcomesText c (t :: l) = x :: r' := h3
    rw [this] at e
    have hx : x = '1' := (List.cons.inj e).1
    exact (upper_ne h2).2.2.2.2.1 hx
  match l, l' with
  | [], [] => rfl
  | [], t :: l => exact absurd h.symm (hne t l hl')
  | t :: l, [] => exact absurd h (hne t l hl)
  | t :: l, t' :: l' =>
    exact words_inj (good := Known c) (fun t ht => ⟨(chars t ht).1, by obtain ⟨_, x, r, e, _⟩ := chars t ht; rw [e]; simp⟩) inj hl hl' h

example {v v' k k' : Nat} (hv : v < 2) (hv' : v' < 2) (h : outcomesText pairCtx [(1, v, k)] = outcomesText pairCtx [(1, v', k')]) : v = v' ∧ k = k' := by
  have := C123_outcomes pair_built (l := [(1, v, k)]) (l' := [(1, v', k')]) (by simp [Known, pairCtx, Inflation.Obs.copies, hv]) (by simp [Known, pairCtx, Inflation.Obs.copies, hv']) h
  simpa using this

/-- **C123** (refuted) In inflation contexts the identity with a minus sign has the text of the identity, and imaginary signs are not written. -/
theorem C123_refuted_sign (c : Ctx) (b : Bool) : inflation c b (some ([], .neg)) = inflation c b (some ([], .pos)) ∧
    ∀ w, inflation c b (some (w, .imag)) = inflation c b (some (w, .pos)) := ⟨rfl, fun _ => rfl⟩

end Moment.C123
