import Verif.Model.SymbolText
import Verif.Spec.SymbolText

/-! # Proofs about symbols as text -/

namespace Moment.SymbolText
open Spec

/-- The text does not begin with such a character. -/
def NoHead (p : Char → Bool) (t : Text) : Prop := ∀ c u, t = c :: u → p c = false

theorem drop_all {p : Char → Bool} {a r : Text} (ha : ∀ c ∈ a, p c = true) (hr : NoHead p r) : (a ++ r).dropWhile p = r := by
  rw [List.dropWhile_append_of_pos ha]
  cases r with
  | nil => rfl
  | cons c u => rw [List.dropWhile_cons_of_neg (by rw [hr c u rfl]; simp)]

theorem take_all {p : Char → Bool} {a r : Text} (ha : ∀ c ∈ a, p c = true) (hr : NoHead p r) : (a ++ r).takeWhile p = a := by
  rw [List.takeWhile_append_of_pos ha]
  cases r with
  | nil => simp
  | cons c u => rw [List.takeWhile_cons_of_neg (by rw [hr c u rfl]; simp), List.append_nil]

theorem noHead_drop (p : Char → Bool) (t : Text) : NoHead p (t.dropWhile p) := by
  intro c u h
  have := List.head?_dropWhile_not p t
  rw [h] at this
  simpa using this

theorem mem_takeWhile {p : Char → Bool} {t : Text} {c : Char} (h : c ∈ t.takeWhile p) : p c = true := by
  induction t with
  | nil => simp at h
  | cons a t ih =>
    by_cases ha : p a = true
    · rw [List.takeWhile_cons_of_pos ha] at h
      rcases List.mem_cons.mp h with rfl | h
      · exact ha
      · exact ih h
    · rw [List.takeWhile_cons_of_neg ha] at h
      simp at h

theorem blank_iff {t : Text} : Blank t ↔ ∀ c ∈ t, space c = true := by
  unfold Blank space
  simp only [Bool.or_eq_true, beq_iff_eq, or_assoc]

theorem digit_class {c : Char} (h : c.isDigit = true) : space c = false ∧ c ≠ '-' ∧ c ≠ '+' ∧ c ≠ '.' ∧ c ≠ 'e' ∧ c ≠ 'E' ∧ c ≠ '#' ∧ c ≠ '*' := by
  refine ⟨?_, ?_, ?_, ?_, ?_, ?_, ?_, ?_⟩
  · by_contra hs
    simp only [space, Bool.not_eq_false, Bool.or_eq_true, beq_iff_eq] at hs
    rcases hs with ((((rfl | rfl) | rfl) | rfl) | rfl) | rfl <;> exact absurd h (by decide)
  all_goals rintro rfl; exact absurd h (by decide)

/-! ## Signs -/

theorem sign_spec (t : Text) : ∃ s g, IsSign s g ∧ t = s ++ (sign t).2 ∧ g = if (sign t).1 then -1 else 1 := by
  unfold sign
  split
  · exact ⟨_, _, .minus, rfl, rfl⟩
  · exact ⟨_, _, .plus, rfl, rfl⟩
  · exact ⟨_, _, .no, rfl, rfl⟩

theorem sign_of {s u : Text} {g : Int} (hs : IsSign s g) (h1 : ∀ v, u ≠ '-' :: v) (h2 : ∀ v, u ≠ '+' :: v) :
    (sign (s ++ u)).2 = u ∧ g = if (sign (s ++ u)).1 then -1 else 1 := by
  cases hs with
  | no =>
    rw [List.nil_append]
    unfold sign
    split
    · exact absurd rfl (h1 _)
    · exact absurd rfl (h2 _)
    · exact ⟨rfl, rfl⟩
  | plus => exact ⟨rfl, rfl⟩
  | minus => exact ⟨rfl, rfl⟩

theorem noHead_sign {s u : Text} {g : Int} (hs : IsSign s g) (hu : NoHead space u) : NoHead space (s ++ u) := by
  cases hs with
  | no => exact hu
  | plus => intro c v h; cases h; decide
  | minus => intro c v h; cases h; decide

theorem nat_head {d : Text} {m : Nat} (h : IsNat d m) : ∃ c u, d = c :: u ∧ c.isDigit = true := by
  obtain ⟨c, u, rfl⟩ := List.exists_cons_of_ne_nil h.1
  exact ⟨c, u, rfl, h.2.1 c (by simp)⟩

theorem signed (b : Bool) (m : Nat) : (if b then -(m : Int) else m) = (if b then -1 else 1) * (m : Int) := by
  cases b <;> simp

/-! ## Integers -/

theorem digits_spec (t : Text) : t = digits t ++ afterDigits t ∧ (∀ c ∈ digits t, c.isDigit = true) ∧ NoHead Char.isDigit (afterDigits t) :=
  ⟨(List.takeWhile_append_dropWhile).symm, fun _ h => mem_takeWhile h, noHead_drop _ _⟩

theorem int_scan {t : Text} (h : afterDigits (sign t).2 = []) (hd : digits (sign t).2 ≠ []) :
    IsInt t (if (sign t).1 then -(number (digits (sign t).2) : Int) else number (digits (sign t).2)) := by
  obtain ⟨s, g, hs, e, hg⟩ := sign_spec t
  obtain ⟨e2, ha, -⟩ := digits_spec (sign t).2
  rw [h, List.append_nil] at e2
  refine ⟨s, digits (sign t).2, g, number (digits (sign t).2), by rw [← e2]; exact e, hs, ⟨hd, ha, rfl⟩, ?_⟩
  rw [hg, signed]

theorem int_of {t r : Text} {n : Int} (h : IsInt t n) (hr : NoHead Char.isDigit r) :
    digits (sign (t ++ r)).2 ≠ [] ∧ afterDigits (sign (t ++ r)).2 = r ∧
      (if (sign (t ++ r)).1 then -(number (digits (sign (t ++ r)).2) : Int) else number (digits (sign (t ++ r)).2)) = n ∧ NoHead space (t ++ r) := by
  obtain ⟨s, d, g, m, rfl, hs, hd, rfl⟩ := h
  obtain ⟨c, u, e, hc⟩ := nat_head hd
  have cl := digit_class hc
  have hm : ∀ v, d ++ r ≠ '-' :: v := fun v hv => by rw [e] at hv; cases hv; exact cl.2.1 rfl
  have hp : ∀ v, d ++ r ≠ '+' :: v := fun v hv => by rw [e] at hv; cases hv; exact cl.2.2.1 rfl
  obtain ⟨e1, e2⟩ := sign_of hs hm hp
  rw [List.append_assoc, e1]
  have e3 : digits (d ++ r) = d := take_all hd.2.1 hr
  have e4 : afterDigits (d ++ r) = r := drop_all hd.2.1 hr
  rw [e3, e4]
  refine ⟨hd.1, rfl, ?_, noHead_sign hs fun c' v h => ?_⟩
  · rw [signed, ← e2, hd.2.2]
    rfl
  · rw [e] at h
    cases h
    exact cl.1

theorem stoi_full {t : Text} {n : Int} : stoi t = some (n, []) ↔ (∃ b d, t = b ++ d ∧ Blank b ∧ IsInt d n) ∧ -2147483648 ≤ n ∧ n ≤ 2147483647 := by
  unfold stoi
  dsimp only
  constructor
  · intro h
    by_cases hd : digits (sign (t.dropWhile space)).2 = []
    · rw [if_pos hd] at h; cases h
    · rw [if_neg hd] at h
      have ⟨hr, h1, h2⟩ : (-2147483648 ≤ n ∧ n ≤ 2147483647) ∧
          (if (sign (t.dropWhile space)).1 then -(number (digits (sign (t.dropWhile space)).2) : Int) else number (digits (sign (t.dropWhile space)).2)) = n ∧
          afterDigits (sign (t.dropWhile space)).2 = [] := by
        generalize (if (sign (t.dropWhile space)).1 then -(number (digits (sign (t.dropWhile space)).2) : Int) else number (digits (sign (t.dropWhile space)).2)) = k at h
        split at h
        · rename_i hr
          simp only [Option.some.injEq, Prod.mk.injEq] at h
          exact ⟨h.1 ▸ hr, h.1, h.2⟩
        · cases h
      · clear h
        refine ⟨⟨t.takeWhile space, t.dropWhile space, (List.takeWhile_append_dropWhile).symm, blank_iff.mpr fun c hc => mem_takeWhile hc, ?_⟩, hr⟩
        rw [← h1]
        exact int_scan h2 hd
  · rintro ⟨⟨b, d, rfl, hb, hd⟩, hr⟩
    have := int_of (r := []) hd (fun _ _ h => by cases h)
    rw [List.append_nil] at this
    rw [drop_all (blank_iff.mp hb) this.2.2.2, if_neg this.1, this.2.1, this.2.2.1, if_pos hr]

/-! ## Decimal numbers -/

theorem fraction_spec (t : Text) : ∃ f, IsFraction f (fraction t).1 ∧ t = f ++ (fraction t).2 := by
  unfold fraction
  split
  · rename_i u
    exact ⟨'.' :: digits u, .point (digits_spec u).2.1, by rw [List.cons_append, ← (digits_spec u).1]⟩
  · exact ⟨[], .no, rfl⟩

theorem exponent_cons (c : Char) (t : Text) : exponent (c :: t) = if ((c == 'e' || c == 'E') && digits (sign t).2 != []) = true then
      ((if (sign t).1 then -(number (digits (sign t).2) : Int) else number (digits (sign t).2)), afterDigits (sign t).2)
    else (0, c :: t) := rfl

theorem exponent_spec {t : Text} (h : (exponent t).2 = []) : IsExponent t (exponent t).1 := by
  cases t with
  | nil => exact .no
  | cons c t =>
    rw [exponent_cons] at h ⊢
    by_cases hc : ((c == 'e' || c == 'E') && digits (sign t).2 != []) = true
    · rw [if_pos hc] at h ⊢
      simp only [Bool.and_eq_true, Bool.or_eq_true, beq_iff_eq, bne_iff_ne, ne_eq] at hc
      have := int_scan h hc.2
      rcases hc.1 with rfl | rfl
      · exact .small this
      · exact .large this
    · rw [if_neg hc] at h
      cases h

theorem exponent_of {t : Text} {e : Int} (h : IsExponent t e) : exponent t = (e, []) := by
  have key : ∀ (c : Char) (t : Text), (c == 'e' || c == 'E') = true → IsInt t e → exponent (c :: t) = (e, []) := by
    intro c t hc ht
    have := int_of (r := []) ht (fun _ _ h => by cases h)
    rw [List.append_nil] at this
    rw [exponent_cons, if_pos (by rw [hc]; simpa using this.1), this.2.1, this.2.2.1]
  cases h with
  | no => rfl
  | small h => exact key _ _ (by decide) h
  | large h => exact key _ _ (by decide) h

theorem exponent_head {x : Text} {e : Int} (h : IsExponent x e) : NoHead Char.isDigit x ∧ ∀ v, x ≠ '.' :: v := by
  cases h with
  | no => exact ⟨fun _ _ h => by (cases h), fun v h => by cases h⟩
  | small h => exact ⟨fun _ _ h => by cases h; decide, fun v h => by cases h⟩
  | large h => exact ⟨fun _ _ h => by cases h; decide, fun v h => by cases h⟩

theorem fraction_of {f b x : Text} (h : IsFraction f b) (h1 : NoHead Char.isDigit x) (h2 : ∀ v, x ≠ '.' :: v) : fraction (f ++ x) = (b, x) := by
  cases h with
  | no =>
    rw [List.nil_append]
    unfold fraction
    split
    · exact absurd rfl (h2 _)
    · rfl
  | point h =>
    rw [List.cons_append]
    unfold fraction
    have e1 : digits (b ++ x) = b := take_all h h1
    have e2 : afterDigits (b ++ x) = x := drop_all h h1
    simp only [e1, e2]

/-- Numbers without sign that are read to the end. -/
theorem decimal_full {t : Text} {q : ℚ} : decimal t = some (q, []) ↔ ∃ a f b x e m, t = a ++ f ++ x ∧ (∀ c ∈ a, c.isDigit = true) ∧ IsFraction f b ∧ IsExponent x e ∧
    IsNat (a ++ b) m ∧ q = m * 10 ^ (e - b.length) := by
  unfold decimal
  dsimp only
  constructor
  · intro h
    split at h
    · cases h
    · rename_i hd
      simp only [Option.some.injEq, Prod.mk.injEq] at h
      obtain ⟨h1, h2⟩ := h
      obtain ⟨f, hf, e⟩ := fraction_spec (afterDigits t)
      obtain ⟨e2, ha, -⟩ := digits_spec t
      refine ⟨digits t, f, (fraction (afterDigits t)).1, (fraction (afterDigits t)).2, _, number (digits t ++ (fraction (afterDigits t)).1), ?_, ha, hf, exponent_spec h2,
        ⟨hd, ?_, rfl⟩, h1.symm⟩
      · rw [List.append_assoc, ← e, ← e2]
      · intro c hc
        rcases List.mem_append.mp hc with hc | hc
        · exact ha c hc
        · generalize (fraction (afterDigits t)).1 = b at hf hc
          cases hf with
          | no => cases hc
          | point hd => exact hd c hc
  · rintro ⟨a, f, b, x, e, m, rfl, ha, hf, hx, hn, rfl⟩
    obtain ⟨x1, x2⟩ := exponent_head hx
    have hr : NoHead Char.isDigit (f ++ x) := by
      cases hf with
      | no => exact x1
      | point _ => intro c v h; cases h; decide
    rw [List.append_assoc, show digits (a ++ (f ++ x)) = a from take_all ha hr, show afterDigits (a ++ (f ++ x)) = f ++ x from drop_all ha hr, fraction_of hf x1 x2]
    dsimp only
    rw [if_neg hn.1, exponent_of hx, hn.2.2]
    rfl

/-! ## Characters -/

theorem int_chars {t : Text} {n : Int} (h : IsInt t n) : (∀ c ∈ t, c.isDigit = true ∨ c = '+' ∨ c = '-') ∧ ∃ u c, t = u ++ [c] ∧ c.isDigit = true := by
  obtain ⟨s, d, g, m, rfl, hs, hd, -⟩ := h
  constructor
  · intro c hc
    rcases List.mem_append.mp hc with hc | hc
    · cases hs with
      | no => cases hc
      | plus => simp at hc; simp [hc]
      | minus => simp at hc; simp [hc]
    · exact .inl (hd.2.1 c hc)
  · obtain ⟨v, c, rfl⟩ : ∃ v c, d = v ++ [c] := ⟨_, _, (List.dropLast_append_getLast hd.1).symm⟩
    exact ⟨s ++ v, c, by simp, hd.2.1 c (by simp)⟩

theorem blank_chars {t : Text} (h : Blank t) : ∀ c ∈ t, c ≠ '#' ∧ c ≠ '.' ∧ c ≠ '*' ∧ c.isDigit = false := by
  intro c hc
  rcases h c hc with rfl | rfl | rfl | rfl | rfl | rfl <;> decide

theorem factor_chars {round : ℚ → Option ℚ} {t : Text} {q : ℚ} (h : IsFactor round t q) : '#' ∉ t ∧ t ≠ [] := by
  obtain ⟨b, d, x, rfl, hb, ⟨s, a, f, p, e, g, k, m, rfl, hs, ha, hf, he, hn, -⟩, -⟩ := h
  constructor
  · intro hc
    simp only [List.mem_append] at hc
    rcases hc with hc | ((hc | hc) | hc) | hc
    · exact (blank_chars hb _ hc).1 rfl
    · cases hs <;> simp at hc
    · exact absurd (ha _ hc) (by decide)
    · cases hf with
      | no => cases hc
      | point hd => exact absurd (hd _ (by simpa using hc)) (by decide)
    · cases he with
      | no => cases hc
      | small h =>
        rcases (int_chars h).1 _ (by simpa using hc) with h | h | h <;> exact absurd h (by decide)
      | large h =>
        rcases (int_chars h).1 _ (by simpa using hc) with h | h | h <;> exact absurd h (by decide)
  · intro h0
    simp only [List.append_eq_nil_iff] at h0
    obtain ⟨-, ⟨⟨-, ha0⟩, hf0⟩, -⟩ := h0
    subst ha0
    cases hf with
    | no => exact hn.1 rfl
    | point _ => cases hf0

/-! ## The parts of a text -/

theorem sign_suffix (t : Text) : ∀ c ∈ (sign (t.dropWhile space)).2, c ∈ t := by
  intro c hc
  obtain ⟨s, g, -, e, -⟩ := sign_spec (t.dropWhile space)
  have : c ∈ t.dropWhile space := by rw [e]; exact List.mem_append_right _ hc
  exact List.dropWhile_sublist _ |>.subset this

/-- Factors that are decimal numbers. -/
theorem factor_full {D : Doubles} {t : Text} {v : Number} (hD : D.special (sign (t.dropWhile space)).2 = none) (ht : t ≠ []) :
    readFactor D t = some v ↔ ∃ q, v = .finite q ∧ IsFactor D.round t q := by
  unfold readFactor stod
  rw [if_neg ht]
  dsimp only
  rw [hD]
  dsimp only
  have neg : ∀ (b : Bool) (x : ℚ), (if b then -x else x) = ((if b then (-1 : Int) else 1 : Int) : ℚ) * x := by
    intro b x
    cases b <;> simp
  constructor
  · intro h
    obtain ⟨⟨w, r⟩, h1, h2⟩ := Option.bind_eq_some_iff.mp h
    obtain ⟨⟨x, r'⟩, h3, h4⟩ := Option.bind_eq_some_iff.mp h1
    obtain ⟨q, h5, h6⟩ := Option.map_eq_some_iff.mp h4
    cases h6
    dsimp only at h2 h5
    split at h2
    · rename_i h0
      subst h0
      cases h2
      obtain ⟨a, f, b, y, e, m, h7, ha, hf, hy, hn, rfl⟩ := decimal_full.mp h3
      obtain ⟨s, g, hs, e1, hg⟩ := sign_spec (t.dropWhile space)
      refine ⟨q, rfl, t.takeWhile space, t.dropWhile space, _, (List.takeWhile_append_dropWhile).symm, blank_iff.mpr fun c hc => mem_takeWhile hc,
        ⟨s, a, f, b, y, g, e, m, ?_, hs, ha, hf, hy, hn, rfl⟩, ?_⟩
      · rw [e1, h7]
        simp
      · rw [← h5, neg, ← hg, mul_assoc]
    · cases h2
  · rintro ⟨q, rfl, b, d, x, rfl, hb, ⟨s, a, f, p, y, g, e, m, rfl, hs, ha, hf, hy, hn, rfl⟩, hq⟩
    have hh : ∃ c u, a ++ f ++ y = c :: u ∧ (c.isDigit = true ∨ c = '.') := by
      cases a with
      | cons c a => exact ⟨c, _, rfl, .inl (ha c (by simp))⟩
      | nil => cases hf with
        | no => exact absurd rfl hn.1
        | point _ => exact ⟨'.', _, rfl, .inr rfl⟩
    obtain ⟨c, u, hu, hc⟩ := hh
    have cl : space c = false ∧ c ≠ '-' ∧ c ≠ '+' := by
      rcases hc with hc | rfl
      · exact ⟨(digit_class hc).1, (digit_class hc).2.1, (digit_class hc).2.2.1⟩
      · decide
    have e1 := sign_of hs (u := a ++ f ++ y) (fun v h => by rw [hu] at h; cases h; exact cl.2.1 rfl) (fun v h => by rw [hu] at h; cases h; exact cl.2.2 rfl)
    have e2 : (b ++ (s ++ a ++ f ++ y)).dropWhile space = s ++ (a ++ f ++ y) := by
      rw [show s ++ a ++ f ++ y = s ++ (a ++ f ++ y) by simp]
      exact drop_all (blank_iff.mp hb) (noHead_sign hs fun c' v h => by rw [hu] at h; cases h; exact cl.1)
    rw [e2, e1.1, decimal_full.mpr ⟨a, f, p, y, e, m, rfl, ha, hf, hy, hn, rfl⟩]
    simp only [Option.bind_some]
    rw [neg, ← e1.2, ← mul_assoc, hq]
    rfl

theorem star_spec (t : Text) : ∃ u s, t = u ++ s ∧ IsStar s (t.getLast? == some '*') ∧ (if (t.getLast? == some '*') = true then t.dropLast else t) = u := by
  by_cases h : (t.getLast? == some '*') = true
  · rw [h, if_pos rfl]
    refine ⟨t.dropLast, ['*'], ?_, .star, rfl⟩
    have h : t.getLast? = some '*' := by simpa using h
    have hne : t ≠ [] := by rintro rfl; cases h
    rw [List.getLast?_eq_some_getLast hne] at h
    conv_lhs => rw [← List.dropLast_append_getLast hne]
    rw [Option.some.inj h]
  · rw [if_neg h]
    rw [Bool.not_eq_true] at h
    rw [h]
    exact ⟨t, [], by simp, .no, rfl⟩

theorem star_of {u s : Text} {c : Bool} (h : IsStar s c) (hu : u.getLast? ≠ some '*') :
    ((u ++ s).getLast? == some '*') = c ∧ (if ((u ++ s).getLast? == some '*') = true then (u ++ s).dropLast else u ++ s) = u := by
  cases h with
  | no =>
    rw [List.append_nil]
    have : (u.getLast? == some '*') = false := by simpa using hu
    rw [this]
    simp
  | star => simp

theorem int_last {b d : Text} {n : Int} (h : IsInt d n) : (b ++ d).getLast? ≠ some '*' := by
  obtain ⟨-, u, c, rfl, hc⟩ := int_chars h
  rw [← List.append_assoc, List.getLast?_append]
  simp only [List.getLast?_singleton, Option.some_or, ne_eq, Option.some.injEq]
  rintro rfl
  exact absurd hc (by decide)

/-- Symbols that are read. -/
theorem symbol_full {p : Option Number} {t : Text} {i : Int} {v : Number} {c : Bool} : readSymbol p t = .symbol i v c ↔
    ∃ b d s, t = b ++ d ++ s ∧ Blank b ∧ IsStar s c ∧
      (IsInt d i ∧ 0 ≤ i ∧ i ≤ 2147483647 ∧ v = p.getD (.finite 1) ∨ p = none ∧ IsInt d (-i) ∧ 0 < i ∧ i ≤ 2147483647 ∧ v = .finite (-1)) := by
  constructor
  · intro h
    unfold readSymbol at h
    dsimp only at h
    obtain ⟨u, s, e, hs, hu⟩ := star_spec t
    rw [hu] at h
    generalize (t.getLast? == some '*') = c' at h hs
    cases hst : stoi u with
    | none => rw [hst] at h; cases h
    | some x =>
      obtain ⟨n, r⟩ := x
      rw [hst] at h
      dsimp only at h
      by_cases hr : r = []
      · subst hr
        rw [if_neg (by simp)] at h
        obtain ⟨⟨b, d, rfl, hb, hd⟩, h1, h2⟩ := stoi_full.mp hst
        by_cases hn : n < 0
        · rw [if_pos hn] at h
          cases p with
          | some _ => cases h
          | none =>
            dsimp only at h
            by_cases hm : n = -2147483648
            · rw [if_pos hm] at h; cases h
            · rw [if_neg hm] at h
              cases h
              exact ⟨b, d, s, e, hb, hs, .inr ⟨rfl, by rwa [neg_neg], by omega, by omega, rfl⟩⟩
        · rw [if_neg hn] at h
          cases h
          exact ⟨b, d, s, e, hb, hs, .inl ⟨hd, by omega, h2, rfl⟩⟩
      · rw [if_pos hr] at h; cases h
  · rintro ⟨b, d, s, rfl, hb, hs, ⟨hd, h0, h1, rfl⟩ | ⟨rfl, hd, h0, h1, rfl⟩⟩
    · obtain ⟨e1, e2⟩ := star_of hs (int_last (b := b) hd)
      unfold readSymbol
      dsimp only
      rw [e2, e1, stoi_full.mpr ⟨⟨b, d, rfl, hb, hd⟩, by omega, h1⟩]
      dsimp only
      rw [if_neg (by simp), if_neg (by omega)]
    · obtain ⟨e1, e2⟩ := star_of hs (int_last (b := b) hd)
      unfold readSymbol
      dsimp only
      rw [e2, e1, stoi_full.mpr ⟨⟨b, d, rfl, hb, hd⟩, by omega, by omega⟩]
      dsimp only
      rw [if_neg (by simp), if_pos (by omega), if_neg (by omega), neg_neg]

theorem symbol_undefined {p : Option Number} {t : Text} : readSymbol p t = .undefined ↔
    p = none ∧ ∃ b d s c, t = b ++ d ++ s ∧ Blank b ∧ IsInt d (-2147483648) ∧ IsStar s c := by
  constructor
  · intro h
    unfold readSymbol at h
    dsimp only at h
    obtain ⟨u, s, e, hs, hu⟩ := star_spec t
    rw [hu] at h
    generalize (t.getLast? == some '*') = c' at h hs
    cases hst : stoi u with
    | none => rw [hst] at h; cases h
    | some x =>
      obtain ⟨n, r⟩ := x
      rw [hst] at h
      dsimp only at h
      by_cases hr : r = []
      · subst hr
        rw [if_neg (by simp)] at h
        obtain ⟨⟨b, d, rfl, hb, hd⟩, h1, h2⟩ := stoi_full.mp hst
        by_cases hn : n < 0
        · rw [if_pos hn] at h
          cases p with
          | some _ => cases h
          | none =>
            dsimp only at h
            by_cases hm : n = -2147483648
            · subst hm
              exact ⟨rfl, b, d, s, _, e, hb, hd, hs⟩
            · rw [if_neg hm] at h
              cases h
        · rw [if_neg hn] at h
          cases h
      · rw [if_pos hr] at h; cases h
  · rintro ⟨rfl, b, d, s, c, rfl, hb, hd, hs⟩
    obtain ⟨e1, e2⟩ := star_of hs (int_last (b := b) hd)
    unfold readSymbol
    dsimp only
    rw [e2, e1, stoi_full.mpr ⟨⟨b, d, rfl, hb, hd⟩, by omega, by omega⟩]
    rfl

theorem split_hash {t : Text} (h : '#' ∈ t) : t = t.take (t.idxOf '#') ++ '#' :: t.drop (t.idxOf '#' + 1) := by
  have hl := List.idxOf_lt_length_of_mem h
  conv_lhs => rw [← List.take_append_drop (t.idxOf '#') t, ← List.cons_getElem_drop_succ (h := hl), List.getElem_idxOf hl]

theorem hash_at {f r : Text} (h : '#' ∉ f) : '#' ∈ f ++ '#' :: r ∧ (f ++ '#' :: r).take ((f ++ '#' :: r).idxOf '#') = f ∧
    (f ++ '#' :: r).drop ((f ++ '#' :: r).idxOf '#' + 1) = r := by
  have e : (f ++ '#' :: r).idxOf '#' = f.length := by
    rw [List.idxOf_append_of_notMem h, List.idxOf_cons_self, Nat.add_zero]
  refine ⟨by simp, ?_, ?_⟩
  · rw [e, List.take_left']
    rfl
  · rw [e, List.drop_append]
    simp

end Moment.SymbolText
