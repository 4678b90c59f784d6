import Verif.Proof.SymbolText

/-! # C113: symbols as text

What texts mean is said in Spec/SymbolText.lean. -/

namespace Moment.C113
open Moment Moment.SymbolText Moment.SymbolText.Spec

/-- Numbers that are not decimal have one of these letters: those of `inf`, `nan` and hexadecimal numbers. -/
def Letters (t : Text) : Prop := ∃ c ∈ t, c ∈ ['x', 'X', 'i', 'I', 'n', 'N']

/-- Numbers that are not decimal have one of those letters, and neither spaces nor stars. -/
def Standard (D : Doubles) : Prop := ∀ t v k, D.special t = some (v, k) → Letters (t.take k) ∧ ∀ c ∈ t.take k, c ≠ ' ' ∧ c ≠ '*'

theorem plain {D : Doubles} (hD : Standard D) {t : Text} (ht : ¬ Letters t) (u : Text) (hu : ∀ c ∈ u, c ∈ t) : D.special (sign (u.dropWhile space)).2 = none := by
  cases h : D.special (sign (u.dropWhile space)).2 with
  | none => rfl
  | some r =>
    obtain ⟨⟨c, hc, hl⟩, -⟩ := hD _ r.1 r.2 h
    exact absurd ⟨c, hu c (sign_suffix u c (List.mem_of_mem_take hc)), hl⟩ ht

/-- A model of the standard library, with exact numbers. -/
def exact : Doubles := ⟨some, fun t => if t = ['n', 'a', 'n'] then some (.other false, 3) else none⟩

theorem exact_standard : Standard exact := by
  intro t v k h
  unfold exact at h
  dsimp only at h
  split at h
  · rename_i e
    subst e
    cases h
    exact ⟨⟨'n', by decide, by decide⟩, by decide⟩
  · cases h

theorem symbol_chars {b d s : Text} {n : Int} {c : Bool} (hb : Blank b) (hd : IsInt d n) (hs : IsStar s c) : '#' ∉ b ++ d ++ s ∧ '.' ∉ b ++ d ++ s ∧ b ++ d ++ s ≠ [] := by
  have key : ∀ x : Char, x = '#' ∨ x = '.' → x ∉ b ++ d ++ s := by
    intro x hx hc
    simp only [List.mem_append] at hc
    rcases hc with (hc | hc) | hc
    · rcases hx with rfl | rfl
      · exact (blank_chars hb _ hc).1 rfl
      · exact (blank_chars hb _ hc).2.1 rfl
    · rcases (int_chars hd).1 _ hc with h | h | h <;> rcases hx with rfl | rfl <;> exact absurd h (by decide)
    · cases hs with
      | no => cases hc
      | star => rcases hx with rfl | rfl <;> simp at hc
  refine ⟨key _ (.inl rfl), key _ (.inr rfl), ?_⟩
  obtain ⟨-, u, x, rfl, -⟩ := int_chars hd
  simp

/-- **C113, texts.** A text without those letters and with at most 32 characters is read if and only if it means a symbol, and then it is read as what it means. -/
theorem C113_reads {D : Doubles} (hD : Standard D) {t : Text} (ht : ¬ Letters t) (hl : t.length ≤ 32) (n : Nat) (q : ℚ) (c : Bool) :
    parse D t = .symbol n (.finite q) c ↔ Means D.round t n q c := by
  constructor
  · intro h
    unfold parse at h
    by_cases h0 : t = [] ∨ 32 < t.length
    · rw [if_pos h0] at h; cases h
    rw [if_neg h0] at h
    by_cases h1 : '#' ∈ t
    · rw [if_pos h1] at h
      have e := split_hash h1
      cases hf : readFactor D (t.take (t.idxOf '#')) with
      | none => rw [hf] at h; cases h
      | some f =>
        rw [hf] at h
        dsimp only at h
        obtain ⟨b, d, s, e2, hb, hs, ⟨hd, i0, i1, hv⟩ | ⟨hp, -⟩⟩ := symbol_full.mp h
        swap
        · cases hp
        rw [e2] at e
        by_cases h2 : t.take (t.idxOf '#') = []
        · rw [h2] at hf e
          cases hf
          cases hv
          rw [e]
          have := Means.hash (round := D.round) hb hd (by omega) hs
          simpa using this
        · obtain ⟨q', rfl, hq⟩ := (factor_full (plain hD ht _ fun c hc => List.mem_of_mem_take hc) h2).mp hf
          cases hv
          have := Means.factor hq hb hd (by omega) hs
          rw [e]
          simpa using this
    · rw [if_neg h1] at h
      by_cases h2 : '.' ∈ t
      · rw [if_pos h2] at h
        cases hf : readFactor D t with
        | none => rw [hf] at h; cases h
        | some f =>
          rw [hf] at h
          obtain ⟨q', rfl, hq⟩ := (factor_full (plain hD ht _ fun c hc => hc) (fun e => h0 (.inl e))).mp hf
          simp only [Outcome.symbol.injEq, Number.finite.injEq] at h
          obtain ⟨e1, rfl, rfl⟩ := h
          obtain rfl : n = 1 := by omega
          exact .number hq h2
      · rw [if_neg h2] at h
        obtain ⟨b, d, s, rfl, hb, hs, ⟨hd, i0, i1, hv⟩ | ⟨-, hd, i0, i1, hv⟩⟩ := symbol_full.mp h
        · cases hv
          exact .symbol hb hd (by omega) hs
        · cases hv
          exact .negative hb hd (by omega) (by omega) hs
  · intro h
    have hne : t ≠ [] := by
      cases h with
      | hash => simp
      | factor => simp
      | symbol hb hd _ hs => exact (symbol_chars hb hd hs).2.2
      | negative hb hd _ _ hs => exact (symbol_chars hb hd hs).2.2
      | number hq => exact (factor_chars hq).2
    unfold parse
    rw [if_neg (by rintro (h | h); exacts [hne h, by omega])]
    cases h with
    | @hash b d s _ _ hb hd hn hs =>
      have e := hash_at (f := []) (r := b ++ d ++ s) (by simp)
      simp only [List.nil_append] at e
      rw [show '#' :: b ++ d ++ s = '#' :: (b ++ d ++ s) by simp, if_pos e.1, e.2.1, e.2.2]
      exact symbol_full.mpr ⟨b, d, s, rfl, hb, hs, .inl ⟨hd, by omega, by omega, rfl⟩⟩
    | @factor f b d s _ _ _ hq hb hd hn hs =>
      have hc := factor_chars hq
      have e := hash_at (r := b ++ d ++ s) hc.1
      have e3 : f ++ '#' :: b ++ d ++ s = f ++ '#' :: (b ++ d ++ s) := by simp
      rw [e3] at ht ⊢
      rw [if_pos e.1, e.2.1, e.2.2, (factor_full (plain hD ht f fun c hc => List.mem_append_left _ hc) hc.2).mpr ⟨q, rfl, hq⟩]
      exact symbol_full.mpr ⟨b, d, s, rfl, hb, hs, .inl ⟨hd, by omega, by omega, rfl⟩⟩
    | @symbol b d s _ _ hb hd hn hs =>
      have hc := symbol_chars hb hd hs
      rw [if_neg hc.1, if_neg hc.2.1]
      exact symbol_full.mpr ⟨b, d, s, rfl, hb, hs, .inl ⟨hd, by omega, by omega, rfl⟩⟩
    | @negative b d s _ _ hb hd h0 hn hs =>
      have hc := symbol_chars hb hd hs
      rw [if_neg hc.1, if_neg hc.2.1]
      exact symbol_full.mpr ⟨b, d, s, rfl, hb, hs, .inr ⟨rfl, hd, by omega, by omega, rfl⟩⟩
    | number hq hp =>
      have hc := factor_chars hq
      rw [if_neg hc.1, if_pos hp, (factor_full (plain hD ht t fun c hc => hc) hc.2).mpr ⟨q, rfl, hq⟩]
      rfl

/-- **C113, results.** Whatever is read, the number of the symbol is that of an `int`, and not negative. -/
theorem C113_number {D : Doubles} {t : Text} {i : Int} {v : Number} {c : Bool} (h : parse D t = .symbol i v c) : 0 ≤ i ∧ i < 2 ^ 31 ∧ t.length ≤ 32 := by
  have key : ∀ p u, readSymbol p u = .symbol i v c → 0 ≤ i ∧ i < 2 ^ 31 := by
    intro p u h
    obtain ⟨b, d, s, -, -, -, h | h⟩ := symbol_full.mp h <;> omega
  unfold parse at h
  by_cases h0 : t = [] ∨ 32 < t.length
  · rw [if_pos h0] at h; cases h
  rw [if_neg h0] at h
  rw [← and_assoc]
  refine ⟨?_, by omega⟩
  by_cases h1 : '#' ∈ t
  · rw [if_pos h1] at h
    split at h
    · cases h
    · exact key _ _ h
  · rw [if_neg h1] at h
    by_cases h2 : '.' ∈ t
    · rw [if_pos h2] at h
      split at h
      · cases h
      · cases h
        omega
    · rw [if_neg h2] at h
      exact key _ _ h

/-- C113 refuted for the least integer: exactly the texts of -2147483648, with or without a star, are undefined behaviour, because the number is negated. -/
theorem C113_refuted_least {D : Doubles} {t : Text} (hl : t.length ≤ 32) :
    parse D t = .undefined ↔ ∃ b d s c, t = b ++ d ++ s ∧ Blank b ∧ IsInt d (-2147483648) ∧ IsStar s c := by
  constructor
  · intro h
    unfold parse at h
    by_cases h0 : t = [] ∨ 32 < t.length
    · rw [if_pos h0] at h; cases h
    rw [if_neg h0] at h
    by_cases h1 : '#' ∈ t
    · rw [if_pos h1] at h
      split at h
      · cases h
      · exact absurd (symbol_undefined.mp h).1 (by simp)
    · rw [if_neg h1] at h
      by_cases h2 : '.' ∈ t
      · rw [if_pos h2] at h
        split at h <;> cases h
      · rw [if_neg h2] at h
        exact (symbol_undefined.mp h).2
  · rintro ⟨b, d, s, c, rfl, hb, hd, hs⟩
    have hc := symbol_chars hb hd hs
    unfold parse
    rw [if_neg (by rintro (h | h); exacts [hc.2.2 h, by omega]), if_neg hc.1, if_neg hc.2.1]
    exact symbol_undefined.mpr ⟨rfl, b, d, s, c, rfl, hb, hd, hs⟩

/-- C113 refuted for finite numbers: if `stod` reads `nan` as a number, as it must, then `nan#n` is a symbol with that factor. -/
theorem C113_refuted_finite {D : Doubles} (h : D.special ['n', 'a', 'n'] = some (.other false, 3)) (n : Nat) (hn : n < 2 ^ 31) :
    parse D (['n', 'a', 'n', '#'] ++ Nat.toDigits 10 n) = .symbol n (.other false) false := by
  have hd : IsInt (Nat.toDigits 10 n) n := ⟨[], _, 1, n, by simp, .no, ⟨Nat.toDigits_ne_nil, fun c hc => Nat.isDigit_of_mem_toDigits (by omega) (by omega) hc,
    Nat.ofDigitChars_ten_toDigits.symm⟩, by simp⟩
  have hlen : (Nat.toDigits 10 n).length ≤ 10 := (Nat.length_toDigits_le_iff (by omega) (by omega)).mpr (by omega)
  have e := hash_at (f := ['n', 'a', 'n']) (r := Nat.toDigits 10 n) (by decide)
  unfold parse
  rw [if_neg (by rintro (h | h); exacts [by simp at h, by simp at h; omega])]
  rw [show ['n', 'a', 'n', '#'] ++ Nat.toDigits 10 n = ['n', 'a', 'n'] ++ '#' :: Nat.toDigits 10 n from rfl, if_pos e.1, e.2.1, e.2.2]
  have hf : readFactor D ['n', 'a', 'n'] = some (.other false) := by
    unfold readFactor stod
    rw [if_neg (by simp)]
    dsimp only
    rw [show (sign (List.dropWhile space ['n', 'a', 'n'])).2 = ['n', 'a', 'n'] from rfl, h]
    rfl
  rw [hf]
  exact symbol_full.mpr ⟨[], _, [], by simp, by simp [Blank], .no, .inl ⟨hd, by omega, by omega, rfl⟩⟩

/-! ## Texts of symbols that are written -/

/-- The text of a `double`: digits and perhaps `.`, `+`, `-` and `e`. -/
def Printer (print : ℝ → Text) : Prop := ∀ x, print x ≠ [] ∧ ∀ c ∈ print x, c.isDigit = true ∨ c ∈ ['.', '+', '-', 'e']

theorem digits_int (n : Nat) : IsInt (Nat.toDigits 10 n) n :=
  ⟨[], _, 1, n, by simp, .no, ⟨Nat.toDigits_ne_nil, fun _ hc => Nat.isDigit_of_mem_toDigits (by omega) (by omega) hc, Nat.ofDigitChars_ten_toDigits.symm⟩, by simp⟩

theorem minus_int (n : Nat) : IsInt ('-' :: Nat.toDigits 10 n) (-n) :=
  ⟨['-'], _, -1, n, by simp, .minus, ⟨Nat.toDigits_ne_nil, fun _ hc => Nat.isDigit_of_mem_toDigits (by omega) (by omega) hc, Nat.ofDigitChars_ten_toDigits.symm⟩, by simp⟩

theorem digits_short {n : Nat} (h : n < 2 ^ 31) : (Nat.toDigits 10 n).length ≤ 10 := (Nat.length_toDigits_le_iff (by omega) (by omega)).mpr (by omega)

theorem real_tiny (x : ℝ) : Tolerance.real (x : ℂ) 1 = true := by
  simp [Tolerance.real, Tolerance.tiny, Tolerance.eps]

theorem near_self (x : ℝ) : Tolerance.near x x 1 = true := by
  simp [Tolerance.near, Tolerance.eps]

theorem star_text (c : Bool) : IsStar (if c then ['*'] else []) c := by
  cases c
  · exact .no
  · exact .star

theorem no_letters {a b c : Text} (ha : ∀ x ∈ a, x = '-' ∨ x = '#') (hb : ∀ x ∈ b, x.isDigit = true) (hc : ∀ x ∈ c, x = '*') : ¬ Letters (a ++ b ++ c) := by
  rintro ⟨x, hx, hl⟩
  simp only [List.mem_append] at hx
  rcases hx with (hx | hx) | hx
  · rcases ha x hx with rfl | rfl <;> exact absurd hl (by decide)
  · have := hb x hx
    simp only [List.mem_cons, List.not_mem_nil, or_false] at hl
    rcases hl with rfl | rfl | rfl | rfl | rfl | rfl <;> exact absurd this (by decide)
  · rw [hc x hx] at hl
    exact absurd hl (by decide)

theorem star_chars (c : Bool) : ∀ x ∈ (if c then ['*'] else [] : Text), x = '*' := by
  cases c <;> simp

/-- **C113, round trip.** Texts of symbols without a factor, with or without `#`, and of symbols with a minus sign without `#`, are read as those symbols; the text of
zero is read as symbol 0; and texts of numbers with a decimal point are read as numbers. -/
theorem C113_round {D : Doubles} (hD : Standard D) (print : ℝ → Text) {id : Nat} (h1 : 1 < id) (h2 : id < 2 ^ 31) (c : Bool) :
    (∀ hash, parse D (format print id 1 c false hash) = .symbol id (.finite 1) c) ∧
    parse D (format print id (-1) c false false) = .symbol id (.finite (-1)) c ∧
    (∀ z hash, parse D (format print 0 z c false hash) = .symbol 0 (.finite 1) false) ∧
    ∀ (x : ℝ) (q : ℚ) hash, x ≠ 0 → ¬ Letters (print x) → (print x).length ≤ 32 → IsFactor D.round (print x) q → '.' ∈ print x →
      parse D (format print 1 (x : ℂ) c false hash) = .symbol 1 (.finite q) false := by
  have hdig : ∀ x ∈ Nat.toDigits 10 id, x.isDigit = true := fun _ hc => Nat.isDigit_of_mem_toDigits (by omega) (by omega) hc
  have hlen := digits_short h2
  have slen : (if c then ['*'] else [] : Text).length ≤ 1 := by cases c <;> simp
  have f1 : formatFactor print 1 false false = ([], false) := by
    have hr : Tolerance.real 1 1 = true := by simpa using real_tiny 1
    unfold formatFactor
    rw [if_pos hr, if_pos (by simp)]
    simp [near_self]
  have f2 : formatFactor print (-1) false false = (['-'], false) := by
    have hr : Tolerance.real (-1) 1 = true := by simpa using real_tiny (-1)
    unfold formatFactor
    rw [if_pos hr, if_neg (by simp)]
    simp [near_self]
  have hid : (id == 1) = false := by simp; omega
  refine ⟨fun hash => ?_, ?_, fun z hash => ?_, fun x q hash hx hn hl hq hp => ?_⟩
  · have e : format print id 1 c false hash = (if hash then ['#'] else []) ++ Nat.toDigits 10 id ++ (if c then ['*'] else []) := by
      unfold format
      rw [if_neg (by simp; omega), hid, f1]
      dsimp only
      rw [if_neg (by omega)]
      simp
    rw [e, C113_reads hD (no_letters (by cases hash <;> simp) hdig (star_chars c)) (by
      rw [List.length_append, List.length_append]
      have : (if hash then ['#'] else [] : Text).length ≤ 1 := by cases hash <;> simp
      omega)]
    cases hash with
    | false => exact Means.symbol (b := []) (by simp [Blank]) (digits_int id) h2 (star_text c)
    | true => exact Means.hash (b := []) (by simp [Blank]) (digits_int id) h2 (star_text c)
  · have e : format print id (-1) c false false = ['-'] ++ Nat.toDigits 10 id ++ (if c then ['*'] else []) := by
      unfold format
      rw [if_neg (by simp; omega), hid, f2]
      dsimp only
      rw [if_neg (by omega)]
      simp
    rw [e, C113_reads hD (no_letters (by simp) hdig (star_chars c)) (by
      rw [List.length_append, List.length_append, List.length_singleton]
      omega)]
    exact Means.negative (b := []) (d := '-' :: Nat.toDigits 10 id) (by simp [Blank]) (minus_int id) (by omega) h2 (star_text c)
  · have e : format print 0 z c false hash = ['0'] := by
      unfold format
      rw [if_pos (.inl rfl)]
      rfl
    rw [e]
    exact (C113_reads hD (by rintro ⟨x, hx, hl⟩; rw [List.mem_singleton.mp hx] at hl; exact absurd hl (by decide)) (by simp) 0 1 false).mpr
      (Means.symbol (b := []) (d := ['0']) (s := []) (by simp [Blank]) ⟨[], ['0'], 1, 0, rfl, .no, ⟨by simp, by simp, rfl⟩, rfl⟩ (by norm_num) .no)
  · have e : format print 1 (x : ℂ) c false hash = print x := by
      unfold format
      rw [if_neg (by simpa using hx)]
      dsimp only
      rw [if_pos rfl]
      unfold formatFactor
      rw [if_pos (real_tiny x)]
      by_cases h : 0 < (x : ℂ).re
      · rw [if_pos h]; simp
      · rw [if_neg h]; simp
    rw [e]
    exact (C113_reads hD hn hl 1 q false).mpr (.number hq hp)

/-! ## Texts that are not read -/

/-- What is read as a number has neither spaces, after those before it, nor stars. -/
theorem stod_chars {D : Doubles} (hD : Standard D) {t : Text} {v : Number} (h : stod D t = some (v, [])) : ∀ c ∈ t.dropWhile space, c ≠ ' ' ∧ c ≠ '*' := by
  obtain ⟨s, g, hs, e, -⟩ := sign_spec (t.dropWhile space)
  unfold stod at h
  dsimp only at h
  have hsig : ∀ c ∈ s, c ≠ ' ' ∧ c ≠ '*' := by
    cases hs <;> simp
  have hrest : ∀ c ∈ (sign (t.dropWhile space)).2, c ≠ ' ' ∧ c ≠ '*' := by
    generalize (sign (t.dropWhile space)).2 = u at h
    generalize (sign (t.dropWhile space)).1 = g' at h
    have take_of : ∀ k, u.drop k = [] → u.take k = u := fun k hk => List.take_of_length_le (List.drop_eq_nil_iff.mp hk)
    split at h
    · rename_i q k hk
      simp only [Option.some.injEq, Prod.mk.injEq] at h
      have := hD _ _ _ hk
      rw [take_of k h.2] at this
      exact this.2
    · rename_i v' k hv hk
      simp only [Option.some.injEq, Prod.mk.injEq] at h
      have := hD _ _ _ hk
      rw [take_of k h.2] at this
      exact this.2
    · obtain ⟨⟨x, r⟩, h3, h4⟩ := Option.bind_eq_some_iff.mp h
      obtain ⟨q, -, h6⟩ := Option.map_eq_some_iff.mp h4
      cases h6
      obtain ⟨a, f, b, y, e, m, rfl, ha, hf, hy, -, -⟩ := decimal_full.mp h3
      have dig : ∀ c : Char, c.isDigit = true → c ≠ ' ' ∧ c ≠ '*' := by
        intro c hc
        constructor <;> rintro rfl <;> exact absurd hc (by decide)
      have int : ∀ {w : Text} {n : Int}, IsInt w n → ∀ c ∈ w, c ≠ ' ' ∧ c ≠ '*' := by
        intro w n hw c hc
        rcases (int_chars hw).1 c hc with h | rfl | rfl
        · exact dig c h
        · decide
        · decide
      intro c hc
      simp only [List.mem_append] at hc
      rcases hc with (hc | hc) | hc
      · exact dig c (ha c hc)
      · cases hf with
        | no => cases hc
        | point hd =>
          rcases List.mem_cons.mp hc with rfl | hc
          · decide
          · exact dig c (hd c hc)
      · cases hy with
        | no => cases hc
        | small hw =>
          rcases List.mem_cons.mp hc with rfl | hc
          · decide
          · exact int hw c hc
        | large hw =>
          rcases List.mem_cons.mp hc with rfl | hc
          · decide
          · exact int hw c hc
  intro c hc
  rw [e] at hc
  rcases List.mem_append.mp hc with hc | hc
  · exact hsig c hc
  · exact hrest c hc

theorem factor_refused {D : Doubles} (hD : Standard D) {t : Text} (ht : t ≠ []) (h : ∃ c ∈ t.dropWhile space, c = ' ' ∨ c = '*') : readFactor D t = none := by
  unfold readFactor
  rw [if_neg ht]
  cases hs : stod D t with
  | none => rfl
  | some x =>
    obtain ⟨v, r⟩ := x
    by_cases hr : r = []
    · subst hr
      obtain ⟨c, hc, h⟩ := h
      have := stod_chars hD hs c hc
      rcases h with rfl | rfl
      · exact absurd rfl this.1
      · exact absurd rfl this.2
    · rw [Option.bind_some, if_neg hr]

theorem symbol_refused {p : Option Number} {u s : Text} {c : Bool} (hs : IsStar s c) (hu : u.getLast? ≠ some '*') (h : '*' ∈ u) : readSymbol p (u ++ s) = .refused := by
  obtain ⟨e1, e2⟩ := star_of hs hu
  unfold readSymbol
  dsimp only
  rw [e2, e1]
  cases hst : stoi u with
  | none => rfl
  | some x =>
    obtain ⟨n, r⟩ := x
    dsimp only
    by_cases hr : r = []
    · subst hr
      obtain ⟨⟨b, d, rfl, hb, hd⟩, -, -⟩ := stoi_full.mp hst
      rcases List.mem_append.mp h with h | h
      · exact absurd rfl (blank_chars hb _ h).2.2.1
      · rcases (int_chars hd).1 _ h with h | h | h <;> exact absurd h (by decide)
    · rw [if_pos hr]

/-- What comes before a symbol begins with a character that is not a space, and has no `#`. -/
theorem factor_text {print : ℝ → Text} (hp : Printer print) {z : ℂ} (h : (formatFactor print z false false).2 = true) :
    ∃ a u, (formatFactor print z false false).1 = a :: u ∧ space a = false ∧ '#' ∉ a :: u := by
  have key : ∀ x r, '#' ∉ r → ∃ a u, print x ++ r = a :: u ∧ space a = false ∧ '#' ∉ a :: u := by
    intro x r hr
    obtain ⟨h1, h2⟩ := hp x
    obtain ⟨a, u, e⟩ := List.exists_cons_of_ne_nil h1
    refine ⟨a, u ++ r, by rw [e]; rfl, ?_, ?_⟩
    · rcases h2 a (by rw [e]; simp) with h | h
      · exact (digit_class h).1
      · simp only [List.mem_cons, List.not_mem_nil, or_false] at h
        rcases h with rfl | rfl | rfl | rfl <;> decide
    · intro hc
      rw [show a :: (u ++ r) = print x ++ r by rw [e]; rfl] at hc
      rcases List.mem_append.mp hc with hc | hc
      · rcases h2 _ hc with h | h <;> exact absurd h (by decide)
      · exact hr hc
  have key0 : ∀ x, ∃ a u, print x = a :: u ∧ space a = false ∧ '#' ∉ a :: u := fun x => by simpa using key x [] (by simp)
  unfold formatFactor at h ⊢
  split at h
  · rename_i h1
    rw [if_pos h1]
    split at h
    · rename_i h2
      rw [if_pos h2]
      dsimp only at h ⊢
      split at h
      · rename_i h3
        rw [if_pos h3]
        simpa using key0 z.re
      · cases h
    · rename_i h2
      rw [if_neg h2]
      simp only [Bool.false_eq_true, if_false] at h ⊢
      split at h
      · rename_i h3
        rw [if_pos h3]
        exact key0 z.re
      · cases h
  · rename_i h1
    rw [if_neg h1]
    split at h
    · rename_i h2
      rw [if_pos h2]
      split at h
      · rename_i h3
        rw [if_pos h3]
        by_cases h4 : Tolerance.near z.im 1 1 = true
        · exact ⟨'i', [], by simp [h4], by decide, by decide⟩
        · simpa [h4] using key z.im ['i'] (by decide)
      · rename_i h3
        rw [if_neg h3]
        by_cases h4 : Tolerance.near z.im (-1) 1 = true
        · exact ⟨'-', ['i'], by simp [h4], by decide, by decide⟩
        · simpa [h4] using key z.im ['i'] (by decide)
    · rename_i h2
      rw [if_neg h2]
      refine ⟨'(', print z.re ++ " + ".toList ++ print z.im ++ "i)".toList, by simp, by decide, ?_⟩
      have no : ∀ x, '#' ∉ print x := fun x hc => by rcases (hp x).2 _ hc with h | h <;> exact absurd h (by decide)
      simp [no]

/-- C113 refuted for factors: whatever the factor, if it is written before the symbol and is not only a minus sign, then the text is not read, neither with `#` (there is
a space before it) nor without (there is a star). -/
theorem C113_refuted_factor {D : Doubles} (hD : Standard D) {print : ℝ → Text} (hp : Printer print) {id : Nat} (h1 : 1 < id) {z : ℂ} (hz : z ≠ 0)
    (hf : (formatFactor print z false false).2 = true) (c hash : Bool) : parse D (format print id z c false hash) = .refused := by
  obtain ⟨a, u, ef, ha, hn⟩ := factor_text hp hf
  have hid : (id == 1) = false := by simp; omega
  have e : format print id z c false hash = (a :: u) ++ (if hash then [' '] else ['*']) ++ (if hash then ['#'] else []) ++ Nat.toDigits 10 id ++ (if c then ['*'] else []) := by
    unfold format
    rw [if_neg (by rintro (h | h); exacts [by omega, hz h]), hid]
    dsimp only
    rw [if_neg (by omega), hf, if_pos rfl, ef]
  rw [e]
  clear e
  have hst := star_text c
  have hsc := star_chars c
  generalize (if c then ['*'] else [] : Text) = s at hst hsc ⊢
  have hdrop : ∀ r : Text, (a :: u ++ r).dropWhile space = a :: u ++ r := fun r => by
    rw [List.cons_append, List.dropWhile_cons_of_neg (by rw [ha]; simp)]
  cases hash with
    | true =>
      have := hash_at (f := a :: u ++ [' ']) (r := Nat.toDigits 10 id ++ s) (by
        intro h
        rcases List.mem_append.mp h with h | h
        · exact hn h
        · exact absurd h (by decide))
      simp only [if_true]
      rw [show a :: u ++ [' '] ++ ['#'] ++ Nat.toDigits 10 id ++ s = (a :: u ++ [' ']) ++ '#' :: (Nat.toDigits 10 id ++ s) by simp]
      unfold parse
      split
      · rfl
      · rw [if_pos this.1, this.2.1, factor_refused hD (by simp) ⟨' ', by rw [hdrop]; simp, .inl rfl⟩]
    | false =>
      simp only [Bool.false_eq_true, if_false, List.append_nil]
      have hdig : ∀ x ∈ Nat.toDigits 10 id, x.isDigit = true := fun _ hc => Nat.isDigit_of_mem_toDigits (by omega) (by omega) hc
      have nohash : '#' ∉ a :: u ++ ['*'] ++ Nat.toDigits 10 id ++ s := by
        intro h
        simp only [List.mem_append] at h
        rcases h with ((h | h) | h) | h
        · exact hn h
        · exact absurd h (by decide)
        · exact absurd (hdig _ h) (by decide)
        · exact absurd (hsc _ h) (by decide)
      unfold parse
      split
      · rfl
      split
      · rw [factor_refused hD (by simp) ⟨'*', ?_, .inr rfl⟩]
        rw [show a :: u ++ ['*'] ++ Nat.toDigits 10 id ++ s = a :: u ++ (['*'] ++ Nat.toDigits 10 id ++ s) by simp, hdrop]
        simp
      · exact symbol_refused (hst) (by
          obtain ⟨-, v, x, e, hx⟩ := int_chars (digits_int id)
          rw [e, ← List.append_assoc, List.getLast?_append]
          simp only [List.getLast?_singleton, Option.some_or, ne_eq, Option.some.injEq]
          rintro rfl
          exact absurd hx (by decide)) (by simp)

/-- C113 refuted for minus signs: with `#`, the text of a symbol with a minus sign is not read, because `-` alone is not a number. -/
theorem C113_refuted_minus {D : Doubles} (hD : Standard D) (print : ℝ → Text) {id : Nat} (h1 : 1 < id) (c : Bool) : parse D (format print id (-1) c false true) = .refused := by
  have f2 : formatFactor print (-1) false false = (['-'], false) := by
    have hr : Tolerance.real (-1) 1 = true := by simpa using real_tiny (-1)
    unfold formatFactor
    rw [if_pos hr, if_neg (by simp)]
    simp [near_self]
  have hid : (id == 1) = false := by simp; omega
  have e : format print id (-1) c false true = ['-'] ++ '#' :: (Nat.toDigits 10 id ++ (if c then ['*'] else [])) := by
    unfold format
    rw [if_neg (by simp; omega), hid, f2]
    dsimp only
    rw [if_neg (by omega)]
    simp
  have := hash_at (f := ['-']) (r := Nat.toDigits 10 id ++ (if c then ['*'] else [])) (by decide)
  rw [e]
  clear e
  generalize (if c then ['*'] else [] : Text) = s at this ⊢
  unfold parse
  split
  · rfl
  · rw [if_pos this.1, this.2.1]
    have : readFactor D ['-'] = none := by
      have hs : D.special [] = none := by
        cases h : D.special [] with
        | none => rfl
        | some r =>
          obtain ⟨⟨x, hx, -⟩, -⟩ := hD [] r.1 r.2 h
          simp at hx
      unfold readFactor stod
      rw [if_neg (by simp)]
      dsimp only
      rw [show (sign (List.dropWhile space ['-'])).2 = [] from rfl, hs]
      rfl
    rw [this]

/-- C113 refuted for numbers: the text of a whole number is read as the symbol with that number. -/
theorem C113_refuted_scalar {D : Doubles} (hD : Standard D) {print : ℝ → Text} {n : Nat} (hn : 0 < n) (h2 : n < 2 ^ 31) (hp : print n = Nat.toDigits 10 n) (hash : Bool) :
    parse D (format print 1 n false false hash) = .symbol n (.finite 1) false := by
  have e : format print 1 n false false hash = Nat.toDigits 10 n := by
    unfold format
    rw [if_neg (by simp; omega)]
    dsimp only
    rw [if_pos rfl]
    unfold formatFactor
    have hr : Tolerance.real (n : ℂ) 1 = true := by simpa using real_tiny n
    rw [if_pos hr, if_pos (by simpa using hn)]
    simp [hp]
  have hl := no_letters (a := []) (b := Nat.toDigits 10 n) (c := []) (by simp) (fun _ hc => Nat.isDigit_of_mem_toDigits (by omega) (by omega) hc) (by simp)
  simp only [List.nil_append, List.append_nil] at hl
  rw [e, C113_reads hD hl (by have := digits_short h2; omega)]
  have := Means.symbol (round := D.round) (b := []) (s := []) (by simp [Blank]) (digits_int n) h2 .no
  simpa using this

/-! ## Texts of terms and of factors -/

theorem near_neg (x y : ℝ) : Tolerance.near (-x) (-y) 1 = Tolerance.near x y 1 := by
  unfold Tolerance.near
  rw [abs_neg, abs_neg, show -x - -y = -(x - y) by ring, abs_neg]

theorem tiny_neg (x : ℝ) : Tolerance.tiny (-x) 1 = Tolerance.tiny x 1 := by
  unfold Tolerance.tiny
  rw [abs_neg]

theorem near_zero (y : ℝ) (hy : |y| = 1) : Tolerance.near 0 y 1 = false := by
  unfold Tolerance.near
  rw [decide_eq_false_iff_not, zero_sub, abs_neg, abs_zero, hy, Tolerance.eps]
  norm_num

/-- **C113, terms of sums.** What is written for a term that is not the first one is ` + ` or ` - ` and what is written for it as the first one, with the opposite
factor after ` - `. -/
theorem C113_plus (print : ℝ → Text) (id : Nat) (z : ℂ) (c hash : Bool) :
    format print id z c true hash = " + ".toList ++ format print id z c false hash ∨ format print id z c true hash = " - ".toList ++ format print id (-z) c false hash := by
  have key : ∀ b, (∃ t, formatFactor print z b true = (" + ".toList ++ (formatFactor print z b false).1, t) ∧ (formatFactor print z b false).2 = t) ∨
      ∃ t, formatFactor print z b true = (" - ".toList ++ (formatFactor print (-z) b false).1, t) ∧ (formatFactor print (-z) b false).2 = t := by
    intro b
    unfold formatFactor
    have n1 := near_neg z.re 1
    have n2 := near_neg z.re (-1)
    have n3 := near_neg z.im 1
    have n4 := near_neg z.im (-1)
    rw [neg_neg] at n2 n4
    by_cases h1 : Tolerance.real z 1 = true
    · have h1' : Tolerance.real (-z) 1 = true := by
        unfold Tolerance.real at h1 ⊢
        rwa [Complex.neg_im, tiny_neg]
      simp only [h1, h1', if_true]
      by_cases h2 : 0 < z.re
      · left
        simp only [if_pos h2, Bool.false_eq_true, if_false, List.nil_append]
        split <;> exact ⟨_, by simp, rfl⟩
      · right
        simp only [if_neg h2, Bool.false_eq_true, if_false, List.nil_append, Complex.neg_re, Left.neg_pos_iff]
        by_cases h3 : z.re < 0
        · rw [if_pos h3, n2]
          split <;> exact ⟨_, by simp, rfl⟩
        · have h0 : z.re = 0 := by linarith
          rw [if_neg h3, h0, neg_zero, near_zero (-1) (by norm_num)]
          simp
    · have h1' : ¬ Tolerance.real (-z) 1 = true := by
        unfold Tolerance.real at h1 ⊢
        rwa [Complex.neg_im, tiny_neg]
      simp only [h1, h1', if_false, Complex.neg_re, tiny_neg, Complex.neg_im, Left.neg_pos_iff]
      by_cases h2 : Tolerance.tiny z.re 1 = true
      · simp only [h2, if_true]
        by_cases h3 : 0 < z.im
        · left
          simp [h3]
        · right
          have h4 : z.im ≠ 0 := by
            intro h
            apply h1
            unfold Tolerance.real Tolerance.tiny
            rw [h, abs_zero, decide_eq_true_iff, Tolerance.eps]
            norm_num
          have h5 : z.im < 0 := lt_of_le_of_ne (not_lt.mp h3) h4
          simp only [if_neg h3, if_pos h5, n4]
          simp
      · left
        simp [h2]
  unfold format
  by_cases h0 : id = 0 ∨ z = 0
  · left
    rw [if_pos h0, if_pos h0]
    rfl
  · have h0' : ¬ (id = 0 ∨ -z = 0) := by rwa [neg_eq_zero]
    rw [if_neg h0, if_neg h0, if_neg h0']
    dsimp only
    rcases key (id == 1) with ⟨t, e1, e2⟩ | ⟨t, e1, e2⟩
    · left
      rw [e1, e2]
      split <;> simp
    · right
      rw [e1, e2]
      split <;> simp

/-- The parts of two numbers are written in the same way, or both are nearly zero, or both nearly 1, or both nearly -1. -/
def Alike (print : ℝ → Text) (x y : ℝ) : Prop :=
  print x = print y ∨ (Tolerance.tiny x 1 = true ∧ Tolerance.tiny y 1 = true) ∨ (Tolerance.near x 1 1 = true ∧ Tolerance.near y 1 1 = true) ∨
    (Tolerance.near x (-1) 1 = true ∧ Tolerance.near y (-1) 1 = true)

/-- The forms of factors. -/
inductive Shape (print : ℝ → Text) (z : ℂ) : Nat → Text → Prop
  | one : Tolerance.tiny z.im 1 = true → Tolerance.near z.re 1 1 = true → Shape print z 0 []
  | minus : Tolerance.tiny z.im 1 = true → Tolerance.near z.re (-1) 1 = true → Shape print z 1 ['-']
  | real : Tolerance.tiny z.im 1 = true → Shape print z 2 (print z.re)
  | unit : Tolerance.tiny z.re 1 = true → Tolerance.near z.im 1 1 = true → Shape print z 3 ['i']
  | minusUnit : Tolerance.tiny z.re 1 = true → Tolerance.near z.im (-1) 1 = true → Shape print z 4 ['-', 'i']
  | imag : Tolerance.tiny z.re 1 = true → Shape print z 5 (print z.im ++ ['i'])
  | complex : Shape print z 6 (['('] ++ print z.re ++ " + ".toList ++ print z.im ++ "i)".toList)

theorem shape (print : ℝ → Text) (z : ℂ) : ∃ k, Shape print z k (formatFactor print z false false).1 := by
  unfold formatFactor
  simp only [Bool.false_eq_true, if_false, Bool.false_or, List.nil_append]
  by_cases h1 : Tolerance.real z 1 = true
  · rw [if_pos h1]
    unfold Tolerance.real at h1
    split
    · by_cases h2 : Tolerance.near z.re 1 1 = true
      · simp only [h2, Bool.not_true, Bool.false_eq_true, if_false]
        exact ⟨_, .one h1 h2⟩
      · simp only [h2, Bool.not_false, if_true]
        exact ⟨_, .real h1⟩
    · by_cases h2 : Tolerance.near z.re (-1) 1 = true
      · simp only [h2, Bool.not_true, Bool.false_eq_true, if_false]
        exact ⟨_, .minus h1 h2⟩
      · simp only [h2, Bool.not_false, if_true]
        exact ⟨_, .real h1⟩
  · rw [if_neg h1]
    by_cases h2 : Tolerance.tiny z.re 1 = true
    · rw [if_pos h2]
      split
      · by_cases h3 : Tolerance.near z.im 1 1 = true
        · simp only [h3, if_true]
          exact ⟨_, .unit h2 h3⟩
        · simp only [h3, if_false]
          exact ⟨_, .imag h2⟩
      · by_cases h3 : Tolerance.near z.im (-1) 1 = true
        · simp only [h3, if_true]
          exact ⟨_, .minusUnit h2 h3⟩
        · simp only [h3, if_false]
          exact ⟨_, .imag h2⟩
    · rw [if_neg h2]
      exact ⟨_, .complex⟩

/-- What tells the forms apart. -/
def code (t : Text) : Bool × Bool × Nat := (t.contains '(', t.contains 'i', if t.any Char.isDigit then 5 else t.length)

def codeOf : Nat → Bool × Bool × Nat
  | 0 => (false, false, 0)
  | 1 => (false, false, 1)
  | 2 => (false, false, 5)
  | 3 => (false, true, 1)
  | 4 => (false, true, 2)
  | 5 => (false, true, 5)
  | _ => (true, true, 5)

theorem shape_code {print : ℝ → Text} (hp : Printer print) (hd : ∀ x, ∃ c ∈ print x, c.isDigit = true) {z : ℂ} {k : Nat} {t : Text} (h : Shape print z k t) :
    code t = codeOf k ∧ k ≤ 6 := by
  have no : ∀ x, '(' ∉ print x ∧ 'i' ∉ print x := fun x => by
    constructor <;> intro hc <;> rcases (hp x).2 _ hc with h | h <;> exact absurd h (by decide)
  have dig : ∀ x, (print x).any Char.isDigit = true := fun x => by
    obtain ⟨c, h1, h2⟩ := hd x
    exact List.any_eq_true.mpr ⟨c, h1, h2⟩
  cases h with
  | one => exact ⟨by decide, by omega⟩
  | minus => exact ⟨by decide, by omega⟩
  | real => exact ⟨by simp [code, codeOf, no, dig], by omega⟩
  | unit => exact ⟨by decide, by omega⟩
  | minusUnit => exact ⟨by decide, by omega⟩
  | imag => exact ⟨by simp [code, codeOf, no, dig], by omega⟩
  | complex => exact ⟨by simp [code, codeOf, no, dig], by omega⟩

theorem codeOf_inj {j k : Nat} (hj : j ≤ 6) (hk : k ≤ 6) (h : codeOf j = codeOf k) : j = k := by
  have : ∀ j < 7, ∀ k < 7, codeOf j = codeOf k → j = k := by decide
  exact this j (by omega) k (by omega) h

theorem space_cut {a b r s : Text} (ha : ' ' ∉ a) (hb : ' ' ∉ b) (h : a ++ ' ' :: r = b ++ ' ' :: s) : a = b ∧ r = s := by
  induction a generalizing b with
  | nil =>
    cases b with
    | nil => exact ⟨rfl, (List.cons.inj h).2⟩
    | cons x b => exact absurd (List.mem_cons.mpr (.inl (List.cons.inj h).1)) hb
  | cons x a ih =>
    cases b with
    | nil => exact absurd (List.mem_cons.mpr (.inl (List.cons.inj h).1.symm)) ha
    | cons y b =>
      obtain ⟨e1, e2⟩ := List.cons.inj h
      obtain ⟨e3, e4⟩ := ih (fun hc => ha (List.mem_cons_of_mem _ hc)) (fun hc => hb (List.mem_cons_of_mem _ hc)) e2
      exact ⟨by rw [e1, e3], e4⟩

/-- **C113, factors.** Factors with the same text are the same, up to what is lost in the text of a `double` and up to the tolerance for 0, 1 and -1. -/
theorem C113_factors {print : ℝ → Text} (hp : Printer print) (hd : ∀ x, ∃ c ∈ print x, c.isDigit = true) {z w : ℂ}
    (h : (formatFactor print z false false).1 = (formatFactor print w false false).1) : Alike print z.re w.re ∧ Alike print z.im w.im := by
  obtain ⟨j, hj⟩ := shape print z
  obtain ⟨k, hk⟩ := shape print w
  rw [h] at hj
  generalize (formatFactor print w false false).1 = t at hj hk
  have cj := shape_code hp hd hj
  have ck := shape_code hp hd hk
  have e : j = k := codeOf_inj cj.2 ck.2 (cj.1.symm.trans ck.1)
  subst e
  clear cj ck
  generalize et : t = t' at hk
  cases hj with
  | one a b => cases hk with | one c d => exact ⟨.inr (.inr (.inl ⟨b, d⟩)), .inr (.inl ⟨a, c⟩)⟩
  | minus a b => cases hk with | minus c d => exact ⟨.inr (.inr (.inr ⟨b, d⟩)), .inr (.inl ⟨a, c⟩)⟩
  | real a => cases hk with | real c => exact ⟨.inl et, .inr (.inl ⟨a, c⟩)⟩
  | unit a b => cases hk with | unit c d => exact ⟨.inr (.inl ⟨a, c⟩), .inr (.inr (.inl ⟨b, d⟩))⟩
  | minusUnit a b => cases hk with | minusUnit c d => exact ⟨.inr (.inl ⟨a, c⟩), .inr (.inr (.inr ⟨b, d⟩))⟩
  | imag a => cases hk with | imag c => exact ⟨.inr (.inl ⟨a, c⟩), .inl (List.append_cancel_right et)⟩
  | complex => cases hk with | complex =>
    have no : ∀ x, ' ' ∉ print x := fun x hc => by rcases (hp x).2 _ hc with h | h <;> exact absurd h (by decide)
    simp only [List.append_assoc, List.singleton_append, List.cons_append] at et
    have e1 := space_cut (no _) (no _) (List.cons.inj et).2
    refine ⟨.inl e1.1, .inl ?_⟩
    have e2 := (List.cons.inj (List.cons.inj e1.2).2).2
    exact List.append_cancel_right e2

-- "0.25#3*" and "-2*" mean what they should; so does "13.0".
example : Standard exact ∧ ¬ Letters "0.25#3*".toList ∧ parse exact "0.25#3*".toList = .symbol 3 (.finite (1 / 4)) true ∧
    parse exact "-2*".toList = .symbol 2 (.finite (-1)) true ∧ parse exact "13.0".toList = .symbol 1 (.finite 13) false := by
  refine ⟨exact_standard, by unfold Letters; decide, by decide +kernel, by decide +kernel, by decide +kernel⟩
example : Means some "2.5e1#7".toList 7 25 false := (C113_reads exact_standard (by unfold Letters; decide) (by decide) 7 25 false).mp (by decide +kernel)
example : ∃ b d s c, "-2147483648*".toList = b ++ d ++ s ∧ Blank b ∧ IsInt d (-2147483648) ∧ IsStar s c :=
  (C113_refuted_least (D := exact) (by decide)).mp (by decide +kernel)
example : exact.special ['n', 'a', 'n'] = some (.other false, 3) := rfl
example : ∀ x : ℝ, ∃ c ∈ (fun _ : ℝ => ['2']) x, c.isDigit = true := fun _ => ⟨'2', by simp, by decide⟩
example : Printer (fun _ => ['2']) ∧ (formatFactor (fun _ => ['2']) 2 false false).2 = true := by
  refine ⟨fun x => ⟨by simp, by simp⟩, ?_⟩
  have hr : Tolerance.real 2 1 = true := by simpa using real_tiny 2
  have hn : Tolerance.near 2 1 1 = false := by
    simp only [Tolerance.near, Tolerance.eps, decide_eq_false_iff_not]
    norm_num
  unfold formatFactor
  rw [if_pos hr, if_pos (by simp)]
  simp [hn]

end Moment.C113
