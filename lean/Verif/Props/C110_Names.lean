import Verif.Proof.Names
import Mathlib.Data.Nat.Bitwise

/-! # C110: names of operators in algebraic scenarios -/

namespace Moment.C110
open Moment.Names
open Moment.Rules (Pre ConjMode)

variable {mv : Moves} {p : Pre} {raw : List Text} {T : Table}

/-- **C110, which names are accepted.** A list of names is accepted exactly if it has the right length, no name twice, and each name is a letter followed by
letters, digits, underscores, dots and bars. -/
theorem C110_accept : (Table.make mv p raw).isSome ↔ Proper p raw := by
  rw [make_eq, proper_iff]
  split <;> simp_all

/-- Default names are always accepted. -/
theorem C110_default : ∃ T, Table.make mv p (defaultNames p.raw) = some T := by
  rw [← Option.isSome_iff_exists, C110_accept]
  refine ⟨by simp [defaultNames], ?_, fun t ht => ?_⟩
  · unfold defaultNames
    refine List.Nodup.map (fun i j e => ?_) List.nodup_range
    have e : Nat.toDigits 10 (i + 1) = Nat.toDigits 10 (j + 1) := (List.cons.inj e).2
    have h := congrArg (Nat.ofDigitChars 10 · 0) e
    rw [Nat.ofDigitChars_toDigits (by omega) (by omega), Nat.ofDigitChars_toDigits (by omega) (by omega)] at h
    omega
  · unfold defaultNames at ht
    obtain ⟨i, -, rfl⟩ := List.mem_map.mp ht
    exact ⟨'X', _, rfl, by decide, fun d hd => .inr (.inl (Nat.isDigit_of_mem_toDigits (by omega) (by omega) hd))⟩

example : defaultNames 2 = ["X1".toList, "X2".toList] := by decide

/-- **C110, names of operators.** Each operator has the name that it should have: the name given, or for a conjugate that name with a star. What is missing: with
conjugates next to their operators, the name of the first one. -/
theorem C110_names_partial (h : Table.make mv p raw = some T) : T.names.length = p.num ∧ ∀ k : Nat, k ≠ 0 ∨ p.mode ≠ .interleaved → T.names[k]? = nameOf p raw k := by
  have hb := make_built h
  exact ⟨hb.length, fun k hk => by rw [hb.names, if_neg (by tauto)]⟩

/-- If a string that is moved to itself stays as it is, then nothing is missing. -/
theorem C110_names_harmless (h : Table.make mv p raw = some T) (hh : Harmless mv p) : ∀ k : Nat, T.names[k]? = nameOf p raw k := (make_built h).names' hh

/-- The strings of GNU's library (bits/basic_string.h): they are empty after they were moved to themselves. -/
def gnu : Moves := ⟨fun _ => [], fun _ => []⟩

/-- **C110, refuted.** The first string is moved to itself when conjugates are put next to operators (name_table.cpp:85). Its content is then not specified; with
GNU's library the name is lost, so that different words have the same text. -/
theorem C110_refuted_first : ∃ T, Table.make gnu ⟨2, .interleaved⟩ ["A".toList, "B".toList] = some T ∧ T.names[0]? = some [] ∧
    nameOf ⟨2, .interleaved⟩ ["A".toList, "B".toList] 0 = some "A".toList ∧ T.formatRaw true [0, 2] = T.formatRaw true [0, 0, 2] :=
  ⟨_, rfl, by decide, by decide, by decide⟩

/-- **C110, operators by name.** A text is found exactly if it is the name of an operator, and gives that operator; self-adjoint operators are also found by their
names with a star. -/
theorem C110_find (hf : Fits p) (h : Table.make mv p raw = some T) (t : Text) (v : Int) : T.find t = some v ↔
    (∃ k : Nat, nameOf p raw k = some t ∧ v = k) ∨ (p.mode = .selfAdjoint ∧ ∃ (k : Nat) (r : Text), raw[k]? = some r ∧ t = r ++ ['*'] ∧ v = k) :=
  (make_built h).find hf t v

/-- Different operators have different names. -/
theorem C110_distinct (hf : Fits p) (h : Table.make mv p raw = some T) {j k : Nat} {t : Text} (hj : nameOf p raw j = some t) (hk : nameOf p raw k = some t) : j = k :=
  (make_built h).name_inj hf hj hk

/-- **C110, conjugates.** A name with a star is found, and is the conjugate of the operator with this name. -/
theorem C110_conj (hf : Fits p) (h : Table.make mv p raw = some T) {r : Text} (hr : r ∈ raw) :
    ∃ j k : Nat, T.find r = some j ∧ T.find (r ++ ['*']) = some k ∧ p.conjWord [j] = [k] ∧ p.conjWord [k] = [j] := by
  have hb := make_built h
  have hl := hb.proper.1
  obtain ⟨i, hi⟩ := List.getElem?_of_mem hr
  have hlt := (List.getElem?_eq_some_iff.mp hi).1
  suffices ∃ j k : Nat, ((∃ i : Nat, nameOf p raw i = some r ∧ (j : Int) = i) ∨ (p.mode = .selfAdjoint ∧ ∃ (i : Nat) (r' : Text), raw[i]? = some r' ∧ r = star r' ∧ (j : Int) = i)) ∧
      ((∃ i : Nat, nameOf p raw i = some (star r) ∧ (k : Int) = i) ∨ (p.mode = .selfAdjoint ∧ ∃ (i : Nat) (r' : Text), raw[i]? = some r' ∧ star r = star r' ∧ (k : Int) = i)) ∧
      p.conjWord [j] = [k] ∧ p.conjWord [k] = [j] by
    obtain ⟨j, k, h1, h2, h3⟩ := this
    exact ⟨j, k, (hb.find hf r j).mpr h1, (hb.find hf (star r) k).mpr h2, h3⟩
  cases hm : p.mode with
  | selfAdjoint =>
    have hn : nameOf p raw i = some r := by simpa only [nameOf, hm] using hi
    exact ⟨i, i, .inl ⟨i, hn, rfl⟩, .inr ⟨rfl, i, r, hi, rfl, rfl⟩, by simp [Pre.conjWord, hm], by simp [Pre.conjWord, hm]⟩
  | bunched =>
    have hnum : p.num = 2 * p.raw := by rw [Pre.num, if_neg (by rw [hm]; decide)]
    have hn : nameOf p raw i = some r := by
      simp only [nameOf, hm]
      rw [if_pos (by omega)]
      exact hi
    have hn' : nameOf p raw (i + p.raw) = some (r ++ ['*']) := by
      simp only [nameOf, hm]
      rw [if_neg (by omega), Nat.add_sub_cancel, hi]
      rfl
    refine ⟨i, i + p.raw, .inl ⟨i, hn, rfl⟩, .inl ⟨_, hn', rfl⟩, ?_, ?_⟩
    · simp only [Pre.conjWord, hm, List.reverse_cons, List.reverse_nil, List.nil_append, List.map_cons, List.map_nil]
      rw [Nat.mod_eq_of_lt (by omega)]
    · simp only [Pre.conjWord, hm, List.reverse_cons, List.reverse_nil, List.nil_append, List.map_cons, List.map_nil]
      rw [hnum, show i + p.raw + p.raw = i + 2 * p.raw by ring, Nat.add_mod_right, Nat.mod_eq_of_lt (by omega)]
  | interleaved =>
    have hn : nameOf p raw (2 * i) = some r := by
      simp only [nameOf, hm]
      rw [if_pos (by omega), show 2 * i / 2 = i by omega]
      exact hi
    have hn' : nameOf p raw (2 * i + 1) = some (r ++ ['*']) := by
      simp only [nameOf, hm]
      rw [if_neg (by omega), show (2 * i + 1) / 2 = i by omega, hi]
      rfl
    have h1 : (2 * i) ^^^ 1 = 2 * i + 1 := Nat.xor_one_of_even (by simp)
    have h2 : (2 * i + 1) ^^^ 1 = 2 * i := by rw [Nat.xor_one_of_odd (by simp)]; omega
    exact ⟨2 * i, 2 * i + 1, .inl ⟨_, hn, rfl⟩, .inl ⟨_, hn', rfl⟩, by simp [Pre.conjWord, hm, h1], by simp [Pre.conjWord, hm, h2]⟩

/-- Two operators with conjugates after them. -/
example : ∃ T, Table.make gnu ⟨2, .bunched⟩ ["A".toList, "B1".toList] = some T ∧ T.find "B1*".toList = some 3 ∧ T.find "A**".toList = none ∧
    T.names[3]? = some "B1*".toList ∧ Fits ⟨2, .bunched⟩ ∧ Harmless gnu ⟨2, .bunched⟩ :=
  ⟨_, rfl, by decide, by decide, by decide, by unfold Fits; decide, fun h => by cases h⟩

/-! ## Texts of words -/

/-- **C110, texts of words.** Words without sign have different texts if they are different, with braces or without, in lists of single letters or separated by
semicolons. -/
theorem C110_raw_partial (hf : Fits p) (hh : Harmless mv p) (h : Table.make mv p raw = some T) (braces : Bool) {w u : List Nat}
    (hw : ∀ o ∈ w, o < p.num) (hu : ∀ o ∈ u, o < p.num) : (T.formatRaw braces w).isSome ∧ (T.formatRaw braces w = T.formatRaw braces u → w = u) := by
  have hb := make_built h
  have key : ∀ {v : List Nat}, (∀ o ∈ v, o < p.num) → v ≠ [] → (T.body v).map (wrap braces) ≠ some ['1'] := by
    intro v hv hv0 e
    obtain ⟨c, l, hc, hl⟩ := hb.body_head hh hv hv0
    rw [hc, Option.map_some, Option.some.injEq, wrap] at e
    split at e
    · simp at e
    · simp only [List.cons.injEq] at e
      rw [e.1] at hl
      exact absurd hl (by decide)
  unfold Table.formatRaw
  constructor
  · split
    · rfl
    · rw [hb.body hh hw]
      rfl
  · intro e
    split at e <;> rename_i hw0
    · split at e <;> rename_i hu0
      · rw [hw0, hu0]
      · exact (key hu hu0 e.symm).elim
    · split at e <;> rename_i hu0
      · exact (key hw hw0 e).elim
      · refine hb.body_inj hf hh hw hu hw0 hu0 ?_
        rw [hb.body hh hw, hb.body hh hu, Option.map_some, Option.map_some, Option.some.injEq] at e
        rw [hb.body hh hw, hb.body hh hu, Option.some.injEq]
        unfold wrap at e
        split at e
        · simpa using e
        · exact e

/-- **C110, texts with signs.** With braces, sequences have different texts if they are different, except that the text of the identity does not show its sign. -/
theorem C110_format_partial (hf : Fits p) (hh : Harmless mv p) (h : Table.make mv p raw = some T) {x y : HSeq} (hx : ∀ o ∈ x.ops, o < p.num)
    (hy : ∀ o ∈ y.ops, o < p.num) (e : T.format true x = T.format true y) :
    x.isZero = y.isZero ∧ (x.isZero = false → x.ops = y.ops ∧ (x.ops = [] ∨ x.sign = y.sign)) := by
  have hb := make_built h
  have hsign : ∀ {s t : Sign} {a b : Text}, signText s ++ wrap true a = signText t ++ wrap true b → s = t ∧ a = b := by
    intro s t a b e
    cases s <;> cases t <;> simp_all [signText, wrap]
  have hone : ∀ {s : Sign} {a : Text} {c : Char}, c = '0' ∨ c = '1' → signText s ++ wrap true a ≠ [c] := by
    intro s a c hc e
    cases s <;> rcases hc with rfl | rfl <;> simp [signText, wrap] at e
  unfold Table.format at e
  obtain ⟨a, ha⟩ : ∃ a, T.body x.ops = some a := ⟨_, hb.body hh hx⟩
  obtain ⟨b, hb'⟩ : ∃ b, T.body y.ops = some b := ⟨_, hb.body hh hy⟩
  rw [ha, hb'] at e
  cases hzx : x.isZero <;> cases hzy : y.isZero <;> simp only [hzx, hzy, if_true, if_false, Bool.false_eq_true] at e
  · refine ⟨rfl, fun _ => ?_⟩
    split at e <;> rename_i hx0
    · split at e <;> rename_i hy0
      · exact ⟨by rw [hx0, hy0], .inl hx0⟩
      · exact (hone (.inr rfl) (Option.some.inj e).symm).elim
    · split at e <;> rename_i hy0
      · exact (hone (.inr rfl) (Option.some.inj e)).elim
      · obtain ⟨h1, h2⟩ := hsign (Option.some.inj e)
        exact ⟨hb.body_inj hf hh hx hy hx0 hy0 (by rw [ha, hb', h2]), .inr h1⟩
  · split at e
    · simp at e
    · exact (hone (.inl rfl) (Option.some.inj e)).elim
  · split at e
    · simp at e
    · exact (hone (.inl rfl) (Option.some.inj e).symm).elim
  · exact ⟨rfl, fun h => by cases h⟩

/-- **C110, refuted.** The identity and its negative have the same text (algebraic_context.cpp:172-175). -/
theorem C110_refuted_sign : ∃ T, Table.make gnu ⟨1, .selfAdjoint⟩ ["X".toList] = some T ∧ T.format true ⟨1, [], .pos⟩ = T.format true ⟨1, [], .neg⟩ := ⟨_, rfl, by decide⟩

/-- **C110, refuted.** Without braces, `i` times an operator has the same text as a product with an operator of the name `i`. -/
theorem C110_refuted_imaginary : ∃ T, Table.make gnu ⟨2, .selfAdjoint⟩ ["i".toList, "X".toList] = some T ∧
    T.format false ⟨3, [1], .imag⟩ = T.format false ⟨5, [0, 1], .pos⟩ := ⟨_, rfl, by decide⟩

example : ∃ T, Table.make gnu ⟨2, .bunched⟩ ["A".toList, "B".toList] = some T ∧ T.format true ⟨9, [0, 2, 1], .negImag⟩ = some "-i<AA*B>".toList ∧
    T.formatRaw false [3, 3] = some "B*B*".toList := ⟨_, rfl, by decide, by decide⟩

example : ∃ T, Table.make gnu ⟨2, .bunched⟩ ["A".toList, "B1".toList] = some T ∧ T.format true ⟨9, [0, 2, 1], .neg⟩ = some "-<A;A*;B1>".toList := ⟨_, rfl, by decide⟩

/-! ## Reading words -/

/-- **C110, reading names.** The names of the operators of a word are read as this word. -/
theorem C110_read (hf : Fits p) (h : Table.make mv p raw = some T) {w : List Nat} {l : List Text} (hl : w.mapM (nameOf p raw) = some l) :
    T.readNames l = some (w.map fun o : Nat => (o : Int)) := by
  unfold Table.readNames
  induction w generalizing l with
  | nil =>
    cases hl
    rfl
  | cons o w ih =>
    rw [List.mapM_cons] at hl
    cases ho : nameOf p raw o with
    | none => simp [ho] at hl
    | some t =>
      cases hw : w.mapM (nameOf p raw) with
      | none => simp [ho, hw] at hl
      | some l' =>
        simp only [ho, hw, Option.pure_def, Option.bind_eq_bind, Option.bind_some, Option.some.injEq] at hl
        subst hl
        rw [List.mapM_cons, ih hw, (C110_find hf h t o).mpr (.inl ⟨o, ho, rfl⟩)]
        rfl

/-- **C110, reading characters.** Text is read character by character only if all names are single; then the text of a word of self-adjoint operators is read as
this word. -/
theorem C110_chars (hf : Fits p) (hm : p.mode = .selfAdjoint) (h : Table.make mv p raw = some T) (hs : ∀ t ∈ raw, t.length = 1) {w : List Nat} (hw0 : w ≠ [])
    (hw : ∀ o ∈ w, o < p.num) : (T.formatRaw false w).bind T.readChars = some (w.map fun o : Nat => (o : Int)) := by
  have hb := make_built h
  have hh : Harmless mv p := fun e => by rw [hm] at e; cases e
  have hsingle : T.single = true := by
    rw [hb.single, List.all_eq_true]
    intro t ht
    rw [hs t ht]
    rfl
  unfold Table.formatRaw
  rw [if_neg hw0, hb.body hh hw, hsingle]
  simp only [if_true, wrap, Bool.false_eq_true, if_false, Option.map_some, Option.bind_some, Table.readChars, hsingle]
  clear hw0
  induction w with
  | nil => rfl
  | cons o w ih =>
    have hn := textOf_eq hb.proper.1 (hw o List.mem_cons_self)
    obtain ⟨c, hc⟩ : ∃ c, textOf p raw o = [c] := by
      have : textOf p raw o ∈ raw := by
        unfold nameOf at hn
        rw [hm] at hn
        exact List.mem_of_getElem? hn
      exact List.length_eq_one_iff.mp (hs _ this)
    rw [List.map_cons, List.flatten_cons, hc, List.singleton_append, List.mapM_cons, (C110_find hf h [c] o).mpr (.inl ⟨o, hc ▸ hn, rfl⟩),
      ih fun o ho => hw o (List.mem_cons_of_mem _ ho)]
    rfl

/-- With a longer name, text is not read, not even empty text. -/
theorem C110_long (h : Table.make mv p raw = some T) {r : Text} (hr : r ∈ raw) (hl : r.length ≠ 1) (t : Text) : T.readChars t = none := by
  have hs : T.single = false := by
    rw [(make_built h).single, List.all_eq_false]
    exact ⟨r, hr, by simpa using hl⟩
  rw [Table.readChars, hs]
  rfl

example : ∃ T, Table.make gnu ⟨2, .selfAdjoint⟩ ["A".toList, "B2".toList] = some T ∧ T.readChars "A".toList = none := ⟨_, rfl, by decide⟩
example : ∃ T, Table.make gnu ⟨3, .selfAdjoint⟩ ["A".toList, "B".toList, "C".toList] = some T ∧ T.formatRaw false [0, 2, 1] = some "ACB".toList ∧
    T.readChars "ACB".toList = some [0, 2, 1] ∧ T.readNames ["A*".toList, "C".toList] = some [0, 2] := ⟨_, rfl, by decide, by decide, by decide⟩

end Moment.C110
