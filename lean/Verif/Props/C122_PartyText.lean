import Verif.Props.C121_Parties

/-! # C122: in a locality context, different words have different texts -/

namespace Moment.C122
open Moment.Parties Moment.C121

/-! ## Specification -/

/-- A character of a name that has no other use in texts. -/
def plain (c : Char) : Bool := !c.isDigit && !(['.', ';', '|', '-'].contains c)

/-- Names are plain; parties have different names, and so do the measurements of a party. -/
structure Plain (s : Named) : Prop where
  party : ∀ x ∈ s, ∀ c ∈ x.1, plain c = true
  mmt : ∀ x ∈ s, ∀ y ∈ x.2, ∀ c ∈ y.1, plain c = true
  parties : (s.map Prod.fst).Nodup
  mmts : ∀ x ∈ s, (x.2.map Prod.fst).Nodup

/-- The text that is meant for an outcome. -/
def text (f : Formatter) (party mmt : Text) (m o : Nat) : Text :=
  match f with
  | .natural => party ++ '.' :: (mmt ++ Nat.toDigits 10 o)
  | .traditional => party ++ (Nat.toDigits 10 o ++ '|' :: Nat.toDigits 10 m)

/-- Zero, or a word of operators of the context with sign plus or minus; the empty word has sign plus. -/
def Shown (s : Named) : Option (List Int × Sign) → Prop
  | none => True
  | some (w, g) => (∀ op ∈ w, 0 ≤ op ∧ op < ((outcomes s).length : Int)) ∧ (g = .pos ∨ g = .neg ∧ w ≠ [])

/-! ## Single operators -/

theorem plain_spec {c : Char} (h : plain c = true) : ¬ c.isDigit = true ∧ c ≠ '.' ∧ c ≠ ';' ∧ c ≠ '|' ∧ c ≠ '-' := by
  unfold plain at h
  simp at h
  simp [h]

theorem op_is {s : Named} {op : Int} (h : 0 ≤ op) (h' : op < ((outcomes s).length : Int)) : ∃ k p m o, op = (k : Nat) ∧ Is s k p m o := by
  obtain ⟨k, rfl⟩ := Int.eq_ofNat_of_zero_le h
  have hk : k < (outcomes s).length := by omega
  exact ⟨k, (outcomes s)[k].1, (outcomes s)[k].2.1, (outcomes s)[k].2.2, rfl, by unfold Is; rw [List.getElem?_eq_getElem hk]⟩

/-- **C122** The text of an operator names its party, its measurement and its outcome. -/
theorem C122_operator {c : Context} {s : Named} (hf : Fits s) (hc : IsContext c s) (f : Formatter) {k p m o : Nat} (h : Is s k p m o) :
    ∃ x y, s[p]? = some x ∧ x.2[m]? = some y ∧ c.operatorText f k = .value (text f x.1 y.1 m o) := by
  obtain ⟨x, y, h1, h2, h3, h4⟩ := is_iff.mp h
  obtain ⟨ha, P, M, x', y', g1, g2, g3, g4, _, _, _, g5, g6, _, _, g7⟩ := C121_operator hf hc h
  refine ⟨x, y, h1, h2, ?_⟩
  rw [h1, Option.some.injEq] at g3
  subst g3
  rw [h2, Option.some.injEq] at g4
  subst g4
  have e := context_whole hf hc
  subst e
  have b1 := inside_lt h2 h3
  have b2 := before_lt h1
  have b3 := hf.operators
  have hsize : (whole s).size = (s.map fun x => ops x.2).sum := rfl
  unfold Context.operatorText
  rw [if_neg (by rw [hsize]; omega), ha]
  dsimp only
  rw [Int.toNat_natCast, at_some g1]
  dsimp only
  obtain ⟨x', i1, i2⟩ := party_exists hf hc g1
  rw [h1, Option.some.injEq] at i1
  subst i1
  unfold Party.formatOperator
  have o1 : P.opOffset = (before s p : Nat) := by rw [i2]; rfl
  have o2 : P.count = (ops x.2 : Nat) := by rw [i2]; rfl
  have o3 : P.table = mmtTable x.2 := by rw [i2]; rfl
  have o4 : M.offset = (inside x.2 m : Nat) := by
    rw [i2, placed_get, h2, Option.map_some, Option.some.injEq] at g2
    rw [← g2]
  rw [if_neg (by rw [o1, o2]; omega), o1, show ((k : Int) - (before s p : Nat)).toNat = inside x.2 m + o by omega, o3,
    at_some (table_get.mpr ⟨m, y, o, h2, h3, rfl, rfl⟩)]
  dsimp only
  rw [Int.toNat_natCast, at_some g2]
  dsimp only
  rw [o4, i16_of (by omega) (by omega), show (k : Int) - (before s p : Nat) - (inside x.2 m : Nat) = (o : Nat) by omega]
  cases f with
  | natural => simp only [Formatter.format, text, g5, g6, intText_nat]
  | traditional => simp only [Formatter.format, text, g5, g7, intText_nat, List.append_assoc]

example : ∃ c, IsContext c two ∧ c.operatorText .natural 1 = .value "A.x1".toList ∧ c.operatorText .traditional 2 = .value "A0|1".toList := by
  obtain ⟨c, hc⟩ := two_context
  obtain ⟨x, y, h1, h2, h3⟩ := C122_operator two_fits hc .natural (k := 1) (p := 0) (m := 0) (o := 1) (by unfold Is; decide)
  obtain ⟨x', y', g1, g2, g3⟩ := C122_operator two_fits hc .traditional (k := 2) (p := 0) (m := 1) (o := 0) (by unfold Is; decide)
  refine ⟨c, hc, ?_, ?_⟩
  · simp [two] at h1
    subst h1
    simp at h2
    subst h2
    exact h3
  · simp [two] at g1
    subst g1
    simp at g2
    subst g2
    exact g3

theorem digits_cons (n : Nat) : ∃ d ds, Nat.toDigits 10 n = d :: ds ∧ d.isDigit = true := by
  cases e : Nat.toDigits 10 n with
  | nil => exact absurd e Nat.toDigits_ne_nil
  | cons d ds => exact ⟨d, ds, rfl, digits_digit (n := n) (by rw [e]; simp)⟩

theorem digit_spec {c : Char} (h : c.isDigit = true) : c ≠ '.' ∧ c ≠ ';' ∧ c ≠ '|' ∧ c ≠ '-' := by
  refine ⟨?_, ?_, ?_, ?_⟩ <;> rintro rfl <;> revert h <;> decide

theorem nodup_place {α β : Type} {l : List (α × β)} (h : (l.map Prod.fst).Nodup) {i j : Nat} {a b : α × β} (hi : l[i]? = some a) (hj : l[j]? = some b) (e : a.1 = b.1) :
    i = j := by
  have h1 : (l.map Prod.fst)[i]? = some a.1 := by simp [hi]
  have h2 : (l.map Prod.fst)[j]? = some a.1 := by simp [hj, e]
  have hl := (List.getElem?_eq_some_iff.mp h1).1
  exact (List.getElem?_inj hl h).mp (h1.trans h2.symm)

theorem text_inj {s : Named} (hp : Plain s) {f : Formatter} {p m o p' m' o' : Nat} {x x' : Text × Mmts} {y y' : Text × Nat} (h1 : s[p]? = some x) (h2 : x.2[m]? = some y)
    (g1 : s[p']? = some x') (g2 : x'.2[m']? = some y') (h : text f x.1 y.1 m o = text f x'.1 y'.1 m' o') : p = p' ∧ m = m' ∧ o = o' := by
  have px := hp.party x (List.mem_of_getElem? h1)
  have px' := hp.party x' (List.mem_of_getElem? g1)
  have py := hp.mmt x (List.mem_of_getElem? h1) y (List.mem_of_getElem? h2)
  have py' := hp.mmt x' (List.mem_of_getElem? g1) y' (List.mem_of_getElem? g2)
  obtain ⟨d, ds, e1, e2⟩ := digits_cons o
  obtain ⟨d', ds', e1', e2'⟩ := digits_cons o'
  cases f with
  | natural =>
    obtain ⟨i1, _, i2⟩ := cut (p := (· = '.')) (fun c hc e => (plain_spec (px c hc)).2.1 e) (fun c hc e => (plain_spec (px' c hc)).2.1 e) rfl rfl h
    rw [e1, e1'] at i2
    obtain ⟨j1, j2, j3⟩ := cut (p := fun c => c.isDigit = true) (fun c hc => (plain_spec (py c hc)).1) (fun c hc => (plain_spec (py' c hc)).1) e2 e2' i2
    have hpp := nodup_place hp.parties h1 g1 i1
    subst hpp
    rw [h1, Option.some.injEq] at g1
    subst g1
    refine ⟨rfl, nodup_place (hp.mmts x (List.mem_of_getElem? h1)) h2 g2 j1, digits_inj ?_⟩
    rw [e1, e1', j2, j3]
  | traditional =>
    simp only [text] at h
    rw [e1, e1'] at h
    obtain ⟨i1, i2, i3⟩ := cut (p := fun c => c.isDigit = true) (fun c hc => (plain_spec (px c hc)).1) (fun c hc => (plain_spec (px' c hc)).1) e2 e2' h
    have hall : (d :: ds) ++ '|' :: Nat.toDigits 10 m = (d' :: ds') ++ '|' :: Nat.toDigits 10 m' := by
      rw [List.cons_append, List.cons_append, i2]
      exact congrArg _ i3
    rw [← e1, ← e1'] at hall
    obtain ⟨j1, _, j2⟩ := cut (p := (· = '|')) (fun c hc e => (digit_spec (digits_digit hc)).2.2.1 e) (fun c hc e => (digit_spec (digits_digit hc)).2.2.1 e) rfl rfl hall
    exact ⟨nodup_place hp.parties h1 g1 i1, digits_inj j2, digits_inj j1⟩

/-- The character between the parts of the text of an operator. -/
def mark : Formatter → Char
  | .natural => '.'
  | .traditional => '|'

theorem text_chars {s : Named} (hp : Plain s) {f : Formatter} {p m o : Nat} {x : Text × Mmts} {y : Text × Nat} (h1 : s[p]? = some x) (h2 : x.2[m]? = some y) :
    ';' ∉ text f x.1 y.1 m o ∧ '-' ∉ text f x.1 y.1 m o ∧ mark f ∈ text f x.1 y.1 m o := by
  have px := hp.party x (List.mem_of_getElem? h1)
  have py := hp.mmt x (List.mem_of_getElem? h1) y (List.mem_of_getElem? h2)
  have a1 : ';' ∉ x.1 := fun h => (plain_spec (px _ h)).2.2.1 rfl
  have a2 : '-' ∉ x.1 := fun h => (plain_spec (px _ h)).2.2.2.2 rfl
  have b1 : ';' ∉ y.1 := fun h => (plain_spec (py _ h)).2.2.1 rfl
  have b2 : '-' ∉ y.1 := fun h => (plain_spec (py _ h)).2.2.2.2 rfl
  have d1 : ∀ n, ';' ∉ Nat.toDigits 10 n := fun n h => (digit_spec (digits_digit h)).2.1 rfl
  have d2 : ∀ n, '-' ∉ Nat.toDigits 10 n := fun n h => (digit_spec (digits_digit h)).2.2.2 rfl
  cases f <;> simp [text, mark, a1, a2, b1, b2, d1, d2]

theorem joined_mark {c : Char} : ∀ {l : List Text}, l ≠ [] → (∀ t ∈ l, c ∈ t) → c ∈ joined l
  | [], h, _ => absurd rfl h
  | [t], _, h => h t (by simp)
  | t :: u :: us, _, h => by
    rw [joined_cons (by simp)]
    exact List.mem_append_left _ (h t (by simp))

theorem joined_not {c : Char} (hc : c ≠ ';') : ∀ {l : List Text}, (∀ t ∈ l, c ∉ t) → c ∉ joined l
  | [], _ => by simp [joined]
  | [t], h => h t (by simp)
  | t :: u :: us, h => by
    rw [joined_cons (by simp)]
    have := joined_not hc (l := u :: us) fun z hz => h z (by simp [List.mem_cons.mp hz])
    simp [h t (by simp), hc, this]

/-- What is known of the texts of the operators of a word. -/
theorem word_texts {c : Context} {s : Named} (hf : Fits s) (hc : IsContext c s) (hp : Plain s) (f : Formatter) : ∀ {w : List Int},
    (∀ op ∈ w, 0 ≤ op ∧ op < ((outcomes s).length : Int)) → ∃ ts, List.Forall₂ (fun op t => c.operatorText f op = .value t) w ts ∧
      ∀ t ∈ ts, ';' ∉ t ∧ '-' ∉ t ∧ mark f ∈ t
  | [], _ => ⟨[], .nil, by simp⟩
  | op :: w, h => by
    obtain ⟨ts, i1, i2⟩ := word_texts hf hc hp f (w := w) fun z hz => h z (by simp [hz])
    obtain ⟨k, p, m, o, rfl, hi⟩ := op_is (h op (by simp)).1 (h op (by simp)).2
    obtain ⟨x, y, g1, g2, g3⟩ := C122_operator hf hc f hi
    refine ⟨_ :: ts, .cons g3 i1, fun t ht => ?_⟩
    rcases List.mem_cons.mp ht with rfl | ht
    · exact text_chars hp g1 g2
    · exact i2 t ht

theorem words_eq {c : Context} {s : Named} (hf : Fits s) (hc : IsContext c s) (hp : Plain s) (f : Formatter) : ∀ {w w' : List Int} {ts : List Text},
    (∀ op ∈ w, 0 ≤ op ∧ op < ((outcomes s).length : Int)) → (∀ op ∈ w', 0 ≤ op ∧ op < ((outcomes s).length : Int)) →
    List.Forall₂ (fun op t => c.operatorText f op = .value t) w ts → List.Forall₂ (fun op t => c.operatorText f op = .value t) w' ts → w = w'
  | [], [], _, _, _, _, _ => rfl
  | [], _ :: _, _, _, _, h, h' => by cases h; cases h'
  | _ :: _, [], _, _, _, h, h' => by cases h'; cases h
  | a :: w, b :: w', _, hw, hw', .cons h hs, h' => by
    cases h' with
    | cons h' hs' =>
      rw [words_eq hf hc hp f (fun z hz => hw z (by simp [hz])) (fun z hz => hw' z (by simp [hz])) hs hs']
      obtain ⟨k, p, m, o, rfl, hi⟩ := op_is (hw a (by simp)).1 (hw a (by simp)).2
      obtain ⟨k', p', m', o', rfl, hi'⟩ := op_is (hw' b (by simp)).1 (hw' b (by simp)).2
      obtain ⟨x, y, g1, g2, g3⟩ := C122_operator hf hc f hi
      obtain ⟨x', y', j1, j2, j3⟩ := C122_operator hf hc f hi'
      rw [h, Res.value.injEq] at g3
      rw [h', Res.value.injEq] at j3
      obtain ⟨rfl, rfl, rfl⟩ := text_inj hp g1 g2 j1 j2 (g3.symm.trans j3)
      obtain ⟨_, _, u1, u2, _, u3⟩ := is_iff.mp hi
      obtain ⟨_, _, v1, v2, _, v3⟩ := is_iff.mp hi'
      rw [u1, Option.some.injEq] at v1
      subst v1
      rw [u3, v3]

/-! ## Words -/

/-- The text of a word. -/
theorem format_some {c : Context} {f : Formatter} {b : Bool} {w : List Int} {g : Sign} {ts : List Text} (hw : w ≠ []) (hg : g = .pos ∨ g = .neg)
    (h : List.Forall₂ (fun op t => c.operatorText f op = .value t) w ts) : c.formatSequence f b (some (w, g)) =
      .value ((if g = .neg then ['-'] else []) ++ ((if b then ['<'] else []) ++ (joined ts ++ if b then ['>'] else []))) := by
  simp only [Context.formatSequence]
  rw [if_neg hw, collect_value h]
  rcases hg with rfl | rfl <;> simp [negative]

theorem joined_eq : ∀ ts : List Text, joined ts = [';'].intercalate ts
  | [] => rfl
  | [t] => by simp [joined, List.intercalate]
  | t :: u :: us => by
    rw [joined_cons (by simp), joined_eq (u :: us)]
    simp [List.intercalate]

/-- **C122** The text of a word of operators has the sign, and between braces, if these are wanted, the texts of the operators with semicolons between them. -/
theorem C122_word {c : Context} {s : Named} (hf : Fits s) (hc : IsContext c s) (f : Formatter) (b : Bool) {w : List Int} {g : Sign} (hw : w ≠ []) (h : Shown s (some (w, g))) :
    ∃ ts : List Text, List.Forall₂ (fun op t => ∃ k p m o x y, op = ((k : Nat) : Int) ∧ Is s k p m o ∧ s[p]? = some x ∧ x.2[m]? = some y ∧ t = text f x.1 y.1 m o) w ts ∧
      c.formatSequence f b (some (w, g)) = .value ((if g = .neg then ['-'] else []) ++ ((if b then ['<'] else []) ++ ([';'].intercalate ts ++ if b then ['>'] else []))) := by
  have key : ∀ {w : List Int}, (∀ op ∈ w, 0 ≤ op ∧ op < ((outcomes s).length : Int)) → ∃ ts : List Text, List.Forall₂ (fun op t => ∃ k p m o x y, op = ((k : Nat) : Int) ∧
      Is s k p m o ∧ s[p]? = some x ∧ x.2[m]? = some y ∧ t = text f x.1 y.1 m o) w ts ∧ List.Forall₂ (fun op t => c.operatorText f op = .value t) w ts := by
    intro w
    induction w with
    | nil => exact fun _ => ⟨[], .nil, .nil⟩
    | cons op w ih =>
      intro hw
      obtain ⟨ts, i1, i2⟩ := ih fun z hz => hw z (by simp [hz])
      obtain ⟨k, p, m, o, rfl, hi⟩ := op_is (hw op (by simp)).1 (hw op (by simp)).2
      obtain ⟨x, y, g1, g2, g3⟩ := C122_operator hf hc f hi
      exact ⟨_ :: ts, .cons ⟨k, p, m, o, x, y, rfl, hi, g1, g2, rfl⟩ i1, .cons g3 i2⟩
  obtain ⟨ts, i1, i2⟩ := key h.1
  refine ⟨ts, i1, ?_⟩
  rw [format_some hw (h.2.imp id And.left) i2, joined_eq]

example : ∃ c, IsContext c two ∧ c.formatSequence .natural true (some ([0, 3], .neg)) = .value "-<A.x0;B.x0>".toList := by
  obtain ⟨c, hc⟩ := two_context
  obtain ⟨ts, h1, h2⟩ := C122_word two_fits hc .natural true (w := [0, 3]) (g := .neg) (by simp) ⟨by decide, .inr ⟨rfl, by simp⟩⟩
  refine ⟨c, hc, ?_⟩
  cases h1 with
  | cons a as =>
    cases as with
    | cons b bs =>
      cases bs
      obtain ⟨k, p, m, o, x, y, e, hi, g1, g2, rfl⟩ := a
      obtain ⟨k', p', m', o', x', y', e', hi', g1', g2', rfl⟩ := b
      obtain rfl : k = 0 := by omega
      obtain rfl : k' = 3 := by omega
      have i1 : (outcomes two)[0]? = some (0, 0, 0) := by decide
      have i2 : (outcomes two)[3]? = some (1, 0, 0) := by decide
      unfold Is at hi hi'
      rw [i1] at hi
      rw [i2] at hi'
      simp only [Option.some.injEq, Prod.mk.injEq] at hi hi'
      obtain ⟨rfl, rfl, rfl⟩ := hi
      obtain ⟨rfl, rfl, rfl⟩ := hi'
      simp [two] at g1 g1'
      subst g1 g1'
      simp at g2 g2'
      subst g2 g2'
      exact h2

/-- **C122** Different words of operators, zero, the identity and words with another sign have different texts, in both formats, with and without braces, if names of
parties and measurements are different and contain no digits and no other characters that texts use. -/
theorem C122_unique {c : Context} {s : Named} (hf : Fits s) (hc : IsContext c s) (hp : Plain s) (f : Formatter) (b : Bool) {v v' : Option (List Int × Sign)}
    (hv : Shown s v) (hv' : Shown s v') : (∃ t, c.formatSequence f b v = .value t) ∧ (c.formatSequence f b v = c.formatSequence f b v' → v = v') := by
  -- what a text looks like
  have look : ∀ v, Shown s v → (v = none ∧ c.formatSequence f b v = .value ['0']) ∨ (v = some ([], .pos) ∧ c.formatSequence f b v = .value ['1']) ∨
      ∃ w g ts, v = some (w, g) ∧ w ≠ [] ∧ (g = .pos ∨ g = .neg) ∧ (∀ op ∈ w, 0 ≤ op ∧ op < ((outcomes s).length : Int)) ∧
        List.Forall₂ (fun op t => c.operatorText f op = .value t) w ts ∧ ts ≠ [] ∧ (∀ t ∈ ts, ';' ∉ t ∧ '-' ∉ t ∧ mark f ∈ t) ∧
        c.formatSequence f b v = .value ((if g = .neg then ['-'] else []) ++ ((if b then ['<'] else []) ++ (joined ts ++ if b then ['>'] else []))) := by
    intro v hv
    match v, hv with
    | none, _ => exact .inl ⟨rfl, rfl⟩
    | some ([], g), h =>
      rcases h.2 with rfl | ⟨_, h⟩
      · exact .inr (.inl ⟨rfl, rfl⟩)
      · exact absurd rfl h
    | some (op :: w, g), h =>
      obtain ⟨ts, i1, i2⟩ := word_texts hf hc hp f h.1
      have hg : g = .pos ∨ g = .neg := h.2.imp id And.left
      have hts : ts ≠ [] := by
        rintro rfl
        cases i1
      exact .inr (.inr ⟨op :: w, g, ts, rfl, by simp, hg, h.1, i1, hts, i2, format_some (by simp) hg i1⟩)
  have hmark : ∀ (g : Sign) (ts : List Text), ts ≠ [] → (∀ t ∈ ts, ';' ∉ t ∧ '-' ∉ t ∧ mark f ∈ t) → ∀ d : Char, d = '0' ∨ d = '1' →
      ((if g = .neg then ['-'] else []) ++ ((if b then ['<'] else []) ++ (joined ts ++ if b then ['>'] else []))) ≠ [d] := by
    intro g ts h1 h2 d hd e
    have : mark f ∈ [d] := by
      rw [← e]
      exact List.mem_append_right _ (List.mem_append_right _ (List.mem_append_left _ (joined_mark h1 fun t ht => (h2 t ht).2.2)))
    rcases hd with rfl | rfl <;> cases f <;> revert this <;> decide
  constructor
  · rcases look v hv with ⟨_, h⟩ | ⟨_, h⟩ | ⟨_, _, _, _, _, _, _, _, _, _, h⟩ <;> exact ⟨_, h⟩
  · intro h
    rcases look v hv with ⟨rfl, h1⟩ | ⟨rfl, h1⟩ | ⟨w, g, ts, rfl, a1, a2, a3, a4, a5, a6, h1⟩ <;>
      rcases look v' hv' with ⟨rfl, h2⟩ | ⟨rfl, h2⟩ | ⟨w', g', ts', rfl, b1, b2, b3, b4, b5, b6, h2⟩ <;> replace h := Res.value.inj (h1.symm.trans (h.trans h2))
    · rfl
    · exact absurd h (by decide)
    · exact absurd h.symm (hmark g' ts' b5 b6 _ (.inl rfl))
    · exact absurd h (by decide)
    · rfl
    · exact absurd h.symm (hmark g' ts' b5 b6 _ (.inr rfl))
    · exact absurd h (hmark g ts a5 a6 _ (.inl rfl))
    · exact absurd h (hmark g ts a5 a6 _ (.inr rfl))
    · -- no minus in what follows the sign
      have hm : ∀ ts : List Text, (∀ t ∈ ts, ';' ∉ t ∧ '-' ∉ t ∧ mark f ∈ t) → '-' ∉ ((if b then ['<'] else []) ++ (joined ts ++ if b then ['>'] else []) : Text) := by
        intro ts hts
        have := joined_not (c := '-') (by decide) fun t ht => (hts t ht).2.1
        cases b <;> simp [this]
      have hg : g = g' := by
        rcases a2 with rfl | rfl <;> rcases b2 with rfl | rfl
        · rfl
        · exfalso
          apply hm ts a6
          simp only [reduceCtorEq, if_false, if_true, List.nil_append] at h
          rw [h]
          simp
        · exfalso
          apply hm ts' b6
          simp only [reduceCtorEq, if_false, if_true, List.nil_append] at h
          rw [← h]
          simp
        · rfl
      subst hg
      have h := List.append_cancel_right (List.append_cancel_left (List.append_cancel_left h))
      have ne : ∀ ts : List Text, (∀ t ∈ ts, ';' ∉ t ∧ '-' ∉ t ∧ mark f ∈ t) → ∀ t ∈ ts, ';' ∉ t ∧ t ≠ [] := by
        intro ts hts t ht
        refine ⟨(hts t ht).1, fun e => ?_⟩
        have := (hts t ht).2.2
        rw [e] at this
        simp at this
      have e := joined_inj (ne ts a6) (ne ts' b6) h
      subst e
      rw [words_eq hf hc hp f a3 b3 a4 b4]

theorem two_plain : Plain two := ⟨by decide, by decide, by decide, by decide⟩

example : ∃ c, IsContext c two ∧ ∀ w w' : List Int, (∀ op ∈ w, 0 ≤ op ∧ op < 4) → (∀ op ∈ w', 0 ≤ op ∧ op < 4) →
    c.formatSequence .natural true (some (w, .pos)) = c.formatSequence .natural true (some (w', .pos)) → w = w' := by
  obtain ⟨c, hc⟩ := two_context
  refine ⟨c, hc, fun w w' hw hw' h => ?_⟩
  have := (C122_unique two_fits hc two_plain .natural true (v := some (w, .pos)) (v' := some (w', .pos)) ⟨hw, .inl rfl⟩ ⟨hw', .inl rfl⟩).2 h
  simpa using this

/-! ## Names from letters -/

theorem letters_plain (u : Bool) (n : Nat) : ∀ c ∈ letters u n, plain c = true := by
  intro c hc
  unfold letters at hc
  obtain ⟨d, hd, rfl⟩ := List.mem_map.mp hc
  have h : d < 26 := (C46.C46_number n).2 d hd
  have key : ∀ u : Bool, ∀ d < 26, plain (Char.ofNat ((if u then 65 else 97) + d)) = true := by decide
  exact key u d h

theorem letters_inj {u : Bool} {m n : Nat} (h : letters u m = letters u n) : m = n := by
  apply C46.C46_injective
  have hm : ∀ d ∈ Util.alphabeticName m, d < 26 := (C46.C46_number m).2
  have hn : ∀ d ∈ Util.alphabeticName n, d < 26 := (C46.C46_number n).2
  have key : ∀ u : Bool, ∀ d < 26, ∀ e < 26, Char.ofNat ((if u then 65 else 97) + d) = Char.ofNat ((if u then 65 else 97) + e) → d = e := by decide
  unfold letters at h
  generalize Util.alphabeticName m = a at h hm
  generalize Util.alphabeticName n = b at h hn
  induction a generalizing b with
  | nil =>
    cases b with
    | nil => rfl
    | cons => simp at h
  | cons x a ih =>
    cases b with
    | nil => simp at h
    | cons y b =>
      simp only [List.map_cons, List.cons.injEq] at h
      rw [key u x (hm x (by simp)) y (hn y (by simp)) h.1, ih (fun d hd => hm d (by simp [hd])) b h.2 fun d hd => hn d (by simp [hd])]

theorem letters_nodup (u : Bool) (l : List Nat) (j : Nat) : (((l.zipIdx j).map fun y => (letters u y.2, y.1)).map Prod.fst).Nodup := by
  rw [List.map_map]
  have e : ((fun x : Text × Nat => x.1) ∘ fun y : Nat × Nat => (letters u y.2, y.1)) = (letters u) ∘ Prod.snd := rfl
  show ((l.zipIdx j).map ((fun x : Text × Nat => x.1) ∘ fun y : Nat × Nat => (letters u y.2, y.1))).Nodup
  rw [e, ← List.map_map, List.zipIdx_map_snd]
  exact (List.nodup_range' ..).map fun a b h => letters_inj h

theorem deal_name : ∀ (ns outs : List Nat) (p : Nat), (deal ns outs p).map Prod.fst = (List.range' p ns.length).map (letters true)
  | [], _, _ => rfl
  | n :: ns, outs, p => by simp [deal, deal_name ns, List.range'_succ]

theorem deal_mem : ∀ (ns outs : List Nat) (p : Nat), ∀ x ∈ deal ns outs p, ∃ k l, x = (letters true k, (l : List Nat).zipIdx.map fun y => (letters false y.2, y.1))
  | [], _, _, x, h => by simp [deal] at h
  | n :: ns, outs, p, x, h => by
    rw [deal] at h
    rcases List.mem_cons.mp h with rfl | h
    · exact ⟨p, outs.take n, rfl⟩
    · exact deal_mem ns _ _ x h

/-- **C122** The names that `MakeList` gives are plain and different, so that words of such a context have different texts. -/
theorem C122_letters (ns outs : List Nat) : Plain (deal ns outs 0) := by
  refine ⟨?_, ?_, ?_, ?_⟩
  · intro x hx
    obtain ⟨k, l, rfl⟩ := deal_mem ns outs 0 x hx
    exact letters_plain true k
  · intro x hx y hy
    obtain ⟨k, l, rfl⟩ := deal_mem ns outs 0 x hx
    obtain ⟨z, _, rfl⟩ := List.mem_map.mp hy
    exact letters_plain false z.2
  · rw [deal_name]
    exact (List.nodup_range' ..).map fun a b h => letters_inj h
  · intro x hx
    obtain ⟨k, l, rfl⟩ := deal_mem ns outs 0 x hx
    exact letters_nodup false l 0

example : ∃ c, makeContext ([2, 1], [3, 2, 2]) = .made c ∧ ∀ op op' : Int, 0 ≤ op → op < 4 → 0 ≤ op' → op' < 4 →
    c.formatSequence .traditional false (some ([op], .pos)) = c.formatSequence .traditional false (some ([op'], .neg)) → False := by
  obtain ⟨c, h1, h2⟩ := C121_list.1 (by decide) deal_21
  refine ⟨c, h1, fun op op' a b a' b' h => ?_⟩
  have hl : (outcomes (deal [2, 1] [3, 2, 2] 0)).length = 4 := by rw [outcomes_length]; simp [deal, ops]
  have := (C122_unique deal_21 h2 (C122_letters _ _) .traditional false (v := some ([op], .pos)) (v' := some ([op'], .neg))
    ⟨by simp [hl]; omega, .inl rfl⟩ ⟨by simp [hl]; omega, .inr ⟨rfl, by simp⟩⟩).2 h
  simp at this

/-! ## Where texts fail -/

/-- **C122** (refuted) The identity with a minus sign has the text of the identity, and a word with an imaginary sign has that of the word without it. -/
theorem C122_refuted_sign (c : Context) (f : Formatter) (b : Bool) : c.formatSequence f b (some ([], .neg)) = c.formatSequence f b (some ([], .pos)) ∧
    ∀ w, c.formatSequence f b (some (w, .imag)) = c.formatSequence f b (some (w, .pos)) := ⟨rfl, fun _ => rfl⟩

/-- **C122** (refuted) An operator number that the context does not have should be written as unknown. The number after the last one is not: the party is read behind the end
of a list. -/
theorem C122_refuted_unknown {c : Context} {s : Named} (hf : Fits s) (hc : IsContext c s) (f : Formatter) (b : Bool) :
    c.formatSequence f b (some ([((outcomes s).length : Int)], .pos)) = .undefined := by
  have e := context_whole hf hc
  subst e
  have hs : (whole s).size = (outcomes s).length := (outcomes_length s).symm
  have hl : (whole s).opToParty.length ≤ (outcomes s).length := by
    rw [outcomes_length]
    exact (flat_length (fun (x : Text × Mmts) i => List.replicate (ops x.2) (i : Int)) (fun x => ops x.2) (fun _ _ => by simp) s 0).le
  have ht : (whole s).operatorText f ((outcomes s).length : Int) = .undefined := by
    unfold Context.operatorText
    rw [if_neg (by rw [hs]; omega)]
    unfold Context.associatedParty
    rw [if_neg (by omega), Int.toNat_natCast, at_none hl]
  simp only [Context.formatSequence]
  rw [if_neg (by simp)]
  simp only [collect, ht]

/-- A party whose measurements are called `x` and `x1`. -/
def alike : Named := [("A".toList, [("x".toList, 12), ("x1".toList, 2)])]

theorem alike_fits : Fits alike := ⟨by decide, by decide, by decide, by decide⟩

/-- **C122** (refuted) With digits in the names of measurements, different operators can have one text. -/
theorem C122_refuted_names : ∃ c, IsContext c alike ∧ c.operatorText .natural 10 = c.operatorText .natural 11 ∧ c.operatorText .natural 10 = .value "A.x10".toList := by
  obtain ⟨ps, hp⟩ := parties_exist alike_fits
  have hc : IsContext (whole alike) alike := ⟨ps, hp, context_eq hp alike_fits⟩
  obtain ⟨x, y, h1, h2, h3⟩ := C122_operator alike_fits hc .natural (k := 10) (p := 0) (m := 0) (o := 10) (by unfold Is; decide)
  obtain ⟨x', y', g1, g2, g3⟩ := C122_operator alike_fits hc .natural (k := 11) (p := 0) (m := 1) (o := 0) (by unfold Is; decide)
  simp [alike] at h1 g1
  subst h1 g1
  simp at h2 g2
  subst h2 g2
  exact ⟨_, hc, h3.trans g3.symm, h3⟩

end Moment.C122
