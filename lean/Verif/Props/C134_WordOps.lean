import Verif.Model.WordOps
import Verif.Props.C117_AlgebraicMatrix
import Verif.Props.C10_Locality
import Verif.Proof.LocalityContext
import Verif.Props.C129_RulesInput

/-! # C134: simplification and conjugation of words -/

namespace Moment.C134
open Moment.WordOps
open Moment.RuleInput (Out)
open Moment.MonoExport (Row row)
open Moment.Rewrite (evalWord phase)

variable {A : Type} [Ring A] [Algebra ℂ A]

/-! ## Specification -/

/-- What three outputs say: zero if the hash is zero, and else the product of the operators, which are counted from one, times the sign. -/
def said (ρ : Nat → A) (r : Row) : A := if r.hash = 0 then 0 else r.coefficient • (r.ops.map fun o => ρ (o - 1)).prod

/-- The product of the operators of a word that is given, counted from one. -/
def given (ρ : Nat → A) (l : List Int) : A := (l.map fun o => ρ (o - 1).toNat).prod

/-- Numbers of operators, counted from one. -/
def Range (size : Nat) (l : List Int) : Prop := ∀ o ∈ l, 1 ≤ o ∧ o ≤ size

/-- Sequences of the context stand for the words they are made from, up to length `L`. -/
def Faithful (h : Host) (L : Nat) (ρ : Nat → A) : Prop :=
  ∀ w : List Nat, (∀ o ∈ w, o < h.size) → w.length ≤ L → (if (h.seq w).hash = 0 then 0 else phase (h.seq w).sign • evalWord ρ (h.seq w).ops) = evalWord ρ w

/-- Conjugates of sequences of the context stand for the adjoints. -/
def Adjoint [StarRing A] (h : Host) (L : Nat) (ρ : Nat → A) : Prop :=
  ∀ w : List Nat, (∀ o ∈ w, o < h.size) → w.length ≤ L →
    (if (h.conj (h.seq w)).hash = 0 then 0 else phase (h.conj (h.seq w)).sign • evalWord ρ (h.conj (h.seq w)).ops) = star (evalWord ρ w)

/-! ## Steps -/

theorem offset_ok (l : List Int) : (offset l = .ok (l.map (· - 1)) ∧ ∀ o ∈ l, 1 ≤ o) ∨ (offset l = .refused ∧ ∃ o ∈ l, o < 1) := by
  induction l with
  | nil => exact .inl ⟨rfl, by simp⟩
  | cons o l ih =>
    unfold offset at ih ⊢
    unfold Out.each
    by_cases ho : o < 1
    · rw [if_pos ho]
      exact .inr ⟨rfl, o, by simp, ho⟩
    · rw [if_neg ho]
      rcases ih with ⟨h1, h2⟩ | ⟨h1, x, hx, h2⟩
      · rw [h1]
        exact .inl ⟨rfl, by simpa using ⟨by omega, h2⟩⟩
      · rw [h1]
        exact .inr ⟨rfl, x, by simp [hx], h2⟩

theorem ranged_ok (h : Host) (l : List Int) : (ranged h l = .ok (l.map Int.toNat) ∧ ∀ o ∈ l, 0 ≤ o ∧ o < h.size) ∨
    (ranged h l = .refused ∧ ∃ o ∈ l, o < 0 ∨ (h.size : Int) ≤ o) := by
  induction l with
  | nil => exact .inl ⟨rfl, by simp⟩
  | cons o l ih =>
    unfold ranged at ih ⊢
    unfold Out.each
    by_cases ho : o < 0 ∨ (h.size : Int) ≤ o
    · rw [if_pos ho]
      exact .inr ⟨rfl, o, by simp, ho⟩
    · rw [if_neg ho]
      rcases ih with ⟨h1, h2⟩ | ⟨h1, x, hx, h2⟩
      · rw [h1]
        refine .inl ⟨rfl, fun x hx => ?_⟩
        rcases List.mem_cons.mp hx with rfl | hx
        · omega
        · exact h2 x hx
      · rw [h1]
        exact .inr ⟨rfl, x, by simp [hx], h2⟩

/-- The word as the program counts. -/
def inner (l : List Int) : List Nat := l.map fun o => (o - 1).toNat

theorem numbers_ok (h : Host) (l : List Int) : (numbers h l = .ok (inner l) ∧ Range h.size l) ∨ (numbers h l = .refused ∧ ¬Range h.size l) := by
  unfold numbers
  rcases offset_ok l with ⟨h1, h2⟩ | ⟨h1, o, ho, h2⟩
  · rw [h1]
    rcases ranged_ok h (l.map (· - 1)) with ⟨k1, k2⟩ | ⟨k1, x, hx, k2⟩
    · refine .inl ⟨?_, fun o ho => ?_⟩
      · simp only [Out.bind, k1, List.map_map, inner]
        rfl
      · have := k2 (o - 1) (List.mem_map.mpr ⟨o, ho, rfl⟩)
        have := h2 o ho
        omega
    · refine .inr ⟨by simp only [Out.bind, k1], fun hr => ?_⟩
      obtain ⟨o, ho, rfl⟩ := List.mem_map.mp hx
      have := hr o ho
      omega
  · rw [h1]
    exact .inr ⟨rfl, fun hr => by have := hr o ho; omega⟩

theorem each_numbers (h : Host) (ls : List (List Int)) : (Out.each (numbers h) ls = .ok (ls.map inner) ∧ ∀ l ∈ ls, Range h.size l) ∨
    (Out.each (numbers h) ls = .refused ∧ ¬∀ l ∈ ls, Range h.size l) := by
  induction ls with
  | nil => exact .inl ⟨rfl, by simp⟩
  | cons l ls ih =>
    unfold Out.each
    rcases numbers_ok h l with ⟨h1, h2⟩ | ⟨h1, h2⟩
    · rw [h1]
      rcases ih with ⟨k1, k2⟩ | ⟨k1, k2⟩
      · rw [k1]
        refine .inl ⟨rfl, fun x hx => ?_⟩
        rcases List.mem_cons.mp hx with rfl | hx
        · exact h2
        · exact k2 x hx
      · rw [k1]
        exact .inr ⟨rfl, fun hr => k2 fun x hx => hr x (by simp [hx])⟩
    · rw [h1]
      exact .inr ⟨rfl, fun hr => h2 (hr l (by simp))⟩

theorem inner_range {size : Nat} {l : List Int} (hl : Range size l) : ∀ o ∈ inner l, o < size := by
  intro o ho
  obtain ⟨x, hx, rfl⟩ := List.mem_map.mp ho
  have := hl x hx
  omega

theorem scalar_eq (g : Sign) : SymbolMatrix.scalar g = phase g := by cases g <;> rfl

theorem said_output (ρ : Nat → A) (w : HSeq) : said ρ (output w) = if w.hash = 0 then 0 else phase w.sign • evalWord ρ w.ops := by
  simp [said, output, row, scalar_eq, evalWord, Function.comp_def]

theorem given_inner (ρ : Nat → A) (l : List Int) : given ρ l = evalWord ρ (inner l) := by
  simp [given, inner, evalWord, Function.comp_def]

/-! ## Theorems -/

/-- Words are refused exactly if a number is not that of an operator; nothing is undefined. -/
theorem C134_refused (h : Host) (s : List Nat) (ls : List (List Int)) :
    (simplify h (.cell s ls) = .refused ↔ ¬∀ l ∈ ls, Range h.size l) ∧ (conjugate h (.cell s ls) = .refused ↔ ¬∀ l ∈ ls, Range h.size l) ∧
    simplify h (.cell s ls) ≠ .undefined ∧ conjugate h (.cell s ls) ≠ .undefined := by
  rcases each_numbers h ls with ⟨h1, h2⟩ | ⟨h1, h2⟩
  · have : ¬¬∀ l ∈ ls, Range h.size l := not_not.mpr h2
    simp only [simplify, conjugate, words, h1, Out.bind]
    simp [this]
  · simp only [simplify, conjugate, words, h1, Out.bind]
    simp [h2]

/-- A single word is treated as a cell with one word. -/
theorem C134_single (h : Host) (l : List Int) :
    simplify h (.numbers l) = simplify h (.cell [1, 1] [l]) ∧ conjugate h (.numbers l) = conjugate h (.cell [1, 1] [l]) := by
  rcases numbers_ok h l with ⟨h1, -⟩ | ⟨h1, -⟩ <;> simp [simplify, conjugate, words, Out.each, h1, Out.bind]

/-- A word of names is treated as the word of the numbers of the names; unknown names are refused, and all names if the context has none. -/
theorem C134_names (h : Host) (ts : List Names.Text) :
    (h.find = none → simplify h (.names ts) = .refused) ∧
    ∀ f, h.find = some f → (∀ t ∈ ts, ∀ k, f t = some k → 0 ≤ k ∧ k < h.size) →
      ((∃ t ∈ ts, f t = none) → simplify h (.names ts) = .refused) ∧
      ∀ ks, List.Forall₂ (fun t k => f t = some k) ts ks → simplify h (.names ts) = simplify h (.numbers (ks.map (· + 1))) := by
  refine ⟨fun hf => by simp [simplify, words, named, hf, Out.bind], fun f hf hr => ⟨fun hn => ?_, fun ks hk => ?_⟩⟩
  · have : named h ts = .refused := by
      unfold named
      rw [hf]
      dsimp only
      clear hr
      induction ts with
      | nil => simp at hn
      | cons t ts ih =>
        unfold Out.each
        cases ht : f t with
        | none => rfl
        | some k =>
          have : ∃ t ∈ ts, f t = none := by
            obtain ⟨x, hx, e⟩ := hn
            rcases List.mem_cons.mp hx with rfl | hx
            · rw [ht] at e
              simp at e
            · exact ⟨x, hx, e⟩
          rw [ih this]
          rfl
    simp [simplify, words, this, Out.bind]
  · have key : Out.each (fun t => Out.ofOption ((f t).map Int.toNat)) ts = .ok (ks.map Int.toNat) ∧ ∀ k ∈ ks, 0 ≤ k ∧ k < h.size := by
      induction hk with
      | nil => exact ⟨rfl, by simp⟩
      | @cons t k ts ks e _ ih =>
        obtain ⟨i1, i2⟩ := ih fun t ht => hr t (by simp [ht])
        refine ⟨?_, fun x hx => ?_⟩
        · unfold Out.each
          rw [e, i1]
          rfl
        · rcases List.mem_cons.mp hx with rfl | hx
          · exact hr t (by simp) _ e
          · exact i2 x hx
    have hR : Range h.size (ks.map (· + 1)) := by
      intro o ho
      obtain ⟨k, hk, rfl⟩ := List.mem_map.mp ho
      have := key.2 k hk
      omega
    have hi : inner (ks.map (· + 1)) = ks.map Int.toNat := by
      unfold inner
      rw [List.map_map]
      exact List.map_congr_left fun k hk => by
        have := (key.2 k hk).1
        simp only [Function.comp_apply]
        congr 1
        omega
    rcases numbers_ok h (ks.map (· + 1)) with ⟨h1, -⟩ | ⟨-, h2⟩
    · simp only [simplify, words, named, hf, key.1, Out.bind, h1, hi]
    · exact absurd hR h2

/-- In contexts whose sequences stand for their words, simplified words say what was given, and conjugates the adjoints; at the same places and in the same shape. -/
theorem C134_says {h : Host} {L : Nat} {ρ : Nat → A} (hF : Faithful h L ρ) {s : List Nat} {ls : List (List Int)} (hr : ∀ l ∈ ls, Range h.size l ∧ l.length ≤ L) :
    (∃ rows, simplify h (.cell s ls) = .ok (s, rows) ∧ List.Forall₂ (fun l r => said ρ r = given ρ l) ls rows) ∧
    ∀ _ : StarRing A, Adjoint h L ρ → ∃ rows, conjugate h (.cell s ls) = .ok (s, rows) ∧ List.Forall₂ (fun l r => said ρ r = star (given ρ l)) ls rows := by
  rcases each_numbers h ls with ⟨h1, -⟩ | ⟨-, h2⟩
  · have map₂ : ∀ {g : List Nat → Row} {P : List Int → Row → Prop}, (∀ l ∈ ls, P l (g (inner l))) → List.Forall₂ P ls ((ls.map inner).map g) := by
      intro g P hP
      rw [List.map_map, List.forall₂_map_right_iff, List.forall₂_same]
      exact hP
    have e1 : simplify h (.cell s ls) = .ok (s, (ls.map inner).map fun w => output (h.seq w)) := by simp only [simplify, words, h1, Out.bind]
    have e2 : conjugate h (.cell s ls) = .ok (s, (ls.map inner).map fun w => output (h.conj (h.seq w))) := by simp only [conjugate, words, h1, Out.bind]
    refine ⟨⟨_, e1, map₂ fun l hl => ?_⟩, fun _ hA => ⟨_, e2, map₂ fun l hl => ?_⟩⟩
    · rw [said_output, given_inner]
      exact hF _ (inner_range (hr l hl).1) (by simpa [inner] using (hr l hl).2)
    · rw [said_output, given_inner]
      exact hA _ (inner_range (hr l hl).1) (by simpa [inner] using (hr l hl).2)
  · exact absurd (fun l hl => (hr l hl).1) h2

theorem output_inj {x y : HSeq} (e : output x = output y) : x = y := by
  have hs : ∀ g g' : Sign, SymbolMatrix.scalar g = SymbolMatrix.scalar g' → g = g' := by
    intro g g' e
    cases g <;> cases g' <;> first | rfl | (exfalso; norm_num [SymbolMatrix.scalar, Complex.ext_iff] at e)
  obtain ⟨hx, ox, sx⟩ := x
  obtain ⟨hy, oy, sy⟩ := y
  simp only [output, row, Row.mk.injEq] at e
  obtain ⟨e1, e2, e3⟩ := e
  have := hs _ _ e2
  have := List.map_injective_iff.mpr (fun a b (h : a + 1 = b + 1) => by omega) e1
  simp_all

/-- Algebraic scenarios whose rules are complete: simplified words say what was given, conjugates the adjoints, in every algebra in which the rules hold; and two
words give the same outputs exactly if the rules imply that they are equal. -/
theorem C134_algebraic {a : Algebraic.Context} {L : Nat} (h : Algebraic.Settled a L) (T : Names.Table) {s : List Nat} {ls : List (List Int)}
    (hr : ∀ l ∈ ls, Range a.pre.num l ∧ l.length ≤ L) :
    ∃ rows rows', simplify (algebraic a T) (.cell s ls) = .ok (s, rows) ∧ conjugate (algebraic a T) (.cell s ls) = .ok (s, rows') ∧
      (∀ (A : Type) [Ring A] [Algebra ℂ A] (ρ : Nat → A), Rewrite.Models ρ a.rules → List.Forall₂ (fun l r => said ρ r = given ρ l) ls rows) ∧
      (∀ (A : Type) [Ring A] [Algebra ℂ A] [StarRing A] [StarModule ℂ A] (ρ : Nat → A), Rewrite.Models ρ a.rules → Rules.StarCompat a.pre ρ →
        List.Forall₂ (fun l r => said ρ r = star (given ρ l)) ls rows') ∧
      ∀ (i j : Nat) l l' r r', ls[i]? = some l → ls[j]? = some l' → rows[i]? = some r → rows[j]? = some r' →
        (r = r' ↔ Rewrite.Implies a.rules (some (.pos, inner l)) (some (.pos, inner l'))) := by
  have sum : ∀ {B : Type} [Ring B] [Algebra ℂ B] (ρ : Nat → B) (w : HSeq),
      (if w.hash = 0 then 0 else phase w.sign • evalWord ρ w.ops) = Algebraic.op ρ w := by
    intro B _ _ ρ w
    unfold Algebraic.op Rules.term
    split <;> simp [Rewrite.eval]
  have seqs : ∀ {w : List Nat}, (∀ o ∈ w, o < a.pre.num) → w.length ≤ L → Algebraic.sequence a w = Algebraic.stored a w := fun hw hl => h.sequence ⟨hw, hl⟩
  rcases each_numbers (algebraic a T) ls with ⟨h1, -⟩ | ⟨-, h2⟩
  · have e1 : simplify (algebraic a T) (.cell s ls) = .ok (s, (ls.map inner).map fun w => output ((algebraic a T).seq w)) := by
      simp only [simplify, words, h1, Out.bind]
    have e2 : conjugate (algebraic a T) (.cell s ls) = .ok (s, (ls.map inner).map fun w => output ((algebraic a T).conj ((algebraic a T).seq w))) := by
      simp only [conjugate, words, h1, Out.bind]
    refine ⟨_, _, e1, e2, ?_, ?_, ?_⟩
    · intro A _ _ ρ hρ
      rw [List.map_map, List.forall₂_map_right_iff, List.forall₂_same]
      intro l hl
      have hw := inner_range (hr l hl).1
      have hl' : (inner l).length ≤ L := by simpa [inner] using (hr l hl).2
      simp only [Function.comp_apply]
      rw [said_output, given_inner, sum]
      simp only [algebraic]
      rw [seqs hw hl', h.op_stored hρ ⟨hw, hl'⟩]
    · intro A _ _ _ _ ρ hρ hs
      rw [List.map_map, List.forall₂_map_right_iff, List.forall₂_same]
      intro l hl
      have hw := inner_range (hr l hl).1
      have hl' : (inner l).length ≤ L := by simpa [inner] using (hr l hl).2
      simp only [Function.comp_apply]
      rw [said_output, given_inner, sum]
      simp only [algebraic]
      rw [seqs hw hl', h.conj_stored ⟨hw, hl'⟩, h.op_stored hρ (Rules.conjWord_isWord ⟨hw, hl'⟩), Rules.evalWord_conj hs hw]
    · intro i j l l' r r' ei ej er er'
      have hw := inner_range (hr l (List.mem_of_getElem? ei)).1
      have hw' := inner_range (hr l' (List.mem_of_getElem? ej)).1
      have hl := (hr l (List.mem_of_getElem? ei)).2
      have hl' := (hr l' (List.mem_of_getElem? ej)).2
      simp only [List.map_map, List.getElem?_map, ei, ej, Option.map_some, Option.some.injEq, Function.comp_apply] at er er'
      subst er er'
      rw [← (C117.C117_words h (u := inner l) (v := inner l') ⟨hw, by simpa [inner] using hl⟩ ⟨hw', by simpa [inner] using hl'⟩).1]
      exact ⟨fun e => output_inj e, fun e => congrArg output e⟩
  · exact absurd (fun l hl => (hr l hl).1) h2

/-- In locality scenarios likewise: operators of different parties commute, each is a projector, and outcomes of the same measurement exclude each other. -/
theorem C134_locality {s : Locality.Scenario} {L : Nat} (h : Locality.Room s L) {d : List Nat} {ls : List (List Int)}
    (hr : ∀ l ∈ ls, Range (Locality.operatorCount s) l ∧ l.length ≤ L) {P : Locality.Op → A} (hP : Locality.Represents P) {ρ : Nat → A}
    (hρ : ∀ a, Locality.Exists s a → ρ (Locality.enc s a) = P a) :
    (∃ rows, simplify (locality s) (.cell d ls) = .ok (d, rows) ∧ List.Forall₂ (fun l r => said ρ r = given ρ l) ls rows) ∧
    ∀ _ : StarRing A, (∀ a, Locality.Exists s a → star (P a) = P a) →
      ∃ rows, conjugate (locality s) (.cell d ls) = .ok (d, rows) ∧ List.Forall₂ (fun l r => said ρ r = star (given ρ l)) ls rows := by
  have value : ∀ u : List Locality.Op, (∀ a ∈ u, Locality.Exists s a) → evalWord ρ (u.map (Locality.enc s)) = (u.map P).prod := by
    intro u hu
    unfold evalWord
    rw [List.map_map]
    exact congrArg List.prod (List.map_congr_left fun a ha => hρ a (hu a ha))
  /- the sequence made from a word -/
  have key : ∀ w : List Nat, (∀ o ∈ w, o < Locality.operatorCount s) → w.length ≤ L → ∀ heap : Bool,
      let x := HSeq.construct (Locality.ctx s) heap w .pos
      (x = HSeq.zero ∧ evalWord ρ w = 0) ∨ ∃ v, x = ⟨hashWord (UInt64.ofNat (Locality.operatorCount s)) v, v, .pos⟩ ∧
        (∀ o ∈ v, o < Locality.operatorCount s) ∧ v.length ≤ L ∧ evalWord ρ w = evalWord ρ v := by
    intro w hw hl heap
    obtain ⟨u, hu, rfl⟩ := Locality.word_surj hw
    cases hn : Locality.nf u with
    | none =>
      refine .inl ⟨Locality.construct_zero heap .pos (by rw [Locality.simplify_enc hu, hn]), ?_⟩
      rw [value u hu]
      have := C10.C10_value P hP ((Locality.nf_zero_iff u).mp hn)
      simpa using this
    | some v =>
      have hv : ∀ a ∈ v, Locality.Exists s a := fun a ha => hu a (Locality.nf_mem hn a ha)
      refine .inr ⟨v.map (Locality.enc s), Locality.construct_word h heap .pos hw hl (by rw [Locality.simplify_enc hu, hn]), fun o ho => ?_, ?_, ?_⟩
      · obtain ⟨a, ha, rfl⟩ := List.mem_map.mp ho
        exact Locality.enc_lt (hv a ha)
      · have := Locality.nf_length hn
        rw [List.length_map] at hl ⊢
        omega
      · rw [value u hu, value v hv]
        have := C10.C10_value P hP (hn ▸ Locality.nf_sound u)
        simpa using this
  have hF : Faithful (locality s) L ρ := by
    intro w hw hl
    rcases key w hw hl (decide (16 < w.length)) with ⟨h1, h2⟩ | ⟨v, h1, h2, h3, h4⟩
    · rw [show (locality s).seq w = HSeq.zero from h1, h2]
      rfl
    · rw [show (locality s).seq w = _ from h1, h4, if_neg (h.ne h2 h3)]
      simp [phase]
  obtain ⟨c1, c2⟩ := C134_says hF (s := d) hr
  refine ⟨c1, fun _ hs => c2 _ fun w hw hl => ?_⟩
  have hrev : ∀ v : List Nat, (∀ o ∈ v, o < Locality.operatorCount s) → evalWord ρ v.reverse = star (evalWord ρ v) := by
    intro v hv
    induction v with
    | nil => simp [evalWord]
    | cons o v ih =>
      obtain ⟨a, ha, rfl⟩ := Locality.enc_surj (hv o (by simp))
      have := ih fun o ho => hv o (by simp [ho])
      simp only [evalWord, List.reverse_cons, List.map_append, List.prod_append, List.map_cons, List.map_nil, List.prod_cons, List.prod_nil, mul_one,
        star_mul] at this ⊢
      rw [this, hρ a ha, hs a ha]
  rcases key w hw hl (decide (16 < w.length)) with ⟨h1, h2⟩ | ⟨v, h1, h2, h3, h4⟩
  · rw [show (locality s).seq w = HSeq.zero from h1, h2, show (locality s).conj HSeq.zero = HSeq.zero from Locality.conj_zero (s := s) (w := HSeq.zero) rfl, star_zero]
    rfl
  · have hz : HSeq.isZero ⟨hashWord (UInt64.ofNat (Locality.operatorCount s)) v, v, .pos⟩ = false := by simpa [HSeq.isZero] using h.ne h2 h3
    have hc : (locality s).conj ((locality s).seq w) = HSeq.construct (Locality.ctx s) (decide (16 < v.length)) v.reverse .pos := by
      rw [show (locality s).seq w = _ from h1]
      simp only [locality, Locality.env, HSeq.conjugate, hz, Locality.onHeap]
      rfl
    rw [hc, h4, ← hrev v h2]
    rcases key v.reverse (fun o ho => h2 o (List.mem_reverse.mp ho)) (by simpa using h3) (decide (16 < v.length)) with ⟨k1, k2⟩ | ⟨u, k1, k2, k3, k4⟩
    · rw [k1, k2]
      rfl
    · rw [k1, k4, if_neg (h.ne k2 k3)]
      simp [phase]

/-- Simplifying a simplified word again changes nothing. -/
theorem C134_again {a : Algebraic.Context} {L : Nat} (h : Algebraic.Settled a L) (T : Names.Table) {l : List Int} (hl : Range a.pre.num l) (hL : l.length ≤ L)
    {d : List Nat} {r : Row} (hr : simplify (algebraic a T) (.numbers l) = .ok (d, [r])) (h0 : r.hash ≠ 0) :
    simplify (algebraic a T) (.numbers (r.ops.map fun (o : Nat) => (o : Int))) = .ok (d, [r]) := by
  have hw : Rules.IsWord a.pre L (inner l) := ⟨inner_range hl, by simpa [inner] using hL⟩
  rcases numbers_ok (algebraic a T) l with ⟨h1, -⟩ | ⟨-, h2⟩
  · simp only [simplify, words, h1, Out.bind, List.map_cons, List.map_nil, Out.ok.injEq, Prod.mk.injEq, List.cons.injEq, and_true] at hr
    obtain ⟨rfl, rfl⟩ := hr
    simp only [algebraic] at h0 ⊢
    rw [h.sequence hw] at h0 ⊢
    cases e : Algebraic.res a (inner l) with
    | none =>
      rw [Algebraic.stored_none e] at h0
      exact absurd rfl h0
    | some v =>
      have hv := (h.res_word hw e).1
      have e2 : Algebraic.sequence a v = Algebraic.stored a (inner l) := by
        rw [h.sequence hv]
        exact (h.stored_same (h.res_some e)).symm
      have e3 : (output (Algebraic.stored a (inner l))).ops.map (fun (o : Nat) => (o : Int)) = v.map fun (o : Nat) => (o : Int) + 1 := by
        rw [Algebraic.stored_some e]
        simp [output, row, Function.comp_def]
      have e4 : inner (v.map fun (o : Nat) => (o : Int) + 1) = v := by
        simp [inner, Function.comp_def]
      have hR : Range a.pre.num (v.map fun (o : Nat) => (o : Int) + 1) := by
        intro o ho
        obtain ⟨x, hx, rfl⟩ := List.mem_map.mp ho
        have := hv.1 x hx
        omega
      rw [e3]
      rcases numbers_ok (algebraic a T) (v.map fun (o : Nat) => (o : Int) + 1) with ⟨k1, -⟩ | ⟨-, k2⟩
      · simp only [algebraic] at k1
        simp only [simplify, words, k1, Out.bind, List.map_cons, List.map_nil, e4, e2]
      · exact absurd hR k2
  · exact absurd hl h2

/-- Without the third output, zero looks as the identity: operators of two outcomes of one measurement, whose product is zero, give the same word and the same sign
as the empty word. -/
theorem C134_refuted_zero : ∃ r r', simplify (locality C10.exScenario) (.cell [1, 2] [[1, 2], []]) = .ok ([1, 2], [r, r']) ∧
    conjugate (locality C10.exScenario) (.cell [1, 2] [[1, 2], []]) = .ok ([1, 2], [r, r']) ∧
    r.ops = r'.ops ∧ r.coefficient = r'.coefficient ∧ ∀ ρ : Nat → ℂ, said ρ r = 0 ∧ said ρ r' = 1 := by
  have h1 : (locality C10.exScenario).seq [0, 1] = HSeq.zero := by decide +kernel
  have h2 : (locality C10.exScenario).seq [] = HSeq.identity .pos := by decide +kernel
  have h3 : (locality C10.exScenario).conj HSeq.zero = HSeq.zero := by decide +kernel
  have h4 : (locality C10.exScenario).conj (HSeq.identity .pos) = HSeq.identity .pos := by decide +kernel
  have hw : words (locality C10.exScenario) (.cell [1, 2] [[1, 2], []]) = .ok ([1, 2], [[0, 1], []]) := by decide +kernel
  refine ⟨output HSeq.zero, output (HSeq.identity .pos), ?_, ?_, rfl, rfl, fun ρ => ⟨by simp [said, output, row, HSeq.zero], ?_⟩⟩
  · simp only [simplify, hw, Out.bind, List.map_cons, List.map_nil, h1, h2]
  · simp only [conjugate, hw, Out.bind, List.map_cons, List.map_nil, h1, h2, h3, h4]
  · simp [said, output, row, HSeq.identity, SymbolMatrix.scalar]

/-! ## Examples -/

/-- The first outcome of every measurement always happens. -/
noncomputable def sure (a : Locality.Op) : ℂ := if a.out = 0 then 1 else 0

theorem sure_represents : Locality.Represents sure := by
  refine ⟨fun a b _ => mul_comm _ _, fun a => by unfold sure; split <;> simp, fun a b _ _ h => ?_⟩
  unfold sure
  by_cases ha : a.out = 0
  · rw [if_neg (show b.out ≠ 0 by omega), mul_zero]
  · rw [if_neg ha, zero_mul]

open Classical in
example : ∃ ρ : Nat → ℂ, (∀ a, Locality.Exists C10.exScenario a → ρ (Locality.enc C10.exScenario a) = sure a) ∧
    Locality.Room C10.exScenario 10 ∧ ∀ l ∈ ([[1, 2], [3, 6, 3], []] : List (List Int)), Range (Locality.operatorCount C10.exScenario) l ∧ l.length ≤ 10 := by
  refine ⟨fun n => if ∃ a, Locality.Exists C10.exScenario a ∧ Locality.enc C10.exScenario a = n ∧ a.out = 0 then 1 else 0, fun a ha => ?_,
    ⟨by decide +kernel, by decide +kernel⟩, by unfold Range; decide +kernel⟩
  unfold sure
  dsimp only
  by_cases h : a.out = 0
  · rw [if_pos h, if_pos ⟨a, ha, rfl, h⟩]
  · rw [if_neg h, if_neg]
    rintro ⟨b, hb, e, h'⟩
    exact h (Locality.enc_inj hb ha e ▸ h')

example (T : Names.Table) := C134_algebraic C117.ex_settled T (s := [1, 2]) (ls := [[2, 1, 2], [1, 2, 2]]) (by unfold Range; decide +kernel)

example : Range 4 [1, 4, 2] ∧ ¬Range 4 [0] ∧ ¬Range 4 [5] := by unfold Range; decide

end Moment.C134
