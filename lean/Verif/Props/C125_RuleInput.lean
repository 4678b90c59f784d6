import Verif.Model.RuleInput
import Verif.Props.C110_Names
import Verif.Props.C117_AlgebraicMatrix

/-! # C125: rules that are given by the user

What a cell array of rules says is defined here without reference to the code: sides are products of named or numbered operators or zero, rules are equations. The
code reads just this, except that equations with imaginary factors may come out wrong, that numbers wrap around, and that fractions are cut off. -/

namespace Moment.C125
open Moment.RuleInput
open Moment.Names (Text Table Moves nameOf Fits)
open Moment.Rules (Pre Rule den term GoodRule GoodSeq GoodMap Small)
open Moment.Rewrite

/-! ## What the user says -/

/-- The text is a name of the operator. Stars have no meaning for self-adjoint operators. -/
def NameOf (p : Pre) (raw : List Text) (t : Text) (k : Nat) : Prop :=
  nameOf p raw k = some t ∨ (p.mode = .selfAdjoint ∧ ∃ r, raw[k]? = some r ∧ t = r ++ ['*'])

/-- One side of a rule: a product of operators, or zero. -/
inductive Denotes (p : Pre) (raw : List Text) : Value → Option (List Nat) → Prop
  | names {l : List Text} {w : List Nat} : List.Forall₂ (NameOf p raw) l w → Denotes p raw (.strings (l.map some)) (some w)
  | letters {t : Text} {w : List Nat} : (∀ r ∈ raw, r.length = 1) → List.Forall₂ (fun (c : Char) (k : Nat) => NameOf p raw [c] k) t w → Denotes p raw (.chars t) (some w)
  | ints {w : List Nat} : (∀ k ∈ w, k < p.num) → Denotes p raw (.ints (w.map fun (k : Nat) => (k : Int) + 1)) (some w)
  | doubles {w : List Nat} : (∀ k ∈ w, k < p.num) → Denotes p raw (.doubles (w.map fun (k : Nat) => (k : Rat) + 1)) (some w)
  | zero : Denotes p raw (.ints [0]) none
  | zeroDouble : Denotes p raw (.doubles [0]) none

/-- The texts of signs. -/
inductive SignText : Text → Sign → Prop
  | plus : SignText ['+'] .pos
  | minus : SignText ['-'] .neg
  | i : SignText ['i'] .imag
  | minusI : SignText ['-', 'i'] .negImag

/-- The equation `lhs = sign * rhs`, or `lhs = 0`. -/
structure Equation where
  lhs : List Nat
  sign : Sign
  rhs : Option (List Nat)

/-- The equation that a rule says. The sign before zero has no meaning. -/
inductive Says (p : Pre) (raw : List Text) : Value → Equation → Prop
  | two {l r : Value} {w u : List Nat} : Denotes p raw l (some w) → Denotes p raw r (some u) → Says p raw (.cell [l, r]) ⟨w, .pos, some u⟩
  | three {l r : Value} {t : Text} {g : Sign} {w u : List Nat} : Denotes p raw l (some w) → SignText t g → Denotes p raw r (some u) → Says p raw (.cell [l, .chars t, r]) ⟨w, g, some u⟩
  | zero {l r : Value} {w : List Nat} : Denotes p raw l (some w) → Denotes p raw r none → Says p raw (.cell [l, r]) ⟨w, .pos, none⟩
  | zeroSign {l r : Value} {t : Text} {g : Sign} {w : List Nat} : Denotes p raw l (some w) → SignText t g → Denotes p raw r none → Says p raw (.cell [l, .chars t, r]) ⟨w, .pos, none⟩

/-- The equation is true for the given elements of an algebra. -/
def Equation.True {A : Type} [Ring A] [Algebra ℂ A] (ρ : Nat → A) (e : Equation) : Prop :=
  (e.lhs.map ρ).prod = match e.rhs with
    | none => 0
    | some r => phase e.sign • (r.map ρ).prod

/-- Numbers are integers and fit in 16 bits. -/
def Plain : Value → Prop
  | .ints l => ∀ x ∈ l, -32768 ≤ x ∧ x ≤ 32767
  | .doubles l => ∀ q ∈ l, ∃ x : Int, q = x ∧ -32768 ≤ x ∧ x ≤ 32767
  | _ => _root_.True

/-- The same for rules. -/
def PlainRule : Value → Prop
  | .cell l => ∀ v ∈ l, Plain v
  | _ => _root_.True

/-! ## Lemmas -/

theorem bind_ok {α β : Type} {x : Out α} {f : α → Out β} {b : β} : x.bind f = .ok b ↔ ∃ a, x = .ok a ∧ f a = .ok b := by
  cases x <;> simp [Out.bind]

theorem each_ok {α β : Type} {f : α → Out β} : ∀ {l : List α} {m : List β}, Out.each f l = .ok m ↔ List.Forall₂ (fun a b => f a = .ok b) l m
  | [], m => by
    cases m <;> simp [Out.each]
  | a :: l, m => by
    rw [Out.each, bind_ok]
    constructor
    · rintro ⟨b, h1, h2⟩
      obtain ⟨bs, h3, h4⟩ := bind_ok.mp h2
      cases h4
      exact .cons h1 (each_ok.mp h3)
    · rintro (_ | ⟨h1, h2⟩)
      exact ⟨_, h1, bind_ok.mpr ⟨_, each_ok.mpr h2, rfl⟩⟩

theorem bind_defined {α β : Type} {x : Out α} {f : α → Out β} (hx : x ≠ .undefined) (hf : ∀ a, f a ≠ .undefined) : x.bind f ≠ .undefined := by
  cases x with
  | ok a => exact hf a
  | refused => simp [Out.bind]
  | undefined => exact absurd rfl hx

theorem each_defined {α β : Type} {f : α → Out β} : ∀ {l : List α}, (∀ a ∈ l, f a ≠ .undefined) → Out.each f l ≠ .undefined
  | [], _ => by simp [Out.each]
  | a :: l, h => by
    rw [Out.each]
    exact bind_defined (h a List.mem_cons_self) fun b => bind_defined (each_defined fun a ha => h a (List.mem_cons_of_mem _ ha)) (by simp)

theorem ofOption_ok {α : Type} {x : Option α} {a : α} : Out.ofOption x = .ok a ↔ x = some a := by cases x <;> simp [Out.ofOption]

theorem mapM_some {α β : Type} {f : α → Option β} : ∀ {l : List α} {m : List β}, l.mapM f = some m ↔ List.Forall₂ (fun a b => f a = some b) l m
  | [], m => by cases m <;> simp
  | a :: l, m => by
    rw [List.mapM_cons]
    constructor
    · intro h
      simp only [Option.bind_eq_bind, Option.bind_eq_some_iff, Option.pure_def, Option.some.injEq] at h
      obtain ⟨b, h1, bs, h2, rfl⟩ := h
      exact .cons h1 (mapM_some.mp h2)
    · rintro (_ | ⟨h1, h2⟩)
      simp [h1, mapM_some.mpr h2]

theorem cast16_id {x : Int} (h : -32768 ≤ x ∧ x ≤ 32767) : cast16 x = x := by
  unfold cast16
  rw [Int.bmod_eq_of_le (by omega) (by omega)]

theorem oper_id {n : Nat} (h : n < 32768) : Names.oper n = n := by
  unfold Names.oper
  rw [Int.bmod_eq_of_le (by omega) (by omega)]

theorem towardsZero_int (x : Int) : towardsZero (x : Rat) = x := by
  unfold towardsZero
  split <;> simp

theorem castDouble_int {x : Int} (h : -32768 ≤ x ∧ x ≤ 32767) : castDouble (x : Rat) = .ok x := by
  rw [castDouble, towardsZero_int, if_pos h]

theorem each_doubles : ∀ {l : List Rat}, (∀ q ∈ l, ∃ x : Int, q = x ∧ -32768 ≤ x ∧ x ≤ 32767) →
    ∃ m : List Int, l = m.map (fun x : Int => (x : Rat)) ∧ (∀ x ∈ m, -32768 ≤ x ∧ x ≤ 32767) ∧ Out.each castDouble l = .ok m
  | [], _ => ⟨[], rfl, by simp, rfl⟩
  | q :: l, h => by
    obtain ⟨x, rfl, hx⟩ := h q List.mem_cons_self
    obtain ⟨m, h1, h2, h3⟩ := each_doubles fun q hq => h q (List.mem_cons_of_mem _ hq)
    exact ⟨x :: m, by rw [List.map_cons, h1], by simpa using ⟨hx, h2⟩, by rw [Out.each, castDouble_int hx, Out.bind, h3]; rfl⟩

variable {p : Pre} {raw : List Text} {T : Table} {mv : Moves}

theorem numeric_ok (h0 : 0 < p.num) (hn : p.num < 32768) {l : List Int} (hl : ∀ x ∈ l, -32768 ≤ x ∧ x ≤ 32767) {w : Option (List Nat)} :
    numeric p l = .ok w ↔ (l = [0] ∧ w = none) ∨ ∃ u : List Nat, w = some u ∧ (∀ k ∈ u, k < p.num) ∧ l = u.map fun (k : Nat) => (k : Int) + 1 := by
  unfold numeric
  split
  · rename_i e
    subst e
    constructor
    · intro h
      cases h
      exact .inl ⟨rfl, rfl⟩
    · rintro (⟨-, rfl⟩ | ⟨u, rfl, -, h⟩)
      · rfl
      · cases u with
        | nil => cases h
        | cons a u =>
          have : (0 : Int) = (a : Int) + 1 := (List.cons.inj h).1
          omega
  · rename_i e
    have hstep : ∀ x ∈ l, (0 ≤ cast16 (x - 1) ∧ cast16 (x - 1) < (p.num : Int)) ↔ 1 ≤ x ∧ x ≤ (p.num : Int) := by
      intro x hx
      have := hl x hx
      by_cases h : x = -32768
      · subst h
        have : cast16 (-32768 - 1) = 32767 := by decide
        rw [this]
        simp only [Int.reduceNeg, Int.reduceLE, false_and, iff_false, true_and]
        omega
      · rw [cast16_id (by omega)]
        omega
    have hid : ∀ x ∈ l, 1 ≤ x → cast16 (x - 1) = x - 1 := fun x hx h => cast16_id (by have := hl x hx; omega)
    dsimp only
    have hall : ((l.map fun x => cast16 (x - 1)).all fun x => decide (0 ≤ x) && (Names.oper p.num == 0 || decide (x < Names.oper p.num))) = true ↔
        ∀ x ∈ l, 1 ≤ x ∧ x ≤ (p.num : Int) := by
      rw [oper_id hn]
      simp only [List.all_eq_true, List.mem_map, forall_exists_index, and_imp, forall_apply_eq_imp_iff₂, Bool.and_eq_true, decide_eq_true_eq, Bool.or_eq_true, beq_iff_eq]
      refine forall₂_congr fun x hx => ?_
      rw [← hstep x hx]
      omega
    split
    · rename_i h
      rw [hall] at h
      have key : l = ((l.map fun x => cast16 (x - 1)).map Int.toNat).map fun (k : Nat) => (k : Int) + 1 := by
        rw [List.map_map, List.map_map]
        conv_lhs => rw [← List.map_id l]
        apply List.map_congr_left
        intro x hx
        have := h x hx
        simp only [Function.comp, id, hid x hx this.1]
        omega
      constructor
      · intro e'
        cases e'
        refine .inr ⟨_, rfl, ?_, key⟩
        intro k hk
        simp only [List.map_map, List.mem_map, Function.comp] at hk
        obtain ⟨x, hx, rfl⟩ := hk
        have := h x hx
        rw [hid x hx this.1]
        omega
      · rintro (⟨h', -⟩ | ⟨u, rfl, h1, h2⟩)
        · exact absurd h' e
        · congr 2
          rw [h2, List.map_map, List.map_map]
          conv_rhs => rw [← List.map_id u]
          apply List.map_congr_left
          intro k hk
          have := h1 k hk
          simp only [Function.comp, id]
          rw [cast16_id (by omega)]
          omega
    · rename_i h
      refine iff_of_false (by simp) ?_
      rintro (⟨h', -⟩ | ⟨u, rfl, h1, h2⟩)
      · exact e h'
      · refine h (hall.mpr fun x hx => ?_)
        rw [h2, List.mem_map] at hx
        obtain ⟨k, hk, rfl⟩ := hx
        have := h1 k hk
        omega

theorem find_iff (hf : Fits p) (h : Table.make mv p raw = some T) {t : Text} {v : Int} : T.find t = some v ↔ ∃ k : Nat, NameOf p raw t k ∧ v = k := by
  rw [C110.C110_find hf h]
  constructor
  · rintro (⟨k, a, b⟩ | ⟨a, k, r, b, c, d⟩)
    · exact ⟨k, .inl a, b⟩
    · exact ⟨k, .inr ⟨a, r, b, c⟩, d⟩
  · rintro ⟨k, a | ⟨a, r, b, c⟩, d⟩
    · exact .inl ⟨k, a, d⟩
    · exact .inr ⟨a, k, r, b, c, d⟩

theorem forall_names {α : Type} {f : α → Option Int} {R : α → Nat → Prop} (h : ∀ a v, f a = some v ↔ ∃ k : Nat, R a k ∧ v = k) {l : List α} {w : List Nat} :
    (∃ m, List.Forall₂ (fun a b => f a = some b) l m ∧ m.map Int.toNat = w) ↔ List.Forall₂ R l w := by
  constructor
  · rintro ⟨m, h1, rfl⟩
    induction h1 with
    | nil => exact .nil
    | cons h1 _ ih =>
      obtain ⟨k, h2, rfl⟩ := (h _ _).mp h1
      exact .cons (by simpa using h2) ih
  · intro h1
    refine ⟨w.map fun k : Nat => (k : Int), ?_, by rw [List.map_map]; exact List.map_id _⟩
    induction h1 with
    | nil => exact .nil
    | cons h1 _ ih => exact .cons ((h _ _).mpr ⟨_, h1, rfl⟩) ih

/-! ## Reading -/

/-- **C125, sides.** A side is read exactly if it names a product of operators or zero, and then as that; else it is refused. Numbers must be integers of 16 bits (see
`C125_refuted_range`, `C125_refuted_fraction`). -/
theorem C125_side_partial (h0 : 0 < p.num) (hn : p.num < 32768) (h : Table.make mv p raw = some T) {v : Value} (hv : Plain v) :
    (∀ x, side p T v = .ok x ↔ Denotes p raw v x) ∧ side p T v ≠ .undefined := by
  have hf : Fits p := by unfold Fits; omega
  cases v with
  | strings l =>
    refine ⟨fun x => ?_, ?_⟩
    · rw [side, bind_ok]
      simp only [each_ok, ofOption_ok]
      constructor
      · rintro ⟨m, h1, h2⟩
        cases h2
        have hl : ∃ l' : List Text, l = l'.map some := by
          clear hv
          induction h1 with
          | nil => exact ⟨[], rfl⟩
          | @cons a b _ _ h1 _ ih =>
            obtain ⟨l', rfl⟩ := ih
            cases a with
            | none => cases h1
            | some t => exact ⟨t :: l', rfl⟩
        obtain ⟨l', rfl⟩ := hl
        rw [List.forall₂_map_left_iff] at h1
        exact .names ((forall_names fun a v => find_iff hf h).mp ⟨m, h1, rfl⟩)
      · rintro (h1 | _ | _ | _)
        obtain ⟨m, h2, rfl⟩ := (forall_names fun a v => find_iff hf h).mpr h1
        exact ⟨m, by rw [List.forall₂_map_left_iff]; exact h2, rfl⟩
    · rw [side]
      refine bind_defined (each_defined fun a _ => ?_) (by simp)
      cases a.bind T.find <;> simp [Out.ofOption]
  | chars t =>
    have hsingle : T.single = true ↔ ∀ r ∈ raw, r.length = 1 := by
      rw [(Names.make_built h).single, List.all_eq_true]
      simp
    refine ⟨fun x => ?_, ?_⟩
    · rw [side, bind_ok]
      simp only [ofOption_ok, Table.readChars]
      constructor
      · rintro ⟨m, h1, h2⟩
        cases h2
        split at h1
        · rename_i hs
          exact .letters (hsingle.mp hs) ((forall_names fun a v => find_iff hf h).mp ⟨m, mapM_some.mp h1, rfl⟩)
        · cases h1
      · rintro (_ | ⟨h1, h2⟩ | _ | _)
        obtain ⟨m, h3, rfl⟩ := (forall_names fun a v => find_iff hf h).mpr h2
        exact ⟨m, by rw [if_pos (hsingle.mpr h1)]; exact mapM_some.mpr h3, rfl⟩
    · rw [side]
      cases T.readChars t <;> simp [Out.ofOption, Out.bind]
  | ints l =>
    have e : l.map cast16 = l := by
      conv_rhs => rw [← List.map_id l]
      exact List.map_congr_left fun x hx => cast16_id (hv x hx)
    refine ⟨fun x => ?_, ?_⟩
    · rw [side, e, numeric_ok h0 hn hv]
      constructor
      · rintro (⟨rfl, rfl⟩ | ⟨u, rfl, h1, rfl⟩)
        · exact .zero
        · exact .ints h1
      · rintro (_ | _ | h1 | _)
        · exact .inr ⟨_, rfl, h1, rfl⟩
        · exact .inl ⟨rfl, rfl⟩
    · rw [side, numeric]
      dsimp only
      split
      · simp
      · split <;> simp
  | doubles l =>
    obtain ⟨m, rfl, h2, h3⟩ := each_doubles hv
    have inj : Function.Injective fun x : Int => (x : Rat) := Int.cast_injective
    refine ⟨fun x => ?_, ?_⟩
    · rw [side, h3, Out.bind, numeric_ok h0 hn h2]
      constructor
      · rintro (⟨rfl, rfl⟩ | ⟨u, rfl, h1, rfl⟩)
        · exact .zeroDouble
        · have : (u.map fun (k : Nat) => (k : Int) + 1).map (fun x : Int => (x : Rat)) = u.map fun (k : Nat) => (k : Rat) + 1 := by
            rw [List.map_map]
            apply List.map_congr_left
            intro k _
            simp
          rw [this]
          exact .doubles h1
      · intro hd
        generalize hg : Value.doubles (m.map fun x : Int => (x : Rat)) = v at hd
        cases hd with
        | @doubles w h1 =>
          refine .inr ⟨w, rfl, h1, ?_⟩
          have := Value.doubles.inj hg
          apply List.map_injective_iff.mpr inj
          rw [this, List.map_map]
          apply List.map_congr_left
          intro k _
          simp
        | zeroDouble =>
          refine .inl ⟨?_, rfl⟩
          have := Value.doubles.inj hg
          apply List.map_injective_iff.mpr inj
          rw [this]
          simp
        | _ => cases hg
    · rw [side, h3, Out.bind, numeric]
      dsimp only
      split
      · simp
      · split <;> simp
  | cell l => exact ⟨fun x => iff_of_false (by simp [side]) (by rintro ⟨⟩), by simp [side]⟩

/-- What is read stands for an equation. -/
def Raw.equation (r : Raw) : Equation := ⟨r.lhs, r.sign, if r.zero then none else some r.rhs⟩

/-- Equations as they are stored. -/
def Equation.stored (e : Equation) : Raw := ⟨e.lhs, e.rhs.getD [], e.sign, e.rhs.isNone⟩

theorem middle_ok {v : Value} {g : Sign} : middle v = .ok g ↔ ∃ t, v = .chars t ∧ SignText t g := by
  cases v with
  | chars t =>
    simp only [middle, Value.chars.injEq, exists_eq_left']
    constructor
    · intro h
      split at h
      · cases h; subst_vars; exact .minus
      split at h
      · cases h; subst_vars; exact .i
      split at h
      · cases h; subst_vars; exact .minusI
      split at h
      · cases h; subst_vars; exact .plus
      · cases h
    · rintro (_ | _ | _ | _) <;> rfl
  | _ => simp [middle]

theorem sides_ok (h0 : 0 < p.num) (hn : p.num < 32768) (h : Table.make mv p raw = some T) {g : Sign} {l r : Value} (hl : Plain l) (hr : Plain r) {x : Raw} :
    sides p T g l r = .ok x ↔ ∃ w, Denotes p raw l (some w) ∧ ((Denotes p raw r none ∧ x = Equation.stored ⟨w, .pos, none⟩) ∨
      ∃ u, Denotes p raw r (some u) ∧ x = Equation.stored ⟨w, g, some u⟩) := by
  obtain ⟨h1, -⟩ := C125_side_partial h0 hn h hl
  obtain ⟨h2, -⟩ := C125_side_partial h0 hn h hr
  rw [sides, bind_ok]
  constructor
  · rintro ⟨a, e1, e2⟩
    cases a with
    | none => cases e2
    | some w =>
      obtain ⟨b, e3, e4⟩ := bind_ok.mp e2
      refine ⟨w, (h1 _).mp e1, ?_⟩
      cases b with
      | none => cases e4; exact .inl ⟨(h2 _).mp e3, rfl⟩
      | some u => cases e4; exact .inr ⟨u, (h2 _).mp e3, rfl⟩
  · rintro ⟨w, e1, ⟨e2, rfl⟩ | ⟨u, e2, rfl⟩⟩
    · exact ⟨some w, (h1 _).mpr e1, bind_ok.mpr ⟨none, (h2 _).mpr e2, rfl⟩⟩
    · exact ⟨some w, (h1 _).mpr e1, bind_ok.mpr ⟨some u, (h2 _).mpr e2, rfl⟩⟩

theorem rule_ok (h0 : 0 < p.num) (hn : p.num < 32768) (h : Table.make mv p raw = some T) {v : Value} (hv : PlainRule v) {x : Raw} :
    rule p T v = .ok x ↔ ∃ e, Says p raw v e ∧ x = e.stored := by
  cases v with
  | cell l =>
    match l, hv with
    | [], _ => exact iff_of_false (by simp [rule]) (by rintro ⟨e, h, -⟩; cases h)
    | [a], _ => exact iff_of_false (by simp [rule]) (by rintro ⟨e, h, -⟩; cases h)
    | [a, b], hv =>
      rw [rule, sides_ok h0 hn h (hv a (by simp)) (hv b (by simp))]
      constructor
      · rintro ⟨w, e1, ⟨e2, rfl⟩ | ⟨u, e2, rfl⟩⟩
        · exact ⟨_, .zero e1 e2, rfl⟩
        · exact ⟨_, .two e1 e2, rfl⟩
      · rintro ⟨e, (⟨e1, e2⟩ | _ | ⟨e1, e2⟩ | _), rfl⟩
        · exact ⟨_, e1, .inr ⟨_, e2, rfl⟩⟩
        · exact ⟨_, e1, .inl ⟨e2, rfl⟩⟩
    | [a, m, b], hv =>
      rw [rule, bind_ok]
      simp only [sides_ok h0 hn h (hv a (by simp)) (hv b (by simp)), middle_ok]
      constructor
      · rintro ⟨g, ⟨t, rfl, hg⟩, w, e1, ⟨e2, rfl⟩ | ⟨u, e2, rfl⟩⟩
        · exact ⟨_, .zeroSign e1 hg e2, rfl⟩
        · exact ⟨_, .three e1 hg e2, rfl⟩
      · rintro ⟨e, (_ | ⟨e1, hg, e2⟩ | _ | ⟨e1, hg, e2⟩), rfl⟩
        · exact ⟨_, ⟨_, rfl, hg⟩, _, e1, .inr ⟨_, e2, rfl⟩⟩
        · exact ⟨_, ⟨_, rfl, hg⟩, _, e1, .inl ⟨e2, rfl⟩⟩
    | a :: b :: c :: d :: l, _ => exact iff_of_false (by simp [rule]) (by rintro ⟨e, h, -⟩; cases h)
  | _ => exact iff_of_false (by simp [rule]) (by rintro ⟨e, h, -⟩; cases h)

/-- **C125, reading.** A cell array is read exactly if each of its elements says an equation, and then as these equations. -/
theorem C125_read_partial (h0 : 0 < p.num) (hn : p.num < 32768) (h : Table.make mv p raw = some T) {l : List Value} (hl : ∀ v ∈ l, PlainRule v) {rs : List Raw} :
    readRules p T (.cell l) = .ok rs ↔ ∃ es, List.Forall₂ (Says p raw) l es ∧ rs = es.map Equation.stored := by
  rw [readRules, each_ok]
  constructor
  · intro h1
    induction h1 with
    | nil => exact ⟨[], .nil, rfl⟩
    | cons h1 _ ih =>
      obtain ⟨es, h2, rfl⟩ := ih fun v hv => hl v (List.mem_cons_of_mem _ hv)
      obtain ⟨e, h3, rfl⟩ := (rule_ok h0 hn h (hl _ List.mem_cons_self)).mp h1
      exact ⟨e :: es, .cons h3 h2, rfl⟩
  · rintro ⟨es, h1, rfl⟩
    induction h1 with
    | nil => exact .nil
    | cons h1 _ ih =>
      exact .cons ((rule_ok h0 hn h (hl _ List.mem_cons_self)).mpr ⟨_, h1, rfl⟩) (ih fun v hv => hl v (List.mem_cons_of_mem _ hv))

/-! ## Rules -/

theorem Denotes.below (h : Table.make mv p raw = some T) {v : Value} {w : List Nat} (hd : Denotes p raw v (some w)) : ∀ k ∈ w, k < p.num := by
  have hl := (Names.make_built h).proper.1
  have one : ∀ {t : Text} {k : Nat}, NameOf p raw t k → k < p.num := by
    rintro t k (h1 | ⟨h1, r, h2, -⟩)
    · exact Names.nameOf_lt hl h1
    · rw [Rules.Pre.num, if_pos h1, ← hl]
      exact (List.getElem?_eq_some_iff.mp h2).1
  have all : ∀ {α : Type} {f : α → Text} {l : List α} {w : List Nat}, List.Forall₂ (fun (a : α) (k : Nat) => NameOf p raw (f a) k) l w → ∀ k ∈ w, k < p.num := by
    intro α f l w hf
    induction hf with
    | nil => simp
    | cons h1 _ ih => simpa using ⟨one h1, ih⟩
  cases hd with
  | names h1 => exact all (f := id) h1
  | letters _ h1 => exact all (f := fun c => [c]) h1
  | ints h1 => exact h1
  | doubles h1 => exact h1

/-- Sides of the equation are words that are not too long. -/
def Equation.Word (p : Pre) (L : Nat) (e : Equation) : Prop := Rules.IsWord p L e.lhs ∧ ∀ u, e.rhs = some u → Rules.IsWord p L u

/-- Equations whose factor is real, or whose left side is the larger one. -/
def Equation.Direct (e : Equation) : Prop := e.sign = .pos ∨ e.sign = .neg ∨ ∀ u, e.rhs = some u → List.Shortlex (· < ·) u e.lhs

theorem long_enough {L : Nat} (h0 : 0 < p.num) (hs : Small p L) : L ≤ longestHashable p.num := by
  have hpow : p.num ^ L < 2 ^ 64 :=
    lt_of_le_of_lt (Finset.single_le_sum (f := fun k => p.num ^ k) (fun _ _ => Nat.zero_le _) (Finset.mem_range.mpr (Nat.lt_succ_self L))) hs.count
  unfold longestHashable
  split
  · rename_i e
    have := hs.count
    rw [e] at this
    simp at this
    omega
  · have hL : L < 65 := by
      by_contra hc
      have h1 : 2 ^ L ≤ p.num ^ L := Nat.pow_le_pow_left (by omega) L
      have h2 : 2 ^ 64 ≤ 2 ^ L := Nat.pow_le_pow_right (by omega) (by omega)
      omega
    have mem : L ∈ (List.range 65).filter (fun L => decide (p.num ^ L ≤ 2 ^ 64 ∧ (p.num = 0 → L = 0))) := by
      rw [List.mem_filter]
      exact ⟨List.mem_range.mpr hL, decide_eq_true ⟨hpow.le, fun h => by omega⟩⟩
    have key : ∀ (l : List Nat) (a : Nat), a ≤ l.foldl max a ∧ ∀ x ∈ l, x ≤ l.foldl max a := by
      intro l
      induction l with
      | nil => simp
      | cons y l ih =>
        intro a
        obtain ⟨h1, h2⟩ := ih (max a y)
        simp only [List.foldl_cons, List.mem_cons, forall_eq_or_imp]
        exact ⟨by omega, by omega, h2⟩
    exact (key _ 0).2 L mem

theorem difference_pos (s : Sign) : Sign.difference .pos s = s := by cases s <;> rfl

theorem toRule_ok {L : Nat} (h0 : 0 < p.num) (hs : Small p L) {e : Equation} (hw : e.Word p L) : ∃ r, Raw.toRule p e.stored = .ok r ∧
    (e.rhs ≠ some e.lhs → GoodRule p L r) ∧
    (e.Direct → ∀ (A : Type) [Ring A] [Algebra ℂ A] (ρ : Nat → A), Holds ρ (den r) ↔ e.True ρ) := by
  obtain ⟨l, g, x⟩ := e
  obtain ⟨h1, h2⟩ := hw
  dsimp only at h1 h2
  have hL := long_enough h0 hs
  have hlen : ¬ (longestHashable p.num < l.length ∨ longestHashable p.num < (x.getD []).length) := by
    have := h1.2
    cases x with
    | none => simp; omega
    | some u =>
      have := (h2 u rfl).2
      simp only [Option.getD_some]
      omega
  have z1 := Rules.hash_ne_zero hs h1
  unfold Raw.toRule
  rw [Equation.stored, if_neg hlen]
  cases x with
  | none =>
    rw [if_pos (by rfl), Rule.make, if_neg (by simp [HSeq.zero])]
    refine ⟨_, rfl, fun _ => ⟨⟨h1, .inr rfl⟩, ⟨Rules.IsWord.nil, .inl ⟨rfl, rfl⟩⟩, rfl, ?_, rfl, rfl, ?_⟩, fun _ A _ _ ρ => ?_⟩
    · exact UInt64.pos_iff_ne_zero.mpr z1
    · simp [seq, HSeq.zero, z1]
    · simp [Holds, den, term, HSeq.zero, seq, eval, evalWord, Equation.True]
  | some u =>
    have h3 := h2 u rfl
    have z2 := Rules.hash_ne_zero hs h3
    rw [if_neg (by simp)]
    simp only [Option.getD_some]
    split
    · rename_i hlt
      rw [Rule.make, if_neg (by simp only [seq]; exact UInt64.not_lt.mpr (UInt64.le_of_lt hlt))]
      refine ⟨_, rfl, fun _ => ⟨⟨h1, .inr rfl⟩, ⟨h3, .inr rfl⟩, rfl, hlt, rfl, rfl, ?_⟩, fun _ A _ _ ρ => ?_⟩
      · have : p.hash l ≠ p.hash u := fun e => by rw [e] at hlt; exact UInt64.lt_irrefl _ hlt
        simp [seq, this]
      · simp only [Holds, den, term, seq, eval, evalWord, Equation.True, z2, if_false, difference_pos]
    · rename_i hlt
      rw [Rule.make, if_neg (by simpa only [seq] using hlt)]
      refine ⟨_, rfl, fun hne => ?_, fun hd A _ _ ρ => ?_⟩
      · have hne' : p.hash u ≠ p.hash l := fun e => hne (by rw [(Rules.hash_inj hs h3 h1).mp e])
        refine ⟨⟨h3, .inr rfl⟩, ⟨h1, .inr rfl⟩, rfl, ?_, rfl, rfl, ?_⟩
        · exact UInt64.lt_of_le_of_ne (UInt64.not_lt.mp hlt) hne'.symm
        · simp [seq, hne']
      · have : g = .pos ∨ g = .neg := by
          rcases hd with hd | hd | hd
          · exact .inl hd
          · exact .inr hd
          · exact absurd ((Rules.hash_lt hs h3 h1).mpr (hd u rfl)) hlt
        rcases this with rfl | rfl
        · simp only [Holds, den, term, seq, eval, evalWord, Equation.True, z1, if_false, difference_pos, phase, one_smul]
          exact eq_comm
        · simp only [Holds, den, term, seq, eval, evalWord, Equation.True, z1, if_false, difference_pos, phase, neg_smul, one_smul]
          exact ⟨fun h => by rw [h, neg_neg], fun h => by rw [h, neg_neg]⟩

/-- **C125, rules.** If each element of the cell array says an equation with words that are not too long, then rules are made, and they say the same as the equations: they hold in the same
algebras, for the same operators. Equations whose sides differ give rules that can be used. What is missing: imaginary factors before larger words (see `C125_refuted_imaginary`). -/
theorem C125_rules_partial {L : Nat} (h0 : 0 < p.num) (hn : p.num < 32768) (hs : Small p L) (h : Table.make mv p raw = some T) {l : List Value} (hl : ∀ v ∈ l, PlainRule v)
    {es : List Equation} (hes : List.Forall₂ (Says p raw) l es) (hw : ∀ e ∈ es, e.Word p L) : ∃ rs, rules p T (.cell l) = .ok rs ∧ rs.length = l.length ∧
      ((∀ e ∈ es, e.rhs ≠ some e.lhs) → ∀ r ∈ rs, GoodRule p L r) ∧
      ((∀ e ∈ es, e.Direct) → ∀ (A : Type) [Ring A] [Algebra ℂ A] (ρ : Nat → A), (∀ r ∈ rs, Holds ρ (den r)) ↔ ∀ e ∈ es, e.True ρ) := by
  have hread := (C125_read_partial h0 hn h hl).mpr ⟨es, hes, rfl⟩
  have hok : lengthsOk p (es.map Equation.stored) = true := by
    have hL := long_enough h0 hs
    rw [lengthsOk, List.all_eq_true]
    intro r hr
    obtain ⟨e, he, rfl⟩ := List.mem_map.mp hr
    obtain ⟨h1, h2⟩ := hw e he
    have h3 := h1.2
    cases hx : e.rhs with
    | none =>
      simp only [Equation.stored, hx, Option.getD_none, List.length_nil, Bool.and_eq_true, decide_eq_true_eq]
      omega
    | some u =>
      have := (h2 u hx).2
      simp only [Equation.stored, hx, Option.getD_some, Bool.and_eq_true, decide_eq_true_eq]
      omega
  rw [rules, hread, Out.bind, if_pos hok, hes.length_eq]
  clear hread hok hes hl
  induction es with
  | nil => exact ⟨[], rfl, rfl, by simp, by simp⟩
  | cons e es ih =>
    obtain ⟨rs, i1, i2, i3, i4⟩ := ih fun e he => hw e (List.mem_cons_of_mem _ he)
    obtain ⟨r, j1, j2, j3⟩ := toRule_ok h0 hs (hw e List.mem_cons_self)
    refine ⟨r :: rs, ?_, by simp [i2], fun hd => ?_, fun hd A _ _ ρ => ?_⟩
    · rw [List.map_cons, Out.each, j1, Out.bind, i1]
      rfl
    · simp only [List.mem_cons, forall_eq_or_imp] at hd ⊢
      exact ⟨j2 hd.1, i3 hd.2⟩
    · simp only [List.mem_cons, forall_eq_or_imp] at hd ⊢
      rw [j3 hd.1 A ρ, i4 hd.2 A ρ]

/-- **C125, contexts.** A context that is made with the given rules has the given equations: its rules hold for operators of an algebra exactly if the operators meet
the equations (and commute, or are normal, if the user said so). -/
theorem C125_context_partial {L : Nat} (h0 : 0 < p.num) (hn : p.num < 32768) (hs : Small p L) (h2 : 2 ≤ L) (h : Table.make mv p raw = some T) {l : List Value} (hl : ∀ v ∈ l, PlainRule v)
    {es : List Equation} (hes : List.Forall₂ (Says p raw) l es) (hw : ∀ e ∈ es, e.Word p L) (hne : ∀ e ∈ es, e.rhs ≠ some e.lhs) (hd : ∀ e ∈ es, e.Direct) (commute normal : Bool) :
    ∃ rs a, rules p T (.cell l) = .ok rs ∧ Algebraic.make p commute normal rs = some a ∧
      ∀ (A : Type) [Ring A] [Algebra ℂ A] (ρ : Nat → A), Models ρ a.rules ↔
        (∀ e ∈ es, e.True ρ) ∧ (commute = true → ∀ x < p.num, ∀ y < p.num, ρ x * ρ y = ρ y * ρ x) ∧
        (normal = true → ∀ x < p.num, ρ x * ρ (p.adj x) = ρ (p.adj x) * ρ x) := by
  obtain ⟨rs, h3, -, h4, h5⟩ := C125_rules_partial h0 hn hs h hl hes hw
  obtain ⟨a, h6, -, -, -, -, h7⟩ := C117.C117_made hs h2 (h4 hne) commute normal
  exact ⟨rs, a, h3, h6, fun A _ _ ρ => by rw [h7 A ρ, h5 hd A ρ]⟩

/-- **C125, long sides.** If a side of an equation is longer than any word that has a hash, nothing is made. -/
theorem C125_long (h0 : 0 < p.num) (hn : p.num < 32768) (h : Table.make mv p raw = some T) {l : List Value} (hl : ∀ v ∈ l, PlainRule v)
    {es : List Equation} (hes : List.Forall₂ (Says p raw) l es) {e : Equation} (he : e ∈ es)
    (hlong : longestHashable p.num < e.lhs.length ∨ ∃ u, e.rhs = some u ∧ longestHashable p.num < u.length) : rules p T (.cell l) = .refused := by
  have hread := (C125_read_partial h0 hn h hl).mpr ⟨es, hes, rfl⟩
  rw [rules, hread, Out.bind, if_neg]
  rw [lengthsOk, List.all_eq_true]
  intro hc
  have this := hc _ (List.mem_map.mpr ⟨e, he, rfl⟩)
  rw [Bool.and_eq_true] at this
  have a1 : e.lhs.length ≤ longestHashable p.num := of_decide_eq_true this.1
  have a2 : (e.rhs.getD []).length ≤ longestHashable p.num := of_decide_eq_true this.2
  rcases hlong with h1 | ⟨u, h1, h2⟩
  · omega
  · rw [h1, Option.getD_some] at a2
    omega

/-! ## An example, and what goes wrong -/

/-- Two self-adjoint operators A and B. -/
def two : Pre := ⟨2, .selfAdjoint⟩

theorem two_table : ∃ T, Table.make C110.gnu two [['A'], ['B']] = some T ∧ T.find ['A'] = some 0 ∧ T.find ['B'] = some 1 := ⟨_, rfl, by decide, by decide⟩

theorem two_small : Small two 4 := ⟨by decide, by decide⟩

/-- `{ {'BA', '-', "A", "B"}, {[1 1], 0.0} }` with names, letters and numbers: anticommuting operators, the first of which has square zero. The hypotheses are met. -/
example : ∃ T rs a, Table.make C110.gnu two [['A'], ['B']] = some T ∧
    rules two T (.cell [.cell [.chars ['B', 'A'], .chars ['-'], .strings [some ['A'], some ['B']]], .cell [.doubles [1, 1], .ints [0]]]) = .ok rs ∧
    Algebraic.make two false false rs = some a ∧
    ∀ (A : Type) [Ring A] [Algebra ℂ A] (ρ : Nat → A), Models ρ a.rules ↔ ρ 1 * ρ 0 = - (ρ 0 * ρ 1) ∧ ρ 0 * ρ 0 = 0 := by
  obtain ⟨T, hT, -, -⟩ := two_table
  have nA : NameOf two [['A'], ['B']] ['A'] 0 := .inl (by decide)
  have nB : NameOf two [['A'], ['B']] ['B'] 1 := .inl (by decide)
  have d1 : Denotes two [['A'], ['B']] (.chars ['B', 'A']) (some [1, 0]) := .letters (by decide) (.cons nB (.cons nA .nil))
  have d2 : Denotes two [['A'], ['B']] (.strings [some ['A'], some ['B']]) (some [0, 1]) := .names (l := [['A'], ['B']]) (.cons nA (.cons nB .nil))
  have d3 : Denotes two [['A'], ['B']] (.doubles [1, 1]) (some [0, 0]) := by
    have := Denotes.doubles (p := two) (raw := [['A'], ['B']]) (w := [0, 0]) (by decide)
    simpa using this
  obtain ⟨rs, a, h1, h2, h3⟩ := C125_context_partial (by decide) (by decide) two_small (by decide) hT
    (l := [.cell [.chars ['B', 'A'], .chars ['-'], .strings [some ['A'], some ['B']]], .cell [.doubles [1, 1], .ints [0]]])
    (by
      intro v hv
      simp only [List.mem_cons, List.not_mem_nil, or_false] at hv
      rcases hv with rfl | rfl
      · simp [PlainRule, Plain]
      · simp only [PlainRule, List.mem_cons, List.not_mem_nil, or_false, forall_eq_or_imp, forall_eq, Plain]
        exact ⟨⟨⟨1, by norm_num⟩, ⟨1, by norm_num⟩⟩, by norm_num⟩)
    (.cons (.three d1 .minus d2) (.cons (.zero d3 .zero) .nil))
    (by simp [Equation.Word, Rules.IsWord, two, Rules.Pre.num])
    (by simp)
    (by
      simp only [List.mem_cons, List.not_mem_nil, or_false, forall_eq_or_imp, forall_eq]
      exact ⟨.inr (.inl rfl), .inl rfl⟩) false false
  refine ⟨T, rs, a, hT, h1, h2, fun A _ _ ρ => ?_⟩
  rw [h3 A ρ]
  simp [Equation.True, phase]

/-- **C125, refuted: imaginary factors.** The user says `A = i B`. The rule that is made says `B = i A` instead of `B = -i A`: it holds for numbers for which the
equation is wrong (read_monomial_rules.cpp:170-181). -/
theorem C125_refuted_imaginary : ∃ T r, Table.make C110.gnu two [['A'], ['B']] = some T ∧
    Says two [['A'], ['B']] (.cell [.ints [1], .chars ['i'], .ints [2]]) ⟨[0], .imag, some [1]⟩ ∧
    rules two T (.cell [.cell [.ints [1], .chars ['i'], .ints [2]]]) = .ok [r] ∧
    ∃ ρ : Nat → ℂ, Holds ρ (den r) ∧ ¬ Equation.True ρ ⟨[0], .imag, some [1]⟩ := by
  refine ⟨_, ⟨seq two [1] .pos, seq two [0] .imag, false, false, 0⟩, rfl, ?_, ?_, fun k => if k = 0 then 1 else Complex.I, ?_, ?_⟩
  · exact .three (.ints (w := [0]) (by decide)) .i (.ints (w := [1]) (by decide))
  · decide +kernel
  · simp [Holds, den, term, seq, eval, evalWord, phase, show two.hash [0] ≠ 0 by decide +kernel]
  · simp [Equation.True, phase]
    norm_num

/-- **C125, refuted: numbers out of range.** Integers wrap around to 16 bits before they are checked: 65537 is read as operator 1, though there are two operators. -/
theorem C125_refuted_range (T : Table) : side two T (.ints [65537]) = .ok (some [0]) ∧ ∀ x, ¬ Denotes two [['A'], ['B']] (.ints [65537]) x := by
  refine ⟨by rw [side]; decide +kernel, fun x hx => ?_⟩
  generalize hg : Value.ints [65537] = v at hx
  cases hx with
  | @ints w h1 =>
    have := Value.ints.inj hg
    match w, h1, this with
    | [k], h1, this =>
      have h2 : k < 2 := h1 k (by simp)
      have h3 : (65537 : Int) = (k : Int) + 1 := (List.cons.inj this).1
      omega
  | zero => cases hg
  | _ => cases hg

/-- **C125, refuted: fractions.** Fractions are cut off: 3/2 is read as operator 1. Numbers beyond 16 bits cannot be converted; the language then leaves open what
happens. -/
theorem C125_refuted_fraction (T : Table) : side two T (.doubles [3 / 2]) = .ok (some [0]) ∧ (∀ x, ¬ Denotes two [['A'], ['B']] (.doubles [3 / 2]) x) ∧
    side two T (.doubles [1000000]) = .undefined := by
  refine ⟨by rw [side]; decide +kernel, fun x hx => ?_, by rw [side]; decide +kernel⟩
  generalize hg : Value.doubles [3 / 2] = v at hx
  cases hx with
  | @doubles w h1 =>
    have := Value.doubles.inj hg
    match w, h1, this with
    | [k], h1, this =>
      have h2 : k < 2 := h1 k (by simp)
      have h3 : (3 / 2 : Rat) = (k : Rat) + 1 := (List.cons.inj this).1
      interval_cases k <;> norm_num at h3
    | _ :: _ :: _, _, this => cases (List.cons.inj this).2
  | zeroDouble =>
    have := (List.cons.inj (Value.doubles.inj hg)).1
    norm_num at this
  | _ => cases hg

/-- **C125, refuted: equal sides.** The user says `A = i A`, which is true only if A is zero. The rule is marked as trivial, so a rulebook that takes it has no rules
(operator_rule.cpp:80-82). -/
theorem C125_refuted_same : ∃ T r, Table.make C110.gnu two [['A'], ['B']] = some T ∧
    rules two T (.cell [.cell [.ints [1], .chars ['i'], .ints [1]]]) = .ok [r] ∧ r.trivial = true ∧
    (∀ ρ : Nat → ℂ, Equation.True ρ ⟨[0], .imag, some [0]⟩ → ρ 0 = 0) ∧
    ∃ a, Algebraic.make two false false [r] = some a ∧ a.rules = ∅ := by
  refine ⟨_, ⟨seq two [0] .pos, seq two [0] .imag, true, false, 0⟩, rfl, by decide +kernel, rfl, fun ρ h => ?_, ?_⟩
  · have h : ρ 0 = Complex.I * ρ 0 := by simpa [Equation.True, phase] using h
    have h' : (1 - Complex.I) * ρ 0 = 0 := by linear_combination h
    rcases mul_eq_zero.mp h' with h | h
    · have := congrArg Complex.re h
      simp at this
    · exact h
  · refine ⟨⟨two, false, ⟨[], 0⟩, some true⟩, ?_, by simp [Algebraic.Context.rules, Rules.rset]⟩
    simp only [Algebraic.make, Rules.Book.new, Rules.Book.addRules, Rules.addRulesLoop]
    rw [Rules.addRule.eq_def]
    rfl

/-- **C125, refuted: endless reductions.** The user says `A = -A`. The rule is stored, and reducing A with it never ends. -/
theorem C125_refuted_endless : ∃ T r m, Table.make C110.gnu two [['A'], ['B']] = some T ∧
    rules two T (.cell [.cell [.ints [1], .chars ['-'], .ints [1]]]) = .ok [r] ∧ Rules.addRule [] r = some (m, 1) ∧ Rules.viaIteration m [0] .pos = none :=
  ⟨_, C16.badRule, _, rfl, by decide +kernel, C16.C16_refuted_endless.2⟩

end Moment.C125
