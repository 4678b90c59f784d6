import Verif.Model.RulesInput
import Verif.Props.C126_PolyInput
import Verif.Props.C74_Substituted
import Verif.Proof.Sound

/-! # C129: moment rules that are given by the user

Values for symbols, polynomials in symbols and polynomials in words are turned into rulebooks. What the arrays say is defined in C126 and here. -/

namespace Moment.C129
open Moment.RulesInput
open Moment.RuleInput (Out)
open Moment.PolyInput (Value Streams one towardsZero readComplex readTerms toPolynomial exportPolynomial stage supply found registerTerms)
open Moment.C125 (bind_ok each_ok ofOption_ok)
open Moment.C126 (NumSays Says Short readTerms_says one_ok readComplex_iff towardsZero_int registerTerms_spec)
open Moment.Poly (Mono MRule Assignment Solves Canonical Book)
open Moment.Symbols (Env Table Heads Sound)
open Moment.SymbolText (Text Doubles)
open Moment.C113 (Standard)
open Moment.MatrixBasis (polyTable)
open Moment.SymbolMatrix (Host Setting Ready Moments Agrees)
open Moment.RawPoly (Raw Over total)
open Moment.C71 (SimpKeeps)

/-! ## What the user says -/

/-- The number of a symbol. -/
inductive SymSays (int : Text → Option Int) : Value → Int → Prop
  | int (x : Int) : -2147483648 ≤ x → x < 2147483648 → SymSays int (.ints [x]) x
  | bool (b : Bool) : SymSays int (.bools [b]) (if b then 1 else 0)
  | double (x : Int) : -2147483648 ≤ x → x < 2147483648 → SymSays int (.doubles [(x : ℝ)]) x
  | text (t : Text) (x : Int) : int t = some x → SymSays int (.strings [some t]) x

/-- The symbol and its value. -/
inductive PairSays (int : Text → Option Int) : Value → Int × ℂ → Prop
  | pair {i z : Value} {n : Int} {w : ℂ} : SymSays int i n → NumSays z w → PairSays int (.cell [i, z]) (n, w)

/-- Values for symbols. -/
inductive ListSays (int : Text → Option Int) : Value → List (Int × ℂ) → Prop
  | nothing {v : Value} : empty v = true → ListSays int v []
  | cells {c : List Value} {l : List (Int × ℂ)} : List.Forall₂ (PairSays int) c l → ListSays int (.cell c) l

/-- All symbols are in the table, and none of them is zero or one. -/
def Free (t : Table) (l : List (Int × ℂ)) : Prop := ∀ e ∈ l, 2 ≤ e.1 ∧ e.1 < t.syms.length

/-- The sum that a list of terms is. -/
noncomputable def sum (a : Nat → ℂ) (l : List Mono) : ℂ := (l.map fun m => m.factor * if m.conj then (starRingEnd ℂ) (a m.id) else a m.id).sum

/-! ## Reading -/

theorem bmod_id {x : Int} (h1 : -2147483648 ≤ x) (h2 : x < 2147483648) : Int.bmod x 4294967296 = x := by
  rw [Int.bmod_eq_of_le (by omega) (by omega)]

theorem readSymbol_says {int : Text → Option Int} {v : Value} {n : Int} (h : SymSays int v n) : readSymbol int v = .ok n := by
  cases h with
  | int x h1 h2 => simp only [readSymbol, one, Out.bind, bmod_id h1 h2]
  | bool b => rfl
  | double x h1 h2 =>
    simp only [readSymbol, one, Out.bind]
    rw [towardsZero_int, if_pos ⟨h1, h2⟩]
  | text t x ht => simp [readSymbol, one, Out.bind, ht, Out.ofOption]

/-- Numbers of symbols are integers that fit in 32 bits. -/
def Plain : Value → Prop
  | .ints l => ∀ x ∈ l, -2147483648 ≤ x ∧ x < 2147483648
  | .doubles l => ∀ x ∈ l, ∃ k : Int, x = k
  | _ => True

theorem symSays_of {int : Text → Option Int} {v : Value} {n : Int} (hv : Plain v) (h : readSymbol int v = .ok n) : SymSays int v n := by
  cases v with
  | ints l =>
    obtain ⟨x, h1, h2⟩ := bind_ok.mp h
    rw [one_ok] at h1
    subst h1
    have := hv x (by simp)
    rw [bmod_id this.1 this.2] at h2
    cases h2
    exact .int n this.1 this.2
  | bools l =>
    obtain ⟨x, h1, h2⟩ := bind_ok.mp h
    rw [one_ok] at h1
    subst h1
    cases h2
    exact .bool x
  | doubles l =>
    obtain ⟨x, h1, h2⟩ := bind_ok.mp h
    rw [one_ok] at h1
    subst h1
    obtain ⟨k, rfl⟩ := hv x (by simp)
    rw [towardsZero_int] at h2
    split at h2
    · rename_i hk
      cases h2
      exact .double n hk.1 hk.2
    · cases h2
  | complexes l => cases h
  | strings l =>
    obtain ⟨x, h1, h2⟩ := bind_ok.mp h
    rw [one_ok] at h1
    subst h1
    rw [ofOption_ok] at h2
    cases x with
    | none => cases h2
    | some t => exact .text t n h2
  | cell l => cases h

theorem readPair_says {int : Text → Option Int} {v : Value} {e : Int × ℂ} (h : PairSays int v e) :
    readPair int v = if e.1 < 2 then .refused else .ok (e.1.toNat, e.2) := by
  cases h with
  | pair h1 h2 =>
    unfold readPair
    simp only [readSymbol_says h1, readComplex_iff.mpr h2, Out.bind]

theorem each_refused {α β : Type} {f : α → Out β} : ∀ {l : List α}, (∀ a ∈ l, f a ≠ .undefined) → (∃ a ∈ l, f a = .refused) → Out.each f l = .refused
  | [], _, ⟨a, ha, _⟩ => by simp at ha
  | a :: l, hu, hr => by
    unfold Out.each
    cases h : f a with
    | undefined => exact absurd h (hu a (by simp))
    | refused => rfl
    | ok b =>
      have : Out.each f l = .refused := each_refused (fun x hx => hu x (by simp [hx])) (by
        obtain ⟨x, hx, e⟩ := hr
        rcases List.mem_cons.mp hx with rfl | hx
        · rw [h] at e; cases e
        · exact ⟨x, hx, e⟩)
      simp only [Out.bind, this]

theorem each_pairs {int : Text → Option Int} : ∀ {c : List Value} {l : List (Int × ℂ)}, List.Forall₂ (PairSays int) c l →
    ((∃ e ∈ l, e.1 < 2) → Out.each (readPair int) c = .refused) ∧
    ((∀ e ∈ l, 2 ≤ e.1) → Out.each (readPair int) c = .ok (l.map fun e => (e.1.toNat, e.2)))
  | [], [], .nil => ⟨by simp, fun _ => rfl⟩
  | v :: c, e :: l, .cons h1 h2 => by
    obtain ⟨i1, i2⟩ := each_pairs h2
    have hr := readPair_says h1
    constructor
    · rintro ⟨x, hx, hlt⟩
      unfold Out.each
      by_cases he : e.1 < 2
      · rw [hr, if_pos he]; rfl
      · rw [hr, if_neg he]
        rcases List.mem_cons.mp hx with rfl | hx
        · exact absurd hlt he
        · simp only [Out.bind, i1 ⟨x, hx, hlt⟩]
    · intro hl
      unfold Out.each
      have := hl e (by simp)
      rw [hr, if_neg (by omega)]
      simp only [Out.bind, i2 fun x hx => hl x (by simp [hx]), List.map_cons]

/-- The map has the first value of each symbol. -/
theorem emplace_lookup (m : List (Nat × ℂ)) (e : Nat × ℂ) (i : Nat) : (emplace m e).lookup i = (m ++ [e]).lookup i := by
  unfold emplace
  split
  · rename_i h
    rw [List.lookup_append]
    by_cases hi : m.lookup i = none
    · rw [hi]
      obtain ⟨x, hx, hxe⟩ := List.any_eq_true.mp h
      rw [List.lookup_eq_none_iff] at hi
      have h1 := hi x hx
      simp only [beq_iff_eq] at hxe
      have h2 : (i == e.1) = false := by
        rw [hxe] at h1
        simpa using h1
      simp [List.lookup, h2]
    · obtain ⟨z, hz⟩ := Option.ne_none_iff_exists'.mp hi
      rw [hz]; rfl
  · rfl

theorem foldl_lookup : ∀ (l m : List (Nat × ℂ)) (i : Nat), (l.foldl emplace m).lookup i = (m ++ l).lookup i
  | [], m, i => by simp
  | e :: l, m, i => by
    rw [List.foldl_cons, foldl_lookup l, List.lookup_append, emplace_lookup, ← List.lookup_append]
    simp

theorem emplace_nodup {m : List (Nat × ℂ)} (h : (m.map Prod.fst).Nodup) (e : Nat × ℂ) : ((emplace m e).map Prod.fst).Nodup := by
  unfold emplace
  split
  · exact h
  · rename_i hn
    rw [List.map_append, List.nodup_append]
    refine ⟨h, by simp, ?_⟩
    intro a ha b hb hab
    simp only [List.map_cons, List.map_nil, List.mem_singleton] at hb
    obtain ⟨x, hx, rfl⟩ := List.mem_map.mp ha
    exact hn (List.any_eq_true.mpr ⟨x, hx, by simp [hab, hb]⟩)

theorem foldl_nodup : ∀ (l : List (Nat × ℂ)) {m : List (Nat × ℂ)}, (m.map Prod.fst).Nodup → ((l.foldl emplace m).map Prod.fst).Nodup
  | [], _, h => h
  | e :: l, _, h => foldl_nodup l (emplace_nodup h e)

theorem lookup_of_mem : ∀ {m : List (Nat × ℂ)}, (m.map Prod.fst).Nodup → ∀ {e : Nat × ℂ}, e ∈ m → m.lookup e.1 = some e.2
  | [], _, e, he => by simp at he
  | x :: m, h, e, he => by
    rw [List.map_cons, List.nodup_cons] at h
    rcases List.mem_cons.mp he with rfl | he
    · simp [List.lookup]
    · have : (e.1 == x.1) = false := by
        simp only [beq_eq_false_iff_ne]
        intro hx
        exact h.1 (hx ▸ List.mem_map_of_mem he)
      rw [List.lookup, this]
      exact lookup_of_mem h.2 he

theorem mem_of_lookup : ∀ {m : List (Nat × ℂ)} {i : Nat} {z : ℂ}, m.lookup i = some z → (i, z) ∈ m
  | [], _, _, h => by simp at h
  | x :: m, i, z, h => by
    rw [List.lookup] at h
    split at h
    · rename_i hb
      simp only [beq_iff_eq] at hb
      cases h
      subst hb
      simp
    · exact List.mem_cons_of_mem _ (mem_of_lookup h)

/-- The entries of the map. -/
theorem mem_map_iff (l : List (Nat × ℂ)) (e : Nat × ℂ) : e ∈ l.foldl emplace [] ↔ l.lookup e.1 = some e.2 := by
  constructor
  · intro h
    have := lookup_of_mem (foldl_nodup l (m := []) (by simp)) h
    rwa [foldl_lookup, List.nil_append] at this
  · intro h
    refine mem_of_lookup (m := l.foldl emplace []) (i := e.1) (z := e.2) ?_
    rw [foldl_lookup, List.nil_append]
    exact h

/-! ## Building -/

theorem built_spec {t : Poly.Table} (ht : t.Good) {o : Poly.Order} (ho : o.Good) {sort : List (List Mono) → List (List Mono)} (hs : ∀ l, (sort l).Perm l)
    {raw : List (List Mono)} (hraw : ∀ p ∈ raw, Canonical t o p) :
    (built t o sort raw = .refused ∧ ∀ a, Assignment t a → ¬ ∀ p ∈ raw, Poly.value a p = 0) ∨
    ∃ b, built t o sort raw = .ok b ∧ Book t o b ∧ (∃ a, Solves t b a) ∧ ∀ a, Solves t b a ↔ Assignment t a ∧ ∀ p ∈ raw, Poly.value a p = 0 := by
  have hz : ∀ v, Poly.Zero v (sort raw) ↔ ∀ p ∈ raw, Poly.value v p = 0 :=
    fun v => ⟨fun h p hp => h p ((hs raw).mem_iff.mpr hp), fun h p hp => h p ((hs raw).mem_iff.mp hp)⟩
  have hc : ∀ p ∈ sort raw, Canonical t o p := fun p hp => hraw p ((hs raw).mem_iff.mp hp)
  unfold built
  rcases C56.C56_complete t ht o ho [] .empty (sort raw) hc with ⟨h1, h2⟩ | ⟨b, k, h1, h2, h3, _⟩
  · left
    rw [h1]
    exact ⟨rfl, fun v hv hzero => h2 v ⟨⟨hv, by simp⟩, (hz v).mpr hzero⟩⟩
  · right
    refine ⟨b, by rw [h1], .complete .empty hc h1, h3, fun v => ?_⟩
    rw [h2 v, hz v]
    exact ⟨fun h => ⟨h.1.1, h.2⟩, fun h => ⟨⟨h.1, by simp⟩, h.2⟩⟩

theorem ofMono_canonical {t : Poly.Table} {o : Poly.Order} {i : Nat} (hi : i ≠ 0) {c : ℂ} (hc : c ≠ 0) : Canonical t o (Poly.ofMono ⟨i, false, c⟩) := by
  unfold Poly.ofMono
  split
  · exact ⟨by simp, by simp [hi, hc], by simp⟩
  · exact ⟨by simp, by simp, by simp⟩

theorem rawOfValue_canonical {t : Poly.Table} {o : Poly.Order} (ho : Function.Injective o.rank) {i : Nat} (hi : i ≠ 0) (z : ℂ) :
    Canonical t o (Poly.rawOfValue t o i z) := by
  unfold Poly.rawOfValue
  split
  · exact ofMono_canonical hi one_ne_zero
  · exact Poly.make_canonical _ _ ho _

/-- The first values that are given for symbols. -/
def First (l : List (Int × ℂ)) (i : Nat) (z : ℂ) : Prop := (l.map fun e => (e.1.toNat, e.2)).lookup i = some z

/-- **C129, values.** If values for symbols are given, the rulebook says that the symbols have them, or, if a symbol is given several times, the first of them. It is
refused exactly if a symbol is not in the table, or is zero or one, or the values are impossible for Hermitian or anti-Hermitian symbols. -/
theorem C129_first {int : Text → Option Int} {t : Table} (ht : (polyTable t).Good) {o : Poly.Order} (ho : o.Good) {sort : List (List Mono) → List (List Mono)}
    (hs : ∀ l, (sort l).Perm l) {v : Value} {l : List (Int × ℂ)} (hv : ListSays int v l) :
    (fromPairs int t o sort v = .refused ∧ (¬ Free t l ∨ ∀ a, Assignment (polyTable t) a → ∃ i z, First l i z ∧ a i ≠ z)) ∨
    ∃ b, fromPairs int t o sort v = .ok b ∧ Free t l ∧ Book (polyTable t) o b ∧ (∃ a, Solves (polyTable t) b a) ∧
      ∀ a, Solves (polyTable t) b a ↔ Assignment (polyTable t) a ∧ ∀ i z, First l i z → a i = z := by
  have hread : (∀ e ∈ l, 2 ≤ e.1) → readPairs int v = .ok ((l.map fun e => (e.1.toNat, e.2)).foldl emplace []) := by
    intro h2
    unfold readPairs
    cases hv with
    | nothing he => rw [if_pos he]; rfl
    | @cells c l hc =>
      by_cases he : empty (.cell c) = true
      · rw [if_pos he]
        cases hc with
        | nil => rfl
        | cons => simp [empty] at he
      · rw [if_neg he]
        simp only [(each_pairs hc).2 h2, Out.bind]
  by_cases h2 : ∀ e ∈ l, 2 ≤ e.1
  · have hr := hread h2
    unfold fromPairs
    rw [hr]
    simp only [Out.bind]
    have hkeys : (∀ e ∈ (l.map fun e => (e.1.toNat, e.2)).foldl emplace [], e.1 < t.syms.length) ↔ Free t l := by
      constructor
      · intro h e he
        refine ⟨h2 e he, ?_⟩
        have hm : (e.1.toNat, e.2) ∈ l.map fun e => (e.1.toNat, e.2) := List.mem_map_of_mem he
        obtain ⟨z, hz⟩ : ∃ z, (l.map fun e => (e.1.toNat, e.2)).lookup e.1.toNat = some z := by
          by_contra hno
          push Not at hno
          have hnone := Option.eq_none_iff_forall_ne_some.mpr hno
          rw [List.lookup_eq_none_iff] at hnone
          have := hnone _ hm
          simp at this
        have h3 := h (e.1.toNat, z) ((mem_map_iff _ _).mpr hz)
        have h4 := h2 e he
        dsimp only at h3
        omega
      · intro h e he
        have := mem_of_lookup ((mem_map_iff _ _).mp he)
        obtain ⟨x, hx, e1⟩ := List.mem_map.mp this
        have h3 := h x hx
        have h4 := congrArg Prod.fst e1
        dsimp only at h4
        omega
    by_cases hf : Free t l
    · rw [if_pos (hkeys.mpr hf)]
      have hpos : ∀ e ∈ (l.map fun e => (e.1.toNat, e.2)).foldl emplace [], e.1 ≠ 0 := by
        intro e he
        have := mem_of_lookup ((mem_map_iff _ _).mp he)
        obtain ⟨x, hx, e1⟩ := List.mem_map.mp this
        have h3 := hf x hx
        have h4 := congrArg Prod.fst e1
        dsimp only at h4
        omega
      have hz : ∀ a, Assignment (polyTable t) a →
          ((∀ p ∈ ((l.map fun e => (e.1.toNat, e.2)).foldl emplace []).map fun e => Poly.rawOfValue (polyTable t) o e.1 e.2, Poly.value a p = 0) ↔
            ∀ i z, First l i z → a i = z) := by
        intro a ha
        constructor
        · intro h i z hi
          exact (C24.C24_raw_value _ o i z a ha).mp (h _ (List.mem_map.mpr ⟨(i, z), (mem_map_iff _ _).mpr hi, rfl⟩))
        · intro h p hp
          obtain ⟨e, he, rfl⟩ := List.mem_map.mp hp
          exact (C24.C24_raw_value _ o _ _ a ha).mpr (h _ _ ((mem_map_iff _ _).mp he))
      rcases built_spec ht ho hs (raw := ((l.map fun e => (e.1.toNat, e.2)).foldl emplace []).map fun e => Poly.rawOfValue (polyTable t) o e.1 e.2) (by
        intro p hp
        obtain ⟨e, he, rfl⟩ := List.mem_map.mp hp
        exact rawOfValue_canonical ho.injective (hpos e he) _) with ⟨g1, g2⟩ | ⟨b, g1, g2, g3, g4⟩
      · left
        refine ⟨g1, Or.inr fun a ha => ?_⟩
        have := g2 a ha
        rw [hz a ha] at this
        push Not at this
        exact this
      · right
        refine ⟨b, g1, hf, g2, g3, fun a => (g4 a).trans ?_⟩
        exact ⟨fun h => ⟨h.1, (hz a h.1).mp h.2⟩, fun h => ⟨h.1, (hz a h.1).mpr h.2⟩⟩
    · rw [if_neg fun h => hf (hkeys.mp h)]
      exact Or.inl ⟨rfl, Or.inl hf⟩
  · left
    refine ⟨?_, Or.inl fun hf => h2 fun e he => (hf e he).1⟩
    push Not at h2
    unfold fromPairs readPairs
    cases hv with
    | nothing he => obtain ⟨e, he, _⟩ := h2; simp at he
    | @cells c l hc =>
      have hne : ¬ empty (.cell c) = true := by
        cases hc with
        | nil => obtain ⟨e, he, _⟩ := h2; simp at he
        | cons => simp [empty]
      rw [if_neg hne]
      simp only [(each_pairs hc).1 h2, Out.bind]

/-- **C129, all values.** If no symbol is given two different values, the rulebook says that each symbol has the value that is given. Missing: different values for one
symbol, see `C129_refuted_twice`. -/
theorem C129_values_partial {int : Text → Option Int} {t : Table} (ht : (polyTable t).Good) {o : Poly.Order} (ho : o.Good) {sort : List (List Mono) → List (List Mono)}
    (hs : ∀ l, (sort l).Perm l) {v : Value} {l : List (Int × ℂ)} (hv : ListSays int v l) (hc : ∀ e ∈ l, ∀ f ∈ l, e.1 = f.1 → e.2 = f.2) :
    (fromPairs int t o sort v = .refused ∧ (¬ Free t l ∨ ∀ a, Assignment (polyTable t) a → ∃ e ∈ l, a e.1.toNat ≠ e.2)) ∨
    ∃ b, fromPairs int t o sort v = .ok b ∧ Free t l ∧ Book (polyTable t) o b ∧ (∃ a, Solves (polyTable t) b a) ∧
      ∀ a, Solves (polyTable t) b a ↔ Assignment (polyTable t) a ∧ ∀ e ∈ l, a e.1.toNat = e.2 := by
  have key : Free t l → ∀ i z, First l i z ↔ ∃ e ∈ l, e.1.toNat = i ∧ e.2 = z := by
    intro hf i z
    constructor
    · intro h
      obtain ⟨e, he, e1⟩ := List.mem_map.mp (mem_of_lookup h)
      exact ⟨e, he, congrArg Prod.fst e1, congrArg Prod.snd e1⟩
    · rintro ⟨e, he, rfl, rfl⟩
      cases hk : (l.map fun e => (e.1.toNat, e.2)).lookup e.1.toNat with
      | none =>
        rw [List.lookup_eq_none_iff] at hk
        have := hk _ (List.mem_map_of_mem (f := fun (e : Int × ℂ) => (e.1.toNat, e.2)) he)
        simp at this
      | some z =>
        obtain ⟨f, hf', e1⟩ := List.mem_map.mp (mem_of_lookup hk)
        have h1 := congrArg Prod.fst e1
        have h2 := congrArg Prod.snd e1
        dsimp only at h1 h2
        have h3 := hf e he
        have h4 := hf f hf'
        have h5 := hc f hf' e he (by omega)
        unfold First
        rw [hk, ← h2, h5]
  rcases C129_first ht ho hs hv with ⟨h1, h2⟩ | ⟨b, h1, h2, h3, h4, h5⟩
  · left
    refine ⟨h1, ?_⟩
    by_cases hf : Free t l
    · rcases h2 with h2 | h2
      · exact Or.inl h2
      · right
        intro a ha
        obtain ⟨i, z, hi, hne⟩ := h2 a ha
        obtain ⟨e, he, rfl, rfl⟩ := (key hf i z).mp hi
        exact ⟨e, he, hne⟩
    · exact Or.inl hf
  · right
    refine ⟨b, h1, h2, h3, h4, fun a => (h5 a).trans (and_congr_right fun _ => ?_)⟩
    constructor
    · intro h e he
      exact h _ _ ((key h2 _ _).mpr ⟨e, he, rfl, rfl⟩)
    · intro h i z hi
      obtain ⟨e, he, rfl, rfl⟩ := (key h2 i z).mp hi
      exact h e he

/-- **C129, only those.** What is accepted says values for symbols, if numbers of symbols are integers that fit in 32 bits. Missing: other numbers, see
`C129_refuted_wrap`. -/
theorem C129_only_partial {int : Text → Option Int} {t : Table} {o : Poly.Order} {sort : List (List Mono) → List (List Mono)} {v : Value}
    (hv : ∀ c, v = .cell c → ∀ i z, Value.cell [i, z] ∈ c → Plain i) {b : List MRule} (h : fromPairs int t o sort v = .ok b) : ∃ l, ListSays int v l := by
  obtain ⟨m, h1, -⟩ := bind_ok.mp h
  unfold readPairs at h1
  split at h1
  · exact ⟨[], .nothing (by assumption)⟩
  · rename_i hne
    cases v with
    | cell c =>
      obtain ⟨l, h2, -⟩ := bind_ok.mp h1
      rw [each_ok] at h2
      have hv' := hv c rfl
      suffices ∃ l, List.Forall₂ (PairSays int) c l by
        obtain ⟨l, hl⟩ := this
        exact ⟨l, .cells hl⟩
      clear h1 hv h hne
      induction h2 with
      | nil => exact ⟨[], .nil⟩
      | @cons a x c l h3 _ ih =>
        obtain ⟨l', hl'⟩ := ih fun i z hm => hv' i z (by simp [hm])
        unfold readPair at h3
        split at h3
        · rename_i i z
          obtain ⟨n, h4, h5⟩ := bind_ok.mp h3
          obtain ⟨w, h6, -⟩ := bind_ok.mp h5
          exact ⟨(n, w) :: l', .cons (.pair (symSays_of (hv' i z (by simp)) h4) (readComplex_iff.mp h6)) hl'⟩
        · cases h3
    | _ => cases h1

/-- **C129 refuted, two values.** The values zero and one for the same symbol are accepted, and the second is not looked at, although no assignment has both. -/
theorem C129_refuted_twice (int : Text → Option Int) {o : Poly.Order} (ho : o.Good) {sort : List (List Mono) → List (List Mono)} (hs : ∀ l, (sort l).Perm l) :
    ∃ v l b, ListSays int v l ∧ fromPairs int C74.table o sort v = .ok b ∧ (∀ a : Nat → ℂ, ¬ ∀ e ∈ l, a e.1.toNat = e.2) ∧
      ∀ a, Solves (polyTable C74.table) b a → a 2 = 0 := by
  have hv : ListSays int (.cell [.cell [.ints [2], .doubles [0]], .cell [.ints [2], .doubles [1]]]) [(2, ((0 : ℝ) : ℂ)), (2, ((1 : ℝ) : ℂ))] :=
    .cells (.cons (.pair (.int 2 (by norm_num) (by norm_num)) (.double 0)) (.cons (.pair (.int 2 (by norm_num) (by norm_num)) (.double 1)) .nil))
  have hlen : C74.table.syms.length = 4 := rfl
  have hno : ∀ a : Nat → ℂ, ¬ ∀ e ∈ [((2 : Int), ((0 : ℝ) : ℂ)), (2, ((1 : ℝ) : ℂ))], a e.1.toNat = e.2 := by
    intro a h
    have h1 := h _ (List.mem_cons_self)
    have h2 := h (2, ((1 : ℝ) : ℂ)) (by simp)
    dsimp only at h1 h2
    rw [h1] at h2
    simp at h2
  have hfirst : ∀ i z, First [((2 : Int), ((0 : ℝ) : ℂ)), (2, ((1 : ℝ) : ℂ))] i z → i = 2 ∧ z = 0 := by
    intro i z h
    unfold First at h
    by_cases hi : i = 2
    · subst hi
      simp [List.lookup] at h
      exact ⟨rfl, h.symm⟩
    · have : (i == 2) = false := by simpa using hi
      simp [List.lookup, this] at h
  rcases C129_first C74.table_good ho hs hv with ⟨-, h | h⟩ | ⟨b, h1, -, -, -, h5⟩
  · exfalso
    apply h
    intro e he
    simp only [List.mem_cons, List.not_mem_nil, or_false] at he
    rcases he with rfl | rfl <;> exact ⟨by norm_num, by rw [hlen]; norm_num⟩
  · exfalso
    obtain ⟨i, z, hi, hne⟩ := h _ (Poly.zero_assignment C74.table_good)
    obtain ⟨rfl, rfl⟩ := hfirst i z hi
    apply hne
    simp
  · refine ⟨_, _, b, hv, h1, hno, fun a ha => ?_⟩
    refine ((h5 a).mp ha).2 2 0 ?_
    simp [First, List.lookup]

theorem readPair_bmod {int : Text → Option Int} {x y : Int} {z : Value} (h : Int.bmod x 4294967296 = Int.bmod y 4294967296) :
    readPair int (.cell [.ints [x], z]) = readPair int (.cell [.ints [y], z]) := by
  simp only [readPair, readSymbol, one, Out.bind, h]

/-- **C129 refuted, wrapping.** In arrays of integers with 64 bits, the number `2^32 + n` means symbol `n`. -/
theorem C129_refuted_wrap (int : Text → Option Int) (t : Table) (o : Poly.Order) (sort : List (List Mono) → List (List Mono)) (n : Nat) (z : Value) :
    fromPairs int t o sort (.cell [.cell [.ints [4294967296 + (n : Int)], z]]) = fromPairs int t o sort (.cell [.cell [.ints [(n : Int)], z]]) := by
  have h2 : readPair int (.cell [.ints [4294967296 + (n : Int)], z]) = readPair int (.cell [.ints [(n : Int)], z]) :=
    readPair_bmod (by rw [show (4294967296 + (n : Int)) = (n : Int) + (4294967296 : Nat) by push_cast; ring]; exact Int.add_bmod_right _ _)
  unfold fromPairs readPairs
  simp only [empty, List.isEmpty_cons, Bool.false_eq_true, if_false, Out.each, h2]

/-! ## Polynomials in symbols -/

theorem bind_never {α β : Type} {x : Out α} {f : α → Out β} (hx : x ≠ .undefined) (hf : ∀ a, f a ≠ .undefined) : x.bind f ≠ .undefined := by
  cases x with
  | ok a => exact hf a
  | refused => simp [Out.bind]
  | undefined => exact absurd rfl hx

theorem each_never {α β : Type} {f : α → Out β} : ∀ {l : List α}, (∀ a ∈ l, f a ≠ .undefined) → Out.each f l ≠ .undefined
  | [], _ => by simp [Out.each]
  | a :: l, h => bind_never (h a (by simp)) fun _ => bind_never (each_never fun x hx => h x (by simp [hx])) (by simp)

theorem each_total {α β : Type} {f : α → Out β} : ∀ {l : List α}, (∀ a ∈ l, ∃ b, f a = .ok b) → ∃ m, Out.each f l = .ok m
  | [], _ => ⟨[], rfl⟩
  | a :: l, h => by
    obtain ⟨b, hb⟩ := h a (by simp)
    obtain ⟨m, hm⟩ := each_total (f := f) (l := l) fun x hx => h x (by simp [hx])
    exact ⟨b :: m, by simp only [Out.each, hb, hm, Out.bind]⟩

theorem each_map {α β : Type} {f : α → Out β} {g : α → β} : ∀ {l : List α}, (∀ a ∈ l, f a = .ok (g a)) → Out.each f l = .ok (l.map g)
  | [], _ => rfl
  | a :: l, h => by
    unfold Out.each
    rw [h a (by simp), each_map fun x hx => h x (by simp [hx])]
    rfl

/-- A list of polynomials. -/
inductive PolysSay (s : Streams) (round : ℚ → Option ℚ) : Value → List (List Mono) → Prop
  | nothing {v : Value} : empty v = true → PolysSay s round v []
  | cells {c : List Value} {l : List (List Mono)} : (∀ v ∈ c, Short v) → List.Forall₂ (Says s round) c l → PolysSay s round (.cell c) l

theorem each_terms {s : Streams} {D : Doubles} (hD : Standard D) {c : List Value} {l : List (List Mono)} (hc : ∀ v ∈ c, Short v)
    (h : List.Forall₂ (Says s D.round) c l) : Out.each (readTerms s D) c = .ok l := by
  rw [each_ok]
  induction h with
  | nil => exact .nil
  | @cons a b c l h1 _ ih => exact .cons (readTerms_says hD (hc a (by simp)) h1) (ih fun v hv => hc v (by simp [hv]))

theorem value_make {t : Poly.Table} {o : Poly.Order} {a : Nat → ℂ} (ha : Poly.Respects t a) (l : List Mono) : Poly.value a (Poly.make t o l) = sum a l :=
  (Poly.make_value ha o l).trans rfl

/-- **C129, polynomials.** If polynomials in symbols are given, the solutions of the rulebook are exactly the assignments where all of them are zero. It is refused
exactly if a symbol is not in the table, or there are no such assignments. -/
theorem C129_symbols {s : Streams} {D : Doubles} (hD : Standard D) {t : Table} (ht : (polyTable t).Good) {o : Poly.Order} (ho : o.Good)
    {sort : List (List Mono) → List (List Mono)} (hs : ∀ l, (sort l).Perm l) {v : Value} {l : List (List Mono)} (hv : PolysSay s D.round v l) :
    (fromSymbols s D t o sort v = .refused ∧ ((∃ p ∈ l, ∃ m ∈ p, t.syms.length ≤ m.id) ∨ ∀ a, Assignment (polyTable t) a → ∃ p ∈ l, sum a p ≠ 0)) ∨
    ∃ b, fromSymbols s D t o sort v = .ok b ∧ (∀ p ∈ l, ∀ m ∈ p, m.id < t.syms.length) ∧ Book (polyTable t) o b ∧ (∃ a, Solves (polyTable t) b a) ∧
      ∀ a, Solves (polyTable t) b a ↔ Assignment (polyTable t) a ∧ ∀ p ∈ l, sum a p = 0 := by
  have e : fromSymbols s D t o sort v = if ∀ p ∈ l, ∀ m ∈ p, m.id < t.syms.length then built (polyTable t) o sort (l.map (Poly.make (polyTable t) o)) else .refused := by
    have hpos : ∀ c, List.Forall₂ (Says s D.round) c l → (∀ v ∈ c, Short v) → ((Out.each (readTerms s D) c).bind fun l =>
        if ∀ p ∈ l, ∀ m ∈ p, m.id < t.syms.length then (Out.each (toPolynomial t o) l).bind (built (polyTable t) o sort) else .refused) =
        if ∀ p ∈ l, ∀ m ∈ p, m.id < t.syms.length then built (polyTable t) o sort (l.map (Poly.make (polyTable t) o)) else .refused := by
      intro c hc hsh
      rw [each_terms hD hsh hc]
      simp only [Out.bind]
      split
      · rename_i hk
        rw [each_map (f := toPolynomial t o) (g := Poly.make (polyTable t) o) fun p hp => if_pos (hk p hp)]
      · rfl
    unfold fromSymbols
    cases hv with
    | nothing he => rw [if_pos he, if_pos (by simp)]; rfl
    | @cells c l hsh hc =>
      by_cases he : empty (.cell c) = true
      · rw [if_pos he]
        cases hc with
        | nil => rw [if_pos (by simp)]; rfl
        | cons => simp [empty] at he
      · rw [if_neg he]
        exact hpos c hc hsh
  rw [e]
  by_cases hk : ∀ p ∈ l, ∀ m ∈ p, m.id < t.syms.length
  · rw [if_pos hk]
    have hz : ∀ a, Assignment (polyTable t) a → ((∀ p ∈ l.map (Poly.make (polyTable t) o), Poly.value a p = 0) ↔ ∀ p ∈ l, sum a p = 0) := by
      intro a ha
      simp only [List.mem_map, forall_exists_index, and_imp, forall_apply_eq_imp_iff₂, value_make ha.1]
    rcases built_spec ht ho hs (raw := l.map (Poly.make (polyTable t) o)) (by
      intro p hp
      obtain ⟨q, -, rfl⟩ := List.mem_map.mp hp
      exact Poly.make_canonical _ _ ho.injective _) with ⟨g1, g2⟩ | ⟨b, g1, g2, g3, g4⟩
    · left
      refine ⟨g1, Or.inr fun a ha => ?_⟩
      have := g2 a ha
      rw [hz a ha] at this
      push Not at this
      exact this
    · right
      exact ⟨b, g1, hk, g2, g3, fun a => (g4 a).trans ⟨fun h => ⟨h.1, (hz a h.1).mp h.2⟩, fun h => ⟨h.1, (hz a h.1).mpr h.2⟩⟩⟩
  · rw [if_neg hk]
    push Not at hk
    exact Or.inl ⟨rfl, Or.inl hk⟩

/-! ## Polynomials in words -/

/-- The sum that a polynomial in words is. -/
noncomputable def moments (L : HSeq → ℂ) (r : Raw) : ℂ := (r.map fun e => e.2 * L e.1).sum

/-- A polynomial in words. -/
inductive WordsSay : Value → List (List Nat × ℂ) → Prop
  | cell {x : List Value} {l : List (List Nat × ℂ)} : List.Forall₂ C126.ItemSays x l → WordsSay (.cell x) l

/-- **C129, words.** Cell arrays of polynomials in words are read as what they say, in the order they are given, and are refused exactly if the context does not have one of the
operators; empty arrays are no polynomials. -/
theorem C129_words {s : Streams} {num : Nat} {resolve : List Nat → HSeq} :
    (∀ v, empty v = true → readWords s num resolve v = .ok []) ∧
    ∀ (c : List Value) (l : List (List (List Nat × ℂ))), List.Forall₂ WordsSay c l → readWords s num resolve (.cell c) =
      if ∀ p ∈ l, ∀ e ∈ p, ∀ k ∈ e.1, k < num then .ok (l.map fun p => p.map fun e => (resolve e.1, e.2)) else .refused := by
  refine ⟨fun v hv => by unfold readWords; rw [if_pos hv], fun c l h => ?_⟩
  have e1 : Out.each (stage s) c = .ok l := by
    rw [each_ok]
    refine h.imp fun v p hp => ?_
    obtain ⟨hx⟩ := hp
    rw [stage, each_ok]
    refine hx.imp fun v m hm => ?_
    cases hm with
    | one hw =>
      rw [PolyInput.stageTerm, C126.readOps_says hw]
      rfl
    | two hw hf =>
      rw [PolyInput.stageTerm, C126.readOps_says hw, readComplex_iff.mpr hf]
      rfl
  have e2 : Out.each (supply num resolve) l = if ∀ p ∈ l, ∀ e ∈ p, ∀ k ∈ e.1, k < num then .ok (l.map fun p => p.map fun e => (resolve e.1, e.2)) else .refused := by
    split
    · rename_i hk
      exact each_map fun p hp => by rw [supply, if_pos (hk p hp)]
    · rename_i hk
      refine each_refused (fun p _ => by unfold supply; split <;> simp) ?_
      push Not at hk
      obtain ⟨p, hp, x, hx, k, hk, hn⟩ := hk
      exact ⟨p, hp, by rw [supply, if_neg fun g => absurd (g x hx k hk) (by omega)]⟩
  unfold readWords
  split
  · rename_i he
    simp only [empty, List.isEmpty_iff] at he
    subst he
    cases h
    simp
  · dsimp only
    rw [e1, Out.bind, e2]

example : List.Forall₂ WordsSay [.cell [.cell [.ints [1, 2], .doubles [3]], .cell [.ints []]]] [[([0, 1], ((3 : ℝ) : ℂ)), ([], 1)]] := by
  refine .cons ⟨.cons (.two (w := [0, 1]) (.ints (w := [0, 1]) ?_) (.double 3)) (.cons (.one (.ints (w := []) ?_)) .nil)⟩ .nil <;> simp

/-- **C129, nothing given.** An empty array of any kind gives the rulebook without rules. -/
theorem C129_empty {int : Text → Option Int} {s : Streams} {D : Doubles} {num : Nat} {resolve : List Nat → HSeq} {t : Table} {o : Poly.Order}
    {sort : List (List Mono) → List (List Mono)} (hs : ∀ l, (sort l).Perm l) {v : Value}
    (hv : v ∈ [Value.ints [], .bools [], .doubles [], .complexes [], .strings [], .cell []]) :
    fromPairs int t o sort v = .ok [] ∧ fromSymbols s D t o sort v = .ok [] ∧ readWords s num resolve v = .ok [] := by
  have he : sort [] = [] := (hs []).eq_nil
  have hb : built (polyTable t) o sort [] = .ok [] := by
    unfold built Poly.complete
    rw [he, Poly.completeLoop.eq_def]
  have h : empty v = true := by
    simp only [List.mem_cons, List.not_mem_nil, or_false] at hv
    rcases hv with rfl | rfl | rfl | rfl | rfl | rfl <;> rfl
  refine ⟨?_, ?_, ?_⟩
  · unfold fromPairs readPairs
    rw [if_pos h]
    simp only [Out.bind, List.map_nil]
    rw [if_pos (by simp)]
    exact hb
  · unfold fromSymbols
    rw [if_pos h]
    exact hb
  · unfold readWords
    rw [if_pos h]

example {int : Text → Option Int} (s : Streams) (D : Doubles) (t : Table) (o : Poly.Order) : fromPairs int t o id (.doubles []) = .ok [] :=
  (C129_empty (s := s) (D := D) (num := 0) (resolve := fun _ => HSeq.zero) (fun _ => .refl _) (by simp)).1

/-- **C129, known words.** If polynomials in words without signs are given, and no symbols may be added, the rulebook is solved by the moments of a state exactly if all
of the polynomials have the value zero in the state. It is refused exactly if a word has no symbol, or there is a contradiction. Missing: words with signs, see
`C126_refuted_sign`. -/
theorem C129_known_partial {h : Host} {W : HSeq → Prop} (hS : Setting h W) {t : Table} (hr : Ready h W t) (ht : (polyTable t).Good) {o : Poly.Order} (ho : o.Good)
    {sort : List (List Mono) → List (List Mono)} (hs : ∀ l, (sort l).Perm l) {l : List Raw} (hl : ∀ r ∈ l, Over W r) :
    (fromKnown h.env t o sort l = .refused ∧ ((∃ r ∈ l, ∃ e ∈ r, (t.lookup h.env e.1).1 = none) ∨
      ∀ L a, Moments h.env W L → SimpKeeps h W L → Agrees t L a → a 1 = 1 → ∃ r ∈ l, moments L r ≠ 0)) ∨
    ∃ b, fromKnown h.env t o sort l = .ok b ∧ (∀ r ∈ l, ∀ e ∈ r, (t.lookup h.env e.1).1.isSome) ∧ Book (polyTable t) o b ∧ (∃ a, Solves (polyTable t) b a) ∧
      ∀ L a, Moments h.env W L → SimpKeeps h W L → Agrees t L a → a 1 = 1 → (Solves (polyTable t) b a ↔ ∀ r ∈ l, moments L r = 0) := by
  by_cases hk : ∀ r ∈ l, ∀ e ∈ r, (t.lookup h.env e.1).1.isSome
  · have hf : ∃ ps, Out.each (found h.env t o) l = .ok ps ∧ List.Forall₂ (fun r p => found h.env t o r = .ok p) l ps := by
      clear hl
      induction l with
      | nil => exact ⟨[], rfl, .nil⟩
      | cons r l ih =>
        obtain ⟨ps, -, h2⟩ := ih fun x hx => hk x (by simp [hx])
        have : ∃ p, found h.env t o r = .ok p := by
          obtain ⟨m, hm⟩ := each_total (f := fun e => Out.ofOption ((t.lookup h.env e.1).1.map fun k => (⟨k.1, k.2, e.2⟩ : Mono))) (l := r) fun e he => by
            obtain ⟨k, hk'⟩ := Option.isSome_iff_exists.mp (hk r (by simp) e he)
            exact ⟨_, by rw [hk']; rfl⟩
          exact ⟨_, by unfold found; rw [hm]; rfl⟩
        obtain ⟨p, hp⟩ := this
        have hall : List.Forall₂ (fun r p => found h.env t o r = .ok p) (r :: l) (p :: ps) := .cons hp h2
        exact ⟨_, each_ok.mpr hall, hall⟩
    obtain ⟨ps, h1, h2⟩ := hf
    have e : fromKnown h.env t o sort l = built (polyTable t) o sort ps := by
      unfold fromKnown
      rw [h1]
      rfl
    have hcan : ∀ p ∈ ps, Canonical (polyTable t) o p := by
      intro p hp
      clear hk h1 e
      induction h2 with
      | nil => simp at hp
      | @cons r q l ps h3 _ ih =>
        rcases List.mem_cons.mp hp with rfl | hp
        · exact ((C126.C126_found_partial hS hr ho.injective (hl r (by simp))).2 _ h3).1
        · exact ih (fun x hx => hl x (by simp [hx])) hp
    have hz : ∀ L a, Moments h.env W L → SimpKeeps h W L → Agrees t L a → ((∀ p ∈ ps, Poly.value a p = 0) ↔ ∀ r ∈ l, moments L r = 0) := by
      intro L a hL hK hA
      clear hk h1 e hcan
      induction h2 with
      | nil => simp
      | @cons r q l ps h3 _ ih =>
        have := ((C126.C126_found_partial hS hr ho.injective (hl r (by simp))).2 _ h3).2 L a hL hK hA
        rw [List.forall_mem_cons, List.forall_mem_cons, ih fun x hx => hl x (by simp [hx]), this]
        rfl
    rw [e]
    rcases built_spec ht ho hs hcan with ⟨g1, g2⟩ | ⟨b, g1, g2, g3, g4⟩
    · left
      refine ⟨g1, Or.inr fun L a hL hK hA h1 => ?_⟩
      have := g2 a ⟨hA.flags, h1⟩
      rw [hz L a hL hK hA] at this
      push Not at this
      exact this
    · right
      refine ⟨b, g1, hk, g2, g3, fun L a hL hK hA h1 => ?_⟩
      rw [g4 a, hz L a hL hK hA]
      exact ⟨fun h => h.2, fun h => ⟨⟨hA.flags, h1⟩, h⟩⟩
  · left
    push Not at hk
    obtain ⟨r, hr', e, he, hn⟩ := hk
    have hn' : (t.lookup h.env e.1).1 = none := by simpa using hn
    refine ⟨?_, Or.inl ⟨r, hr', e, he, hn'⟩⟩
    have hof : ∀ e : HSeq × ℂ, Out.ofOption ((t.lookup h.env e.1).1.map fun k => (⟨k.1, k.2, e.2⟩ : Mono)) ≠ .undefined := by
      intro e
      cases (t.lookup h.env e.1).1 <;> simp [Out.ofOption]
    have hfound : ∀ q ∈ l, found h.env t o q ≠ .undefined := fun q _ => bind_never (each_never fun e _ => hof e) (by simp)
    have hno : found h.env t o r = .refused := by
      unfold found
      rw [each_refused (fun e _ => hof e) ⟨e, he, by rw [hn']; rfl⟩]
      rfl
    unfold fromKnown
    rw [each_refused hfound ⟨r, hr', hno⟩]
    rfl

theorem heads_of_sound {t : Table} (h : Sound t) : Heads t.syms := by
  obtain ⟨s0, h0, a, b⟩ := h.zero
  obtain ⟨s1, h1, c⟩ := h.one
  match hs : t.syms with
  | [] => rw [hs] at h0; simp at h0
  | [_] => rw [hs] at h1; simp at h1
  | x0 :: x1 :: r =>
    rw [hs] at h0 h1
    simp only [List.getElem?_cons_zero, Option.some.injEq] at h0
    simp only [List.getElem?_cons_succ, List.getElem?_cons_zero, Option.some.injEq] at h1
    subst h0 h1
    have hid : ∀ (i : Nat) (s : Symbols.Sym), t.syms[i]? = some s → s.id = i := fun i s hi => Symbols.getElem?_id h.offsets hi
    refine ⟨x0, x1, r, rfl, hid 0 x0 (by rw [hs]; rfl), a, b, c, fun s hm => ?_⟩
    obtain ⟨i, hi⟩ := List.mem_iff_getElem?.mp hm
    have h2 : t.syms[i + 1]? = some s := by rw [hs]; exact hi
    have h3 := hid _ _ h2
    have h4 : s.id ≠ 0 := by omega
    exact ⟨h4, h.notBoth s (List.mem_of_getElem? h2) h4⟩

theorem good_of_heads {t : Table} (h : Heads t.syms) : (polyTable t).Good := by
  obtain ⟨s0, s1, r, e, -, a, b, c, d⟩ := h
  refine ⟨by simp [polyTable, e, a], by simp [polyTable, e, b], by simp [polyTable, e, c], fun i hi => ?_⟩
  simp only [polyTable]
  cases he : t.syms[i]? with
  | none => simp
  | some s =>
    simp only [Option.any_some]
    obtain ⟨j, rfl⟩ := Nat.exists_eq_succ_of_ne_zero hi
    rw [e, List.getElem?_cons_succ] at he
    exact (d s (List.mem_of_getElem? he)).2

theorem heads_register {c : Env} : ∀ {r : Raw} {t : Table}, Heads t.syms → ∀ {x}, registerTerms c t r = some x → Heads x.1.syms
  | [], t, h, x, hx => by
    simp only [registerTerms, Option.some.injEq] at hx
    subst hx
    exact h
  | e :: r, t, h, x, hx => by
    unfold registerTerms at hx
    split at hx
    · obtain ⟨y, h1, rfl⟩ := Option.map_eq_some_iff.mp hx
      have := heads_register h h1
      exact this
    · obtain ⟨m, h1, h2⟩ := Option.bind_eq_some_iff.mp hx
      obtain ⟨y, h3, rfl⟩ := Option.map_eq_some_iff.mp h2
      unfold Table.mergeSeq at h1
      have := heads_register (Symbols.heads_mergeSym h (Symbols.ofPair_notBoth _ _) h1) h3
      exact this

theorem registerAll_spec {h : Host} {W : HSeq → Prop} (hS : Setting h W) : ∀ {l : List Raw} {t : Table}, Ready h W t → Heads t.syms → (∀ r ∈ l, Over W r) →
    (h.env.aliases = true → ∀ r ∈ l, ∀ e ∈ r, W (h.env.simp e.1)) →
    ∃ t' ps, registerAll h.env t l = some (t', ps) ∧ Ready h W t' ∧ Heads t'.syms ∧ t.syms <+: t'.syms ∧
      ∀ L a, Moments h.env W L → SimpKeeps h W L → Agrees t' L a → List.Forall₂ (fun r p => Poly.value a p = moments L r) l ps
  | [], t, ht, hh, _, _ => ⟨t, [], rfl, ht, hh, List.prefix_rfl, fun _ _ _ _ _ => .nil⟩
  | r :: l, t, ht, hh, hl, hal => by
    obtain ⟨t1, p, h1, h2, h3, h4⟩ := registerTerms_spec hS ht (hl r (by simp)) fun ha => hal ha r (by simp)
    have hh1 : Heads t1.syms := heads_register hh h1
    obtain ⟨t', ps, g1, g2, g3, g4, g5⟩ := registerAll_spec hS (l := l) h2 hh1 (fun x hx => hl x (by simp [hx])) fun ha x hx => hal ha x (by simp [hx])
    refine ⟨t', p :: ps, ?_, g2, g3, h3.trans g4, fun L a hL hK hA => .cons ?_ (g5 L a hL hK hA)⟩
    · unfold registerAll
      rw [h1]
      simp only [Option.bind_some, g1, Option.map_some]
    · exact (h4 L a hL hK (SymbolMatrix.agrees_mono g4 hA)).trans rfl

/-- **C129, new words.** With new symbols for words that have none, the rulebook is made for the extended table, where it is solved by the moments of a state exactly if
all of the polynomials have the value zero in the state. Missing: words with signs, see `C126_refuted_sign`. -/
theorem C129_new_partial {h : Host} {W : HSeq → Prop} (hS : Setting h W) {t : Table} (hr : Ready h W t) (ht : Sound t) {o : Poly.Order} (ho : o.Good)
    {sort : List (List Mono) → List (List Mono)} (hs : ∀ l, (sort l).Perm l) {l : List Raw} (hl : ∀ r ∈ l, Over W r)
    (hal : h.env.aliases = true → ∀ r ∈ l, ∀ e ∈ r, W (h.env.simp e.1)) :
    ∃ t' out, fromNew h.env t o sort l = some (t', out) ∧ Ready h W t' ∧ t.syms <+: t'.syms ∧
      ((out = .refused ∧ ∀ L a, Moments h.env W L → SimpKeeps h W L → Agrees t' L a → a 1 = 1 → ∃ r ∈ l, moments L r ≠ 0) ∨
       ∃ b, out = .ok b ∧ Book (polyTable t') o b ∧ (∃ a, Solves (polyTable t') b a) ∧
        ∀ L a, Moments h.env W L → SimpKeeps h W L → Agrees t' L a → a 1 = 1 → (Solves (polyTable t') b a ↔ ∀ r ∈ l, moments L r = 0)) := by
  obtain ⟨t', ps, h1, h2, h3, h4, h5⟩ := registerAll_spec hS hr (heads_of_sound ht) hl hal
  refine ⟨t', _, by unfold fromNew; rw [h1]; rfl, h2, h4, ?_⟩
  have hz : ∀ L a, Moments h.env W L → SimpKeeps h W L → Agrees t' L a →
      ((∀ p ∈ ps.map (Poly.make (polyTable t') o), Poly.value a p = 0) ↔ ∀ r ∈ l, moments L r = 0) := by
    intro L a hL hK hA
    have := h5 L a hL hK hA
    simp only [List.mem_map, forall_exists_index, and_imp, forall_apply_eq_imp_iff₂, Poly.make_value hA.flags]
    clear h1 h5 hl hal
    induction this with
    | nil => simp
    | @cons r p l ps h6 _ ih => exact List.forall_mem_cons.trans ((and_congr (by rw [h6]) ih).trans List.forall_mem_cons.symm)
  rcases built_spec (good_of_heads h3) ho hs (raw := ps.map (Poly.make (polyTable t') o)) (by
    intro p hp
    obtain ⟨q, -, rfl⟩ := List.mem_map.mp hp
    exact Poly.make_canonical _ _ ho.injective _) with ⟨g1, g2⟩ | ⟨b, g1, g2, g3, g4⟩
  · left
    refine ⟨g1, fun L a hL hK hA h1 => ?_⟩
    have := g2 a ⟨hA.flags, h1⟩
    rw [hz L a hL hK hA] at this
    push Not at this
    exact this
  · right
    refine ⟨b, g1, g2, g3, fun L a hL hK hA h1 => ?_⟩
    rw [g4 a, hz L a hL hK hA]
    exact ⟨fun h => h.2, fun h => ⟨⟨hA.flags, h1⟩, h⟩⟩

/-! ## Application -/

/-- **C129, application.** Polynomials to which the rules of a book are applied keep their values for all solutions, and two of them become the same exactly if they agree
for all solutions. It is refused exactly if a symbol is not in the table. -/
theorem C129_apply {s : Streams} {D : Doubles} (hD : Standard D) {t : Table} (ht : (polyTable t).Good) {o : Poly.Order} (ho : o.Good) {b : List MRule}
    (hb : Book (polyTable t) o b) {c : List Value} {l : List (List Mono)} (hc : ∀ v ∈ c, Short v) (hv : List.Forall₂ (Says s D.round) c l) :
    ((∃ p ∈ l, ∃ m ∈ p, t.syms.length ≤ m.id) → applyRules s D t o b (.cell c) = .refused) ∧
    ((∀ p ∈ l, ∀ m ∈ p, m.id < t.syms.length) → ∃ ps, applyRules s D t o b (.cell c) = .ok (.cell (ps.map exportPolynomial)) ∧
      List.Forall₂ (fun q p => Canonical (polyTable t) o p ∧ ∀ a, Solves (polyTable t) b a → Poly.value a p = sum a q) l ps ∧
      ∀ (i j : Nat) (q q' p p' : List Mono), l[i]? = some q → l[j]? = some q' → ps[i]? = some p → ps[j]? = some p' →
        (p = p' ↔ ∀ a, Solves (polyTable t) b a → sum a q = sum a q')) := by
  unfold applyRules
  dsimp only
  rw [each_terms hD hc hv]
  simp only [Out.bind]
  constructor
  · rintro ⟨p, hp, m, hm, hlt⟩
    rw [each_refused (fun q _ => ?_) ⟨p, hp, if_neg fun h => absurd (h m hm) (not_lt.mpr hlt)⟩]
    unfold toPolynomial
    split <;> simp
  · intro hk
    rw [each_map (f := toPolynomial t o) (g := Poly.make (polyTable t) o) fun p hp => if_pos (hk p hp)]
    refine ⟨l.map fun q => Poly.reduceBook (polyTable t) o b (Poly.make (polyTable t) o q), by simp [Function.comp_def], ?_, ?_⟩
    · rw [List.forall₂_map_right_iff, List.forall₂_same]
      intro q _
      exact ⟨(C57.C57_idempotent _ ht o ho b hb _ (Poly.make_canonical _ _ ho.injective _)).2, fun a ha => by
        rw [C57.C57_value _ o b _ a ha, value_make ha.1.1]⟩
    · intro i j q q' p p' h1 h2 h3 h4
      rw [List.getElem?_map, h1, Option.map_some, Option.some.injEq] at h3
      rw [List.getElem?_map, h2, Option.map_some, Option.some.injEq] at h4
      subst h3 h4
      rw [C57.C57_normal_form _ ht o ho b hb _ _ (Poly.make_canonical _ _ ho.injective _) (Poly.make_canonical _ _ ho.injective _)]
      exact forall_congr' fun a => imp_congr_right fun ha => by rw [value_make ha.1.1, value_make ha.1.1]

/-! ## Examples -/

/-- Values one half and i for two symbols. -/
example (int : Text → Option Int) : ∃ v l, ListSays int v l ∧ l.length = 2 ∧ Free C74.table l ∧ (∀ e ∈ l, ∀ f ∈ l, e.1 = f.1 → e.2 = f.2) ∧
    (polyTable C74.table).Good ∧ Poly.byId.Good ∧ ∀ c, v = .cell c → ∀ i z, Value.cell [i, z] ∈ c → Plain i := by
  refine ⟨.cell [.cell [.ints [2], .doubles [1 / 2]], .cell [.ints [3], .complexes [Complex.I]]], [(2, ((1 / 2 : ℝ) : ℂ)), (3, Complex.I)],
    .cells (.cons (.pair (.int 2 (by norm_num) (by norm_num)) (.double _)) (.cons (.pair (.int 3 (by norm_num) (by norm_num)) (.complex _)) .nil)),
    rfl, ?_, ?_, C74.table_good, C74.byId_good, ?_⟩
  · have hlen : C74.table.syms.length = 4 := rfl
    intro e he
    simp only [List.mem_cons, List.not_mem_nil, or_false] at he
    rcases he with rfl | rfl <;> exact ⟨by norm_num, by rw [hlen]; norm_num⟩
  · intro e he f hf
    simp only [List.mem_cons, List.not_mem_nil, or_false] at he hf
    rcases he with rfl | rfl <;> rcases hf with rfl | rfl <;> simp
  · intro c hc i z hm
    cases hc
    simp only [List.mem_cons, Value.cell.injEq, List.cons.injEq, List.not_mem_nil, or_false] at hm
    rcases hm with ⟨rfl, -⟩ | ⟨rfl, -⟩ <;> simp [Plain]

/-- The polynomial `#2 - 2 #3`. -/
example (s : Streams) : ∃ v l, PolysSay s some v l ∧ l ≠ [] ∧ ∀ p ∈ l, ∀ m ∈ p, m.id < C74.table.syms.length := by
  refine ⟨.cell [.cell [.cell [.ints [2]], .cell [.ints [3], .doubles [-2]]]], [[⟨2, false, 1⟩, ⟨3, false, ((-2 : ℝ) : ℂ)⟩]],
    .cells (by simp [Short]) (.cons (.cells (.cons (.one (.int 2)) (.cons (.two (.int 3) (.double _)) .nil))) .nil), by simp, ?_⟩
  have hlen : C74.table.syms.length = 4 := rfl
  rw [hlen]
  simp

end Moment.C129
