import Verif.Model.BinaryOp
import Verif.Props.C71_RawPoly

/-! # C133: sums, products, commutators and anticommutators of arrays of polynomials -/

namespace Moment.C133
open Moment.BinaryOp
open Moment.RuleInput (Out)
open Moment.RawPoly
open Moment.Symbols (Table Sym)
open Moment.MonoExport (Row row)

variable {A : Type} [Ring A] [Algebra ℂ A]

/-! ## Specification -/

/-- What the operations are. -/
def meaning : Operation → A → A → A
  | .plus, a, b => a + b
  | .times, a, b => a * b
  | .commutator, a, b => a * b - b * a
  | .anticommutator, a, b => a * b + b * a

/-- What a list of rows says: each row is its coefficient times its word. -/
def said (ρ : HSeq → A) (e : List Row) : A := (e.map fun r => r.coefficient • ρ ⟨r.hash, r.ops.map (· - 1), .pos⟩).sum

/-- The shape of a result, and the rows of its entries. -/
def entries : Result → Option (List Nat × List (List Row))
  | .monomials s r => some (s, r.map fun x => [x])
  | .polynomials s r => some (s, r)
  | _ => none

/-- Arrays have as many entries as their shape says. -/
def Sized : Operand → Prop
  | .many s l => l.length = s.prod
  | _ => True

/-- All polynomials of the operand satisfy `P`. -/
def All (P : Raw → Prop) : Operand → Prop
  | .many _ l => ∀ p ∈ l, P p
  | .one p => P p
  | _ => True

/-- A single polynomial is the same at every place. -/
def at? : Operand → Nat → Option Raw
  | .many _ l, i => l[i]?
  | .one p, _ => some p
  | _, _ => none

/-- The shape of the result for two operands that are polynomials or arrays of polynomials of the same shape. -/
def dims : Operand → Operand → Option (List Nat)
  | .one _, .one _ => some [1, 1]
  | .one _, .many s _ => some s
  | .many s _, .one _ => some s
  | .many s _, .many s' _ => if s = s' then some s else none
  | _, _ => none

/-- Which operands can be combined. -/
inductive Possible : Operation → Operand → Operand → Prop
  | polys {op x y s} (h : dims x y = some s) : Possible op x y
  | left {op i p} (h : op = .plus ∨ op = .times) : Possible op (.matrix i) (.one p)
  | right {op i p} (h : op = .plus ∨ op = .times) : Possible op (.one p) (.matrix i)
  | both {i j} : Possible .plus (.matrix i) (.matrix j)

/-- The rows of an entry: one row of factor zero for zero, otherwise ascending hashes, no word that is zero, no factor that is zero. -/
def Tidy (e : List Row) : Prop :=
  e = [⟨[], 0, 0⟩] ∨ (e.Pairwise (fun a b => a.hash < b.hash) ∧ ∀ r ∈ e, r.hash ≠ 0 ∧ r.coefficient ≠ 0)

/-- Symbol zero is the word that is zero, as in every table (symbol_table.cpp:22-35). -/
def ZeroFirst (t : Table) : Prop := ∃ s, t.syms[0]? = some s ∧ s.seq = some HSeq.zero

/-! ## Steps -/

theorem total_many (f : Raw → Raw → Raw) : ∀ (l l' : List Raw), l.length = l'.length →
    manyToMany f l l' = .ok (List.zipWith f l l')
  | [], _, _ => by simp [manyToMany]
  | _ :: _, [], h => by simp at h
  | p :: l, q :: l', h => by
    rw [manyToMany, total_many f l l' (by simpa using h)]
    rfl

theorem calculated (c : BinaryOp.Ctx) (t : Table) (op : Operation) {x y : Operand} (hx : Sized x) (hy : Sized y) {s : List Nat} (h : dims x y = some s) :
    ∃ l, run c t op x y = exported t l s ∧ l.length = s.prod ∧
      ∀ i < s.prod, ∃ p q, at? x i = some p ∧ at? y i = some q ∧ l[i]? = some (oneToOne c op p q) := by
  cases x with
  | unknown => simp [dims] at h
  | empty => simp [dims] at h
  | matrix i => simp [dims] at h
  | one p =>
    cases y with
    | unknown => simp [dims] at h
    | empty => simp [dims] at h
    | matrix i => simp [dims] at h
    | one q =>
      simp only [dims, Option.some.injEq] at h
      subst h
      refine ⟨[oneToOne c op p q], by cases op <;> rfl, by simp, fun i hi => ⟨p, q, rfl, rfl, ?_⟩⟩
      have : i = 0 := by simpa using hi
      subst this
      rfl
    | many s' l =>
      simp only [dims, Option.some.injEq] at h
      subst h
      simp only [Sized] at hy
      refine ⟨l.map fun q => oneToOne c op p q, by cases op <;> rfl, by simpa using hy, fun i hi => ?_⟩
      rw [← hy] at hi
      exact ⟨p, l[i], rfl, by simp [at?, hi], by simp [hi]⟩
  | many s₁ l =>
    cases y with
    | unknown => simp [dims] at h
    | empty => simp [dims] at h
    | matrix i => simp [dims] at h
    | one q =>
      simp only [dims, Option.some.injEq] at h
      subst h
      simp only [Sized] at hx
      refine ⟨l.map fun p => oneToOne c op p q, by cases op <;> rfl, by simpa using hx, fun i hi => ?_⟩
      rw [← hx] at hi
      exact ⟨l[i], q, by simp [at?, hi], rfl, by simp [hi]⟩
    | many s₂ l' =>
      simp only [dims] at h
      split at h
      · rename_i e
        subst e
        simp only [Option.some.injEq] at h
        subst h
        simp only [Sized] at hx hy
        refine ⟨List.zipWith (oneToOne c op) l l', ?_, by simp [hx, hy], fun i hi => ?_⟩
        · have hk : kind (.many s₁ l) (.many s₁ l') = .manyMany := by simp [kind]
          have hp : permitted op .manyMany = true := by cases op <;> rfl
          unfold run
          rw [hk, if_pos hp]
          simp only [calculate, Operand.polys, Operand.shape, Out.bind, total_many _ l l' (hx.trans hy.symm)]
        · have h1 : i < l.length := hx ▸ hi
          have h2 : i < l'.length := hy ▸ hi
          exact ⟨l[i], l'[i], by simp [at?, h1], by simp [at?, h2], by simp [h1, h2]⟩
      · simp at h

theorem each_rows {t : Table} (ht : ZeroFirst t) : ∀ l : List Raw, (∀ p ∈ l, ∀ e ∈ p, e.1.sign = .pos) →
    Out.each (monomialRow t) l = .ok (l.map fun p => match p with
      | [] => ⟨[], 0, 0⟩
      | e :: _ => row e.1 e.2)
  | [], _ => rfl
  | p :: l, h => by
    have ih := each_rows ht l fun p hp => h p (by simp [hp])
    unfold Out.each
    rw [ih]
    cases p with
    | nil =>
      obtain ⟨s, h1, h2⟩ := ht
      simp [monomialRow, MonoExport.partialMono, h1, MonoExport.wordOf, h2, Out.bind, row, HSeq.zero]
    | cons e p =>
      have hs : e.1.sign = .pos := h (e :: p) (by simp) e (by simp)
      have h1 : MonoExport.partialWord e.1 e.2 = row e.1 e.2 := by
        rw [MonoExport.partialWord, hs]
        simp [SymbolMatrix.scalar]
      simp only [monomialRow, h1, Out.bind, List.map_cons]

theorem said_rows (ρ : HSeq → A) {p : Raw} (h : ∀ e ∈ p, e.1.sign = .pos) : said ρ (p.map fun e => row e.1 e.2) = total ρ p := by
  unfold said total
  rw [List.map_map]
  refine congrArg List.sum (List.map_congr_left fun e he => ?_)
  have hs := h e he
  obtain ⟨⟨hash, ops, sign⟩, f⟩ := e
  simp only at hs
  subst hs
  simp [row, Function.comp_def]

theorem tidy_rows {p : Raw} (h : Condensed p) : Tidy (p.map fun e => row e.1 e.2) := by
  refine .inr ⟨?_, ?_⟩
  · rw [List.pairwise_map]
    exact h.sorted
  · intro r hr
    obtain ⟨e, he, rfl⟩ := List.mem_map.mp hr
    exact ⟨h.words e he, h.weights e he⟩

theorem exported_spec {t : Table} (ht : ZeroFirst t) {l : List Raw} (s : List Nat) (h : ∀ p ∈ l, Condensed p ∧ ∀ e ∈ p, e.1.sign = .pos) :
    ∃ r E, exported t l s = .ok r ∧ entries r = some (s, E) ∧ E.length = l.length ∧
      ((∃ R, r = .monomials s R) ↔ ∀ p ∈ l, p.length ≤ 1) ∧
      ∀ (i : Nat) (p : Raw), l[i]? = some p → ∃ e, E[i]? = some e ∧ Tidy e ∧ ∀ ρ : HSeq → A, said ρ e = total ρ p := by
  unfold exported
  by_cases hl : l.all fun p => p.length ≤ 1
  · rw [if_pos hl, each_rows ht l fun p hp => (h p hp).2]
    have hl' : ∀ p ∈ l, p.length ≤ 1 := by simpa using hl
    refine ⟨_, _, rfl, rfl, by simp, by simpa using hl', fun i p hp => ?_⟩
    have hm := List.mem_of_getElem? hp
    have h1 := hl' p hm
    match p, hp, hm, h1 with
    | [], hp, hm, _ => exact ⟨[⟨[], 0, 0⟩], by simp [hp], .inl rfl, fun ρ => by simp [said, total]⟩
    | [e], hp, hm, _ =>
      exact ⟨[row e.1 e.2], by simp [hp], tidy_rows (h _ hm).1, fun ρ => said_rows ρ (h _ hm).2⟩
  · rw [if_neg hl]
    have hl' : ¬∀ p ∈ l, p.length ≤ 1 := by simpa using hl
    refine ⟨_, _, rfl, rfl, by simp, by simpa using hl', fun i p hp => ?_⟩
    have hm := List.mem_of_getElem? hp
    exact ⟨rows p, by simp [hp], tidy_rows (h _ hm).1, fun ρ => said_rows ρ (h _ hm).2⟩

theorem result_ok (c : BinaryOp.Ctx) (op : Operation) {p q : Raw} (hp : ∀ e ∈ p, e.1.sign = .pos) (hq : ∀ e ∈ q, e.1.sign = .pos) :
    Condensed (oneToOne c op p q) ∧ ∀ e ∈ oneToOne c op p q, e.1.sign = .pos := by
  have key : ∀ r : Raw, (∀ e ∈ r, e.1.sign = .pos) → Condensed (condense r) ∧ ∀ e ∈ condense r, e.1.sign = .pos := fun r hr =>
    ⟨condense_condensed r, fun e he => (condense_over (W := fun _ => True) (fun e he => ⟨trivial, hr e he⟩) e he).2⟩
  have prod : ∀ (f : HSeq → HSeq → HSeq) (w : ℂ → ℂ → ℂ) (p q : Raw), Condensed (product f w p q) ∧ ∀ e ∈ product f w p q, e.1.sign = .pos :=
    fun f w p q => ⟨condense_condensed _, fun e he =>
      (condense_over (W := fun _ => True) (product_over (fun _ _ => trivial) fun _ _ _ _ => trivial) e he).2⟩
  have sum : ∀ p q : Raw, (∀ e ∈ p, e.1.sign = .pos) → (∀ e ∈ q, e.1.sign = .pos) →
      Condensed (add p q) ∧ ∀ e ∈ add p q, e.1.sign = .pos := fun p q hp hq =>
    key _ fun e he => (List.mem_append.mp he).elim (hp e) (hq e)
  have diff : ∀ p q : Raw, (∀ e ∈ p, e.1.sign = .pos) → (∀ e ∈ q, e.1.sign = .pos) →
      Condensed (subtract p q) ∧ ∀ e ∈ subtract p q, e.1.sign = .pos := fun p q hp hq =>
    key _ fun e he => by
      rcases List.mem_append.mp he with he | he
      · exact hp e he
      · obtain ⟨x, hx, rfl⟩ := List.mem_map.mp he
        exact hq x hx
  cases op with
  | plus => exact sum p q hp hq
  | times => exact prod _ _ p q
  | commutator =>
    simp only [oneToOne]
    cases c.pauli with
    | none => exact diff _ _ (prod _ _ p q).2 (prod _ _ q p).2
    | some n => exact prod _ _ p q
  | anticommutator =>
    simp only [oneToOne]
    cases c.pauli with
    | none => exact sum _ _ (prod _ _ p q).2 (prod _ _ q p).2
    | some n => exact prod _ _ p q

theorem all_at {P : Raw → Prop} {x : Operand} (h : All P x) {i : Nat} {p : Raw} (hp : at? x i = some p) : P p := by
  cases x with
  | many s l => exact h p (List.mem_of_getElem? hp)
  | one q =>
    simp only [at?, Option.some.injEq] at hp
    subst hp
    exact h
  | _ => simp [at?] at hp

/-! ## Theorems -/

/-- Whatever one step of the operation stands for, the operation on arrays gives the shape of the arrays, and each entry says what the step gives for the entries at
the same place. -/
theorem entrywise {c : BinaryOp.Ctx} {t : Table} (ht : ZeroFirst t) (op : Operation) {x y : Operand} (hx : Sized x) (hy : Sized y) {P : Raw → Prop}
    (hP : ∀ p, P p → ∀ e ∈ p, e.1.sign = .pos) (ax : All P x) (ay : All P y) {s : List Nat} (h : dims x y = some s) {ρ : HSeq → A}
    (step : ∀ i p q, at? x i = some p → at? y i = some q → P p → P q → total ρ (oneToOne c op p q) = meaning op (total ρ p) (total ρ q)) :
    ∃ r E, run c t op x y = .ok r ∧ entries r = some (s, E) ∧ E.length = s.prod ∧
      ∀ i < s.prod, ∃ p q e, at? x i = some p ∧ at? y i = some q ∧ E[i]? = some e ∧ Tidy e ∧ said ρ e = meaning op (total ρ p) (total ρ q) := by
  obtain ⟨l, h1, h2, h3⟩ := calculated c t op hx hy h
  have hl : ∀ r ∈ l, Condensed r ∧ ∀ e ∈ r, e.1.sign = .pos := by
    intro r hr
    obtain ⟨i, hi, rfl⟩ := List.mem_iff_getElem.mp hr
    obtain ⟨p, q, ep, eq, e⟩ := h3 i (h2 ▸ hi)
    rw [List.getElem?_eq_getElem hi, Option.some.injEq] at e
    rw [e]
    exact result_ok c op (hP p (all_at ax ep)) (hP q (all_at ay eq))
  obtain ⟨r, E, e1, e2, e3, -, e4⟩ := exported_spec (A := A) ht s hl
  refine ⟨r, E, h1.trans e1, e2, e3.trans h2, fun i hi => ?_⟩
  obtain ⟨p, q, ep, eq, e⟩ := h3 i hi
  obtain ⟨o, o1, o2, o3⟩ := e4 i _ e
  exact ⟨p, q, o, ep, eq, o1, o2, (o3 ρ).trans (step i p q ep eq (all_at ax ep) (all_at ay eq))⟩

/-- Sums, products, commutators and anticommutators outside Pauli scenarios. -/
theorem C133_entries {c : BinaryOp.Ctx} (hc : c.pauli = none) {t : Table} (ht : ZeroFirst t) (op : Operation) {W : HSeq → Prop}
    (hs : ∀ w, W w → W { w with sign := .pos }) {ρ : HSeq → A} (hρ : Stands W ρ)
    {x y : Operand} (hx : Sized x) (hy : Sized y) (ax : All (Over W) x) (ay : All (Over W) y) {s : List Nat} (h : dims x y = some s)
    (hm : op ≠ .plus → ∀ i p q, at? x i = some p → at? y i = some q → ∀ a ∈ p, ∀ b ∈ q,
      (W (c.mul a.1 b.1) ∧ ρ (c.mul a.1 b.1) = ρ a.1 * ρ b.1) ∧ (op ≠ .times → W (c.mul b.1 a.1) ∧ ρ (c.mul b.1 a.1) = ρ b.1 * ρ a.1)) :
    ∃ r E, run c t op x y = .ok r ∧ entries r = some (s, E) ∧ E.length = s.prod ∧
      ∀ i < s.prod, ∃ p q e, at? x i = some p ∧ at? y i = some q ∧ E[i]? = some e ∧ Tidy e ∧ said ρ e = meaning op (total ρ p) (total ρ q) := by
  refine entrywise ht op hx hy (P := Over W) (fun p hp e he => (hp e he).2) ax ay h fun i p q ep eq hp hq => ?_
  have h1 := fun (ho : op ≠ .plus) a ha b hb => (hm ho i p q ep eq a ha b hb).1
  have h2 := fun (ho : op ≠ .plus) (ho' : op ≠ .times) b hb a ha => (hm ho i p q ep eq a ha b hb).2 ho'
  cases op with
  | plus => exact (C71.C71_add hρ hp hq).1
  | times => exact (C71.C71_multiply hs hρ (h1 (by simp))).1
  | commutator =>
    simp only [oneToOne, hc]
    exact (C71.C71_bracket hs hρ (h1 (by simp)) (h2 (by simp) (by simp))).1
  | anticommutator =>
    simp only [oneToOne, hc]
    exact (C71.C71_bracket hs hρ (h1 (by simp)) (h2 (by simp) (by simp))).2

/-- Sums, products, commutators and anticommutators of Pauli operators, as operators on states of `n` qubits. -/
theorem C133_pauli {n : Nat} (hn : n * 3 < 2 ^ 64) (hL : (∑ k ∈ Finset.range (n + 1), (n * 3) ^ k) < 2 ^ 64) {c : BinaryOp.Ctx}
    (hc : c = ⟨Pauli.multiply n, some n⟩) {t : Table} (ht : ZeroFirst t) (op : Operation)
    {x y : Operand} (hx : Sized x) (hy : Sized y) (ax : All (Over (C06.IsWord n)) x) (ay : All (Over (C06.IsWord n)) y) {s : List Nat}
    (h : dims x y = some s) :
    ∃ r E, run c t op x y = .ok r ∧ entries r = some (s, E) ∧ E.length = s.prod ∧
      ∀ i < s.prod, ∃ p q e, at? x i = some p ∧ at? y i = some q ∧ E[i]? = some e ∧ Tidy e ∧
        said (A := Module.End ℂ RawPoly.State) RawPoly.operator e = meaning op (total RawPoly.operator p : Module.End ℂ RawPoly.State) (total RawPoly.operator q) := by
  subst hc
  refine entrywise (A := Module.End ℂ RawPoly.State) ht op hx hy (P := Over (C06.IsWord n)) (fun p hp e he => (hp e he).2) ax ay h fun _ p q _ _ hp hq => ?_
  obtain ⟨h1, h2, h3⟩ := C71.C71_pauli n hn hL hp hq
  cases op with
  | plus =>
    have up : ∀ {r : Raw}, Over (C06.IsWord n) r → Over (C71.PauliWord n) r := fun hr e he => ⟨.inl (hr e he).1, (hr e he).2⟩
    exact (C71.C71_add (C71.stands_pauli n hn hL) (up hp) (up hq)).1
  | times => exact h1
  | commutator => exact h2
  | anticommutator => exact h3

/-- The result is a list of monomials, with one row for each entry, if and only if no result has more than one term. -/
theorem C133_monomial {c : BinaryOp.Ctx} {t : Table} (ht : ZeroFirst t) (op : Operation) {x y : Operand} (hx : Sized x) (hy : Sized y)
    (ax : All (fun p => ∀ e ∈ p, e.1.sign = .pos) x) (ay : All (fun p => ∀ e ∈ p, e.1.sign = .pos) y) {s : List Nat} (h : dims x y = some s) :
    ∃ r, run c t op x y = .ok r ∧ ((∃ R, r = .monomials s R) ↔
      ∀ i < s.prod, ∀ p q, at? x i = some p → at? y i = some q → (oneToOne c op p q).length ≤ 1) := by
  obtain ⟨l, h1, h2, h3⟩ := calculated c t op hx hy h
  have hl : ∀ r ∈ l, Condensed r ∧ ∀ e ∈ r, e.1.sign = .pos := by
    intro r hr
    obtain ⟨i, hi, rfl⟩ := List.mem_iff_getElem.mp hr
    obtain ⟨p, q, ep, eq, e⟩ := h3 i (h2 ▸ hi)
    rw [List.getElem?_eq_getElem hi, Option.some.injEq] at e
    rw [e]
    exact result_ok c op (all_at ax ep) (all_at ay eq)
  obtain ⟨r, E, e1, -, -, e2, -⟩ := exported_spec (A := ℂ) ht s hl
  refine ⟨r, h1.trans e1, e2.trans ⟨fun hp i hi p q ep eq => ?_, fun hp r hr => ?_⟩⟩
  · obtain ⟨p', q', ep', eq', e⟩ := h3 i hi
    rw [ep, Option.some.injEq] at ep'
    rw [eq, Option.some.injEq] at eq'
    subst ep' eq'
    exact hp _ (List.mem_of_getElem? e)
  · obtain ⟨i, hi, rfl⟩ := List.mem_iff_getElem.mp hr
    obtain ⟨p, q, ep, eq, e⟩ := h3 i (h2 ▸ hi)
    rw [List.getElem?_eq_getElem hi, Option.some.injEq] at e
    rw [e]
    exact hp i (h2 ▸ hi) p q ep eq

/-- Other operands are refused, and nothing is undefined. -/
theorem C133_refused (c : BinaryOp.Ctx) {t : Table} (ht : ZeroFirst t) (op : Operation) {x y : Operand} (hx : Sized x) (hy : Sized y)
    (ax : All (fun p => ∀ e ∈ p, e.1.sign = .pos) x) (ay : All (fun p => ∀ e ∈ p, e.1.sign = .pos) y) :
    (run c t op x y = .refused ↔ ¬Possible op x y) ∧ run c t op x y ≠ .undefined := by
  by_cases h : ∃ s, dims x y = some s
  · obtain ⟨s, h⟩ := h
    obtain ⟨r, hr, -⟩ := C133_monomial (c := c) ht op hx hy ax ay h
    rw [hr]
    have : Possible op x y := .polys h
    simp [this]
  · have hP : Possible op x y ↔ (op = .plus ∨ op = .times) ∧ ((∃ i p, x = .matrix i ∧ y = .one p) ∨ ∃ i p, x = .one p ∧ y = .matrix i) ∨
        op = .plus ∧ ∃ i j, x = .matrix i ∧ y = .matrix j := by
      constructor
      · intro hp
        cases hp with
        | polys e => exact absurd ⟨_, e⟩ h
        | left e => exact .inl ⟨e, .inl ⟨_, _, rfl, rfl⟩⟩
        | right e => exact .inl ⟨e, .inr ⟨_, _, rfl, rfl⟩⟩
        | both => exact .inr ⟨rfl, _, _, rfl, rfl⟩
      · rintro (⟨e, ⟨i, p, rfl, rfl⟩ | ⟨i, p, rfl, rfl⟩⟩ | ⟨rfl, i, j, rfl, rfl⟩)
        · exact .left e
        · exact .right e
        · exact .both
    rw [hP]
    cases x <;> cases y <;> cases op <;>
      simp_all [run, permitted, kind, dims, calculate, Operand.poly, Operand.polys, Out.bind]

/-! ## Examples -/

/-- X and 2i Z on the first qubit, then Y on the second one. -/
noncomputable def sample : Operand :=
  .many [1, 2] [[(Pauli.sigma 0 0 .pos, 1), (Pauli.sigma 2 0 .pos, 2 * Complex.I)], [(Pauli.sigma 1 1 .pos, 1)]]

noncomputable def single : Operand := .one [(Pauli.sigma 0 1 .pos, 3)]

theorem sample_words : All (Over (C06.IsWord 2)) sample := by
  intro p hp e he
  simp only [List.mem_cons, List.not_mem_nil, or_false] at hp
  rcases hp with rfl | rfl <;> simp only [List.mem_cons, List.not_mem_nil, or_false] at he
  · rcases he with rfl | rfl
    · exact ⟨⟨by unfold Pauli.Normal; decide, by decide, by decide +kernel, by decide +kernel⟩, rfl⟩
    · exact ⟨⟨by unfold Pauli.Normal; decide, by decide, by decide +kernel, by decide +kernel⟩, rfl⟩
  · subst he
    exact ⟨⟨by unfold Pauli.Normal; decide, by decide, by decide +kernel, by decide +kernel⟩, rfl⟩

theorem single_words : All (Over (C06.IsWord 2)) single := by
  intro e he
  simp only [List.mem_cons, List.not_mem_nil, or_false] at he
  subst he
  exact ⟨⟨by unfold Pauli.Normal; decide, by decide, by decide +kernel, by decide +kernel⟩, rfl⟩

example : ZeroFirst Table.new ∧ Sized sample ∧ Sized single ∧ dims sample single = some [1, 2] ∧ dims sample sample = some [1, 2] :=
  ⟨⟨_, rfl, rfl⟩, by simp [Sized, sample], trivial, rfl, by simp [dims, sample]⟩

example (op : Operation) := C133_pauli (n := 2) (by decide) (by decide) rfl (t := Table.new) ⟨_, rfl, rfl⟩ op (x := sample) (y := single)
  (by simp [Sized, sample]) trivial sample_words single_words rfl

/-- Any context may multiply as the words of two qubits do. -/
example (op : Operation) : ∃ r E, run ⟨Pauli.multiply 2, none⟩ Table.new op sample single = .ok r ∧ entries r = some ([1, 2], E) := by
  have up : ∀ {r : Raw}, Over (C06.IsWord 2) r → Over (C71.PauliWord 2) r := fun hr e he => ⟨.inl (hr e he).1, (hr e he).2⟩
  have key : ∀ a b, C06.IsWord 2 a → C06.IsWord 2 b → C71.PauliWord 2 (Pauli.multiply 2 a b) ∧
      (RawPoly.operator (Pauli.multiply 2 a b) : Module.End ℂ RawPoly.State) = (RawPoly.operator a : Module.End ℂ RawPoly.State) * RawPoly.operator b :=
    fun a b ha hb => by
      have hab := C06.C08_multiply_closed 2 (by decide) (by decide) a b ha hb
      exact ⟨.inl hab, C71.operator_mul ha hb hab.2.2.2⟩
  obtain ⟨r, E, h1, h2, -⟩ := C133_entries (A := Module.End ℂ RawPoly.State) (c := ⟨Pauli.multiply 2, none⟩) rfl (t := Table.new) ⟨_, rfl, rfl⟩ op
    (fun w h => C71.pauli_sign h) (C71.stands_pauli 2 (by decide) (by decide)) (x := sample) (y := single) (by simp [Sized, sample]) trivial
    (fun p hp => up (sample_words p hp)) (up single_words) rfl
    fun _ i p q ep eq a ha b hb =>
      ⟨key _ _ (all_at sample_words ep a ha).1 (all_at single_words eq b hb).1, fun _ => key _ _ (all_at single_words eq b hb).1 (all_at sample_words ep a ha).1⟩
  exact ⟨r, E, h1, h2⟩

example : ¬Possible .times (.matrix 0) (.matrix 1) ∧ ¬Possible .plus sample (.many [2, 1] [[], []]) ∧ Possible .plus (.matrix 0) (.matrix 1) := by
  refine ⟨fun h => ?_, fun h => ?_, .both⟩
  · cases h
    rename_i h
    simp [dims] at h
  · cases h
    rename_i h
    simp [dims, sample] at h

end Moment.C133
