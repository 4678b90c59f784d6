import Verif.Proof.MomentRules
import Mathlib.Algebra.Algebra.Bilinear
import Verif.Proof.RawPoly
import Verif.Proof.Rewrite
import Verif.Props.C06_Pauli
import Verif.Props.C70_SymbolMatrix

/-! # C71: raw polynomials -/

namespace Moment.C71

open Moment.RawPoly
open Moment.Symbols (Sym Table Env)
open Moment.Poly (Mono)
open Moment.SymbolMatrix (Host Setting Ready Moments Agrees Fit rawElem rawPoly scalar_phase)

variable {M : Type} [AddCommGroup M] [Module ℂ M]

/-! ## Sums -/

/-- Condensing keeps the sum, whatever the words stand for; the words are those of the list, in ascending order of their hashes, and no zero is
left. -/
theorem C71_condense {W : HSeq → Prop} {ρ : HSeq → M} (hρ : Stands W ρ) {r : Raw} (hr : Over W r) :
    total ρ (condense r) = total ρ r ∧ Condensed (condense r) ∧ Over W (condense r) ∧ ∀ e ∈ condense r, ∃ y ∈ r, y.1 = e.1 :=
  ⟨condense_total hρ hr, condense_condensed r, condense_over hr, condense_words r⟩

/-- The weight of each hash in the result is the sum of its weights in the list. Two lists give the same hashes and weights if and only if each hash
has the same total weight in both. -/
theorem C71_unique (p q : Raw) : (∀ h, h ≠ 0 → weightOf (condense p) h = weightOf p h) ∧
    ((condense p).map (fun e => (e.1.hash, e.2)) = (condense q).map (fun e => (e.1.hash, e.2)) ↔ ∀ h, h ≠ 0 → weightOf p h = weightOf q h) := by
  refine ⟨condense_weight p, fun e h hh => ?_, fun e => ?_⟩
  · rw [← condense_weight p h hh, ← condense_weight q h hh]
    have key : ∀ r : Raw, weightOf r h = ((r.map fun e => (e.1.hash, e.2)).map fun x => if x.1 = h then x.2 else 0).sum := by
      intro r
      simp [weightOf, Function.comp_def]
    rw [key, key, e]
  · exact condensed_unique (condense_condensed p) (condense_condensed q) fun h hh => by
      rw [condense_weight p h hh, condense_weight q h hh, e h hh]

/-- Condensing twice is condensing once. -/
theorem C71_condense_twice (p : Raw) : (condense (condense p)).map (fun e => (e.1.hash, e.2)) = (condense p).map fun e => (e.1.hash, e.2) :=
  (C71_unique _ _).2.mpr fun h hh => condense_weight p h hh

theorem neg_total (ρ : HSeq → M) (q : Raw) : total ρ (q.map fun e => (e.1, e.2 * -1)) = -total ρ q := by
  induction q with
  | nil => simp
  | cons e q ih =>
    simp only [List.map_cons, total_cons, ih]
    module

/-- Sum and difference. -/
theorem C71_add {W : HSeq → Prop} {ρ : HSeq → M} (hρ : Stands W ρ) {p q : Raw} (hp : Over W p) (hq : Over W q) :
    total ρ (add p q) = total ρ p + total ρ q ∧ total ρ (subtract p q) = total ρ p - total ρ q ∧
    Condensed (add p q) ∧ Condensed (subtract p q) ∧ Over W (add p q) ∧ Over W (subtract p q) := by
  have h1 : Over W (p ++ q) := fun e he => (List.mem_append.mp he).elim (hp e) (hq e)
  have h2 : Over W (p ++ q.map fun e => (e.1, e.2 * -1)) := by
    intro e he
    rcases List.mem_append.mp he with he | he
    · exact hp e he
    · obtain ⟨x, hx, rfl⟩ := List.mem_map.mp he
      exact hq x hx
  refine ⟨?_, ?_, condense_condensed _, condense_condensed _, condense_over h1, condense_over h2⟩
  · rw [add, condense_total hρ h1, total_append]
  · rw [subtract, condense_total hρ h2, total_append, neg_total, sub_eq_add_neg]

/-! ## Products -/

section

variable {A : Type} [Ring A] [Algebra ℂ A]

/-- Product of raw polynomials: if the product of words stands for the product, so does the product of raw polynomials. -/
theorem C71_multiply {W : HSeq → Prop} (hs : ∀ w, W w → W { w with sign := .pos }) {ρ : HSeq → A} (hρ : Stands W ρ) {mul : HSeq → HSeq → HSeq}
    {p q : Raw} (hm : ∀ a ∈ p, ∀ b ∈ q, W (mul a.1 b.1) ∧ ρ (mul a.1 b.1) = ρ a.1 * ρ b.1) :
    total ρ (multiply mul p q) = total ρ p * total ρ q ∧ Condensed (multiply mul p q) ∧ Over W (multiply mul p q) := by
  refine ⟨?_, condense_condensed _, condense_over (product_over hs fun a ha b hb => (hm a ha b hb).1)⟩
  have := product_total hs hρ (weight := fun a b => a * b) (LinearMap.mul ℂ A) (fun a ha b hb => (hm a ha b hb).1) (fun a ha b hb => by
    rw [(hm a ha b hb).2]; rfl)
  simpa [multiply] using this

theorem twisted_total {W : HSeq → Prop} (hs : ∀ w, W w → W { w with sign := .pos }) {ρ : HSeq → A} (hρ : Stands W ρ) {op : HSeq → HSeq → HSeq}
    (c : ℂ) {p q : Raw} (hm : ∀ a ∈ p, ∀ b ∈ q, W (op a.1 b.1) ∧ (2 : ℂ) • ρ (op a.1 b.1) = ρ a.1 * ρ b.1 + c • (ρ b.1 * ρ a.1)) :
    total ρ (product op (fun a b => a * b * 2) p q) = total ρ p * total ρ q + c • (total ρ q * total ρ p) := by
  have := product_total hs hρ (op := op) (weight := fun a b => a * b * 2) (p := p) (q := q)
    (LinearMap.mk₂ ℂ (fun a b : A => a * b + c • (b * a)) (fun a b d => by simp only [add_mul, mul_add, smul_add]; abel)
      (fun k a b => by simp only [smul_mul_assoc, mul_smul_comm]; module) (fun a b d => by simp only [add_mul, mul_add, smul_add]; abel)
      (fun k a b => by simp only [smul_mul_assoc, mul_smul_comm]; module))
    (fun a ha b hb => (hm a ha b hb).1) (fun a ha b hb => by rw [mul_smul, (hm a ha b hb).2]; rfl)
  exact this

/-- Commutator and anticommutator as differences and sums of products. -/
theorem C71_bracket {W : HSeq → Prop} (hs : ∀ w, W w → W { w with sign := .pos }) {ρ : HSeq → A} (hρ : Stands W ρ) {mul : HSeq → HSeq → HSeq}
    {p q : Raw} (hm : ∀ a ∈ p, ∀ b ∈ q, W (mul a.1 b.1) ∧ ρ (mul a.1 b.1) = ρ a.1 * ρ b.1)
    (hm' : ∀ a ∈ q, ∀ b ∈ p, W (mul a.1 b.1) ∧ ρ (mul a.1 b.1) = ρ a.1 * ρ b.1) :
    total ρ (bracket mul false p q) = total ρ p * total ρ q - total ρ q * total ρ p ∧
    total ρ (bracket mul true p q) = total ρ p * total ρ q + total ρ q * total ρ p := by
  obtain ⟨a1, -, a3⟩ := C71_multiply hs hρ hm
  obtain ⟨b1, -, b3⟩ := C71_multiply hs hρ hm'
  obtain ⟨c1, c2, -⟩ := C71_add hρ a3 b3
  constructor
  · rw [bracket, if_neg (by simp), c2, a1, b1]
  · rw [bracket, if_pos rfl, c1, a1, b1]

end

/-! ## Pauli operators -/

/-- Words of the context, and zero. -/
def PauliWord (n : Nat) (w : HSeq) : Prop := C06.IsWord n w ∨ w = HSeq.zero

theorem pauli_sign {n : Nat} {w : HSeq} (h : PauliWord n w) : PauliWord n { w with sign := .pos } := by
  rcases h with h | rfl
  · exact .inl ⟨h.1, h.2.1, h.2.2.1, h.2.2.2⟩
  · exact .inr rfl

theorem operator_single {w : HSeq} (h : w.hash ≠ 0) (b : Pauli.Bits) :
    operator w (Finsupp.single b 1) = Finsupp.single (Pauli.actS w.sign w.ops b).2 (Rewrite.phase (Pauli.actS w.sign w.ops b).1) := by
  simp [operator, h]

theorem operator_ext {A B : State →ₗ[ℂ] State} (h : ∀ b, A (Finsupp.single b 1) = B (Finsupp.single b 1)) : A = B := by
  refine Finsupp.lhom_ext' fun b => LinearMap.ext_ring ?_
  simpa using h b

theorem stands_pauli (n : Nat) (hn : n * 3 < 2 ^ 64) (hL : (∑ k ∈ Finset.range (n + 1), (n * 3) ^ k) < 2 ^ 64) : Stands (PauliWord n) operator := by
  refine ⟨fun w _ h => by simp [operator, h], fun w _ => ?_, fun w v hw hv e sw sv => ?_⟩
  · by_cases h : w.hash = 0
    · simp [operator, h]
    · refine operator_ext fun b => ?_
      have h' : ({ w with sign := .pos } : HSeq).hash ≠ 0 := h
      rw [LinearMap.smul_apply, operator_single h, operator_single h']
      simp only [Pauli.actS, Rewrite.phase_mul, Finsupp.smul_single, smul_eq_mul, Rewrite.phase_pos, one_mul]
  · by_cases h : w.hash = 0
    · simp [operator, h, ← e]
    · have hv0 : v.hash ≠ 0 := fun h0 => h (e.trans h0)
      have hw' : C06.IsWord n w := hw.resolve_right fun h0 => h (by rw [h0]; rfl)
      have hv' : C06.IsWord n v := hv.resolve_right fun h0 => hv0 (by rw [h0]; rfl)
      have ho : w.ops = v.ops := by
        rw [hw'.2.2.1, hv'.2.2.1] at e
        exact (C02.C02_hash_shortlex_partial (n * 3) n hn hL _ _ hw'.2.1 hv'.2.1 (Pauli.normal_length n _ hw'.1 hw'.2.1)
          (Pauli.normal_length n _ hv'.1 hv'.2.1)).1.mp e
      refine operator_ext fun b => ?_
      rw [operator_single h, operator_single hv0, ho, sw, sv]

theorem operator_mul {n : Nat} {a b : HSeq} (ha : C06.IsWord n a) (hb : C06.IsWord n b) (hab : (Pauli.multiply n a b).hash ≠ 0) :
    operator (Pauli.multiply n a b) = operator a ∘ₗ operator b := by
  refine operator_ext fun x => ?_
  have hop := C06.C08_multiply_operator n a b ha hb x
  rw [operator_single hab, LinearMap.comp_apply, operator_single hb.2.2.2, hop]
  have : Finsupp.single (Pauli.actS b.sign b.ops x).2 (Rewrite.phase (Pauli.actS b.sign b.ops x).1) =
      Rewrite.phase (Pauli.actS b.sign b.ops x).1 • (Finsupp.single (Pauli.actS b.sign b.ops x).2 1 : State) := by simp
  rw [this, map_smul, operator_single ha.2.2.2]
  simp only [Pauli.actS, Pauli.act_append, Sign.mul_eq, Finsupp.smul_single, smul_eq_mul]
  congr 1
  simp only [← Sign.mul_eq, Rewrite.phase_mul]
  ring

/-- Two words commute or anticommute, and the routines for words give half of the commutator and of the anticommutator. -/
theorem operator_bracket {n : Nat} (hn : n * 3 < 2 ^ 64) (hL : (∑ k ∈ Finset.range (n + 1), (n * 3) ^ k) < 2 ^ 64) {a b : HSeq} (ha : C06.IsWord n a)
    (hb : C06.IsWord n b) :
    (PauliWord n (Pauli.commutator n a b) ∧
      (2 : ℂ) • operator (Pauli.commutator n a b) = operator a ∘ₗ operator b - operator b ∘ₗ operator a) ∧
    PauliWord n (Pauli.anticommutator n a b) ∧
      (2 : ℂ) • operator (Pauli.anticommutator n a b) = operator a ∘ₗ operator b + operator b ∘ₗ operator a := by
  have hab := C06.C08_multiply_closed n hn hL a b ha hb
  have hba := C06.C08_multiply_closed n hn hL b a hb ha
  have eab := operator_mul ha hb hab.2.2.2
  obtain ⟨h1, h2, h3, h4⟩ := C06.C09_commutator n a b ha hb
  have hswap : ∀ (g : Sign), Pauli.SameOperator 1 (a.ops ++ b.ops) g (b.ops ++ a.ops) →
      operator a ∘ₗ operator b = Rewrite.phase g • (operator b ∘ₗ operator a) := by
    intro g hg
    rw [← eab, ← operator_mul hb ha hba.2.2.2]
    refine operator_ext fun x => ?_
    have o1 := C06.C08_multiply_operator n a b ha hb x
    have o2 := C06.C08_multiply_operator n b a hb ha x
    have hx := hg x
    rw [LinearMap.smul_apply, operator_single hab.2.2.2, operator_single hba.2.2.2, o1, o2]
    simp only [Pauli.actS, Prod.mk.injEq] at hx ⊢
    have hone : (1 : Sign) = .pos := rfl
    rw [hx.2, Finsupp.smul_single, smul_eq_mul]
    congr 1
    have hp := congrArg Rewrite.phase hx.1
    simp only [Rewrite.phase_mul, hone, Rewrite.phase_pos, one_mul] at hp
    simp only [← Sign.mul_eq, Rewrite.phase_mul, hp]
    ring
  have hz : operator HSeq.zero = 0 := by simp [operator, HSeq.zero]
  by_cases hc : Pauli.SameOperator 1 (a.ops ++ b.ops) 1 (b.ops ++ a.ops)
  · have hn' : ¬ Pauli.SameOperator 1 (a.ops ++ b.ops) .neg (b.ops ++ a.ops) := by
      intro h
      have x1 := congrArg Prod.fst (hc fun _ => false)
      have x2 := congrArg Prod.fst (h fun _ => false)
      rw [x1] at x2
      simp only [Pauli.actS, Sign.mul_eq] at x2
      exact absurd (mul_right_cancel x2) (by decide)
    have hsw := hswap 1 hc
    rw [show Rewrite.phase 1 = 1 from rfl, one_smul] at hsw
    rw [h1 hc, h4 hn', hz, eab]
    refine ⟨⟨.inr rfl, ?_⟩, .inl hab, ?_⟩
    · rw [hsw]; module
    · rw [hsw, two_smul]
  · have hanti : Pauli.SameOperator 1 (a.ops ++ b.ops) .neg (b.ops ++ a.ops) := by
      by_contra hna
      have e1 := h2 hc
      have e2 := h4 hna
      unfold Pauli.commutator at e1
      unfold Pauli.anticommutator at e2
      have hne : Pauli.multiply n a b ≠ HSeq.zero := fun h => hab.2.2.2 (by rw [h]; rfl)
      simp only at e1 e2
      split at e1
      · exact hne e1.symm
      · rename_i hi
        rw [if_pos (by simpa [bne] using hi)] at e2
        exact hne e2.symm
    have hsw := hswap .neg hanti
    rw [show Rewrite.phase .neg = -1 from rfl] at hsw
    rw [h2 hc, h3 hanti, hz, eab]
    refine ⟨⟨.inl hab, ?_⟩, .inr rfl, ?_⟩
    · rw [hsw]; module
    · rw [hsw]; module

/-- In a Pauli context, product, commutator and anticommutator of raw polynomials are those of the operators on states, up to the number of qubits
for which words are hashed without overflow. -/
theorem C71_pauli (n : Nat) (hn : n * 3 < 2 ^ 64) (hL : (∑ k ∈ Finset.range (n + 1), (n * 3) ^ k) < 2 ^ 64) {p q : Raw}
    (hp : Over (C06.IsWord n) p) (hq : Over (C06.IsWord n) q) :
    total operator (multiply (Pauli.multiply n) p q) = total operator p ∘ₗ total operator q ∧
    total operator (pauliCommutator n p q) = total operator p ∘ₗ total operator q - total operator q ∘ₗ total operator p ∧
    total operator (pauliAnticommutator n p q) = total operator p ∘ₗ total operator q + total operator q ∘ₗ total operator p := by
  have hS := stands_pauli n hn hL
  have hs : ∀ w, PauliWord n w → PauliWord n { w with sign := .pos } := fun w h => pauli_sign h
  refine ⟨?_, ?_, ?_⟩
  · refine (C71_multiply (A := Module.End ℂ State) hs hS fun a ha b hb => ?_).1
    have hab := C06.C08_multiply_closed n hn hL _ _ (hp a ha).1 (hq b hb).1
    exact ⟨.inl hab, operator_mul (hp a ha).1 (hq b hb).1 hab.2.2.2⟩
  · have key : ∀ X Y : State →ₗ[ℂ] State, X - Y = X + (-1 : ℂ) • Y := fun X Y => by module
    have := twisted_total (A := Module.End ℂ State) hs hS (op := Pauli.commutator n) (-1) (p := p) (q := q) fun a ha b hb => by
      obtain ⟨h1, h2⟩ := (operator_bracket hn hL (hp a ha).1 (hq b hb).1).1
      exact ⟨h1, h2.trans (key _ _)⟩
    exact this.trans (key _ _).symm
  · have := twisted_total (A := Module.End ℂ State) hs hS (op := Pauli.anticommutator n) 1 (p := p) (q := q) fun a ha b hb => by
      obtain ⟨h1, h2⟩ := (operator_bracket hn hL (hp a ha).1 (hq b hb).1).2
      refine ⟨h1, h2.trans ?_⟩
      rw [one_smul]
      rfl
    rw [one_smul] at this
    exact this

/-- X on the first of two qubits plus 2i times Z on it: the hypotheses of `C71_pauli`. -/
example : 2 * 3 < 2 ^ 64 ∧ (∑ k ∈ Finset.range (2 + 1), (2 * 3) ^ k) < 2 ^ 64 ∧
    Over (C06.IsWord 2) [(Pauli.sigma 0 0 .pos, 1), (Pauli.sigma 2 0 .pos, 2 * Complex.I)] := by
  refine ⟨by decide, by decide, ?_⟩
  intro e he
  simp only [List.mem_cons, List.not_mem_nil, or_false] at he
  rcases he with rfl | rfl
  · exact ⟨⟨by unfold Pauli.Normal; decide, by decide, by decide +kernel, by decide +kernel⟩, rfl⟩
  · exact ⟨⟨by unfold Pauli.Normal; decide, by decide, by decide +kernel, by decide +kernel⟩, rfl⟩

/-! ## Polynomials of symbols -/

/-- Moments make words stand for numbers. -/
theorem stands_moments {c : Env} {W : HSeq → Prop} {L : HSeq → ℂ} (hL : Moments c W L) (h0 : W HSeq.zero) (hs : ∀ w, W w → W { w with sign := .pos }) :
    Stands W L := by
  refine ⟨fun w hw h => ?_, fun w hw => by rw [hL.phase w hw, smul_eq_mul], fun w v hw hv e sw sv => hL.hash w v hw hv e (sw.trans sv.symm)⟩
  rw [hL.phase w hw, hL.hash { w with sign := .pos } HSeq.zero (hs w hw) h0 h rfl, hL.zero, mul_zero]

/-- Simplification as moments keeps moments, words and their positive sign. -/
def SimpKeeps (h : Host) (W : HSeq → Prop) (L : HSeq → ℂ) : Prop :=
  h.env.aliases = true → ∀ w, W w → w.sign = .pos → W (h.env.simp w) ∧ (h.env.simp w).sign = .pos ∧ L (h.env.simp w) = L w

theorem find_value {h : Host} {W : HSeq → Prop} (hS : Setting h W) {t : Table} (ht : Fit h W t) {L : HSeq → ℂ} {v : Nat → ℂ}
    (hL : Moments h.env W L) (hv : Agrees t L v) {w : HSeq} (hw : W w) (hp : w.sign = .pos) {k : Nat × Bool} (hk : t.find w.hash = some k) (f : ℂ) :
    Mono.value v ⟨k.1, k.2, f⟩ = f * L w := by
  have hf : (t.hashes.lookup w.hash).isSome := by
    unfold Table.find at hk
    obtain ⟨x, hx, -⟩ := Option.map_eq_some_iff.mp hk
    simp [hx]
  obtain ⟨m, s, h1, h2⟩ := SymbolMatrix.entry_spec hS ht hw hf 1
  have h3 := h1.eq
  unfold SymbolMatrix.entry at h3
  rw [hk, Option.bind_some, Option.map_eq_some_iff] at h3
  obtain ⟨s', hs', h3⟩ := h3
  simp only [Prod.mk.injEq] at h3
  have e1 : m.id = k.1 := by
    have hi := ht.inv.ids k.1 s'.key (by unfold Table.keys; rw [List.getElem?_map, hs']; rfl)
    rw [← h3.1]
    exact hi
  have e2 : m.conj = k.2 := by rw [← h3.1]
  have := h2 L v hL hv
  rw [hp, Rewrite.phase_pos, mul_one, e1, e2] at this
  rw [← this]
  rfl

theorem find_lt {h : Host} {W : HSeq → Prop} {t : Table} (ht : Fit h W t) {x : UInt64} {k : Nat × Bool} (hk : t.find x = some k) : k.1 < t.syms.length := by
  unfold Table.find at hk
  obtain ⟨y, hy, rfl⟩ := Option.map_eq_some_iff.mp hk
  obtain ⟨q, cq, h2, -⟩ := ht.inv.sound x y hy
  have := (List.getElem?_eq_some_iff.mp h2).1
  simpa [Table.keys] using this

theorem lookup_lt {h : Host} {W : HSeq → Prop} {t : Table} (ht : Fit h W t) {w : HSeq} {k : Nat × Bool} (hk : (t.lookup h.env w).1 = some k) :
    k.1 < t.syms.length := by
  unfold Table.lookup at hk
  split at hk
  · rename_i r hr
    simp only [Option.some.injEq] at hk
    subst hk
    exact find_lt ht hr
  · split at hk
    · simp only at hk
      split at hk
      · exact find_lt ht hk
      · simp at hk
    · simp at hk

theorem lookup_value {h : Host} {W : HSeq → Prop} (hS : Setting h W) {t : Table} (ht : Fit h W t) {L : HSeq → ℂ} {v : Nat → ℂ}
    (hL : Moments h.env W L) (hk : SimpKeeps h W L) (hv : Agrees t L v) {w : HSeq} (hw : W w) (hp : w.sign = .pos) {k : Nat × Bool}
    (he : (t.lookup h.env w).1 = some k) (f : ℂ) : Mono.value v ⟨k.1, k.2, f⟩ = f * L w := by
  unfold Table.lookup at he
  split at he
  · rename_i r hr
    simp only [Option.some.injEq] at he
    subst he
    exact find_value hS ht hL hv hw hp hr f
  · split at he
    · rename_i ha
      simp only at he
      split at he
      · obtain ⟨a, b, c⟩ := hk ha w hw hp
        rw [← c]
        exact find_value hS ht hL hv a b he f
      · simp at he
    · simp at he

/-- `to_polynomial` gives a polynomial of the same value if all words are registered, and throws otherwise. -/
theorem C71_construct {h : Host} {W : HSeq → Prop} (hS : Setting h W) {t : Table} (ht : Ready h W t) (o : Poly.Order) {r : Raw} (hr : Over W r) :
    ((construct h.env t o r).isSome ↔ ∀ e ∈ r, (t.lookup h.env e.1).1.isSome) ∧
    ∀ p, construct h.env t o r = some p → ∀ L v, Moments h.env W L → SimpKeeps h W L → Agrees t L v → Poly.value v p = total L r := by
  constructor
  · unfold construct
    rw [Option.isSome_map]
    clear hr
    unfold storage
    induction r with
    | nil => simp
    | cons e r ih =>
      rw [List.mapM_cons]
      cases he : (t.lookup h.env e.1).1 with
      | none => simp [he]
      | some k =>
        simp only [Option.map_some, Option.bind_eq_bind, Option.bind_some, List.mem_cons, forall_eq_or_imp, he, Option.isSome_some, true_and]
        rw [← ih]
        cases (List.mapM (fun e : HSeq × ℂ => Option.map (fun k : Nat × Bool => (⟨k.1, k.2, e.2⟩ : Mono)) (t.lookup h.env e.1).1) r) <;> simp
  · intro p hp L v hL hk hv
    unfold construct at hp
    obtain ⟨l, hl, rfl⟩ := Option.map_eq_some_iff.mp hp
    rw [Poly.make_value hv.flags]
    unfold storage at hl
    clear hp
    induction r generalizing l with
    | nil =>
      simp only [List.mapM_nil, Option.pure_def, Option.some.injEq] at hl
      subst hl; rfl
    | cons e r ih =>
      rw [List.mapM_cons] at hl
      simp only [Option.bind_eq_bind, Option.bind_eq_some_iff, Option.map_eq_some_iff, Option.pure_def, Option.some.injEq] at hl
      obtain ⟨m, ⟨k, hk1, rfl⟩, l', hl', rfl⟩ := hl
      have he := hr e List.mem_cons_self
      rw [Poly.value_cons, total_cons, ih (fun x hx => hr x (List.mem_cons_of_mem _ hx)) l' hl',
        lookup_value hS (ht.fit hS) hL hk hv he.1 he.2 hk1, smul_eq_mul]

theorem mergeSeq_step {h : Host} {t : Table} {w : HSeq} {m} (hm : t.mergeSeq h.env w = some m) : Symbols.step h.env t (.seq w) = some (m.1, some m.2.1) := by
  simp [Symbols.step, hm]

/-- The words that are registered: those found, and those that are asked for. -/
theorem lookup_after {h : Host} {W : HSeq → Prop} (hS : Setting h W) {t : Table} (ht : Ready h W t) {w : HSeq} (hp : w.sign = .pos)
    (hl : W (if h.env.aliases then h.env.simp w else w)) :
    ∃ m, t.mergeSeq h.env w = some m ∧ Ready h W m.1 ∧ t.syms <+: m.1.syms ∧ ((m.1).lookup h.env w).1.isSome := by
  have hw' : ({ w with sign := .pos } : HSeq) = w := by rw [← hp]
  have hfit := ht.fit hS
  have hex : ∃ m, t.mergeSeq h.env w = some m := by
    unfold Table.mergeSeq
    simp only [hw']
    have hprop := SymbolMatrix.proper_pair hS.words hl (v := h.env.conj (if h.env.aliases then h.env.simp w else w)) rfl
    obtain ⟨t', id, b, hm, -⟩ := Symbols.mergeSym_keys hS.words hfit.inv hprop
    exact ⟨_, hm⟩
  obtain ⟨m, hm⟩ := hex
  have hlegal : Symbols.Op.Legal h.env W (.seq w) := by
    simp only [Symbols.Op.Legal, hw']
    exact hl
  refine ⟨m, hm, .step ht hlegal trivial (mergeSeq_step hm), ?_, ?_⟩
  · unfold Table.mergeSeq at hm
    exact SymbolMatrix.mergeSym_prefix (id := m.2.1) (b := m.2.2) hm
  · obtain ⟨-, -, hask⟩ := Symbols.step_keys hS.words hfit.inv hlegal (mergeSeq_step hm)
    obtain ⟨k, hk, -⟩ := hask (if h.env.aliases then h.env.simp w else w) (by simp only [Symbols.Op.Asks, hw'])
    simp only at hk
    unfold Table.lookup
    cases hf : (m.1).find w.hash with
    | some r => simp
    | none =>
      by_cases ha : h.env.aliases = true
      · simp only [ha, if_true] at hk ⊢
        have hne : (h.env.simp w).hash ≠ w.hash := by
          intro e
          rw [e] at hk
          simp [Table.find, hk] at hf
        simp [hne, Table.find, hk]
      · simp only [if_neg ha] at hk
        simp [Table.find, hk] at hf

theorem registerStorage_spec {h : Host} {W : HSeq → Prop} (hS : Setting h W) : ∀ {r : Raw} {t : Table}, Ready h W t → Over W r →
    (h.env.aliases = true → ∀ e ∈ r, W (h.env.simp e.1)) →
    ∃ t' l, registerStorage h.env t r = some (t', l) ∧ Ready h W t' ∧ t.syms <+: t'.syms ∧ (∀ m ∈ l, m.id < t'.syms.length) ∧
      ∀ L v, Moments h.env W L → SimpKeeps h W L → Agrees t' L v → Poly.value v l = total L r
  | [], t, ht, _, _ => ⟨t, [], rfl, ht, List.prefix_rfl, by simp, fun _ _ _ _ _ => rfl⟩
  | e :: r, t, ht, hr, hal => by
    have he := hr e List.mem_cons_self
    have hr' : Over W r := fun x hx => hr x (List.mem_cons_of_mem _ hx)
    have hal' : h.env.aliases = true → ∀ e ∈ r, W (h.env.simp e.1) := fun ha x hx => hal ha x (List.mem_cons_of_mem _ hx)
    unfold registerStorage
    cases hk : (t.lookup h.env e.1).1 with
    | some k =>
      obtain ⟨t', l, h1, h2, h3, h5, h4⟩ := registerStorage_spec hS ht hr' hal'
      refine ⟨t', ⟨k.1, k.2, e.2⟩ :: l, by simp [h1], h2, h3, List.forall_mem_cons.mpr ⟨(lookup_lt (ht.fit hS) hk).trans_le h3.length_le, h5⟩, fun L v hL hs hv => ?_⟩
      rw [Poly.value_cons, total_cons, h4 L v hL hs hv, lookup_value hS (ht.fit hS) hL hs (SymbolMatrix.agrees_mono h3 hv) he.1 he.2 hk, smul_eq_mul]
    | none =>
      obtain ⟨m, m1, m2, m3, m4⟩ := lookup_after hS ht he.2 (by
        split
        · exact hal (by assumption) e List.mem_cons_self
        · exact he.1)
      obtain ⟨k, hk'⟩ := Option.isSome_iff_exists.mp m4
      obtain ⟨t', l, h1, h2, h3, h5, h4⟩ := registerStorage_spec hS m2 hr' hal'
      refine ⟨t', ⟨k.1, k.2, e.2⟩ :: l, by simp [m1, hk', h1], h2, m3.trans h3,
        List.forall_mem_cons.mpr ⟨(lookup_lt (m2.fit hS) hk').trans_le h3.length_le, h5⟩, fun L v hL hs hv => ?_⟩
      rw [Poly.value_cons, total_cons, h4 L v hL hs hv, lookup_value hS (m2.fit hS) hL hs (SymbolMatrix.agrees_mono h3 hv) he.1 he.2 hk', smul_eq_mul]

/-- `to_polynomial_register_symbols` always succeeds, keeps the symbols there are, and gives a polynomial of known symbols and of the same value. -/
theorem C71_register {h : Host} {W : HSeq → Prop} (hS : Setting h W) {t : Table} (ht : Ready h W t) (o : Poly.Order) {r : Raw} (hr : Over W r)
    (hal : h.env.aliases = true → ∀ e ∈ r, W (h.env.simp e.1)) :
    ∃ t' p, register h.env t o r = some (t', p) ∧ Ready h W t' ∧ (∀ (id : Nat) (s : Sym), t.syms[id]? = some s → t'.syms[id]? = some s) ∧
      (∀ m ∈ p, m.id < t'.syms.length) ∧ ∀ L v, Moments h.env W L → SimpKeeps h W L → Agrees t' L v → Poly.value v p = total L r := by
  obtain ⟨t', l, h1, h2, h3, h5, h4⟩ := registerStorage_spec hS ht hr hal
  refine ⟨t', _, by simp only [register, h1, Option.map_some]; rfl, h2, fun id s hs => SymbolMatrix.get_prefix h3 hs, fun m hm => by
    obtain ⟨y, hy, e⟩ := Poly.make_ids hm
    rw [← e]
    exact h5 y hy, fun L v hL hs hv => ?_⟩
  rw [Poly.make_value hv.flags, h4 L v hL hs hv]

/-- The raw polynomial of a polynomial has its value. `hc` says that the conjugate words kept with the symbols are conjugates. -/
theorem C71_of_polynomial {t : Table} {W : HSeq → Prop} {c : Env} {L : HSeq → ℂ} {v : Nat → ℂ} (hL : Moments c W L) (hv : Agrees t L v)
    (hW : ∀ s ∈ t.syms, (∀ q, s.seq = some q → W q) ∧ ∀ u, s.conj = some u → W u)
    (hc : ∀ s ∈ t.syms, ∀ q u, s.herm = false → s.seq = some q → s.conj = some u → L u = (starRingEnd ℂ) (L q)) :
    ∀ {p : List Mono} {r : Raw}, rawPoly t p = some (some r) → total L r = Poly.value v p ∧ ∀ e ∈ r, e.1.sign = .pos
  | [], r, hr => by
    simp only [rawPoly, Option.some.injEq] at hr
    subst hr
    exact ⟨rfl, by simp⟩
  | m :: p, r, hr => by
    unfold rawPoly at hr
    split at hr
    · simp at hr
    · rename_i s hs
      split at hr
      · simp at hr
      · rename_i q hq
        simp only [Option.bind_eq_some_iff, Option.map_eq_some_iff] at hr
        obtain ⟨w, hw, r1, hr1, r2, rfl, rfl⟩ := hr
        obtain ⟨i1, i2⟩ := C71_of_polynomial hL hv hW hc hr1
        have hmem := List.mem_of_getElem? hs
        have hWw : W w := by
          unfold SymbolMatrix.seqConj at hw
          split at hw
          · split at hw
            · rw [hq] at hw; cases hw; exact (hW s hmem).1 _ hq
            · exact (hW s hmem).2 _ hw
          · cases hw; exact (hW s hmem).1 _ hq
        refine ⟨?_, ?_⟩
        · rw [total_cons, i1, Poly.value_cons]
          congr 1
          have e1 : (rawElem w m.factor).2 • L (rawElem w m.factor).1 = m.factor * L w := by
            simp only [rawElem, scalar_phase, smul_eq_mul]
            rw [hL.phase w hWw]
            ring
          rw [e1]
          unfold Poly.Mono.value
          congr 1
          have hvq := hv.word _ _ _ hs hq
          unfold SymbolMatrix.seqConj at hw
          split at hw
          · rename_i hcj
            rw [if_pos hcj]
            split at hw
            · rename_i hh
              rw [hq] at hw; cases hw
              rw [SymbolMatrix.agree_herm hv hs hh, hvq]
            · rename_i hh
              rw [hc s hmem q w (by simpa using hh) hq hw, hvq]
          · rename_i hcj
            cases hw
            rw [if_neg hcj, hvq]
        · intro e he
          rcases List.mem_cons.mp he with rfl | he
          · rfl
          · exact i2 e he

/-- Raw polynomials of which all words are empty are multiples of the identity. -/
theorem C71_scalar {W : HSeq → Prop} {ρ : HSeq → M} (hρ : Stands W ρ) (h1 : W (HSeq.identity .pos)) (he : ∀ w, W w → w.ops = [] → w.hash = 0 ∨ w.hash = 1)
    {r : Raw} (hr : Over W r) (hs : isScalar r = true) : total ρ r = weightOf r 1 • ρ (HSeq.identity .pos) := by
  induction r with
  | nil => simp
  | cons e r ih =>
    simp only [isScalar, List.all_cons, Bool.and_eq_true, List.isEmpty_iff] at hs
    have hw := hr e List.mem_cons_self
    rw [total_cons, weightOf_cons, ih (fun x hx => hr x (List.mem_cons_of_mem _ hx)) hs.2, add_smul]
    congr 1
    rcases he _ hw.1 hs.1 with h | h
    · rw [hρ.zero _ hw.1 h, if_neg (by rw [h]; decide)]
      simp
    · rw [if_pos h, hρ.hash _ _ hw.1 h1 h hw.2 rfl]

/-! ## Examples -/

/-- Twice `ab`, minus `b`, minus twice `ab`: words over two letters that meet the hypotheses above; the sum is `-b`. -/
noncomputable def sampleRaw : Raw := [(C70.letters 2 [0, 1], 2), (C70.letters 2 [1], -1), (C70.letters 2 [0, 1], -2)]

theorem over_sample : Over (C27.FreeWord 2 4) sampleRaw := by
  intro e he
  simp only [sampleRaw, List.mem_cons, List.not_mem_nil, or_false] at he
  rcases he with rfl | rfl | rfl <;> exact ⟨.inr ⟨rfl, by unfold C70.letters C02.IsWord; decide⟩, rfl⟩

example : condense sampleRaw = [(C70.letters 2 [1], -1)] := by
  have h1 : HSeq.isZero (C70.letters 2 [0, 1]) = false := by decide
  have h2 : HSeq.isZero (C70.letters 2 [1]) = false := by decide
  have h3 : (C70.letters 2 [1]).hash < (C70.letters 2 [0, 1]).hash := by decide
  have h4 : ¬ (C70.letters 2 [0, 1]).hash < (C70.letters 2 [1]).hash := by decide
  rw [condense_eq]
  unfold collect sampleRaw
  generalize C70.letters 2 [0, 1] = x at *
  generalize C70.letters 2 [1] = y at *
  simp [h1, h2, insertAdd, h3, h4]

example : ∃ t' p, register (C70.freeHost 2).env Table.new Poly.byId sampleRaw = some (t', p) ∧ Ready (C70.freeHost 2) (C27.FreeWord 2 4) t' ∧
    ∀ L v, Moments (C70.freeHost 2).env (C27.FreeWord 2 4) L → Agrees t' L v → Poly.value v p = -L (C70.letters 2 [1]) := by
  obtain ⟨t', p, h1, h2, -, -, h4⟩ := C71_register C70.setting_sample Ready.new Poly.byId over_sample (by simp [C70.freeHost, C27.freeEnv])
  refine ⟨t', p, h1, h2, fun L v hL hv => ?_⟩
  rw [h4 L v hL (by simp [SimpKeeps, C70.freeHost, C27.freeEnv]) hv]
  simp [total, sampleRaw]

end Moment.C71
