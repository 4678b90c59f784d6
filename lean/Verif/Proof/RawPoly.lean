import Mathlib.Tactic.Abel
import Mathlib.Tactic.Module
import Verif.Spec.RawPoly
import Verif.Proof.MatrixTimes

/-! # Facts about raw polynomials -/

namespace Moment.RawPoly

open Moment.Symbols (Table Env)

variable {M : Type} [AddCommGroup M] [Module ℂ M]

@[simp] theorem total_nil (ρ : HSeq → M) : total ρ [] = 0 := rfl

@[simp] theorem total_cons (ρ : HSeq → M) (e : HSeq × ℂ) (r : Raw) : total ρ (e :: r) = e.2 • ρ e.1 + total ρ r := by simp [total]

theorem total_append (ρ : HSeq → M) (p q : Raw) : total ρ (p ++ q) = total ρ p + total ρ q := by simp [total]

@[simp] theorem weightOf_nil (h : UInt64) : weightOf [] h = 0 := rfl

@[simp] theorem weightOf_cons (e : HSeq × ℂ) (r : Raw) (h : UInt64) : weightOf (e :: r) h = (if e.1.hash = h then e.2 else 0) + weightOf r h := by
  simp [weightOf]

theorem insertAdd_words {e : HSeq × ℂ} : ∀ {r : Raw}, ∀ x ∈ insertAdd e r, x.1 = e.1 ∨ ∃ y ∈ r, y.1 = x.1
  | [], x, hx => by
    simp only [insertAdd, List.mem_singleton] at hx
    exact .inl (by rw [hx])
  | y :: r, x, hx => by
    unfold insertAdd at hx
    split at hx
    · rcases List.mem_cons.mp hx with rfl | hx
      · exact .inl rfl
      · exact .inr ⟨x, hx, rfl⟩
    · split at hx
      · rcases List.mem_cons.mp hx with rfl | hx
        · exact .inr ⟨x, List.mem_cons_self, rfl⟩
        · rcases insertAdd_words x hx with h | ⟨z, hz, h⟩
          · exact .inl h
          · exact .inr ⟨z, List.mem_cons_of_mem _ hz, h⟩
      · rcases List.mem_cons.mp hx with rfl | hx
        · exact .inr ⟨y, List.mem_cons_self, rfl⟩
        · exact .inr ⟨x, List.mem_cons_of_mem _ hx, rfl⟩

theorem hash_eq {a b : UInt64} (h1 : ¬ a < b) (h2 : ¬ b < a) : a = b := by
  rw [UInt64.lt_iff_toNat_lt] at h1 h2
  exact UInt64.toNat_inj.mp (by omega)

theorem insertAdd_sorted {e : HSeq × ℂ} : ∀ {r : Raw}, (r.Pairwise fun a b => a.1.hash < b.1.hash) →
    (insertAdd e r).Pairwise fun a b => a.1.hash < b.1.hash
  | [], _ => by simp [insertAdd]
  | y :: r, h => by
    obtain ⟨h1, h2⟩ := List.pairwise_cons.mp h
    unfold insertAdd
    split
    · rename_i hl
      refine List.pairwise_cons.mpr ⟨fun z hz => ?_, h⟩
      rcases List.mem_cons.mp hz with rfl | hz
      · exact hl
      · exact UInt64.lt_trans hl (h1 z hz)
    · split
      · rename_i hl
        refine List.pairwise_cons.mpr ⟨fun z hz => ?_, insertAdd_sorted h2⟩
        rcases insertAdd_words z hz with h | ⟨u, hu, h⟩
        · rw [h]; exact hl
        · rw [← h]; exact h1 u hu
      · exact List.pairwise_cons.mpr ⟨h1, h2⟩

theorem insertAdd_weight (e : HSeq × ℂ) (h : UInt64) : ∀ r : Raw, weightOf (insertAdd e r) h = (if e.1.hash = h then e.2 else 0) + weightOf r h
  | [] => by simp [insertAdd]
  | y :: r => by
    unfold insertAdd
    split
    · simp
    · rename_i n1
      split
      · rw [weightOf_cons, weightOf_cons, insertAdd_weight e h r]
        ring
      · rename_i n2
        rw [weightOf_cons, weightOf_cons, hash_eq n1 n2]
        split <;> ring

theorem insertAdd_total {ρ : HSeq → M} (e : HSeq × ℂ) : ∀ r : Raw, (∀ y ∈ r, y.1.hash = e.1.hash → ρ y.1 = ρ e.1) →
    total ρ (insertAdd e r) = e.2 • ρ e.1 + total ρ r
  | [], _ => by simp [insertAdd]
  | y :: r, h => by
    unfold insertAdd
    split
    · simp
    · rename_i n1
      split
      · rw [total_cons, total_cons, insertAdd_total e r fun y hy => h y (List.mem_cons_of_mem _ hy)]
        abel
      · rename_i n2
        have := h y List.mem_cons_self (hash_eq n1 n2).symm
        simp only [total_cons, this]
        module

theorem collect_spec : ∀ (r acc : Raw) (_ : acc.Pairwise fun a b => a.1.hash < b.1.hash) (_ : ∀ e ∈ acc, e.1.hash ≠ 0),
    ((r.foldl (fun acc e => if e.1.isZero then acc else insertAdd e acc) acc).Pairwise fun a b => a.1.hash < b.1.hash) ∧
    (∀ e ∈ r.foldl (fun acc e => if e.1.isZero then acc else insertAdd e acc) acc, e.1.hash ≠ 0) ∧
    (∀ e ∈ r.foldl (fun acc e => if e.1.isZero then acc else insertAdd e acc) acc, ∃ y ∈ acc ++ r, y.1 = e.1) ∧
    ∀ h, h ≠ 0 → weightOf (r.foldl (fun acc e => if e.1.isZero then acc else insertAdd e acc) acc) h = weightOf acc h + weightOf r h
  | [], acc, h1, h2 => ⟨h1, h2, fun e he => ⟨e, by simpa using he, rfl⟩, fun h _ => by simp⟩
  | e :: r, acc, h1, h2 => by
    simp only [List.foldl_cons]
    by_cases hz : e.1.isZero = true
    · simp only [hz, if_true]
      obtain ⟨a, b, c, d⟩ := collect_spec r acc h1 h2
      refine ⟨a, b, fun x hx => ?_, fun h hh => ?_⟩
      · obtain ⟨y, hy, hy'⟩ := c x hx
        refine ⟨y, ?_, hy'⟩
        simp only [List.mem_append, List.mem_cons] at hy ⊢
        tauto
      · rw [d h hh, weightOf_cons, if_neg, zero_add]
        simp only [HSeq.isZero, beq_iff_eq] at hz
        rw [hz]; exact hh.symm
    · simp only [hz]
      have hne : e.1.hash ≠ 0 := by simpa [HSeq.isZero] using hz
      obtain ⟨a, b, c, d⟩ := collect_spec r (insertAdd e acc) (insertAdd_sorted h1) (by
        intro x hx
        rcases insertAdd_words x hx with h | ⟨y, hy, h⟩
        · rw [h]; exact hne
        · rw [← h]; exact h2 y hy)
      refine ⟨a, b, fun x hx => ?_, fun h hh => ?_⟩
      · obtain ⟨y, hy, hy'⟩ := c x hx
        rcases List.mem_append.mp hy with hy | hy
        · rcases insertAdd_words y hy with h | ⟨z, hz, h⟩
          · exact ⟨e, by simp, by rw [← hy', h]⟩
          · exact ⟨z, by simp [hz], by rw [← hy', h]⟩
        · exact ⟨y, by simp [hy], hy'⟩
      · simp only [Bool.false_eq_true, if_false]
        rw [d h hh, insertAdd_weight, weightOf_cons]
        ring

theorem collect_total {W : HSeq → Prop} {ρ : HSeq → M} (hρ : Stands W ρ) : ∀ (r acc : Raw), Over W r → Over W acc →
    total ρ (r.foldl (fun acc e => if e.1.isZero then acc else insertAdd e acc) acc) = total ρ acc + total ρ r
  | [], acc, _, _ => by simp
  | e :: r, acc, hr, ha => by
    simp only [List.foldl_cons]
    have he := hr e List.mem_cons_self
    have hr' : Over W r := fun x hx => hr x (List.mem_cons_of_mem _ hx)
    by_cases hz : e.1.isZero = true
    · simp only [hz, if_true]
      rw [collect_total hρ r acc hr' ha, total_cons, hρ.zero _ he.1 (by simpa [HSeq.isZero] using hz)]
      simp
    · simp only [hz]
      rw [if_neg (by simp), collect_total hρ r _ hr' (by
        intro x hx
        rcases insertAdd_words x hx with h | ⟨y, hy, h⟩
        · rw [h]; exact he
        · rw [← h]; exact ha y hy), insertAdd_total, total_cons]
      · abel
      · exact fun y hy hh => hρ.hash _ _ (ha y hy).1 he.1 hh (ha y hy).2 he.2

theorem filter_total (ρ : HSeq → M) : ∀ r : Raw, total ρ (r.filter fun e => decide (e.2 ≠ 0)) = total ρ r
  | [] => rfl
  | e :: r => by
    rw [List.filter_cons]
    split
    · rw [total_cons, total_cons, filter_total ρ r]
    · rename_i h
      simp only [ne_eq, decide_not, Bool.not_eq_true, Bool.not_eq_false', decide_eq_true_eq] at h
      rw [total_cons, filter_total ρ r, h]
      simp

theorem filter_weight (h : UInt64) : ∀ r : Raw, weightOf (r.filter fun e => decide (e.2 ≠ 0)) h = weightOf r h
  | [] => rfl
  | e :: r => by
    rw [List.filter_cons]
    split
    · rw [weightOf_cons, weightOf_cons, filter_weight h r]
    · rename_i hh
      simp only [ne_eq, decide_not, Bool.not_eq_true, Bool.not_eq_false', decide_eq_true_eq] at hh
      rw [weightOf_cons, filter_weight h r, hh]
      simp

/-- The special case of one element makes no difference. -/
theorem condense_eq (r : Raw) : condense r = (collect r).filter fun e => decide (e.2 ≠ 0) := by
  unfold condense
  split
  · rfl
  · rename_i e
    split
    · rename_i h
      by_cases hz : e.1.isZero = true
      · simp [collect, hz]
      · rcases h with h | h
        · exact absurd h hz
        · simp [collect, hz, insertAdd, h]
    · rfl
  · rfl

theorem condense_condensed (r : Raw) : Condensed (condense r) := by
  rw [condense_eq]
  obtain ⟨a, b, -, -⟩ := collect_spec r [] (by simp) (by simp)
  exact ⟨a.filter _, fun e he => b e (List.mem_filter.mp he).1, fun e he => by simpa using (List.mem_filter.mp he).2⟩

theorem condense_words (r : Raw) : ∀ e ∈ condense r, ∃ y ∈ r, y.1 = e.1 := by
  rw [condense_eq]
  obtain ⟨-, -, c, -⟩ := collect_spec r [] (by simp) (by simp)
  intro e he
  obtain ⟨y, hy, h⟩ := c e (List.mem_filter.mp he).1
  exact ⟨y, by simpa using hy, h⟩

theorem condense_weight (r : Raw) (h : UInt64) (hh : h ≠ 0) : weightOf (condense r) h = weightOf r h := by
  obtain ⟨-, -, -, d⟩ := collect_spec r [] (by simp) (by simp)
  rw [condense_eq, filter_weight]
  have := d h hh
  simpa [collect] using this

theorem condense_over {W : HSeq → Prop} {r : Raw} (hr : Over W r) : Over W (condense r) := by
  intro e he
  obtain ⟨y, hy, h⟩ := condense_words r e he
  rw [← h]
  exact hr y hy

theorem condense_total {W : HSeq → Prop} {ρ : HSeq → M} (hρ : Stands W ρ) {r : Raw} (hr : Over W r) : total ρ (condense r) = total ρ r := by
  rw [condense_eq, filter_total]
  have := collect_total hρ r [] hr (by simp [Over])
  simpa [collect] using this

/-- Weights of a condensed list. -/
theorem weightOf_mem : ∀ {r : Raw}, (r.Pairwise fun a b => a.1.hash < b.1.hash) → ∀ e ∈ r, weightOf r e.1.hash = e.2
  | x :: r, h, e, he => by
    obtain ⟨h1, h2⟩ := List.pairwise_cons.mp h
    rcases List.mem_cons.mp he with rfl | he
    · rw [weightOf_cons, if_pos rfl]
      have : weightOf r e.1.hash = 0 := by
        unfold weightOf
        apply List.sum_eq_zero
        intro y hy
        obtain ⟨z, hz, rfl⟩ := List.mem_map.mp hy
        rw [if_neg]
        intro hh
        have := h1 z hz
        rw [hh] at this
        exact UInt64.lt_irrefl _ this
      rw [this, add_zero]
    · rw [weightOf_cons, if_neg, zero_add, weightOf_mem h2 e he]
      intro hh
      have := h1 e he
      rw [hh] at this
      exact UInt64.lt_irrefl _ this

theorem weightOf_ne {r : Raw} {h : UInt64} (hn : weightOf r h ≠ 0) : ∃ e ∈ r, e.1.hash = h := by
  by_contra hc
  push Not at hc
  apply hn
  unfold weightOf
  apply List.sum_eq_zero
  intro y hy
  obtain ⟨z, hz, rfl⟩ := List.mem_map.mp hy
  rw [if_neg (hc z hz)]

theorem condensed_unique : ∀ {p q : Raw}, Condensed p → Condensed q → (∀ h, h ≠ 0 → weightOf p h = weightOf q h) →
    p.map (fun e => (e.1.hash, e.2)) = q.map fun e => (e.1.hash, e.2)
  | [], [], _, _, _ => rfl
  | [], y :: q, _, hq, h => by
    have h1 := h y.1.hash (hq.words y List.mem_cons_self)
    rw [weightOf_mem hq.sorted y List.mem_cons_self] at h1
    exact absurd h1.symm (hq.weights y List.mem_cons_self)
  | x :: p, [], hp, _, h => by
    have h1 := h x.1.hash (hp.words x List.mem_cons_self)
    rw [weightOf_mem hp.sorted x List.mem_cons_self] at h1
    exact absurd h1 (hp.weights x List.mem_cons_self)
  | x :: p, y :: q, hp, hq, h => by
    have hx := h x.1.hash (hp.words x List.mem_cons_self)
    have hy := h y.1.hash (hq.words y List.mem_cons_self)
    rw [weightOf_mem hp.sorted x List.mem_cons_self] at hx
    rw [weightOf_mem hq.sorted y List.mem_cons_self] at hy
    obtain ⟨p1, p2⟩ := List.pairwise_cons.mp hp.sorted
    obtain ⟨q1, q2⟩ := List.pairwise_cons.mp hq.sorted
    have e : x.1.hash = y.1.hash := by
      obtain ⟨a, ha, hax⟩ := weightOf_ne (r := y :: q) (h := x.1.hash) (by rw [← hx]; exact hp.weights x List.mem_cons_self)
      obtain ⟨b, hb, hby⟩ := weightOf_ne (r := x :: p) (h := y.1.hash) (by rw [hy]; exact hq.weights y List.mem_cons_self)
      rcases List.mem_cons.mp ha with rfl | ha
      · exact hax.symm
      · rcases List.mem_cons.mp hb with rfl | hb
        · exact hby
        · have h1 := q1 a ha
          have h2 := p1 b hb
          rw [hax] at h1
          rw [hby] at h2
          exact absurd (UInt64.lt_trans h1 h2) (UInt64.lt_irrefl _)
    have e2 : x.2 = y.2 := by
      rw [hx, e]
      exact weightOf_mem hq.sorted y List.mem_cons_self
    have hp' : Condensed p := ⟨p2, fun e he => hp.words e (List.mem_cons_of_mem _ he), fun e he => hp.weights e (List.mem_cons_of_mem _ he)⟩
    have hq' : Condensed q := ⟨q2, fun e he => hq.words e (List.mem_cons_of_mem _ he), fun e he => hq.weights e (List.mem_cons_of_mem _ he)⟩
    rw [List.map_cons, List.map_cons, e, e2, condensed_unique hp' hq' (fun k hk => by
      have := h k hk
      rw [weightOf_cons, weightOf_cons, e, e2] at this
      exact add_left_cancel this)]

theorem rawElem_total {W : HSeq → Prop} {ρ : HSeq → M} (hρ : Stands W ρ) {w : HSeq} (hw : W w) (f : ℂ) :
    (SymbolMatrix.rawElem w f).2 • ρ (SymbolMatrix.rawElem w f).1 = f • ρ w := by
  simp only [SymbolMatrix.rawElem, SymbolMatrix.scalar_phase]
  rw [hρ.phase w hw, mul_smul]

theorem product_over {W : HSeq → Prop} (hs : ∀ w, W w → W { w with sign := .pos }) {op : HSeq → HSeq → HSeq} {weight : ℂ → ℂ → ℂ} {p q : Raw}
    (hop : ∀ a ∈ p, ∀ b ∈ q, W (op a.1 b.1)) :
    Over W (p.flatMap fun a => q.map fun b => SymbolMatrix.rawElem (op a.1 b.1) (weight a.2 b.2)) := by
  intro e he
  obtain ⟨a, ha, he⟩ := List.mem_flatMap.mp he
  obtain ⟨b, hb, rfl⟩ := List.mem_map.mp he
  exact ⟨hs _ (hop a ha b hb), rfl⟩

theorem product_total {W : HSeq → Prop} (hs : ∀ w, W w → W { w with sign := .pos }) {ρ : HSeq → M} (hρ : Stands W ρ) {op : HSeq → HSeq → HSeq}
    {weight : ℂ → ℂ → ℂ} (B : M →ₗ[ℂ] M →ₗ[ℂ] M) {p q : Raw} (hop : ∀ a ∈ p, ∀ b ∈ q, W (op a.1 b.1))
    (hB : ∀ a ∈ p, ∀ b ∈ q, weight a.2 b.2 • ρ (op a.1 b.1) = (a.2 * b.2) • B (ρ a.1) (ρ b.1)) :
    total ρ (product op weight p q) = B (total ρ p) (total ρ q) := by
  unfold product
  rw [condense_total hρ (product_over hs hop)]
  induction p with
  | nil => simp
  | cons a p ih =>
    rw [List.flatMap_cons, total_append, ih (fun a ha => hop a (List.mem_cons_of_mem _ ha)) (fun a ha => hB a (List.mem_cons_of_mem _ ha)), total_cons]
    simp only [map_add, map_smul, LinearMap.add_apply, LinearMap.smul_apply]
    congr 1
    have h1 := hop a List.mem_cons_self
    have h2 := hB a List.mem_cons_self
    clear ih hop hB
    induction q with
    | nil => simp
    | cons b q ih =>
      rw [List.map_cons, total_cons, rawElem_total hρ (h1 b List.mem_cons_self), h2 b List.mem_cons_self,
        ih (fun b hb => h1 b (List.mem_cons_of_mem _ hb)) (fun b hb => h2 b (List.mem_cons_of_mem _ hb)), total_cons]
      simp only [map_add, map_smul]
      module

end Moment.RawPoly
