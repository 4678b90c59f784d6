import Verif.Model.PolyTensor
import Verif.Props.C95_Correlators
import Verif.Props.C93_CollinsGisin

/-! # Proofs about tensors of polynomials -/

namespace Moment.PolyTensor
open Moment.Probability Moment.Poly
open Moment.C94 (Named Draws)

/-! ## Single elements -/

/-- An observable of a scenario, in terms of the operators of outcomes. -/
abbrev Target := ∀ (A : Type) [Ring A] [Algebra ℂ A], (Nat → Nat → Nat → A) → A

/-- The polynomial of an element in entries of the Collins-Gisin tensor has the value of the observable, and so has its polynomial in symbols. -/
structure Good (ps : Parties) (t : Table) (cg : Gisin) (X : Target) (e : Element) : Prop where
  draws : Draws (gisinDims ps) cg e
  gisin : ∀ (A : Type) [Ring A] [Algebra ℂ A] (P : Nat → Nat → Nat → A) (φ : A →ₗ[ℂ] ℂ), Complete ps P → ∀ v, Describes ps P φ v →
    value (entry v) e.gisin = φ (X A P)
  symbols : ∀ (A : Type) [Ring A] [Algebra ℂ A] (P : Nat → Nat → Nat → A) (φ : A →ₗ[ℂ] ℂ), Complete ps P → ∀ v w p, Describes ps P φ v → Respects t w →
    Named ps cg P φ w → w 1 = φ 1 → e.symbols = some p → value w p = φ (X A P)

/-- More symbols are known. -/
structure Grows (ps : Parties) (t t' : Table) (cg cg' : Gisin) : Prop where
  table : ∀ w, Respects t' w → Respects t w
  symbol : ∀ idx, List.Forall₂ (· < ·) idx (gisinDims ps) → ∀ s, cg.symbol (position (gisinDims ps) idx) = some s →
    cg'.symbol (position (gisinDims ps) idx) = some s

theorem Grows.refl (ps : Parties) (t : Table) (cg : Gisin) : Grows ps t t cg cg := ⟨fun _ h => h, fun _ _ _ h => h⟩

theorem Good.grow {ps : Parties} {t t' : Table} {cg cg' : Gisin} {X : Target} {e : Element} (h : Good ps t cg X e) (hg : Grows ps t t' cg cg') :
    Good ps t' cg' X e := by
  refine ⟨⟨h.draws.1, fun hs m hm h1 => ?_⟩, h.gisin, fun A _ _ P φ hP v w p hv hw hn h1 hp => ?_⟩
  · obtain ⟨-, -, idx, i1, i2⟩ := h.draws.1 m hm
    obtain ⟨s, hs⟩ := Option.isSome_iff_exists.mp (h.draws.2 hs m hm h1)
    rw [i2] at hs ⊢
    rw [hg.symbol idx i1 s hs]
    rfl
  · exact h.symbols A P φ hP v w p hv (hg.table w hw) (fun idx hi s hs => hn idx hi s (hg.symbol idx hi s hs)) h1 hp

theorem attempt_gisin (t : Table) (o : Order) (cg : Gisin) (e : Element) : (attempt t o cg e).gisin = e.gisin := by
  unfold attempt
  split <;> rfl

/-- The entries that the polynomial of an element mentions. -/
abbrev needs (e : Element) : List (Nat × ℂ) := e.gisin.map fun m => (m.id - 1, m.factor)

theorem Good.attempt {ps : Parties} {t : Table} {cg : Gisin} {X : Target} {e : Element} (o : Order) (h : Good ps t cg X e) :
    Good ps t cg X (attempt t o cg e) := by
  unfold Probability.attempt
  split
  · rename_i l hl
    refine ⟨⟨h.draws.1, fun _ m hm _ => ?_⟩, h.gisin, fun A _ _ P φ hP v w p hv hw hn h1 hp => ?_⟩
    · have := resolve_isSome.mp (Option.isSome_iff_exists.mpr ⟨l, hl⟩)
      exact this (m.id - 1, m.factor) (List.mem_map.mpr ⟨m, hm, rfl⟩)
    · simp only [Option.some.injEq] at hp
      rw [← hp, make_value hw, resolve_value (v := v) (fun x hx s hs => ?_) hl,
        C95.total_attempt v _ (fun m hm => ⟨(h.draws.1 m hm).1, (h.draws.1 m hm).2.1⟩), h.gisin A P φ hP v hv]
      obtain ⟨m, hm, rfl⟩ := List.mem_map.mp hx
      obtain ⟨-, -, idx, i1, i2⟩ := h.draws.1 m hm
      dsimp only at hs ⊢
      rw [i2] at hs ⊢
      rw [hn idx i1 s hs, hv idx i1]
  · exact h

/-! ## Refreshing -/

/-- What refreshing does to an element. -/
noncomputable def renew (t : Table) (o : Order) (cg : Gisin) (e : Element) : Element := if e.symbols.isSome then e else Probability.attempt t o cg e

theorem renew_gisin (t : Table) (o : Order) (cg : Gisin) (e : Element) : (renew t o cg e).gisin = e.gisin := by
  unfold renew
  split
  · rfl
  · exact attempt_gisin t o cg e

theorem renew_isSome (t : Table) (o : Order) (cg : Gisin) (e : Element) :
    (renew t o cg e).symbols.isSome = true ↔ e.symbols.isSome = true ∨ ∀ x ∈ needs e, (cg.symbol x.1).isSome = true := by
  unfold renew
  rw [← resolve_isSome]
  split
  · rename_i h; simp [h]
  · rename_i h
    unfold Probability.attempt
    cases hr : resolve cg (needs e) with
    | none => simp only [needs] at hr; simp [hr, h]
    | some l => simp only [needs] at hr; simp [hr]

theorem Good.renew {ps : Parties} {t : Table} {cg : Gisin} {X : Target} {e : Element} (o : Order) (h : Good ps t cg X e) :
    Good ps t cg X (renew t o cg e) := by
  unfold PolyTensor.renew
  split
  · exact h
  · exact h.attempt o

theorem absent_nil_iff : ∀ (l : List Element) (k : Nat), absent k l = [] ↔ ∀ e ∈ l, e.symbols.isSome = true
  | [], _ => by simp [absent]
  | e :: l, k => by
    unfold absent
    split
    · rename_i h
      rw [absent_nil_iff l (k + 1)]
      simp [h]
    · rename_i h
      simp [h]

theorem fillLoop_eq (t : Table) (o : Order) (cg : Gisin) : ∀ (l p : List Element),
    fillLoop t o cg (p ++ l) (absent p.length l) = (p ++ l.map (renew t o cg), absent p.length (l.map (renew t o cg)))
  | [], p => by simp [fillLoop, absent]
  | e :: l, p => by
    have ih := fillLoop_eq t o cg l
    cases he : e.symbols.isSome with
    | true =>
      have h1 := ih (p ++ [e])
      rw [List.length_append, List.length_singleton, List.append_assoc, List.append_assoc] at h1
      simp only [List.singleton_append] at h1
      have hr : renew t o cg e = e := by simp [renew, he]
      simp only [absent, he, if_true, List.map_cons, hr]
      exact h1
    | false =>
      have hget : (p ++ e :: l)[p.length]? = some e := by simp
      have hset : (p ++ e :: l).set p.length (Probability.attempt t o cg e) = (p ++ [Probability.attempt t o cg e]) ++ l := by simp
      have hr : renew t o cg e = Probability.attempt t o cg e := by simp [renew, he]
      have h1 := ih (p ++ [Probability.attempt t o cg e])
      rw [List.length_append, List.length_singleton] at h1
      have hs := renew_isSome t o cg e
      rw [hr, ← resolve_isSome] at hs
      simp only [he, Bool.false_eq_true, false_or] at hs
      simp only [absent, he, Bool.false_eq_true, if_false, fillLoop, hget, hset, h1, List.map_cons, hr]
      by_cases hk : (resolve cg (needs e)).isSome = true
      · rw [if_pos hk, if_pos (hs.mpr hk)]
        simp
      · rw [if_neg hk, if_neg (fun h => hk (hs.mp h))]
        simp

/-- What a tensor records about its elements. -/
structure Tidy (T : Tensor) : Prop where
  all : T.isVirtual = false → (T.hasAll = true ↔ ∀ e ∈ T.data, e.symbols.isSome = true)
  missing : T.hasAll = false → T.missing = absent 0 T.data
  virt : T.isVirtual = true → T.hasAll = true

theorem fill_eq {T : Tensor} (hT : Tidy T) (t : Table) (o : Order) (cg : Gisin) :
    Tidy (T.fill t o cg).1 ∧ (T.fill t o cg).1.isVirtual = T.isVirtual ∧ (T.fill t o cg).2 = (T.fill t o cg).1.hasAll ∧
      (T.isVirtual = false → (T.fill t o cg).1.data = T.data.map (renew t o cg)) ∧ (T.isVirtual = true → (T.fill t o cg).1 = T) := by
  unfold Tensor.fill
  cases ha : T.hasAll with
  | true =>
    simp only [if_true]
    refine ⟨hT, by trivial, by simp [ha], fun hv => ?_, fun _ => by trivial⟩
    have := (hT.all hv).mp ha
    refine (List.map_id' T.data).symm.trans (List.map_congr_left fun e he => ?_)
    simp [renew, this e he]
  | false =>
    have hv : T.isVirtual = false := by
      cases hv : T.isVirtual with
      | false => rfl
      | true => rw [hT.virt hv] at ha; simp at ha
    have h1 := fillLoop_eq t o cg T.data []
    simp only [List.nil_append, List.length_nil] at h1
    simp only [Bool.false_eq_true, if_false, hT.missing ha, h1]
    by_cases hn : absent 0 (T.data.map (renew t o cg)) = []
    · rw [if_pos (by simp [hn])]
      exact ⟨⟨fun _ => by simpa using (absent_nil_iff _ _).mp hn, fun h => by simp at h, fun _ => rfl⟩, rfl, rfl, fun _ => rfl, fun h => by rw [hv] at h; simp at h⟩
    · rw [if_neg (by simpa using hn)]
      refine ⟨⟨fun _ => ?_, fun _ => rfl, fun h => by rw [hv] at h; simp at h⟩, rfl, rfl, fun _ => rfl, fun h => by rw [hv] at h; simp at h⟩
      rw [absent_nil_iff] at hn
      simp only [Bool.false_eq_true, false_iff]
      exact hn

/-- Tensors of which all elements are good. -/
structure Holds (ps : Parties) (t : Table) (cg : Gisin) (dims : List Nat) (X : List Nat → Target) (T : Tensor) : Prop where
  tidy : Tidy T
  virt : T.isVirtual = true ↔ Moment.Tensor.elementCount dims > 1024
  size : T.isVirtual = false → T.data.length = dims.prod
  good : T.isVirtual = false → ∀ (k : Nat) e, T.data[k]? = some e → Good ps t cg (X (MultiDim.nth true dims k)) e

theorem Holds.grow {ps : Parties} {t t' : Table} {cg cg' : Gisin} {dims : List Nat} {X : List Nat → Target} {T : Tensor} (h : Holds ps t cg dims X T)
    (hg : Grows ps t t' cg cg') : Holds ps t' cg' dims X T :=
  ⟨h.tidy, h.virt, h.size, fun hv k e he => (h.good hv k e he).grow hg⟩

theorem Holds.fill {ps : Parties} {t : Table} {cg : Gisin} {dims : List Nat} {X : List Nat → Target} {T : Tensor} (o : Order)
    (h : Holds ps t cg dims X T) : Holds ps t cg dims X (T.fill t o cg).1 := by
  obtain ⟨h1, h2, -, h3, -⟩ := fill_eq h.tidy t o cg
  refine ⟨h1, by rw [h2]; exact h.virt, fun hv => ?_, fun hv k e he => ?_⟩
  · rw [h3 (h2 ▸ hv), List.length_map, h.size (h2 ▸ hv)]
  · rw [h3 (h2 ▸ hv), List.getElem?_map, Option.map_eq_some_iff] at he
    obtain ⟨e0, he0, rfl⟩ := he
    exact (h.good (h2 ▸ hv) k e0 he0).renew o

theorem build_holds {ps : Parties} {t : Table} {cg : Gisin} {dims : List Nat} {X : List Nat → Target} {make : List Nat → Option Element} (hne : dims ≠ [])
    (hm : Moment.Tensor.elementCount dims ≤ 1024 → ∀ index, List.Forall₂ (· < ·) index dims → ∃ e, make index = some e ∧ Good ps t cg (X index) e) :
    ∃ T, build dims make = some T ∧ Holds ps t cg dims X T ∧ (T.isVirtual = false → T.data.length = dims.prod ∧
      ∀ k < dims.prod, ∃ e, make (MultiDim.nth true dims k) = some e ∧ T.data[k]? = some e) := by
  unfold build
  split
  · rename_i hb
    exact ⟨_, rfl, ⟨⟨fun h => by simp at h, fun h => by simp at h, fun _ => rfl⟩, by simpa using hb, fun h => by simp at h, fun h => by simp at h⟩,
      fun h => by simp at h⟩
  · rename_i hb
    have hb' : Moment.Tensor.elementCount dims ≤ 1024 := by omega
    rw [Gisin.indices_eq hne]
    have hval : ∀ k < dims.prod, List.Forall₂ (· < ·) (MultiDim.nth true dims k) dims := fun k hk => (MultiDim.nth_mem true dims _).mp ⟨k, hk, rfl⟩
    obtain ⟨es, hes⟩ := Gisin.mapM_some' (f := make) (l := (List.range dims.prod).map (MultiDim.nth true dims)) fun a ha => by
      obtain ⟨k, hk, rfl⟩ := List.mem_map.mp ha
      obtain ⟨e, he, -⟩ := hm hb' _ (hval k (List.mem_range.mp hk))
      rw [he]; rfl
    obtain ⟨hlen, hget⟩ := Gisin.mapM_get hes
    have hlen' : es.length = dims.prod := by rw [hlen, List.length_map, List.length_range]
    have hget' : ∀ k < dims.prod, ∃ e, make (MultiDim.nth true dims k) = some e ∧ es[k]? = some e := fun k hk =>
      hget k _ (by rw [List.getElem?_map, List.getElem?_range hk]; rfl)
    rw [hes]
    refine ⟨_, rfl, ⟨⟨fun _ => ?_, fun _ => rfl, fun h => by simp at h⟩, ?_, fun _ => hlen', fun _ k e he => ?_⟩, fun _ => ⟨hlen', hget'⟩⟩
    · rw [List.isEmpty_iff]; exact absent_nil_iff es 0
    · simpa using hb'
    · have hk : k < dims.prod := by rw [← hlen']; exact (List.getElem?_eq_some_iff.mp he).1
      obtain ⟨e', h1, h2⟩ := hget' k hk
      rw [he, Option.some.injEq] at h2
      subst h2
      obtain ⟨e'', h3, h4⟩ := hm hb' _ (hval k hk)
      rw [h1, Option.some.injEq] at h3
      subst h3
      exact h4

end Moment.PolyTensor
