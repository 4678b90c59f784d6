import Verif.Props.C12_Inflation
import Verif.Spec.Extend

/-! The contexts of inflation scenarios do what factor tables ask of them. -/

namespace Moment.Inflation.Extend
open Moment Moment.Inflation Moment.C12

variable {n : Causal} {c : Ctx}

/-- The result of a simplification as a word, `none` is zero. -/
def ofOutcome : Outcome → Option (List Nat)
  | .word w => some w
  | _ => none

open Classical in
/-- `canonical_moment` (inflation_context.h:255-261); zero has no operators and is echoed. -/
noncomputable def canonicalOf (c : Ctx) : Option (List Nat) → Option (List Nat)
  | none => none
  | some w => if h : ∃ r, Canonical c w r then some h.choose else some w

/-- `factorize` (inflation_context.cpp:167-239); zero has no operators and is echoed. -/
def factorizeOf (c : Ctx) : Option (List Nat) → List (Option (List Nat))
  | none => [none]
  | some w => (factorize c w).map ofOutcome

/-- An inflation context, as the factor table sees it. -/
noncomputable def ofContext (c : Ctx) (grow : Nat → Nat) : Scenario (Option (List Nat)) := ⟨factorizeOf c, canonicalOf c, grow⟩

/-- The words of symbols: zero, or a simplified word of operators of the context. -/
def IsWord (c : Ctx) : Option (List Nat) → Prop
  | none => True
  | some w => (∀ m ∈ w, m < operatorCount c) ∧ simplify c w = .word w

theorem canonicalOf_eq {w r : List Nat} (h : Canonical c w r) : canonicalOf c (some w) = some r := by
  have hex : ∃ r, Canonical c w r := ⟨r, h⟩
  rw [canonicalOf, dif_pos hex, C14_functional hex.choose_spec h]

theorem names_lt (hc : ContextOf n c) {u : List Op} {w : List Nat} (h : Names n c u w) : ∀ m ∈ w, m < operatorCount c := by
  obtain ⟨h1, rfl⟩ := names_iff.mp h
  intro m hm
  obtain ⟨a, ha, rfl⟩ := List.mem_map.mp hm
  exact enc_lt ⟨hc⟩ (h1 a ha)

theorem named (hc : ContextOf n c) {w : List Nat} (h : ∀ m ∈ w, m < operatorCount c) : ∃ u, Names n c u w := by
  obtain ⟨u, h1, h2⟩ := word_surj ⟨hc⟩ h
  exact ⟨u, names_iff.mpr ⟨h1, h2.symm⟩⟩

theorem linked_relabel (σ : Nat → Nat → Nat) {a b : Op} (h : Linked n a b) : Linked n (relabel n σ a) (relabel n σ b) := by
  have key : ∀ (l m : List Nat) (s v : Nat), (s, v) ∈ l.zip m → (s, σ s v) ∈ l.zip (List.zipWith σ l m) := by
    intro l
    induction l with
    | nil => simp
    | cons x l ih =>
      intro m s v hm
      cases m with
      | nil => simp at hm
      | cons y m =>
        simp only [List.zip_cons_cons, List.mem_cons, Prod.mk.injEq, List.zipWith_cons_cons] at hm ⊢
        rcases hm with ⟨rfl, rfl⟩ | hm
        · exact Or.inl ⟨rfl, rfl⟩
        · exact Or.inr (ih m s v hm)
  rcases h with ⟨s, v, h1, h2⟩ | h
  · exact Or.inl ⟨s, σ s v, key _ _ _ _ h1, key _ _ _ _ h2⟩
  · exact Or.inr h

/-- A word that cannot be split is its only factor. -/
theorem factorize_connected (hc : ContextOf n c) {u : List Op} {w : List Nat} (hu : Names n c u w) (hw : simplify c w = .word w)
    (hcon : ∀ p q : List Op, (p ++ q).Perm u → p ≠ [] → q ≠ [] → ∃ a ∈ p, ∃ b ∈ q, Linked n a b) : factorize c w = [.word w] := by
  obtain ⟨gs, xs, e1, e2, e3, e4, e5, e6, -⟩ := C13_factorize hc hu hw
  by_cases hne : u = []
  · subst hne
    cases hu
    rfl
  cases e2 with
  | nil =>
    simp only [List.flatten_nil] at e3
    exact absurd (List.nil_perm.mp e3) hne
  | @cons g x gs xs hgx hrest =>
    cases hrest with
    | nil =>
      rw [e1]
      simp only [List.flatten_cons, List.flatten_nil, List.append_nil] at e3
      have := (C12_decides hc hgx hu).mpr (same_perm e3)
      rw [e4 x (by simp), hw] at this
      simp [Outcome.word.inj this]
    | @cons g' x' gs xs hgx' hrest =>
      exfalso
      obtain ⟨a, ha, b, hb, hl⟩ := hcon g (g' :: gs).flatten (by simpa using e3) (e5 hne g (by simp)) (by
        have := e5 hne g' (by simp)
        simp [this])
      obtain ⟨h, hh, hb⟩ := List.mem_flatten.mp hb
      exact (List.pairwise_cons.mp e6).1 h hh a ha b hb hl

theorem connected_relabel {u v : List Op} {σ : Nat → Nat → Nat} (hv : v.Perm (u.map (relabel n σ)))
    (hcon : ∀ p q : List Op, (p ++ q).Perm u → p ≠ [] → q ≠ [] → ∃ a ∈ p, ∃ b ∈ q, Linked n a b) (p q : List Op) (hpq : (p ++ q).Perm v) (hp : p ≠ [])
    (hq : q ≠ []) : ∃ a ∈ p, ∃ b ∈ q, Linked n a b := by
  have h1 : (p ++ q).Perm (u.map (relabel n σ)) := hpq.trans hv
  have h2 : Relation.Comp (· = List.map (relabel n σ) ·) List.Perm (p ++ q) u := by rw [List.eq_map_comp_perm]; exact h1
  obtain ⟨z, hz, hzu⟩ := h2
  obtain ⟨p', q', rfl, rfl, rfl⟩ := List.append_eq_map_iff.mp hz
  obtain ⟨a, ha, b, hb, hl⟩ := hcon p' q' hzu (by simpa using hp) (by simpa using hq)
  exact ⟨_, List.mem_map_of_mem ha, _, List.mem_map_of_mem hb, linked_relabel σ hl⟩

theorem canonical_empty (hc : ContextOf n c) : Canonical c [] [] := by
  have hn : Names n c [] [] := .nil
  obtain ⟨r, v, σ, h1, h2, -, h4, -⟩ := C14_terminates hc hn rfl
  have : v = [] := List.perm_nil.mp h4
  subst this
  cases h2
  exact h1

/-- Inflation contexts are lawful. -/
theorem lawful (hc : ContextOf n c) (grow : Nat → Nat) : Lawful (ofContext c grow) (IsWord c) none (some []) := by
  refine ⟨by simp, trivial, ⟨by simp, rfl⟩, ⟨rfl, rfl⟩, ⟨rfl, canonicalOf_eq (canonical_empty hc)⟩, ?_, ?_⟩
  · intro w hw
    cases w with
    | none => exact List.cons_ne_nil _ _
    | some w =>
      obtain ⟨u, hu⟩ := named hc hw.1
      obtain ⟨gs, xs, e1, e2, e3, -⟩ := C13_factorize hc hu hw.2
      show (factorize c w).map ofOutcome ≠ []
      by_cases hne : w = []
      · subst hne; simp [factorize]
      · intro h
        rw [e1] at h
        simp only [List.map_eq_nil_iff] at h
        subst h
        cases e2
        simp only [List.flatten_nil] at e3
        rw [List.nil_perm.mp e3] at hu
        cases hu
        exact hne rfl
  · intro w hw f hf
    cases w with
    | none =>
      have : f = none := by simpa [ofContext, factorizeOf] using hf
      subst this
      exact ⟨trivial, rfl, rfl⟩
    | some w =>
      obtain ⟨u, hu⟩ := named hc hw.1
      obtain ⟨gs, xs, e1, e2, e3, e4, -, -, e7⟩ := C13_factorize hc hu hw.2
      have hf : f ∈ (factorize c w).map ofOutcome := hf
      rw [e1, List.map_map, List.mem_map] at hf
      obtain ⟨x, hx, rfl⟩ := hf
      obtain ⟨i, hi⟩ := List.mem_iff_getElem?.mp hx
      have hil := (List.getElem?_eq_some_iff.mp hi).1
      have hgl : i < gs.length := by rw [e2.length_eq]; exact hil
      have hgx : Names n c gs[i] x := by
        have := (List.forall₂_iff_get.mp e2).2 i hgl hil
        simp only [List.get_eq_getElem] at this
        rwa [(List.getElem?_eq_some_iff.mp hi).2] at this
      obtain ⟨r, v, σ, h1, h2, h3, h4, h5, h6⟩ := C14_terminates hc hgx (e4 x hx)
      have hcan : (ofContext c grow).canonical (((ofOutcome ∘ Outcome.word)) x) = some r := canonicalOf_eq h1
      rw [hcan]
      refine ⟨⟨names_lt hc h2, h5⟩, ?_, canonicalOf_eq h6⟩
      show (factorize c r).map ofOutcome = [some r]
      rw [factorize_connected hc h2 h5 (connected_relabel h4 (e7 _ (List.getElem_mem hgl)))]
      rfl

/-- Values of words of operators that are possible in the scenario: independent words multiply, and copies of the sources are exchangeable. -/
structure Possible {M : Type} [CommMonoidWithZero M] (n : Causal) (level : Nat) (m : List Op → M) : Prop where
  empty : m [] = 1
  order : ∀ u v : List Op, u.Perm v → m u = m v
  independent : ∀ u v : List Op, (∀ a ∈ u, ∀ b ∈ v, ¬ Linked n a b) → m (u ++ v) = m u * m v
  copies : ∀ σ u, Relabelling level σ → (∀ a ∈ u, Exists n level a) → m (u.map (relabel n σ)) = m u

theorem possible_product {M : Type} [CommMonoidWithZero M] {level : Nat} {m : List Op → M} (h : Possible n level m) : ∀ (gs : List (List Op)),
    gs.Pairwise (fun g h => ∀ a ∈ g, ∀ b ∈ h, ¬ Linked n a b) → m gs.flatten = (gs.map m).prod
  | [], _ => by simp [h.empty]
  | g :: gs, hp => by
    rw [List.pairwise_cons] at hp
    rw [List.flatten_cons, h.independent, List.map_cons, List.prod_cons, possible_product h gs hp.2]
    intro a ha b hb
    obtain ⟨k, hk, hb⟩ := List.mem_flatten.mp hb
    exact hp.1 k hk a ha b hb

/-- They give values of the words of the symbols. -/
theorem possible_moments {M : Type} [CommMonoidWithZero M] (hc : ContextOf n c) (grow : Nat → Nat) {m : List Op → M} (h : Possible n c.infl m)
    {μ : Option (List Nat) → M} (h0 : μ none = 0) (hμ : ∀ u w, Names n c u w → μ (some w) = m u) :
    Moments (ofContext c grow) (IsWord c) none (some []) μ := by
  refine ⟨h0, by rw [hμ [] [] .nil, h.empty], ?_, ?_⟩
  · intro w hw
    cases w with
    | none => simp [ofContext, factorizeOf]
    | some w =>
      obtain ⟨u, hu⟩ := named hc hw.1
      obtain ⟨gs, xs, e1, e2, e3, e4, -, e6, -⟩ := C13_factorize hc hu hw.2
      show μ (some w) = (((factorize c w).map ofOutcome).map μ).prod
      rw [e1, hμ u w hu, ← h.order _ _ e3, possible_product h gs e6]
      congr 1
      clear e1 e3 e4 e6
      induction e2 with
      | nil => rfl
      | cons hgx _ ih =>
        simp only [List.map_cons, ih]
        rw [← hμ _ _ hgx]
        rfl
  · intro w hw f hf
    cases w with
    | none =>
      have : f = none := by simpa [ofContext, factorizeOf] using hf
      subst this
      rfl
    | some w =>
      obtain ⟨u, hu⟩ := named hc hw.1
      obtain ⟨gs, xs, e1, e2, e3, e4, -, -, e7⟩ := C13_factorize hc hu hw.2
      have hf : f ∈ (factorize c w).map ofOutcome := hf
      rw [e1, List.map_map, List.mem_map] at hf
      obtain ⟨x, hx, rfl⟩ := hf
      obtain ⟨g, hg⟩ : ∃ g, Names n c g x := by
        obtain ⟨i, hi⟩ := List.mem_iff_getElem?.mp hx
        have hil := (List.getElem?_eq_some_iff.mp hi).1
        have hgl : i < gs.length := by rw [e2.length_eq]; exact hil
        have := (List.forall₂_iff_get.mp e2).2 i hgl hil
        simp only [List.get_eq_getElem] at this
        rw [(List.getElem?_eq_some_iff.mp hi).2] at this
        exact ⟨_, this⟩
      obtain ⟨r, v, σ, h1, h2, h3, h4, h5, h6⟩ := C14_terminates hc hg (e4 x hx)
      have hcan : (ofContext c grow).canonical (((ofOutcome ∘ Outcome.word)) x) = some r := canonicalOf_eq h1
      rw [hcan, hμ v r h2]
      show m v = μ (some x)
      rw [hμ g x hg, h.order _ _ h4, h.copies σ g h3 (names_iff.mp hg).1]

end Moment.Inflation.Extend
