import Verif.Proof.GenericWords
import Verif.Props.C16_Rules
import Mathlib.LinearAlgebra.Span.Basic

/-! # C88: the list of words of a context -/

namespace Moment.C88
open Moment.GenericWords Moment.Rules Moment.Rewrite Moment.C16 Moment.C17

/-! ## Contexts without a rulebook -/

/-- The context's simplification turns words into words, not longer, or into zero. -/
def Tame (c : Ctx) (max : Nat) : Prop := ∀ w, C02.IsWord c.radix w → w.length ≤ max → ∀ v s, c.simplify w .pos = some (v, s) → C02.IsWord c.radix v ∧ v.length ≤ max

theorem hash_one {r max : Nat} (hr : r < 2 ^ 64) (hL : (∑ k ∈ Finset.range (max + 1), r ^ k) < 2 ^ 64) {w : List Nat} (hw : C02.IsWord r w) (hl : w.length ≤ max) :
    hashWord (UInt64.ofNat r) w ≠ 0 := (C02.C02_hash_shortlex_partial r max hr hL w w hw hw hl hl).2.2.1

theorem get_iff {c : Ctx} {max : Nat} (hr : c.radix < 2 ^ 64) (hL : (∑ k ∈ Finset.range (max + 1), c.radix ^ k) < 2 ^ 64) (ht : Tame c max) {w : List Nat}
    (h0 : w ≠ []) (hw : C02.IsWord c.radix w) (hl : w.length ≤ max) {heap : Bool} (hh : heap = false) {s : HSeq} :
    getIfCanonical c heap w = some s ↔ ∃ u, c.simplify w .pos = some (w, u) ∧ s = ⟨HSeq.hashOps c w, w, u⟩ := by
  subst hh
  have hne := hash_one hr hL hw hl
  have hb : (HSeq.hashOps c w == 0) = false := by rw [beq_eq_false_iff_ne]; exact hne
  unfold getIfCanonical HSeq.construct HSeq.toCanonical
  dsimp only
  cases hs : c.simplify w .pos with
  | none =>
    dsimp only
    rw [if_pos (fun h => h0 (List.length_eq_zero_iff.mp h.symm))]
    simp
  | some x =>
    obtain ⟨v, u⟩ := x
    dsimp only
    obtain ⟨hv, hvl⟩ := ht w hw hl v u hs
    simp only [HSeq.ctxHash, HSeq.isZero, HSeq.movedFrom, Bool.false_eq_true, if_false, hb]
    by_cases e : v = w
    · subst e
      simp [eq_comm]
    · have hne' : HSeq.hashOps c v ≠ HSeq.hashOps c w := fun h => e ((C02.C02_hash_shortlex_partial c.radix max hr hL v w hv hw hvl hl).1.mp h)
      have : ¬ ∃ u', some (v, u) = some (w, u') ∧ s = ⟨HSeq.hashOps c w, w, u'⟩ := by
        rintro ⟨u', h, -⟩
        exact e (congrArg Prod.fst (Option.some.inj h))
      simp only [this, iff_false]
      split
      · simp
      · simp

/-- **C88.** In contexts without a rulebook: the identity, and every word up to the given length that simplification leaves as it is, once, by increasing length
and alphabetically. Words are taken to be on the stack (see C04 for longer ones), and their hashes not to wrap around.
Missing: hashes that wrap around. -/
theorem C88_plain_partial (c : Ctx) (max : Nat) (hr : c.radix < 2 ^ 64) (hL : (∑ k ∈ Finset.range (max + 1), c.radix ^ k) < 2 ^ 64) (ht : Tame c max) :
    ∃ l, generic (fun w => some (getIfCanonical c false w)) c.radix max = some l ∧ (l.map HSeq.ops).Pairwise (List.Shortlex (· < ·)) ∧
      ∀ s, s ∈ l ↔ s = HSeq.identity .pos ∨
        (s.ops ≠ [] ∧ C02.IsWord c.radix s.ops ∧ s.ops.length ≤ max ∧ c.simplify s.ops .pos = some (s.ops, s.sign) ∧ s.hash = HSeq.hashOps c s.ops) := by
  obtain ⟨l, h1, h2, h3⟩ := generic_spec (get := fun w => some (getIfCanonical c false w)) (num := c.radix) (max := max) (getIfCanonical c false)
    (fun _ _ _ _ => rfl) (by
      intro w s h0 hw hl h
      obtain ⟨u, _, rfl⟩ := (get_iff hr hL ht h0 hw hl rfl).mp h
      rfl)
  refine ⟨l, h1, h2, fun s => (h3 s).trans (or_congr Iff.rfl ⟨?_, ?_⟩)⟩
  · rintro ⟨w, h0, hw, hl, h⟩
    obtain ⟨u, hu, rfl⟩ := (get_iff hr hL ht h0 hw hl rfl).mp h
    exact ⟨h0, hw, hl, hu, rfl⟩
  · rintro ⟨h0, hw, hl, hu, hh⟩
    refine ⟨s.ops, h0, hw, hl, (get_iff hr hL ht h0 hw hl rfl).mpr ⟨s.sign, hu, ?_⟩⟩
    rw [← hh]

/-- Without any relations, words over two letters up to length five. -/
example : Tame { radix := 2, simplify := fun w s => some (w, s) } 5 ∧ (∑ k ∈ Finset.range (5 + 1), 2 ^ k) < 2 ^ 64 := by
  refine ⟨?_, by decide⟩
  intro w hw hl v s h
  obtain ⟨rfl, rfl⟩ := Prod.mk.inj (Option.some.inj h)
  exact ⟨hw, hl⟩

/-! ## Contexts with a rulebook -/

variable {p : Pre} {L : Nat}

/-- The entry of the list for a word. -/
def entry (p : Pre) (w : List Nat) : HSeq := ⟨p.hash w, w, .pos⟩

theorem entry_nil (p : Pre) : entry p [] = HSeq.identity .pos := rfl

/-- **C88.** In contexts with a rulebook: every word up to the given length in which no left side occurs, the empty word among them, once, by increasing length and
alphabetically. Missing: rules with an empty left side, hashes that wrap around. -/
theorem C88_algebraic_partial (hs : Small p L) {b : Book} (hb : GoodMap p L b.rules) (hne : NoEmpty b.rules) {max : Nat} (hmax : max ≤ L) :
    ∃ l, generic (algebraicGet p b) p.num max = some l ∧ (l.map HSeq.ops).Pairwise (List.Shortlex (· < ·)) ∧
      ∀ s, s ∈ l ↔ ∃ w, (∀ o ∈ w, o < p.num) ∧ w.length ≤ max ∧ Irreducible (rset b.rules) w ∧ s = entry p w := by
  classical
  have key : ∀ w, C02.IsWord p.num w → w.length ≤ max → algebraicGet p b w = some (if Irreducible (rset b.rules) w then some (entry p w) else none) := by
    intro w hw hl
    obtain ⟨a, h1, h2⟩ := C17_can_reduce_partial hs hb hne (w := w) ⟨hw, by omega⟩
    unfold algebraicGet
    rw [h1, Option.map_some]
    cases a with
    | true => rw [if_pos rfl, if_neg (h2.mp rfl)]
    | false => rw [if_neg (by simp), if_pos (by by_contra h; exact absurd (h2.mpr h) (by simp))]; rfl
  obtain ⟨l, h1, h2, h3⟩ := generic_spec (get := algebraicGet p b) (num := p.num) (max := max) (fun w => if Irreducible (rset b.rules) w then some (entry p w) else none)
    (fun w _ hw hl => key w hw hl) (by
      intro w s _ _ _ h
      split at h
      · rw [← Option.some.inj h]; rfl
      · cases h)
  refine ⟨l, h1, h2, fun s => (h3 s).trans ⟨?_, ?_⟩⟩
  · rintro (rfl | ⟨w, h0, hw, hl, h⟩)
    · exact ⟨[], by simp, Nat.zero_le _, (irr_iff hne).mp (irr_nil _), rfl⟩
    · split at h
      · rename_i hi
        exact ⟨w, hw, hl, hi, (Option.some.inj h).symm⟩
      · cases h
  · rintro ⟨w, hw, hl, hi, rfl⟩
    by_cases h0 : w = []
    · exact .inl (by rw [h0]; rfl)
    · exact .inr ⟨w, h0, hw, hl, by rw [if_pos hi]⟩

theorem steps_length {R : Set RRule} (hR : Decreasing R) {t u : Term} (h : Steps R t u) : ∀ {n : Nat}, (∀ s w, t = some (s, w) → w.length ≤ n) →
    ∀ s w, u = some (s, w) → w.length ≤ n := by
  induction h with
  | refl => exact fun h => h
  | tail _ hstep ih =>
    intro n hn s w e
    cases hstep with
    | word hm =>
      have h1 := ih hn _ _ rfl
      obtain ⟨-, rfl⟩ := Prod.mk.inj (Option.some.inj e)
      have h2 : ∀ {a b : List Nat}, List.Shortlex (· < ·) a b → a.length ≤ b.length := by
        intro a b h
        rcases List.shortlex_def.mp h with h | h
        · omega
        · omega
      have := h2 (hR _ _ _ hm)
      simp only [List.length_append] at h1 ⊢
      omega
    | zero hm => cases e

/-- **C88.** The list is enough: every word up to the given length can be rewritten into zero or a phase times a word of the list. If results are unique, there
is just one such. -/
theorem C88_enough_partial (hs : Small p L) {b : Book} (hb : GoodMap p L b.rules) (hne : NoEmpty b.rules) {max : Nat} (hmax : max ≤ L) {l : List HSeq}
    (h : generic (algebraicGet p b) p.num max = some l) {w : List Nat} (hw : ∀ o ∈ w, o < p.num) (hl : w.length ≤ max) :
    ∃ t : Term, (Steps (rset b.rules) (some (.pos, w)) t ∧ ∀ s v, t = some (s, v) → entry p v ∈ l) ∧
      (UniqueResults (rset b.rules) → ∀ t', Steps (rset b.rules) (some (.pos, w)) t' → (∀ s v, t' = some (s, v) → entry p v ∈ l) → t' = t) := by
  obtain ⟨l', h1, -, h3⟩ := C88_algebraic_partial hs hb hne hmax
  rw [h] at h1
  obtain rfl := Option.some.inj h1
  have hmem : ∀ v, entry p v ∈ l ↔ (∀ o ∈ v, o < p.num) ∧ v.length ≤ max ∧ Irreducible (rset b.rules) v := by
    intro v
    rw [h3]
    constructor
    · rintro ⟨w, a1, a2, a3, e⟩
      have : v = w := congrArg HSeq.ops e
      subst this
      exact ⟨a1, a2, a3⟩
    · rintro ⟨a1, a2, a3⟩
      exact ⟨v, a1, a2, a3, rfl⟩
  have hx : GoodSeq p L ⟨p.hash w, w, .pos⟩ := ⟨⟨hw, by show w.length ≤ L; omega⟩, .inr rfl⟩
  have h0 : p.hash w ≠ 0 := hash_ne_zero hs ⟨hw, by omega⟩
  obtain ⟨y, -, r2, r3, r4, -⟩ := C16_reduce_partial.{0} hs hb hx (fun _ _ => rfl)
  have tx : term ⟨p.hash w, w, .pos⟩ = some (.pos, w) := by simp [term, h0]
  rw [tx] at r2
  refine ⟨term y, ⟨r2, ?_⟩, ?_⟩
  · intro s v e
    have hv : v = y.ops := by
      unfold term at e
      split at e
      · cases e
      · exact (Prod.mk.inj (Option.some.inj e)).2.symm
    rw [hmem]
    refine ⟨by rw [hv]; exact r4.1.1, ?_, by rw [hv]; exact (irr_iff hne).mp (stuck_iff.mp r3)⟩
    exact steps_length (hb.decreasing hs) r2 (n := max) (fun s w' e' => by rw [← (Prod.mk.inj (Option.some.inj e')).2]; exact hl) s v e
  · intro hu t' ht' hin
    have normal : ∀ t : Term, (∀ s v, t = some (s, v) → Irreducible (rset b.rules) v) → Normal (rset b.rules) t := by
      intro t h
      cases t with
      | none => intro t' hst; cases hst
      | some x => exact normal_some.mpr (h x.1 x.2 rfl)
    refine hu _ _ _ ht' r2 (normal _ fun s v e => ((hmem v).mp (hin s v e)).2.2) (normal _ fun s v e => ?_)
    have hv : v = y.ops := by
      unfold term at e
      split at e
      · cases e
      · exact (Prod.mk.inj (Option.some.inj e)).2.symm
    rw [hv]; exact (irr_iff hne).mp (stuck_iff.mp r3)

/-- **C88.** In every algebra where the rules hold, the listed words span the same space as all words up to the given length. -/
theorem C88_span_partial (hs : Small p L) {b : Book} (hb : GoodMap p L b.rules) (hne : NoEmpty b.rules) {max : Nat} (hmax : max ≤ L) {l : List HSeq}
    (h : generic (algebraicGet p b) p.num max = some l) {A : Type} [Ring A] [Algebra ℂ A] (ρ : Nat → A) (hρ : Models ρ (rset b.rules)) :
    Submodule.span ℂ {a : A | ∃ s ∈ l, a = evalWord ρ s.ops} = Submodule.span ℂ {a : A | ∃ w, (∀ o ∈ w, o < p.num) ∧ w.length ≤ max ∧ a = evalWord ρ w} := by
  obtain ⟨l', h1, -, h3⟩ := C88_algebraic_partial hs hb hne hmax
  rw [h] at h1
  obtain rfl := Option.some.inj h1
  apply le_antisymm
  · refine Submodule.span_mono ?_
    rintro a ⟨s, hs', rfl⟩
    obtain ⟨w, a1, a2, -, rfl⟩ := (h3 s).mp hs'
    exact ⟨w, a1, a2, rfl⟩
  · rw [Submodule.span_le]
    rintro a ⟨w, hw, hl, rfl⟩
    obtain ⟨t, ⟨t1, t2⟩, -⟩ := C88_enough_partial hs hb hne hmax h hw hl
    have e := steps_sound ρ hρ t1
    have e1 : eval ρ (some (.pos, w)) = evalWord ρ w := by simp [eval, phase]
    rw [e1] at e
    rw [e]
    cases t with
    | none => exact Submodule.zero_mem _
    | some x =>
      exact Submodule.smul_mem _ _ (Submodule.subset_span ⟨entry p x.2, t2 x.1 x.2 rfl, rfl⟩)

/-- The book of two rules `y x → x` and `z y → z` meets the hypotheses, and has unique results. -/
example : Small C18.p3 20 ∧ GoodMap C18.p3 20 C18.exBook.rules ∧ NoEmpty C18.exBook.rules ∧ 7 ≤ 20 ∧ UniqueResults (rset C18.exBook.rules) :=
  ⟨C18.small_p3, C18.ex_good, by unfold NoEmpty; decide, by decide, C18.ex_unique⟩

/-! ## Conjugates -/

/-- **C88.** The conjugated list holds the conjugates one by one, and knows the length of the longest. -/
theorem C88_conjugates (conj : HSeq → HSeq) (l : List HSeq) : (conjugates conj l).1.length = l.length ∧
    (∀ i : Nat, (conjugates conj l).1[i]? = l[i]?.map conj) ∧ (∀ s ∈ (conjugates conj l).1, s.ops.length ≤ (conjugates conj l).2) ∧
    (l ≠ [] → ∃ s ∈ (conjugates conj l).1, s.ops.length = (conjugates conj l).2) := by
  have hle : ∀ (m : List Nat) (a : Nat), a ≤ m.foldl max a ∧ (∀ x ∈ m, x ≤ m.foldl max a) := by
    intro m
    induction m with
    | nil => simp
    | cons x m ih =>
      intro a
      obtain ⟨h1, h2⟩ := ih (max a x)
      refine ⟨by rw [List.foldl_cons]; omega, ?_⟩
      intro y hy
      rw [List.foldl_cons]
      rcases List.mem_cons.mp hy with rfl | hy
      · omega
      · exact h2 y hy
  refine ⟨by simp [conjugates], fun i => by simp [conjugates], ?_, ?_⟩
  · intro s hs
    exact (hle _ 0).2 _ (List.mem_map_of_mem hs)
  · intro h0
    rcases foldl_max_mem ((l.map conj).map fun s => s.ops.length) 0 with h | h
    · obtain ⟨a, l, rfl⟩ := List.exists_cons_of_ne_nil h0
      refine ⟨conj a, by simp [conjugates], ?_⟩
      have := (hle (((a :: l).map conj).map fun s => s.ops.length) 0).2 (conj a).ops.length (by simp)
      show _ = List.foldl max 0 _
      rw [h] at this ⊢
      omega
    · obtain ⟨s, hs, e⟩ := List.mem_map.mp h
      exact ⟨s, hs, e⟩

/-- A list with something in it. -/
example : ([HSeq.identity .pos, C16.mkRule p2 [0, 0] [1] .pos |>.lhs] : List HSeq) ≠ [] := by simp

end Moment.C88
