import Verif.Proof.BasisRound
import Mathlib.Tactic.FieldSimp

/-! # Masks -/

namespace Moment.BasisVec

open Moment.Symbols (Sym Table Offsets Sound point flags)
open Moment.Poly (Mono Canonical Paired value Order)

theorem zAx_eq (f g : ℂ) : zAx f g = f + g := by
  apply Complex.ext <;> simp [zAx, azAx, bzAx]

theorem zBx_eq (f g : ℂ) : zBx f g = Complex.I * (f - g) := by
  apply Complex.ext <;> simp [zBx, azBx, bzBx] <;> ring

/-- The bits that should be set. -/
def Marks (t : Table) (P : List (Nat × ℂ × ℂ)) (R I : List Nat) : Prop :=
  ∀ k, (k ∈ R ↔ ∃ q ∈ P, ∃ s : Sym, t.syms[q.1]? = some s ∧ s.re = some k ∧ q.2.1 + q.2.2 ≠ 0) ∧
    (k ∈ I ↔ ∃ q ∈ P, ∃ s : Sym, t.syms[q.1]? = some s ∧ s.im = some k ∧ q.2.1 - q.2.2 ≠ 0)

theorem marks_cons {t : Table} {q : Nat × ℂ × ℂ} {P : List (Nat × ℂ × ℂ)} {R I R' I' : List Nat} (h1 : Marks t [q] R I) (h2 : Marks t P R' I') :
    Marks t (q :: P) (R ++ R') (I ++ I') := by
  intro k
  obtain ⟨a, b⟩ := h1 k
  obtain ⟨a', b'⟩ := h2 k
  simp only [List.mem_append, List.mem_cons, exists_eq_or_imp] at a b a' b' ⊢
  rw [a, b, a', b']
  simp

theorem marks_both {t : Table} {i : Nat} {s : Sym} (hs : t.syms[i]? = some s) {f g : ℂ} (h1 : f + g ≠ 0) (h2 : f - g ≠ 0) :
    Marks t [(i, f, g)] s.re.toList s.im.toList := by
  intro k
  simp only [List.mem_singleton, exists_eq_left, hs, Option.some.injEq, Option.mem_toList]
  constructor
  · constructor
    · intro h; exact ⟨s, rfl, h, h1⟩
    · rintro ⟨s', rfl, h, -⟩; exact h
  · constructor
    · intro h; exact ⟨s, rfl, h, h2⟩
    · rintro ⟨s', rfl, h, -⟩; exact h

theorem pair_bits {t : Table} {i : Nat} {s : Sym} (hs : t.syms[i]? = some s) {f g : ℂ} (hf : f ≠ 0) (hg : g ≠ 0) :
    Marks t [(i, f, g)] (pairBits s f g).1 (pairBits s f g).2 := by
  unfold pairBits
  by_cases hn : Complex.normSq g = Complex.normSq f
  · rw [if_pos hn, if_neg hg]
    by_cases hi : (f / g).im = 0
    · rw [if_neg (by simpa using hi)]
      have hone : Complex.normSq (f / g) = 1 := by
        rw [Complex.normSq_div, hn]
        exact div_self (Complex.normSq_pos.mpr hf).ne'
      have hre : (f / g).re * (f / g).re = 1 := by
        rw [Complex.normSq_apply, hi] at hone
        linarith
      by_cases hp : 0 ≤ (f / g).re
      · rw [if_pos hp]
        have h1 : f / g = 1 := by
          apply Complex.ext
          · simp only [Complex.one_re]; nlinarith
          · simpa using hi
        have hfg : f = g := (div_eq_one_iff_eq hg).mp h1
        intro k
        subst hfg
        simp only [List.mem_singleton, exists_eq_left, hs, Option.some.injEq, Option.mem_toList, sub_self, ne_eq, not_true, and_false,
          List.not_mem_nil]
        refine ⟨⟨?_, ?_⟩, by simp⟩
        · intro h; exact ⟨s, rfl, h, by rw [← two_mul]; exact mul_ne_zero two_ne_zero hf⟩
        · rintro ⟨s', rfl, h, -⟩; exact h
      · rw [if_neg hp]
        have h1 : f / g = -1 := by
          apply Complex.ext
          · simp only [Complex.neg_re, Complex.one_re]; nlinarith
          · simpa using hi
        have hfg : f = -g := by rw [div_eq_iff hg] at h1; rw [h1]; ring
        intro k
        subst hfg
        simp only [List.mem_singleton, exists_eq_left, hs, Option.some.injEq, Option.mem_toList, neg_add_cancel, ne_eq, not_true, and_false,
          List.not_mem_nil]
        refine ⟨by simp, ⟨?_, ?_⟩⟩
        · intro h
          refine ⟨s, rfl, h, ?_⟩
          rw [show -g - g = (-2) * g by ring]
          exact mul_ne_zero (by norm_num) hg
        · rintro ⟨s', rfl, h, -⟩; exact h
    · rw [if_pos (by simpa using hi)]
      refine marks_both hs (fun h => hi ?_) (fun h => hi ?_)
      · rw [eq_neg_of_add_eq_zero_left h, neg_div, div_self hg]; simp
      · rw [sub_eq_zero.mp h, div_self hg]; simp
  · rw [if_neg hn]
    refine marks_both hs (fun h => hn ?_) (fun h => hn ?_)
    · rw [eq_neg_of_add_eq_zero_left h]; simp
    · rw [sub_eq_zero.mp h]

theorem maskBits_spec {t : Table} (ht : Sound t) {o : Order} (p : List Mono) (hp : Canonical (flags t) o p) (hr : ∀ m ∈ p, m.id < t.syms.length) :
    ∃ R I, maskBits t p = some (R, I) ∧ Marks t (pairs p) R I := by
  have get : ∀ m ∈ p, ∃ s, t.syms[m.id]? = some s := fun m hm => ⟨_, List.getElem?_eq_getElem (hr m hm)⟩
  induction p using pairs.induct with
  | case1 => exact ⟨[], [], rfl, fun k => by simp [pairs]⟩
  | case2 m h =>
    obtain ⟨s, hs⟩ := get m (by simp)
    refine ⟨_, _, by rw [maskBits, hs]; rfl, ?_⟩
    rw [pairs, if_pos h]
    exact marks_both hs (by simpa using (hp.nonzero m (by simp)).1) (by simpa using (hp.nonzero m (by simp)).1)
  | case3 m h =>
    obtain ⟨s, hs⟩ := get m (by simp)
    refine ⟨_, _, by rw [maskBits, hs]; rfl, ?_⟩
    rw [pairs, if_neg h]
    exact marks_both hs (by simpa using (hp.nonzero m (by simp)).1) (by simpa using (hp.nonzero m (by simp)).1)
  | case4 m n l h ih =>
    obtain ⟨s, hs⟩ := get m (by simp)
    obtain ⟨R, I, e1, e2⟩ := ih (Poly.canonical_sublist hp (List.sublist_cons_self _ _)) (fun x hx => hr x (by simp [List.mem_cons.mp hx]))
      (fun x hx => get x (by simp [List.mem_cons.mp hx]))
    have hne : n.id ≠ m.id := by
      intro e
      have := (Poly.canonical_paired hp |> List.pairwise_cons.mp).1 n (by simp) e.symm
      rw [h] at this
      simp at this
    refine ⟨s.re.toList ++ R, s.im.toList ++ I, ?_, ?_⟩
    · rw [maskBits, hs, Option.bind_some, if_pos (Or.inr (Or.inr hne)), e1]
      rfl
    · rw [pairs, if_pos h]
      exact marks_cons (marks_both hs (by simpa using (hp.nonzero m (by simp)).1) (by simpa using (hp.nonzero m (by simp)).1)) e2
  | case5 m n l h he ih =>
    obtain ⟨s, hs⟩ := get m (by simp)
    obtain ⟨R, I, e1, e2⟩ := ih (Poly.canonical_sublist hp (List.sublist_cons_self _ _)) (fun x hx => hr x (by simp [List.mem_cons.mp hx]))
      (fun x hx => get x (by simp [List.mem_cons.mp hx]))
    refine ⟨s.re.toList ++ R, s.im.toList ++ I, ?_, ?_⟩
    · rw [maskBits, hs, Option.bind_some, if_pos (Or.inr (Or.inr he)), e1]
      rfl
    · rw [pairs, if_neg h, if_pos he]
      exact marks_cons (marks_both hs (by simpa using (hp.nonzero m (by simp)).1) (by simpa using (hp.nonzero m (by simp)).1)) e2
  | case6 m n l h he ih =>
    have he' : n.id = m.id := by simpa using he
    obtain ⟨s, hs⟩ := get m (by simp)
    obtain ⟨R, I, e1, e2⟩ := ih (Poly.canonical_sublist hp ((List.sublist_cons_self _ _).trans (List.sublist_cons_self _ _)))
      (fun x hx => hr x (by simp [hx])) (fun x hx => get x (by simp [hx]))
    have hn := (Poly.canonical_paired hp |> List.pairwise_cons.mp).1 n (by simp) he'.symm
    have hpl := hp.plain n (by simp) hn.2
    rw [he'] at hpl
    simp only [flags, hs, Option.any_some] at hpl
    obtain ⟨p1, p2⟩ := ht.parts s (List.mem_of_getElem? hs)
    have hcond : ¬ (s.re = none ∨ s.im = none ∨ n.id ≠ m.id) := by
      rintro (h1 | h1 | h1)
      · rw [p2.mpr h1] at hpl; simp at hpl
      · rw [p1.mpr h1] at hpl; simp at hpl
      · exact h1 he'
    have hb := pair_bits hs (hp.nonzero m (by simp)).1 (hp.nonzero n (by simp)).1
    refine ⟨(pairBits s m.factor n.factor).1 ++ R, (pairBits s m.factor n.factor).2 ++ I, ?_, ?_⟩
    · rw [maskBits, hs, Option.bind_some, if_neg hcond, e1]
      rfl
    · rw [pairs, if_neg h, if_neg he]
      exact marks_cons hb e2

/-! ## Bits and dependence -/

theorem entry_iff {t : Table} (ht : Offsets t) {p : List Mono} {r} (h : complexVec t p = some r) (k : Nat) :
    ((∃ e ∈ r.1, e.1 = k) ↔ ∃ q ∈ pairs p, ∃ s : Sym, t.syms[q.1]? = some s ∧ s.re = some k ∧ q.2.1 + q.2.2 ≠ 0) ∧
    ((∃ e ∈ r.2, e.1 = k) ↔ ∃ q ∈ pairs p, ∃ s : Sym, t.syms[q.1]? = some s ∧ s.im = some k ∧ q.2.1 - q.2.2 ≠ 0) := by
  classical
  unfold complexVec at h
  simp only [Option.map_eq_some_iff] at h
  obtain ⟨l, hl, rfl⟩ := h
  obtain ⟨h1, h2⟩ := terms_spec ht hl
  have key : ∀ (key : Sym → Option Nat) (val : ℂ → ℂ → ℂ), (∃ e ∈ fill key val val l [], e.1 = k) ↔
      ∃ q ∈ pairs p, ∃ s : Sym, t.syms[q.1]? = some s ∧ key s = some k ∧ val q.2.1 q.2.2 ≠ 0 := by
    intro key val
    have hm : ∀ e, e ∈ fill key val val l [] ↔ e ∈ entries key val val l := fun e => by
      rw [(fill_perm key val val l []).mem_iff, List.nil_append]
    simp only [hm]
    rw [← h1]
    constructor
    · rintro ⟨e, he, rfl⟩
      unfold entries at he
      simp only [List.mem_filterMap, Option.bind_eq_some_iff] at he
      obtain ⟨q, hq, k', hk, he⟩ := he
      split at he
      · simp at he
      · rename_i hne
        simp only [Option.some.injEq] at he
        subst he
        exact ⟨(q.1.id, q.2), List.mem_map_of_mem hq, q.1, h2 q hq, hk, hne⟩
    · rintro ⟨q', hq', s, hs, hk, hne⟩
      obtain ⟨q, hq, rfl⟩ := List.mem_map.mp hq'
      rw [h2 q hq, Option.some.injEq] at hs
      subst hs
      refine ⟨(k, val q.2.1 q.2.2), ?_, rfl⟩
      unfold entries
      simp only [List.mem_filterMap, Option.bind_eq_some_iff]
      exact ⟨q, hq, k, hk, by rw [if_neg hne]⟩
  refine ⟨(key _ _).trans ?_, (key _ _).trans ?_⟩
  · simp only [zAx_eq]
  · simp only [zBx_eq, ne_eq, mul_eq_zero, Complex.I_ne_zero, false_or]

theorem dot_update {n : Nat} {v : List (Nat × ℂ)} (h : Proper n v) (k : Nat) (a a' : Nat → ℝ) (ha : ∀ j, j ≠ k → a' j = a j) (hk : ∀ e ∈ v, e.1 ≠ k) :
    dot v (fun j => (a' j : ℂ)) = dot v (fun j => (a j : ℂ)) := by
  unfold dot
  congr 1
  refine List.map_congr_left fun e he => ?_
  dsimp only
  rw [ha e.1 (hk e he)]

theorem depends_of_entry {n : Nat} {v : List (Nat × ℂ)} (h : Proper n v) (h0 : ∀ e ∈ v, e.2 ≠ 0) {e : Nat × ℂ} (he : e ∈ v) :
    dot v (fun j => ((if j = e.1 then 1 else 0 : ℝ) : ℂ)) ≠ dot v (fun _ => ((0 : ℝ) : ℂ)) := by
  have := ((dot_single h e.1 e.2).mp ⟨he, h0 e he⟩).2.1
  rw [this]
  simpa [dot] using h0 e he

theorem dependsRe_iff {t : Table} (ht : Sound t) {o : Order} {p : List Mono} (hp : Canonical (flags t) o p) {r} (h : complexVec t p = some r) (k : Nat) :
    DependsRe t p k ↔ ∃ e ∈ r.1, e.1 = k := by
  have hd := complexVec_dot ht.offsets (Poly.canonical_paired hp) h
  obtain ⟨h1, -⟩ := complexVec_proper ht.offsets hp h
  constructor
  · rintro ⟨a, b, a', ha, hne⟩
    by_contra hno
    apply hne
    rw [← hd, ← hd, dot_update h1 k a a' ha fun e he e1 => hno ⟨e, he, e1⟩]
  · rintro ⟨e, he, rfl⟩
    refine ⟨fun _ => 0, fun _ => 0, fun j => if j = e.1 then 1 else 0, fun j hj => if_neg hj, ?_⟩
    rw [← hd, ← hd]
    intro h'
    exact depends_of_entry h1 (complexVec_nonzero h).1 he (add_right_cancel h')

theorem dependsIm_iff {t : Table} (ht : Sound t) {o : Order} {p : List Mono} (hp : Canonical (flags t) o p) {r} (h : complexVec t p = some r) (k : Nat) :
    DependsIm t p k ↔ ∃ e ∈ r.2, e.1 = k := by
  have hd := complexVec_dot ht.offsets (Poly.canonical_paired hp) h
  obtain ⟨-, h1⟩ := complexVec_proper ht.offsets hp h
  constructor
  · rintro ⟨a, b, b', ha, hne⟩
    by_contra hno
    apply hne
    rw [← hd, ← hd, dot_update h1 k b b' ha fun e he e1 => hno ⟨e, he, e1⟩]
  · rintro ⟨e, he, rfl⟩
    refine ⟨fun _ => 0, fun _ => 0, fun j => if j = e.1 then 1 else 0, fun j hj => if_neg hj, ?_⟩
    rw [← hd, ← hd]
    intro h'
    exact depends_of_entry h1 (complexVec_nonzero h).2 he (add_left_cancel h')

theorem mask_depends {t : Table} (ht : Sound t) {o : Order} {p : List Mono} (hp : Canonical (flags t) o p) (hr : ∀ m ∈ p, m.id < t.syms.length) :
    ∃ R I, maskBits t p = some (R, I) ∧ (∀ k, (k ∈ R ↔ DependsRe t p k) ∧ (k ∈ I ↔ DependsIm t p k)) ∧
      (∀ k ∈ R, k < t.basis.real.length) ∧ ∀ k ∈ I, k < t.basis.imag.length := by
  obtain ⟨R, I, h1, h2⟩ := maskBits_spec ht p hp hr
  have hs : (complexVec t p).isSome = true := by
    unfold complexVec
    rw [Option.isSome_map, terms_isSome]
    exact hr
  obtain ⟨r, hr'⟩ := Option.isSome_iff_exists.mp hs
  obtain ⟨p1, p2⟩ := complexVec_proper ht.offsets hp hr'
  have e1 : ∀ k, (k ∈ R ↔ ∃ e ∈ r.1, e.1 = k) := fun k => ((h2 k).1).trans (entry_iff ht.offsets hr' k).1.symm
  have e2 : ∀ k, (k ∈ I ↔ ∃ e ∈ r.2, e.1 = k) := fun k => ((h2 k).2).trans (entry_iff ht.offsets hr' k).2.symm
  refine ⟨R, I, h1, fun k => ⟨(e1 k).trans (dependsRe_iff ht hp hr' k).symm, (e2 k).trans (dependsIm_iff ht hp hr' k).symm⟩, ?_, ?_⟩
  · intro k hk
    obtain ⟨e, he, rfl⟩ := (e1 k).mp hk
    exact p1.2 e he
  · intro k hk
    obtain ⟨e, he, rfl⟩ := (e2 k).mp hk
    exact p2.2 e he

end Moment.BasisVec
