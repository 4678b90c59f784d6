import Verif.Proof.BasisBack

/-! # Basis vectors: round trips, matrices of many polynomials, masks -/

namespace Moment.BasisVec

open Moment.Symbols (Sym Table Offsets Sound point flags)
open Moment.Poly (Mono Canonical Paired value Order)

/-- Canonical polynomials over the symbols of the table with the same value at all points are equal. -/
theorem eq_of_points {t : Table} (ht : Sound t) {o : Order} (ho : Function.Injective o.rank) {p q : List Mono} (hp : Canonical (flags t) o p)
    (hq : Canonical (flags t) o q) (hp' : ∀ m ∈ p, m.id < t.syms.length) (hq' : ∀ m ∈ q, m.id < t.syms.length)
    (h : ∀ a b, value (point t a b) p = value (point t a b) q) : p = q := by
  refine Poly.canonical_unique (Symbols.good_flags ht) ho hp hq fun v hv _ => ?_
  have e := Symbols.point_of_respects ht hv
  rw [← Poly.value_congr (fun m hm => e m.id (hp' m hm)), ← Poly.value_congr (fun m hm => e m.id (hq' m hm))]
  exact h _ _

theorem dot_scale (c : ℂ) (v : List (Nat × ℂ)) (a : Nat → ℂ) : dot (v.map fun e => (e.1, c * e.2)) a = c * dot v a := by
  unfold dot
  rw [List.map_map, ← List.sum_map_mul_left]
  congr 1
  refine List.map_congr_left fun e _ => ?_
  simp only [Function.comp]
  ring

theorem proper_scale {n : Nat} (c : ℂ) {v : List (Nat × ℂ)} (h : Proper n v) : Proper n (v.map fun e => (e.1, c * e.2)) := by
  refine ⟨?_, ?_⟩
  · rw [List.pairwise_map]
    exact h.1
  · intro e he
    obtain ⟨x, hx, rfl⟩ := List.mem_map.mp he
    exact h.2 x hx

theorem complexVec_proper {t : Table} (ht : Offsets t) {ft : Poly.Table} {o : Order} {p : List Mono} (hp : Canonical ft o p) {r}
    (h : complexVec t p = some r) : Proper t.basis.real.length r.1 ∧ Proper t.basis.imag.length r.2 := by
  unfold complexVec at h
  simp only [Option.map_eq_some_iff] at h
  obtain ⟨l, hl, rfl⟩ := h
  obtain ⟨h1, h2⟩ := distinct_terms ht hp hl
  exact ⟨fill_proper _ _ h1, fill_proper _ _ h2⟩

theorem complexVec_nonzero {t : Table} {p : List Mono} {r} (h : complexVec t p = some r) : (∀ e ∈ r.1, e.2 ≠ 0) ∧ ∀ e ∈ r.2, e.2 ≠ 0 := by
  classical
  unfold complexVec at h
  simp only [Option.map_eq_some_iff] at h
  obtain ⟨l, hl, rfl⟩ := h
  have key : ∀ (key : Sym → Option Nat) (val : ℂ → ℂ → ℂ), ∀ e ∈ fill key val val l [], e.2 ≠ 0 := by
    intro key val e he
    have := (fill_perm key val val l []).mem_iff.mp he
    rw [List.nil_append] at this
    unfold entries at this
    simp only [List.mem_filterMap, Option.bind_eq_some_iff] at this
    obtain ⟨q, -, k, -, hq⟩ := this
    split at hq
    · simp at hq
    · rename_i hne
      simp only [Option.some.injEq] at hq
      subst hq
      exact hne
  exact ⟨key _ _, key _ _⟩

theorem round_poly {t : Table} (ht : Sound t) {o : Order} (ho : Function.Injective o.rank) {p : List Mono} (hp : Canonical (flags t) o p)
    (hp' : ∀ m ∈ p, m.id < t.syms.length) :
    ∃ r, complexVec t p = some r ∧ toPoly t (flags t) o r.1 (r.2.map fun e => (e.1, -Complex.I * e.2)) = some p := by
  have hs : (complexVec t p).isSome = true := by
    unfold complexVec
    rw [Option.isSome_map, terms_isSome]
    exact hp'
  obtain ⟨r, hr⟩ := Option.isSome_iff_exists.mp hs
  refine ⟨r, hr, ?_⟩
  obtain ⟨h1, h2⟩ := complexVec_proper ht.offsets hp hr
  obtain ⟨q, q1, q2, q3, q4⟩ := toPoly_spec ht o ho h1 (proper_scale (-Complex.I) h2)
  rw [q1, Option.some.injEq]
  refine eq_of_points ht ho q2 hp q3 hp' fun a b => ?_
  rw [q4, dot_scale, ← complexVec_dot ht.offsets (Poly.canonical_paired hp) hr]
  congr 1
  rw [← mul_assoc, mul_neg, Complex.I_mul_I]
  ring

/-! ## Vectors are determined by their linear combinations -/

theorem dot_single {n : Nat} {v : List (Nat × ℂ)} (h : Proper n v) (k : Nat) (x : ℂ) :
    (k, x) ∈ v ∧ x ≠ 0 ↔ (x ≠ 0 ∧ dot v (fun j => ((if j = k then 1 else 0 : ℝ) : ℂ)) = x ∧ True) := by
  induction v with
  | nil => simp [dot]; tauto
  | cons e v ih =>
    obtain ⟨h1, h2⟩ := List.pairwise_cons.mp h.1
    have ih := ih ⟨h2, fun y hy => h.2 y (by simp [hy])⟩
    simp only [dot, List.map_cons, List.sum_cons] at ih ⊢
    by_cases he : e.1 = k
    · have hz : (v.map fun e => e.2 * (((if e.1 = k then 1 else 0 : ℝ)) : ℂ)).sum = 0 := by
        refine List.sum_eq_zero fun y hy => ?_
        obtain ⟨u, hu, rfl⟩ := List.mem_map.mp hy
        have : u.1 ≠ k := fun e1 => by have := h1 u hu; omega
        simp [this]
      rw [hz, if_pos he]
      have hn : (k, x) ∉ v := fun hm => by have := h1 _ hm; dsimp only at this; omega
      rw [List.mem_cons]
      constructor
      · rintro ⟨e1 | e1, hx⟩
        · rw [← e1]; exact ⟨hx, by simp, trivial⟩
        · exact absurd e1 hn
      · rintro ⟨hx, e1, -⟩
        refine ⟨Or.inl ?_, hx⟩
        simp only [Complex.ofReal_one, mul_one, add_zero] at e1
        rw [← e1, ← he]
    · rw [if_neg he]
      simp only [Complex.ofReal_zero, mul_zero, zero_add]
      rw [← ih, List.mem_cons]
      have : ¬ (k, x) = e := fun e1 => he (by rw [← e1])
      tauto

theorem proper_ext {n : Nat} {v w : List (Nat × ℂ)} (hv : Proper n v) (hw : Proper n w) (hv0 : ∀ e ∈ v, e.2 ≠ 0) (hw0 : ∀ e ∈ w, e.2 ≠ 0)
    (h : ∀ a : Nat → ℝ, dot v (fun k => (a k : ℂ)) = dot w (fun k => (a k : ℂ))) : v = w := by
  have hm : ∀ e, e ∈ v ↔ e ∈ w := by
    rintro ⟨k, x⟩
    have a1 := dot_single hv k x
    have a2 := dot_single hw k x
    rw [h, ← a2] at a1
    constructor
    · intro hm; exact (a1.mp ⟨hm, hv0 _ hm⟩).1
    · intro hm; exact (a1.mpr ⟨hm, hw0 _ hm⟩).1
  have nd : ∀ {u : List (Nat × ℂ)}, Proper n u → u.Nodup := fun hu => hu.1.imp fun {x y} hxy e => by rw [e] at hxy; exact lt_irrefl _ hxy
  refine List.Perm.eq_of_pairwise (le := fun x y => x.1 < y.1) (fun a b _ _ h1 h2 => absurd h1 (by omega)) hv.1 hw.1
    ((List.perm_ext_iff_of_nodup (nd hv) (nd hw)).mpr hm)

theorem round_vec {t : Table} (ht : Sound t) {o : Order} (ho : Function.Injective o.rank) {re im : List (Nat × ℂ)}
    (hre : Proper t.basis.real.length re) (him : Proper t.basis.imag.length im) (hre0 : ∀ e ∈ re, e.2 ≠ 0) (him0 : ∀ e ∈ im, e.2 ≠ 0) :
    ∃ q, toPoly t (flags t) o re im = some q ∧ complexVec t q = some (re, im.map fun e => (e.1, Complex.I * e.2)) := by
  obtain ⟨q, q1, q2, q3, q4⟩ := toPoly_spec ht o ho hre him
  refine ⟨q, q1, ?_⟩
  have hs : (complexVec t q).isSome = true := by
    unfold complexVec
    rw [Option.isSome_map, terms_isSome]
    exact q3
  obtain ⟨r, hr⟩ := Option.isSome_iff_exists.mp hs
  rw [hr, Option.some.injEq]
  obtain ⟨h1, h2⟩ := complexVec_proper ht.offsets q2 hr
  obtain ⟨n1, n2⟩ := complexVec_nonzero hr
  have hd : ∀ a b : Nat → ℝ, dot r.1 (fun k => (a k : ℂ)) + dot r.2 (fun k => (b k : ℂ)) =
      dot re (fun k => (a k : ℂ)) + dot (im.map fun e => (e.1, Complex.I * e.2)) (fun k => (b k : ℂ)) := by
    intro a b
    rw [complexVec_dot ht.offsets (Poly.canonical_paired q2) hr, q4, dot_scale]
  have z : ∀ v : List (Nat × ℂ), dot v (fun _ => ((0 : ℝ) : ℂ)) = 0 := fun v => by simp [dot]
  refine Prod.ext ?_ ?_
  · refine proper_ext h1 hre n1 hre0 fun a => ?_
    have := hd a (fun _ => 0)
    rwa [z, z, add_zero, add_zero] at this
  · refine proper_ext h2 (proper_scale _ him) n2 ?_ fun b => ?_
    · intro e he
      obtain ⟨x, hx, rfl⟩ := List.mem_map.mp he
      exact mul_ne_zero Complex.I_ne_zero (him0 x hx)
    · have := hd (fun _ => 0) b
      rwa [z, z, zero_add, zero_add] at this

/-! ## Many polynomials in one matrix -/

theorem column_spec {key : Sym → Option Nat} {n : Nat} (val : ℂ → ℂ → ℂ) (col : Nat) {l : List (Sym × ℂ × ℂ)} (h : Distinct key n l) :
    (column key val col l).Pairwise (fun x y => x.1 < y.1) ∧ (∀ e ∈ column key val col l, e.1 < n ∧ e.2.1 = col) ∧
    ∀ a : Nat → ℂ, ((column key val col l).map fun e => e.2.2 * a e.1).sum = (l.map fun q => val q.2.1 q.2.2 * (key q.1).elim 0 a).sum := by
  classical
  have hmap : l.filterMap (fun q => (key q.1).bind fun k => if val q.2.1 q.2.2 = 0 then none else some (k, col, val q.2.1 q.2.2)) =
      (entries key val val l).map fun e => (e.1, col, e.2) := by
    unfold entries
    rw [List.map_filterMap]
    congr 1
    funext q
    cases key q.1 with
    | none => rfl
    | some k =>
      simp only [Option.bind_some]
      split <;> simp_all
  obtain ⟨e1, e2⟩ := entries_nodup val val h
  have hp := stableSort_perm (fun e : Nat × Nat × ℂ => e.1) ((entries key val val l).map fun e => (e.1, col, e.2))
  unfold column
  rw [hmap]
  refine ⟨?_, ?_, ?_⟩
  · have hs := stableSort_sorted (fun e : Nat × Nat × ℂ => e.1) ((entries key val val l).map fun e => (e.1, col, e.2))
    have hne : (stableSort (fun e : Nat × Nat × ℂ => e.1) ((entries key val val l).map fun e => (e.1, col, e.2))).Pairwise fun x y => x.1 ≠ y.1 := by
      refine (hp.symm.pairwise_iff (fun {x y} (hxy : x.1 ≠ y.1) => hxy.symm)).mp ?_
      rw [List.pairwise_map]
      exact e1
    exact (List.pairwise_and_iff.mpr ⟨hs, hne⟩).imp fun ⟨a, b⟩ => lt_of_le_of_ne a b
  · intro e he
    obtain ⟨x, hx, rfl⟩ := List.mem_map.mp (hp.mem_iff.mp he)
    exact ⟨e2 x hx, rfl⟩
  · intro a
    rw [(hp.map _).sum_eq, List.map_map, ← fill_dot key val val (fun _ _ h => h) l a, dot_perm (fill_perm key val val l []) a, List.nil_append]
    rfl

theorem colDot_append (A B : List (Nat × Nat × ℂ)) (c : Nat) (a : Nat → ℂ) : colDot (A ++ B) c a = colDot A c a + colDot B c a := by
  simp [colDot]

theorem colDot_same {A : List (Nat × Nat × ℂ)} {c : Nat} (h : ∀ e ∈ A, e.2.1 = c) (a : Nat → ℂ) : colDot A c a = (A.map fun e => e.2.2 * a e.1).sum := by
  unfold colDot
  rw [List.filter_eq_self.mpr (fun e he => by simpa using h e he)]

theorem colDot_other {A : List (Nat × Nat × ℂ)} {c : Nat} (h : ∀ e ∈ A, e.2.1 ≠ c) (a : Nat → ℂ) : colDot A c a = 0 := by
  unfold colDot
  rw [List.filter_eq_nil_iff.mpr (fun e he => by simpa using h e he)]
  rfl

theorem monolith_spec {t : Table} (ht : Offsets t) {ft : Poly.Table} {o : Order} : ∀ (ps : List (List Mono)) (col : Nat), (∀ p ∈ ps, Canonical ft o p) →
    (∀ p ∈ ps, ∀ m ∈ p, m.id < t.syms.length) →
    ∃ r, monolith t ps col = some r ∧
      (r.1.Pairwise (fun x y => x.2.1 < y.2.1 ∨ (x.2.1 = y.2.1 ∧ x.1 < y.1)) ∧ ∀ e ∈ r.1, e.1 < t.basis.real.length ∧ col ≤ e.2.1 ∧ e.2.1 < col + ps.length) ∧
      (r.2.Pairwise (fun x y => x.2.1 < y.2.1 ∨ (x.2.1 = y.2.1 ∧ x.1 < y.1)) ∧ ∀ e ∈ r.2, e.1 < t.basis.imag.length ∧ col ≤ e.2.1 ∧ e.2.1 < col + ps.length) ∧
      ∀ (c : Nat) (p : List Mono), ps[c]? = some p → ∀ a b : Nat → ℝ,
        colDot r.1 (col + c) (fun k => (a k : ℂ)) + colDot r.2 (col + c) (fun k => (b k : ℂ)) = value (point t a b) p
  | [], col, _, _ => ⟨([], []), rfl, by simp, by simp, by simp⟩
  | p :: ps, col, hc, hr => by
    obtain ⟨l, hl⟩ := Option.isSome_iff_exists.mp ((terms_isSome t p).mpr (hr p (by simp)))
    obtain ⟨r, r1, ⟨r2, r3⟩, ⟨r4, r5⟩, r6⟩ := monolith_spec ht ps (col + 1) (fun q hq => hc q (by simp [hq])) (fun q hq => hr q (by simp [hq]))
    obtain ⟨d1, d2⟩ := distinct_terms ht (hc p (by simp)) hl
    obtain ⟨a1, a2, a3⟩ := column_spec zAx col d1
    obtain ⟨b1, b2, b3⟩ := column_spec zBx col d2
    refine ⟨(column Sym.re zAx col l ++ r.1, column Sym.im zBx col l ++ r.2), ?_, ⟨?_, ?_⟩, ⟨?_, ?_⟩, ?_⟩
    · unfold monolith
      simp only [hl, Option.bind_eq_bind, Option.bind_some, r1]
    · rw [List.pairwise_append]
      refine ⟨a1.imp_of_mem fun {x y} hx hy h => Or.inr ⟨(a2 x hx).2.trans (a2 y hy).2.symm, h⟩, r2, fun x hx y hy => Or.inl ?_⟩
      rw [(a2 x hx).2]
      have := (r3 y hy).2.1
      omega
    · intro e he
      rw [List.length_cons]
      rcases List.mem_append.mp he with he | he
      · have := a2 e he; omega
      · have := r3 e he; omega
    · rw [List.pairwise_append]
      refine ⟨b1.imp_of_mem fun {x y} hx hy h => Or.inr ⟨(b2 x hx).2.trans (b2 y hy).2.symm, h⟩, r4, fun x hx y hy => Or.inl ?_⟩
      rw [(b2 x hx).2]
      have := (r5 y hy).2.1
      omega
    · intro e he
      rw [List.length_cons]
      rcases List.mem_append.mp he with he | he
      · have := b2 e he; omega
      · have := r5 e he; omega
    · intro c q hq a b
      rw [colDot_append, colDot_append]
      cases c with
      | zero =>
        simp only [List.getElem?_cons_zero, Option.some.injEq] at hq
        subst hq
        rw [Nat.add_zero, colDot_same (A := column Sym.re zAx col l) (fun e he => (a2 e he).2),
          colDot_same (A := column Sym.im zBx col l) (fun e he => (b2 e he).2), colDot_other (A := r.1) (fun e he => by have := (r3 e he).2.1; omega),
          colDot_other (A := r.2) (fun e he => by have := (r5 e he).2.1; omega), a3 (fun k => (a k : ℂ)), b3 (fun k => (b k : ℂ)),
          value_terms ht (Poly.canonical_paired (hc p (by simp))) hl]
        simp only [elim_ofReal]
        ring
      | succ c =>
        rw [List.getElem?_cons_succ] at hq
        rw [colDot_other (A := column Sym.re zAx col l) (fun e he => by have := (a2 e he).2; omega),
          colDot_other (A := column Sym.im zBx col l) (fun e he => by have := (b2 e he).2; omega), zero_add, zero_add,
          ← r6 c q hq a b, show col + (c + 1) = col + 1 + c by omega]

end Moment.BasisVec
