import Verif.Proof.BasisMask

/-! # Moment rulebooks as matrices -/

namespace Moment.BasisVec

open Moment.Symbols (Sym Table Offsets Sound point flags)
open Moment.Poly (Mono Canonical Paired value Order MRule Holds Assignment)

theorem apply_append (S T : List (Nat × Nat × ℝ)) (x : Nat → ℝ) (i : Nat) : apply (S ++ T) x i = apply S x i + apply T x i := by
  simp [apply]

theorem apply_nil (x : Nat → ℝ) (i : Nat) : apply [] x i = 0 := rfl

theorem apply_absent {T : List (Nat × Nat × ℝ)} {i : Nat} (h : ∀ e ∈ T, e.1 ≠ i) (x : Nat → ℝ) : apply T x i = 0 := by
  unfold apply
  rw [List.filter_eq_nil_iff.mpr (fun e he => by simpa using h e he)]
  rfl

theorem apply_put (row col : Option Nat) (c : ℝ) (x : Nat → ℝ) (i : Nat) :
    apply (putTriplet row col c) x i = if row = some i then c * col.elim 0 x else 0 := by
  unfold putTriplet
  cases row with
  | none => simp [apply]
  | some k =>
    cases col with
    | none => simp [apply]
    | some j =>
      dsimp only
      by_cases hc : c = 0
      · simp [hc, apply]
      · rw [if_neg hc]
        by_cases hk : k = i
        · simp [apply, hk]
        · simp [apply, hk]

theorem put_row {row col : Option Nat} {c : ℝ} {e : Nat × Nat × ℝ} (h : e ∈ putTriplet row col c) : row = some e.1 := by
  unfold putTriplet at h
  split at h
  · split at h
    · simp at h
    · rw [List.mem_singleton.mp h]
  · simp at h

theorem joined_re {t : Table} (ht : Offsets t) {s : Sym} (hs : s ∈ t.syms) (a b : Nat → ℝ) :
    s.re.elim 0 (joined t.basis.real.length a b) = s.re.elim 0 a := by
  cases h : s.re with
  | none => rfl
  | some k =>
    have := (List.getElem?_eq_some_iff.mp ((ht.re s hs k).mp h)).1
    simp [joined, this]

theorem joined_im (n : Nat) (s : Sym) (a b : Nat → ℝ) : (s.im.map (· + n)).elim 0 (joined n a b) = s.im.elim 0 b := by
  cases h : s.im with
  | none => rfl
  | some k => simp [joined]

theorem tripletRow_spec {t : Table} (ht : Offsets t) {p : List Mono} (hp : Paired p) (zre zim : Option Nat) {T} (h : tripletRow t p zre zim = some T) :
    (∀ e ∈ T, zre = some e.1 ∨ zim.map (· + t.basis.real.length) = some e.1) ∧
    ∀ (a b : Nat → ℝ) (i : Nat), apply T (joined t.basis.real.length a b) i =
      (if zre = some i then (value (point t a b) p).re else 0) +
      (if zim.map (· + t.basis.real.length) = some i then (value (point t a b) p).im else 0) := by
  unfold tripletRow at h
  simp only [Option.map_eq_some_iff] at h
  obtain ⟨l, hl, rfl⟩ := h
  refine ⟨?_, ?_⟩
  · intro e he
    obtain ⟨c, hc, he⟩ := List.mem_flatten.mp he
    obtain ⟨q, -, rfl⟩ := List.mem_map.mp hc
    simp only [List.mem_append] at he
    rcases he with ((he | he) | he) | he
    · exact Or.inl (put_row he)
    · exact Or.inr (put_row he)
    · exact Or.inl (put_row he)
    · exact Or.inr (put_row he)
  · intro a b i
    rw [real_sum ht hp hl, imag_sum ht hp hl]
    have hmem : ∀ q ∈ l, q.1 ∈ t.syms := fun q hq => List.mem_of_getElem? ((terms_spec ht hl).2 q hq)
    clear hl
    induction l with
    | nil => simp [apply]
    | cons q l ih =>
      rw [List.map_cons, List.flatten_cons, apply_append, ih (fun x hx => hmem x (by simp [hx]))]
      simp only [apply_append, apply_put, joined_re ht (hmem q (by simp)), joined_im, List.map_cons, List.sum_cons]
      split <;> split <;> ring

/-! ## One rule -/

theorem partial_iff {v Q d : ℂ} (hd : d * (starRingEnd ℂ) d = 1) (hq : (starRingEnd ℂ) ((starRingEnd ℂ) d * Q) = (starRingEnd ℂ) d * Q) :
    v = Q + (1 / 2) * (v - d * d * (starRingEnd ℂ) v) ↔ ((starRingEnd ℂ) d * v).re = ((starRingEnd ℂ) d * Q).re := by
  have hd0 : (starRingEnd ℂ) d ≠ 0 := fun h => by rw [h] at hd; simp at hd
  have e1 : v = Q + (1 / 2) * (v - d * d * (starRingEnd ℂ) v) ↔
      (starRingEnd ℂ) d * Q = (1 / 2) * ((starRingEnd ℂ) d * v + d * (starRingEnd ℂ) v) := by
    constructor
    · intro h
      have : (starRingEnd ℂ) d * Q = (starRingEnd ℂ) d * v - (1 / 2) * ((starRingEnd ℂ) d * v - (d * (starRingEnd ℂ) d) * d * (starRingEnd ℂ) v) := by
        conv_rhs => arg 1; rw [h]
        ring
      rw [this, hd]; ring
    · intro h
      apply mul_left_cancel₀ hd0
      rw [mul_add, h]
      have : (starRingEnd ℂ) d * ((1 / 2) * (v - d * d * (starRingEnd ℂ) v)) =
          (1 / 2) * ((starRingEnd ℂ) d * v - (d * (starRingEnd ℂ) d) * d * (starRingEnd ℂ) v) := by ring
      rw [this, hd]; ring
  rw [e1]
  have e2 : (1 / 2) * ((starRingEnd ℂ) d * v + d * (starRingEnd ℂ) v) = (((starRingEnd ℂ) d * v).re : ℂ) := by
    rw [← Poly.half_add_conj, map_mul, Complex.conj_conj]
  have e3 : (starRingEnd ℂ) d * Q = (((starRingEnd ℂ) d * Q).re : ℂ) := (Complex.conj_eq_iff_re.mp hq).symm
  rw [e2, e3, Complex.ofReal_inj, Complex.ofReal_re]
  exact eq_comm

/-- What one rule puts into the matrix. -/
structure RowSpec (t : Table) (r : MRule) (T : List (Nat × Nat × ℝ)) (R I : List Nat) : Prop where
  sym : ∃ s : Sym, t.syms[r.lhs]? = some s ∧ (∀ k ∈ R, s.re = some k) ∧ ∀ k ∈ I, s.im = some k
  rows : ∀ e ∈ T, e.1 ∈ R ∨ ∃ k ∈ I, e.1 = t.basis.real.length + k
  holds : ∀ a b : Nat → ℝ, Assignment (flags t) (point t a b) → (Holds (point t a b) r ↔
    (∀ k ∈ R, apply T (joined t.basis.real.length a b) k = a k) ∧
    ∀ k ∈ I, apply T (joined t.basis.real.length a b) (t.basis.real.length + k) = b k)

theorem tripletRow_isSome {t : Table} {p : List Mono} (hp : ∀ m ∈ p, m.id < t.syms.length) (zre zim : Option Nat) :
    ∃ T, tripletRow t p zre zim = some T := by
  apply Option.isSome_iff_exists.mp
  unfold tripletRow
  rw [Option.isSome_map, terms_isSome]
  exact hp

theorem re_lt {t : Table} (ht : Offsets t) {s : Sym} (hs : s ∈ t.syms) {k : Nat} (h : s.re = some k) : k < t.basis.real.length :=
  (List.getElem?_eq_some_iff.mp ((ht.re s hs k).mp h)).1

theorem im_lt {t : Table} (ht : Offsets t) {s : Sym} (hs : s ∈ t.syms) {k : Nat} (h : s.im = some k) : k < t.basis.imag.length :=
  (List.getElem?_eq_some_iff.mp ((ht.im s hs k).mp h)).1

theorem ruleRow_spec {t : Table} (ht : Sound t) {o : Order} {r : MRule} (hr : r.OK (flags t) o) (hl : r.lhs < t.syms.length)
    (hid : ∀ m ∈ r.rhs, m.id < t.syms.length) : ∃ T R I, ruleRow t r = some (T, R, I) ∧ RowSpec t r T R I := by
  have hs : t.syms[r.lhs]? = some t.syms[r.lhs] := List.getElem?_eq_getElem hl
  have hm := List.mem_of_getElem? hs
  generalize t.syms[r.lhs] = s at hs hm
  obtain ⟨p1, p2⟩ := ht.parts s hm
  have hpt : ∀ a b, point t a b r.lhs = s.at a b := fun a b => by simp only [point, hs]
  have hpair := Poly.canonical_paired hr.rhs_canonical
  have hfh : (flags t).herm r.lhs = s.herm := by simp [flags, hs]
  have hfa : (flags t).anti r.lhs = s.anti := by simp [flags, hs]
  unfold ruleRow
  rw [hs, Option.bind_some]
  by_cases hp : r.partial = true
  · rw [if_pos hp]
    obtain ⟨h1, h2, h3, h4, h5, h6⟩ := hr.part hp
    rw [hfh] at h1
    rw [hfa] at h2
    obtain ⟨k, hk⟩ : ∃ k, s.re = some k := by
      cases h : s.re with
      | none => rw [p2.mpr h] at h2; simp at h2
      | some k => exact ⟨k, rfl⟩
    obtain ⟨j, hj⟩ : ∃ j, s.im = some j := by
      cases h : s.im with
      | none => rw [p1.mpr h] at h1; simp at h1
      | some k => exact ⟨k, rfl⟩
    have hkn := re_lt ht.offsets hm hk
    have hat : ∀ a b, point t a b r.lhs = ⟨a k, b j⟩ := fun a b => by rw [hpt]; simp [Sym.at, hk, hj]
    have hval : ∀ v, value v r.rhs = value v r.core + (1 / 2) * (v r.lhs - r.dir * r.dir * (starRingEnd ℂ) (v r.lhs)) := fun v => by
      conv_lhs => rw [h3]
      rw [Poly.value_append, Poly.freePart_value]
    have hnorm : r.dir.re * r.dir.re + r.dir.im * r.dir.im = 1 := by
      have := congrArg Complex.re h4
      rw [Complex.mul_conj] at this
      simpa [Complex.normSq_apply] using this
    have hiff : ∀ a b, Assignment (flags t) (point t a b) → (Holds (point t a b) r ↔
        r.dir.re * a k + r.dir.im * b j = ((starRingEnd ℂ) r.dir * value (point t a b) r.core).re) := by
      intro a b hab
      unfold Holds
      rw [hval, partial_iff h4 (h6 _ hab), hat]
      simp
    by_cases hreal : r.dir.im = 0
    · rw [if_pos hreal, hk, Option.bind_some]
      obtain ⟨T, hT⟩ := tripletRow_isSome hid (some k) none
      obtain ⟨r1, r2⟩ := tripletRow_spec ht.offsets hpair _ _ hT
      refine ⟨T, [k], [], by rw [hT]; rfl, ⟨s, hs, by simp [hk], by simp⟩, ?_, ?_⟩
      · intro e he
        rcases r1 e he with h | h
        · left; simpa [eq_comm] using h
        · simp at h
      · intro a b hab
        have hd : r.dir = 1 := by
          rcases h5 with h | h
          · exact h
          · rw [hreal] at h; exact absurd h (lt_irrefl _)
        rw [hiff a b hab, hd]
        simp only [List.mem_singleton, forall_eq, List.not_mem_nil, false_imp_iff, implies_true, and_true]
        rw [r2, if_pos rfl, if_neg (by simp), hval, hat, hd]
        simp
        constructor <;> intro h <;> linarith
    · rw [if_neg hreal]
      by_cases himag : r.dir.re = 0
      · rw [if_pos himag, hj, Option.bind_some]
        obtain ⟨T, hT⟩ := tripletRow_isSome hid none (some j)
        obtain ⟨r1, r2⟩ := tripletRow_spec ht.offsets hpair _ _ hT
        refine ⟨T, [], [j], by rw [hT]; rfl, ⟨s, hs, by simp, by simp [hj]⟩, ?_, ?_⟩
        · intro e he
          rcases r1 e he with h | h
          · simp at h
          · right
            refine ⟨j, by simp, ?_⟩
            simp at h
            omega
        · intro a b hab
          have hd : r.dir = Complex.I := by
            apply Complex.ext
            · simpa using himag
            · simp only [Complex.I_im]
              rcases h5 with h | h
              · rw [h] at himag; simp at himag
              · rw [himag] at hnorm; nlinarith
          rw [hiff a b hab, hd]
          simp only [List.mem_singleton, forall_eq, List.not_mem_nil, false_imp_iff, implies_true, true_and]
          rw [r2, if_neg (by simp), if_pos (by simp [add_comm]), hval, hat, hd]
          simp
          constructor <;> intro h <;> linarith
      · rw [if_neg himag, hk, hj, Option.bind_some, Option.bind_some]
        dsimp only
        have hcore : r.rhs.dropLast.dropLast = r.core := by simp [MRule.core, hp]
        rw [hcore]
        have cid : ∀ m ∈ r.core, m.id < t.syms.length := fun m hm => hid m (by rw [h3]; simp [hm])
        have hq : ∀ c : ℝ, Canonical (flags t) o (Poly.scale (c : ℂ) (Poly.scale ((starRingEnd ℂ) r.dir) r.core)) := fun c =>
          Poly.scale_canonical (Poly.scale_canonical hr.core _) _
        have qid : ∀ c : ℝ, ∀ m ∈ Poly.scale (c : ℂ) (Poly.scale ((starRingEnd ℂ) r.dir) r.core), m.id < t.syms.length := by
          intro c m hm
          obtain ⟨y, hy, e1, -⟩ := Poly.scale_ids hm
          obtain ⟨z, hz, e2, -⟩ := Poly.scale_ids hy
          rw [← e1, ← e2]
          exact cid z hz
        have qval : ∀ (c : ℝ) v, (value v (Poly.scale (c : ℂ) (Poly.scale ((starRingEnd ℂ) r.dir) r.core))).re =
            c * ((starRingEnd ℂ) r.dir * value v r.core).re := by
          intro c v
          rw [Poly.scale_value, Poly.scale_value, Complex.re_ofReal_mul]
        by_cases hmost : |r.dir.im| ≤ |r.dir.re|
        · rw [if_pos hmost]
          obtain ⟨T, hT⟩ := tripletRow_isSome (qid (1 / r.dir.re)) (some k) none
          obtain ⟨r1, r2⟩ := tripletRow_spec ht.offsets (Poly.canonical_paired (hq _)) _ _ hT
          refine ⟨_, [k], [], by rw [hT]; rfl, ⟨s, hs, by simp [hk], by simp⟩, ?_, ?_⟩
          · intro e he
            rcases List.mem_append.mp he with he | he
            · rcases r1 e he with h | h
              · left; simpa [eq_comm] using h
              · simp at h
            · rw [List.mem_singleton.mp he]; simp
          · intro a b hab
            rw [hiff a b hab]
            simp only [List.mem_singleton, forall_eq, List.not_mem_nil, false_imp_iff, implies_true, and_true]
            rw [apply_append, r2, if_pos rfl, if_neg (by simp), qval]
            have e1 : apply [(k, t.basis.real.length + j, -r.dir.im / r.dir.re)] (joined t.basis.real.length a b) k = -r.dir.im / r.dir.re * b j := by
              simp [apply, joined]
            rw [e1]
            generalize ((starRingEnd ℂ) r.dir * value (point t a b) r.core).re = w
            constructor
            · intro h
              rw [← h]
              field_simp
              ring
            · intro h
              rw [← h]
              field_simp
              ring
        · rw [if_neg hmost]
          obtain ⟨T, hT⟩ := tripletRow_isSome (qid (1 / r.dir.im)) (some (t.basis.real.length + j)) none
          obtain ⟨r1, r2⟩ := tripletRow_spec ht.offsets (Poly.canonical_paired (hq _)) _ _ hT
          refine ⟨_, [], [j], by rw [hT]; rfl, ⟨s, hs, by simp, by simp [hj]⟩, ?_, ?_⟩
          · intro e he
            rcases List.mem_append.mp he with he | he
            · rcases r1 e he with h | h
              · right
                refine ⟨j, by simp, ?_⟩
                simpa [eq_comm] using h
              · simp at h
            · rw [List.mem_singleton.mp he]
              right
              exact ⟨j, by simp, rfl⟩
          · intro a b hab
            rw [hiff a b hab]
            simp only [List.mem_singleton, forall_eq, List.not_mem_nil, false_imp_iff, implies_true, true_and]
            rw [apply_append, r2, if_pos rfl, if_neg (by simp), qval]
            have e1 : apply [(t.basis.real.length + j, k, -r.dir.re / r.dir.im)] (joined t.basis.real.length a b) (t.basis.real.length + j) =
                -r.dir.re / r.dir.im * a k := by
              simp [apply, joined, hkn]
            rw [e1]
            generalize ((starRingEnd ℂ) r.dir * value (point t a b) r.core).re = w
            constructor
            · intro h
              rw [← h]
              field_simp
              ring
            · intro h
              rw [← h]
              field_simp
              ring
  · rw [if_neg hp]
    obtain ⟨T, hT⟩ := tripletRow_isSome hid s.re s.im
    obtain ⟨r1, r2⟩ := tripletRow_spec ht.offsets hpair _ _ hT
    refine ⟨T, s.re.toList, s.im.toList, by rw [hT]; rfl, ⟨s, hs, by simp, by simp⟩, ?_, ?_⟩
    · intro e he
      rcases r1 e he with h | h
      · left; simpa using h
      · right
        simp only [Option.map_eq_some_iff] at h
        obtain ⟨k, hk, e1⟩ := h
        exact ⟨k, by simpa using hk, by omega⟩
    · intro a b hab
      unfold Holds
      rw [hpt]
      have hre : s.re = none → (value (point t a b) r.rhs).re = 0 := by
        intro h
        have := hr.anti (by rw [hfa]; exact p2.mpr h) _ hab
        have := congrArg Complex.re this
        simp only [Complex.conj_re, Complex.neg_re] at this
        linarith
      have him : s.im = none → (value (point t a b) r.rhs).im = 0 := by
        intro h
        have := hr.herm (by rw [hfh]; exact p1.mpr h) _ hab
        exact Complex.conj_eq_iff_im.mp this
      have e1 : (s.at a b).re = (value (point t a b) r.rhs).re ↔ ∀ k ∈ s.re.toList, apply T (joined t.basis.real.length a b) k = a k := by
        cases h : s.re with
        | none => simp [Sym.at, h, hre h]
        | some k =>
          simp only [Sym.at, h, Option.elim_some, Option.toList_some, List.mem_singleton, forall_eq]
          have hkn := re_lt ht.offsets hm h
          rw [r2, if_pos h, if_neg (by
            simp only [Option.map_eq_some_iff]
            rintro ⟨x, -, hx⟩
            omega), add_zero]
          exact eq_comm
      have e2 : (s.at a b).im = (value (point t a b) r.rhs).im ↔
          ∀ k ∈ s.im.toList, apply T (joined t.basis.real.length a b) (t.basis.real.length + k) = b k := by
        cases h : s.im with
        | none => simp [Sym.at, h, him h]
        | some k =>
          simp only [Sym.at, h, Option.elim_some, Option.toList_some, List.mem_singleton, forall_eq]
          rw [r2, if_neg (by
            intro h'
            have := re_lt ht.offsets hm h'
            omega), if_pos (by rw [h, Option.map_some, add_comm]), zero_add]
          exact eq_comm
      rw [Complex.ext_iff, e1, e2]

/-! ## All rules -/

/-- What the rules put into the matrix. -/
structure RowsSpec (t : Table) (b : List MRule) (T : List (Nat × Nat × ℝ)) (R I : List Nat) : Prop where
  re : ∀ k ∈ R, ∃ r ∈ b, t.basis.real[k]? = some r.lhs
  im : ∀ k ∈ I, ∃ r ∈ b, t.basis.imag[k]? = some r.lhs
  rows : ∀ e ∈ T, e.1 ∈ R ∨ ∃ k ∈ I, e.1 = t.basis.real.length + k
  holds : ∀ a b' : Nat → ℝ, Assignment (flags t) (point t a b') → ((∀ r ∈ b, Holds (point t a b') r) ↔
    (∀ k ∈ R, apply T (joined t.basis.real.length a b') k = a k) ∧
    ∀ k ∈ I, apply T (joined t.basis.real.length a b') (t.basis.real.length + k) = b' k)

theorem ruleRows_spec {t : Table} (ht : Sound t) {o : Order} (b : List MRule) (hb : ∀ r ∈ b, r.OK (flags t) o)
    (hd : b.Pairwise fun r s => r.lhs ≠ s.lhs) (hl : ∀ r ∈ b, r.lhs < t.syms.length)
    (hid : ∀ r ∈ b, ∀ m ∈ r.rhs, m.id < t.syms.length) : ∃ T R I, ruleRows t b = some (T, R, I) ∧ RowsSpec t b T R I := by
  induction b with
  | nil => exact ⟨[], [], [], rfl, by simp, by simp, by simp, by simp⟩
  | cons r b ih =>
    rw [List.pairwise_cons] at hd
    obtain ⟨T₁, R₁, I₁, h1, S1⟩ := ruleRow_spec ht (hb r (by simp)) (hl r (by simp)) (hid r (by simp))
    obtain ⟨T₂, R₂, I₂, h2, S2⟩ := ih (fun x hx => hb x (by simp [hx])) hd.2 (fun x hx => hl x (by simp [hx])) (fun x hx => hid x (by simp [hx]))
    refine ⟨T₁ ++ T₂, R₁ ++ R₂, I₁ ++ I₂, by simp [ruleRows, h1, h2], ?_⟩
    obtain ⟨s, hs, hR, hI⟩ := S1.sym
    have hm := List.mem_of_getElem? hs
    have hsid : s.id = r.lhs := Symbols.getElem?_id ht.offsets hs
    have R1 : ∀ k ∈ R₁, t.basis.real[k]? = some r.lhs := fun k hk => by rw [(ht.offsets.re s hm k).mp (hR k hk), hsid]
    have I1 : ∀ k ∈ I₁, t.basis.imag[k]? = some r.lhs := fun k hk => by rw [(ht.offsets.im s hm k).mp (hI k hk), hsid]
    have R1n : ∀ k ∈ R₁, k < t.basis.real.length := fun k hk => (List.getElem?_eq_some_iff.mp (R1 k hk)).1
    have R2n : ∀ k ∈ R₂, k < t.basis.real.length := fun k hk => by
      obtain ⟨x, -, h⟩ := S2.re k hk
      exact (List.getElem?_eq_some_iff.mp h).1
    have disR : ∀ k ∈ R₁, k ∉ R₂ := by
      intro k hk hk'
      obtain ⟨x, hx, h⟩ := S2.re k hk'
      rw [R1 k hk, Option.some.injEq] at h
      exact hd.1 x hx h
    have disI : ∀ k ∈ I₁, k ∉ I₂ := by
      intro k hk hk'
      obtain ⟨x, hx, h⟩ := S2.im k hk'
      rw [I1 k hk, Option.some.injEq] at h
      exact hd.1 x hx h
    refine ⟨?_, ?_, ?_, ?_⟩
    · intro k hk
      rcases List.mem_append.mp hk with hk | hk
      · exact ⟨r, by simp, R1 k hk⟩
      · obtain ⟨x, hx, h⟩ := S2.re k hk
        exact ⟨x, by simp [hx], h⟩
    · intro k hk
      rcases List.mem_append.mp hk with hk | hk
      · exact ⟨r, by simp, I1 k hk⟩
      · obtain ⟨x, hx, h⟩ := S2.im k hk
        exact ⟨x, by simp [hx], h⟩
    · intro e he
      rcases List.mem_append.mp he with he | he
      · rcases S1.rows e he with h | ⟨k, h, h'⟩
        · left; simp [h]
        · right; exact ⟨k, by simp [h], h'⟩
      · rcases S2.rows e he with h | ⟨k, h, h'⟩
        · left; simp [h]
        · right; exact ⟨k, by simp [h], h'⟩
    · intro a b' hab
      have z1 : ∀ k, k < t.basis.real.length → k ∉ R₁ → apply T₁ (joined t.basis.real.length a b') k = 0 := by
        intro k hk hk'
        apply apply_absent
        intro e he h
        rcases S1.rows e he with h' | ⟨j, -, h'⟩
        · exact hk' (h ▸ h')
        · omega
      have z2 : ∀ k, k < t.basis.real.length → k ∉ R₂ → apply T₂ (joined t.basis.real.length a b') k = 0 := by
        intro k hk hk'
        apply apply_absent
        intro e he h
        rcases S2.rows e he with h' | ⟨j, -, h'⟩
        · exact hk' (h ▸ h')
        · omega
      have z3 : ∀ k, k ∉ I₁ → apply T₁ (joined t.basis.real.length a b') (t.basis.real.length + k) = 0 := by
        intro k hk
        apply apply_absent
        intro e he h
        rcases S1.rows e he with h' | ⟨j, hj, h'⟩
        · have := R1n _ h'; omega
        · exact hk ((show j = k by omega) ▸ hj)
      have z4 : ∀ k, k ∉ I₂ → apply T₂ (joined t.basis.real.length a b') (t.basis.real.length + k) = 0 := by
        intro k hk
        apply apply_absent
        intro e he h
        rcases S2.rows e he with h' | ⟨j, hj, h'⟩
        · have := R2n _ h'; omega
        · exact hk ((show j = k by omega) ▸ hj)
      rw [List.forall_mem_cons, S1.holds a b' hab, S2.holds a b' hab]
      have e1 : ∀ k ∈ R₁, apply (T₁ ++ T₂) (joined t.basis.real.length a b') k = apply T₁ (joined t.basis.real.length a b') k := fun k hk => by
        rw [apply_append, z2 k (R1n k hk) (disR k hk), add_zero]
      have e2 : ∀ k ∈ R₂, apply (T₁ ++ T₂) (joined t.basis.real.length a b') k = apply T₂ (joined t.basis.real.length a b') k := fun k hk => by
        rw [apply_append, z1 k (R2n k hk) (fun h => disR k h hk), zero_add]
      have e3 : ∀ k ∈ I₁, apply (T₁ ++ T₂) (joined t.basis.real.length a b') (t.basis.real.length + k) =
          apply T₁ (joined t.basis.real.length a b') (t.basis.real.length + k) := fun k hk => by
        rw [apply_append, z4 k (disI k hk), add_zero]
      have e4 : ∀ k ∈ I₂, apply (T₁ ++ T₂) (joined t.basis.real.length a b') (t.basis.real.length + k) =
          apply T₂ (joined t.basis.real.length a b') (t.basis.real.length + k) := fun k hk => by
        rw [apply_append, z3 k (fun h => disI k h hk), zero_add]
      constructor
      · rintro ⟨⟨p1, p2⟩, p3, p4⟩
        refine ⟨?_, ?_⟩
        · intro k hk
          rcases List.mem_append.mp hk with hk | hk
          · rw [e1 k hk, p1 k hk]
          · rw [e2 k hk, p3 k hk]
        · intro k hk
          rcases List.mem_append.mp hk with hk | hk
          · rw [e3 k hk, p2 k hk]
          · rw [e4 k hk, p4 k hk]
      · rintro ⟨p1, p2⟩
        refine ⟨⟨?_, ?_⟩, ?_, ?_⟩
        · intro k hk
          rw [← e1 k hk, p1 k (by simp [hk])]
        · intro k hk
          rw [← e3 k hk, p2 k (by simp [hk])]
        · intro k hk
          rw [← e2 k hk, p1 k (by simp [hk])]
        · intro k hk
          rw [← e4 k hk, p2 k (by simp [hk])]

theorem apply_diag (l : List Nat) (hl : l.Nodup) (off : Nat) (c : ℝ) (x : Nat → ℝ) (j : Nat) :
    apply (l.map fun i => (off + i, off + i, c)) x j = if ∃ i ∈ l, off + i = j then c * x j else 0 := by
  induction l with
  | nil => simp [apply]
  | cons i l ih =>
    rw [List.nodup_cons] at hl
    rw [List.map_cons, ← List.singleton_append, apply_append, ih hl.2]
    by_cases h : off + i = j
    · have h' : ¬ ∃ i' ∈ l, off + i' = j := by
        rintro ⟨i', hi', h''⟩
        exact hl.1 ((show i' = i by omega) ▸ hi')
      rw [if_neg h', if_pos ⟨i, by simp, h⟩]
      simp [apply, h]
    · have : (∃ i' ∈ i :: l, off + i' = j) ↔ ∃ i' ∈ l, off + i' = j := by simp [h]
      simp only [this]
      simp [apply, h]

theorem nodup_filter_range (n : Nat) (f : Nat → Bool) : ((List.range n).filter f).Nodup := List.nodup_range.filter _

theorem rulebookMatrix_spec {t : Table} (ht : Sound t) {o : Order} (b : List MRule) (hb : ∀ r ∈ b, r.OK (flags t) o)
    (hd : b.Pairwise fun r s => r.lhs ≠ s.lhs) (hl : ∀ r ∈ b, r.lhs < t.syms.length)
    (hid : ∀ r ∈ b, ∀ m ∈ r.rhs, m.id < t.syms.length) (mode : Mode) : ∃ T, rulebookMatrix t mode b = some T ∧
      ∀ a b' : Nat → ℝ, Assignment (flags t) (point t a b') → ((∀ r ∈ b, Holds (point t a b') r) ↔
        ∀ i, i < t.basis.real.length + t.basis.imag.length → apply T (joined t.basis.real.length a b') i =
          match mode with
          | .rewrite => joined t.basis.real.length a b' i
          | .homogeneous => 0) := by
  obtain ⟨T, R, I, h, S⟩ := ruleRows_spec ht b hb hd hl hid
  have Rn : ∀ k ∈ R, k < t.basis.real.length := fun k hk => by
    obtain ⟨x, -, h⟩ := S.re k hk
    exact (List.getElem?_eq_some_iff.mp h).1
  have In : ∀ k ∈ I, k < t.basis.imag.length := fun k hk => by
    obtain ⟨x, -, h⟩ := S.im k hk
    exact (List.getElem?_eq_some_iff.mp h).1
  have zR : ∀ x, ∀ k, k < t.basis.real.length → k ∉ R → apply T x k = 0 := by
    intro x k hk hk'
    apply apply_absent
    intro e he h
    rcases S.rows e he with h' | ⟨j, -, h'⟩
    · exact hk' (h ▸ h')
    · omega
  have zI : ∀ x, ∀ k, k ∉ I → apply T x (t.basis.real.length + k) = 0 := by
    intro x k hk
    apply apply_absent
    intro e he h
    rcases S.rows e he with h' | ⟨j, hj, h'⟩
    · have := Rn _ h'; omega
    · exact hk ((show j = k by omega) ▸ hj)
  have d0 : ∀ (l : List Nat) (c : ℝ), (l.map fun i => (i, i, c)) = l.map fun i => (0 + i, 0 + i, c) := fun l c => by simp
  unfold rulebookMatrix
  rw [h, Option.map_some]
  refine ⟨_, rfl, ?_⟩
  intro a b' hab
  rw [S.holds a b' hab]
  have jr : ∀ k, k < t.basis.real.length → joined t.basis.real.length a b' k = a k := fun k hk => by simp [joined, hk]
  have ji : ∀ k, joined t.basis.real.length a b' (t.basis.real.length + k) = b' k := fun k => by simp [joined]
  generalize hx : joined t.basis.real.length a b' = x at *
  cases mode with
  | rewrite =>
    dsimp only
    have val : ∀ i, apply (T ++ ((List.range t.basis.real.length).filter fun i => !R.contains i).map (fun i => (i, i, 1)) ++
        ((List.range t.basis.imag.length).filter fun i => !I.contains i).map (fun i => (t.basis.real.length + i, t.basis.real.length + i, 1))) x i =
        apply T x i + (if i < t.basis.real.length ∧ i ∉ R then x i else 0) +
          (if ∃ k, k < t.basis.imag.length ∧ k ∉ I ∧ t.basis.real.length + k = i then x i else 0) := by
      intro i
      rw [apply_append, apply_append, d0, apply_diag _ (nodup_filter_range _ _), apply_diag _ (nodup_filter_range _ _)]
      simp [and_assoc]
    constructor
    · rintro ⟨p1, p2⟩ i hi
      rw [val]
      by_cases hin : i < t.basis.real.length
      · have nI : ¬ ∃ k, k < t.basis.imag.length ∧ k ∉ I ∧ t.basis.real.length + k = i := by
          rintro ⟨k, -, -, h⟩; omega
        rw [if_neg nI, add_zero]
        by_cases hR : i ∈ R
        · rw [if_neg (by simp [hR]), add_zero, p1 i hR, jr i hin]
        · rw [if_pos ⟨hin, hR⟩, zR x i hin hR, zero_add]
      · obtain ⟨k, rfl⟩ : ∃ k, i = t.basis.real.length + k := ⟨i - t.basis.real.length, by omega⟩
        rw [if_neg (by omega), add_zero]
        by_cases hI : k ∈ I
        · rw [if_neg (by rintro ⟨k', -, h1, h2⟩; exact h1 ((show k = k' by omega) ▸ hI)), add_zero, p2 k hI, ji]
        · rw [if_pos ⟨k, by omega, hI, rfl⟩, zI x k hI, zero_add]
    · intro p
      refine ⟨?_, ?_⟩
      · intro k hk
        have := p k (by have := Rn k hk; omega)
        rw [val, if_neg (by simp [hk]), if_neg (by rintro ⟨k', -, -, h⟩; have := Rn k hk; omega), add_zero, add_zero, jr k (Rn k hk)] at this
        exact this
      · intro k hk
        have := p (t.basis.real.length + k) (by have := In k hk; omega)
        rw [val, if_neg (by omega), if_neg (by rintro ⟨k', -, h1, h2⟩; exact h1 ((show k = k' by omega) ▸ hk)), add_zero, add_zero, ji] at this
        exact this
  | homogeneous =>
    dsimp only
    have val : ∀ i, apply (T ++ ((List.range t.basis.real.length).filter fun i => R.contains i).map (fun i => (i, i, -1)) ++
        ((List.range t.basis.imag.length).filter fun i => I.contains i).map (fun i => (t.basis.real.length + i, t.basis.real.length + i, -1))) x i =
        apply T x i + (if i < t.basis.real.length ∧ i ∈ R then -1 * x i else 0) +
          (if ∃ k, k < t.basis.imag.length ∧ k ∈ I ∧ t.basis.real.length + k = i then -1 * x i else 0) := by
      intro i
      rw [apply_append, apply_append, d0, apply_diag _ (nodup_filter_range _ _), apply_diag _ (nodup_filter_range _ _)]
      simp [and_assoc]
    constructor
    · rintro ⟨p1, p2⟩ i hi
      rw [val]
      by_cases hin : i < t.basis.real.length
      · have nI : ¬ ∃ k, k < t.basis.imag.length ∧ k ∈ I ∧ t.basis.real.length + k = i := by
          rintro ⟨k, -, -, h⟩; omega
        rw [if_neg nI, add_zero]
        by_cases hR : i ∈ R
        · rw [if_pos ⟨hin, hR⟩, p1 i hR, jr i hin]; ring
        · rw [if_neg (by simp [hR]), zR x i hin hR, zero_add]
      · obtain ⟨k, rfl⟩ : ∃ k, i = t.basis.real.length + k := ⟨i - t.basis.real.length, by omega⟩
        rw [if_neg (by omega), add_zero]
        by_cases hI : k ∈ I
        · rw [if_pos ⟨k, by omega, hI, rfl⟩, p2 k hI, ji]; ring
        · rw [if_neg (by rintro ⟨k', -, h1, h2⟩; exact hI ((show k' = k by omega) ▸ h1)), zI x k hI, zero_add]
    · intro p
      refine ⟨?_, ?_⟩
      · intro k hk
        have := p k (by have := Rn k hk; omega)
        rw [val, if_pos ⟨Rn k hk, hk⟩, if_neg (by rintro ⟨k', -, -, h⟩; have := Rn k hk; omega), add_zero, jr k (Rn k hk)] at this
        linarith
      · intro k hk
        have := p (t.basis.real.length + k) (by have := In k hk; omega)
        rw [val, if_neg (by omega), if_pos ⟨k, In k hk, hk, rfl⟩, add_zero, ji] at this
        linarith

end Moment.BasisVec
