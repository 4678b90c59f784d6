import Verif.Proof.MomentComplete

/-! # Normal forms, containment and uniqueness of moment rulebooks -/

namespace Moment.Poly

open Classical

local notation "conj'" => starRingEnd ℂ

/-- Reduction gives zero exactly if the polynomial vanishes for all solutions. -/
theorem reduceBook_nil_iff {t : Table} (ht : t.Good) {o : Order} (ho : o.Good) {b : List MRule} (hb : Inv t o b) {p : List Mono} (hp : Canonical t o p) :
    reduceBook t o b p = [] ↔ ∀ v, Solves t b v → value v p = 0 := by
  constructor
  · intro h v hv
    have := reduceBook_value (o := o) b hv.1.1 p
    rw [subst_of_solves hv, h] at this
    exact this.symm
  · intro h
    refine canonical_unique ht ho.injective (reduceBook_canonical ho.injective b hp) (canonical_nil t o) fun v hv h1 => ?_
    rw [reduceBook_value b hv, h _ (hb.subst_solves ⟨hv, h1⟩)]; rfl

theorem reduceBook_eq_iff {t : Table} (ht : t.Good) {o : Order} (ho : o.Good) {b : List MRule} (hb : Inv t o b) {p q : List Mono} (hp : Canonical t o p)
    (hq : Canonical t o q) : reduceBook t o b p = reduceBook t o b q ↔ ∀ v, Solves t b v → value v p = value v q := by
  constructor
  · intro h v hv
    have h1 := reduceBook_value (o := o) b hv.1.1 p
    have h2 := reduceBook_value (o := o) b hv.1.1 q
    rw [subst_of_solves hv] at h1 h2
    rw [← h1, ← h2, h]
  · intro h
    refine canonical_unique ht ho.injective (reduceBook_canonical ho.injective b hp) (reduceBook_canonical ho.injective b hq) fun v hv h1 => ?_
    rw [reduceBook_value b hv, reduceBook_value b hv, h _ (hb.subst_solves ⟨hv, h1⟩)]

theorem reduceBook_idem {t : Table} (ht : t.Good) {o : Order} (ho : o.Good) {b : List MRule} (hb : Inv t o b) {p : List Mono} (hp : Canonical t o p) :
    reduceBook t o b (reduceBook t o b p) = reduceBook t o b p :=
  reduceBook_of_value ht ho.injective (reduceBook_canonical ho.injective b hp) fun _ hv => meets_value hb.ok (hb.reduce_meets p) hv

/-! ## Rules as polynomials -/

theorem asPolynomial_eq {o : Order} {r : MRule} (h : 1 < r.lhs) : r.asPolynomial o = mergeAdd o r.rhs [⟨r.lhs, false, -1⟩] := by
  unfold MRule.asPolynomial ofMono
  rw [if_neg (by omega), append_eq]
  have : r.lhs ≠ 0 ∧ (-1 : ℂ) ≠ 0 := by constructor <;> simp; omega
  rw [if_pos this]

theorem asPolynomial_canonical {t : Table} {o : Order} (ho : Function.Injective o.rank) {r : MRule} (h : r.OK t o) : Canonical t o (r.asPolynomial o) := by
  rw [asPolynomial_eq h.lhs]
  exact mergeAdd_canonical ho h.rhs_canonical ⟨by simp, by simp; have := h.lhs; omega, by simp⟩

theorem asPolynomial_value {o : Order} (ho : Function.Injective o.rank) {r : MRule} (h : 1 < r.lhs) (v : Nat → ℂ) :
    value v (r.asPolynomial o) = value v r.rhs - v r.lhs := by
  rw [asPolynomial_eq h, mergeAdd_value v ho]
  simp [Mono.value]; ring

theorem asPolynomial_zero {o : Order} (ho : Function.Injective o.rank) {r : MRule} (h : 1 < r.lhs) (v : Nat → ℂ) :
    value v (r.asPolynomial o) = 0 ↔ Holds v r := by
  rw [asPolynomial_value ho h, sub_eq_zero]; exact eq_comm

/-! ## Freedom of a symbol -/

/-- Changing the value of a symbol that is neither Hermitian nor anti-Hermitian. -/
theorem assignment_update {t : Table} {v : Nat → ℂ} (hv : Assignment t v) {i : Nat} (h1 : 1 < i) {z : ℂ} (hh : t.herm i = true → conj' z = z)
    (ha : t.anti i = true → conj' z = -z) : Assignment t (fun j => if j = i then z else v j) := by
  refine ⟨⟨?_, fun j hj => ?_, fun j hj => ?_⟩, ?_⟩
  · rw [if_neg (by omega)]; exact hv.1.zero
  · split
    · rename_i e; subst e; exact hh hj
    · exact hv.1.herm j hj
  · split
    · rename_i e; subst e; exact ha hj
    · exact hv.1.anti j hj
  · show (if 1 = i then z else v 1) = 1
    rw [if_neg (by omega)]; exact hv.2

/-- In a good book, the values of the symbols without a rule and the free parts can be chosen; the solution with them is unique. -/
theorem solves_unique {t : Table} {b : List MRule} {v w : Nat → ℂ} (hv : Solves t b v) (hw : Solves t b w)
    (h : subst b v = subst b w) : v = w := by
  rw [← subst_of_solves hv, ← subst_of_solves hw, h]

/-- If symbols below `i` have the same values, so has a polynomial below `i`. -/
theorem value_below {o : Order} {i : Nat} {p : List Mono} (hp : Below o i p) {v w : Nat → ℂ} (h : ∀ j, o.rank j < o.rank i → v j = w j) :
    value v p = value w p := value_congr fun m hm => h m.id (hp m hm)

theorem rhs_congr {t : Table} {o : Order} {r : MRule} (hr : r.OK t o) {v w : Nat → ℂ} (h : ∀ j, o.rank j ≤ o.rank r.lhs → v j = w j) :
    value v r.rhs = value w r.rhs := value_congr fun m hm => h m.id (hr.rhs_le hm)

theorem subst_congr {t : Table} {o : Order} {b : List MRule} (hb : ∀ r ∈ b, r.OK t o) {v w : Nat → ℂ} {k : Nat}
    (h : ∀ j, o.rank j ≤ k → v j = w j) (i : Nat) (hi : o.rank i ≤ k) : subst b v i = subst b w i := by
  cases hf : findRule b i with
  | none => rw [subst_none hf, subst_none hf, h i hi]
  | some r =>
    rw [subst_some hf, subst_some hf]
    obtain ⟨h1, rfl⟩ := findRule_some hf
    exact rhs_congr (hb r h1) fun j hj => h j (hj.trans hi)

/-- A nonzero number of the kind a symbol can have. -/
theorem exists_kind {t : Table} (ht : t.Good) {i : Nat} (hi : i ≠ 0) : ∃ z : ℂ, z ≠ 0 ∧ (t.herm i = true → conj' z = z) ∧ (t.anti i = true → conj' z = -z) := by
  by_cases ha : t.anti i = true
  · exact ⟨Complex.I, Complex.I_ne_zero, fun hh => absurd ⟨hh, ha⟩ (ht.notBoth i hi), fun _ => by simp⟩
  · exact ⟨1, one_ne_zero, fun _ => by simp, fun h => absurd h ha⟩

/-- If all solutions of the book `c` satisfy the rule, `c` has a rule for its symbol. -/
theorem symbol_covered {t : Table} (ht : t.Good) {o : Order} {c : List MRule} (hc : Inv t o c) {r : MRule} (hr : r.OK t o)
    (h : ∀ v, Solves t c v → Holds v r) : ∃ s, s ∈ c ∧ s.lhs = r.lhs := by
  by_contra hno
  have hf : findRule c r.lhs = none := findRule_none.mpr fun s hs e => hno ⟨s, hs, e⟩
  have hi1 := hr.lhs
  -- the solutions with all free symbols zero, and with the symbol of the rule changed
  let v0 : Nat → ℂ := fun i => if i = 1 then 1 else 0
  have hv0 : Assignment t v0 := by
    have := respects_single ht r.lhs (by omega) 0 (by simp) (by simp)
    refine ⟨?_, by simp [v0]⟩
    convert this using 2
    simp [v0]
  have key : ∀ z, (t.herm r.lhs = true → conj' z = z) → (t.anti r.lhs = true → conj' z = -z) →
      z = value (subst c v0) r.core + (if r.partial then 1 / 2 * (z - r.dir * r.dir * conj' z) else 0) := by
    intro z hh ha
    have hw := assignment_update hv0 hi1 hh ha
    set w := fun j => if j = r.lhs then z else v0 j with hwd
    have hsol := h _ (hc.subst_solves hw)
    unfold Holds at hsol
    have hz : subst c w r.lhs = z := by rw [subst_none hf]; simp [hwd]
    have hcore : value (subst c w) r.core = value (subst c v0) r.core := by
      refine value_congr fun m hm => ?_
      have hlt := hr.below m hm
      refine subst_congr hc.ok (k := o.rank m.id) (fun j hj => ?_) m.id le_rfl
      have : j ≠ r.lhs := fun e => by rw [e] at hj; omega
      simp [hwd, this]
    cases hp : r.partial with
    | false =>
      rw [← core_full hp, hcore, hz] at hsol
      simpa using hsol
    | true =>
      rw [rhs_value hr hp, hcore, hz] at hsol
      simpa using hsol
  have k0 := key 0 (by simp) (by simp)
  have hc0 : value (subst c v0) r.core = 0 := by
    cases hp : r.partial <;> · rw [hp] at k0; simpa using k0.symm
  rw [hc0] at key
  cases hp : r.partial with
  | false =>
    obtain ⟨z, hz, hh, ha⟩ := exists_kind ht (by omega : r.lhs ≠ 0)
    have := key z hh ha
    rw [hp] at this
    simp at this
    exact hz this
  | true =>
    obtain ⟨hh, ha, -, hd, -, -⟩ := hr.part hp
    have := key r.dir (by simp [hh]) (by simp [ha])
    rw [hp, if_pos rfl] at this
    have hd0 : r.dir ≠ 0 := fun h0 => by rw [h0] at hd; simp at hd
    have h3 : r.dir * 1 = r.dir * 0 := by linear_combination this - (1 / 2) * r.dir * hd
    exact one_ne_zero (mul_left_cancel₀ hd0 h3)

/-- If all solutions of `c` satisfy the rule, the rule of `c` for its symbol is full or both are partial in the same direction. -/
theorem direction_covered {t : Table} {o : Order} {c : List MRule} (hc : Inv t o c) {r s : MRule} (hr : r.OK t o)
    (h : ∀ v, Solves t c v → Holds v r) (hs : s ∈ c) (hl : s.lhs = r.lhs) (hp : s.partial = true) {v : Nat → ℂ} (hv : Assignment t v) :
    r.partial = true ∧ r.dir = s.dir := by
  have hso := hc.ok s hs
  obtain ⟨sh, sa, -, sd, sn, sc⟩ := hso.part hp
  have sd0 : s.dir ≠ 0 := fun h0 => by rw [h0] at sd; simp at sd
  -- moving along the free direction of s
  have hi1 := hr.lhs
  let base := subst c v
  have hbase : Solves t c base := hc.subst_solves hv
  have hcore0 := sc
  have key : ∀ k : ℝ, Holds (subst c (fun j => if j = r.lhs then base r.lhs + k * (Complex.I * s.dir) else base j)) r ∧
      subst c (fun j => if j = r.lhs then base r.lhs + k * (Complex.I * s.dir) else base j) r.lhs = base r.lhs + k * (Complex.I * s.dir) ∧
      value (subst c (fun j => if j = r.lhs then base r.lhs + k * (Complex.I * s.dir) else base j)) r.core = value base r.core := by
    intro k
    have hw := assignment_update hbase.1 hi1 (z := base r.lhs + k * (Complex.I * s.dir)) (by rw [← hl, sh]; simp) (by rw [← hl, sa]; simp)
    set w := fun j => if j = r.lhs then base r.lhs + k * (Complex.I * s.dir) else base j with hwd
    refine ⟨h _ (hc.subst_solves hw), ?_, ?_⟩
    · rw [← hl, subst_some (findRule_mem hc.ordered hs), rhs_value hso hp]
      have e1 : w s.lhs = base s.lhs + k * (Complex.I * s.dir) := by simp [hwd, hl]
      have e2 : value w s.core = value base s.core := value_congr fun m hm => by
        have := hso.below m hm
        have hne : m.id ≠ r.lhs := fun e => by rw [e, hl] at this; exact lt_irrefl _ this
        simp [hwd, hne]
      have e3 := hbase.2 s hs
      unfold Holds at e3
      rw [rhs_value hso hp] at e3
      rw [e1, e2]
      simp only [map_add, map_mul, Complex.conj_ofReal, Complex.conj_I]
      linear_combination -e3 + (1 / 2 * k * Complex.I * s.dir) * sd
    · refine (value_congr fun m hm => ?_).trans (congrArg (fun u => value u r.core) (subst_of_solves hbase))
      have hlt := hr.below m hm
      refine subst_congr hc.ok (k := o.rank m.id) (fun j hj => ?_) m.id le_rfl
      have : j ≠ r.lhs := fun e => by rw [e] at hj; omega
      simp [hwd, this]
  obtain ⟨a1, a2, a3⟩ := key 1
  have b1 := h base hbase
  unfold Holds at a1 b1
  have hI : Complex.I * s.dir ≠ 0 := mul_ne_zero Complex.I_ne_zero sd0
  rcases Bool.eq_false_or_eq_true r.partial with hrp | hrp
  · refine ⟨hrp, ?_⟩
    obtain ⟨-, -, -, rd, rn, -⟩ := hr.part hrp
    rw [rhs_value hr hrp, a2, a3] at a1
    rw [rhs_value hr hrp] at b1
    have h2 : s.dir * s.dir = r.dir * r.dir := by
      have e : Complex.I * s.dir + r.dir * r.dir * (-Complex.I * conj' s.dir) = 0 := by
        simp only [map_add, map_mul, Complex.conj_ofReal, Complex.conj_I, Complex.ofReal_one, one_mul] at a1
        linear_combination 2 * a1 - 2 * b1
      have e2 : Complex.I * (s.dir - r.dir * r.dir * conj' s.dir) = 0 := by linear_combination e
      have e3 := (mul_eq_zero.mp e2).resolve_left Complex.I_ne_zero
      linear_combination s.dir * e3 + r.dir * r.dir * sd
    rcases mul_self_eq_mul_self_iff.mp h2 with e | e
    · exact e.symm
    · exfalso
      rcases rn with h1 | h1 <;> rcases sn with h3 | h3
      · rw [h1, h3] at e; have := congrArg Complex.re e; norm_num at this
      · rw [h1] at e; rw [e] at h3; simp at h3
      · rw [h3] at e; have := congrArg Complex.im e; simp at this; linarith
      · rw [e] at h3; simp at h3; linarith
  · exfalso
    rw [← core_full hrp, a2, a3] at a1
    rw [← core_full hrp] at b1
    apply hI
    have : ((1 : ℝ) : ℂ) * (Complex.I * s.dir) = 0 := by linear_combination a1 - b1
    simpa using this

theorem zero_assignment {t : Table} (ht : t.Good) : Assignment t (fun i => if i = 1 then 1 else 0) := by
  have := respects_single ht 2 (by omega) 0 (by simp) (by simp)
  refine ⟨?_, by simp⟩
  convert this using 2
  simp

/-- Good books with the same solutions have the same rules. -/
theorem inv_unique_mem {t : Table} (ht : t.Good) {o : Order} (ho : o.Good) {b c : List MRule} (hb : Inv t o b) (hc : Inv t o c)
    (h : ∀ v, Solves t b v ↔ Solves t c v) {r : MRule} (hr : r ∈ b) : r ∈ c := by
  have hbc : ∀ r ∈ b, ∃ s ∈ c, s.lhs = r.lhs ∧ s.partial = r.partial ∧ s.dir = r.dir := by
    intro r hr
    have hok := hb.ok r hr
    have h1 : ∀ v, Solves t c v → Holds v r := fun v hv => ((h v).mpr hv).2 r hr
    obtain ⟨s, hs, hl⟩ := symbol_covered ht hc hok h1
    have h2 : ∀ v, Solves t b v → Holds v s := fun v hv => ((h v).mp hv).2 s hs
    have hv0 := zero_assignment ht
    refine ⟨s, hs, hl, ?_⟩
    cases hp : s.partial with
    | true =>
      obtain ⟨e1, e2⟩ := direction_covered hc hok h1 hs hl hp hv0
      exact ⟨e1.symm, e2.symm⟩
    | false =>
      cases hp' : r.partial with
      | true =>
        obtain ⟨e1, -⟩ := direction_covered hb (hc.ok s hs) h2 hr hl.symm hp' hv0
        rw [hp] at e1; exact absurd e1 (by simp)
      | false => exact ⟨rfl, by rw [(hc.ok s hs).dir0 hp, hok.dir0 hp']⟩
  obtain ⟨s, hs, hl, hp, hd⟩ := hbc r hr
  -- right sides agree
  have hmeets : ∀ q ∈ b, Meets q s.rhs := by
    intro q hq
    obtain ⟨q', hq', e1, e2, e3⟩ := hbc q hq
    have := hc.meets s hs q' hq'
    unfold Meets at this ⊢
    rwa [e1, e2, e3] at this
  have e : r.rhs = s.rhs := by
    refine canonical_unique ht ho.injective (hb.ok r hr).rhs_canonical (hc.ok s hs).rhs_canonical fun v hv h1 => ?_
    have hw := hb.subst_solves ⟨hv, h1⟩
    rw [← meets_value hb.ok (hb.meets r hr) ⟨hv, h1⟩, ← meets_value hb.ok hmeets ⟨hv, h1⟩, ← hw.2 r hr, ← ((h _).mp hw).2 s hs, hl]
  have : r = s := by
    obtain ⟨a1, a2, a3, a4⟩ := r
    obtain ⟨b1, b2, b3, b4⟩ := s
    simp only at hl hp hd e
    subst hl hp hd e
    rfl
  rw [this]; exact hs

theorem ordered_ext {o : Order} {b c : List MRule} (hb : Ordered o b) (hc : Ordered o c) (h : ∀ r, r ∈ b ↔ r ∈ c) : b = c := by
  have nb : b.Nodup := hb.imp fun h e => by rw [e] at h; exact lt_irrefl _ h
  have nc : c.Nodup := hc.imp fun h e => by rw [e] at h; exact lt_irrefl _ h
  refine List.Perm.eq_of_pairwise (le := fun (r s : MRule) => o.rank r.lhs < o.rank s.lhs) (fun a b _ _ h1 h2 => absurd h1 (by omega)) hb hc
    ((List.perm_ext_iff_of_nodup nb nc).mpr h)

theorem inv_unique {t : Table} (ht : t.Good) {o : Order} (ho : o.Good) {b c : List MRule} (hb : Inv t o b) (hc : Inv t o c)
    (h : ∀ v, Solves t b v ↔ Solves t c v) : b = c :=
  ordered_ext hb.ordered hc.ordered fun _ => ⟨inv_unique_mem ht ho hb hc h, inv_unique_mem ht ho hc hb fun v => (h v).symm⟩

end Moment.Poly
