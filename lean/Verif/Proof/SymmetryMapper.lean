import Verif.Proof.SymmetryList
import Mathlib.Algebra.BigOperators.Ring.Finset
import Mathlib.Algebra.BigOperators.Fin
import Mathlib.Algebra.Module.BigOperators

/-! # The mapper makes representations of homomorphisms -/

namespace Moment.SymRep

theorem fromTriplets_nil (i j : Nat) : fromTriplets [] i j = 0 := by simp [fromTriplets]

theorem fromTriplets_cons (t : Nat × Nat × ℝ) (ts : List (Nat × Nat × ℝ)) (i j : Nat) :
    fromTriplets (t :: ts) i j = (if t.1 = i ∧ t.2.1 = j then t.2.2 else 0) + fromTriplets ts i j := by
  unfold fromTriplets
  rw [List.filter_cons]
  by_cases h : t.1 = i ∧ t.2.1 = j
  · simp [h]
  · rw [if_neg h, if_neg (by simpa using h), zero_add]

theorem lhs_entry (remap : List Nat) : ∀ (p i q : Nat), fromTriplets (lhsTriplets p remap) i (p + q) = if remap[q]? = some (i + 1) then 1 else 0 := by
  have low : ∀ (remap : List Nat) (p i q : Nat), q < p → fromTriplets (lhsTriplets p remap) i q = 0 := by
    intro remap
    induction remap with
    | nil => intro p i q _; exact fromTriplets_nil _ _
    | cons m remap ih =>
      intro p i q h
      rw [lhsTriplets]
      split
      · rw [fromTriplets_cons, if_neg (by simp; omega), zero_add, ih _ _ _ (by omega)]
      · exact ih _ _ _ (by omega)
  induction remap with
  | nil => intro p i q; rw [lhsTriplets, fromTriplets_nil]; simp
  | cons m remap ih =>
    intro p i q
    rw [lhsTriplets]
    cases q with
    | zero =>
      simp only [Nat.add_zero, List.getElem?_cons_zero, Option.some.injEq]
      by_cases h : m > 0
      · rw [if_pos h, fromTriplets_cons, low _ _ _ _ (by omega), add_zero]
        by_cases h' : m = i + 1
        · rw [if_pos h', if_pos ⟨by simp only; omega, rfl⟩]
        · rw [if_neg h', if_neg (by simp only; omega)]
      · rw [if_neg h, low _ _ _ _ (by omega), if_neg (by omega)]
    | succ q =>
      rw [List.getElem?_cons_succ, ← ih (p + 1) i q]
      have e : p + (q + 1) = p + 1 + q := by omega
      rw [e]
      split
      · rw [fromTriplets_cons, if_neg (by simp only; omega), zero_add]
      · rfl

theorem rhs_done (remap : List Nat) : ∀ (p : Nat) (done : List Nat) (q j : Nat), j ∈ done → fromTriplets (rhsTriplets p done remap) q j = 0 := by
  induction remap with
  | nil => intro p done q j _; exact fromTriplets_nil _ _
  | cons m remap ih =>
    intro p done q j h
    rw [rhsTriplets]
    split
    · rename_i hc
      rw [fromTriplets_cons, if_neg (by rintro ⟨_, h'⟩; exact hc.2 (by rw [show m - 1 = j from h']; exact h)), zero_add]
      exact ih _ _ _ _ (List.mem_cons_of_mem _ h)
    · exact ih _ _ _ _ h

theorem rhs_entry (remap : List Nat) : ∀ (p : Nat) (done : List Nat) (j : Nat), j ∉ done → j + 1 ∈ remap →
    ∃ q0, remap[q0]? = some (j + 1) ∧ ∀ q, fromTriplets (rhsTriplets p done remap) q j = if q = p + q0 then 1 else 0 := by
  induction remap with
  | nil => intro p done j _ h; simp at h
  | cons m remap ih =>
    intro p done j hd hj
    by_cases hm : m = j + 1
    · refine ⟨0, by rw [hm]; rfl, ?_⟩
      intro q
      rw [rhsTriplets, if_pos ⟨by omega, by rw [hm]; exact hd⟩, fromTriplets_cons, rhs_done _ _ _ _ _ (by rw [hm]; simp), add_zero]
      simp only [hm, Nat.add_sub_cancel, and_true, Nat.add_zero]
      by_cases h : p = q
      · rw [if_pos h, if_pos h.symm]
      · rw [if_neg h, if_neg (fun h' => h h'.symm)]
    · have hj' : j + 1 ∈ remap := by
        rcases List.mem_cons.mp hj with h | h
        · exact absurd h.symm hm
        · exact h
      rw [rhsTriplets]
      by_cases hc : m > 0 ∧ m - 1 ∉ done
      · rw [if_pos hc]
        obtain ⟨q0, h1, h2⟩ := ih (p + 1) ((m - 1) :: done) j (by
          intro h
          rcases List.mem_cons.mp h with h | h
          · omega
          · exact hd h) hj'
        refine ⟨q0 + 1, h1, ?_⟩
        intro q
        rw [fromTriplets_cons, if_neg (by simp only; omega), zero_add, h2]
        have e : p + 1 + q0 = p + (q0 + 1) := by omega
        rw [e]
      · rw [if_neg hc]
        obtain ⟨q0, h1, h2⟩ := ih (p + 1) done j hd hj'
        refine ⟨q0 + 1, h1, ?_⟩
        intro q
        rw [h2]
        have e : p + 1 + q0 = p + (q0 + 1) := by omega
        rw [e]

theorem mapM_some {α β : Type} (f : α → Option β) : ∀ (l : List α), (∀ x ∈ l, ∃ y, f x = some y) →
    ∃ r, l.mapM f = some r ∧ r.length = l.length := by
  intro l
  induction l with
  | nil => exact fun _ => ⟨[], rfl, rfl⟩
  | cons a l ih =>
    intro h
    obtain ⟨y, hy⟩ := h a (by simp)
    obtain ⟨r, hr, hl⟩ := ih fun x hx => h x (List.mem_cons_of_mem _ hx)
    exact ⟨y :: r, by rw [List.mapM_cons, hy, hr]; rfl, by simp [hl]⟩

theorem mapM_get {α β : Type} (f : α → Option β) : ∀ (l : List α) {r : List β}, l.mapM f = some r → r.length = l.length ∧ ∀ i : Nat, r[i]? = (l[i]?).bind f := by
  intro l
  induction l with
  | nil =>
    intro r h
    have : r = [] := by rw [List.mapM_nil] at h; exact (Option.some.inj h).symm
    subst this
    exact ⟨rfl, fun i => by simp⟩
  | cons a l ih =>
    intro r h
    rw [List.mapM_cons] at h
    cases hy : f a with
    | none => rw [hy] at h; exact absurd h (by simp)
    | some y =>
      rw [hy] at h
      cases hr : l.mapM f with
      | none => rw [hr] at h; exact absurd h (by simp)
      | some r' =>
        rw [hr] at h
        have : r = y :: r' := by simpa using h.symm
        subst this
        obtain ⟨h1, h2⟩ := ih hr
        refine ⟨by simp [h1], ?_⟩
        intro i
        cases i with
        | zero => simp [hy]
        | succ i => simpa using h2 i

theorem lookup_zero (ws : List HSeq) : lookup (hashIndex ws) 0 = some 0 := by simp [lookup, hashIndex]

theorem lookup_index {ws : List HSeq} {h : UInt64} {k : Nat} (h0 : h ≠ 0) (hl : lookup (hashIndex ws) h = some k) : ∃ i w, k = i + 1 ∧ ws[i]? = some w ∧ w.hash = h := by
  unfold lookup hashIndex at hl
  rw [List.find?_cons_of_neg (by simpa using h0.symm)] at hl
  obtain ⟨e, he, rfl⟩ := Option.map_eq_some_iff.mp hl
  have h1 := List.find?_some he
  have h2 := List.mem_of_find?_eq_some he
  obtain ⟨⟨w, i⟩, hw, rfl⟩ := List.mem_map.mp h2
  rw [List.mem_zipIdx_iff_getElem?] at hw
  exact ⟨i, w, rfl, hw, by simpa using h1⟩

theorem lookup_found {ws : List HSeq} {w : HSeq} (hw : w ∈ ws) : ∃ k, lookup (hashIndex ws) w.hash = some k := by
  have hs : ((hashIndex ws).find? fun e => e.1 == w.hash).isSome = true := by
    rw [List.find?_isSome]
    obtain ⟨i, hi⟩ := List.mem_iff_getElem?.mp hw
    exact ⟨(w.hash, i + 1), List.mem_cons_of_mem _ (List.mem_map.mpr ⟨(w, i), by rw [List.mem_zipIdx_iff_getElem?]; exact hi, rfl⟩), by simp⟩
  obtain ⟨e, he⟩ := Option.isSome_iff_exists.mp hs
  exact ⟨e.2, by rw [lookup, he]; rfl⟩

theorem products_get (c : Ctx) (a b : Nat) (u : Nat) : (products c a b)[u]? = ((c.words a)[u / (c.words b).length]?).bind fun l => ((c.words b)[u % (c.words b).length]?).map fun r => c.mul l r := by
  unfold products
  generalize hn : (c.words b).length = n
  rcases Nat.eq_zero_or_pos n with h0 | h0
  · have hb : c.words b = [] := List.length_eq_zero_iff.mp (by omega)
    rw [hb]
    simp
  induction c.words a generalizing u with
  | nil => simp
  | cons x l ih =>
    rw [List.flatMap_cons]
    by_cases h : u < n
    · rw [List.getElem?_append_left (by simpa [hn] using h), Nat.div_eq_of_lt h, Nat.mod_eq_of_lt h]; simp
    · rw [List.getElem?_append_right (by simpa [hn] using h), List.length_map, hn, ih]
      obtain ⟨v, rfl⟩ : ∃ v, u = v + n := ⟨u - n, by omega⟩
      rw [Nat.add_sub_cancel, Nat.add_div_right _ h0, Nat.add_mod_right]
      simp

theorem products_length (c : Ctx) (a b : Nat) : (products c a b).length = (c.words a).length * (c.words b).length := by
  unfold products
  induction c.words a with
  | nil => simp
  | cons x l ih => rw [List.flatMap_cons, List.length_append, ih, List.length_map, List.length_cons, Nat.add_mul, Nat.one_mul, Nat.add_comm]

theorem sum_range_mul {R : Type} [AddCommMonoid R] (a b : Nat) (f : Nat → Nat → R) :
    ∑ u ∈ Finset.range (a * b), f (u / b) (u % b) = ∑ i ∈ Finset.range a, ∑ k ∈ Finset.range b, f i k := by
  rcases Nat.eq_zero_or_pos b with h0 | h0
  · subst h0; simp
  induction a with
  | zero => simp
  | succ a ih =>
    rw [Nat.succ_mul, Finset.sum_range_add, ih, Finset.sum_range_succ]
    congr 1
    apply Finset.sum_congr rfl
    intro k hk
    rw [Finset.mem_range] at hk
    rw [Nat.mul_comm, Nat.mul_add_div h0, Nat.div_eq_of_lt hk, Nat.add_zero, Nat.mul_add_mod, Nat.mod_eq_of_lt hk]

variable {R : Type} [Ring R] [Algebra ℝ R]

/-- The element that the `i`th word stands for. -/
noncomputable def evAt (ev : HSeq → R) (ws : List HSeq) (i : Nat) : R := ((ws[i]?).map ev).getD 0

theorem evAt_of {ev : HSeq → R} {ws : List HSeq} {i : Nat} {w : HSeq} (h : ws[i]? = some w) : evAt ev ws i = ev w := by rw [evAt, h]; rfl

theorem represents_iff {ev : HSeq → R} {φ : R →ₐ[ℝ] R} {ws : List HSeq} {A : Entries} :
    Represents ev φ ws A ↔ ∀ j < ws.length, φ (evAt ev ws j) = ∑ i ∈ Finset.range ws.length, A i j • evAt ev ws i := by
  unfold Represents
  have hs : ∀ j, ∑ i : Fin ws.length, A i j • ev ws[i] = ∑ i ∈ Finset.range ws.length, A i j • evAt ev ws i := by
    intro j
    rw [← Fin.sum_univ_eq_sum_range (fun i => A i j • evAt ev ws i)]
    apply Finset.sum_congr rfl
    intro i _
    rw [evAt_of (List.getElem?_eq_getElem i.2)]
    rfl
  constructor
  · intro h j hj
    rw [evAt_of (List.getElem?_eq_getElem hj), h j hj, hs]
  · intro h j hj
    rw [← evAt_of (ev := ev) (List.getElem?_eq_getElem hj), h j hj, hs]

theorem remap_exists {c : Ctx} {ev : HSeq → R} {N : Nat} (hf : Faithful c ev N) {a b : Nat} (hN : a + b ≤ N) : ∃ r, vectorRemap c a b (a + b) = some r := by
  obtain ⟨r, h, _⟩ := mapM_some (fun w : HSeq => lookup (hashIndex (c.words (a + b))) w.hash) (products c a b) (by
    intro w hw
    obtain ⟨l, hl, hw⟩ := List.mem_flatMap.mp hw
    obtain ⟨r, hr, rfl⟩ := List.mem_map.mp hw
    rcases hf.found hN hl hr with h | ⟨v, hv, h⟩
    · exact ⟨0, by simp only [h]; exact lookup_zero _⟩
    · simp only [h]; exact lookup_found hv)
  exact ⟨r, h⟩

/-- A mapper of the right kind. -/
structure Fits (c : Ctx) (n : Nat) (m : Mapper) : Prop where
  target : m.target = n
  remapped : m.remapped = (c.words n).length

/-- The mapper turns representations on shorter words into one on longer words. -/
theorem apply_represents {c : Ctx} {ev : HSeq → R} {N : Nat} (hf : Faithful c ev N) {a b : Nat} (ha0 : 0 < a) (hb0 : 0 < b) (hN : a + b ≤ N) {mA mB m : Mapper} (hA : Fits c a mA) (hB : Fits c b mB)
    (hm : Mapper.make c mA mB (a + b) = some m) {φ : R →ₐ[ℝ] R} {A B : Entries} (hrA : Represents ev φ (c.words a) A) (hrB : Represents ev φ (c.words b) B) :
    Represents ev φ (c.words (a + b)) (m.apply A B) := by
  rw [represents_iff] at hrA hrB ⊢
  unfold Mapper.make at hm
  obtain ⟨remap, hr, rfl⟩ := Option.map_eq_some_iff.mp hm
  rw [hA.target, hB.target] at hr
  obtain ⟨hlen, hget⟩ := mapM_get _ _ hr
  rw [products_length] at hlen
  set na := (c.words a).length with hna
  set nb := (c.words b).length with hnb
  -- what the products stand for
  have hprod : ∀ u < na * nb, ∃ l r, (c.words a)[u / nb]? = some l ∧ (c.words b)[u % nb]? = some r ∧ (products c a b)[u]? = some (c.mul l r) := by
    intro u hu
    have h1 : u / nb < na := by rw [Nat.div_lt_iff_lt_mul (by by_contra h; simp only [Nat.not_lt, Nat.le_zero] at h; rw [h] at hu; simp at hu)]; exact hu
    have h2 : u % nb < nb := Nat.mod_lt _ (by by_contra h; simp only [Nat.not_lt, Nat.le_zero] at h; rw [h] at hu; simp at hu)
    have e1 := List.getElem?_eq_getElem (l := c.words a) h1
    have e2 := List.getElem?_eq_getElem (l := c.words b) h2
    refine ⟨_, _, e1, e2, ?_⟩
    rw [products_get, ← hnb, e1, e2]; rfl
  -- the rows of the left matrix add up what the products stand for
  have hlhs : ∀ u < na * nb, ∑ i ∈ Finset.range (c.words (a + b)).length, fromTriplets (lhsTriplets 0 remap) i u • evAt ev (c.words (a + b)) i =
      evAt ev (c.words a) (u / nb) * evAt ev (c.words b) (u % nb) := by
    intro u hu
    obtain ⟨l, r, h1, h2, h3⟩ := hprod u hu
    have hl := List.mem_of_getElem? h1
    have hr' := List.mem_of_getElem? h2
    rw [evAt_of h1, evAt_of h2, ← hf.mul hN hl hr']
    have hrm := hget u
    rw [h3] at hrm
    have hsum : ∀ i, fromTriplets (lhsTriplets 0 remap) i u = if remap[u]? = some (i + 1) then 1 else 0 := fun i => by
      have := lhs_entry remap 0 i u
      rwa [Nat.zero_add] at this
    simp only [hsum]
    by_cases h0 : (c.mul l r).hash = 0
    · have hr0 : remap[u]? = some 0 := by rw [hrm, Option.bind_some, h0, lookup_zero]
      rw [hf.zero hN hl hr' h0]
      apply Finset.sum_eq_zero
      intro i _
      rw [hr0, if_neg (by simp), zero_smul]
    · have hul : u < remap.length := by rw [hlen]; exact hu
      have hk : lookup (hashIndex (c.words (a + b))) (c.mul l r).hash = some remap[u] := by
        rw [Option.bind_some] at hrm; rw [← hrm, List.getElem?_eq_getElem hul]
      obtain ⟨k, w, e1, e2, e3⟩ := lookup_index h0 hk
      have hru : remap[u]? = some (k + 1) := by rw [List.getElem?_eq_getElem hul, e1]
      have hkl : k < (c.words (a + b)).length := (List.getElem?_eq_some_iff.mp e2).1
      rw [Finset.sum_eq_single k]
      · rw [hru, if_pos rfl, one_smul, evAt_of e2, hf.same hN hl hr' (List.mem_of_getElem? e2) e3.symm]
      · intro i _ hi
        rw [hru, if_neg (by simp; omega), zero_smul]
      · intro h; exact absurd (Finset.mem_range.mpr hkl) h
  intro j hj
  have ej := List.getElem?_eq_getElem hj
  have hwj := List.mem_of_getElem? ej
  -- the column of the right matrix
  obtain ⟨l, hl, r, hr', hlr⟩ := hf.split ha0 hb0 hN hwj
  obtain ⟨il, hil⟩ := List.mem_iff_getElem?.mp hl
  obtain ⟨ir, hir⟩ := List.mem_iff_getElem?.mp hr'
  have hmem : j + 1 ∈ remap := by
    have hil' : il < na := (List.getElem?_eq_some_iff.mp hil).1
    have hir' : ir < nb := (List.getElem?_eq_some_iff.mp hir).1
    have hu : il * nb + ir < na * nb := by
      have : (il + 1) * nb ≤ na * nb := Nat.mul_le_mul_right _ hil'
      rw [Nat.succ_mul] at this; omega
    have d1 : (il * nb + ir) / nb = il := by rw [Nat.mul_comm, Nat.mul_add_div (by omega), Nat.div_eq_of_lt hir', Nat.add_zero]
    have d2 : (il * nb + ir) % nb = ir := by rw [Nat.mul_comm, Nat.mul_add_mod, Nat.mod_eq_of_lt hir']
    obtain ⟨l', r', h1, h2, h3⟩ := hprod _ hu
    rw [d1, hil] at h1
    rw [d2, hir] at h2
    have e := hget (il * nb + ir)
    rw [h3, ← Option.some.inj h1, ← Option.some.inj h2, Option.bind_some, hlr] at e
    obtain ⟨k, hk⟩ := lookup_found hwj
    obtain ⟨i, w, e1, e2, e3⟩ := lookup_index (hf.nonzero hN hwj) hk
    have : i = j := by
      have hi : i < ((c.words (a + b)).map HSeq.hash).length := by rw [List.length_map]; exact (List.getElem?_eq_some_iff.mp e2).1
      have hj' : j < ((c.words (a + b)).map HSeq.hash).length := by rw [List.length_map]; exact hj
      refine ((hf.nodup hN).getElem_inj_iff (i := i) (j := j) (hi := hi) (hj := hj')).mp ?_
      rw [List.getElem_map, List.getElem_map, (List.getElem?_eq_some_iff.mp e2).2, e3]
    rw [hk, e1, this] at e
    exact List.mem_of_getElem? e
  obtain ⟨q, hq, hrhs⟩ := rhs_entry remap 0 [] j (by simp) hmem
  have hqn : q < na * nb := by rw [← hlen]; exact (List.getElem?_eq_some_iff.mp hq).1
  obtain ⟨l', r', h1, h2, h3⟩ := hprod q hqn
  have hl' := List.mem_of_getElem? h1
  have hr'' := List.mem_of_getElem? h2
  have hwq : evAt ev (c.words (a + b)) j = ev l' * ev r' := by
    have e := hget q
    rw [h3, hq, Option.bind_some] at e
    have h0 : (c.mul l' r').hash ≠ 0 := fun h => by rw [h, lookup_zero] at e; simp at e
    obtain ⟨i, w, e1, e2, e3⟩ := lookup_index h0 e.symm
    have : i = j := by omega
    subst this
    rw [evAt_of e2, ← hf.mul hN hl' hr'', hf.same hN hl' hr'' (List.mem_of_getElem? e2) e3.symm]
  rw [hwq, map_mul, ← evAt_of (ev := ev) h1, ← evAt_of (ev := ev) h2,
    hrA _ (List.getElem?_eq_some_iff.mp h1).1, hrB _ (List.getElem?_eq_some_iff.mp h2).1]
  -- the entries of the product
  have hent : ∀ i, (Mapper.apply ⟨a + b, mA.remapped, mB.remapped, mA.remapped * mB.remapped, (c.words (a + b)).length, remap, fromTriplets (lhsTriplets 0 remap),
      fromTriplets (rhsTriplets 0 [] remap)⟩ A B) i j = ∑ u ∈ Finset.range (na * nb), fromTriplets (lhsTriplets 0 remap) i u * kron nb A B u q := by
    intro i
    unfold Mapper.apply mulE
    simp only [hA.remapped, hB.remapped, ← hna, ← hnb, hrhs, Nat.zero_add]
    rw [Finset.sum_eq_single q]
    · rw [if_pos rfl, mul_one]
    · intro t _ ht; rw [if_neg ht, mul_zero]
    · intro h; exact absurd (Finset.mem_range.mpr hqn) h
  simp only [hent, Finset.sum_smul]
  rw [Finset.sum_comm]
  have hcol : ∀ u ∈ Finset.range (na * nb), ∑ i ∈ Finset.range (c.words (a + b)).length,
      (fromTriplets (lhsTriplets 0 remap) i u * kron nb A B u q) • evAt ev (c.words (a + b)) i =
      (A (u / nb) (q / nb) * B (u % nb) (q % nb)) • (evAt ev (c.words a) (u / nb) * evAt ev (c.words b) (u % nb)) := by
    intro u hu
    rw [← hlhs u (Finset.mem_range.mp hu), Finset.smul_sum]
    apply Finset.sum_congr rfl
    intro i _
    rw [smul_smul, kron, mul_comm]
  rw [Finset.sum_congr rfl hcol,
    sum_range_mul na nb (fun x y => (A x (q / nb) * B y (q % nb)) • (evAt ev (c.words a) x * evAt ev (c.words b) y)), Finset.sum_mul_sum]
  apply Finset.sum_congr rfl
  intro x _
  apply Finset.sum_congr rfl
  intro y _
  rw [smul_mul_smul_comm]

end Moment.SymRep
