import Verif.Model.Convert
import Mathlib.Algebra.BigOperators.Group.Finset.Basic
import Mathlib.Algebra.BigOperators.Intervals
import Mathlib.Algebra.BigOperators.Ring.Finset
import Mathlib.Algebra.BigOperators.Field
import Mathlib.Order.Interval.Finset.Nat
import Mathlib.Tactic.Ring
import Mathlib.Tactic.Linarith

/-! # C47: Collins-Gisin and full-correlator tensors describe the same functional -/

namespace Moment.C47

open Convert

/-! ## Specification -/

/-- A no-signalling behaviour of two parties with binary measurements numbered from 1: joint and local probabilities of outcomes. -/
structure Behaviour where
  joint : Nat → Nat → Bool → Bool → ℝ
  left : Nat → Bool → ℝ
  right : Nat → Bool → ℝ
  marginLeft : ∀ x y a, joint x y a false + joint x y a true = left x a
  marginRight : ∀ x y b, joint x y false b + joint x y true b = right y b
  total : ∀ x, left x false + left x true = 1
  total' : ∀ y, right y false + right y true = 1

/-- Probability of the first outcomes of the given measurements; index 0 stands for no measurement. -/
def Behaviour.prob (P : Behaviour) (x y : Nat) : ℝ :=
  if x = 0 then (if y = 0 then 1 else P.right y false) else (if y = 0 then P.left x false else P.joint x y false false)

/-- Value of an outcome as a correlator: the first is `+1`, the second `-1`. -/
def sgn (a : Bool) : ℝ := if a then -1 else 1

/-- Mean value of the product of the outcomes. -/
def Behaviour.corr (P : Behaviour) (x y : Nat) : ℝ :=
  if x = 0 then (if y = 0 then 1 else sgn false * P.right y false + sgn true * P.right y true)
  else if y = 0 then sgn false * P.left x false + sgn true * P.left x true
  else sgn false * sgn false * P.joint x y false false + sgn false * sgn true * P.joint x y false true + sgn true * sgn false * P.joint x y true false
    + sgn true * sgn true * P.joint x y true true

/-- The functional with the given coefficients, entry `(x, y)` being at position `x + y * dA`. -/
def value (dA dB : Nat) (coeff : Nat → ℝ) (e : Nat → Nat → ℝ) : ℝ := ∑ x ∈ Finset.range dA, ∑ y ∈ Finset.range dB, coeff (x + y * dA) * e x y

/-! ## The loops -/

theorem off_eq (dA i j : Nat) : off dA i j = i + j * dA := by
  simp [off, Tensor.indexToOffsetNoChecks, Tensor.strides, Tensor.scan, Tensor.innerProduct]

theorem mem_from1 {d k : Nat} : k ∈ from1 d ↔ 1 ≤ k ∧ k < d := by
  unfold from1
  rw [List.mem_range'_1]
  omega

theorem sum_from1 (d : Nat) (g : Nat → ℝ) : ((from1 d).map g).sum = ∑ k ∈ Finset.Ico 1 d, g k := by
  unfold from1
  rw [Finset.sum_Ico_eq_sum_range]
  generalize d - 1 = m
  induction m with
  | zero => rfl
  | succ m ih => rw [List.range'_1_concat, List.map_append, List.sum_append, ih, Finset.sum_range_succ]; simp

theorem foldl_add (l : List Nat) (g : Nat → ℝ) : ∀ a, l.foldl (fun acc k => acc + g k) a = a + (l.map g).sum := by
  induction l with
  | nil => intro a; simp
  | cons x l ih => intro a; rw [List.foldl_cons, ih, List.map_cons, List.sum_cons]; ring

theorem inner_spec (t : Nat → ℝ) (dA i : Nat) : ∀ (js : List Nat), js.Nodup → ∀ ab : (Nat → ℝ) × (Nat → ℝ),
    let r := js.foldl (fun ab j => (Function.update ab.1 i (ab.1 i + t (off dA i j)), Function.update ab.2 j (ab.2 j + t (off dA i j)))) ab
    (∀ x, r.1 x = ab.1 x + if x = i then (js.map fun j => t (off dA i j)).sum else 0) ∧ ∀ y, r.2 y = ab.2 y + if y ∈ js then t (off dA i y) else 0 := by
  intro js
  induction js with
  | nil => intro _ ab; simp
  | cons j js ih =>
    intro hnd ab
    obtain ⟨h1, h2⟩ := List.nodup_cons.mp hnd
    obtain ⟨g1, g2⟩ := ih h2 (Function.update ab.1 i (ab.1 i + t (off dA i j)), Function.update ab.2 j (ab.2 j + t (off dA i j)))
    dsimp only at g1 g2 ⊢
    rw [List.foldl_cons]
    refine ⟨fun x => ?_, fun y => ?_⟩
    · rw [g1]
      by_cases e : x = i
      · subst e; rw [Function.update_self, if_pos rfl, if_pos rfl, List.map_cons, List.sum_cons]; ring
      · rw [Function.update_of_ne e, if_neg e, if_neg e]
    · rw [g2]
      by_cases e : y = j
      · subst e; rw [Function.update_self, if_neg h1, if_pos (by simp)]; ring
      · rw [Function.update_of_ne e]
        simp only [List.mem_cons, e, false_or]

theorem outer_spec (t : Nat → ℝ) (dA : Nat) (js : List Nat) (hjs : js.Nodup) : ∀ (is : List Nat), is.Nodup → ∀ ab : (Nat → ℝ) × (Nat → ℝ),
    let r := is.foldl (fun ab i => js.foldl (fun ab j => (Function.update ab.1 i (ab.1 i + t (off dA i j)), Function.update ab.2 j (ab.2 j + t (off dA i j)))) ab) ab
    (∀ x, r.1 x = ab.1 x + if x ∈ is then (js.map fun j => t (off dA x j)).sum else 0) ∧
      ∀ y, r.2 y = ab.2 y + if y ∈ js then (is.map fun i => t (off dA i y)).sum else 0 := by
  intro is
  induction is with
  | nil => intro _ ab; simp
  | cons i is ih =>
    intro hnd ab
    obtain ⟨h1, h2⟩ := List.nodup_cons.mp hnd
    obtain ⟨g1, g2⟩ := ih h2 (js.foldl (fun ab j => (Function.update ab.1 i (ab.1 i + t (off dA i j)), Function.update ab.2 j (ab.2 j + t (off dA i j)))) ab)
    obtain ⟨f1, f2⟩ := inner_spec t dA i js hjs ab
    dsimp only at g1 g2 f1 f2 ⊢
    rw [List.foldl_cons]
    refine ⟨fun x => ?_, fun y => ?_⟩
    · rw [g1, f1]
      by_cases e : x = i
      · subst e; rw [if_neg h1, if_pos rfl, if_pos (by simp)]; ring
      · rw [if_neg e]
        simp only [List.mem_cons, e, false_or, add_zero]
    · rw [g2, f2]
      split_ifs
      · rw [List.map_cons, List.sum_cons]; ring
      · ring

theorem nodup_from1 (d : Nat) : (from1 d).Nodup := List.nodup_range'

theorem marginals_spec (t : Nat → ℝ) (dA dB : Nat) :
    (marginals t dA dB).1 0 = ∑ j ∈ Finset.Ico 1 dB, t (j * dA) ∧ (marginals t dA dB).2 0 = ∑ i ∈ Finset.Ico 1 dA, t i ∧
    (∀ i ∈ Finset.Ico 1 dA, (marginals t dA dB).1 i = ∑ j ∈ Finset.Ico 1 dB, t (i + j * dA)) ∧
    (∀ j ∈ Finset.Ico 1 dB, (marginals t dA dB).2 j = ∑ i ∈ Finset.Ico 1 dA, t (i + j * dA)) := by
  obtain ⟨h1, h2⟩ := outer_spec t dA (from1 dB) (nodup_from1 _) (from1 dA) (nodup_from1 _)
    (Function.update (fun _ => 0) 0 (edgeB t dA dB), Function.update (fun _ => 0) 0 (edgeA t dA))
  have e1 : ∀ x, (marginals t dA dB).1 x = _ := h1
  have e2 : ∀ y, (marginals t dA dB).2 y = _ := h2
  dsimp only at e1 e2
  refine ⟨?_, ?_, fun i hi => ?_, fun j hj => ?_⟩
  · rw [e1, if_neg (by simp [mem_from1]), Function.update_self, add_zero]
    unfold edgeB
    rw [foldl_add, zero_add, sum_from1]
    simp only [off_eq, zero_add]
  · rw [e2, if_neg (by simp [mem_from1]), Function.update_self, add_zero]
    unfold edgeA
    rw [foldl_add, zero_add, sum_from1]
    simp only [off_eq, zero_mul, add_zero]
  · have hi' := Finset.mem_Ico.mp hi
    rw [e1, if_pos (mem_from1.mpr hi'), Function.update_of_ne (by omega), zero_add, sum_from1]
    simp only [off_eq]
  · have hj' := Finset.mem_Ico.mp hj
    rw [e2, if_pos (mem_from1.mpr hj'), Function.update_of_ne (by omega), zero_add, sum_from1]
    simp only [off_eq]

theorem central_spec (t : Nat → ℝ) (dA dB : Nat) : central (marginals t dA dB).1 dA = ∑ i ∈ Finset.Ico 1 dA, ∑ j ∈ Finset.Ico 1 dB, t (i + j * dA) := by
  unfold central
  rw [sum_from1]
  exact Finset.sum_congr rfl (marginals_spec t dA dB).2.2.1

theorem foldl_update_of_notMem (g : Nat → Nat) (v : Nat → ℝ) (k : Nat) : ∀ (l : List Nat), (∀ x ∈ l, g x ≠ k) → ∀ o : Nat → ℝ,
    l.foldl (fun o x => Function.update o (g x) (v x)) o k = o k := by
  intro l
  induction l with
  | nil => intro _ o; rfl
  | cons x l ih =>
    intro h o
    rw [List.foldl_cons, ih (fun y hy => h y (List.mem_cons_of_mem _ hy)), Function.update_of_ne (h x (by simp)).symm]

theorem foldl_update_of_mem (g : Nat → Nat) (v : Nat → ℝ) (x : Nat) : ∀ (l : List Nat), x ∈ l → (∀ y ∈ l, g y = g x → y = x) → ∀ o : Nat → ℝ,
    l.foldl (fun o x => Function.update o (g x) (v x)) o (g x) = v x := by
  intro l
  induction l with
  | nil => intro h; simp at h
  | cons y l ih =>
    intro h hinj o
    rw [List.foldl_cons]
    by_cases hx : x ∈ l
    · exact ih hx (fun z hz => hinj z (List.mem_cons_of_mem _ hz)) _
    · have hxy : x = y := by
        rcases List.mem_cons.mp h with e | e
        · exact e
        · exact absurd e hx
      subst hxy
      rw [foldl_update_of_notMem g v _ l, Function.update_self]
      intro z hz e
      have := hinj z (List.mem_cons_of_mem _ hz) e
      subst this
      exact hx hz

theorem grid_of_notMem (dA k : Nat) (js : List Nat) (v : Nat → Nat → ℝ) : ∀ (is : List Nat), (∀ x ∈ is, ∀ y ∈ js, off dA x y ≠ k) → ∀ o : Nat → ℝ,
    is.foldl (fun o i => js.foldl (fun o j => Function.update o (off dA i j) (v i j)) o) o k = o k := by
  intro is
  induction is with
  | nil => intro _ o; rfl
  | cons x is ih =>
    intro h o
    rw [List.foldl_cons, ih (fun y hy => h y (List.mem_cons_of_mem _ hy)), foldl_update_of_notMem (fun j => off dA x j) (v x) k js (h x (by simp))]

theorem off_inj {dA i j i' j' : Nat} (hi : i < dA) (hi' : i' < dA) (h : off dA i j = off dA i' j') : i = i' ∧ j = j' := by
  rw [off_eq, off_eq] at h
  have e1 : i = i' := by
    have := congrArg (· % dA) h
    simp only [Nat.add_mul_mod_self_right] at this
    rwa [Nat.mod_eq_of_lt hi, Nat.mod_eq_of_lt hi'] at this
  subst e1
  have := Nat.add_left_cancel h
  exact ⟨rfl, Nat.eq_of_mul_eq_mul_right (by omega) this⟩

theorem grid_of_mem (dA x y : Nat) (js : List Nat) (v : Nat → Nat → ℝ) : ∀ (is : List Nat), (∀ z ∈ is, z < dA) → x ∈ is → y ∈ js → ∀ o : Nat → ℝ,
    is.foldl (fun o i => js.foldl (fun o j => Function.update o (off dA i j) (v i j)) o) o (off dA x y) = v x y := by
  intro is
  induction is with
  | nil => intro _ h; simp at h
  | cons i is ih =>
    intro hlt hx hy o
    have hxd : x < dA := hlt x hx
    rw [List.foldl_cons]
    by_cases h : x ∈ is
    · exact ih (fun z hz => hlt z (List.mem_cons_of_mem _ hz)) h hy _
    · have hxi : x = i := by
        rcases List.mem_cons.mp hx with e | e
        · exact e
        · exact absurd e h
      subst hxi
      rw [grid_of_notMem dA _ js v is, foldl_update_of_mem (fun j => off dA x j) (v x) y js hy]
      · intro z _ e; exact (off_inj hxd hxd e).2
      · intro z hz y' _ e
        have := (off_inj (hlt z (List.mem_cons_of_mem _ hz)) hxd e).1
        subst this
        exact h hz

theorem write_spec {dA dB : Nat} (hA : 0 < dA) (const : ℝ) (termA termB : Nat → ℝ) (termAB : Nat → Nat → ℝ) :
    write dA dB const termA termB termAB 0 = const ∧ (∀ i, 1 ≤ i → i < dA → write dA dB const termA termB termAB i = termA i) ∧
    (∀ j, 1 ≤ j → j < dB → write dA dB const termA termB termAB (j * dA) = termB j) ∧
    (∀ i j, 1 ≤ i → i < dA → 1 ≤ j → j < dB → write dA dB const termA termB termAB (i + j * dA) = termAB i j) := by
  have h00 : off dA 0 0 = 0 := by rw [off_eq]; simp
  have hi0 : ∀ i, off dA i 0 = i := fun i => by rw [off_eq]; simp
  have h0j : ∀ j, off dA 0 j = j * dA := fun j => by rw [off_eq]; simp
  have hlt : ∀ z ∈ from1 dA, z < dA := fun z hz => (mem_from1.mp hz).2
  unfold write
  refine ⟨?_, fun i h1 h2 => ?_, fun j h1 h2 => ?_, fun i j h1 h2 h3 h4 => ?_⟩
  · rw [grid_of_notMem, foldl_update_of_notMem (fun j => off dA 0 j), foldl_update_of_notMem (fun i => off dA i 0), Function.update_self]
    · intro x hx e
      have := (mem_from1.mp hx).1
      rw [hi0] at e; omega
    · intro y hy e
      have := (off_inj hA hA (e.trans h00.symm)).2
      have := (mem_from1.mp hy).1
      omega
    · intro x hx y hy e
      rw [← h00] at e
      have := (off_inj (hlt x hx) hA e).1
      have := (mem_from1.mp hx).1
      omega
  · rw [grid_of_notMem, foldl_update_of_notMem (fun j => off dA 0 j)]
    · have := foldl_update_of_mem (fun i => off dA i 0) termA i (from1 dA) (mem_from1.mpr ⟨h1, h2⟩)
        (fun y hy e => by rwa [hi0, hi0] at e) (Function.update (fun _ => 0) 0 const)
      rw [hi0] at this
      exact this
    · intro y hy e
      rw [← hi0 i] at e
      have := (off_inj hA h2 e).1
      omega
    · intro x hx y hy e
      rw [← hi0 i] at e
      have := (off_inj (hlt x hx) h2 e).2
      have := (mem_from1.mp hy).1
      omega
  · rw [grid_of_notMem]
    · have := foldl_update_of_mem (fun j => off dA 0 j) termB j (from1 dB) (mem_from1.mpr ⟨h1, h2⟩)
        (fun y hy e => (off_inj hA hA e).2) ((from1 dA).foldl (fun o i => Function.update o (off dA i 0) (termA i)) (Function.update (fun _ => (0 : ℝ)) 0 const))
      rw [h0j] at this
      exact this
    · intro x hx y hy e
      rw [← h0j j] at e
      have := (off_inj (hlt x hx) hA e).1
      have := (mem_from1.mp hx).1
      omega
  · have := grid_of_mem dA i j (from1 dB) termAB (from1 dA) hlt (mem_from1.mpr ⟨h1, h2⟩) (mem_from1.mpr ⟨h3, h4⟩)
      ((from1 dB).foldl (fun o j => Function.update o (off dA 0 j) (termB j)) ((from1 dA).foldl (fun o i => Function.update o (off dA i 0) (termA i)) (Function.update (fun _ => (0 : ℝ)) 0 const)))
    rw [off_eq] at this
    exact this

/-! ## Closed forms -/

theorem cgToFc_spec {dA dB : Nat} (hA : 0 < dA) (c : Nat → ℝ) :
    cgToFc dA dB c 0 = c 0 + (∑ j ∈ Finset.Ico 1 dB, c (j * dA)) / 2 + (∑ i ∈ Finset.Ico 1 dA, c i) / 2 + (∑ i ∈ Finset.Ico 1 dA, ∑ j ∈ Finset.Ico 1 dB, c (i + j * dA)) / 4 ∧
    (∀ i ∈ Finset.Ico 1 dA, cgToFc dA dB c i = c i / 2 + (∑ j ∈ Finset.Ico 1 dB, c (i + j * dA)) / 4) ∧
    (∀ j ∈ Finset.Ico 1 dB, cgToFc dA dB c (j * dA) = c (j * dA) / 2 + (∑ i ∈ Finset.Ico 1 dA, c (i + j * dA)) / 4) ∧
    (∀ i ∈ Finset.Ico 1 dA, ∀ j ∈ Finset.Ico 1 dB, cgToFc dA dB c (i + j * dA) = c (i + j * dA) / 4) := by
  obtain ⟨m1, m2, m3, m4⟩ := marginals_spec c dA dB
  have mc := central_spec c dA dB
  obtain ⟨w1, w2, w3, w4⟩ := write_spec (dB := dB) hA
    (c 0 + (marginals c dA dB).1 0 / 2 + (marginals c dA dB).2 0 / 2 + central (marginals c dA dB).1 dA / 4) (fun i => c (off dA i 0) / 2 + (marginals c dA dB).1 i / 4)
    (fun j => c (off dA 0 j) / 2 + (marginals c dA dB).2 j / 4) (fun i j => c (off dA i j) / 4)
  refine ⟨?_, fun i hi => ?_, fun j hj => ?_, fun i hi j hj => ?_⟩
  · refine w1.trans ?_
    rw [m1, m2, mc]
  · obtain ⟨h1, h2⟩ := Finset.mem_Ico.mp hi
    refine (w2 i h1 h2).trans ?_
    rw [m3 i hi, off_eq]; simp
  · obtain ⟨h1, h2⟩ := Finset.mem_Ico.mp hj
    refine (w3 j h1 h2).trans ?_
    rw [m4 j hj, off_eq]; simp
  · obtain ⟨h1, h2⟩ := Finset.mem_Ico.mp hi
    obtain ⟨h3, h4⟩ := Finset.mem_Ico.mp hj
    refine (w4 i j h1 h2 h3 h4).trans ?_
    rw [off_eq]

theorem fcToCg_spec {dA dB : Nat} (hA : 0 < dA) (c : Nat → ℝ) :
    fcToCg dA dB c 0 = c 0 + (∑ i ∈ Finset.Ico 1 dA, ∑ j ∈ Finset.Ico 1 dB, c (i + j * dA)) - (∑ j ∈ Finset.Ico 1 dB, c (j * dA)) - (∑ i ∈ Finset.Ico 1 dA, c i) ∧
    (∀ i ∈ Finset.Ico 1 dA, fcToCg dA dB c i = 2 * c i - 2 * ∑ j ∈ Finset.Ico 1 dB, c (i + j * dA)) ∧
    (∀ j ∈ Finset.Ico 1 dB, fcToCg dA dB c (j * dA) = 2 * c (j * dA) - 2 * ∑ i ∈ Finset.Ico 1 dA, c (i + j * dA)) ∧
    (∀ i ∈ Finset.Ico 1 dA, ∀ j ∈ Finset.Ico 1 dB, fcToCg dA dB c (i + j * dA) = 4 * c (i + j * dA)) := by
  obtain ⟨m1, m2, m3, m4⟩ := marginals_spec c dA dB
  have mc := central_spec c dA dB
  obtain ⟨w1, w2, w3, w4⟩ := write_spec (dB := dB) hA
    (c 0 + central (marginals c dA dB).1 dA - (marginals c dA dB).1 0 - (marginals c dA dB).2 0) (fun i => 2 * c (off dA i 0) - 2 * (marginals c dA dB).1 i)
    (fun j => 2 * c (off dA 0 j) - 2 * (marginals c dA dB).2 j) (fun i j => 4 * c (off dA i j))
  refine ⟨?_, fun i hi => ?_, fun j hj => ?_, fun i hi j hj => ?_⟩
  · refine w1.trans ?_
    rw [m1, m2, mc]
  · obtain ⟨h1, h2⟩ := Finset.mem_Ico.mp hi
    refine (w2 i h1 h2).trans ?_
    rw [m3 i hi, off_eq]; simp
  · obtain ⟨h1, h2⟩ := Finset.mem_Ico.mp hj
    refine (w3 j h1 h2).trans ?_
    rw [m4 j hj, off_eq]; simp
  · obtain ⟨h1, h2⟩ := Finset.mem_Ico.mp hi
    obtain ⟨h3, h4⟩ := Finset.mem_Ico.mp hj
    refine (w4 i j h1 h2 h3 h4).trans ?_
    rw [off_eq]

/-- The functional, split into its four kinds of terms. -/
theorem value_split {dA dB : Nat} (hA : 0 < dA) (hB : 0 < dB) (c : Nat → ℝ) (e : Nat → Nat → ℝ) :
    value dA dB c e = c 0 * e 0 0 + ∑ j ∈ Finset.Ico 1 dB, c (j * dA) * e 0 j + ∑ i ∈ Finset.Ico 1 dA, c i * e i 0
      + ∑ i ∈ Finset.Ico 1 dA, ∑ j ∈ Finset.Ico 1 dB, c (i + j * dA) * e i j := by
  have hs : ∀ (d : Nat), 0 < d → ∀ g : Nat → ℝ, ∑ k ∈ Finset.range d, g k = g 0 + ∑ k ∈ Finset.Ico 1 d, g k := by
    intro d hd g
    rw [Finset.range_eq_Ico, Finset.sum_eq_sum_Ico_succ_bot hd]
  unfold value
  rw [hs dA hA]
  simp only [hs dB hB]
  rw [Finset.sum_add_distrib]
  simp only [zero_mul, zero_add, add_zero]
  ring

theorem corr_prob (P : Behaviour) :
    P.corr 0 0 = 1 ∧ (∀ j, 1 ≤ j → P.corr 0 j = 2 * P.prob 0 j - 1) ∧ (∀ i, 1 ≤ i → P.corr i 0 = 2 * P.prob i 0 - 1) ∧
    (∀ i j, 1 ≤ i → 1 ≤ j → P.corr i j = 4 * P.prob i j - 2 * P.prob i 0 - 2 * P.prob 0 j + 1) := by
  refine ⟨by simp [Behaviour.corr], fun j hj => ?_, fun i hi => ?_, fun i j hi hj => ?_⟩
  · have hj' : j ≠ 0 := by omega
    have := P.total' j
    simp only [Behaviour.corr, Behaviour.prob, sgn, hj', if_true, if_false, Bool.false_eq_true]
    linarith
  · have hi' : i ≠ 0 := by omega
    have := P.total i
    simp only [Behaviour.corr, Behaviour.prob, sgn, hi', if_true, if_false, Bool.false_eq_true]
    linarith
  · have hi' : i ≠ 0 := by omega
    have hj' : j ≠ 0 := by omega
    have h1 := P.marginLeft i j false
    have h2 := P.marginLeft i j true
    have h3 := P.marginRight i j false
    have h4 := P.total i
    simp only [Behaviour.corr, Behaviour.prob, sgn, hi', hj', if_true, if_false, Bool.false_eq_true]
    linarith

/-- **C47.** The full-correlator tensor made from a Collins-Gisin tensor has the same value on every behaviour. -/
theorem C47_value_cg {dA dB : Nat} (hA : 0 < dA) (hB : 0 < dB) (c : Nat → ℝ) (P : Behaviour) : value dA dB (cgToFc dA dB c) P.corr = value dA dB c P.prob := by
  obtain ⟨w1, w2, w3, w4⟩ := cgToFc_spec (dB := dB) hA c
  obtain ⟨p1, p2, p3, p4⟩ := corr_prob P
  have p0 : P.prob 0 0 = 1 := by simp [Behaviour.prob]
  rw [value_split hA hB, value_split hA hB, w1, p1, p0]
  rw [Finset.sum_congr (f := fun j => cgToFc dA dB c (j * dA) * P.corr 0 j) rfl fun j hj => by rw [w3 j hj, p2 j (Finset.mem_Ico.mp hj).1],
    Finset.sum_congr (f := fun i => cgToFc dA dB c i * P.corr i 0) rfl fun i hi => by rw [w2 i hi, p3 i (Finset.mem_Ico.mp hi).1],
    Finset.sum_congr (f := fun i => ∑ j ∈ Finset.Ico 1 dB, cgToFc dA dB c (i + j * dA) * P.corr i j) rfl fun i hi => Finset.sum_congr rfl fun j hj => by rw [w4 i hi j hj, p4 i j (Finset.mem_Ico.mp hi).1 (Finset.mem_Ico.mp hj).1]]
  have e1 : ∀ j, (c (j * dA) / 2 + (∑ i ∈ Finset.Ico 1 dA, c (i + j * dA)) / 4) * (2 * P.prob 0 j - 1) =
      c (j * dA) * P.prob 0 j - c (j * dA) / 2 + ∑ i ∈ Finset.Ico 1 dA, (c (i + j * dA) * (P.prob 0 j / 2 - 1 / 4)) := by
    intro j; rw [← Finset.sum_mul]; ring
  have e2 : ∀ i, (c i / 2 + (∑ j ∈ Finset.Ico 1 dB, c (i + j * dA)) / 4) * (2 * P.prob i 0 - 1) =
      c i * P.prob i 0 - c i / 2 + ∑ j ∈ Finset.Ico 1 dB, (c (i + j * dA) * (P.prob i 0 / 2 - 1 / 4)) := by
    intro i; rw [← Finset.sum_mul]; ring
  simp only [e1, e2, Finset.sum_add_distrib, Finset.sum_sub_distrib]
  rw [Finset.sum_comm (s := Finset.Ico 1 dB) (t := Finset.Ico 1 dA)]
  have e3 : ∀ i j, c (i + j * dA) / 4 * (4 * P.prob i j - 2 * P.prob i 0 - 2 * P.prob 0 j + 1) =
      c (i + j * dA) * P.prob i j - c (i + j * dA) * (P.prob i 0 / 2 - 1 / 4) - c (i + j * dA) * (P.prob 0 j / 2 - 1 / 4) - c (i + j * dA) / 4 := by
    intro i j; ring
  simp only [e3, Finset.sum_sub_distrib]
  simp only [← Finset.sum_div]
  ring

/-- **C47.** The Collins-Gisin tensor made from a full-correlator tensor has the same value on every behaviour. -/
theorem C47_value_fc {dA dB : Nat} (hA : 0 < dA) (hB : 0 < dB) (c : Nat → ℝ) (P : Behaviour) : value dA dB (fcToCg dA dB c) P.prob = value dA dB c P.corr := by
  obtain ⟨w1, w2, w3, w4⟩ := fcToCg_spec (dB := dB) hA c
  obtain ⟨p1, p2, p3, p4⟩ := corr_prob P
  have p0 : P.prob 0 0 = 1 := by simp [Behaviour.prob]
  rw [value_split hA hB, value_split hA hB, w1, p1, p0]
  rw [Finset.sum_congr (f := fun j => fcToCg dA dB c (j * dA) * P.prob 0 j) rfl fun j hj => by rw [w3 j hj],
    Finset.sum_congr (f := fun i => fcToCg dA dB c i * P.prob i 0) rfl fun i hi => by rw [w2 i hi],
    Finset.sum_congr (f := fun i => ∑ j ∈ Finset.Ico 1 dB, fcToCg dA dB c (i + j * dA) * P.prob i j) rfl fun i hi => Finset.sum_congr rfl fun j hj => by rw [w4 i hi j hj]]
  rw [Finset.sum_congr (f := fun j => c (j * dA) * P.corr 0 j) rfl fun j hj => by rw [p2 j (Finset.mem_Ico.mp hj).1],
    Finset.sum_congr (f := fun i => c i * P.corr i 0) rfl fun i hi => by rw [p3 i (Finset.mem_Ico.mp hi).1],
    Finset.sum_congr (f := fun i => ∑ j ∈ Finset.Ico 1 dB, c (i + j * dA) * P.corr i j) rfl fun i hi => Finset.sum_congr rfl fun j hj => by
      rw [p4 i j (Finset.mem_Ico.mp hi).1 (Finset.mem_Ico.mp hj).1]]
  have e1 : ∀ j, (2 * c (j * dA) - 2 * ∑ i ∈ Finset.Ico 1 dA, c (i + j * dA)) * P.prob 0 j =
      2 * (c (j * dA) * P.prob 0 j) - 2 * ∑ i ∈ Finset.Ico 1 dA, (c (i + j * dA) * P.prob 0 j) := by
    intro j; rw [← Finset.sum_mul]; ring
  have e2 : ∀ i, (2 * c i - 2 * ∑ j ∈ Finset.Ico 1 dB, c (i + j * dA)) * P.prob i 0 =
      2 * (c i * P.prob i 0) - 2 * ∑ j ∈ Finset.Ico 1 dB, (c (i + j * dA) * P.prob i 0) := by
    intro i; rw [← Finset.sum_mul]; ring
  have e3 : ∀ i j, c (i + j * dA) * (4 * P.prob i j - 2 * P.prob i 0 - 2 * P.prob 0 j + 1) =
      4 * c (i + j * dA) * P.prob i j - 2 * (c (i + j * dA) * P.prob i 0) - 2 * (c (i + j * dA) * P.prob 0 j) + c (i + j * dA) := by
    intro i j; ring
  have e4 : ∀ j, c (j * dA) * (2 * P.prob 0 j - 1) = 2 * (c (j * dA) * P.prob 0 j) - c (j * dA) := by intro j; ring
  have e5 : ∀ i, c i * (2 * P.prob i 0 - 1) = 2 * (c i * P.prob i 0) - c i := by intro i; ring
  simp only [e1, e2, e3, e4, e5, Finset.sum_add_distrib, Finset.sum_sub_distrib, ← Finset.mul_sum]
  rw [Finset.sum_comm (s := Finset.Ico 1 dB) (t := Finset.Ico 1 dA)]
  ring

/-- Every position is one of four kinds. -/
theorem position {dA dB : Nat} {k : Nat} (hk : k < dA * dB) : k = 0 ∨ (k ∈ Finset.Ico 1 dA) ∨ (∃ j ∈ Finset.Ico 1 dB, k = j * dA) ∨
    ∃ i ∈ Finset.Ico 1 dA, ∃ j ∈ Finset.Ico 1 dB, k = i + j * dA := by
  have hA : 0 < dA := by
    rcases Nat.eq_zero_or_pos dA with e | e
    · subst e; omega
    · exact e
  have h1 := Nat.mod_lt k hA
  have h2 : k / dA < dB := Nat.div_lt_of_lt_mul hk
  have h3 := Nat.mod_add_div' k dA
  simp only [Finset.mem_Ico]
  by_cases hi : k % dA = 0 <;> by_cases hj : k / dA = 0
  · left; rw [hi, hj] at h3; omega
  · right; right; left; exact ⟨k / dA, ⟨Nat.pos_of_ne_zero hj, h2⟩, by omega⟩
  · right; left; rw [hj] at h3; omega
  · right; right; right; exact ⟨k % dA, ⟨Nat.pos_of_ne_zero hi, h1⟩, k / dA, ⟨Nat.pos_of_ne_zero hj, h2⟩, h3.symm⟩

/-- **C47.** Converting to a full-correlator tensor and back gives the tensor. -/
theorem C47_round_trip_cg {dA dB : Nat} (c : Nat → ℝ) {k : Nat} (hk : k < dA * dB) : fcToCg dA dB (cgToFc dA dB c) k = c k := by
  have hA : 0 < dA := by
    rcases Nat.eq_zero_or_pos dA with e | e
    · subst e; omega
    · exact e
  obtain ⟨w1, w2, w3, w4⟩ := cgToFc_spec (dB := dB) hA c
  obtain ⟨v1, v2, v3, v4⟩ := fcToCg_spec (dB := dB) hA (cgToFc dA dB c)
  have s1 : ∀ i ∈ Finset.Ico 1 dA, ∑ j ∈ Finset.Ico 1 dB, cgToFc dA dB c (i + j * dA) = (∑ j ∈ Finset.Ico 1 dB, c (i + j * dA)) / 4 := by
    intro i hi; rw [Finset.sum_div]; exact Finset.sum_congr rfl fun j hj => w4 i hi j hj
  have s2 : ∀ j ∈ Finset.Ico 1 dB, ∑ i ∈ Finset.Ico 1 dA, cgToFc dA dB c (i + j * dA) = (∑ i ∈ Finset.Ico 1 dA, c (i + j * dA)) / 4 := by
    intro j hj; rw [Finset.sum_div]; exact Finset.sum_congr rfl fun i hi => w4 i hi j hj
  rcases position hk with rfl | hi | ⟨j, hj, rfl⟩ | ⟨i, hi, j, hj, rfl⟩
  · rw [v1, w1, Finset.sum_congr rfl s1, Finset.sum_congr rfl w3, Finset.sum_congr rfl w2]
    simp only [Finset.sum_add_distrib, ← Finset.sum_div]
    rw [Finset.sum_comm (s := Finset.Ico 1 dB) (t := Finset.Ico 1 dA)]
    ring
  · rw [v2 k hi, w2 k hi, s1 k hi]; ring
  · rw [v3 j hj, w3 j hj, s2 j hj]; ring
  · rw [v4 i hi j hj, w4 i hi j hj]; ring

/-- **C47.** Converting to a Collins-Gisin tensor and back gives the tensor. -/
theorem C47_round_trip_fc {dA dB : Nat} (c : Nat → ℝ) {k : Nat} (hk : k < dA * dB) : cgToFc dA dB (fcToCg dA dB c) k = c k := by
  have hA : 0 < dA := by
    rcases Nat.eq_zero_or_pos dA with e | e
    · subst e; omega
    · exact e
  obtain ⟨w1, w2, w3, w4⟩ := fcToCg_spec (dB := dB) hA c
  obtain ⟨v1, v2, v3, v4⟩ := cgToFc_spec (dB := dB) hA (fcToCg dA dB c)
  have s1 : ∀ i ∈ Finset.Ico 1 dA, ∑ j ∈ Finset.Ico 1 dB, fcToCg dA dB c (i + j * dA) = 4 * ∑ j ∈ Finset.Ico 1 dB, c (i + j * dA) := by
    intro i hi; rw [Finset.mul_sum]; exact Finset.sum_congr rfl fun j hj => w4 i hi j hj
  have s2 : ∀ j ∈ Finset.Ico 1 dB, ∑ i ∈ Finset.Ico 1 dA, fcToCg dA dB c (i + j * dA) = 4 * ∑ i ∈ Finset.Ico 1 dA, c (i + j * dA) := by
    intro j hj; rw [Finset.mul_sum]; exact Finset.sum_congr rfl fun i hi => w4 i hi j hj
  rcases position hk with rfl | hi | ⟨j, hj, rfl⟩ | ⟨i, hi, j, hj, rfl⟩
  · rw [v1, w1, Finset.sum_congr rfl s1, Finset.sum_congr rfl w3, Finset.sum_congr rfl w2]
    simp only [Finset.sum_sub_distrib, ← Finset.mul_sum]
    rw [Finset.sum_comm (s := Finset.Ico 1 dB) (t := Finset.Ico 1 dA)]
    ring
  · rw [v2 k hi, w2 k hi, s1 k hi]; ring
  · rw [v3 j hj, w3 j hj, s2 j hj]; ring
  · rw [v4 i hi j hj, w4 i hi j hj]; ring

/-- **C47.** The converter accepts exactly the bipartite scenarios with binary measurements, and tensors of the size of the scenario. -/
theorem C47_accepts (ops outcomes : List Nat) (size : Nat) (t : Nat → ℝ) :
    (∃ dims r r', convertor ops outcomes = some dims ∧ cgToFcChecked dims size t = some r ∧ fcToCgChecked dims size t = some r') ↔
      (∀ m ∈ outcomes, m = 2) ∧ ∃ a b, ops = [a, b] ∧ size = (a + 1) * (b + 1) := by
  constructor
  · rintro ⟨dims, r, r', h1, h2, -⟩
    unfold convertor at h1
    split_ifs at h1 with g1 g2
    obtain ⟨a, b, rfl⟩ := List.length_eq_two.mp (not_not.mp g2)
    obtain rfl := Option.some.inj h1
    refine ⟨by simpa using g1, a, b, rfl, ?_⟩
    by_contra hs
    unfold cgToFcChecked at h2
    rw [if_pos (by simpa [Tensor.elementCount] using hs)] at h2
    simp at h2
  · rintro ⟨h1, a, b, rfl, rfl⟩
    refine ⟨[a + 1, b + 1], cgToFc (a + 1) (b + 1) t, fcToCg (a + 1) (b + 1) t, ?_, ?_, ?_⟩
    · unfold convertor
      rw [if_neg (by simpa using h1)]
      simp
    · rw [cgToFcChecked, if_neg (by simp [Tensor.elementCount])]
    · rw [fcToCgChecked, if_neg (by simp [Tensor.elementCount])]

/-- A behaviour with perfectly correlated outcomes: the probabilities and the correlators differ. -/
example : ∃ P : Behaviour, P.prob 1 1 = 1 / 2 ∧ P.corr 1 1 = 1 ∧ P.corr 1 0 = 0 := by
  refine ⟨⟨fun _ _ a b => if a = b then 1 / 2 else 0, fun _ _ => 1 / 2, fun _ _ => 1 / 2, ?_, ?_, ?_, ?_⟩, ?_, ?_, ?_⟩
  · intro _ _ a; cases a <;> norm_num
  · intro _ _ b; cases b <;> norm_num
  · intro _; norm_num
  · intro _; norm_num
  · norm_num [Behaviour.prob]
  · norm_num [Behaviour.corr, sgn]
  · norm_num [Behaviour.corr, sgn]

example : (0 : Nat) < 3 ∧ 0 < 2 ∧ 5 < 3 * 2 := by norm_num

end Moment.C47
