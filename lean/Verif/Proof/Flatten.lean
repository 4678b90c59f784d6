import Verif.Model.Flatten
import Verif.Spec.Flatten
import Verif.Proof.Tensor
import Mathlib.Data.List.Nodup
import Mathlib.Algebra.BigOperators.Ring.List
import Mathlib.Tactic.Ring

/-! # Proofs about flattened indices -/

namespace Moment.Flatten
open MultiDim (unrank)

theorem range_mul {α : Type} (F : Nat → α) (d : Nat) : ∀ p, (List.range (d * p)).map F = (List.range p).flatMap fun q => (List.range d).map fun r => F (r + d * q)
  | 0 => by simp
  | p + 1 => by
    rw [Nat.mul_succ, List.range_add, List.map_append, range_mul F d p, List.range_succ, List.flatMap_append]
    simp [List.map_map, Function.comp_def, Nat.add_comm]

/-- The entries of the lists at these places. -/
def pick : List (List Nat) → List Nat → Option (List Nat)
  | l :: ls, i :: is => (l[i]?).bind fun x => (pick ls is).map (x :: ·)
  | [], [] => some []
  | _, _ => none

theorem mapM_succ {α : Type} (g : Nat → Option α) (n : Nat) :
    (List.range (n + 1)).mapM g = (g 0).bind fun x => ((List.range n).mapM fun d => g (d + 1)).map (x :: ·) := by
  rw [List.range_succ_eq_map, List.mapM_cons]
  have e : ∀ l : List Nat, (l.map Nat.succ).mapM g = l.mapM fun d => g (d + 1) := by
    intro l
    induction l with
    | nil => rfl
    | cons a l ih => rw [List.map_cons, List.mapM_cons, List.mapM_cons, ih]
  rw [e]
  cases g 0 with
  | none => rfl
  | some x => cases (List.range n).mapM fun d => g (d + 1) <;> rfl

theorem pick_eq : ∀ (ls : List (List Nat)) (is : List Nat), is.length = ls.length →
    ((List.range is.length).mapM fun d => ((ls[d]?).bind fun l => (is[d]?).bind fun i => l[i]?)) = pick ls is
  | [], [], _ => rfl
  | l :: ls, i :: is, h => by
    rw [List.length_cons, mapM_succ]
    simp only [List.getElem?_cons_zero, Option.bind_some, List.getElem?_cons_succ, pick]
    rw [pick_eq ls is (by simpa using h)]

theorem lookup_range {α β : Type} (l : List α) (g : α → β) : (List.range l.length).map (fun r => (l[r]?).map g) = (l.map g).map some := by
  apply List.ext_getElem?
  intro i
  by_cases h : i < l.length <;> simp [h]

/-- Running through the places picks all choices. -/
theorem picks : ∀ ls : List (List Nat), (List.range (ls.map List.length).prod).map (fun m => pick ls (unrank (ls.map List.length) m)) = (choices ls).map some
  | [] => rfl
  | l :: ls => by
    rw [List.map_cons, List.prod_cons, range_mul]
    have step : ∀ q, (List.range l.length).map (fun r => pick (l :: ls) (unrank (l.length :: ls.map List.length) (r + l.length * q))) =
        (List.range l.length).map fun r => (l[r]?).bind fun x => (pick ls (unrank (ls.map List.length) q)).map (x :: ·) := by
      intro q
      apply List.map_congr_left
      intro r hr
      have hr := List.mem_range.mp hr
      simp only [unrank, pick]
      rw [Nat.add_mul_mod_self_left, Nat.mod_eq_of_lt hr, Nat.add_mul_div_left _ _ (by omega), Nat.div_eq_of_lt hr, Nat.zero_add]
    rw [show (fun q => (List.range l.length).map fun r => pick (l :: ls) (unrank (l.length :: ls.map List.length) (r + l.length * q))) = _ from funext step]
    have e := picks ls
    have h2 : ∀ s : List (Option (List Nat)), ∀ c : List (List Nat), s = c.map some →
        (s.flatMap fun v => (List.range l.length).map fun r => (l[r]?).bind fun x => v.map (x :: ·)) = (c.flatMap fun v => l.map fun x => x :: v).map some := by
      rintro s c rfl
      induction c with
      | nil => rfl
      | cons v c ih =>
        rw [List.map_cons, List.flatMap_cons, List.flatMap_cons, List.map_append, ih]
        congr 1
        rw [← lookup_range]
        apply List.map_congr_left
        intro r _
        cases l[r]? <;> rfl
    have h3 := h2 _ _ e
    rw [List.flatMap_map] at h3
    exact h3

theorem choices_length {α : Type} : ∀ (ls : List (List α)) (v : List α), v ∈ choices ls → v.length = ls.length
  | [], v, h => by simp [choices] at h; simp [h]
  | l :: ls, v, h => by
    simp only [choices, List.mem_flatMap, List.mem_map] at h
    obtain ⟨w, hw, x, -, rfl⟩ := h
    simp [choices_length ls w hw]

theorem mem_choices {α : Type} : ∀ (ls : List (List α)) (v : List α), v ∈ choices ls ↔ List.Forall₂ (· ∈ ·) v ls
  | [], v => by simp [choices]
  | l :: ls, v => by
    simp only [choices, List.mem_flatMap, List.mem_map]
    constructor
    · rintro ⟨w, hw, x, hx, rfl⟩
      exact .cons hx ((mem_choices ls w).mp hw)
    · intro h
      cases h with
      | cons hx hw => exact ⟨_, (mem_choices ls _).mpr hw, _, hx, rfl⟩

theorem choices_count {α : Type} : ∀ ls : List (List α), (choices ls).length = (ls.map List.length).prod
  | [] => rfl
  | l :: ls => by
    simp only [choices, List.length_flatMap, List.length_map, List.map_cons, List.prod_cons, ← choices_count ls]
    simp [Nat.mul_comm]

theorem choices_nodup {α : Type} : ∀ ls : List (List α), (∀ l ∈ ls, l.Nodup) → (choices ls).Nodup
  | [], _ => by simp [choices]
  | l :: ls, h => by
    simp only [choices]
    rw [List.nodup_flatMap]
    refine ⟨fun v _ => (h l (by simp)).map fun a b e => by simpa using e, ?_⟩
    refine (choices_nodup ls fun l hl => h l (by simp [hl])).imp fun {a b} hab => ?_
    intro x hx hy
    obtain ⟨p, -, rfl⟩ := List.mem_map.mp hx
    obtain ⟨q, -, e⟩ := List.mem_map.mp hy
    simp only [List.cons.injEq] at e
    exact hab e.2.symm

theorem choices_map {α β : Type} (g : α → β) : ∀ ls : List (List α), choices (ls.map (List.map g)) = (choices ls).map (List.map g)
  | [] => rfl
  | l :: ls => by
    simp only [List.map_cons, choices, choices_map g ls, List.flatMap_map, List.map_flatMap, List.map_map]
    rfl

/-- Places, from the first index on. -/
theorem place_cons (d : Nat) (ds : List Nat) (x : Nat) (v : List Nat) : place (d :: ds) (x :: v) = x + d * place ds v := by
  unfold place
  rw [List.length_cons, List.range_succ_eq_map, List.map_cons, List.sum_cons, List.map_map, ← List.sum_map_mul_left]
  simp only [List.getD_cons_zero, List.take_zero, List.prod_nil, Nat.mul_one, Nat.add_left_cancel_iff]
  congr 1
  apply List.map_congr_left
  intro i _
  simp only [Function.comp, List.getD_cons_succ, List.take_succ_cons, List.prod_cons]
  ring

theorem place_nil (dims : List Nat) : place dims [] = 0 := rfl

theorem place_eq : ∀ (dims v : List Nat), v.length ≤ dims.length → Tensor.indexToOffsetNoChecks true dims v = place dims v := by
  intro dims v h
  unfold Tensor.indexToOffsetNoChecks Tensor.strides
  rw [if_pos rfl, Tensor.innerProduct_acc, Tensor.scan_sum, Nat.zero_add, Nat.one_mul]
  induction dims generalizing v with
  | nil => cases v with
    | nil => rfl
    | cons x v => simp at h
  | cons d ds ih => cases v with
    | nil => rfl
    | cons x v => rw [place_cons, MultiDim.rank, ih v (by simpa using h)]

end Moment.Flatten
