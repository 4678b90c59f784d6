import Verif.Proof.LocalityOSG
import Mathlib.Algebra.GroupWithZero.Basic
import Mathlib.Algebra.GroupWithZero.Pi

/-! # C10: locality simplification decides equality of operators. C11: locality word lists are complete -/

namespace Moment.C10
open Moment Moment.Locality

/-- The word `w` of operator numbers names the word `u` of operators: the numbers are those that `Party::measurement_outcome` returns. -/
def Names (s : Scenario) (u : List Op) (w : List Nat) : Prop :=
  List.Forall₂ (fun a n => measurementOutcome s a.party a.mmt a.out = some n) u w

theorem names_iff {s : Scenario} {u : List Op} {w : List Nat} : Names s u w ↔ (∀ a ∈ u, Exists s a) ∧ w = u.map (enc s) := by
  unfold Names
  induction u generalizing w with
  | nil => simp
  | cons a u ih =>
    rw [List.forall₂_cons_left_iff]
    constructor
    · rintro ⟨n, w, h1, h2, rfl⟩
      obtain ⟨h3, rfl⟩ := ih.mp h2
      have he : Exists s a := measurementOutcome_some h1
      rw [measurementOutcome_eq he] at h1
      exact ⟨by simpa using ⟨he, h3⟩, by rw [List.map_cons, Option.some.inj h1]⟩
    · rintro ⟨h1, rfl⟩
      exact ⟨enc s a, _, measurementOutcome_eq (h1 a (by simp)), ih.mpr ⟨fun b hb => h1 b (by simp [hb]), rfl⟩, rfl⟩

/-- Numbering: `measurement_outcome` accepts exactly the operators of the scenario, and every number below `operator_count` is the number of
exactly one operator. -/
theorem C10_numbering (s : Scenario) :
    (∀ p m o, (measurementOutcome s p m o).isSome ↔ Exists s ⟨p, m, o⟩) ∧
    (∀ n, n < operatorCount s ↔ ∃ p m o, measurementOutcome s p m o = some n) ∧
    (∀ p m o p' m' o' n, measurementOutcome s p m o = some n → measurementOutcome s p' m' o' = some n → p = p' ∧ m = m' ∧ o = o') := by
  refine ⟨?_, ?_, ?_⟩
  · intro p m o
    constructor
    · intro h
      obtain ⟨n, hn⟩ := Option.isSome_iff_exists.mp h
      exact measurementOutcome_some hn
    · intro h; rw [measurementOutcome_eq h]; rfl
  · intro n
    constructor
    · intro h
      obtain ⟨a, ha, rfl⟩ := enc_surj h
      exact ⟨_, _, _, measurementOutcome_eq ha⟩
    · rintro ⟨p, m, o, h⟩
      have he := measurementOutcome_some h
      have := measurementOutcome_eq he
      rw [h] at this
      rw [Option.some.inj this]
      exact enc_lt he
  · intro p m o p' m' o' n h h'
    have he := measurementOutcome_some h
    have he' := measurementOutcome_some h'
    have e := measurementOutcome_eq he
    have e' := measurementOutcome_eq he'
    rw [h] at e; rw [h'] at e'
    have := enc_inj he he' ((Option.some.inj e).symm.trans (Option.some.inj e'))
    simpa using this

/-- Two words simplify to the same result exactly when the relations of the scenario make them equal. -/
theorem C10_decides (s : Scenario) (u v : List Op) (w x : List Nat) (hu : Names s u w) (hv : Names s v x) :
    simplify s w = simplify s x ↔ SameOperator (some u) (some v) := by
  obtain ⟨h1, rfl⟩ := names_iff.mp hu
  obtain ⟨h2, rfl⟩ := names_iff.mp hv
  rw [simplify_enc h1, simplify_enc h2, ← nf_iff]
  constructor
  · intro h
    cases hn : nf u with
    | none => cases hm : nf v with
      | none => rfl
      | some b => rw [hn, hm] at h; simp at h
    | some a => cases hm : nf v with
      | none => rw [hn, hm] at h; simp at h
      | some b =>
        rw [hn, hm] at h
        simp only [Outcome.word.injEq] at h
        rw [Option.some.injEq]
        have ha : ∀ o ∈ a, Exists s o := fun o ho => h1 o (nf_mem hn o ho)
        have hb : ∀ o ∈ b, Exists s o := fun o ho => h2 o (nf_mem hm o ho)
        clear hn hm hu hv h1 h2
        induction a generalizing b with
        | nil => simpa using h.symm
        | cons y a ih => cases b with
          | nil => simp at h
          | cons z b =>
            simp only [List.map_cons, List.cons.injEq] at h
            rw [enc_inj (ha y (by simp)) (hb z (by simp)) h.1,
              ih b h.2 (fun o ho => ha o (by simp [ho])) (fun o ho => hb o (by simp [ho]))]
  · intro h; rw [h]

/-- A word simplifies to zero exactly when the relations force it to be zero. -/
theorem C10_zero (s : Scenario) (u : List Op) (w : List Nat) (hu : Names s u w) :
    simplify s w = .zero ↔ SameOperator (some u) none := by
  obtain ⟨h1, rfl⟩ := names_iff.mp hu
  rw [simplify_enc h1, ← nf_zero_iff]
  cases nf u <;> simp

/-- The result names a word equal to the argument. -/
theorem C10_sound (s : Scenario) (u : List Op) (w x : List Nat) (hu : Names s u w) (h : simplify s w = .word x) :
    ∃ v, Names s v x ∧ SameOperator (some u) (some v) := by
  obtain ⟨h1, rfl⟩ := names_iff.mp hu
  rw [simplify_enc h1] at h
  cases hn : nf u with
  | none => rw [hn] at h; simp at h
  | some a =>
    rw [hn] at h
    exact ⟨a, names_iff.mpr ⟨fun o ho => h1 o (nf_mem hn o ho), (Outcome.word.inj h).symm⟩, hn ▸ nf_sound u⟩

/-- Simplification is idempotent. -/
theorem C10_idempotent (s : Scenario) (w x : List Nat) (h : simplify s w = .word x) : simplify s x = .word x := by
  have hr : ∀ n ∈ w, n < operatorCount s := by
    by_contra hc
    rw [simplify_range.mpr (by simpa using hc)] at h
    simp at h
  obtain ⟨u, hu, rfl⟩ := word_surj hr
  rw [simplify_enc hu] at h
  cases hn : nf u with
  | none => rw [hn] at h; simp at h
  | some a =>
    rw [hn] at h
    have := Outcome.word.inj h
    subst this
    rw [simplify_enc fun o ho => hu o (nf_mem hn o ho), nf_idem hn]

/-- Words with an unknown operator, and only those, are rejected. -/
theorem C10_rejects (s : Scenario) (w : List Nat) : simplify s w = .rangeError ↔ ∃ n ∈ w, operatorCount s ≤ n := simplify_range

/-- In every monoid with zero in which the operators satisfy the relations, the product of the word is the product of the result. -/
theorem C10_value {M : Type} [MonoidWithZero M] (f : Op → M) (hf : Represents f) {u : List Op} {y : Option (List Op)}
    (h : SameOperator (some u) y) : (u.map f).prod = (y.map fun v => (v.map f).prod).getD 0 := by
  have key : ∀ x y, SameOperator x y → (x.map fun v => (v.map f).prod).getD 0 = (y.map fun v => (v.map f).prod).getD 0 := by
    intro x y h
    induction h with
    | refl => rfl
    | symm _ ih => exact ih.symm
    | trans _ _ ih1 ih2 => exact ih1.trans ih2
    | commute u v a b hp =>
      simp only [Option.map_some, Option.getD_some, List.map_append, List.map_cons, List.prod_append, List.prod_cons]
      rw [← mul_assoc (f a), ← mul_assoc (f b), hf.commute a b hp]
    | project u v a =>
      simp only [Option.map_some, Option.getD_some, List.map_append, List.map_cons, List.prod_append, List.prod_cons]
      rw [← mul_assoc (f a), hf.project]
    | exclude u v a b h1 h2 h3 =>
      simp only [Option.map_some, Option.getD_some, List.map_append, List.map_cons, List.prod_append, List.prod_cons, Option.map_none,
        Option.getD_none]
      rw [← mul_assoc (f a), hf.exclude a b h1 h2 h3, zero_mul, mul_zero]
  simpa using key _ _ h

/-- C11. The generated list has every simplified non-zero word up to the length exactly once and nothing else. -/
theorem C11_complete (s : Scenario) (maxLength : Nat) :
    (generate s maxLength).Nodup ∧ ∀ w, w ∈ generate s maxLength ↔ w.length ≤ maxLength ∧ simplify s w = .word w :=
  generate_spec s maxLength

/-- In terms of operators: every non-zero operator that has a word of length at most `maxLength` is listed, under exactly one number word. -/
theorem C11_represents (s : Scenario) (maxLength : Nat) (u : List Op) (w : List Nat) (hu : Names s u w) (hlen : u.length ≤ maxLength)
    (hz : ¬ SameOperator (some u) none) :
    ∃! x, x ∈ generate s maxLength ∧ ∃ v, Names s v x ∧ SameOperator (some u) (some v) := by
  have hr : simplify s w ≠ .rangeError := by
    obtain ⟨h1, rfl⟩ := names_iff.mp hu
    rw [simplify_enc h1]
    split <;> simp
  cases hx : simplify s w with
  | rangeError => exact absurd hx hr
  | zero => exact absurd ((C10_zero s u w hu).mp hx) hz
  | word x =>
    refine ⟨x, ⟨((C11_complete s maxLength).2 x).mpr ⟨?_, C10_idempotent s w x hx⟩, C10_sound s u w x hu hx⟩, ?_⟩
    · obtain ⟨h1, rfl⟩ := names_iff.mp hu
      rw [simplify_enc h1] at hx
      cases hn : nf u with
      | none => rw [hn] at hx; simp at hx
      | some a =>
        rw [hn] at hx
        rw [← Outcome.word.inj hx, List.length_map]
        unfold nf at hn
        dsimp only at hn
        split at hn
        · simp at hn
        · rw [← Option.some.inj hn]
          exact ((uniq_sublist _).length_le.trans (stableSort_perm _ _).length_eq.le).trans hlen
    · rintro y ⟨hy1, v, hv, hv2⟩
      have := (C10_decides s u v w y hu hv).mpr hv2
      rw [hx, (((C11_complete s maxLength).2 y).mp hy1).2] at this
      exact (Outcome.word.inj this).symm

/-- The loops that the generator runs all terminate: the values collected are those of terminating runs. -/
theorem C11_terminates (s : Scenario) :
    (∀ p wl, 0 < wl → ∃ l, Yields (MultiOper.next (partyOps (s.getD p [])) (operatorOffset s p)) MultiOper.atEnd MultiOper.value
      (MultiOper.first wl (partyOps (s.getD p [])) (operatorOffset s p)) l) ∧
    (0 < s.length → ∀ wl, ∃ l, Yields (Multipart.next true wl) Multipart.atEnd Multipart.value (Multipart.first true wl s.length) l) ∧
    (∀ dims : List Nat, dims ≠ [] → ∃ l, Yields (MultiDim.next false dims) MultiDim.atEnd MultiDim.value (MultiDim.first dims) l) := by
  refine ⟨?_, ?_, ?_⟩
  · intro p wl h
    obtain ⟨l, hl, -⟩ := C29.C29_operator_words wl (partyOps (s.getD p [])) (operatorOffset s p) h
    exact ⟨l, hl⟩
  · intro h wl
    obtain ⟨l, hl, -⟩ := C31.C33_compositions true wl s.length h
    exact ⟨l, hl⟩
  · intro dims h
    obtain ⟨l, hl, -⟩ := C29.C29_full_box false dims h
    exact ⟨l, hl⟩

/-! Examples: two parties, two measurements with three and two outcomes each; operators 0 1 | 2 and 3 4 | 5. -/

/-- The scenario of the examples. -/
def exScenario : Scenario := [[3, 2], [3, 2]]

example : Names exScenario [⟨1, 0, 1⟩, ⟨0, 1, 0⟩, ⟨1, 0, 1⟩, ⟨0, 0, 0⟩] [4, 2, 4, 0] := by
  simp [Names, exScenario, measurementOutcome, numOperators, operatorOffset, mmtOffset, partyOps]

example : simplify exScenario [4, 2, 4, 0] = .word [2, 0, 4] := by decide +kernel
example : simplify exScenario [2, 4, 0, 4, 4] = .word [2, 0, 4] := by decide +kernel
example : simplify exScenario [3, 0, 4, 2] = .zero := by decide +kernel
example : simplify exScenario [3, 6] = .rangeError := by decide +kernel

/-- The hypotheses of `C11_represents` are met by a word of four operators: it is not zero by `C10_zero`. -/
example : ¬ SameOperator (some [⟨1, 0, 1⟩, ⟨0, 1, 0⟩, ⟨1, 0, 1⟩, ⟨0, 0, 0⟩]) none := by
  rw [← C10_zero exScenario _ [4, 2, 4, 0]]
  · have : simplify exScenario [4, 2, 4, 0] = .word [2, 0, 4] := by decide +kernel
    rw [this]; simp
  · simp [Names, exScenario, measurementOutcome, numOperators, operatorOffset, mmtOffset, partyOps]

/-- The words of length two over both parties are in the list; `[3, 0]` is not sorted and `[0, 1]` is zero. -/
example : [0, 3] ∈ generate exScenario 2 ∧ [2, 0] ∈ generate exScenario 2 ∧ [3, 0] ∉ generate exScenario 2 ∧ [0, 1] ∉ generate exScenario 2 := by
  have h := fun w => (C11_complete exScenario 2).2 w
  rw [h, h, h, h]
  decide +kernel

/-- A monoid with zero in which the relations hold non-trivially: diagonal projectors of a bit, as functions on two points. -/
example : ∃ f : Op → (Bool → Nat), Represents f ∧ f ⟨0, 0, 0⟩ ≠ f ⟨0, 0, 1⟩ ∧ f ⟨0, 0, 0⟩ * f ⟨1, 0, 0⟩ ≠ 0 := by
  refine ⟨fun a b => if a.party = 0 then (if (b = true ∧ a.out = 0) ∨ (b = false ∧ a.out = 1) then 1 else 0) else
    (if a.out = 0 then 1 else 0), ⟨?_, ?_, ?_⟩, ?_, ?_⟩
  · intro a b _; exact mul_comm _ _
  · intro a; funext b; simp only [Pi.mul_apply]; split <;> split <;> rfl
  · intro a b h1 h2 h3
    funext c
    simp only [Pi.mul_apply, Pi.zero_apply, h1]
    cases c <;> by_cases hb : b.party = 0 <;> simp [hb] <;> omega
  · intro h; have := congrFun h true; simp at this
  · intro h; have := congrFun h true; simp at this

end Moment.C10
