import Verif.Model.ChoiceInput
import Mathlib.Data.List.Nodup
import Mathlib.Tactic.Common

/-! # C141: a choice is read as the one with this name, whatever the case of the letters -/

namespace Moment.C141
open Moment.ChoiceInput
open Moment.RuleInput (Out)

/-- The same text but for the case of letters. -/
def SameName (a b : List Char) : Prop := List.Forall₂ (fun x y => x.toLower = y.toLower) a b

/-- One text is given. -/
inductive Gives : Input → List Char → Prop
  | chars (w : List Char) : Gives (.chars w) w
  | string (w : List Char) : Gives (.strings [some w]) w

/-- Choices without upper case letters, none twice. -/
def Proper (choices : List (List Char)) : Prop := (∀ c ∈ choices, ∀ x ∈ c, x.toLower = x) ∧ choices.Nodup

theorem sameName_iff (a b : List Char) : SameName a b ↔ a.map Char.toLower = b.map Char.toLower := by
  unfold SameName
  induction a generalizing b with
  | nil => cases b <;> simp
  | cons x a ih => cases b <;> simp [ih]

theorem lower_fixed {c : List Char} (h : ∀ x ∈ c, x.toLower = x) : c.map Char.toLower = c :=
  (List.map_congr_left h).trans (List.map_id c)

theorem search_some (w : List Char) (cs : List (List Char)) (hn : cs.Nodup) (n k : Nat) : search w n cs = some k ↔ ∃ j, k = n + j ∧ cs[j]? = some w := by
  induction cs generalizing n with
  | nil => simp [search]
  | cons c cs ih =>
    rw [List.nodup_cons] at hn
    unfold search
    split_ifs with e
    · subst e
      constructor
      · intro h
        exact ⟨0, by simpa using h.symm, rfl⟩
      · rintro ⟨j, rfl, hj⟩
        cases j with
        | zero => rfl
        | succ j => exact absurd (List.mem_of_getElem? (by simpa using hj)) hn.1
    · rw [ih hn.2]
      constructor
      · rintro ⟨j, rfl, hj⟩
        exact ⟨j + 1, by omega, by simpa using hj⟩
      · rintro ⟨j, rfl, hj⟩
        cases j with
        | zero => exact absurd (by simpa using hj.symm) e
        | succ j => exact ⟨j, by omega, by simpa using hj⟩

theorem read_gives {i : Input} {w : List Char} (g : Gives i w) (cs : List (List Char)) : readChoice cs i = Out.ofOption (search (w.map Char.toLower) 0 cs) := by
  cases g <;> rfl

/-- A choice is read exactly if the text is its name. -/
theorem C141_choice (choices : List (List Char)) (h : Proper choices) (i : Input) (w : List Char) (g : Gives i w) (k : Nat) :
    readChoice choices i = .ok k ↔ ∃ c, choices[k]? = some c ∧ SameName w c := by
  rw [read_gives g]
  have s := search_some (w.map Char.toLower) choices h.2 0 k
  have : Out.ofOption (search (w.map Char.toLower) 0 choices) = .ok k ↔ search (w.map Char.toLower) 0 choices = some k := by
    cases search (w.map Char.toLower) 0 choices <;> simp [Out.ofOption]
  rw [this, s]
  constructor
  · rintro ⟨j, rfl, hj⟩
    refine ⟨_, by simpa using hj, ?_⟩
    rw [sameName_iff, lower_fixed (h.1 _ (List.mem_of_getElem? hj))]
  · rintro ⟨c, hc, e⟩
    rw [sameName_iff, lower_fixed (h.1 _ (List.mem_of_getElem? hc))] at e
    exact ⟨k, by simp, by rw [e]; exact hc⟩

/-- Texts that name no choice are refused, and only these. -/
theorem C141_refused (choices : List (List Char)) (h : Proper choices) (i : Input) (w : List Char) (g : Gives i w) :
    readChoice choices i = .refused ↔ ∀ c ∈ choices, ¬ SameName w c := by
  have ch := C141_choice choices h i w g
  rw [read_gives g] at ch ⊢
  cases e : search (w.map Char.toLower) 0 choices with
  | none =>
    simp only [e, Out.ofOption] at ch ⊢
    refine ⟨fun _ c hc s => ?_, fun _ => trivial⟩
    obtain ⟨k, hk⟩ := List.mem_iff_getElem?.1 hc
    exact absurd ((ch k).2 ⟨c, hk, s⟩) (by simp)
  | some k =>
    simp only [e, Out.ofOption] at ch ⊢
    refine ⟨fun q => absurd q (by simp), fun q => ?_⟩
    obtain ⟨c, hc, s⟩ := (ch k).1 rfl
    exact absurd s (q c (List.mem_of_getElem? hc))

/-- What is no text is refused. -/
theorem C141_other (choices : List (List Char)) : readChoice choices .other = .refused := rfl

/-- Two strings are not refused: the first is read, whatever the second is. -/
theorem C141_refuted_several : ∀ v : List Char, readChoice ["off".toList, "on".toList] (.strings [some "on".toList, some v]) = .ok 1 := by
  intro v
  have : search ("on".toList.map Char.toLower) 0 ["off".toList, "on".toList] = some 1 := by decide +kernel
  simp only [readChoice, text, Out.bind, this, Out.ofOption]

/-- Without any string, the iterator at the end is read. -/
theorem C141_refuted_empty (choices : List (List Char)) : readChoice choices (.strings []) = .undefined := rfl

/-- The choices of the settings for threads; a text in mixed case. -/
example : Proper ["off".toList, "on".toList, "auto".toList, "always".toList] ∧ Gives (.strings [some "Auto".toList]) "Auto".toList ∧
    readChoice ["off".toList, "on".toList, "auto".toList, "always".toList] (.strings [some "Auto".toList]) = .ok 2 ∧
    readChoice ["off".toList, "on".toList, "auto".toList, "always".toList] (.chars "never".toList) = .refused := by
  refine ⟨⟨by decide +kernel, by decide +kernel⟩, .string _, by decide +kernel, by decide +kernel⟩

end Moment.C141
