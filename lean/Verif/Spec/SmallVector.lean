import Mathlib.Logic.Function.Basic

/-! # Vectors as plain lists: what programs that use several of them should see -/

namespace Moment.SmallVector

variable {α : Type}

/-- Calls on vectors that are known by their addresses. -/
inductive Op (α : Type)
  | make (a : Nat) (xs : List α)
  | copyNew (a s : Nat)
  | moveNew (a s : Nat)
  | copyTo (a s : Nat)
  | moveTo (a s : Nat)
  | push (a : Nat) (x : α)
  | pop (a : Nat)
  | clear (a : Nat)
  | reserve (a n : Nat)
  | insert (a i : Nat) (xs : List α)
  | erase (a i j : Nat)
  | set (a i : Nat) (x : α)
  | swap (a b : Nat)
  | destroy (a : Nat)

/-- The contents of the vectors that exist. -/
abbrev Pool (α : Type) := Nat → Option (List α)

/-- The effect of a call that is allowed: new vectors have new addresses, others exist, positions are within the vector, nothing is moved into itself or exchanged with itself.
A vector that was moved from keeps its contents or becomes empty. -/
inductive Next : Pool α → Op α → Pool α → Prop
  | make {A a xs} (h : A a = none) : Next A (.make a xs) (Function.update A a (some xs))
  | copyNew {A a s xs} (h : A a = none) (hs : A s = some xs) : Next A (.copyNew a s) (Function.update A a (some xs))
  | moveNew {A a s xs left} (h : A a = none) (hs : A s = some xs) (hl : left = xs ∨ left = []) :
      Next A (.moveNew a s) (Function.update (Function.update A s (some left)) a (some xs))
  | copyTo {A a s xs ys} (h : A a = some ys) (hs : A s = some xs) : Next A (.copyTo a s) (Function.update A a (some xs))
  | moveTo {A a s xs ys left} (hne : a ≠ s) (h : A a = some ys) (hs : A s = some xs) (hl : left = xs ∨ left = []) :
      Next A (.moveTo a s) (Function.update (Function.update A s (some left)) a (some xs))
  | push {A a x xs} (h : A a = some xs) : Next A (.push a x) (Function.update A a (some (xs ++ [x])))
  | pop {A a xs} (h : A a = some xs) (hn : xs ≠ []) : Next A (.pop a) (Function.update A a (some xs.dropLast))
  | clear {A a xs} (h : A a = some xs) : Next A (.clear a) (Function.update A a (some []))
  | reserve {A a n xs} (h : A a = some xs) : Next A (.reserve a n) A
  | insert {A a i ys xs} (h : A a = some xs) (hi : i ≤ xs.length) : Next A (.insert a i ys) (Function.update A a (some (xs.take i ++ ys ++ xs.drop i)))
  | erase {A a i j xs} (h : A a = some xs) (hi : i ≤ j) (hj : j ≤ xs.length) : Next A (.erase a i j) (Function.update A a (some (xs.take i ++ xs.drop j)))
  | set {A a i x xs} (h : A a = some xs) (hi : i < xs.length) : Next A (.set a i x) (Function.update A a (some (xs.set i x)))
  | swap {A a b xs ys} (hne : a ≠ b) (h : A a = some xs) (hb : A b = some ys) :
      Next A (.swap a b) (Function.update (Function.update A a (some ys)) b (some xs))
  | destroy {A a xs} (h : A a = some xs) : Next A (.destroy a) (Function.update A a none)

/-- The calls are allowed, whatever is left in vectors that were moved from. -/
def Legal (A : Pool α) (ops : List (Op α)) : Prop :=
  match ops with
  | [] => True
  | op :: rest => (∃ A', Next A op A') ∧ ∀ A', Next A op A' → Legal A' rest

/-- The effect of several calls. -/
inductive Steps : Pool α → List (Op α) → Pool α → Prop
  | nil {A} : Steps A [] A
  | cons {A op B ops C} (h : Next A op B) (t : Steps B ops C) : Steps A (op :: ops) C

end Moment.SmallVector
