import Verif.Model.Sign

/-! # What Pauli words mean

A state of the register is a bit per qubit. Each Pauli operator maps a basis state to a basis state times a power of i:
X flips the qubit; Z gives -1 when the bit is set; Y flips and gives i when the bit was 0 and -i when it was 1. -/

namespace Moment.Pauli

/-- Basis states. -/
abbrev Bits := Nat → Bool

/-- Flip qubit `q`. -/
def flip (q : Nat) (b : Bits) : Bits := fun k => if k = q then !b k else b k

/-- One Pauli operator on a basis state: phase and resulting basis state. -/
def act1 (o : Nat) (b : Bits) : Sign × Bits :=
  if o % 3 = 0 then (.pos, flip (o / 3) b)
  else if o % 3 = 1 then (if b (o / 3) then .negImag else .imag, flip (o / 3) b)
  else (if b (o / 3) then .neg else .pos, b)

/-- A word acts by its letters, the last letter first. -/
def act : List Nat → Bits → Sign × Bits
  | [], b => (.pos, b)
  | o :: w, b =>
    let r := act w b
    let t := act1 o r.2
    (t.1.mul r.1, t.2)

/-- The operator `i^g w`. -/
def actS (g : Sign) (w : List Nat) (b : Bits) : Sign × Bits := (g.mul (act w b).1, (act w b).2)

/-- `i^g v` and `i^h w` are the same operator. -/
def SameOperator (g : Sign) (v : List Nat) (h : Sign) (w : List Nat) : Prop := ∀ b, actS g v b = actS h w b

/-- Each qubit at most once, in increasing order. -/
def Normal (w : List Nat) : Prop := w.Pairwise (fun a b => a / 3 < b / 3)

end Moment.Pauli
