import Verif.Model.OpSeq
import Verif.Model.Sorting

/-! # Model of `PauliContext` (cpp/lib_moment/scenarios/pauli/pauli_context.cpp)

Operator `3 q + p` is X (`p = 0`), Y (`p = 1`) or Z (`p = 2`) on qubit `q`. -/

namespace Moment

namespace Pauli

/-- `cayley_table_ixyz` (pauli_context.cpp:29-32). -/
def cayley : List Int := [0, 1, 2, 3, 1, 0, 3, -2, 2, -3, 0, 1, 3, 2, -1, 0]

/-- `multiply_pauli_with_id` (pauli_context.cpp:55-60); arguments 0 = I, 1 = X, 2 = Y, 3 = Z. -/
def mulWithId (l r : Nat) : Int := cayley.getD (l * 4 + r) 0

/-- `multiply_pauli` (pauli_context.cpp:40-45); arguments 0 = X, 1 = Y, 2 = Z. -/
def mulPauli (l r : Nat) : Int := cayley.getD ((l + 1) * 4 + (r + 1)) 0

/-- The write of the last Pauli operator, skipped for the identity (pauli_context.cpp:147-152, 175-179). -/
def emit (party pauli : Nat) : List Nat := if pauli ≠ 0 then [party * 3 + pauli - 1] else []

/-- The loop of `additional_simplification` (pauli_context.cpp:126-184) on the sorted word. Writing happens in place in the C++; the write
position never passes the read position, so the model writes to a separate list. -/
def loop (party pauli : Nat) (sign : Sign) : List Nat → List Nat × Sign
  | [] => (emit party pauli, sign)
  | o :: os =>
    let curParty := o / 3
    let curPauli := 1 + o % 3
    if curParty ≠ party then
      let r := loop curParty curPauli sign os
      (emit party pauli ++ r.1, r.2)
    else if pauli ≠ 0 then
      let m := mulWithId pauli curPauli
      if m > 0 then loop party m.toNat (sign.mul .imag) os
      else if m < 0 then loop party (-m).toNat (sign.mul .negImag) os
      else loop party m.toNat sign os
    else loop party curPauli sign os

/-- `PauliContext::additional_simplification` (pauli_context.cpp:113-188). Never zero. -/
def simplify (w : List Nat) (sign : Sign) : List Nat × Sign :=
  match stableSort (· / 3) w with
  | [] => ([], sign)
  | o :: os => loop (o / 3) (1 + o % 3) sign os

/-- The Pauli context on `n` qubits (pauli_context.cpp:63-64). -/
def ctx (n : Nat) : Ctx := { radix := n * 3, simplify := fun w s => some (simplify w s) }

/-- The merge loop of `PauliContext::multiply` (pauli_context.cpp:215-311), on the remaining letters of both words. In the C++ both are
non-empty when the loop body is entered; running out of one copies the rest of the other. -/
def mergeLoop : List Nat → List Nat → Sign → List Nat × Sign
  | [], rs, sign => (rs, sign)
  | ls, [], sign => (ls, sign)
  | l :: ls, r :: rs, sign =>
    if l / 3 < r / 3 then
      let x := mergeLoop ls (r :: rs) sign
      (l :: x.1, x.2)
    else if l / 3 > r / 3 then
      let x := mergeLoop (l :: ls) rs sign
      (r :: x.1, x.2)
    else
      let m := mulPauli (l % 3) (r % 3)
      if m > 0 then
        let x := mergeLoop ls rs (sign.mul .imag)
        ((3 * (l / 3) + (m - 1).toNat) :: x.1, x.2)
      else if m < 0 then
        let x := mergeLoop ls rs (sign.mul .negImag)
        ((3 * (l / 3) + (-m - 1).toNat) :: x.1, x.2)
      else mergeLoop ls rs sign
termination_by ls rs => ls.length + rs.length

/-- `PauliContext::multiply` (pauli_context.cpp:190-316). -/
def multiply (n : Nat) (l r : HSeq) : HSeq :=
  let sign := l.sign.mul r.sign
  if r.ops.isEmpty then
    if r.isZero then HSeq.zero else { hash := l.hash, ops := l.ops, sign }
  else if l.ops.isEmpty then
    if l.isZero then HSeq.zero else { hash := r.hash, ops := r.ops, sign }
  else
    let x := mergeLoop l.ops r.ops sign
    { hash := HSeq.hashOps (ctx n) x.1, ops := x.1, sign := x.2 }

/-- `PauliContext::commutator` on words, without the factor 2 (pauli_context.cpp:318-325). -/
def commutator (n : Nat) (l r : HSeq) : HSeq :=
  let pre := l.sign.mul r.sign
  let result := multiply n l r
  if pre.isImaginary == result.sign.isImaginary then HSeq.zero else result

/-- `PauliContext::anticommutator` on words, without the factor 2 (pauli_context.cpp:327-334). -/
def anticommutator (n : Nat) (l r : HSeq) : HSeq :=
  let pre := l.sign.mul r.sign
  let result := multiply n l r
  if pre.isImaginary != result.sign.isImaginary then HSeq.zero else result

/-- `PauliContext::conjugate` (pauli_context.cpp:354-357). -/
def conjugate (s : HSeq) : HSeq := { s with sign := s.sign.conj }

/-- `sigmaX`, `sigmaY`, `sigmaZ` for `p = 0, 1, 2` (pauli_context.cpp:359-379). -/
def sigma (p q : Nat) (sign : Sign) : HSeq :=
  { hash := UInt64.ofNat (3 * q + p + 2), ops := [3 * q + p], sign }

end Pauli
end Moment
