import Verif.Model.Sign
import Verif.Model.Hash

/-! # Model of `HashedSequence` and `OperatorSequence`
(cpp/lib_moment/hashed_sequence.h, dictionary/operator_sequence.{h,cpp}, scenarios/context.cpp) -/

namespace Moment

/-- `HashedSequence` data members (hashed_sequence.h:34-39). -/
structure HSeq where
  hash : UInt64
  ops : List Nat
  sign : Sign
  deriving DecidableEq, Repr

/-- The part of `Context` that operator sequences use: the number of operators (the radix of the hasher, scenarios/context.cpp:21-24)
and the virtual function `additional_simplification` (scenarios/context.cpp:28-31 and overrides), which rewrites operators
and sign in place and returns `true` when the word is zero (here `none`). -/
structure Ctx where
  radix : Nat
  simplify : List Nat → Sign → Option (List Nat × Sign)

namespace HSeq

/-- `HashedSequence::zero` (hashed_sequence.h:98-100). -/
def isZero (s : HSeq) : Bool := s.hash == 0

/-- `Context::hash(const sequence_storage_t&)` (scenarios/context.h:159-161). -/
def hashOps (c : Ctx) (w : List Nat) : UInt64 := hashWord (UInt64.ofNat c.radix) w

/-- `Context::hash(const OperatorSequence&)` (scenarios/context.cpp:97-103). -/
def ctxHash (c : Ctx) (s : HSeq) : UInt64 := if s.isZero then 0 else hashOps c s.ops

/-- `OperatorSequence::to_canonical_form` (dictionary/operator_sequence.cpp:49-61). -/
def toCanonical (c : Ctx) (s : HSeq) : HSeq :=
  match c.simplify s.ops s.sign with
  | none => { hash := 0, ops := [], sign := .pos }
  | some (ops, sign) => { hash := ctxHash c { s with ops, sign }, ops, sign }

/-- What the constructor argument `operators` holds after it was moved from (utilities/small_vector.h:120-136): a vector on the heap
is left empty, one on the stack is left as it was. -/
def movedFrom (heap : Bool) (ops : List Nat) : List Nat := if heap then [] else ops

/-- `OperatorSequence(sequence_storage_t, const Context&, SequenceSignType)` (dictionary/operator_sequence.cpp:33-38). The hash
argument is evaluated after the operators were moved into the first argument (list-initialisation evaluates left to right).
`heap` says whether the vector's storage is on the heap; it is whenever it has more than `op_seq_stack_length = 16` elements. -/
def construct (c : Ctx) (heap : Bool) (ops : List Nat) (sign : Sign) : HSeq :=
  toCanonical c { hash := hashOps c (movedFrom heap ops), ops, sign }

/-- `OperatorSequence(ConstructPresortedFlag, ...)` (dictionary/operator_sequence.cpp:40-46): same, without `to_canonical_form`. -/
def constructPresorted (c : Ctx) (heap : Bool) (ops : List Nat) (sign : Sign) : HSeq :=
  { hash := hashOps c (movedFrom heap ops), ops, sign }

/-- `OperatorSequence::Zero` (dictionary/operator_sequence.h:192-196). -/
def zero : HSeq := { hash := 0, ops := [], sign := .pos }

/-- `OperatorSequence::Identity(context, sign)` (dictionary/operator_sequence.h:203-218). -/
def identity (sign : Sign) : HSeq := { hash := 1, ops := [], sign }

/-- `OperatorSequence::append` (dictionary/operator_sequence.h:132-136). -/
def append (c : Ctx) (s : HSeq) (more : List Nat) : HSeq := toCanonical c { s with ops := s.ops ++ more }

/-- Unary minus (dictionary/operator_sequence.h:162-180). -/
def negative (s : HSeq) : HSeq := if s.isZero then zero else { s with sign := s.sign.negate }

/-- `Context::multiply` (scenarios/context.cpp:33-50). `heap` as in `construct`. -/
def multiply (c : Ctx) (heap : Bool) (a b : HSeq) : HSeq :=
  if a.isZero || b.isZero then zero else construct c heap (a.ops ++ b.ops) (a.sign.mul b.sign)

/-- `Context::conjugate` (scenarios/context.cpp:71-81). -/
def conjugate (c : Ctx) (heap : Bool) (a : HSeq) : HSeq :=
  if a.isZero then zero else construct c heap a.ops.reverse a.sign.conj

/-- `HashedSequence::operator==` (hashed_sequence.h:214-222). -/
def beq (a b : HSeq) : Bool := if a.hash != b.hash then false else a.sign == b.sign

/-- `HashedSequence::compare_same_negation` (hashed_sequence.h:231-244). -/
def compareSameNegation (a b : HSeq) : Int :=
  if a.hash != b.hash then 0
  else if a.sign.isImaginary != b.sign.isImaginary then 0
  else if a.sign.isNegative == b.sign.isNegative then 1 else -1

/-- `OperatorSequence::hermitian_type` (dictionary/operator_sequence.cpp:67-88), for contexts that do not override
`conjugate`. -/
inductive HermType | zero | hermitian | antiHermitian | notHermitian
  deriving DecidableEq, Repr

/-- `OperatorSequence::hermitian_type` (dictionary/operator_sequence.cpp:67-88). -/
def hermitianType (c : Ctx) (heap : Bool) (s : HSeq) : HermType :=
  if s.ops.isEmpty then
    if s.isZero then .zero
    else if s.sign.isImaginary then .antiHermitian else .hermitian
  else
    let csm := compareSameNegation s (conjugate c heap s)
    if csm = 1 then .hermitian else if csm = -1 then .antiHermitian else .notHermitian

end HSeq
end Moment
