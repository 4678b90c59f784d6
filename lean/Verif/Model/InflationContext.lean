import Verif.Model.Inflation
import Verif.Model.SymbolMatrix

/-! # Model of the inflation context as symbol tables and matrices see it (cpp/lib_moment/scenarios/inflation/inflation_context.{h,cpp})

Operator numbers in range are assumed: for others `additional_simplification` reads the table of operators out of range, which is left out here (C12 covers
it). -/

namespace Moment.Inflation

/-- The context of a network: hashing over its operators (context.cpp:28-31), and `additional_simplification` (inflation_context.cpp:241-265), which
leaves the sign as it is. -/
def hctx (c : Ctx) : Moment.Ctx where
  radix := operatorCount c
  simplify w g := match simplify c w with
    | .word v => some (v, g)
    | _ => none

/-- `OperatorSequence{ops, context}` (operator_sequence.cpp:33-38), with positive sign. Words beyond 16 letters are stored on the heap
(operator_sequence.h, `op_seq_stack_length`). -/
def sequence (c : Ctx) (w : List Nat) : HSeq := HSeq.construct (hctx c) (decide (16 < w.length)) w .pos

/-- `simplify_as_moment` and `apply_permutation` (inflation_context.cpp:396-463), on sequences with their hashes and signs; `none` if the recursion
does not end. The sequences that `apply_permutation` makes have positive sign, whatever the sign of the argument was. -/
def asMoment (c : Ctx) (w : HSeq) : Option HSeq :=
  if w.ops.isEmpty then some w
  else if !(findPermutation c w.ops).nonTrivial then some w
  else if !isSorted (w.ops.map (permuteOp c (findPermutation c w.ops).done)) then
    asMoment c (sequence c (w.ops.map (permuteOp c (findPermutation c w.ops).done)))
  else some (sequence c (w.ops.map (permuteOp c (findPermutation c w.ops).done)))
partial_fixpoint

/-- What the symbol table uses: `conjugate` is that of `Context` (context.cpp:71-81); no words are known to be null (context.h:60-66, not overridden);
`can_have_aliases` (inflation_context.h:204-206), `simplify_as_moment`, `can_be_simplified_as_moment` (inflation_context.cpp:312-353). -/
noncomputable def env (c : Ctx) : Symbols.Env where
  conj w := HSeq.conjugate (hctx c) (decide (16 < w.ops.length)) w
  null _ := (false, false)
  aliases := canHaveAliases c
  simp w := (asMoment c w).getD w
  canSimp w := canBeSimplifiedAsMoment c w.ops

/-- The members of the context that matrices use; `can_be_nonhermitian` (inflation_context.h:201). -/
noncomputable def host (c : Ctx) : SymbolMatrix.Host where
  env := env c
  mul a b := HSeq.multiply (hctx c) (decide (16 < a.ops.length + b.ops.length)) a b
  canNonHerm := false

end Moment.Inflation
