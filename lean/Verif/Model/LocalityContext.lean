import Verif.Model.Locality
import Verif.Model.SymbolMatrix

/-! # Model of the locality context as symbol tables and matrices see it (cpp/lib_moment/scenarios/locality/locality_context.cpp)

Operator numbers in range are assumed: for others `additional_simplification` throws, which is left out here (C10 covers it). -/

namespace Moment.Locality

/-- The context of a scenario: hashing over its operators (context.cpp:28-31), and `additional_simplification` (locality_context.cpp:82-130), which
leaves the sign as it is. -/
def ctx (s : Scenario) : Ctx where
  radix := operatorCount s
  simplify w g := match simplify s w with
    | .word v => some (v, g)
    | _ => none

/-- Words beyond 16 letters are stored on the heap (operator_sequence.h, `op_seq_stack_length`). -/
def onHeap (w : HSeq) : Bool := decide (16 < w.ops.length)

/-- What the symbol table uses: `conjugate` is that of `Context` (context.cpp:71-81); there are no aliases and no words known to be null
(context.h:50-66, none overridden by `LocalityContext`). -/
def env (s : Scenario) : Symbols.Env where
  conj w := HSeq.conjugate (ctx s) (onHeap w) w
  null _ := (false, false)
  aliases := false
  simp := id
  canSimp _ := false

/-- The members of the context that matrices use. -/
def host (s : Scenario) : SymbolMatrix.Host where
  env := env s
  mul a b := HSeq.multiply (ctx s) (decide (16 < a.ops.length + b.ops.length)) a b
  canNonHerm := true

/-- `OperatorSequence{ops, context}` (operator_sequence.cpp:33-38), with positive sign. -/
def sequence (s : Scenario) (w : List Nat) : HSeq := HSeq.construct (ctx s) (decide (16 < w.length)) w .pos

end Moment.Locality
