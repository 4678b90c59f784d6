import Verif.Model.Fill
import Verif.Model.Rules

/-! # Model of the list of words of a context
(cpp/lib_moment/dictionary/operator_sequence_generator.cpp, scenarios/context.cpp, scenarios/algebraic/algebraic_context.cpp) -/

namespace Moment.GenericWords

/-- `Context::get_if_canonical` (scenarios/context.cpp:115-130); `heap` as in `HSeq.construct`. -/
def getIfCanonical (c : Ctx) (heap : Bool) (w : List Nat) : Option HSeq :=
  let s := HSeq.construct c heap w .pos
  if s.ops.length ≠ w.length then none
  else if s.hash ≠ HSeq.hashOps c w then none
  else some s

/-- `AlgebraicContext::get_if_canonical` (scenarios/algebraic/algebraic_context.cpp:63-69). The outer `none` stands for a search that does not end. -/
noncomputable def algebraicGet (p : Rules.Pre) (b : Rules.Book) (w : List Nat) : Option (Option HSeq) :=
  (b.canReduce p w).map fun r => if r then none else some ⟨p.hash w, w, .pos⟩

/-- The words that the two loops of `build_generic_sequences` visit (operator_sequence_generator.cpp:26-28). -/
noncomputable def visited (num max : Nat) : List (List Nat) := (List.range' 1 max).flatMap fun n => Fill.tuples n num 0

/-- `OperatorSequenceGenerator::build_generic_sequences` (operator_sequence_generator.cpp:17-38) in a context with `num` operators. -/
noncomputable def generic (get : List Nat → Option (Option HSeq)) (num max : Nat) : Option (List HSeq) :=
  ((visited num max).mapM get).map fun l => HSeq.identity .pos :: l.reduceOption

/-- `OperatorSequenceGenerator::conjugate` (operator_sequence_generator.cpp:41-56): the sequences, and the length of the longest. -/
def conjugates (conj : HSeq → HSeq) (l : List HSeq) : List HSeq × Nat := (l.map conj, ((l.map conj).map fun s => s.ops.length).foldl max 0)

end Moment.GenericWords
