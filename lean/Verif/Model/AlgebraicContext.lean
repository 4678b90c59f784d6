import Verif.Model.Rules
import Verif.Model.SymbolMatrix

/-! # Algebraic contexts

Simplification: names of operators are left out (see Model/Names.lean), and so is the logger of `attempt_completion`. -/

namespace Moment.Algebraic
open Moment.Rules

/-- `AlgebraicContext` (scenarios/algebraic/algebraic_context.h:36-55). `self_adjoint` is determined by the precontext (algebraic_context.cpp:26). -/
structure Context where
  pre : Pre
  commutative : Bool
  book : Book
  completed : Option Bool

/-- `add_rules` for a list that may fail to be made (an exception). -/
def addAll (b : Book) (rs : Option (List Rule)) : Option Book := rs >>= fun rs => (b.addRules rs).map Prod.fst

/-- Constructor (algebraic_context.cpp:20-43). -/
def make (p : Pre) (commute normal : Bool) (initial : List Rule) : Option Context :=
  (Book.new initial) >>= fun b =>
  (if commute then addAll b (commutatorRules p) else some b) >>= fun b =>
  (if p.mode != .selfAdjoint && normal then addAll b (normalRules p) else some b) >>= fun b =>
  some ⟨p, commute, b, if b.rules.length = 0 then some true else none⟩

/-- `attempt_completion` (algebraic_context.cpp:72-75). -/
noncomputable def Context.attemptCompletion (a : Context) (max : Nat) : Option (Context × Bool) :=
  (a.book.complete a.pre max).map fun (b, f) => ({ a with book := b, completed := some f }, f)

/-- `is_complete` (algebraic_context.cpp:77-82): the answer is remembered. -/
noncomputable def Context.isComplete (a : Context) : Option (Context × Bool) :=
  match a.completed with
  | some f => some (a, f)
  | none => (a.book.isComplete a.pre true).map fun f => ({ a with completed := some f }, f)

/-- Hashing (context.cpp:21-22, 28-31) and `additional_simplification` (algebraic_context.cpp:91-106). A reduction that does not end is counted as zero here;
there is none for the rulebooks that the program makes (C16). -/
noncomputable def hctx (a : Context) : Ctx where
  radix := a.pre.num
  simplify w s := (Rules.simplify a.pre a.commutative a.book w s).join

/-- Words beyond 16 letters are stored on the heap (operator_sequence.h, `op_seq_stack_length`). -/
def onHeap (w : HSeq) : Bool := decide (16 < w.ops.length)

/-- What the symbol table uses: `conjugate` (algebraic_context.cpp:151-163); there are no aliases and no words known to be null (context.h:50-66, none
overridden by `AlgebraicContext`). -/
noncomputable def env (a : Context) : Symbols.Env where
  conj w := ctxConjugate a.pre (hctx a) (onHeap w) w
  null _ := (false, false)
  aliases := false
  simp := id
  canSimp _ := false

/-- The members of the context that matrices use: `multiply` (context.cpp:33-50) and `can_be_nonhermitian` (algebraic_context.h:82-85). -/
noncomputable def host (a : Context) : SymbolMatrix.Host where
  env := env a
  mul x y := HSeq.multiply (hctx a) (decide (16 < x.ops.length + y.ops.length)) x y
  canNonHerm := !a.commutative || a.pre.mode != .selfAdjoint

/-- `OperatorSequence{ops, context}` (operator_sequence.cpp:33-38), with positive sign. -/
noncomputable def sequence (a : Context) (w : List Nat) : HSeq := HSeq.construct (hctx a) (decide (16 < w.length)) w .pos

end Moment.Algebraic
