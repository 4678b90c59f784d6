import Verif.Model.RepWorkers

/-! # Specification: threads that make representations -/

namespace Moment.SymRep.Threads

variable {E : Type}

/-- Steps that threads take, one after another. -/
inductive Run (op : Nat → Option (E → E → E)) (size : Nat) (build : List Nat) : State E → List (Option Nat) → State E → Prop
  | nil (s : State E) : Run op size build s [] s
  | snoc {s s' s'' : State E} {l : List (Option Nat)} {t : Option Nat} : Run op size build s l s' → s'.step op size build t = some s'' → Run op size build s (l ++ [t]) s''

/-- Memory that is not atomic: the pointer to a representation, with what it points to; a matrix of a representation that is being made. -/
inductive Loc
  | rep (k : Nat)
  | cell (level i : Nat)

/-- The next step of the main thread stores a representation. -/
def Stores (build : List Nat) (s : State E) : Prop := s.global < build.length ∧ s.stored = false ∧ s.workers.length ≤ s.next

/-- The next step of a thread reads from memory: a worker reads the parents, before the loop and for each element; the main thread the data that it stores. -/
def Reads (size : Nat) (build : List Nat) (s : State E) : Option Nat → Loc → Prop
  | some w, .rep k => ∃ x n, s.workers[w]? = some x ∧ build[x.count]? = some n ∧ (k = (parents n).1 - 1 ∨ k = (parents n).2 - 1) ∧
      (x.phase = .idle ∧ x.count ≤ x.seen ∨ ∃ i, x.phase = .busy i ∧ i < size)
  | some _, .cell _ _ => False
  | none, .rep _ => False
  | none, .cell l _ => Stores build s ∧ l = s.global

/-- The next step of a thread writes to memory: a worker writes one matrix, the main thread stores the data, which are moved. -/
def Writes (size : Nat) (build : List Nat) (s : State E) : Option Nat → Loc → Prop
  | some _, .rep _ => False
  | some w, .cell l i => ∃ x, s.workers[w]? = some x ∧ x.phase = .busy i ∧ x.count = l ∧ i < size
  | none, .rep k => Stores build s ∧ ∃ n, build[s.global]? = some n ∧ k = n - 1
  | none, .cell l _ => Stores build s ∧ l = s.global

end Moment.SymRep.Threads
