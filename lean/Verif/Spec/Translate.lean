import Verif.Spec.Pauli

/-! # Translations of Pauli words

A word is a set of letters at sites. A translation moves all letters by the same distance. -/

namespace Moment.Translate

/-- The word has letter `p` (0 for X, 1 for Y, 2 for Z) at qubit `q`. -/
def Has (w : List Nat) (q p : Nat) : Prop := p < 3 ∧ 3 * q + p ∈ w

/-- Moving qubits along the relation gives one word from the other. -/
def MovedBy (R : Nat → Nat → Prop) (w v : List Nat) : Prop :=
  (∀ q p, Has w q p → ∃ r, R q r ∧ Has v r p) ∧ (∀ r p, Has v r p → ∃ q, R q r ∧ Has w q p)

/-- The translation of an open chain by a distance. -/
def ChainStep (d : Int) (q r : Nat) : Prop := (r : Int) = q + d

/-- The translation of an open lattice of column height `h` by numbers of rows and columns. -/
def LatticeStep (h : Nat) (row col : Int) (q r : Nat) : Prop :=
  ((r % h : Nat) : Int) = (q % h : Nat) + row ∧ ((r / h : Nat) : Int) = (q / h : Nat) + col

/-- The words are translates of each other on an open chain. -/
def ChainClass (w v : List Nat) : Prop := ∃ d, MovedBy (ChainStep d) w v

/-- The words are translates of each other on an open lattice. -/
def LatticeClass (h : Nat) (w v : List Nat) : Prop := ∃ row col, MovedBy (LatticeStep h row col) w v

/-- The rotation of a closed chain of `n` qubits by `d`. -/
def RingStep (n d : Nat) (q r : Nat) : Prop := q < n ∧ r = (q + d) % n

/-- The rotation of a closed lattice of `k` columns of height `h`. -/
def TorusStep (h k row col : Nat) (q r : Nat) : Prop := q < h * k ∧ r % h = (q % h + row) % h ∧ r / h = (q / h + col) % k

end Moment.Translate
