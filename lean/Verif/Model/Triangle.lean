import Verif.Model.Iter

/-! # Model of the iterators of `SquareMatrix` (cpp/lib_moment/tensor/square_matrix.h)

Storage is column-major (`Tensor<.., true>`, square_matrix.h:31): entry (row, col) of a d×d matrix lives at offset row + col·d. -/

namespace Moment.Triangle

/-- Data members of `TriangularIterator` (square_matrix.h:142-144). -/
structure State where
  row : Nat
  col : Nat
  offset : Nat

/-- 'Begin' constructor (square_matrix.h:147-151); `ElementCount` is `d * d`. -/
def first (upper inclusive : Bool) (d : Nat) : State :=
  { row := if inclusive then 0 else if upper then 0 else 1,
    col := if inclusive then 0 else if upper then 1 else 0,
    offset := if inclusive then 0 else if upper then d else min 1 (d * d) }

/-- Offset stored by the 'end' constructor (square_matrix.h:153-157). -/
def endOffset (upper inclusive : Bool) (d : Nat) : Nat :=
  if upper || !inclusive then d * d else d * d + d

/-- `operator++` (square_matrix.h:175-212). The subtraction in line 182 and 190 is on `size_t`; it does not wrap as the column is below the
dimension there. -/
def next (upper inclusive : Bool) (d : Nat) (s : State) : State :=
  if upper then
    if inclusive then
      if s.row + 1 > s.col then { row := 0, col := s.col + 1, offset := s.offset + 1 + (d - s.col - 1) }
      else { row := s.row + 1, col := s.col, offset := s.offset + 1 }
    else
      if s.row + 1 ≥ s.col then { row := 0, col := s.col + 1, offset := s.offset + 1 + (d - s.col) }
      else { row := s.row + 1, col := s.col, offset := s.offset + 1 }
  else
    if inclusive then
      if s.row + 1 ≥ d then { row := s.col + 1, col := s.col + 1, offset := s.offset + 1 + (s.col + 1) }
      else { row := s.row + 1, col := s.col, offset := s.offset + 1 }
    else
      if s.row + 1 ≥ d then { row := s.col + 1 + 1, col := s.col + 1, offset := s.offset + 1 + (s.col + 1 + 1) }
      else { row := s.row + 1, col := s.col, offset := s.offset + 1 }

/-- `operator==` with the end iterator (square_matrix.h:228-238). -/
def atEnd (upper inclusive : Bool) (d : Nat) (s : State) : Prop := s.offset = endOffset upper inclusive d

/-- `Row()`, `Col()` and `Offset()` (square_matrix.h:163-169); `operator*` (171-173) reads the element at this offset. -/
def value (s : State) : (Nat × Nat) × Nat := ((s.row, s.col), s.offset)

end Moment.Triangle

namespace Moment.Transpose

/-- `TransposeIterator` (square_matrix.h:41-103): row and column. -/
def next (d : Nat) (s : Nat × Nat) : Nat × Nat :=
  if s.1 + 1 ≥ d then
    if s.2 + 1 ≥ d then (s.1 + 1, s.2 + 1) else (0, s.2 + 1)
  else (s.1 + 1, s.2)

/-- Comparison with the end iterator (square_matrix.h:60-61, 84-87). -/
def atEnd (d : Nat) (s : Nat × Nat) : Prop := s.1 = d ∧ s.2 = d

/-- The offset read by `operator*` (square_matrix.h:95-97). -/
def value (d : Nat) (s : Nat × Nat) : Nat := s.1 * d + s.2

end Moment.Transpose
