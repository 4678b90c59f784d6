import Verif.Model.Iter

/-! # Model of `MultipartitionIterator` (cpp/lib_moment/utilities/multi_partition.h) -/

namespace Moment.Multipart

/-- Data members (multi_partition.h:36-45): the pairs (`cursor[i]`, `cum_sum[i]`) in order of `i`, and `end_state`. -/
structure State where
  cells : List (Nat × Nat)
  done : Bool

/-- Constructor (multi_partition.h:53-67), which requires at least one party. -/
def first (reversed : Bool) (sum parties : Nat) : State :=
  { cells := if reversed then (sum, sum) :: List.replicate (parties - 1) (0, sum)
      else List.replicate (parties - 1) (0, 0) ++ [(sum, sum)],
    done := false }

/-- The loop of `inc_forward` (multi_partition.h:85-103) on the reversed cells without the last: how many were reset, and what remains. -/
def climb (sum : Nat) : List (Nat × Nat) → Option (Nat × List (Nat × Nat))
  | [] => none
  | (c, s) :: rest => if s + 1 > sum then (climb sum rest).map fun r => (r.1 + 1, r.2) else some (0, (c + 1, s + 1) :: rest)

/-- The recomputation of `cum_sum` (multi_partition.h:106-108), for the given cursor values, after a cell with cumulative sum `prev`. -/
def recum : Nat → List Nat → List (Nat × Nat)
  | _, [] => []
  | prev, c :: cs => (c, prev + c) :: recum (prev + c) cs

/-- `inc_forward` (multi_partition.h:82-111). -/
def incForward (sum : Nat) (s : State) : State :=
  match climb sum s.cells.dropLast.reverse with
  | none => { s with done := true }
  | some (_, []) => { s with done := true } -- not possible
  | some (n, (c, _) :: rest) =>
    let kept := rest.reverse
    let filled := recum ((rest.headD (0, 0)).2) (c :: List.replicate n 0)
    let front := kept ++ filled
    { s with cells := front ++ [(sum - (front.getLastD (0, 0)).2, (s.cells.getLastD (0, 0)).2)] }

/-- The search for the right-most non-zero entry (multi_partition.h:130-133 and 138-145): how many zeros were passed and the cells from the entry on. -/
def findNonzero : List (Nat × Nat) → Option (List (Nat × Nat) × List (Nat × Nat))
  | [] => none
  | (c, s) :: rest => if c = 0 then (findNonzero rest).map fun r => ((c, s) :: r.1, r.2) else some ([], (c, s) :: rest)

/-- `++cursor[drop_idx+1]` (multi_partition.h:163) on the reversed cells to the right of `drop_idx`. -/
def bumpLast : List (Nat × Nat) → List (Nat × Nat)
  | [] => []
  | [(c, s)] => [(c + 1, s)]
  | p :: q :: ps => p :: bumpLast (q :: ps)

/-- `inc_reverse` (multi_partition.h:114-165). -/
def incReverse (sum : Nat) (s : State) : State :=
  if sum = 0 ∨ s.cells.length ≤ 1 then { s with done := true }
  else match s.cells.reverse with
    | [] => { s with done := true } -- not possible
    | (c, cs) :: rest =>
      if c ≠ 0 then
        -- final entry is right-most: row reset (136-157)
        match findNonzero rest with
        | none => { s with done := true }
        | some (_, []) => { s with done := true } -- not possible
        | some (zeros, (d, ds) :: left) =>
          { s with cells := (List.replicate zeros.length (0, sum) ++
              (sum - (ds - 1), sum) :: (d - 1, ds - 1) :: left).reverse }
      else
        -- reassign (160-163)
        match findNonzero ((c, cs) :: rest) with
        | none => { s with done := true } -- not possible for a positive sum
        | some (_, []) => { s with done := true } -- not possible
        | some (zeros, (d, ds) :: left) => { s with cells := (bumpLast zeros ++ (d - 1, ds - 1) :: left).reverse }

/-- `operator++` (multi_partition.h:69-80). -/
def next (reversed : Bool) (sum : Nat) (s : State) : State := if reversed then incReverse sum s else incForward sum s

/-- `operator bool` negated (multi_partition.h:183-185). -/
def atEnd (s : State) : Prop := s.done = true

/-- `operator*` (multi_partition.h:167-172). -/
def value (s : State) : List Nat := s.cells.map Prod.fst

end Moment.Multipart
