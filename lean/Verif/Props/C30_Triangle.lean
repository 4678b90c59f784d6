import Verif.Proof.Triangle

/-! # C30: triangle iterators visit exactly the triangle with the right offsets -/

namespace Moment.C30
open Moment

/-- Which entries belong to the triangle. -/
def InTriangle (upper inclusive : Bool) (row col : Nat) : Prop :=
  match upper, inclusive with
  | true, true => row ≤ col
  | true, false => row < col
  | false, true => col ≤ row
  | false, false => col < row

/-- For each of the four triangles and every matrix size, the iterator stops and visits exactly the entries of the triangle, each with its
column-major storage offset, column by column and down each column (so none twice). -/
theorem C30_triangle (upper inclusive : Bool) (d : Nat) :
    ∃ l, Yields (Triangle.next upper inclusive d) (Triangle.atEnd upper inclusive d) Triangle.value (Triangle.first upper inclusive d) l ∧
      (∀ row col offset, ((row, col), offset) ∈ l ↔
        row < d ∧ col < d ∧ InTriangle upper inclusive row col ∧ offset = row + col * d) ∧
      l.Pairwise fun a b => a.1.2 < b.1.2 ∨ (a.1.2 = b.1.2 ∧ a.1.1 < b.1.1) := by
  refine ⟨_, Triangle.run_first upper inclusive d, ?_, Triangle.all_sorted upper inclusive d⟩
  intro r c o
  rw [Triangle.mem_all]
  refine and_congr_right fun hr => and_congr_right fun hc => and_congr_left fun _ => ?_
  unfold Triangle.lo Triangle.hi InTriangle
  cases upper <;> cases inclusive <;> simp <;> omega

/-- The transposed view reads, for column after column of the transpose, the entries of the corresponding row: the n-th entry visited is
entry (row n / d, column n % d) of the matrix. -/
theorem C30_transpose (d : Nat) :
    ∃ l, Yields (Transpose.next d) (Transpose.atEnd d) (Transpose.value d) (0, 0) l ∧
      l = (List.range (d * d)).map fun n => n / d + (n % d) * d := by
  rcases Nat.eq_zero_or_pos d with h0 | hd
  · subst h0; exact ⟨[], Yields.done ⟨rfl, rfl⟩, rfl⟩
  · refine ⟨_, Transpose.run d hd d 0 (by omega) hd, ?_⟩
    have key : ∀ m, ((List.range' 0 m).flatMap fun c => (List.range d).map fun r => r * d + c) =
        (List.range (m * d)).map fun n => n / d + (n % d) * d := by
      intro m
      induction m with
      | zero => simp
      | succ m ih =>
        rw [List.range'_concat, List.flatMap_append, ih, Nat.add_mul, List.range_add, List.map_append]
        congr 1
        simp only [Nat.zero_add, Nat.one_mul, List.flatMap_cons, List.flatMap_nil, List.append_nil, List.map_map]
        apply List.map_congr_left
        intro r hr
        rw [List.mem_range] at hr
        simp only [Function.comp_def]
        rw [Nat.mul_comm m d, Nat.mul_add_div hd, Nat.div_eq_of_lt hr, Nat.mul_add_mod, Nat.mod_eq_of_lt hr]
        omega
    exact key d

-- Strict lower triangle of a 3×3 matrix: (1,0), (2,0), (2,1).
example : Triangle.all false false 3 = [((1, 0), 1), ((2, 0), 2), ((2, 1), 5)] := by decide
example : (Triangle.first true false 3).offset = 3 ∧ Triangle.endOffset false true 3 = 12 := by decide

end Moment.C30
