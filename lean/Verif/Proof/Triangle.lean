import Verif.Model.Triangle
import Mathlib.Tactic.Ring
import Mathlib.Data.List.Basic
import Mathlib.Data.List.Flatten
import Mathlib.Data.List.Range

namespace Moment.Triangle

/-- The entries of column `c`, rows `lo` to `hi - 1`. -/
def column (d c lo hi : Nat) : List ((Nat × Nat) × Nat) := (List.range' lo (hi - lo)).map fun r => ((r, c), r + c * d)

theorem run_columns (nxt : State → State) (stop : State → Prop) (d c1 : Nat) (lo hi : Nat → Nat)
    (hne : ∀ c < c1, lo c < hi c)
    (hnext : ∀ c < c1, ∀ r, lo c ≤ r → r < hi c → nxt ⟨r, c, r + c * d⟩ =
      if r + 1 < hi c then ⟨r + 1, c, r + 1 + c * d⟩ else ⟨lo (c + 1), c + 1, lo (c + 1) + (c + 1) * d⟩)
    (hgo : ∀ c < c1, ∀ r, lo c ≤ r → r < hi c → ¬ stop ⟨r, c, r + c * d⟩)
    (hstop : stop ⟨lo c1, c1, lo c1 + c1 * d⟩) :
    ∀ n c, c + n = c1 → Yields nxt stop value ⟨lo c, c, lo c + c * d⟩
      ((List.range' c n).flatMap fun k => column d k (lo k) (hi k)) := by
  intro n
  induction n with
  | zero => intro c hc; simp only [Nat.add_zero] at hc; subst hc; exact Yields.done hstop
  | succ n ih =>
    intro c hc
    have hc1 : c < c1 := by omega
    rw [List.range'_succ, List.flatMap_cons]
    have key : ∀ m r, r + m = hi c → lo c ≤ r → 0 < m → Yields nxt stop value ⟨r, c, r + c * d⟩
        (((List.range' r m).map fun r => ((r, c), r + c * d)) ++ (List.range' (c + 1) n).flatMap fun k => column d k (lo k) (hi k)) := by
      intro m
      induction m with
      | zero => intro r _ _ h; omega
      | succ m ihm =>
        intro r hr hlo _
        rw [List.range'_succ, List.map_cons, List.cons_append]
        refine Yields.step (hgo c hc1 r hlo (by omega)) ?_
        rw [hnext c hc1 r hlo (by omega)]
        rcases Nat.eq_zero_or_pos m with h0 | h0
        · rw [if_neg (by omega), h0]
          simpa using ih (c + 1) (by omega)
        · rw [if_pos (by omega)]
          exact ihm (r + 1) (by omega) (by omega) h0
    have hlt := hne c hc1
    exact key (hi c - lo c) (lo c) (by omega) (Nat.le_refl _) (by omega)

def lo (upper inclusive : Bool) (c : Nat) : Nat := if upper then 0 else if inclusive then c else c + 1
def hi (upper inclusive : Bool) (d c : Nat) : Nat := if upper then (if inclusive then c + 1 else c) else d

/-- The list of all entries of the triangle, column by column. -/
def all (upper inclusive : Bool) (d : Nat) : List ((Nat × Nat) × Nat) :=
  (List.range d).flatMap fun c => column d c (lo upper inclusive c) (hi upper inclusive d c)

theorem off_lt {r c d : Nat} (hr : r < d) (hc : c < d) : r + c * d < d * d := by
  have : (c + 1) * d ≤ d * d := Nat.mul_le_mul_right d (by omega)
  rw [Nat.add_mul] at this; omega

theorem run_first (upper inclusive : Bool) (d : Nat) :
    Yields (next upper inclusive d) (atEnd upper inclusive d) value (first upper inclusive d) (all upper inclusive d) := by
  unfold all
  rcases Nat.eq_zero_or_pos d with h0 | hd
  · subst h0
    refine Yields.done ?_
    unfold atEnd first endOffset
    cases upper <;> cases inclusive <;> simp
  cases upper <;> cases inclusive
  · -- lower, exclusive: columns 0 .. d-2
    have hr : List.range d = List.range' 0 (d - 1) ++ [d - 1] := by
      rw [show d = (d - 1) + 1 by omega, List.range_succ, List.range_eq_range']; simp
    rw [hr, List.flatMap_append]
    have e : column d (d - 1) (lo false false (d - 1)) (hi false false d (d - 1)) = [] := by
      unfold column lo hi; simp; omega
    rw [List.flatMap_cons, e]
    simp only [List.flatMap_nil, List.append_nil]
    have hf : first false false d = ⟨lo false false 0, 0, lo false false 0 + 0 * d⟩ := by
      unfold first lo
      have : 1 ≤ d * d := Nat.mul_pos hd hd
      simp [Nat.min_eq_left this]
    rw [hf]
    refine run_columns _ _ d (d - 1) _ _ ?_ ?_ ?_ ?_ (d - 1) 0 (by omega)
    · intro c hc; simp [lo, hi]; omega
    · intro c hc r h1 h2
      simp only [lo, hi, Bool.false_eq_true, if_false] at h1 h2 ⊢
      unfold next
      simp only [Bool.false_eq_true, if_false]
      by_cases h : r + 1 < d
      · rw [if_neg (by omega), if_pos h]; congr 1; omega
      · rw [if_pos (by omega), if_neg h]; congr 1
        have : r = d - 1 := by omega
        subst this
        rw [Nat.add_mul]; omega
    · intro c hc r h1 h2
      simp only [lo, hi, Bool.false_eq_true, if_false] at h1 h2
      unfold atEnd endOffset
      have := off_lt h2 (show c < d by omega)
      simp; omega
    · unfold atEnd endOffset lo
      obtain ⟨k, rfl⟩ : ∃ k, d = k + 1 := ⟨d - 1, by omega⟩
      simp; ring
  · -- lower, inclusive
    have hf : first false true d = ⟨lo false true 0, 0, lo false true 0 + 0 * d⟩ := by
      unfold first lo; simp
    rw [hf, List.range_eq_range']
    refine run_columns _ _ d d _ _ ?_ ?_ ?_ ?_ d 0 (by omega)
    · intro c hc; simp [lo, hi]; omega
    · intro c hc r h1 h2
      simp only [lo, hi, Bool.false_eq_true, if_false, if_true] at h1 h2 ⊢
      unfold next
      simp only [Bool.false_eq_true, if_false, if_true]
      by_cases h : r + 1 < d
      · rw [if_neg (by omega), if_pos h]; congr 1; omega
      · rw [if_pos (by omega), if_neg h]; congr 1
        have : r = d - 1 := by omega
        subst this
        rw [Nat.add_mul]; omega
    · intro c hc r h1 h2
      simp only [lo, hi, Bool.false_eq_true, if_false, if_true] at h1 h2
      unfold atEnd endOffset
      have := off_lt h2 (show c < d by omega)
      simp; omega
    · unfold atEnd endOffset lo
      simp; ring
  · -- upper, exclusive: columns 1 .. d-1
    have hr : List.range d = 0 :: List.range' 1 (d - 1) := by
      rw [List.range_eq_range']
      conv_lhs => rw [show d = (d - 1) + 1 by omega, List.range'_succ]
    rw [hr, List.flatMap_cons]
    have e : column d 0 (lo true false 0) (hi true false d 0) = [] := by
      unfold column lo hi; simp
    rw [e, List.nil_append]
    have hf : first true false d = ⟨lo true false 1, 1, lo true false 1 + 1 * d⟩ := by
      unfold first lo; simp
    rw [hf]
    have key : ∀ n c, 1 ≤ c → c + n = d → Yields (next true false d) (atEnd true false d) value ⟨0, c, 0 + c * d⟩
        ((List.range' c n).flatMap fun k => column d k (lo true false k) (hi true false d k)) := by
      intro n
      induction n with
      | zero =>
        intro c _ hc
        simp only [Nat.add_zero] at hc; subst hc
        exact Yields.done (by simp [atEnd, endOffset])
      | succ n ih =>
        intro c h1 hc
        rw [List.range'_succ, List.flatMap_cons]
        have inner : ∀ m r, r + m = c → 0 < m → Yields (next true false d) (atEnd true false d) value ⟨r, c, r + c * d⟩
            (((List.range' r m).map fun r => ((r, c), r + c * d)) ++
              (List.range' (c + 1) n).flatMap fun k => column d k (lo true false k) (hi true false d k)) := by
          intro m
          induction m with
          | zero => intro r _ h; omega
          | succ m ihm =>
            intro r hr _
            rw [List.range'_succ, List.map_cons, List.cons_append]
            refine Yields.step ?_ ?_
            · unfold atEnd endOffset
              have := off_lt (show r < d by omega) (show c < d by omega)
              simp; omega
            · unfold next
              simp only [if_true, Bool.false_eq_true, if_false]
              rcases Nat.eq_zero_or_pos m with h0 | h0
              · rw [if_pos (by omega), h0]
                have := ih (c + 1) (by omega) (by omega)
                simp only [List.range'_zero, List.map_nil, List.nil_append]
                have ee : (r + c * d + 1 + (d - c)) = 0 + (c + 1) * d := by rw [Nat.add_mul]; omega
                rw [ee]; exact this
              · rw [if_neg (by omega)]
                have := ihm (r + 1) (by omega) h0
                have ee : r + c * d + 1 = r + 1 + c * d := by omega
                rw [ee]; exact this
        have := inner c 0 (by omega) (by omega)
        simpa [column, lo, hi] using this
    exact key (d - 1) 1 (Nat.le_refl _) (by omega)
  · -- upper, inclusive
    have hf : first true true d = ⟨lo true true 0, 0, lo true true 0 + 0 * d⟩ := by
      unfold first lo; simp
    rw [hf, List.range_eq_range']
    refine run_columns _ _ d d _ _ ?_ ?_ ?_ ?_ d 0 (by omega)
    · intro c hc; simp [lo, hi]
    · intro c hc r h1 h2
      simp only [lo, hi, if_true] at h1 h2 ⊢
      unfold next
      simp only [if_true]
      by_cases h : r + 1 < c + 1
      · rw [if_neg (by omega), if_pos h]; congr 1; omega
      · rw [if_pos (by omega), if_neg h]; congr 1
        have : r = c := by omega
        subst this
        rw [Nat.add_mul]; omega
    · intro c hc r h1 h2
      simp only [lo, hi, if_true] at h1 h2
      unfold atEnd endOffset
      have := off_lt (show r < d by omega) hc
      simp; omega
    · unfold atEnd endOffset lo
      simp

theorem mem_all (upper inclusive : Bool) (d r c o : Nat) : ((r, c), o) ∈ all upper inclusive d ↔
    r < d ∧ c < d ∧ (lo upper inclusive c ≤ r ∧ r < hi upper inclusive d c) ∧ o = r + c * d := by
  unfold all column
  simp only [List.mem_flatMap, List.mem_range, List.mem_map, List.mem_range'_1, Prod.mk.injEq]
  constructor
  · rintro ⟨c', hc', r', ⟨h1, h2⟩, ⟨rfl, rfl⟩, rfl⟩
    have : r' < hi upper inclusive d c' := by omega
    refine ⟨?_, hc', ⟨h1, this⟩, rfl⟩
    unfold hi at this
    cases upper <;> cases inclusive <;> simp at this <;> omega
  · rintro ⟨hr, hc, ⟨h1, h2⟩, rfl⟩
    exact ⟨c, hc, r, ⟨h1, by omega⟩, ⟨rfl, rfl⟩, rfl⟩

theorem all_sorted (upper inclusive : Bool) (d : Nat) :
    (all upper inclusive d).Pairwise fun a b => a.1.2 < b.1.2 ∨ (a.1.2 = b.1.2 ∧ a.1.1 < b.1.1) := by
  unfold all
  rw [List.pairwise_flatMap]
  constructor
  · intro c hc
    unfold column
    rw [List.pairwise_map]
    exact (List.pairwise_lt_range' (s := _) (n := _)).imp fun h => Or.inr ⟨rfl, h⟩
  · refine (List.pairwise_lt_range (n := d)).imp ?_
    intro c c' h x hx y hy
    unfold column at hx hy
    obtain ⟨_, _, rfl⟩ := List.mem_map.mp hx
    obtain ⟨_, _, rfl⟩ := List.mem_map.mp hy
    exact Or.inl h

end Moment.Triangle

namespace Moment.Transpose

theorem run (d : Nat) (hd : 0 < d) : ∀ n c, c + n = d → 0 < n → Yields (next d) (atEnd d) (value d) (0, c)
    ((List.range' c n).flatMap fun c => (List.range d).map fun r => r * d + c) := by
  intro n
  induction n with
  | zero => intro c _ h; omega
  | succ n ih =>
    intro c hc _
    rw [List.range'_succ, List.flatMap_cons]
    have inner : ∀ m r, r + m = d → 0 < m → Yields (next d) (atEnd d) (value d) (r, c)
        (((List.range' r m).map fun r => r * d + c) ++
          (List.range' (c + 1) n).flatMap fun c => (List.range d).map fun r => r * d + c) := by
      intro m
      induction m with
      | zero => intro r _ h; omega
      | succ m ihm =>
        intro r hr _
        rw [List.range'_succ, List.map_cons, List.cons_append]
        refine Yields.step (s := (r, c)) ?_ ?_
        · unfold atEnd; simp; omega
        · unfold next
          simp only
          rcases Nat.eq_zero_or_pos m with h0 | h0
          · rw [if_pos (by omega), h0]
            simp only [List.range'_zero, List.map_nil, List.nil_append]
            rcases Nat.eq_zero_or_pos n with hn | hn
            · rw [if_pos (by omega), hn]
              exact Yields.done (by unfold atEnd; simp; omega)
            · rw [if_neg (by omega)]
              exact ih (c + 1) (by omega) hn
          · rw [if_neg (by omega)]
            exact ihm (r + 1) (by omega) h0
    have := inner d 0 (by omega) hd
    rwa [← List.range_eq_range'] at this

end Moment.Transpose
