import Verif.Model.MultiDimIndex
import Mathlib.Data.List.Forall2
import Mathlib.Algebra.BigOperators.Group.List.Basic
import Mathlib.Data.List.Lex
import Mathlib.Tactic.Ring
import Mathlib.Tactic.Linarith

namespace Moment.MultiDim

/-- Mixed radix digits, least significant first. -/
def unrank : List Nat → Nat → List Nat
  | [], _ => []
  | d :: ds, n => n % d :: unrank ds (n / d)

/-- Value of mixed radix digits, least significant first. -/
def rank : List Nat → List Nat → Nat
  | d :: ds, i :: is => i + d * rank ds is
  | _, _ => 0

theorem unrank_length (ds : List Nat) : ∀ n, (unrank ds n).length = ds.length := by
  induction ds with
  | nil => intro n; rfl
  | cons d ds ih => intro n; simp [unrank, ih]

theorem unrank_zero (ds : List Nat) : unrank ds 0 = List.replicate ds.length 0 := by
  induction ds with
  | nil => rfl
  | cons d ds ih => simp [unrank, ih, List.replicate_succ]

theorem unrank_lt (ds : List Nat) (h : ∀ d ∈ ds, 0 < d) : ∀ n, List.Forall₂ (· < ·) (unrank ds n) ds := by
  induction ds with
  | nil => intro n; exact List.Forall₂.nil
  | cons d ds ih =>
    intro n
    exact List.Forall₂.cons (Nat.mod_lt _ (h d (by simp))) (ih (fun x hx => h x (by simp [hx])) _)

theorem rank_lt (ds is : List Nat) (h : List.Forall₂ (· < ·) is ds) : rank ds is < ds.prod := by
  induction h with
  | nil => simp [rank]
  | @cons i d is ds hid _ ih =>
    simp only [rank, List.prod_cons]
    calc i + d * rank ds is < d + d * rank ds is := by omega
      _ = d * (rank ds is + 1) := by ring
      _ ≤ d * ds.prod := Nat.mul_le_mul_left _ ih

theorem unrank_rank (ds is : List Nat) (h : List.Forall₂ (· < ·) is ds) : unrank ds (rank ds is) = is := by
  induction h with
  | nil => rfl
  | @cons i d is ds hid _ ih =>
    simp only [rank, unrank]
    rw [Nat.add_mul_mod_self_left, Nat.mod_eq_of_lt hid, Nat.add_mul_div_left _ _ (by omega), Nat.div_eq_of_lt hid, Nat.zero_add, ih]

theorem rank_unrank (ds : List Nat) : ∀ n, n < ds.prod → rank ds (unrank ds n) = n := by
  induction ds with
  | nil => intro n h; simp at h; simp [rank, h]
  | cons d ds ih =>
    intro n h
    simp only [rank, unrank]
    rw [ih _ (Nat.div_lt_of_lt_mul (by simpa using h))]
    exact Nat.mod_add_div n d

theorem unrank_inj (ds : List Nat) {m n : Nat} (hm : m < ds.prod) (hn : n < ds.prod) (h : unrank ds m = unrank ds n) : m = n := by
  rw [← rank_unrank ds m hm, ← rank_unrank ds n hn, h]

theorem carry_unrank (ds : List Nat) (h : ∀ d ∈ ds, 0 < d) : ∀ n, n < ds.prod →
    carry ds (unrank ds n) = (unrank ds (n + 1), decide (n + 1 = ds.prod)) := by
  induction ds with
  | nil => intro n hn; simp at hn; simp [carry, unrank, hn]
  | cons d ds ih =>
    intro n hn
    have hd : 0 < d := h d (by simp)
    have hq : n / d < ds.prod := Nat.div_lt_of_lt_mul (by simpa using hn)
    have hmod := Nat.mod_lt n hd
    have hdm := Nat.mod_add_div n d
    simp only [carry, unrank]
    by_cases hc : n % d + 1 ≥ d
    · have e : n + 1 = d * (n / d + 1) := by rw [Nat.mul_add]; omega
      rw [if_pos hc, ih (fun x hx => h x (by simp [hx])) _ hq]
      have e1 : (n + 1) % d = 0 := by rw [e]; exact Nat.mul_mod_right _ _
      have e2 : (n + 1) / d = n / d + 1 := by rw [e]; exact Nat.mul_div_cancel_left _ hd
      have e3 : (n / d + 1 = ds.prod) ↔ (n + 1 = (d :: ds).prod) := by
        rw [List.prod_cons, e]
        exact ⟨fun h => by rw [h], fun h => Nat.eq_of_mul_eq_mul_left hd h⟩
      rw [e1, e2]
      refine Prod.ext rfl ?_
      exact decide_eq_decide.mpr e3
    · rw [if_neg hc]
      have e : n + 1 = (n % d + 1) + d * (n / d) := by omega
      have e1 : (n + 1) % d = n % d + 1 := by
        rw [e, Nat.add_mul_mod_self_left, Nat.mod_eq_of_lt (by omega)]
      have e2 : (n + 1) / d = n / d := by
        rw [e, Nat.add_mul_div_left _ _ hd, Nat.div_eq_of_lt (by omega), Nat.zero_add]
      rw [e1, e2]
      refine Prod.ext rfl ?_
      refine (decide_eq_false ?_).symm
      rw [List.prod_cons]
      intro h
      have : (n + 1) % d = 0 := by rw [h]; exact Nat.mul_mod_right _ _
      omega

/-- The `n`-th index vector. -/
def nth (reversed : Bool) (dims : List Nat) (n : Nat) : List Nat :=
  if reversed then unrank dims n else (unrank dims.reverse n).reverse

theorem next_nth (reversed : Bool) (dims : List Nat) (h : ∀ d ∈ dims, 0 < d) (n : Nat) (hn : n < dims.prod) :
    next reversed dims { indices := nth reversed dims n, global := n, done := false } =
      { indices := nth reversed dims (n + 1), global := n + 1, done := decide (n + 1 = dims.prod) } := by
  unfold next nth
  cases reversed
  · have := carry_unrank dims.reverse (fun d hd => h d (by simpa using hd)) n (by rwa [List.prod_reverse])
    simp [this, List.prod_reverse]
  · simp [carry_unrank dims h n hn]

theorem run (reversed : Bool) (dims : List Nat) (h : ∀ d ∈ dims, 0 < d) : ∀ k n, n + (k + 1) = dims.prod →
    Yields (next reversed dims) atEnd value { indices := nth reversed dims n, global := n, done := false }
      ((List.range' n (k + 1)).map fun m => (nth reversed dims m, m)) := by
  intro k
  induction k with
  | zero =>
    intro n hn
    simp only [Nat.zero_add, List.range'_one, List.map_cons, List.map_nil]
    refine Yields.step (by simp [atEnd]) (Yields.done ?_)
    rw [next_nth _ _ h n (by omega)]
    simp only [atEnd, decide_eq_true_eq]; omega
  | succ k ih =>
    intro n hn
    rw [List.range'_succ, List.map_cons]
    refine Yields.step (by simp [atEnd]) ?_
    rw [next_nth _ _ h n (by omega)]
    have : decide (n + 1 = dims.prod) = false := by simp; omega
    rw [this]
    exact ih (n + 1) (by omega)

theorem foldl_mul (l : List Nat) : ∀ a, l.foldl (· * ·) a = a * l.prod := by
  induction l with
  | nil => intro a; simp
  | cons x xs ih => intro a; simp [ih, Nat.mul_assoc]

theorem prod_pos (dims : List Nat) (h : ∀ d ∈ dims, 0 < d) : 0 < dims.prod := by
  induction dims with
  | nil => simp
  | cons d ds ih => simp only [List.prod_cons]; exact Nat.mul_pos (h d (by simp)) (ih (fun x hx => h x (by simp [hx])))

theorem prod_zero (dims : List Nat) (h : 0 ∈ dims) : dims.prod = 0 := by
  induction dims with
  | nil => simp at h
  | cons d ds ih =>
    rcases List.mem_cons.mp h with h | h
    · simp [← h]
    · simp [ih h]

theorem nth_zero (reversed : Bool) (dims : List Nat) : nth reversed dims 0 = List.replicate dims.length 0 := by
  unfold nth; cases reversed <;> simp [unrank_zero]

theorem run_first (reversed : Bool) (dims : List Nat) (hne : dims ≠ []) :
    Yields (next reversed dims) atEnd value (first dims) ((List.range dims.prod).map fun m => (nth reversed dims m, m)) := by
  by_cases h0 : 0 ∈ dims
  · rw [prod_zero dims h0]
    refine Yields.done ?_
    simp [first, atEnd, h0]
  · have h : ∀ d ∈ dims, 0 < d := fun d hd => Nat.pos_of_ne_zero (fun e => h0 (e ▸ hd))
    have hp := prod_pos dims h
    have hf : first dims = { indices := nth reversed dims 0, global := 0, done := false } := by
      have h' : ∀ x ∈ dims, ¬ x = 0 := fun x hx => Nat.pos_iff_ne_zero.mp (h x hx)
      simp [first, nth_zero, hne]
      exact ⟨fun h => absurd h h0, h'⟩
    rw [hf, List.range_eq_range']
    have := run reversed dims h (dims.prod - 1) 0 (by omega)
    rwa [show dims.prod - 1 + 1 = dims.prod by omega] at this

theorem forall₂_reverse {l m : List Nat} : List.Forall₂ (· < ·) l.reverse m.reverse ↔ List.Forall₂ (· < ·) l m :=
  List.forall₂_reverse_iff

theorem nth_mem (reversed : Bool) (dims : List Nat) (v : List Nat) :
    (∃ n < dims.prod, nth reversed dims n = v) ↔ List.Forall₂ (· < ·) v dims := by
  have key : ∀ ds : List Nat, ∀ v : List Nat, (∃ n < ds.prod, unrank ds n = v) ↔ List.Forall₂ (· < ·) v ds := by
    intro ds v
    constructor
    · rintro ⟨n, hn, rfl⟩
      apply unrank_lt
      intro d hd
      rcases Nat.eq_zero_or_pos d with h | h
      · subst h; rw [prod_zero ds hd] at hn; omega
      · exact h
    · intro h; exact ⟨rank ds v, rank_lt ds v h, unrank_rank ds v h⟩
  unfold nth
  cases reversed
  · simp only [Bool.false_eq_true, if_false]
    rw [← forall₂_reverse, ← key, List.prod_reverse]
    constructor
    · rintro ⟨n, hn, rfl⟩; exact ⟨n, hn, by simp⟩
    · rintro ⟨n, hn, h⟩; exact ⟨n, hn, by simp [h]⟩
  · simp only [if_true]; exact key dims v

theorem nth_inj (reversed : Bool) (dims : List Nat) {m n : Nat} (hm : m < dims.prod) (hn : n < dims.prod)
    (h : nth reversed dims m = nth reversed dims n) : m = n := by
  unfold nth at h
  cases reversed
  · simp only [Bool.false_eq_true, if_false, List.reverse_inj] at h
    exact unrank_inj dims.reverse (by rwa [List.prod_reverse]) (by rwa [List.prod_reverse]) h
  · exact unrank_inj dims hm hn h

theorem lex_append {u v : List Nat} (h : List.Lex (· < ·) u v) (hl : u.length = v.length) (x y : List Nat) :
    List.Lex (· < ·) (u ++ x) (v ++ y) := by
  induction h with
  | nil => simp at hl
  | cons _ ih => exact List.Lex.cons (ih (by simpa using hl))
  | rel h => exact List.Lex.rel h

theorem lex_append_left (u : List Nat) {x y : List Nat} (h : List.Lex (· < ·) x y) : List.Lex (· < ·) (u ++ x) (u ++ y) := by
  induction u with
  | nil => exact h
  | cons a u ih => exact List.Lex.cons ih

theorem unrank_lex (ds : List Nat) : ∀ m n, m < n → n < ds.prod →
    List.Lex (· < ·) (unrank ds m).reverse (unrank ds n).reverse := by
  induction ds with
  | nil => intro m n h1 h2; simp at h2; omega
  | cons d ds ih =>
    intro m n h1 h2
    have hq : n / d < ds.prod := Nat.div_lt_of_lt_mul (by simpa using h2)
    simp only [unrank, List.reverse_cons]
    rcases Nat.lt_or_ge (m / d) (n / d) with h | h
    · exact lex_append (ih _ _ h hq) (by simp [unrank_length]) _ _
    · have e : m / d = n / d := le_antisymm (Nat.div_le_div_right (by omega)) h
      rw [e]
      apply lex_append_left
      apply List.Lex.rel
      have a := Nat.mod_add_div m d
      have b := Nat.mod_add_div n d
      rw [e] at a
      omega

end Moment.MultiDim

namespace Moment.MultiOper

open MultiDim

theorem carry_eq (numOps offset : Nat) : ∀ is : List Nat, (∀ i ∈ is, i < numOps) →
    carry offset (offset + numOps) (is.map (· + offset)) =
      (((MultiDim.carry (List.replicate is.length numOps) is).1.map (· + offset)),
        (MultiDim.carry (List.replicate is.length numOps) is).2) := by
  intro is
  induction is with
  | nil => intro _; rfl
  | cons i is ih =>
    intro h
    have hi := h i (by simp)
    simp only [List.map_cons, carry, List.length_cons, List.replicate_succ, MultiDim.carry]
    by_cases hc : i + 1 ≥ numOps
    · rw [if_pos hc, if_pos (by omega), ih (fun x hx => h x (by simp [hx]))]
      simp
    · rw [if_neg hc, if_neg (by omega)]
      simp; omega

/-- The `n`-th word. -/
def nth (length numOps offset n : Nat) : List Nat := (MultiDim.nth false (List.replicate length numOps) n).map (· + offset)

theorem next_nth (length numOps offset : Nat) (hn : 0 < numOps) (n : Nat) (h : n < numOps ^ length) :
    next numOps offset { indices := nth length numOps offset n, done := false } =
      { indices := nth length numOps offset (n + 1), done := decide (n + 1 = numOps ^ length) } := by
  unfold next nth MultiDim.nth
  simp only [Bool.false_eq_true, if_false, List.reverse_replicate, Bool.false_or]
  have hlen := unrank_length (List.replicate length numOps) n
  rw [List.length_replicate] at hlen
  have hb : ∀ i ∈ unrank (List.replicate length numOps) n, i < numOps := by
    have := unrank_lt (List.replicate length numOps) (by intro d hd; rw [List.mem_replicate] at hd; omega) n
    intro i hi
    obtain ⟨k, hk, rfl⟩ := List.mem_iff_getElem.mp hi
    have h2 := List.Forall₂.get this (i := k) hk (by simpa [hlen] using hk)
    simpa using h2
  rw [← List.map_reverse, List.reverse_reverse, carry_eq numOps offset _ hb, hlen]
  rw [carry_unrank _ (by intro d hd; rw [List.mem_replicate] at hd; omega) n (by simpa using h)]
  simp [List.map_reverse]

theorem run (length numOps offset : Nat) (hn : 0 < numOps) : ∀ k n, n + (k + 1) = numOps ^ length →
    Yields (next numOps offset) atEnd value { indices := nth length numOps offset n, done := false }
      ((List.range' n (k + 1)).map fun m => nth length numOps offset m) := by
  intro k
  induction k with
  | zero =>
    intro n hk
    simp only [Nat.zero_add, List.range'_one, List.map_cons, List.map_nil]
    refine Yields.step (by simp [atEnd]) (Yields.done ?_)
    rw [next_nth _ _ _ hn n (by omega)]
    simp only [atEnd, decide_eq_true_eq]; omega
  | succ k ih =>
    intro n hk
    rw [List.range'_succ, List.map_cons]
    refine Yields.step (by simp [atEnd]) ?_
    rw [next_nth _ _ _ hn n (by omega)]
    have : decide (n + 1 = numOps ^ length) = false := by simp; omega
    rw [this]
    exact ih (n + 1) (by omega)

theorem run_first (length numOps offset : Nat) (hl : 0 < length) :
    Yields (next numOps offset) atEnd value (first length numOps offset)
      ((List.range (numOps ^ length)).map fun m => nth length numOps offset m) := by
  rcases Nat.eq_zero_or_pos numOps with h0 | h0
  · subst h0
    rw [Nat.zero_pow hl]
    exact Yields.done (by simp [first, atEnd])
  · have hp : 0 < numOps ^ length := Nat.pow_pos h0
    have hf : first length numOps offset = { indices := nth length numOps offset 0, done := false } := by
      simp [first, nth, MultiDim.nth_zero]; omega
    rw [hf, List.range_eq_range']
    have := run length numOps offset h0 (numOps ^ length - 1) 0 (by omega)
    rwa [show numOps ^ length - 1 + 1 = numOps ^ length by omega] at this

theorem nth_mem (length numOps offset : Nat) (v : List Nat) :
    (∃ n < numOps ^ length, nth length numOps offset n = v) ↔
      v.length = length ∧ ∀ o ∈ v, offset ≤ o ∧ o < offset + numOps := by
  have key := fun u => MultiDim.nth_mem false (List.replicate length numOps) u
  simp only [List.prod_replicate] at key
  have h2 : ∀ u : List Nat, List.Forall₂ (· < ·) u (List.replicate length numOps) ↔ u.length = length ∧ ∀ o ∈ u, o < numOps := by
    intro u
    rw [List.forall₂_iff_get]
    constructor
    · rintro ⟨hl, h⟩
      rw [List.length_replicate] at hl
      refine ⟨hl, ?_⟩
      intro o ho
      obtain ⟨k, hk, rfl⟩ := List.mem_iff_getElem.mp ho
      have := h k hk (by simpa [hl] using hk)
      simpa using this
    · rintro ⟨hl, h⟩
      refine ⟨by simp [hl], ?_⟩
      intro k h1 h2
      have := h u[k] (List.getElem_mem h1)
      simpa using this
  constructor
  · rintro ⟨n, hn, rfl⟩
    have := (h2 _).mp ((key _).mp ⟨n, hn, rfl⟩)
    refine ⟨by simp [nth, this.1], ?_⟩
    intro o ho
    obtain ⟨i, hi, rfl⟩ := List.mem_map.mp ho
    have := this.2 i hi
    omega
  · rintro ⟨hl, h⟩
    obtain ⟨n, hn, e⟩ := (key (v.map (· - offset))).mpr ((h2 _).mpr ⟨by simp [hl], by
      intro o ho
      obtain ⟨i, hi, rfl⟩ := List.mem_map.mp ho
      have := h i hi
      omega⟩)
    refine ⟨n, hn, ?_⟩
    unfold nth
    rw [e, List.map_map]
    conv_rhs => rw [← List.map_id v]
    apply List.map_congr_left
    intro i hi
    have := h i hi
    simp; omega

theorem nth_inj (length numOps offset : Nat) {m n : Nat} (hm : m < numOps ^ length) (hn : n < numOps ^ length)
    (h : nth length numOps offset m = nth length numOps offset n) : m = n := by
  unfold nth at h
  have := List.map_injective_iff.mpr (add_left_injective offset) h
  exact MultiDim.nth_inj false _ (by simpa using hm) (by simpa using hn) this

end Moment.MultiOper
