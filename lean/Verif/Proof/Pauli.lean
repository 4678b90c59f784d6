import Verif.Model.Pauli
import Verif.Spec.Pauli
import Verif.Proof.Sign
import Mathlib.Data.List.Sort
import Mathlib.Algebra.Group.Basic
import Mathlib.Data.List.Perm.Subperm

namespace Moment.Pauli

theorem act_append (v w : List Nat) (b : Bits) :
    act (v ++ w) b = ((act v (act w b).2).1 * (act w b).1, (act v (act w b).2).2) := by
  induction v with
  | nil => simp [act]
  | cons o v ih => simp [act, ih, mul_assoc]

theorem act_single (o : Nat) (b : Bits) : act [o] b = act1 o b := by simp [act]

theorem act_cons (o : Nat) (w : List Nat) (b : Bits) :
    act (o :: w) b = ((act1 o (act w b).2).1 * (act w b).1, (act1 o (act w b).2).2) := by simp [act]

theorem flip_flip (q : Nat) (b : Bits) : flip q (flip q b) = b := by
  funext k; unfold flip; split <;> simp

theorem flip_comm (q r : Nat) (b : Bits) : flip q (flip r b) = flip r (flip q b) := by
  funext k; unfold flip; split <;> split <;> rfl

theorem flip_ne (q r : Nat) (h : q ≠ r) (b : Bits) : flip r b q = b q := by simp [flip, h]

theorem flip_self (q : Nat) (b : Bits) : flip q b q = !b q := by simp [flip]

/-- Operators on different qubits commute. -/
theorem act1_comm (o p : Nat) (h : o / 3 ≠ p / 3) (b : Bits) :
    act [o, p] b = act [p, o] b := by
  simp only [act, act1]
  have h' := Ne.symm h
  have h3 : o % 3 = 0 ∨ o % 3 = 1 ∨ o % 3 = 2 := by omega
  have h3' : p % 3 = 0 ∨ p % 3 = 1 ∨ p % 3 = 2 := by omega
  rcases h3 with h3 | h3 | h3 <;> rcases h3' with h3' | h3' | h3' <;>
    simp [h3, h3', flip_ne _ _ h, flip_ne _ _ h', flip_comm (o / 3) (p / 3), mul_comm] <;>
    by_cases hb : b (p / 3) = true <;> by_cases hc : b (o / 3) = true <;> simp [hb, hc, mul_comm]

theorem act_congr_right (u v w : List Nat) (h : ∀ b, act v b = act w b) (b : Bits) : act (u ++ v) b = act (u ++ w) b := by
  rw [act_append, act_append, h]

theorem act_congr_left (u v w : List Nat) (h : ∀ b, act v b = act w b) (b : Bits) : act (v ++ u) b = act (w ++ u) b := by
  rw [act_append, act_append, h]

theorem act_swap (o p : Nat) (h : o / 3 ≠ p / 3) (w : List Nat) (b : Bits) : act (o :: p :: w) b = act (p :: o :: w) b :=
  act_congr_left w [o, p] [p, o] (act1_comm o p h) b

theorem act_orderedInsert (o : Nat) (w : List Nat) (b : Bits) :
    act (w.orderedInsert (fun a b => a / 3 ≤ b / 3) o) b = act (o :: w) b := by
  induction w generalizing b with
  | nil => rfl
  | cons p w ih =>
    rw [List.orderedInsert_cons]
    split
    · rfl
    · rename_i h
      rw [act_swap o p (by omega), act_cons p (List.orderedInsert _ _ _), ih, ← act_cons]

theorem act_sort (w : List Nat) (b : Bits) : act (stableSort (· / 3) w) b = act w b := by
  unfold stableSort
  induction w generalizing b with
  | nil => rfl
  | cons o w ih => rw [List.insertionSort_cons, act_orderedInsert, act_cons, ih, ← act_cons]

theorem sort_sorted (key : Nat → Nat) (w : List Nat) : (stableSort key w).Pairwise (fun a b => key a ≤ key b) :=
  haveI : Std.Total (fun a b : Nat => key a ≤ key b) := ⟨fun _ _ => Nat.le_total _ _⟩
  haveI : IsTrans Nat (fun a b : Nat => key a ≤ key b) := ⟨fun _ _ _ h h' => Nat.le_trans h h'⟩
  List.pairwise_insertionSort _ w

theorem sort_perm (key : Nat → Nat) (w : List Nat) : (stableSort key w).Perm w := List.perm_insertionSort _ w

/-- The word standing for Pauli number `p` (0 = I) on a qubit. -/
theorem emit_zero (q : Nat) : emit q 0 = [] := rfl
theorem emit_pos (q p : Nat) (h : p ≠ 0) : emit q p = [q * 3 + p - 1] := by simp [emit, h]

theorem emit_op (o : Nat) : emit (o / 3) (1 + o % 3) = [o] := by
  rw [emit_pos _ _ (by omega)]; congr 1; omega

/-- Multiplying two non-trivial Pauli operators on one qubit. -/
theorem act_pauli_mul (q p r : Nat) (hp : p < 4) (hp0 : p ≠ 0) (hr : r < 4) (hr0 : r ≠ 0) (b : Bits) :
    act [q * 3 + p - 1, q * 3 + r - 1] b =
      (let m := mulWithId p r
       if m > 0 then actS .imag (emit q m.toNat) b
       else if m < 0 then actS .negImag (emit q (-m).toNat) b
       else actS .pos (emit q m.toNat) b) := by
  have key : ∀ k : Nat, (q * 3 + k) / 3 = q + k / 3 ∧ (q * 3 + k) % 3 = k % 3 := by intro k; omega
  have hp' : p = 1 ∨ p = 2 ∨ p = 3 := by omega
  have hr' : r = 1 ∨ r = 2 ∨ r = 3 := by omega
  have k0 : (q * 3) / 3 = q ∧ (q * 3) % 3 = 0 := by omega
  have k1 : (q * 3 + 1) / 3 = q ∧ (q * 3 + 1) % 3 = 1 := by omega
  have k2 : (q * 3 + 2) / 3 = q ∧ (q * 3 + 2) % 3 = 2 := by omega
  rcases hp' with rfl | rfl | rfl <;> rcases hr' with rfl | rfl | rfl <;>
    simp [act, act1, actS, mulWithId, cayley, emit, k0, k1, k2, flip_flip, flip_self] <;>
    (try cases b q) <;> simp <;> rfl

theorem mulWithId_bound (p r : Nat) (hp : p < 4) (hr : r < 4) : -4 < mulWithId p r ∧ mulWithId p r < 4 := by
  have : ∀ p < 4, ∀ r < 4, -4 < mulWithId p r ∧ mulWithId p r < 4 := by decide
  exact this p hp r hr

theorem actS_append (g : Sign) (v w : List Nat) (b : Bits) :
    actS g (v ++ w) b = ((actS g v (act w b).2).1 * (act w b).1, (actS g v (act w b).2).2) := by
  simp [actS, act_append, mul_assoc]

theorem loop_act (os : List Nat) : ∀ (party pauli : Nat) (sign : Sign) (b : Bits), pauli < 4 →
    actS (loop party pauli sign os).2 (loop party pauli sign os).1 b = actS sign (emit party pauli ++ os) b := by
  induction os with
  | nil => intro party pauli sign b _; simp [loop]
  | cons o os ih =>
    intro party pauli sign b hp
    simp only [loop]
    split
    · have h := fun c => ih (o / 3) (1 + o % 3) sign c (by omega)
      simp only [emit_op, List.singleton_append] at h
      have h2 := h b
      simp only [actS, Prod.mk.injEq, Sign.mul_eq] at h2 ⊢
      rw [act_append, act_append, h2.2]
      refine ⟨?_, rfl⟩
      rw [mul_left_comm, h2.1, mul_left_comm]
    · rename_i hq
      simp only [ne_eq, not_not] at hq
      have ho : o = party * 3 + (1 + o % 3) - 1 := by omega
      split
      · rename_i hp0
        have hm := act_pauli_mul party pauli (1 + o % 3) hp hp0 (by omega) (by omega)
        rw [← ho] at hm
        have hb := mulWithId_bound pauli (1 + o % 3) hp (by omega)
        have hsplit : emit party pauli ++ o :: os = [party * 3 + pauli - 1, o] ++ os := by simp [emit_pos _ _ hp0]
        rw [hsplit]
        simp only at hm
        have fin : ∀ (g : Sign) (v : List Nat), (∀ b, act [party * 3 + pauli - 1, o] b = actS g v b) →
            actS (sign.mul g) (v ++ os) b = actS sign ([party * 3 + pauli - 1, o] ++ os) b := by
          intro g v h
          rw [actS_append, actS_append]
          simp [actS] at h ⊢
          rw [h]
          simp [mul_assoc]
        split
        · rename_i h1
          rw [ih _ _ _ _ (by omega)]
          exact fin _ _ (fun b => by rw [hm b, if_pos h1])
        · split
          · rename_i h1 h2
            rw [ih _ _ _ _ (by omega)]
            exact fin _ _ (fun b => by rw [hm b, if_neg h1, if_pos h2])
          · rename_i h1 h2
            rw [ih _ _ _ _ (by omega)]
            have := fin .pos _ (fun b => by rw [hm b, if_neg h1, if_neg h2])
            simpa using this
      · rename_i hp0
        simp only [ne_eq, not_not] at hp0
        subst hp0
        rw [ih _ _ _ _ (by omega), emit_zero, ← hq, emit_op]
        rfl

/-- Simplification keeps the operator. -/
theorem simplify_act (w : List Nat) (g : Sign) : SameOperator (simplify w g).2 (simplify w g).1 g w := by
  intro b
  unfold simplify
  have hs : ∀ b, actS g (stableSort (· / 3) w) b = actS g w b := fun b => by simp [actS, act_sort]
  rw [← hs]
  split
  · rename_i h; rw [h]
  · rename_i o os h
    rw [loop_act _ _ _ _ _ (by omega), emit_op, h]
    rfl

theorem emit_mem {q p o : Nat} (hp : p < 4) (h : o ∈ emit q p) : o / 3 = q := by
  unfold emit at h
  split at h
  · simp at h; omega
  · simp at h

theorem loop_mem (os : List Nat) : ∀ (party pauli : Nat) (sign : Sign), pauli < 4 →
    (∀ o ∈ os, party ≤ o / 3) → os.Pairwise (fun a b => a / 3 ≤ b / 3) →
    (loop party pauli sign os).1.Pairwise (fun a b => a / 3 < b / 3) ∧
    (∀ x ∈ (loop party pauli sign os).1, x / 3 = party ∨ ∃ o ∈ os, o / 3 = x / 3) ∧
    (loop party pauli sign os).1.length ≤ os.length + 1 := by
  induction os with
  | nil =>
    intro party pauli sign hp _ _
    simp only [loop]
    refine ⟨?_, ?_, ?_⟩
    · unfold emit; split <;> simp
    · intro x hx; exact Or.inl (emit_mem hp hx)
    · unfold emit; split <;> simp
  | cons o os ih =>
    intro party pauli sign hp hle hs
    have hs' := List.pairwise_cons.mp hs
    have hgo : ∀ p s, p < 4 → (o / 3 = party) →
        (loop party p s os).1.Pairwise (fun a b => a / 3 < b / 3) ∧
        (∀ x ∈ (loop party p s os).1, x / 3 = party ∨ ∃ o' ∈ o :: os, o' / 3 = x / 3) ∧
        (loop party p s os).1.length ≤ (o :: os).length + 1 := by
      intro p s h1 h2
      have := ih party p s h1 (fun x hx => hle x (by simp [hx])) hs'.2
      refine ⟨this.1, ?_, ?_⟩
      · intro x hx
        rcases this.2.1 x hx with h | ⟨y, hy, h⟩
        · exact Or.inl h
        · exact Or.inr ⟨y, by simp [hy], h⟩
      · have := this.2.2
        simp only [List.length_cons]; omega
    simp only [loop]
    split
    · rename_i hne
      have h := ih (o / 3) (1 + o % 3) sign (by omega) (fun x hx => hs'.1 x hx) hs'.2
      have hlt : party < o / 3 := lt_of_le_of_ne (hle o (by simp)) (Ne.symm hne)
      refine ⟨?_, ?_, ?_⟩
      · rw [List.pairwise_append]
        refine ⟨by unfold emit; split <;> simp, h.1, ?_⟩
        intro x hx y hy
        rw [emit_mem hp hx]
        rcases h.2.1 y hy with h' | ⟨z, hz, h'⟩
        · omega
        · have := hs'.1 z hz; omega
      · intro x hx
        rcases List.mem_append.mp hx with hx | hx
        · exact Or.inl (emit_mem hp hx)
        · rcases h.2.1 x hx with h' | ⟨z, hz, h'⟩
          · exact Or.inr ⟨o, by simp, h'.symm⟩
          · exact Or.inr ⟨z, by simp [hz], h'⟩
      · have := h.2.2
        rw [List.length_append, List.length_cons]
        have : (emit party pauli).length ≤ 1 := by unfold emit; split <;> simp
        omega
    · rename_i hq
      simp only [ne_eq, not_not] at hq
      have hb := mulWithId_bound pauli (1 + o % 3) hp (by omega)
      split
      · split
        · exact hgo _ _ (by omega) hq
        · split
          · exact hgo _ _ (by omega) hq
          · exact hgo _ _ (by omega) hq
      · exact hgo _ _ (by omega) hq

theorem simplify_normal (w : List Nat) (g : Sign) : Normal (simplify w g).1 ∧
    (∀ x ∈ (simplify w g).1, ∃ o ∈ w, o / 3 = x / 3) ∧ (simplify w g).1.length ≤ w.length := by
  have hs := sort_sorted (· / 3) w
  have hp := sort_perm (· / 3) w
  unfold simplify Normal
  split
  · simp
  · rename_i o os h
    rw [h] at hs hp
    have hs' := List.pairwise_cons.mp hs
    have := loop_mem os (o / 3) (1 + o % 3) g (by omega) hs'.1 hs'.2
    refine ⟨this.1, ?_, ?_⟩
    · intro x hx
      rcases this.2.1 x hx with h' | ⟨y, hy, h'⟩
      · exact ⟨o, hp.mem_iff.mp (by simp), h'.symm⟩
      · exact ⟨y, hp.mem_iff.mp (by simp [hy]), h'⟩
    · rw [← hp.length_eq]; exact this.2.2

/-! ### Reading a normal word off its action -/

/-- Does the operator flip qubit `q`? -/
def xpar : List Nat → Nat → Bool
  | [], _ => false
  | o :: w, q => (decide (o / 3 = q ∧ o % 3 ≠ 2)) ^^ xpar w q

/-- Does the operator's sign depend on qubit `q`? -/
def zpar : List Nat → Nat → Bool
  | [], _ => false
  | o :: w, q => (decide (o / 3 = q ∧ o % 3 ≠ 0)) ^^ zpar w q

theorem act_bits (w : List Nat) (b : Bits) (q : Nat) : (act w b).2 q = (b q ^^ xpar w q) := by
  induction w generalizing b with
  | nil => simp [act, xpar]
  | cons o w ih =>
    rw [act_cons]
    simp only [xpar, act1]
    have h3 : o % 3 = 0 ∨ o % 3 = 1 ∨ o % 3 = 2 := by omega
    by_cases hq : q = o / 3
    · subst hq
      rcases h3 with h | h | h <;> simp [h, flip, ih]
    · have hq' : ¬ (o / 3 = q) := fun h => hq h.symm
      rcases h3 with h | h | h <;> simp [h, flip, ih, hq, hq']

/-- The sign of `(-1)^x`. -/
def sgn (x : Bool) : Sign := if x then .neg else 1

theorem sgn_xor (x y : Bool) : sgn (x ^^ y) = sgn x * sgn y := by cases x <;> cases y <;> rfl

theorem act1_phase (o : Nat) (b : Bits) (q : Nat) :
    (act1 o (flip q b)).1 = (act1 o b).1 * sgn (decide (o / 3 = q ∧ o % 3 ≠ 0)) ∧
    (act1 o (flip q b)).2 = flip q (act1 o b).2 := by
  have h3 : o % 3 = 0 ∨ o % 3 = 1 ∨ o % 3 = 2 := by omega
  by_cases hq : o / 3 = q
  · subst hq
    rcases h3 with h | h | h <;> simp [act1, h, flip_self, sgn] <;> cases b (o / 3) <;> rfl
  · rcases h3 with h | h | h <;> simp [act1, h, flip_ne _ _ hq, sgn, hq, flip_comm q]

theorem act_flip_bits (w : List Nat) (b : Bits) (q : Nat) : (act w (flip q b)).2 = flip q (act w b).2 := by
  funext k
  rw [act_bits]
  unfold flip
  rw [act_bits]
  split <;> simp

theorem act_flip (w : List Nat) (b : Bits) (q : Nat) :
    (act w (flip q b)).1 = (act w b).1 * sgn (zpar w q) := by
  induction w generalizing b with
  | nil => simp [act, zpar, sgn]
  | cons o w ih =>
    rw [act_cons, act_cons]
    simp only [zpar, ih, act_flip_bits, sgn_xor, (act1_phase o _ q).1]
    rw [mul_mul_mul_comm]

theorem xpar_absent (w : List Nat) (q : Nat) (h : ∀ o ∈ w, o / 3 ≠ q) : xpar w q = false ∧ zpar w q = false := by
  induction w with
  | nil => simp [xpar, zpar]
  | cons o w ih =>
    have := ih (fun x hx => h x (by simp [hx]))
    have h0 := h o (by simp)
    simp [xpar, zpar, this, h0]

theorem par_normal (w : List Nat) (hw : Normal w) (o : Nat) :
    o ∈ w ↔ xpar w (o / 3) = decide (o % 3 ≠ 2) ∧ zpar w (o / 3) = decide (o % 3 ≠ 0) := by
  induction w with
  | nil =>
    simp [xpar, zpar]
    intro h; omega
  | cons p w ih =>
    have hw' := List.pairwise_cons.mp hw
    by_cases hq : p / 3 = o / 3
    · have hab := xpar_absent w (o / 3) (fun x hx => by have := hw'.1 x hx; omega)
      have hnot : o ∉ w := fun hx => by have := hw'.1 o hx; omega
      simp only [List.mem_cons, hnot, or_false, xpar, zpar, hq, true_and, hab, Bool.xor_false, decide_eq_decide]
      constructor
      · rintro rfl; simp
      · intro h; omega
    · have hne : o ≠ p := fun h => hq (by rw [h])
      simp only [List.mem_cons, hne, false_or, xpar, zpar, hq, false_and, decide_false, Bool.false_xor]
      exact ih hw'.2

theorem xpar_of_act (v w : List Nat) (g h : Sign) (hvw : SameOperator g v h w) (q : Nat) : xpar v q = xpar w q := by
  have := congrArg (fun x => x.2 q) (hvw (fun _ => false))
  simpa [actS, act_bits] using this

theorem sgn_inj {x y : Bool} (h : sgn x = sgn y) : x = y := by
  revert h; cases x <;> cases y <;> simp [sgn]

theorem zpar_of_act (v w : List Nat) (g h : Sign) (hvw : SameOperator g v h w) (q : Nat) : zpar v q = zpar w q := by
  have h0 := congrArg Prod.fst (hvw (fun _ => false))
  have h1 := congrArg Prod.fst (hvw (flip q (fun _ => false)))
  simp only [actS, act_flip, Sign.mul_eq] at h0 h1
  rw [← mul_assoc, ← mul_assoc, h0] at h1
  exact sgn_inj (mul_left_cancel h1)

theorem normal_unique (v w : List Nat) (g h : Sign) (hv : Normal v) (hw : Normal w) (hvw : SameOperator g v h w) :
    g = h ∧ v = w := by
  have hmem : ∀ o, o ∈ v ↔ o ∈ w := by
    intro o
    rw [par_normal v hv, par_normal w hw, xpar_of_act v w g h hvw, zpar_of_act v w g h hvw]
  have key : v = w := by
    clear hvw
    induction v generalizing w with
    | nil =>
      cases w with
      | nil => rfl
      | cons o w => exact absurd ((hmem o).mpr (by simp)) (by simp)
    | cons o v ih =>
      cases w with
      | nil => exact absurd ((hmem o).mp (by simp)) (by simp)
      | cons p w =>
        have hv' := List.pairwise_cons.mp hv
        have hw' := List.pairwise_cons.mp hw
        have hop : o = p := by
          rcases List.mem_cons.mp ((hmem o).mp (by simp)) with h | h
          · exact h
          · rcases List.mem_cons.mp ((hmem p).mpr (by simp)) with h' | h'
            · exact h'.symm
            · have := hw'.1 o h; have := hv'.1 p h'; omega
        subst hop
        congr 1
        apply ih w hv'.2 hw'.2
        intro x
        have hx := hmem x
        simp only [List.mem_cons] at hx
        constructor
        · intro h
          rcases hx.mp (Or.inr h) with rfl | h'
          · have := hv'.1 x h; omega
          · exact h'
        · intro h
          rcases hx.mpr (Or.inr h) with rfl | h'
          · have := hw'.1 x h; omega
          · exact h'
  subst key
  refine ⟨?_, rfl⟩
  have := congrArg Prod.fst (hvw (fun _ => false))
  simp only [actS, Sign.mul_eq] at this
  exact mul_right_cancel this

/-! ### The merge product -/

theorem sameOp_cons (o : Nat) {g h : Sign} {v w : List Nat} (H : SameOperator g v h w) :
    SameOperator g (o :: v) h (o :: w) := by
  intro b
  have hb := H b
  simp only [actS, Prod.mk.injEq, Sign.mul_eq] at hb ⊢
  rw [act_cons, act_cons, hb.2]
  refine ⟨?_, rfl⟩
  rw [mul_left_comm, hb.1, mul_left_comm]

theorem act_move (u : List Nat) (r : Nat) (w : List Nat) (h : ∀ x ∈ u, x / 3 ≠ r / 3) (b : Bits) :
    act (u ++ r :: w) b = act (r :: (u ++ w)) b := by
  induction u generalizing b with
  | nil => rfl
  | cons x u ih =>
    rw [List.cons_append, act_cons, ih (fun y hy => h y (by simp [hy])), ← act_cons, act_swap x r (h x (by simp)), List.cons_append]

theorem mulPauli_eq (l r : Nat) : mulPauli l r = mulWithId (l + 1) (r + 1) := rfl

theorem mergeLoop_act (ls rs : List Nat) (sign : Sign) (hl : Normal ls) (hr : Normal rs) :
    SameOperator (mergeLoop ls rs sign).2 (mergeLoop ls rs sign).1 sign (ls ++ rs) := by
  fun_induction mergeLoop ls rs sign with
  | case1 rs sign => intro b; rfl
  | case2 ls sign h => intro b; simp
  | case3 l ls r rs sign h x ih => exact sameOp_cons l (ih (List.pairwise_cons.mp hl).2 hr)
  | case4 l ls r rs sign h1 h2 x ih =>
    have hl' := List.pairwise_cons.mp hl
    intro b
    rw [sameOp_cons r (ih hl (List.pairwise_cons.mp hr).2) b]
    unfold actS
    rw [act_move (l :: ls) r rs]
    intro y hy
    rcases List.mem_cons.mp hy with rfl | hy
    · omega
    · have := hl'.1 y hy; omega
  | case5 l ls r rs sign h1 h2 m hm x ih => 
    have hl' := List.pairwise_cons.mp hl
    have hr' := List.pairwise_cons.mp hr
    have hq : l / 3 = r / 3 := by omega
    intro b
    rw [sameOp_cons _ (ih hl'.2 hr'.2) b]
    have hmul := act_pauli_mul (l / 3) (l % 3 + 1) (r % 3 + 1) (by omega) (by omega) (by omega) (by omega)
    rw [← mulPauli_eq] at hmul
    have hb := mulWithId_bound (l % 3 + 1) (r % 3 + 1) (by omega) (by omega)
    rw [← mulPauli_eq] at hb
    change -4 < m ∧ m < 4 at hb
    simp only [show mulPauli (l % 3) (r % 3) = m from rfl, if_pos hm] at hmul
    rw [show l / 3 * 3 + (l % 3 + 1) - 1 = l by omega, show l / 3 * 3 + (r % 3 + 1) - 1 = r by omega,
      emit_pos _ _ (by omega), show l / 3 * 3 + m.toNat - 1 = 3 * (l / 3) + (m - 1).toNat by omega] at hmul
    have e : ∀ b, act (l :: ls ++ r :: rs) b = act ([l, r] ++ (ls ++ rs)) b := by
      intro b
      rw [List.cons_append, act_cons, act_move ls r rs (fun y hy => by have := hl'.1 y hy; omega), ← act_cons]
      rfl
    unfold actS at hmul ⊢
    rw [e, act_append, hmul]
    rw [show ∀ (a : Nat) (t : List Nat), a :: t = [a] ++ t from fun _ _ => rfl, act_append]
    simp [mul_assoc]
  | case6 l ls r rs sign h1 h2 m hm hm2 x ih =>
    have hl' := List.pairwise_cons.mp hl
    have hr' := List.pairwise_cons.mp hr
    have hq : l / 3 = r / 3 := by omega
    intro b
    rw [sameOp_cons _ (ih hl'.2 hr'.2) b]
    have hmul := act_pauli_mul (l / 3) (l % 3 + 1) (r % 3 + 1) (by omega) (by omega) (by omega) (by omega)
    rw [← mulPauli_eq] at hmul
    have hb := mulWithId_bound (l % 3 + 1) (r % 3 + 1) (by omega) (by omega)
    rw [← mulPauli_eq] at hb
    change -4 < m ∧ m < 4 at hb
    simp only [show mulPauli (l % 3) (r % 3) = m from rfl, if_neg hm, if_pos hm2] at hmul
    rw [show l / 3 * 3 + (l % 3 + 1) - 1 = l by omega, show l / 3 * 3 + (r % 3 + 1) - 1 = r by omega,
      emit_pos _ _ (by omega), show l / 3 * 3 + (-m).toNat - 1 = 3 * (l / 3) + (-m - 1).toNat by omega] at hmul
    have e : ∀ b, act (l :: ls ++ r :: rs) b = act ([l, r] ++ (ls ++ rs)) b := by
      intro b
      rw [List.cons_append, act_cons, act_move ls r rs (fun y hy => by have := hl'.1 y hy; omega), ← act_cons]
      rfl
    unfold actS at hmul ⊢
    rw [e, act_append, hmul]
    rw [show ∀ (a : Nat) (t : List Nat), a :: t = [a] ++ t from fun _ _ => rfl, act_append]
    simp [mul_assoc]
  | case7 l ls r rs sign h1 h2 m hm hm2 ih =>
    have hl' := List.pairwise_cons.mp hl
    have hr' := List.pairwise_cons.mp hr
    have hq : l / 3 = r / 3 := by omega
    intro b
    rw [ih hl'.2 hr'.2 b]
    have hmul := act_pauli_mul (l / 3) (l % 3 + 1) (r % 3 + 1) (by omega) (by omega) (by omega) (by omega)
    rw [← mulPauli_eq] at hmul
    simp only [show mulPauli (l % 3) (r % 3) = m from rfl, if_neg hm, if_neg hm2] at hmul
    have hm0 : m.toNat = 0 := by omega
    rw [show l / 3 * 3 + (l % 3 + 1) - 1 = l by omega, show l / 3 * 3 + (r % 3 + 1) - 1 = r by omega, hm0, emit_zero] at hmul
    have e : ∀ b, act (l :: ls ++ r :: rs) b = act ([l, r] ++ (ls ++ rs)) b := by
      intro b
      rw [List.cons_append, act_cons, act_move ls r rs (fun y hy => by have := hl'.1 y hy; omega), ← act_cons]
      rfl
    unfold actS at hmul ⊢
    rw [e, act_append [l, r], hmul]
    simp [act]

theorem mergeLoop_normal (ls rs : List Nat) (sign : Sign) (hl : Normal ls) (hr : Normal rs) :
    Normal (mergeLoop ls rs sign).1 ∧ ∀ x ∈ (mergeLoop ls rs sign).1, ∃ o ∈ ls ++ rs, o / 3 = x / 3 := by
  fun_induction mergeLoop ls rs sign with
  | case1 rs sign => exact ⟨hr, fun x hx => ⟨x, by simpa using hx, rfl⟩⟩
  | case2 ls sign h => exact ⟨hl, fun x hx => ⟨x, by simpa using hx, rfl⟩⟩
  | case3 l ls r rs sign h x ih =>
    have hl' := List.pairwise_cons.mp hl
    have hr' := List.pairwise_cons.mp hr
    obtain ⟨i1, i2⟩ := ih hl'.2 hr
    refine ⟨List.pairwise_cons.mpr ⟨?_, i1⟩, ?_⟩
    · intro y hy
      obtain ⟨o, ho, hoy⟩ := i2 y hy
      rcases List.mem_append.mp ho with h' | h'
      · have := hl'.1 o h'; omega
      · rcases List.mem_cons.mp h' with rfl | h''
        · omega
        · have := hr'.1 o h''; omega
    · intro y hy
      rcases List.mem_cons.mp hy with rfl | hy
      · exact ⟨y, by simp, rfl⟩
      · obtain ⟨o, ho, hoy⟩ := i2 y hy
        exact ⟨o, by simp at ho ⊢; tauto, hoy⟩
  | case4 l ls r rs sign h1 h2 x ih =>
    have hl' := List.pairwise_cons.mp hl
    have hr' := List.pairwise_cons.mp hr
    obtain ⟨i1, i2⟩ := ih hl hr'.2
    refine ⟨List.pairwise_cons.mpr ⟨?_, i1⟩, ?_⟩
    · intro y hy
      obtain ⟨o, ho, hoy⟩ := i2 y hy
      rcases List.mem_append.mp ho with h' | h'
      · rcases List.mem_cons.mp h' with rfl | h''
        · omega
        · have := hl'.1 o h''; omega
      · have := hr'.1 o h'; omega
    · intro y hy
      rcases List.mem_cons.mp hy with rfl | hy
      · exact ⟨y, by simp, rfl⟩
      · obtain ⟨o, ho, hoy⟩ := i2 y hy
        exact ⟨o, by simp at ho ⊢; tauto, hoy⟩
  | case5 l ls r rs sign h1 h2 m hm x ih => 
    have hl' := List.pairwise_cons.mp hl
    have hr' := List.pairwise_cons.mp hr
    obtain ⟨i1, i2⟩ := ih hl'.2 hr'.2
    have hb := mulWithId_bound (l % 3 + 1) (r % 3 + 1) (by omega) (by omega)
    rw [← mulPauli_eq] at hb
    change -4 < m ∧ m < 4 at hb
    refine ⟨List.pairwise_cons.mpr ⟨?_, i1⟩, ?_⟩
    · intro y hy
      obtain ⟨o, ho, hoy⟩ := i2 y hy
      rcases List.mem_append.mp ho with h' | h'
      · have := hl'.1 o h'; omega
      · have := hr'.1 o h'; omega
    · intro y hy
      rcases List.mem_cons.mp hy with rfl | hy
      · exact ⟨l, by simp, by omega⟩
      · obtain ⟨o, ho, hoy⟩ := i2 y hy
        exact ⟨o, by simp at ho ⊢; tauto, hoy⟩
  | case6 l ls r rs sign h1 h2 m hm hm2 x ih =>
    have hl' := List.pairwise_cons.mp hl
    have hr' := List.pairwise_cons.mp hr
    obtain ⟨i1, i2⟩ := ih hl'.2 hr'.2
    have hb := mulWithId_bound (l % 3 + 1) (r % 3 + 1) (by omega) (by omega)
    rw [← mulPauli_eq] at hb
    change -4 < m ∧ m < 4 at hb
    refine ⟨List.pairwise_cons.mpr ⟨?_, i1⟩, ?_⟩
    · intro y hy
      obtain ⟨o, ho, hoy⟩ := i2 y hy
      rcases List.mem_append.mp ho with h' | h'
      · have := hl'.1 o h'; omega
      · have := hr'.1 o h'; omega
    · intro y hy
      rcases List.mem_cons.mp hy with rfl | hy
      · exact ⟨l, by simp, by omega⟩
      · obtain ⟨o, ho, hoy⟩ := i2 y hy
        exact ⟨o, by simp at ho ⊢; tauto, hoy⟩
  | case7 l ls r rs sign h1 h2 m hm hm2 ih =>
    have hl' := List.pairwise_cons.mp hl
    have hr' := List.pairwise_cons.mp hr
    obtain ⟨i1, i2⟩ := ih hl'.2 hr'.2
    refine ⟨i1, ?_⟩
    intro y hy
    obtain ⟨o, ho, hoy⟩ := i2 y hy
    exact ⟨o, by simp at ho ⊢; tauto, hoy⟩

/-! ### Squares and commutation -/

theorem act_square_single (o : Nat) (b : Bits) : act [o, o] b = (1, b) := by
  have h3 : o % 3 = 0 ∨ o % 3 = 1 ∨ o % 3 = 2 := by omega
  rcases h3 with h | h | h <;> simp [act, act1, h, flip_flip, flip_self] <;>
    by_cases hb : b (o / 3) = true <;> simp [hb] <;> rfl

theorem normal_square (v : List Nat) (hv : Normal v) (b : Bits) : act (v ++ v) b = (1, b) := by
  induction v generalizing b with
  | nil => simp [act]
  | cons o v ih =>
    have hv' := List.pairwise_cons.mp hv
    have e : act ((o :: v) ++ (o :: v)) b = act ([o, o] ++ (v ++ v)) b := by
      rw [List.cons_append, act_cons, act_move v o v (fun x hx => by have := hv'.1 x hx; omega), ← act_cons]
      rfl
    rw [e, act_append, ih hv'.2, act_square_single]
    simp

theorem act_cancel (u v w : List Nat) (hv : ∀ b, act v b = (1, b)) (b : Bits) : act (u ++ v ++ w) b = act (u ++ w) b := by
  rw [List.append_assoc, act_append, act_append v w, act_append u w, hv]
  simp

/-- If the product of two normal words is `i^k u` with `u` normal, exchanging them multiplies by `i^(2k)`. -/
theorem exchange (v w u : List Nat) (k : Sign) (hv : Normal v) (hw : Normal w) (hu : Normal u)
    (h : SameOperator 1 (v ++ w) k u) (b : Bits) : act (v ++ w) b = actS (k * k) (w ++ v) b := by
  have h1 : ∀ b, act (v ++ w) b = (k * (act u b).1, (act u b).2) := by
    intro b; have := h b; simpa [actS] using this
  have hsq : ∀ b, act ((v ++ w) ++ (v ++ w)) b = (k * k, b) := by
    intro b
    have hu2 := normal_square u hu b
    rw [act_append, Prod.mk.injEq] at hu2
    rw [act_append, h1, h1]
    simp only [Prod.mk.injEq]
    refine ⟨?_, hu2.2⟩
    rw [mul_mul_mul_comm, hu2.1, mul_one]
  have e1 : act ((w ++ v) ++ ((v ++ w) ++ (v ++ w))) b = act (v ++ w) b := by
    have a1 := act_cancel w (v ++ v) (w ++ (v ++ w)) (normal_square v hv) b
    have a2 := act_cancel [] (w ++ w) (v ++ w) (normal_square w hw) b
    simp only [List.append_assoc, List.nil_append] at a1 a2 ⊢
    rw [a1, a2]
  rw [← e1, act_append, hsq]
  simp [actS, mul_comm]

theorem normal_length (n : Nat) (w : List Nat) (hw : Normal w) (hr : ∀ o ∈ w, o < n * 3) : w.length ≤ n := by
  have h1 : (w.map (· / 3)).Nodup := by
    rw [List.nodup_iff_pairwise_ne, List.pairwise_map]
    exact hw.imp (fun h => by omega)
  have h2 : (w.map (· / 3)) ⊆ List.range n := by
    intro x hx
    obtain ⟨o, ho, rfl⟩ := List.mem_map.mp hx
    have := hr o ho
    simp; omega
  have := (h1.subperm h2).length_le
  simpa using this

end Moment.Pauli
