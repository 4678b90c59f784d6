import Verif.Model.Multipartition
import Verif.Proof.Combinations

namespace Moment.Multipart

theorem le_sum_mem {x : Nat} {l : List Nat} (h : x ∈ l) : x ≤ l.sum := by
  induction l with
  | nil => simp at h
  | cons a l ih =>
    rw [List.sum_cons]
    rcases List.mem_cons.mp h with rfl | h
    · omega
    · have := ih h; omega

theorem sum_zeros (n : Nat) : (List.replicate n 0).sum = 0 := by simp

/-- Cumulative sums are right (reversed cells). -/
def Good : List (Nat × Nat) → Prop
  | [] => True
  | (c, s) :: rest => s = c + (rest.map Prod.fst).sum ∧ Good rest

/-- Compositions of `sum` into `parties` parts. -/
def Compositions (sum parties : Nat) : Set (List Nat) := {v | v.length = parties ∧ v.sum = sum}

theorem compositions_finite (sum parties : Nat) : (Compositions sum parties).Finite := by
  refine (finite_words parties (sum + 1)).subset ?_
  rintro v ⟨h1, h2⟩
  exact ⟨h1, fun x hx => by have := le_sum_mem hx; omega⟩

/-! ## Forward -/

/-- One forward step on the reversed free part. -/
def incF (sum : Nat) : List Nat → Option (List Nat)
  | [] => none
  | x :: rest => if x + rest.sum + 1 > sum then (incF sum rest).map (0 :: ·) else some ((x + 1) :: rest)

theorem incF_length (sum : Nat) : ∀ l r, incF sum l = some r → r.length = l.length
  | [], r, h => by simp [incF] at h
  | x :: rest, r, h => by
    rw [incF] at h
    split at h
    · rw [Option.map_eq_some_iff] at h
      obtain ⟨r', h', rfl⟩ := h
      simp [incF_length sum rest r' h']
    · cases h; simp

theorem incF_spec (sum : Nat) : ∀ l : List Nat, l.sum ≤ sum →
    (incF sum l = none → ∀ w : List Nat, w.length = l.length → w.sum ≤ sum → ¬ Colex l w) ∧
    (∀ r, incF sum l = some r → r.sum ≤ sum ∧ Colex l r ∧
      ∀ w : List Nat, w.length = l.length → w.sum ≤ sum → Colex l w → w = r ∨ Colex r w)
  | [], _ => ⟨fun _ w hw _ => not_colex_nil hw, fun r h => by simp [incF] at h⟩
  | x :: rest, hv => by
    rw [List.sum_cons] at hv
    obtain ⟨ih1, ih2⟩ := incF_spec sum rest (by omega)
    rw [incF]
    by_cases h : x + rest.sum + 1 > sum
    · rw [if_pos h]
      constructor
      · intro hn w hw hvw
        rw [Option.map_eq_none_iff] at hn
        match w, hw with
        | a :: v, hw =>
          have hl : v.length = rest.length := by simpa using hw
          rw [List.sum_cons] at hvw
          rw [colex_cons hl.symm]
          rintro (h' | ⟨h1, h'⟩)
          · exact ih1 hn v hl (by omega) h'
          · subst h1; omega
      · intro r hr
        rw [Option.map_eq_some_iff] at hr
        obtain ⟨r', hr', rfl⟩ := hr
        obtain ⟨i1, i2, i3⟩ := ih2 r' hr'
        have hlr := incF_length sum _ _ hr'
        refine ⟨by simpa using i1, ?_, ?_⟩
        · rw [colex_cons hlr.symm]; exact Or.inl i2
        · intro w hw hvw hc
          match w, hw with
          | a :: v, hw =>
            have hl : v.length = rest.length := by simpa using hw
            rw [List.sum_cons] at hvw
            rw [colex_cons hl.symm] at hc
            rw [colex_cons (by rw [hlr, hl])]
            rcases hc with h' | ⟨h1, h'⟩
            · rcases i3 v hl (by omega) h' with h2 | h2
              · subst h2
                rcases Nat.eq_zero_or_pos a with h3 | h3
                · left; rw [h3]
                · right; exact Or.inr ⟨rfl, h3⟩
              · right; exact Or.inl h2
            · subst h1; omega
    · rw [if_neg h]
      refine ⟨by simp, ?_⟩
      intro r hr
      cases hr
      refine ⟨by rw [List.sum_cons]; omega, ?_, ?_⟩
      · rw [colex_cons rfl]; exact Or.inr ⟨rfl, by omega⟩
      · intro w hw hvw hc
        match w, hw with
        | a :: v, hw =>
          have hl : v.length = rest.length := by simpa using hw
          rw [colex_cons hl.symm] at hc ⊢
          rcases hc with h' | ⟨h1, h'⟩
          · exact Or.inr (Or.inl h')
          · subst h1
            rcases Nat.eq_or_lt_of_le (show x + 1 ≤ a from h') with h2 | h2
            · left; rw [h2]
            · right; exact Or.inr ⟨rfl, h2⟩

theorem Good.tail {p : Nat × Nat} {l : List (Nat × Nat)} (h : Good (p :: l)) : Good l := h.2

theorem climb_spec (sum : Nat) : ∀ l : List (Nat × Nat), Good l →
    match climb sum l with
    | none => incF sum (l.map Prod.fst) = none
    | some (_, []) => False
    | some (n, (c, _) :: rest) => Good rest ∧ incF sum (l.map Prod.fst) = some (List.replicate n 0 ++ c :: rest.map Prod.fst) ∧
        n + 1 + rest.length = l.length
  | [], _ => by simp [climb, incF]
  | (c, s) :: rest, h => by
    have ih := climb_spec sum rest h.2
    rw [climb, List.map_cons, incF, ← h.1]
    by_cases hs : s + 1 > sum
    · rw [if_pos hs, if_pos hs]
      match hc : climb sum rest with
      | none => rw [hc] at ih; simp only at ih ⊢; rw [ih]; rfl
      | some (_, []) => rw [hc] at ih; exact ih.elim
      | some (n, (c', s') :: rest') =>
        rw [hc] at ih
        simp only [Option.map_some] at ih ⊢
        refine ⟨ih.1, ?_, ?_⟩
        · rw [ih.2.1]; simp [List.replicate_succ]
        · simp only [List.length_cons]; omega
    · rw [if_neg hs, if_neg hs]
      exact ⟨h.2, by simp, by simp; omega⟩

theorem recum_fst : ∀ (l : List Nat) (p : Nat), (recum p l).map Prod.fst = l
  | [], _ => rfl
  | c :: cs, p => by simp [recum, recum_fst cs]

theorem good_append : ∀ (l : List Nat) (p : List (Nat × Nat)), Good p →
    Good ((recum (p.map Prod.fst).sum l).reverse ++ p)
  | [], p, h => h
  | c :: cs, p, h => by
    have := good_append cs ((c, (p.map Prod.fst).sum + c) :: p) ⟨by omega, h⟩
    simp only [recum, List.reverse_cons, List.append_assoc, List.singleton_append]
    rw [List.map_cons, List.sum_cons, Nat.add_comm c] at this
    exact this

theorem good_head {l : List (Nat × Nat)} (h : Good l) : (l.headD (0, 0)).2 = (l.map Prod.fst).sum := by
  cases l with
  | nil => rfl
  | cons p l => simp only [List.headD_cons, List.map_cons, List.sum_cons]; exact h.1

theorem lex_append_iff {u v : List Nat} (hl : u.length = v.length) (sum : Nat) :
    List.Lex (· < ·) (u ++ [sum - u.sum]) (v ++ [sum - v.sum]) ↔ List.Lex (· < ·) u v := by
  rw [lex_snoc hl]
  constructor
  · rintro (h | ⟨h1, h2⟩)
    · exact h
    · subst h1; omega
  · exact Or.inl

/-- Invariant of forward states. -/
def InvF (sum parties : Nat) (s : State) : Prop :=
  ∃ u : List (Nat × Nat), ∃ z, s.cells = u ++ [(sum - (u.map Prod.fst).sum, z)] ∧ u.length + 1 = parties ∧ Good u.reverse ∧ (u.map Prod.fst).sum ≤ sum

theorem forward_run (sum parties : Nat) (hp : 0 < parties) :
    ∃ l, Yields (next false sum) atEnd value (first false sum parties) l ∧ l.Pairwise (List.Lex (· < ·)) ∧
      ∀ v, v ∈ l ↔ v ∈ Compositions sum parties := by
  have split : ∀ x ∈ Compositions sum parties, ∃ w : List Nat, x = w ++ [sum - w.sum] ∧ w.length + 1 = parties ∧ w.sum ≤ sum := by
    rintro x ⟨h1, h2⟩
    have hne : x ≠ [] := by rintro rfl; simp at h1; omega
    refine ⟨x.dropLast, ?_, by simp; omega, ?_⟩
    · have e := List.dropLast_append_getLast hne
      have : x.dropLast.sum + x.getLast hne = sum := by
        conv_rhs => rw [← h2, ← e]
        simp
      conv_lhs => rw [← e]
      congr 2; omega
    · have e := List.dropLast_append_getLast hne
      have : x.dropLast.sum + x.getLast hne = sum := by
        conv_rhs => rw [← h2, ← e]
        simp
      omega
  have hval : ∀ s, InvF sum parties s → value s ∈ Compositions sum parties := by
    rintro s ⟨u, z, h1, h2, h3, h4⟩
    unfold value Compositions
    rw [h1]
    simp only [List.map_append, List.map_cons, List.map_nil, Set.mem_ofPred_eq, List.length_append, List.length_map, List.length_cons,
      List.length_nil, List.sum_append, List.sum_cons, List.sum_nil]
    omega
  have hfirst : InvF sum parties (first false sum parties) := by
    refine ⟨List.replicate (parties - 1) (0, 0), sum, by simp [first], by simp; omega, ?_, by simp⟩
    rw [List.reverse_replicate]
    generalize parties - 1 = n
    induction n with
    | zero => trivial
    | succ n ih => rw [List.replicate_succ]; exact ⟨by simp, ih⟩
  obtain ⟨l, h1, h2, h3⟩ := Yields.of_successor (next := next false sum) (atEnd := atEnd) (value := value) (Compositions sum parties)
    (compositions_finite sum parties) (List.Lex (· < ·)) lex_trans lex_irrefl (InvF sum parties)
    (by
      intro s hI he
      have hI' := hI
      obtain ⟨u, z, e1, e2, e3, e4⟩ := hI
      have hd : s.done = false := by simpa [atEnd] using he
      have hv : value s = u.map Prod.fst ++ [sum - (u.map Prod.fst).sum] := by unfold value; rw [e1]; simp
      have hdrop : s.cells.dropLast = u := by rw [e1]; simp
      have hfree : (u.reverse.map Prod.fst).sum ≤ sum := by rw [List.map_reverse, List.sum_reverse]; exact e4
      obtain ⟨k1, k2⟩ := incF_spec sum (u.reverse.map Prod.fst) hfree
      have hc := climb_spec sum u.reverse e3
      unfold next
      simp only [Bool.false_eq_true, if_false]
      unfold incForward
      rw [hdrop]
      match hcl : climb sum u.reverse with
      | none =>
        rw [hcl] at hc
        left
        refine ⟨rfl, ?_⟩
        intro x hx hlex
        obtain ⟨w, rfl, hw1, hw2⟩ := split x hx
        rw [hv, lex_append_iff (by simp; omega)] at hlex
        refine k1 hc w.reverse (by simp; omega) (by rw [List.sum_reverse]; exact hw2) ?_
        unfold Colex; rw [List.map_reverse, List.reverse_reverse, List.reverse_reverse]; exact hlex
      | some (_, []) => rw [hcl] at hc; exact hc.elim
      | some (n, (c, s') :: rest) =>
        rw [hcl] at hc
        obtain ⟨g1, g2, g3⟩ := hc
        obtain ⟨j1, j2, j3⟩ := k2 _ g2
        right
        simp only
        rw [good_head g1]
        have hfront : ((rest.reverse ++ recum (rest.map Prod.fst).sum (c :: List.replicate n 0)).map Prod.fst) =
            (List.replicate n 0 ++ c :: rest.map Prod.fst).reverse := by
          rw [List.map_append, recum_fst]; simp
        have hgood : Good (rest.reverse ++ recum (rest.map Prod.fst).sum (c :: List.replicate n 0)).reverse := by
          rw [List.reverse_append, List.reverse_reverse]
          exact good_append _ _ g1
        generalize hfr : rest.reverse ++ recum (rest.map Prod.fst).sum (c :: List.replicate n 0) = front at hfront hgood ⊢
        have hlast : (front.getLastD (0, 0)).2 = (front.map Prod.fst).sum := by
          have := good_head hgood
          rw [List.map_reverse, List.sum_reverse] at this
          rw [← this, List.getLastD_eq_getLast?, List.getLast?_eq_head?_reverse]; simp
        have hlen : front.length + 1 = parties := by
          have := congrArg List.length hfront
          simp at this g3; omega
        have hsum : (front.map Prod.fst).sum ≤ sum := by rw [hfront, List.sum_reverse]; exact j1
        have hinv : InvF sum parties { s with cells := front ++ [(sum - (front.getLastD (0, 0)).2, (s.cells.getLastD (0, 0)).2)] } :=
          ⟨front, _, by rw [hlast], hlen, hgood, hsum⟩
        have hnv : value { s with cells := front ++ [(sum - (front.getLastD (0, 0)).2, (s.cells.getLastD (0, 0)).2)] } =
            front.map Prod.fst ++ [sum - (front.map Prod.fst).sum] := by
          unfold value; rw [hlast]; simp
        refine ⟨by simp [atEnd, hd], hinv, hval _ hinv, ?_, ?_⟩
        · rw [hnv, hv, lex_append_iff (by simp; omega), hfront]
          unfold Colex at j2
          rw [List.map_reverse, List.reverse_reverse] at j2
          exact j2
        · intro x hx hlex
          obtain ⟨w, rfl, hw1, hw2⟩ := split x hx
          rw [hv, lex_append_iff (by simp; omega)] at hlex
          rw [hnv]
          rcases j3 w.reverse (by simp; omega) (by rw [List.sum_reverse]; exact hw2)
            (by unfold Colex; rw [List.map_reverse, List.reverse_reverse, List.reverse_reverse]; exact hlex) with h | h
          · left
            have : w = front.map Prod.fst := by rw [hfront, ← h, List.reverse_reverse]
            rw [this]
          · right
            rw [lex_append_iff (by simp; omega), hfront]
            unfold Colex at h; rw [List.reverse_reverse] at h; exact h)
    (first false sum parties) hfirst (by simp [atEnd, first]) (hval _ hfirst)
  refine ⟨l, h1, h2, fun v => ?_⟩
  rw [h3]
  refine ⟨fun h => h.1, fun h => ⟨h, ?_⟩⟩
  obtain ⟨w, rfl, hw1, hw2⟩ := split v h
  have hm := TriIndex.min_word true 0 [] (by simp) (by simp)
  have hfv : value (first false sum parties) = List.replicate w.length 0 ++ [sum - (List.replicate w.length 0).sum] := by
    unfold value first
    have : parties - 1 = w.length := by omega
    simp [this]
  rw [hfv, lex_append_iff (by simp)]
  have hmin : ∀ w : List Nat, w = List.replicate w.length 0 ∨ List.Lex (· < ·) (List.replicate w.length 0) w := by
    intro w
    induction w with
    | nil => exact Or.inl rfl
    | cons a w ih =>
      rw [List.length_cons, List.replicate_succ]
      rcases Nat.eq_zero_or_pos a with h0 | h0
      · subst h0
        rcases ih with ih | ih
        · left; congr 1
        · right; exact List.Lex.cons ih
      · right; exact List.Lex.rel h0
  rcases hmin w with h' | h'
  · left; rw [← h']
  · right; exact h'

/-! ## Reverse -/

/-- Largest list below `l` (compared from the last entry) with sum at most `T`. -/
def predC (T : Nat) : List Nat → Option (List Nat)
  | [] => none
  | 0 :: rest => (predC T rest).map fun v => (T - v.sum) :: v
  | (y + 1) :: rest => some (y :: rest)

theorem predC_length (T : Nat) : ∀ l r, predC T l = some r → r.length = l.length
  | [], r, h => by simp [predC] at h
  | 0 :: rest, r, h => by
    rw [predC, Option.map_eq_some_iff] at h
    obtain ⟨r', h', rfl⟩ := h
    simp [predC_length T rest r' h']
  | (y + 1) :: rest, r, h => by rw [predC] at h; cases h; simp

theorem predC_spec (T : Nat) : ∀ l : List Nat, l.sum ≤ T →
    (predC T l = none → ∀ w : List Nat, w.length = l.length → w.sum ≤ T → ¬ Colex w l) ∧
    (∀ r, predC T l = some r → r.sum ≤ T ∧ Colex r l ∧
      ∀ w : List Nat, w.length = l.length → w.sum ≤ T → Colex w l → w = r ∨ Colex w r)
  | [], _ => ⟨fun _ w hw _ => by rw [List.length_eq_zero_iff.mp hw]; exact colex_irrefl _, fun r h => by simp [predC] at h⟩
  | 0 :: rest, hv => by
    rw [List.sum_cons] at hv
    obtain ⟨ih1, ih2⟩ := predC_spec T rest (by omega)
    rw [predC]
    constructor
    · intro hn w hw hvw
      rw [Option.map_eq_none_iff] at hn
      match w, hw with
      | a :: v, hw =>
        have hl : v.length = rest.length := by simpa using hw
        rw [List.sum_cons] at hvw
        rw [colex_cons hl]
        rintro (h' | ⟨h1, h'⟩)
        · exact ih1 hn v hl (by omega) h'
        · omega
    · intro r hr
      rw [Option.map_eq_some_iff] at hr
      obtain ⟨r', hr', rfl⟩ := hr
      obtain ⟨i1, i2, i3⟩ := ih2 r' hr'
      have hlr := predC_length T _ _ hr'
      refine ⟨by rw [List.sum_cons]; omega, ?_, ?_⟩
      · rw [colex_cons hlr]; exact Or.inl i2
      · intro w hw hvw hc
        match w, hw with
        | a :: v, hw =>
          have hl : v.length = rest.length := by simpa using hw
          rw [List.sum_cons] at hvw
          rw [colex_cons hl] at hc
          rw [colex_cons (by rw [hlr, hl])]
          rcases hc with h' | ⟨h1, h'⟩
          · rcases i3 v hl (by omega) h' with h2 | h2
            · subst h2
              rcases Nat.eq_or_lt_of_le (show a ≤ T - v.sum by omega) with h3 | h3
              · left; rw [h3]
              · right; exact Or.inr ⟨rfl, h3⟩
            · right; exact Or.inl h2
          · omega
  | (y + 1) :: rest, hv => by
    rw [List.sum_cons] at hv
    rw [predC]
    refine ⟨by simp, ?_⟩
    intro r hr
    cases hr
    refine ⟨by rw [List.sum_cons]; omega, ?_, ?_⟩
    · rw [colex_cons rfl]; exact Or.inr ⟨rfl, by omega⟩
    · intro w hw hvw hc
      match w, hw with
      | a :: v, hw =>
        have hl : v.length = rest.length := by simpa using hw
        rw [colex_cons hl] at hc ⊢
        rcases hc with h' | ⟨h1, h'⟩
        · exact Or.inr (Or.inl h')
        · subst h1
          rcases Nat.eq_or_lt_of_le (show a ≤ y by omega) with h2 | h2
          · left; rw [h2]
          · right; exact Or.inr ⟨rfl, h2⟩

theorem findNonzero_spec : ∀ l : List (Nat × Nat),
    match findNonzero l with
    | none => ∀ p ∈ l, p.1 = 0
    | some (_, []) => False
    | some (zeros, (d, ds) :: left) => l = zeros ++ (d, ds) :: left ∧ (∀ p ∈ zeros, p.1 = 0) ∧ d ≠ 0
  | [] => by simp [findNonzero]
  | (c, s) :: rest => by
    have ih := findNonzero_spec rest
    rw [findNonzero]
    by_cases h : c = 0
    · rw [if_pos h]
      match hf : findNonzero rest with
      | none => rw [hf] at ih; simp only [Option.map_none, List.mem_cons, forall_eq_or_imp]; exact ⟨h, ih⟩
      | some (_, []) => rw [hf] at ih; exact ih.elim
      | some (z, (d, ds) :: left) =>
        rw [hf] at ih
        simp only [Option.map_some, List.cons_append, List.mem_cons, forall_eq_or_imp]
        refine ⟨by rw [ih.1], ⟨h, ih.2.1⟩, ih.2.2⟩
    · rw [if_neg h]
      exact ⟨rfl, by simp, h⟩

theorem predC_zeros (T : Nat) : ∀ (k d : Nat) (rest : List Nat), d + 1 + rest.sum ≤ T →
    predC T (List.replicate (k + 1) 0 ++ (d + 1) :: rest) =
      some (List.replicate k 0 ++ (T - (d + rest.sum)) :: d :: rest)
  | 0, d, rest, h => by simp [predC]
  | k + 1, d, rest, h => by
    have ih := predC_zeros T k d rest h
    rw [List.replicate_succ, List.cons_append, predC, ih]
    simp only [Option.map_some, Option.some_inj, List.replicate_succ, List.cons_append, List.cons.injEq, and_true]
    simp only [List.sum_append, sum_zeros, List.sum_cons]
    omega

theorem predC_none (T : Nat) : ∀ k, predC T (List.replicate k 0) = none
  | 0 => rfl
  | k + 1 => by rw [List.replicate_succ, predC, predC_none T k]; rfl

/-- One reverse step on the reversed list: replace the tail by the largest smaller one, and put the remainder in front. -/
def decR (T : Nat) : List Nat → Option (List Nat)
  | [] => none
  | _ :: rest => (predC T rest).map fun v => (T - v.sum) :: v

theorem decR_spec (T : Nat) (l : List Nat) (hs : l.sum = T) :
    (decR T l = none → ∀ w : List Nat, w.length = l.length → w.sum = T → ¬ Colex w l) ∧
    (∀ r, decR T l = some r → r.length = l.length ∧ r.sum = T ∧ Colex r l ∧
      ∀ w : List Nat, w.length = l.length → w.sum = T → Colex w l → w = r ∨ Colex w r) := by
  cases l with
  | nil => exact ⟨fun _ w hw _ => by rw [List.length_eq_zero_iff.mp hw]; exact colex_irrefl _, fun r h => by simp [decR] at h⟩
  | cons x rest =>
    rw [List.sum_cons] at hs
    obtain ⟨k1, k2⟩ := predC_spec T rest (by omega)
    constructor
    · intro hn w hw hvw
      simp only [decR, Option.map_eq_none_iff] at hn
      match w, hw with
      | a :: v, hw =>
        have hl : v.length = rest.length := by simpa using hw
        rw [List.sum_cons] at hvw
        rw [colex_cons hl]
        rintro (h' | ⟨h1, h'⟩)
        · exact k1 hn v hl (by omega) h'
        · subst h1; omega
    · intro r hr
      simp only [decR, Option.map_eq_some_iff] at hr
      obtain ⟨r', hr', rfl⟩ := hr
      obtain ⟨i1, i2, i3⟩ := k2 r' hr'
      have hlr := predC_length T _ _ hr'
      refine ⟨by simp [hlr], by rw [List.sum_cons]; omega, ?_, ?_⟩
      · rw [colex_cons hlr]; exact Or.inl i2
      · intro w hw hvw hc
        match w, hw with
        | a :: v, hw =>
          have hl : v.length = rest.length := by simpa using hw
          rw [List.sum_cons] at hvw
          rw [colex_cons hl] at hc
          rw [colex_cons (by rw [hlr, hl])]
          rcases hc with h' | ⟨h1, h'⟩
          · rcases i3 v hl (by omega) h' with h2 | h2
            · left; subst h2; congr 1; omega
            · right; exact Or.inl h2
          · subst h1; omega

def InvR (sum parties : Nat) (s : State) : Prop :=
  s.cells.length = parties ∧ Good s.cells.reverse ∧ (s.cells.map Prod.fst).sum = sum

theorem fst_zeros {z : List (Nat × Nat)} (h : ∀ p ∈ z, p.1 = 0) : z.map Prod.fst = List.replicate z.length 0 := by
  rw [List.eq_replicate_iff]
  refine ⟨by simp, ?_⟩
  intro b hb
  obtain ⟨p, hp, rfl⟩ := List.mem_map.mp hb
  exact h p hp

theorem good_zeros {z l : List (Nat × Nat)} (h : Good l) (hz : ∀ p ∈ z, p.1 = 0 ∧ p.2 = (l.map Prod.fst).sum) : Good (z ++ l) := by
  induction z with
  | nil => exact h
  | cons p z ih =>
    refine ⟨?_, ih fun q hq => hz q (by simp [hq])⟩
    have hp := hz p (by simp)
    show p.2 = p.1 + ((z ++ l).map Prod.fst).sum
    have hz0 : z.map Prod.fst = List.replicate z.length 0 := fst_zeros fun q hq => (hz q (by simp [hq])).1
    rw [hp.1, hp.2, List.map_append, List.sum_append, hz0, sum_zeros]
    omega

theorem good_drop {z l : List (Nat × Nat)} (h : Good (z ++ l)) : Good l := by
  induction z with
  | nil => exact h
  | cons p z ih => exact ih h.2

theorem good_mem {z l : List (Nat × Nat)} (h : Good (z ++ l)) (hz : ∀ p ∈ z, p.1 = 0) : ∀ p ∈ z, p.2 = (l.map Prod.fst).sum := by
  induction z with
  | nil => simp
  | cons q z ih =>
    intro p hp
    rcases List.mem_cons.mp hp with rfl | hp
    · have : p.2 = p.1 + ((z ++ l).map Prod.fst).sum := h.1
      rw [this, hz _ (by simp), List.map_append, List.sum_append, fst_zeros (fun q hq => hz q (by simp [hq]))]
      simp
    · exact ih h.2 (fun q hq => hz q (by simp [hq])) p hp

theorem bumpLast_append : ∀ (z : List (Nat × Nat)) (p : Nat × Nat), bumpLast (z ++ [p]) = z ++ [(p.1 + 1, p.2)]
  | [], p => rfl
  | [q], p => rfl
  | q :: r :: z, p => by
    have := bumpLast_append (r :: z) p
    simp only [List.cons_append] at this ⊢
    rw [bumpLast, this]

theorem reverse_step (sum parties : Nat) (hp : 0 < parties) (s : State) (h : InvR sum parties s) (hd : s.done = false) :
    match decR sum (value s).reverse with
    | none => (incReverse sum s).done = true
    | some r => (incReverse sum s).done = false ∧ InvR sum parties (incReverse sum s) ∧ value (incReverse sum s) = r.reverse := by
  obtain ⟨h1, h2, h3⟩ := h
  unfold incReverse
  have hsr : (s.cells.reverse.map Prod.fst).sum = sum := by rw [List.map_reverse, List.sum_reverse]; exact h3
  have hlr : s.cells.reverse.length = parties := by simp [h1]
  have hvr : (value s).reverse = s.cells.reverse.map Prod.fst := by unfold value; rw [List.map_reverse]
  rw [hvr]
  by_cases htriv : sum = 0 ∨ s.cells.length ≤ 1
  · rw [if_pos htriv]
    have : decR sum (s.cells.reverse.map Prod.fst) = none := by
      rcases htriv with h0 | h0
      · subst h0
        have hz : ∀ p ∈ s.cells.reverse, p.1 = 0 := by
          intro p hp
          have := le_sum_mem (List.mem_map_of_mem (f := Prod.fst) hp)
          omega
        rw [fst_zeros hz]
        cases s.cells.reverse.length with
        | zero => rfl
        | succ n => rw [List.replicate_succ, decR, predC_none]; rfl
      · have : ∀ l : List Nat, l.length ≤ 1 → decR sum l = none := by
          intro l hl
          match l with
          | [] => rfl
          | [x] => rfl
        exact this _ (by simpa using h0)
    rw [this]
  · rw [if_neg htriv]
    have htriv' : sum ≠ 0 ∧ 1 < s.cells.length := ⟨fun h => htriv (Or.inl h), by
      rcases Nat.lt_or_ge 1 s.cells.length with h | h
      · exact h
      · exact absurd (Or.inr h) htriv⟩
    generalize hrev : s.cells.reverse = rc at *
    match rc, hlr with
    | [], hlr => simp at hlr; omega
    | (c, cs) :: rest, hlr =>
      simp only [List.map_cons, List.sum_cons] at hsr
      have hT := h2.1
      by_cases hc : c ≠ 0
      · simp only [hc, ne_eq, not_false_eq_true, if_true]
        have hf := findNonzero_spec rest
        match hfe : findNonzero rest with
        | none =>
          rw [hfe] at hf
          simp only [List.map_cons, decR, fst_zeros hf, predC_none, Option.map_none]
        | some (_, []) => rw [hfe] at hf; exact hf.elim
        | some (zeros, (d, ds) :: left) =>
          rw [hfe] at hf
          obtain ⟨f1, f2, f3⟩ := hf
          obtain ⟨d', rfl⟩ : ∃ d', d = d' + 1 := ⟨d - 1, by omega⟩
          have hg : Good ((d' + 1, ds) :: left) := by
            have := h2.2; rw [f1] at this; exact good_drop this
          have hds : ds = d' + 1 + (left.map Prod.fst).sum := hg.1
          have hrm : rest.map Prod.fst = List.replicate zeros.length 0 ++ (d' + 1) :: left.map Prod.fst := by
            rw [f1, List.map_append, fst_zeros f2]; rfl
          have hrs : (rest.map Prod.fst).sum = d' + 1 + (left.map Prod.fst).sum := by rw [hrm]; simp
          have hdec : decR sum (((c, cs) :: rest).map Prod.fst) =
              some (List.replicate zeros.length 0 ++ (sum - (d' + (left.map Prod.fst).sum)) :: d' :: left.map Prod.fst) := by
            rw [List.map_cons, decR, hrm]
            cases hz : zeros.length with
            | zero => simp [predC]
            | succ k =>
              rw [predC_zeros sum k d' _ (by omega)]
              simp only [Option.map_some, Option.some_inj, List.replicate_succ, List.cons_append, List.cons.injEq, and_true]
              simp only [List.sum_append, sum_zeros, List.sum_cons]
              omega
          rw [hdec]
          simp only [Nat.add_sub_cancel]
          have e : ds - 1 = d' + (left.map Prod.fst).sum := by omega
          have hnewgood : Good (List.replicate zeros.length (0, sum) ++ (sum - (ds - 1), sum) :: (d', ds - 1) :: left) := by
            have g1 : Good ((d', ds - 1) :: left) := ⟨e, hg.2⟩
            have g2 : Good ((sum - (ds - 1), sum) :: (d', ds - 1) :: left) := by
              refine ⟨?_, g1⟩
              simp only [List.map_cons, List.sum_cons]; omega
            refine good_zeros g2 ?_
            intro p hp
            rw [List.eq_of_mem_replicate hp]
            simp only [List.map_cons, List.sum_cons]
            exact ⟨trivial, by omega⟩
          refine ⟨hd, ⟨?_, ?_, ?_⟩, ?_⟩
          · have : ((c, cs) :: rest).length = parties := hlr
            rw [f1] at this
            simp at this ⊢; omega
          · simpa using hnewgood
          · rw [List.map_reverse, List.sum_reverse]
            simp only [List.map_append, List.map_replicate, List.map_cons, List.sum_append, sum_zeros, List.sum_cons]
            omega
          · unfold value
            rw [List.map_reverse]
            simp [e]
      · have hc0 : c = 0 := by simpa using hc
        simp only [hc, if_false]
        have hf := findNonzero_spec ((c, cs) :: rest)
        match hfe : findNonzero ((c, cs) :: rest) with
        | none =>
          rw [hfe] at hf
          exfalso
          have hz : ∀ p ∈ rest, p.1 = 0 := fun p hp => hf p (by simp [hp])
          rw [fst_zeros hz] at hsr
          simp at hsr; omega
        | some (_, []) => rw [hfe] at hf; exact hf.elim
        | some (zeros, (d, ds) :: left) =>
          rw [hfe] at hf
          obtain ⟨f1, f2, f3⟩ := hf
          obtain ⟨d', rfl⟩ : ∃ d', d = d' + 1 := ⟨d - 1, by omega⟩
          have hg : Good ((d' + 1, ds) :: left) := by
            have := h2; rw [f1] at this; exact good_drop this
          have hds : ds = d' + 1 + (left.map Prod.fst).sum := hg.1
          have hzcum := good_mem (l := (d' + 1, ds) :: left) (z := zeros) (by rw [← f1]; exact h2) f2
          -- zeros is not empty
          have hzne : zeros ≠ [] := by
            rintro rfl
            simp only [List.nil_append, List.cons.injEq, Prod.mk.injEq] at f1
            omega
          obtain ⟨z, q, rfl⟩ : ∃ z q, zeros = z ++ [q] := ⟨zeros.dropLast, zeros.getLast hzne, (List.dropLast_append_getLast hzne).symm⟩
          have hq := f2 q (by simp)
          have hqc := hzcum q (by simp)
          have hzz : ∀ p ∈ z, p.1 = 0 := fun p hp => f2 p (by simp [hp])
          have hall : ((c, cs) :: rest).map Prod.fst = List.replicate (z.length + 1) 0 ++ (d' + 1) :: left.map Prod.fst := by
            rw [f1, List.map_append, fst_zeros f2]; simp
          have htot : sum = d' + 1 + (left.map Prod.fst).sum := by
            have := congrArg List.sum hall
            simp at this; omega
          have hdec : decR sum (((c, cs) :: rest).map Prod.fst) =
              some (List.replicate z.length 0 ++ 1 :: d' :: left.map Prod.fst) := by
            rw [hall, List.replicate_succ, List.cons_append, decR]
            cases hz : z.length with
            | zero => simp [predC]; omega
            | succ k =>
              rw [predC_zeros sum k d' _ (by omega)]
              simp only [Option.map_some, Option.some_inj, List.replicate_succ, List.cons_append, List.cons.injEq]
              have e1 : sum - (d' + (left.map Prod.fst).sum) = 1 := by omega
              rw [e1]
              refine ⟨?_, rfl⟩
              simp only [List.sum_append, sum_zeros, List.sum_cons]
              omega
          rw [hdec]
          simp only [Nat.add_sub_cancel]
          rw [bumpLast_append]
          have e : ds - 1 = d' + (left.map Prod.fst).sum := by omega
          have hq2 : q.2 = sum := by rw [hqc]; simp; omega
          have hnewgood : Good ((z ++ [(q.1 + 1, q.2)]) ++ (d', ds - 1) :: left) := by
            have g1 : Good ((d', ds - 1) :: left) := ⟨e, hg.2⟩
            have g2 : Good ((q.1 + 1, q.2) :: (d', ds - 1) :: left) := by
              refine ⟨?_, g1⟩
              simp only [List.map_cons, List.sum_cons]; omega
            rw [List.append_assoc, List.singleton_append]
            refine good_zeros g2 ?_
            intro p hp
            refine ⟨hzz p hp, ?_⟩
            rw [hzcum p (by simp [hp])]
            simp only [List.map_cons, List.sum_cons]
            omega
          refine ⟨hd, ⟨?_, ?_, ?_⟩, ?_⟩
          · have : ((c, cs) :: rest).length = parties := hlr
            rw [f1] at this
            simp at this ⊢; omega
          · simpa using hnewgood
          · rw [List.map_reverse, List.sum_reverse]
            simp only [List.map_append, List.map_cons, List.map_nil, List.sum_append, List.sum_cons, List.sum_nil, fst_zeros hzz, sum_zeros]
            omega
          · unfold value
            rw [List.map_reverse]
            simp only [List.map_append, List.map_cons, List.map_nil, fst_zeros hzz, hq]
            simp

theorem reverse_run (sum parties : Nat) (hp : 0 < parties) :
    ∃ l, Yields (next true sum) atEnd value (first true sum parties) l ∧ l.Pairwise (fun a b => List.Lex (· < ·) b a) ∧
      ∀ v, v ∈ l ↔ v ∈ Compositions sum parties := by
  have hfirst : InvR sum parties (first true sum parties) := by
    unfold InvR first
    simp only [if_true]
    refine ⟨by simp; omega, ?_, by simp⟩
    rw [List.reverse_cons, List.reverse_replicate]
    refine good_zeros ⟨by simp, trivial⟩ ?_
    intro p hp; rw [List.eq_of_mem_replicate hp]; simp
  have hval : ∀ s, InvR sum parties s → value s ∈ Compositions sum parties := by
    rintro s ⟨h1, h2, h3⟩
    exact ⟨by unfold value; simp [h1], h3⟩
  obtain ⟨l, h1, h2, h3⟩ := Yields.of_successor (next := next true sum) (atEnd := atEnd) (value := value) (Compositions sum parties)
    (compositions_finite sum parties) (fun a b => List.Lex (· < ·) b a) (fun a b c h1 h2 => lex_trans _ _ _ h2 h1) lex_irrefl
    (InvR sum parties)
    (by
      intro s hI he
      have hd : s.done = false := by simpa [atEnd] using he
      have hst := reverse_step sum parties hp s hI hd
      have hvs := hval s hI
      obtain ⟨k1, k2⟩ := decR_spec sum (value s).reverse (by rw [List.sum_reverse]; exact hvs.2)
      have hnext : next true sum s = incReverse sum s := by simp [next]
      rw [hnext]
      cases hdec : decR sum (value s).reverse with
      | none =>
        rw [hdec] at hst
        left
        refine ⟨hst, ?_⟩
        intro x hx hlex
        exact k1 hdec x.reverse (by simp [hx.1, hvs.1]) (by rw [List.sum_reverse]; exact hx.2) (by unfold Colex; simpa using hlex)
      | some r =>
        rw [hdec] at hst
        obtain ⟨s1, s2, s3⟩ := hst
        obtain ⟨j0, j1, j2, j3⟩ := k2 r hdec
        right
        refine ⟨by unfold atEnd; rw [s1]; simp, s2, hval _ s2, ?_, ?_⟩
        · rw [s3]; unfold Colex at j2; simpa using j2
        · intro x hx hlex
          rw [s3]
          rcases j3 x.reverse (by simp [hx.1, hvs.1]) (by rw [List.sum_reverse]; exact hx.2) (by unfold Colex; simpa using hlex) with h | h
          · left; simp [← h]
          · right; unfold Colex at h; simpa using h)
    (first true sum parties) hfirst (by simp [atEnd, first]) (hval _ hfirst)
  refine ⟨l, h1, h2, fun v => ?_⟩
  rw [h3]
  refine ⟨fun h => h.1, fun h => ⟨h, ?_⟩⟩
  have hfv : value (first true sum parties) = sum :: List.replicate (parties - 1) 0 := by
    unfold value first; simp
  rw [hfv]
  obtain ⟨g1, g2⟩ := h
  cases v with
  | nil => simp at g1; omega
  | cons a v =>
    rw [List.sum_cons] at g2
    rcases Nat.eq_or_lt_of_le (show a ≤ sum by omega) with h | h
    · left
      subst h
      congr 1
      rw [List.eq_replicate_iff]
      refine ⟨by simp at g1; omega, ?_⟩
      intro b hb
      have := le_sum_mem hb
      omega
    · right; exact List.Lex.rel h

end Moment.Multipart
