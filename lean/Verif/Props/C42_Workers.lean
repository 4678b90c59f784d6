import Verif.Proof.Workers

/-! # C42: parallel symbol collection; C43, C61, C62: matrices written by several workers -/

namespace Moment.C42

open Workers

variable {V : Type} {n : Nat} {found : Nat → List (Int × V)}

/-- States that can occur. -/
def Reachable (n : Nat) (found : Nat → List (Int × V)) (s : State V) : Prop := Relation.ReflTransGen (Step n found) initial s

/-- The symbols found by each worker are an ordered map with hashes as keys. -/
def Maps (n : Nat) (found : Nat → List (Int × V)) : Prop := ∀ j < n, C44.Sorted (found j) ∧ C44.Unsigned (found j)

/-- **C42.** No worker looks for a partner that does not exist, and none takes symbols that have been taken already. -/
theorem C42_no_crash (hn : n < 2 ^ 64) (hf : Maps n found) {s : State V} (h : Reachable n found s) : s.crashed = false :=
  (reach_inv hn hf h).nocrash

/-- **C42.** While a worker merges, its partner has reached its last level and does nothing more with its symbols, and no other worker
takes the symbols of either. -/
theorem C42_no_race (hn : n < 2 ^ 64) (hf : Maps n found) {s : State V} (h : Reachable n found s) {i c : Nat} (hi : i < n) (hp : s.pc i = .merging c) :
    partner i c < n ∧ partner i c ≠ i ∧ (s.pc (partner i c) = .loop ∨ s.pc (partner i c) = .done) ∧ s.level (partner i c) = finalLevel (partner i c) ∧
    ∀ k c', k < n → k ≠ i → s.pc k = .merging c' → partner k c' ≠ partner i c ∧ partner k c' ≠ i := by
  have hI := reach_inv hn hf h
  obtain ⟨g1, g2, g3, g4, g5, g6, g7, g8, -, -⟩ := inv_merging hn hI hi hp
  refine ⟨g3, g4, g7, by rw [finalLevel_eq, g5, g8], fun k c' hk hki hkp => ?_⟩
  obtain ⟨f1, f2, f3, f4, f5, f6, f7, f8, -, -⟩ := inv_merging hn hI hk hkp
  constructor
  · intro e
    rw [e] at f6
    exact hki (f6.symm.trans g6)
  · intro e
    rw [e] at f7
    rcases f7 with e' | e' <;> rw [hp] at e' <;> simp at e'

/-- **C42.** As long as not all workers are finished, one can go on. -/
theorem C42_progress (hn : n < 2 ^ 64) (hf : Maps n found) {s : State V} (h : Reachable n found s) (hnot : ∃ i < n, s.pc i ≠ .done) : ∃ s', Step n found s s' := by
  classical
  have hI := reach_inv hn hf h
  obtain ⟨i0, hi0, hp0⟩ := hnot
  obtain ⟨i, hi, hp, hmax⟩ : ∃ i, i < n ∧ s.pc i ≠ .done ∧ ∀ j, i < j → j < n → s.pc j = .done := by
    have hne : ((Finset.range n).filter fun i => s.pc i ≠ .done).Nonempty := ⟨i0, by simp [hi0, hp0]⟩
    have hm := Finset.max'_mem _ hne
    simp only [Finset.mem_filter, Finset.mem_range] at hm
    refine ⟨_, hm.1, hm.2, fun j hj hjn => ?_⟩
    by_contra hjd
    have := Finset.le_max' _ j (by simp [hjn, hjd] : j ∈ (Finset.range n).filter fun i => s.pc i ≠ .done)
    omega
  cases e : s.pc i with
  | identify => exact ⟨_, .identify s i hi e⟩
  | found => exact ⟨_, .store s i hi e⟩
  | loop =>
    by_cases hl : s.level i ≤ finalLevel i
    · exact ⟨_, .finish s i hi e hl⟩
    · by_cases hnx : partner i (s.level i) < n
      · exact ⟨_, .next s i hi e (by omega) hnx⟩
      · exact ⟨_, .nextOut s i hi e (by omega) (by omega)⟩
  | waiting c =>
    obtain ⟨g1, g2⟩ := hI.busy i hi c (Or.inl e)
    have hlt := first_partner hi (g1 ▸ (hI.range i hi (by rw [e]; trivial)).2) g2
    have hpos : 0 < 2 ^ (c - 1) := by positivity
    have hd := hI.done _ hlt (hmax _ (by unfold partner; omega) hlt)
    rw [size_partner g2] at hd
    exact ⟨_, .ready s i c hi e hd⟩
  | merging c =>
    obtain ⟨g1, g2, g3, g4, g5, g6, g7, g8, ⟨a, ha⟩, b, hb⟩ := inv_merging hn hI hi e
    have hA := hI.holds i hi (by rw [e]; trivial) a ha
    have hB := hI.holds _ g3 (by rcases g7 with e | e <;> rw [e] <;> trivial) b hb
    obtain ⟨out, ex, ho, -⟩ := C44.C44_merge a b hA.sorted hB.sorted (fits_unsigned hA.unsigned hB.unsigned)
    exact ⟨_, .merge s i c a b out ex hi e ha hb ho⟩
  | merged c => exact ⟨_, .lower s i c hi e⟩
  | done => exact absurd e hp

/-- Steps left for one worker. -/
def rank (n : Nat) (s : State V) (i : Nat) : Nat :=
  match s.pc i with
  | .identify => 4 * firstLevel n i + 5
  | .found => 4 * firstLevel n i + 4
  | .loop => 4 * s.level i + 3
  | .waiting c => 4 * c + 2
  | .merging c => 4 * c + 1
  | .merged c => 4 * c
  | .done => 0

theorem rank_step (hn : n < 2 ^ 64) {s s' : State V} (hI : Inv n found s) (hs : Step n found s s') :
    ∃ i < n, rank n s' i < rank n s i ∧ ∀ x, x ≠ i → rank n s' x = rank n s x := by
  cases hs with
  | nextOut i hi hp hl hn' =>
    rw [finalLevel_eq] at hl
    have := first_partner hi (hI.range i hi (by rw [hp]; trivial)).2 hl
    omega
  | mergeMoved i c hi hp hm =>
    obtain ⟨-, -, -, -, -, -, -, -, ⟨d, hd⟩, d', hd'⟩ := inv_merging hn hI hi hp
    rcases hm with e | e
    · rw [hd] at e; simp at e
    · rw [hd'] at e; simp at e
  | lower i c hi hp =>
    obtain ⟨g1, g2⟩ := hI.busy i hi c (Or.inr (Or.inr hp))
    refine ⟨i, hi, ?_, fun x hx => ?_⟩
    · unfold rank; dsimp only; rw [Function.update_self, hp]; dsimp only; rw [Function.update_self]; omega
    · unfold rank; dsimp only; rw [Function.update_of_ne hx, Function.update_of_ne hx]
  | store i hi hp =>
    refine ⟨i, hi, ?_, fun x hx => ?_⟩
    · unfold rank; dsimp only; rw [Function.update_self, hp]; dsimp only; rw [Function.update_self]; omega
    · unfold rank; dsimp only; rw [Function.update_of_ne hx, Function.update_of_ne hx]
  | next i hi hp hl hn' =>
    refine ⟨i, hi, ?_, fun x hx => ?_⟩
    · unfold rank; dsimp only; rw [Function.update_self, hp]; dsimp only; omega
    · unfold rank; dsimp only; rw [Function.update_of_ne hx]
  | identify i hi hp =>
    refine ⟨i, hi, ?_, fun x hx => ?_⟩
    · unfold rank; dsimp only; rw [Function.update_self, hp]; dsimp only; omega
    · unfold rank; dsimp only; rw [Function.update_of_ne hx]
  | finish i hi hp hl =>
    refine ⟨i, hi, ?_, fun x hx => ?_⟩
    · unfold rank; dsimp only; rw [Function.update_self, hp]; dsimp only; omega
    · unfold rank; dsimp only; rw [Function.update_of_ne hx]
  | ready i c hi hp hl =>
    refine ⟨i, hi, ?_, fun x hx => ?_⟩
    · unfold rank; dsimp only; rw [Function.update_self, hp]; dsimp only; omega
    · unfold rank; dsimp only; rw [Function.update_of_ne hx]
  | merge i c a b out ex hi hp hm ht ho =>
    refine ⟨i, hi, ?_, fun x hx => ?_⟩
    · unfold rank; dsimp only; rw [Function.update_self, hp]; dsimp only; omega
    · unfold rank; dsimp only; rw [Function.update_of_ne hx]

/-- **C42.** No execution goes on for ever: no worker waits or loops endlessly, whatever the schedule. -/
theorem C42_terminates (hn : n < 2 ^ 64) (hf : Maps n found) (run : Nat → State V) (h0 : run 0 = initial) (hstep : ∀ k, Step n found (run k) (run (k + 1))) : False := by
  have hreach : ∀ k, Reachable n found (run k) := by
    intro k
    induction k with
    | zero => rw [h0]; exact Relation.ReflTransGen.refl
    | succ k ih => exact ih.tail (hstep k)
  have hdec : ∀ k, ∑ i ∈ Finset.range n, rank n (run (k + 1)) i < ∑ i ∈ Finset.range n, rank n (run k) i := by
    intro k
    obtain ⟨i, hi, h1, h2⟩ := rank_step hn (reach_inv hn hf (hreach k)) (hstep k)
    apply Finset.sum_lt_sum
    · intro x _
      by_cases e : x = i
      · subst e; exact le_of_lt h1
      · rw [h2 x e]
    · exact ⟨i, Finset.mem_range.mpr hi, h1⟩
  have hle : ∀ k, ∑ i ∈ Finset.range n, rank n (run k) i + k ≤ ∑ i ∈ Finset.range n, rank n (run 0) i := by
    intro k
    induction k with
    | zero => omega
    | succ k ih => have := hdec k; omega
  have := hle (∑ i ∈ Finset.range n, rank n (run 0) i + 1)
  omega

/-- **C42.** When worker 0 is finished it has an ordered map with exactly the hashes found by any worker; every entry was found by a worker, and its own entries have
precedence. -/
theorem C42_result (hn : n < 2 ^ 64) (hf : Maps n found) {s : State V} (h : Reachable n found s) (h0 : 0 < n) (hd : s.pc 0 = .done) :
    ∃ d, s.data 0 = some d ∧ C44.Sorted d ∧ (∀ k, (∃ v, (k, v) ∈ d) ↔ ∃ j < n, ∃ v, (k, v) ∈ found j) ∧ (∀ k v, (k, v) ∈ d → ∃ j < n, (k, v) ∈ found j) ∧
      ∀ k v, (k, v) ∈ found 0 → (k, v) ∈ d := by
  have hI := reach_inv hn hf h
  have hl := hI.done 0 h0 hd
  have heff : eff s 0 = 0 := by unfold eff; rw [hd]; simpa using hl
  cases e : s.data 0 with
  | none => exact absurd rfl ((hI.none 0 h0).mp e).1
  | some d =>
    have hh := hI.holds 0 h0 (by rw [hd]; trivial) d e
    rw [heff] at hh
    have hsub : ∀ j, j < n → Sub n 0 0 j := fun j hj => ⟨hj, by simp [Nat.mod_one]⟩
    refine ⟨d, rfl, hh.sorted, fun k => ⟨?_, ?_⟩, fun k v hkv => ?_, hh.own⟩
    · rintro ⟨v, hv⟩
      obtain ⟨j, hj, hv'⟩ := hh.sound k v hv
      exact ⟨j, hj.1, v, hv'⟩
    · rintro ⟨j, hj, v, hv⟩
      exact hh.complete j (hsub j hj) k v hv
    · obtain ⟨j, hj, hv'⟩ := hh.sound k v hkv
      exact ⟨j, hj.1, hv'⟩

/-- **C42.** If the workers agree on common hashes, the result is the union. -/
theorem C42_union (hn : n < 2 ^ 64) (hf : Maps n found) (hagree : ∀ i < n, ∀ j < n, ∀ k v w, (k, v) ∈ found i → (k, w) ∈ found j → v = w) {s : State V}
    (h : Reachable n found s) (h0 : 0 < n) (hd : s.pc 0 = .done) : ∃ d, s.data 0 = some d ∧ ∀ e, e ∈ d ↔ ∃ j < n, e ∈ found j := by
  obtain ⟨d, h1, -, h2, h3, -⟩ := C42_result hn hf h h0 hd
  refine ⟨d, h1, fun ⟨k, v⟩ => ⟨h3 k v, ?_⟩⟩
  rintro ⟨j, hj, hv⟩
  obtain ⟨w, hw⟩ := (h2 k).mpr ⟨j, hj, v, hv⟩
  obtain ⟨i, hi, hw'⟩ := h3 k w hw
  rwa [hagree j hj i hi k v w hv hw']

/-- **C42.** When all are finished, the symbols of every worker but 0 have been taken; by `C42_no_crash` none was taken twice. -/
theorem C42_taken_once (hn : n < 2 ^ 64) (hf : Maps n found) {s : State V} (h : Reachable n found s) (hd : ∀ i < n, s.pc i = .done) {j : Nat} (hj : j < n) (h0 : j ≠ 0) :
    s.data j = none := by
  have hI := reach_inv hn hf h
  have hp := (partner_parent h0).2
  have hpn : parent j < n := lt_of_le_of_lt (Nat.sub_le _ _) hj
  refine (hI.none j hj).mpr ⟨h0, ?_⟩
  have := hI.done _ hpn (hd _ hpn)
  unfold eff
  rw [hd _ hpn]
  dsimp only
  omega

/-- Three workers with overlapping finds. -/
example : Maps 3 (fun j => [((j : Int), "own"), (7, "common")]) := by
  intro j hj
  constructor
  · simp only [C44.Sorted, List.pairwise_cons, List.mem_singleton, forall_eq, List.not_mem_nil, false_imp_iff, implies_true, List.Pairwise.nil, and_true]
    omega
  · intro e he
    simp only [List.mem_cons, List.not_mem_nil, or_false] at he
    rcases he with rfl | rfl <;> dsimp only <;> omega

/-- A state of a merge between workers 0 and 1 of two is reached. -/
example : ∃ s : State String, Reachable 2 (fun j => [((j : Int), "x")]) s ∧ s.pc 0 = .merging 1 := by
  have h0 : Reachable 2 (fun j => [((j : Int), "x")]) (initial : State String) := Relation.ReflTransGen.refl
  have h1 := h0.tail (Step.identify _ 1 (by norm_num) rfl)
  have h2 := h1.tail (Step.store _ 1 (by norm_num) rfl)
  have h3 := h2.tail (Step.identify _ 0 (by norm_num) rfl)
  have h4 := h3.tail (Step.store _ 0 (by norm_num) rfl)
  have h5 := h4.tail (Step.next _ 0 (by norm_num) rfl (by decide +kernel) (by decide +kernel))
  have h6 := h5.tail (Step.ready _ 0 1 (by norm_num) (by decide +kernel) (by decide +kernel))
  exact ⟨_, h6, by decide +kernel⟩

end Moment.C42

namespace Moment.C43

open Workers

variable {I O : Type} {n dim : Nat} {input : Nat → I} {f : I → Option O} {init : Nat → O}

/-- States that can occur. -/
def Reachable (n dim : Nat) (input : Nat → I) (f : I → Option O) (init : Nat → O) (s : Grid O) : Prop :=
  Relation.ReflTransGen (Grid.Step n dim input f) (Grid.start init) s

/-- **C43.** An entry is only written by the worker its column was dealt to, and with its image. -/
theorem C43_one_writer {s s' : Grid O} (h : Reachable n dim input f init s) (hs : Grid.Step n dim input f s s') :
    s'.out = s.out ∨ ∃ k y, k < dim * dim ∧ f (input k) = some y ∧ s'.out = Function.update s.out k y ∧ (k / dim) % n < n ∧
      s.pos (k / dim % n) ≠ s'.pos (k / dim % n) ∧ ∀ w, w ≠ k / dim % n → s'.pos w = s.pos w := by
  have hcol : ∀ {s : Grid O}, Reachable n dim input f init s → ∀ w < n, ∀ col row, s.pos w = .at col row → col % n = w := by
    intro s h
    induction h with
    | refl =>
      intro w hw col row e
      simp only [Grid.start, Pos.at.injEq] at e
      rw [← e.1]; exact Nat.mod_eq_of_lt hw
    | tail _ hs ih =>
      intro w hw col row e
      cases hs with
      | write w' col' row' y hw' hp hc hr hy =>
        by_cases ew : w = w'
        · subst ew
          dsimp only at e
          rw [Function.update_self] at e
          obtain ⟨rfl, -⟩ := Pos.at.inj e
          exact ih w hw _ _ hp
        · dsimp only at e; rw [Function.update_of_ne ew] at e; exact ih w hw _ _ e
      | throw w' col' row' hw' hp hc hr hy =>
        by_cases ew : w = w'
        · subst ew; dsimp only at e; rw [Function.update_self] at e; simp at e
        · dsimp only at e; rw [Function.update_of_ne ew] at e; exact ih w hw _ _ e
      | column w' col' row' hw' hp hc hr =>
        by_cases ew : w = w'
        · subst ew
          dsimp only at e
          rw [Function.update_self] at e
          obtain ⟨rfl, -⟩ := Pos.at.inj e
          rw [Nat.add_mod_right]
          exact ih w hw _ _ hp
        · dsimp only at e; rw [Function.update_of_ne ew] at e; exact ih w hw _ _ e
      | finish w' col' row' hw' hp hc =>
        by_cases ew : w = w'
        · subst ew; dsimp only at e; rw [Function.update_self] at e; simp at e
        · dsimp only at e; rw [Function.update_of_ne ew] at e; exact ih w hw _ _ e
  cases hs with
  | write w col row y hw hp hc hr hy =>
    have hk : (col * dim + row) / dim = col := by
      rw [Nat.mul_comm, Nat.mul_add_div (by omega), Nat.div_eq_of_lt hr]; rfl
    have hw' := hcol h w hw col row hp
    refine Or.inr ⟨_, y, ?_, hy, rfl, ?_, ?_, ?_⟩
    · calc col * dim + row < col * dim + dim := by omega
        _ = (col + 1) * dim := by ring
        _ ≤ dim * dim := Nat.mul_le_mul_right _ (by omega)
    · rw [hk, hw']; exact hw
    · rw [hk, hw', hp]
      dsimp only
      rw [Function.update_self]
      intro e
      have := (Pos.at.inj e).2
      omega
    · intro x hx
      rw [hk, hw'] at hx
      exact Function.update_of_ne hx ..
  | throw => exact Or.inl rfl
  | column => exact Or.inl rfl
  | finish => exact Or.inl rfl

/-- The entries a worker has to write before the given position. -/
def Before (n : Nat) (w : Nat) (p : Pos) (col row : Nat) : Prop :=
  match p with
  | .at c r => col % n = w ∧ (col < c ∨ (col = c ∧ row < r))
  | .done => col % n = w
  | .failed => False

theorem grid_inv {s : Grid O} (h : Reachable n dim input f init s) :
    (∀ k, dim * dim ≤ k → s.out k = init k) ∧
    (∀ w < n, ∀ c r, s.pos w = .at c r → c % n = w) ∧
    (∀ w < n, ∀ col row, col < dim → row < dim → Before n w (s.pos w) col row → f (input (col * dim + row)) = some (s.out (col * dim + row))) := by
  induction h with
  | refl =>
    refine ⟨fun _ _ => rfl, fun w hw c r e => ?_, fun w hw col row hc hr hb => ?_⟩
    · simp only [Grid.start, Pos.at.injEq] at e
      rw [← e.1]; exact Nat.mod_eq_of_lt hw
    · simp only [Grid.start, Before] at hb
      obtain ⟨h1, h2⟩ := hb
      have := Nat.mod_le col n
      exfalso
      rcases h2 with h2 | h2
      · omega
      · omega
  | @tail s s' _ hs ih =>
    obtain ⟨i1, i2, i3⟩ := ih
    have hinj : ∀ {c r c' r' : Nat}, r < dim → r' < dim → c * dim + r = c' * dim + r' → c = c' ∧ r = r' := by
      intro c r c' r' h1 h2 e
      have hd : ∀ {c r : Nat}, r < dim → (c * dim + r) / dim = c := by
        intro c r hr
        rw [Nat.mul_comm, Nat.mul_add_div (by omega), Nat.div_eq_of_lt hr]; rfl
      have e1 : c = c' := by rw [← hd (c := c) h1, e, hd h2]
      subst e1
      exact ⟨rfl, by omega⟩
    cases hs with
    | write w col row y hw hp hc hr hy =>
      refine ⟨fun k hk => ?_, fun x hx c r e => ?_, fun x hx c r hc' hr' hb => ?_⟩ <;> dsimp only at *
      · have : col * dim + row < dim * dim := by
          calc col * dim + row < col * dim + dim := by omega
            _ = (col + 1) * dim := by ring
            _ ≤ dim * dim := Nat.mul_le_mul_right _ (by omega)
        rw [Function.update_of_ne (by omega)]; exact i1 k hk
      · by_cases ew : x = w
        · subst ew
          rw [Function.update_self] at e
          obtain ⟨rfl, -⟩ := Pos.at.inj e
          exact i2 x hx _ _ hp
        · rw [Function.update_of_ne ew] at e; exact i2 x hx _ _ e
      · by_cases ek : c * dim + r = col * dim + row
        · rw [ek, Function.update_self]; exact hy
        · rw [Function.update_of_ne ek]
          apply i3 x hx c r hc' hr'
          by_cases ew : x = w
          · subst ew
            rw [Function.update_self] at hb
            rw [hp]
            simp only [Before] at hb ⊢
            refine ⟨hb.1, ?_⟩
            rcases hb.2 with h | ⟨h, h'⟩
            · exact Or.inl h
            · refine Or.inr ⟨h, ?_⟩
              rcases Nat.lt_succ_iff_lt_or_eq.mp h' with h2 | h2
              · exact h2
              · subst h h2; exact absurd rfl ek
          · rwa [Function.update_of_ne ew] at hb
    | throw w col row hw hp hc hr hy =>
      refine ⟨i1, fun x hx c r e => ?_, fun x hx c r hc' hr' hb => i3 x hx c r hc' hr' ?_⟩ <;> dsimp only at *
      · by_cases ew : x = w
        · subst ew; rw [Function.update_self] at e; simp at e
        · rw [Function.update_of_ne ew] at e; exact i2 x hx _ _ e
      · by_cases ew : x = w
        · subst ew; rw [Function.update_self] at hb; exact hb.elim
        · rwa [Function.update_of_ne ew] at hb
    | column w col row hw hp hc hr =>
      have hcn := i2 w hw col row hp
      refine ⟨i1, fun x hx c r e => ?_, fun x hx c r hc' hr' hb => i3 x hx c r hc' hr' ?_⟩ <;> dsimp only at *
      · by_cases ew : x = w
        · subst ew
          rw [Function.update_self] at e
          obtain ⟨rfl, -⟩ := Pos.at.inj e
          rw [Nat.add_mod_right]; exact hcn
        · rw [Function.update_of_ne ew] at e; exact i2 x hx _ _ e
      · by_cases ew : x = w
        · subst ew
          rw [Function.update_self] at hb
          rw [hp]
          simp only [Before, Nat.not_lt_zero, and_false, or_false] at hb ⊢
          refine ⟨hb.1, ?_⟩
          by_cases h1 : c < col
          · exact Or.inl h1
          · refine Or.inr ⟨?_, by omega⟩
            have h2 : c % n = col % n := hb.1.trans hcn.symm
            have h3 : (c - col) % n = 0 := by
              have := (Nat.modEq_iff_dvd' (by omega : col ≤ c)).mp h2.symm
              exact Nat.mod_eq_zero_of_dvd this
            rw [Nat.mod_eq_of_lt (by omega)] at h3
            omega
        · rwa [Function.update_of_ne ew] at hb
    | finish w col row hw hp hc =>
      refine ⟨i1, fun x hx c r e => ?_, fun x hx c r hc' hr' hb => i3 x hx c r hc' hr' ?_⟩ <;> dsimp only at *
      · by_cases ew : x = w
        · subst ew; rw [Function.update_self] at e; simp at e
        · rw [Function.update_of_ne ew] at e; exact i2 x hx _ _ e
      · by_cases ew : x = w
        · subst ew
          rw [Function.update_self] at hb
          rw [hp]
          exact ⟨hb, Or.inl (by omega)⟩
        · rwa [Function.update_of_ne ew] at hb

/-- **C43.** When all workers are finished, every entry of the matrix is the image of the input, and nothing else has changed, for every schedule. -/
theorem C43_image {s : Grid O} (h : Reachable n dim input f init s) (hn : 0 < n) (hd : ∀ w < n, s.pos w = .done) :
    (∀ k < dim * dim, f (input k) = some (s.out k)) ∧ ∀ k, dim * dim ≤ k → s.out k = init k := by
  obtain ⟨h1, -, h3⟩ := grid_inv h
  refine ⟨fun k hk => ?_, h1⟩
  have hdim : 0 < dim := by
    rcases Nat.eq_zero_or_pos dim with e | e
    · subst e; omega
    · exact e
  have hw : k / dim % n < n := Nat.mod_lt _ hn
  have := h3 _ hw (k / dim) (k % dim) (Nat.div_lt_of_lt_mul hk) (Nat.mod_lt _ hdim) (by rw [hd _ hw]; rfl)
  rwa [Nat.div_add_mod' k dim] at this

/-- **C43.** As long as not all workers are finished (or stopped by an exception), one can go on. -/
theorem C43_progress (s : Grid O) (hnot : ∃ w < n, s.pos w ≠ .done ∧ s.pos w ≠ .failed) : ∃ s', Grid.Step n dim input f s s' := by
  obtain ⟨w, hw, h1, h2⟩ := hnot
  cases e : s.pos w with
  | done => exact absurd e h1
  | failed => exact absurd e h2
  | «at» c r =>
    by_cases hc : c < dim
    · by_cases hr : r < dim
      · cases hy : f (input (c * dim + r)) with
        | none => exact ⟨_, .throw s w c r hw e hc hr hy⟩
        | some y => exact ⟨_, .write s w c r y hw e hc hr hy⟩
      · exact ⟨_, .column s w c r hw e hc (by omega)⟩
    · exact ⟨_, .finish s w c r hw e (by omega)⟩

/-- Steps left for one worker, at most. -/
def rank (dim : Nat) : Pos → Nat
  | .at c r => (dim - c) * (dim + 2) + (dim + 1 - r) + 1
  | .done => 0
  | .failed => 0

/-- **C43.** No execution goes on for ever. -/
theorem C43_terminates (hn : 0 < n) (run : Nat → Grid O) (hstep : ∀ k, Grid.Step n dim input f (run k) (run (k + 1))) : False := by
  have hone : ∀ {s s' : Grid O}, Grid.Step n dim input f s s' → ∃ w < n, rank dim (s'.pos w) < rank dim (s.pos w) ∧ ∀ x, x ≠ w → s'.pos x = s.pos x := by
    intro s s' hs
    cases hs with
    | write w c r y hw hp hc hr hy =>
      refine ⟨w, hw, ?_, fun x hx => Function.update_of_ne hx ..⟩
      dsimp only; rw [Function.update_self, hp]; simp only [rank]; omega
    | throw w c r hw hp hc hr hy =>
      refine ⟨w, hw, ?_, fun x hx => Function.update_of_ne hx ..⟩
      dsimp only; rw [Function.update_self, hp]; simp only [rank]; omega
    | column w c r hw hp hc hr =>
      refine ⟨w, hw, ?_, fun x hx => Function.update_of_ne hx ..⟩
      dsimp only; rw [Function.update_self, hp]; simp only [rank]
      have h1 : dim - (c + n) + 1 ≤ dim - c := by omega
      have h2 := Nat.mul_le_mul_right (dim + 2) h1
      rw [Nat.add_mul, Nat.one_mul] at h2
      omega
    | finish w c r hw hp hc =>
      refine ⟨w, hw, ?_, fun x hx => Function.update_of_ne hx ..⟩
      dsimp only; rw [Function.update_self, hp]; simp only [rank]; omega
  have hdec : ∀ k, ∑ w ∈ Finset.range n, rank dim ((run (k + 1)).pos w) < ∑ w ∈ Finset.range n, rank dim ((run k).pos w) := by
    intro k
    obtain ⟨i, hi, h1, h2⟩ := hone (hstep k)
    apply Finset.sum_lt_sum
    · intro x _
      by_cases e : x = i
      · subst e; exact le_of_lt h1
      · rw [h2 x e]
    · exact ⟨i, Finset.mem_range.mpr hi, h1⟩
  have hle : ∀ k, ∑ w ∈ Finset.range n, rank dim ((run k).pos w) + k ≤ ∑ w ∈ Finset.range n, rank dim ((run 0).pos w) := by
    intro k
    induction k with
    | zero => omega
    | succ k ih => have := hdec k; omega
  have := hle (∑ w ∈ Finset.range n, rank dim ((run 0).pos w) + 1)
  omega

/-- A finished state for one worker and a single entry. -/
example : ∃ s : Grid Nat, Reachable 1 1 (fun _ => 5) (fun x : Nat => some (x * x)) (fun _ => 0) s ∧ (∀ w < 1, s.pos w = .done) ∧ s.out 0 = 25 := by
  have h0 : Reachable 1 1 (fun _ => 5) (fun x : Nat => some (x * x)) (fun _ => 0) (Grid.start fun _ => 0) := Relation.ReflTransGen.refl
  have h1 := h0.tail (.write _ 0 0 0 25 (by norm_num) rfl (by norm_num) (by norm_num) rfl)
  have h2 := h1.tail (.column _ 0 0 1 (by norm_num) rfl (by norm_num) (by norm_num))
  have h3 := h2.tail (.finish _ 0 1 0 (by norm_num) rfl (by norm_num))
  refine ⟨_, h3, fun w hw => ?_, rfl⟩
  obtain rfl : w = 0 := by omega
  rfl

end Moment.C43

namespace Moment.C61

open Workers

/-- **C61 (general matrices).** Every entry of the symbol matrix is written by exactly one worker. -/
theorem C61_generic_partial {n dim k : Nat} (hn : 0 < n) (hk : k < dim * dim) : ∃! w, w < n ∧ writesGeneric n dim w k := by
  have hdim : 0 < dim := by
    rcases Nat.eq_zero_or_pos dim with e | e
    · subst e; omega
    · exact e
  refine ⟨k / dim % n, ⟨Nat.mod_lt _ hn, k / dim / n, k % dim, ?_, Nat.mod_lt _ hdim, ?_⟩, ?_⟩
  · rw [Nat.mod_add_div' (k / dim) n]; exact Nat.div_lt_of_lt_mul hk
  · rw [Nat.mod_add_div' (k / dim) n, Nat.div_add_mod' k dim]
  · rintro w ⟨hw, j, row, h1, h2, h3⟩
    have : k / dim = w + j * n := by
      rw [h3, Nat.mul_comm, Nat.mul_add_div hdim, Nat.div_eq_of_lt h2]; rfl
    rw [this, Nat.add_mul_mod_self_right, Nat.mod_eq_of_lt hw]

example : (0 : Nat) < 3 ∧ 7 < 4 * 4 := by norm_num

/-- **C61 (violated for Hermitian matrices).** With at least two workers and two columns, the entry in row 1 of column 0 is written by workers 0 and 1, without any
synchronization between them. -/
theorem C61_refuted_hermitian {n dim : Nat} (hn : 2 ≤ n) (hd : 2 ≤ dim) :
    ∃ k < dim * dim, ∃ w < n, ∃ w' < n, w ≠ w' ∧ writesHermitian n dim w k ∧ writesHermitian n dim w' k := by
  refine ⟨1, by nlinarith, 0, by omega, 1, by omega, by omega, ?_, ?_⟩
  · exact ⟨0, 1, by omega, by omega, Or.inl (by omega)⟩
  · refine ⟨0, 0, by omega, by omega, Or.inr ⟨?_, by omega⟩⟩
    rw [Nat.zero_mul, Nat.zero_mul, Nat.add_zero, Nat.one_mul]
    omega

end Moment.C61

namespace Moment.C62

open Workers C43

variable {I O : Type} {n dim : Nat} {input : Nat → I} {f : I → Option O} {init : Nat → O}

/-- **C62 (violated).** If the functor throws for some entry, the sequential transformation throws, but the parallel one returns normally, for every schedule. -/
theorem C62_refuted (hthrow : ∃ k < dim * dim, f (input k) = none) (s : Grid O) :
    sequential dim input f init = .thrown ∧ s.result = .returned s.out := by
  constructor
  · unfold sequential; rw [if_pos hthrow]
  · rfl

/-- Such a run: the single entry keeps its initial value. -/
theorem C62_refuted_run : ∃ s : Grid Nat, Reachable 1 1 (fun _ => 5) (fun _ : Nat => (none : Option Nat)) (fun _ => 0) s ∧
    (∀ w < 1, s.pos w = .failed) ∧ s.result = .returned (fun _ => 0) ∧ sequential 1 (fun _ => 5) (fun _ : Nat => (none : Option Nat)) (fun _ => 0) = .thrown := by
  have h0 : Reachable 1 1 (fun _ => 5) (fun _ : Nat => (none : Option Nat)) (fun _ => 0) (Grid.start fun _ => 0) := Relation.ReflTransGen.refl
  have h1 := h0.tail (.throw _ 0 0 0 (by norm_num) rfl (by norm_num) (by norm_num) rfl)
  refine ⟨_, h1, fun w hw => ?_, rfl, ?_⟩
  · obtain rfl : w = 0 := by omega
    rfl
  · unfold sequential; rw [if_pos ⟨0, by norm_num, rfl⟩]

/-- **C62 (without exceptions).** If the functor throws for no entry, no worker is stopped, and the parallel transformation gives the result of the sequential one. -/
theorem C62_same_partial (hf : ∀ k < dim * dim, f (input k) ≠ none) (hn : 0 < n) {s : Grid O} (h : Reachable n dim input f init s) :
    (∀ w < n, s.pos w ≠ .failed) ∧ ((∀ w < n, s.pos w = .done) → s.result = sequential dim input f init) := by
  constructor
  · induction h with
    | refl => intro w _; simp [Grid.start]
    | tail _ hs ih =>
      intro w hw
      cases hs with
      | throw w' col row hw' hp hc hr hy =>
        refine absurd hy (hf _ ?_)
        calc col * dim + row < col * dim + dim := by omega
          _ = (col + 1) * dim := by ring
          _ ≤ dim * dim := Nat.mul_le_mul_right _ (by omega)
      | write w' col' row' y hw' hp hc hr hy =>
        dsimp only
        by_cases ew : w = w'
        · subst ew; rw [Function.update_self]; simp
        · rw [Function.update_of_ne ew]; exact ih w hw
      | column w' col' row' hw' hp hc hr =>
        dsimp only
        by_cases ew : w = w'
        · subst ew; rw [Function.update_self]; simp
        · rw [Function.update_of_ne ew]; exact ih w hw
      | finish w' col' row' hw' hp hc =>
        dsimp only
        by_cases ew : w = w'
        · subst ew; rw [Function.update_self]; simp
        · rw [Function.update_of_ne ew]; exact ih w hw
  · intro hd
    obtain ⟨h1, h2⟩ := C43_image h hn hd
    unfold sequential
    rw [if_neg (by push Not; exact hf)]
    unfold Grid.result
    simp only [Bool.not_true, Bool.false_eq_true, if_false, Outcome.returned.injEq]
    funext k
    split
    · next hk => rw [h1 k hk]; rfl
    · next hk => exact h2 k (by omega)

example : (∀ k < 2 * 2, (fun x : Nat => some (x + 1)) ((fun k => k) k) ≠ none) ∧ 0 < 2 := by simp

end Moment.C62
