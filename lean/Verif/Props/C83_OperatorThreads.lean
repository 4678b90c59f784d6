import Verif.Proof.OperatorThreads
import Verif.Proof.RulesRun
import Verif.Props.C82_MomentMatrix

/-! # C83: matrices of operators made by several threads; C84: exceptions while they are made -/

namespace Moment.C83
open Moment.SymbolMatrix Moment.OperatorMatrix
open Moment.MatrixBasis (Mat)

variable {J : Job}

/-- **C83.** No worker touches what another one reads or writes in the same phase. -/
theorem C83_no_race {w w' : Nat} (hw : w < J.workers) (hw' : w' < J.workers) (hne : w ≠ w') {a b : Act}
    (h : a ∈ osProgram J w ∧ b ∈ osProgram J w' ∨ a ∈ aliasProgram J w ∧ b ∈ aliasProgram J w') :
    a.target ≠ b.target ∧ a.target ≠ b.source := by
  have key : (∃ c r, c ∈ columns J.n J.workers w ∧ c ≤ r ∧ r < J.n ∧ (a.target = cell J r c ∨ a.target = cell J c r) ∧
        (a.source = cell J r c ∨ a.source = cell J c r)) →
      (∃ c r, c ∈ columns J.n J.workers w' ∧ c ≤ r ∧ r < J.n ∧ (b.target = cell J r c ∨ b.target = cell J c r) ∧
        (b.source = cell J r c ∨ b.source = cell J c r)) → a.target ≠ b.target ∧ a.target ≠ b.source := by
    rintro ⟨c, r, h1, h2, h3, h4, -⟩ ⟨c', r', g1, g2, g3, g4, g5⟩
    have hcc : c ≠ c' := by
      rintro rfl
      exact hne ((columns_owner hw h1).symm.trans (columns_owner hw' g1))
    exact ⟨fun e => hcc (touch_same h2 h3 g2 g3 h4 (e ▸ g4)), fun e => hcc (touch_same h2 h3 g2 g3 h4 (e ▸ g5))⟩
  rcases h with ⟨h1, h2⟩ | ⟨h1, h2⟩
  · exact key (os_touch h1) (os_touch h2)
  · exact key (alias_touch h1) (alias_touch h2)

/-- **C83.** If the functor throws nothing, then as long as the call has not returned, some thread can go on. -/
theorem C83_progress (hT : Total J) {s : State} (h : Reachable J s) (hm : s.main ≠ .returned) : ∃ s', Step J s s' := inv_progress (inv_reachable hT h) hm

/-- **C83.** Every run ends: each step lowers a number that only depends on the state. So if the functor throws nothing, every run can be continued to
one that returns. -/
theorem C83_ends (hT : Total J) : (∃ m : State → Nat, ∀ s s', Step J s s' → m s' < m s) ∧
    ∀ s, Reachable J s → ∃ s', Relation.ReflTransGen (Step J) s s' ∧ s'.main = .returned := by
  refine ⟨⟨total J, fun s s' => step_total⟩, fun s h => ?_⟩
  obtain ⟨s', h1, h2⟩ := ends (J := J) s
  refine ⟨s', h1, ?_⟩
  by_contra hm
  obtain ⟨s'', h3⟩ := C83_progress hT (h.trans h1) hm
  exact h2 s'' h3

/-- **C83.** If the functor throws nothing, no thread ever touches data that have been released. -/
theorem C83_no_crash (hT : Total J) {s : State} (h : Reachable J s) : s.crashed = false ∧ s.main ≠ .threw := by
  have hi := inv_reachable hT h
  refine ⟨hi.fine.1, fun e => ?_⟩
  have := hi.main
  unfold MainHolds at this
  rw [e] at this
  exact this

/-- **C83.** When the call returns, every entry holds what it ought to, whatever the order in which the threads ran. -/
theorem C83_data (hT : Total J) (hN : 0 < J.workers) {s : State} (h : Reachable J s) (hm : s.main = .returned) {r c : Nat} (hr : r < J.n) (hc : c < J.n) :
    s.os (cell J r c) = value J r c ∧ (J.aliases = true → s.al (cell J r c) = aliasValue J r c) := by
  have hi := inv_reachable hT h
  have hM := hi.main
  unfold MainHolds at hM
  rw [hm] at hM
  unfold cell
  exact ⟨(hi.os_all hN hM.1 hr hc).trans (want_cell hr), fun hx => (hi.alias_all hN hx (hM.2 hx) hr hc).trans (wantAlias_cell hr)⟩

/-! ## Compared with one thread -/

theorem job_total (h : Host) (f : HSeq → HSeq → HSeq) (words : List HSeq) (sb un : Bool) (N : Nat) : Total (jobOf h f words sb un N) := by
  intro r c hr hc
  have hr' : r < (rowWords h words).length := by rw [C82.rowWords_length]; exact hr
  have hc' : c < words.length := hc
  simp [jobOf, List.getElem?_eq_getElem hr', List.getElem?_eq_getElem hc']

theorem job_f {h : Host} {f : HSeq → HSeq → HSeq} {words : List HSeq} {sb un : Bool} {N : Nat} {r c : Nat} (hr : r < words.length) (hc : c < words.length) :
    (jobOf h f words sb un N).f r c = some (word (single f (rowWords h words) words) r c) := by
  have hr' : r < (rowWords h words).length := by rw [C82.rowWords_length]; exact hr
  have e := C82.C82_entry f (rowWords h words) words (C82.rowWords_length h words) (List.getElem?_eq_getElem hr') (List.getElem?_eq_getElem hc)
  rw [e]
  simp [jobOf, List.getElem?_eq_getElem hr', List.getElem?_eq_getElem hc]

/-- No exception occurs for moment matrices of free words, here with three threads. -/
example : Total (jobOf (C70.freeHost 2) (momentFn (C70.freeHost 2)) ([[], [0], [1], [1, 0]].map fun l => C70.letters 2 l) true false 3) ∧
    0 < (jobOf (C70.freeHost 2) (momentFn (C70.freeHost 2)) ([[], [0], [1], [1, 0]].map fun l => C70.letters 2 l) true false 3).workers :=
  ⟨job_total _ _ _ _ _ _, by decide⟩

/-- The functor turns conjugates around, so that the matrix is Hermitian, and simplification of moments commutes with conjugation. -/
def Turns (h : Host) (f : HSeq → HSeq → HSeq) (words : List HSeq) : Prop :=
  ∀ r c, c < r → r < words.length → h.env.conj (word (single f (rowWords h words) words) r c) = word (single f (rowWords h words) words) c r ∧
    (h.env.aliases = true → h.env.conj (h.env.simp (word (single f (rowWords h words) words) r c)) =
      h.env.simp (h.env.conj (word (single f (rowWords h words) words) r c)))

/-- **C83.** The threads make the matrices that one thread would make, if no Hermitian matrix is expected or the matrix is indeed Hermitian.
Missing: matrices that the factory wrongly takes for Hermitian (`C83_refuted_sign`). -/
theorem C83_same_partial (h : Host) (f : HSeq → HSeq → HSeq) (words : List HSeq) (sb un : Bool) {N : Nat} (hN : 0 < N)
    (ht : sb = true → un = false → Turns h f words) {s : State} (hs : Reachable (jobOf h f words sb un N) s) (hm : s.main = .returned) {r c : Nat}
    (hr : r < words.length) (hc : c < words.length) :
    s.os (c * words.length + r) = some (word (single f (rowWords h words) words) r c) ∧
    (h.env.aliases = true → s.al (c * words.length + r) = some (h.env.simp (word (single f (rowWords h words) words) r c))) := by
  obtain ⟨h1, h2⟩ := C83_data (job_total h f words sb un N) hN hs hm (r := r) (c := c) hr hc
  have hg : (jobOf h f words sb un N).generic = (!sb || un) := rfl
  have hv : ∀ {r c : Nat}, r < words.length → c < words.length → value (jobOf h f words sb un N) r c = some (word (single f (rowWords h words) words) r c) := by
    intro r c hr hc
    unfold value
    split
    · exact job_f hr hc
    · rename_i hn
      rw [not_or, hg] at hn
      rw [job_f hc hr]
      have hsb : sb = true ∧ un = false := by revert hn; cases sb <;> cases un <;> simp
      exact congrArg some ((ht hsb.1 hsb.2) c r (by omega) hc).1
  refine ⟨h1.trans (hv hr hc), fun hx => (h2 hx).trans ?_⟩
  unfold aliasValue
  split
  · rw [hv hr hc]; rfl
  · rename_i hn
    rw [not_or, hg] at hn
    have hsb : sb = true ∧ un = false := by revert hn; cases sb <;> cases un <;> simp
    have hT := (ht hsb.1 hsb.2) c r (by omega) hc
    rw [hv hc hr]
    show some (h.env.conj (h.env.simp _)) = _
    rw [hT.2 hx, hT.1]

/-- Three threads and the moment matrix of the words 1, a, b, ba: the conjugates turn around. -/
example : Turns (C70.freeHost 2) (momentFn (C70.freeHost 2)) ([[], [0], [1], [1, 0]].map fun l => C70.letters 2 l) := by
  intro r c hc hr
  have hr' : r < 4 := hr
  refine ⟨?_, fun h => by simp [C70.freeHost, C27.freeEnv] at h⟩
  have key : ∀ r < 4, ∀ c < 4, c < r →
      (C70.freeHost 2).env.conj (word (single (momentFn (C70.freeHost 2)) (rowWords (C70.freeHost 2) ([[], [0], [1], [1, 0]].map fun l => C70.letters 2 l))
        ([[], [0], [1], [1, 0]].map fun l => C70.letters 2 l)) r c) =
      word (single (momentFn (C70.freeHost 2)) (rowWords (C70.freeHost 2) ([[], [0], [1], [1, 0]].map fun l => C70.letters 2 l))
        ([[], [0], [1], [1, 0]].map fun l => C70.letters 2 l)) c r := by decide +kernel
  exact key r hr' c (by omega) hc

/-! ## A matrix that is wrongly taken for Hermitian -/

open Moment.Rules in
/-- A context with rules, as the factory sees it. -/
noncomputable def algHost (p : Pre) (b : Book) : Host :=
  let c : Ctx := { radix := p.num, simplify := fun w s => (simplify p false b w s).getD none }
  { env := { conj := ctxConjugate p c false, null := fun _ => (false, false), aliases := false, simp := id, canSimp := fun _ => false }
    mul := HSeq.multiply c false
    canNonHerm := true }

/-- Two self-adjoint operators that anticommute: the rule `yx → -xy`. -/
def anti : Rules.Pre := ⟨2, .selfAdjoint⟩

def antiRule : Rules.Rule := ⟨⟨anti.hash [1, 0], [1, 0], .pos⟩, ⟨anti.hash [0, 1], [0, 1], .neg⟩, false, false, 0⟩

def antiBook : Rules.Book := ⟨[(anti.hash [1, 0], antiRule)], 1⟩

def antiWord (l : List Nat) (s : Sign := .pos) : HSeq := ⟨anti.hash l, l, s⟩

theorem anti_simplify (n : Nat) {w : List Nat} {s : Sign} {r : Rules.Raw} {out : List Nat × Sign} (hw : w.isEmpty = false)
    (hl : antiBook.useSearch w.length = false) (h : Rules.iterN antiBook.rules n w s false = some (r, out)) (hr : r ≠ .setToZero) :
    (Rules.simplify anti false antiBook w s).getD none = some out := by
  have h1 : antiBook.reduceInPlace anti w s = some (r, out) := by
    unfold Rules.Book.reduceInPlace
    have h2 : antiBook.rules.isEmpty = false := rfl
    simp only [hw, h2, hl, Bool.or_self, Bool.false_eq_true, if_false, Rules.viaIteration_of n h]
  unfold Rules.simplify
  simp only [Bool.false_eq_true, if_false]
  rw [h1]
  cases r with
  | setToZero => exact absurd rfl hr
  | noMatch => rfl
  | matched => rfl

/-- The rule is a valid one, and the rulebook is complete. -/
theorem anti_complete : Rules.Rule.make ⟨anti.hash [1, 0], [1, 0], .pos⟩ ⟨anti.hash [0, 1], [0, 1], .neg⟩ = some antiRule ∧
    antiBook.isComplete anti true = some true := by
  refine ⟨by decide +kernel, ?_⟩
  have h1 : antiRule.conjugate anti = some antiRule := by decide +kernel
  have h2 : antiBook.reduce anti antiRule.lhs = some (antiWord [0, 1] .neg) :=
    Rules.reduce_of (b := antiBook) (x := antiRule.lhs) (out := (.matched, [0, 1], .neg)) 9 rfl rfl (by decide +kernel) (by decide +kernel)
  have h3 : antiBook.reduce anti antiRule.rhs = some (antiWord [0, 1] .neg) :=
    Rules.reduce_of (b := antiBook) (x := antiRule.rhs) (out := (.noMatch, [0, 1], .neg)) 9 rfl rfl (by decide +kernel) (by decide +kernel)
  have h4 : antiBook.reduceRule anti antiRule = some ⟨antiWord [0, 1], antiWord [0, 1], true, false, 0⟩ := by
    unfold Rules.Book.reduceRule
    rw [h2, h3]
    decide +kernel
  have h5 : Rules.mockConjugate anti antiBook antiBook.rules = some false := by
    show ((antiRule.conjugate anti) >>= fun c => (antiBook.reduceRule anti c) >>= fun c' =>
      if c'.trivial then Rules.mockConjugate anti antiBook [] else some true) = some false
    rw [h1]
    show ((antiBook.reduceRule anti antiRule) >>= fun c' => if c'.trivial then Rules.mockConjugate anti antiBook [] else some true) = some false
    rw [h4]
    rfl
  unfold Rules.Book.isComplete
  rw [if_pos rfl, h5]
  rfl

theorem anti_mul {l m : List Nat} {s u : Sign} {r : Rules.Raw} {out : List Nat × Sign} (h0 : anti.hash l ≠ 0) (h1 : anti.hash m ≠ 0)
    (hw : (l ++ m).isEmpty = false) (hl : antiBook.useSearch (l ++ m).length = false) (h : Rules.iterN antiBook.rules 9 (l ++ m) (s.mul u) false = some (r, out))
    (hr : r ≠ .setToZero) (h2 : anti.hash (l ++ m) ≠ 0) : (algHost anti antiBook).mul (antiWord l s) (antiWord m u) = antiWord out.1 out.2 := by
  simp only [algHost, HSeq.multiply, antiWord, HSeq.isZero, beq_iff_eq, h0, h1, Bool.or_eq_true, or_self, if_false]
  simp only [HSeq.construct, HSeq.toCanonical, anti_simplify 9 hw hl h hr, HSeq.movedFrom, Bool.false_eq_true, if_false, HSeq.ctxHash, HSeq.isZero, HSeq.hashOps]
  have h2' : hashWord (UInt64.ofNat anti.num) (l ++ m) ≠ 0 := h2
  simp only [beq_iff_eq, h2', if_false]
  try rfl

theorem anti_conj {l : List Nat} {s : Sign} {r : Rules.Raw} {out : List Nat × Sign} (h0 : anti.hash l ≠ 0) (hw : l.reverse.isEmpty = false)
    (hl : antiBook.useSearch l.reverse.length = false) (h : Rules.iterN antiBook.rules 9 l.reverse s.conj false = some (r, out)) (hr : r ≠ .setToZero)
    (h2 : anti.hash l.reverse ≠ 0) : (algHost anti antiBook).env.conj (antiWord l s) = antiWord out.1 out.2 := by
  have hm : anti.mode = .selfAdjoint := rfl
  simp only [algHost, Rules.ctxConjugate, hm, if_true, HSeq.conjugate, antiWord, HSeq.isZero, beq_iff_eq, h0, if_false]
  simp only [HSeq.construct, HSeq.toCanonical, anti_simplify 9 hw hl h hr, HSeq.movedFrom, Bool.false_eq_true, if_false, HSeq.ctxHash, HSeq.isZero, HSeq.hashOps]
  have h2' : hashWord (UInt64.ofNat anti.num) l.reverse ≠ 0 := h2
  simp only [beq_iff_eq, h2', if_false]
  rfl

theorem anti_conj_one : (algHost anti antiBook).env.conj (antiWord []) = antiWord [] := by
  have h : (Rules.simplify anti false antiBook [] .pos).getD none = some ([], .pos) := rfl
  have hm : anti.mode = .selfAdjoint := rfl
  have h0 : anti.hash [] ≠ 0 := by decide +kernel
  simp only [algHost, Rules.ctxConjugate, hm, if_true, HSeq.conjugate, antiWord, HSeq.isZero, beq_iff_eq, h0, if_false]
  simp only [HSeq.construct, HSeq.toCanonical, List.reverse_nil, show Sign.conj .pos = .pos from rfl, h]
  rfl

/-- **C83, refuted.** Two self-adjoint operators `x`, `y` with `yx = -xy` (a complete set of rules). The word `xy` is anti-Hermitian, but as it has the hash of
its conjugate the factory takes its localizing matrix for Hermitian. For the words 1 and `x` one thread makes `-xxy` in row 0 and column 1. Several
threads make `xxy`. -/
theorem C83_refuted_sign (N : Nat) (hN : 0 < N) :
    let h := algHost anti antiBook
    let words := [antiWord [], antiWord [0]]
    let f := localizingFn h (antiWord [0, 1])
    localizingHermitian h (antiWord [0, 1]) = true ∧ h.env.conj (antiWord [0, 1]) = antiWord [0, 1] .neg ∧
    word (single f (rowWords h words) words) 0 1 = antiWord [0, 0, 1] .neg ∧
    ∀ s, Reachable (jobOf h f words (localizingHermitian h (antiWord [0, 1])) false N) s → s.main = .returned → s.os (1 * words.length + 0) = some (antiWord [0, 0, 1]) := by
  intro h words f
  have ne : anti.hash [] ≠ 0 ∧ anti.hash [0] ≠ 0 ∧ anti.hash [0, 1] ≠ 0 ∧ anti.hash [1, 0] ≠ 0 ∧ anti.hash [0, 1, 0] ≠ 0 ∧ anti.hash [0, 0, 1] ≠ 0 ∧
      anti.hash [1, 0, 0] ≠ 0 := by decide +kernel
  obtain ⟨n0, n1, n2, n3, n4, n5, n6⟩ := ne
  have hc : h.env.conj (antiWord [0, 1]) = antiWord [0, 1] .neg :=
    anti_conj (r := .matched) (out := ([0, 1], .neg)) n2 rfl (by decide) (by decide +kernel) (by simp) n3
  have hx : h.env.conj (antiWord [0]) = antiWord [0] := anti_conj (r := .noMatch) (out := ([0], .pos)) n1 rfl (by decide) (by decide +kernel) (by simp) n1
  have hz : localizingHermitian h (antiWord [0, 1]) = true := by
    unfold localizingHermitian
    rw [hc]
    decide +kernel
  have hrow : rowWords h words = [antiWord [], antiWord [0]] := by
    show [h.env.conj (antiWord []), h.env.conj (antiWord [0])] = _
    rw [hx, show h.env.conj (antiWord []) = antiWord [] from anti_conj_one]
  have m1 : h.mul (antiWord [0, 1]) (antiWord [0]) = antiWord [0, 0, 1] .neg :=
    anti_mul (r := .matched) (out := ([0, 0, 1], .neg)) n2 n1 rfl (by decide) (by decide +kernel) (by simp) n4
  have m2 : h.mul (antiWord []) (antiWord [0, 0, 1] .neg) = antiWord [0, 0, 1] .neg :=
    anti_mul (r := .noMatch) (out := ([0, 0, 1], .neg)) n0 n5 rfl (by decide) (by decide +kernel) (by simp) n5
  have m3 : h.mul (antiWord [0, 1]) (antiWord []) = antiWord [0, 1] :=
    anti_mul (r := .noMatch) (out := ([0, 1], .pos)) n2 n0 rfl (by decide) (by decide +kernel) (by simp) n2
  have m4 : h.mul (antiWord [0]) (antiWord [0, 1]) = antiWord [0, 0, 1] :=
    anti_mul (r := .noMatch) (out := ([0, 0, 1], .pos)) n1 n2 rfl (by decide) (by decide +kernel) (by simp) n5
  have c5 : h.env.conj (antiWord [0, 0, 1]) = antiWord [0, 0, 1] :=
    anti_conj (r := .matched) (out := ([0, 0, 1], .pos)) n5 rfl (by decide) (by decide +kernel) (by simp) n6
  refine ⟨hz, hc, ?_, fun s hs hm => ?_⟩
  · rw [hrow, C82.C82_entry f _ words rfl (i := 0) (j := 1) rfl rfl]
    show h.mul (antiWord []) (h.mul (antiWord [0, 1]) (antiWord [0])) = _
    rw [m1, m2]
  · have e := (C83_data (job_total h f words _ false N) hN hs hm (r := 0) (c := 1) (show 0 < 2 by decide) (show 1 < 2 by decide)).1
    refine Eq.trans e ?_
    have hg : (jobOf h f words (localizingHermitian h (antiWord [0, 1])) false N).generic = false := by
      show (!localizingHermitian h (antiWord [0, 1]) || false) = false
      rw [hz]; rfl
    unfold value
    rw [if_neg (by rw [hg]; simp), job_f (by decide) (by decide)]
    show some (h.env.conj _) = _
    rw [hrow, C82.C82_entry f _ words rfl (i := 1) (j := 0) rfl rfl]
    show some (h.env.conj (h.mul (antiWord [0]) (h.mul (antiWord [0, 1]) (antiWord [])))) = _
    rw [m3, m4, c5]

end Moment.C83

namespace Moment.C84
open Moment.OperatorMatrix Relation

variable {J : Job}

/-- If the functor throws nothing, nothing goes wrong (see also C83). Missing: all calls in which it throws, see the refutations. -/
theorem C84_partial (hT : Total J) {s : State} (h : Reachable J s) : s.crashed = false ∧ s.main ≠ .threw ∧ (s.main = .returned ∨ ∃ s', Step J s s') := by
  refine ⟨(C83.C83_no_crash hT h).1, (C83.C83_no_crash hT h).2, ?_⟩
  by_cases hm : s.main = .returned
  · exact .inl hm
  · exact .inr (C83.C83_progress hT h hm)

/-- **C84, refuted.** In a context with aliases, if one worker meets an exception and another does not, then the call neither returns nor throws:
every run ends in a deadlock. -/
theorem C84_refuted_deadlock {a b : Nat} (ha : a < J.workers) (hb : b < J.workers) (hx : J.aliases = true) (hta : Throws J a) (htb : ¬ Throws J b) :
    (∀ s, Reachable J s → s.main ≠ .returned ∧ s.main ≠ .threw) ∧
    ∀ s, Reachable J s → ∃ s', ReflTransGen (Step J) s s' ∧ (∀ s'', ¬ Step J s' s'') ∧ s'.main ≠ .returned ∧ s'.main ≠ .threw := by
  have key : ∀ s, Reachable J s → s.main ≠ .returned ∧ s.main ≠ .threw := by
    intro s h
    rcases (hangs_reachable ha hb hx hta htb h).main with e | ⟨k, -, e⟩ | ⟨k, -, e⟩ <;> rw [e] <;> simp
  refine ⟨key, fun s h => ?_⟩
  obtain ⟨s', h1, h2⟩ := ends (J := J) s
  exact ⟨s', h1, h2, key s' (h.trans h1)⟩

/-- **C84, refuted.** If the first of at least two workers meets an exception, then the data can be released while the second still writes to them. -/
theorem C84_refuted_released (h0 : 1 < J.workers) (hn : 1 < J.n) (hta : Throws J 0) {v : HSeq} (hv : J.f 1 1 = some v) :
    ∃ s, Reachable J s ∧ s.crashed = true := by
  have hprog : ∃ l, osProgram J 1 = .put (1 * J.n + 1) (some v) :: l := by
    unfold osProgram
    rw [columns_eq, if_pos ⟨hn, by omega⟩, List.flatMap_cons, hv]
    exact ⟨_, rfl⟩
  obtain ⟨l, hl⟩ := hprog
  have s1 : Step J initial { initial with main := .collect 0, goOs := true } := .start initial rfl
  generalize hi1 : ({ initial with main := .collect 0, goOs := true } : State) = i1 at s1
  have s2 : Step J i1 { i1 with phase := Function.update i1.phase 0 .making, todo := Function.update i1.todo 0 (osProgram J 0) } :=
    .begin i1 0 (by omega) (by rw [← hi1]; rfl) (by rw [← hi1])
  generalize hi2 : ({ i1 with phase := Function.update i1.phase 0 .making, todo := Function.update i1.todo 0 (osProgram J 0) } : State) = i2 at s2
  have s3 : Step J i2 { i2 with phase := Function.update i2.phase 1 .making, todo := Function.update i2.todo 1 (osProgram J 1) } :=
    .begin i2 1 h0 (by rw [← hi2, ← hi1]; rfl) (by rw [← hi2, ← hi1])
  generalize hi3 : ({ i2 with phase := Function.update i2.phase 1 .making, todo := Function.update i2.todo 1 (osProgram J 1) } : State) = i3 at s3
  obtain ⟨i4, r4, d4, m4, f4, o4⟩ := run_to_throw (J := J) (w := 0) (by omega) (osProgram J 0) i3 (by rw [← hi3, ← hi2, ← hi1]; rfl)
    (by rw [← hi3, ← hi2, ← hi1]; rfl) (by rw [← hi3, ← hi2, ← hi1]; rfl) (fun a h => h) hta
  have s5 : Step J i4 { i4 with main := .leaving false 0, released := true } :=
    .rethrow i4 0 (m4.trans (by rw [← hi3, ← hi2, ← hi1])) (by omega) d4
  have o1 := o4 1 (by omega)
  have p1 : i4.phase 1 = .making := o1.1.trans (by rw [← hi3, ← hi2, ← hi1]; rfl)
  have t1 : i4.todo 1 = .put (1 * J.n + 1) (some v) :: l := o1.2.trans (by rw [← hi3, ← hi2, ← hi1]; exact hl)
  refine ⟨_, ((((ReflTransGen.single s1).tail s2).tail s3).trans r4).tail s5 |>.tail
    (.crash { i4 with main := .leaving false 0, released := true } 1 _ l h0 (.inl p1) t1 (by simp) rfl), rfl⟩

/-- A matrix with two rows and columns, two workers, and an exception in the first entry. -/
def failing : Job := ⟨2, 2, true, true, fun r c => if r = 0 ∧ c = 0 then none else some HSeq.zero, id, id⟩

theorem failing_one : ¬ Throws failing 1 := by
  rintro ⟨k, hk⟩
  obtain ⟨c, hc, h⟩ := (mem_osProgram _).mp hk
  obtain ⟨hc2, j, e⟩ := (columns_iff (by decide) c).mp hc
  have hc' : c = 1 := by
    have : c < 2 := hc2
    omega
  subst hc'
  rcases h with h | ⟨r, h1, h2, h | h⟩
  · injection h with _ h; simp [failing] at h
  · have : r < 2 := h2; omega
  · have : r < 2 := h2; omega

example : Throws failing 0 ∧ ¬ Throws failing 1 := by
  refine ⟨⟨0, (mem_osProgram _).mpr ⟨0, (columns_iff (by decide) 0).mpr ⟨by decide, 0, rfl⟩, .inl rfl⟩⟩, failing_one⟩

/-- For that matrix, so for some call, both happen. -/
theorem C84_refuted_both : (∀ s, Reachable failing s → s.main ≠ .returned ∧ s.main ≠ .threw) ∧ ∃ s, Reachable failing s ∧ s.crashed = true := by
  have h0 : Throws failing 0 := ⟨0, (mem_osProgram _).mpr ⟨0, (columns_iff (by decide) 0).mpr ⟨by decide, 0, rfl⟩, .inl rfl⟩⟩
  exact ⟨(C84_refuted_deadlock (by decide : 0 < failing.workers) (by decide : 1 < failing.workers) rfl h0 failing_one).1,
    C84_refuted_released (by decide) (by decide) h0 rfl⟩

end Moment.C84
