import Verif.Proof.AlgebraicContext
import Verif.Proof.RulesCompute

/-! # What tests of completeness say about algebraic contexts -/

namespace Moment.Algebraic
open Moment.Rules Moment.Rewrite Moment.C16 Moment.C17

variable {p : Pre} {L : Nat}

theorem term_conjSeq (hs : Small p L) {x : HSeq} (hx : GoodSeq p L x) : term (p.conjSeq x) = adjoint p.adj (term x) := by
  unfold Pre.conjSeq
  by_cases h0 : x.hash = 0
  · rw [if_pos (by simp [HSeq.isZero, h0])]
    simp [term, h0, HSeq.zero, adjoint]
  · rw [if_neg (by simpa [HSeq.isZero] using h0)]
    have hh := hash_ne_zero hs (conjWord_isWord hx.1)
    simp only [term, hh, h0, if_false, adjoint, Option.map_some]
    rw [conjWord_eq]

/-- If conjugating gives nothing new for some of the rules, then the rules imply the adjoints of those rules. -/
theorem mock_closed (hs : Small p L) {b : Book} (hb : GoodMap p L b.rules) (hpos : SMap (fun s => s = .pos) b.rules) :
    ∀ m : RMap, (∀ e ∈ m, e ∈ b.rules) → mockConjugate p b m = some false →
      ∀ e ∈ m, Implies (rset b.rules) (some (.pos, e.2.lhs.ops.reverse.map p.adj)) (adjoint p.adj (term e.2.rhs))
  | [], _, _, e, he => by cases he
  | (k, r) :: m, hm, h, e, he => by
    have hr := hm _ (List.mem_cons_self ..)
    have g := (hb.1 _ hr).2
    have hrs : r.rhs.sign = .pos := hpos _ hr
    obtain ⟨c, hc, gl, gr, sl, ssr, -⟩ := conjugate_spec.{0} hs g.lhs g.rhs
    have hcs : c.rhs.sign = .pos := ssr _ posClass (fun s h => by rw [h]; rfl) g.sign hrs
    obtain ⟨c', x, y, h', hred⟩ := reduceRule_spec.{0} hs hb posClass (fun s h => Or.inl h) hpos gl gr sl hcs
    rw [mockConjugate, hc, Option.bind_eq_bind, Option.bind_some, h', Option.bind_some] at h
    by_cases ht : c'.trivial = true
    · rw [if_pos ht] at h
      rcases List.mem_cons.mp he with rfl | he
      · intro A _ _ ρ hρ
        have hM : MapHolds ρ b.rules := (mapHolds_iff ρ hs hb).mpr hρ
        have hxy : term x = term y := by
          rcases hred.cases with ⟨-, e⟩ | ⟨hg, -⟩
          · exact e
          · rw [hg.trivial] at ht; cases ht
        have heq : ruleEq ρ c := by
          show eval ρ (term c.lhs) = eval ρ (term c.rhs)
          rw [reduced_eval ρ hs hb hM hred.lhs (fun _ _ => sl), reduced_eval ρ hs hb hM hred.rhs (fun _ _ => hcs), hxy]
        have hl0 : r.lhs.hash ≠ 0 := fun e => by
          have := g.lt
          rw [e] at this
          exact absurd this (by simp)
        have key : eval ρ (term (p.conjSeq r.lhs)) = eval ρ (term (p.conjSeq r.rhs)) := by
          unfold Rule.conjugate at hc
          dsimp only at hc
          split at hc
          · exact ((ruleEq_make ρ hc).mp heq).symm
          · exact (ruleEq_make ρ hc).mp heq
        rw [term_conjSeq hs g.lhs, term_conjSeq hs g.rhs] at key
        have e1 : adjoint p.adj (term r.lhs) = some (.pos, r.lhs.ops.reverse.map p.adj) := by
          simp only [term, hl0, if_false, adjoint, Option.map_some]
          rw [g.sign]
          rfl
        rw [e1] at key
        exact key
      · exact mock_closed hs hb hpos m (fun e he => hm e (List.mem_cons_of_mem _ he)) h e he
    · rw [if_neg ht] at h
      cases h

theorem mock_adjoint (hs : Small p L) {b : Book} (hb : GoodMap p L b.rules) (hpos : SMap (fun s => s = .pos) b.rules)
    (h : mockConjugate p b b.rules = some false) : AdjointClosed p.adj (rset b.rules) := by
  rintro l r ⟨e, he, hd⟩
  have := mock_closed hs hb hpos b.rules (fun _ h => h) h e he
  have h1 := congrArg Prod.fst hd
  have h2 := congrArg Prod.snd hd
  simp only [den] at h1 h2
  rw [← h1, ← h2]
  exact this

theorem phaseless_of {m : RMap} (hpos : SMap (fun s => s = .pos) m) : Phaseless (rset m) := by
  rintro l s r ⟨e, he, hd⟩
  have h2 := congrArg Prod.snd hd
  simp only [den, term] at h2
  split at h2
  · cases h2
  · rw [← (Prod.mk.inj (Option.some.inj h2)).1]
    exact hpos e he

theorem mock_of_isComplete {b : Book} (h : b.isComplete p true = some true) : mockConjugate p b b.rules = some false := by
  unfold Book.isComplete at h
  rw [if_pos rfl] at h
  cases hm : mockConjugate p b b.rules with
  | none => rw [hm] at h; cases h
  | some c =>
    rw [hm, Option.bind_eq_bind, Option.bind_some] at h
    cases c with
    | true => simp at h
    | false => rfl

/-! ## Computing with concrete contexts -/

deriving instance DecidableEq for Context

/-- `Book.reduceInPlace` with a step limit. -/
def inPlaceN (p : Pre) (n : Nat) (b : Book) (w : List Nat) (s : Sign) : Option (Raw × List Nat × Sign) :=
  if w.isEmpty || b.rules.isEmpty then some (.noMatch, w, s)
  else if b.useSearch w.length then searchN b.rules (UInt64.ofNat p.num) n w s false else iterN b.rules n w s false

theorem inPlace_ofN {n : Nat} {b : Book} {w : List Nat} {s : Sign} {out : Raw × List Nat × Sign} (h : inPlaceN p n b w s = some out) :
    b.reduceInPlace p w s = some out := by
  unfold Book.reduceInPlace
  unfold inPlaceN at h
  split at h
  · rename_i h1; rw [if_pos h1]; exact h
  · rename_i h1
    rw [if_neg h1]
    split at h
    · rename_i h2; rw [if_pos h2]; exact viaSearch_of n h
    · rename_i h2; rw [if_neg h2]; exact viaIteration_of n h

/-- The operators of a sequence that is made. -/
theorem construct_ops {a : Context} (n : Nat) {w w' : List Nat} {s s' : Sign} {r : Raw} (heap : Bool) (hc : a.commutative = false) (hr : r ≠ .setToZero)
    (h : inPlaceN a.pre n a.book w s = some (r, w', s')) : (HSeq.construct (hctx a) heap w s).ops = w' := by
  have : (hctx a).simplify w s = some (w', s') := by
    unfold hctx Rules.simplify
    dsimp only
    rw [hc, if_neg (by decide), inPlace_ofN h]
    cases r with
    | setToZero => exact absurd rfl hr
    | noMatch => rfl
    | matched => rfl
  unfold HSeq.construct HSeq.toCanonical
  dsimp only
  rw [this]

/-- `make` with a step limit. -/
def makeN (p : Pre) (n : Nat) (commute normal : Bool) (initial : List Rule) : Option Context :=
  ((addRulesN n ⟨[], 0⟩ initial).map fun (b, _) => b.remag) >>= fun b =>
  (if commute then (commutatorRules p) >>= fun rs => (addRulesN n b rs).map Prod.fst else some b) >>= fun b =>
  (if p.mode != .selfAdjoint && normal then (normalRules p) >>= fun rs => (addRulesN n b rs).map Prod.fst else some b) >>= fun b =>
  some ⟨p, commute, b, if b.rules.length = 0 then some true else none⟩

theorem make_ofN {n : Nat} {commute normal : Bool} {initial : List Rule} {a : Context} (h : makeN p n commute normal initial = some a) :
    make p commute normal initial = some a := by
  refine bind_of h (fun b h => map_of h fun _ => addRules_ofN) fun b h => bind_of h (fun b1 h => ?_) fun b h => bind_of h (fun b1 h => ?_) fun _ h => h
  · split at h
    · rename_i hc; rw [if_pos hc]; exact bind_of h (fun _ h => h) fun _ h => map_of h fun _ => addRules_ofN
    · rename_i hc; rw [if_neg hc]; exact h
  · split at h
    · rename_i hc; rw [if_pos hc]; exact bind_of h (fun _ h => h) fun _ h => map_of h fun _ => addRules_ofN
    · rename_i hc; rw [if_neg hc]; exact h

end Moment.Algebraic
