import Verif.Proof.RulesRun

/-! Computing completions of concrete rulebooks: versions with a step limit of everything that `complete` uses, which agree with the unbounded ones when
they return. -/

namespace Moment.Rules

deriving instance DecidableEq for Book

variable {p : Pre}

theorem bind_of {α β : Type} {x y : Option α} {f g : α → Option β} {out : β} (h : (x >>= f) = some out) (hx : ∀ a, x = some a → y = some a)
    (hf : ∀ a, f a = some out → g a = some out) : (y >>= g) = some out := by
  cases hxa : x with
  | none => rw [hxa] at h; cases h
  | some a =>
    rw [hxa] at h
    rw [hx a hxa]
    exact hf a h

theorem map_of {α β : Type} {x y : Option α} {f : α → β} {out : β} (h : x.map f = some out) (hx : ∀ a, x = some a → y = some a) :
    y.map f = some out := by
  obtain ⟨a, h1, h2⟩ := Option.map_eq_some_iff.mp h
  rw [hx a h1, Option.map_some, h2]

/-- `Book.reduce` with a step limit. -/
def reduceN (p : Pre) (n : Nat) (b : Book) (x : HSeq) : Option HSeq :=
  if x.ops.isEmpty then some (if x.isZero then HSeq.zero else HSeq.identity .pos)
  else if b.rules.isEmpty then some x
  else (if b.useSearch x.ops.length then searchN b.rules (UInt64.ofNat p.num) n x.ops x.sign false else iterN b.rules n x.ops x.sign false).map (fromRaw p x)

theorem reduce_ofN {n : Nat} {b : Book} {x y : HSeq} (h : reduceN p n b x = some y) : b.reduce p x = some y := by
  unfold Book.reduce
  unfold reduceN at h
  split at h
  · rename_i h1; rw [if_pos h1]; exact h
  · rename_i h1
    rw [if_neg h1]
    split at h
    · rename_i h2; rw [if_pos h2]; exact h
    · rename_i h2
      rw [if_neg h2]
      refine map_of h fun a ha => ?_
      split at ha
      · rename_i h3; rw [if_pos h3]; exact viaSearch_of n ha
      · rename_i h3; rw [if_neg h3]; exact viaIteration_of n ha

/-- `Book.reduceRule` with a step limit. -/
def reduceRuleN (p : Pre) (n : Nat) (b : Book) (r : Rule) : Option Rule :=
  (reduceN p n b r.lhs) >>= fun lhs => (reduceN p n b r.rhs) >>= fun rhs =>
    let rel := lhs.sign.difference rhs.sign
    if lhs.hash = rhs.hash ∧ rel = .neg then Rule.make { lhs with sign := .pos } HSeq.zero
    else if rhs.hash < lhs.hash then Rule.make { lhs with sign := .pos } { rhs with sign := rel }
    else Rule.make { rhs with sign := .pos } { lhs with sign := rel.conj }

theorem reduceRule_ofN {n : Nat} {b : Book} {r c : Rule} (h : reduceRuleN p n b r = some c) : b.reduceRule p r = some c :=
  bind_of h (fun _ => reduce_ofN) fun _ h => bind_of h (fun _ => reduce_ofN) fun _ h => h

/-- `reduceRulesetLoop` with a step limit. -/
def rulesetLoopN (p : Pre) : Nat → Book → Option UInt64 → Option Book
  | 0, _, _ => none
  | n + 1, b, it =>
    match it with
    | none => some b
    | some k =>
      match find k b.rules with
      | none => none
      | some r =>
        (reduceRuleN p n { b with rules := erase k b.rules } r) >>= fun r' =>
          if r'.trivial then rulesetLoopN p n { b with rules := erase k b.rules } (nextKey k (erase k b.rules))
          else rulesetLoopN p n { b with rules := insert r'.lhs.hash r' (erase k b.rules) } (nextKey k (erase k b.rules))

theorem rulesetLoop_ofN : ∀ (n : Nat) (b : Book) (it : Option UInt64) (out : Book), rulesetLoopN p n b it = some out → reduceRulesetLoop p b it = some out
  | 0, _, _, _, h => by cases h
  | n + 1, b, it, out, h => by
    rw [reduceRulesetLoop.eq_def]
    rw [rulesetLoopN.eq_def] at h
    cases it with
    | none => exact h
    | some k =>
      dsimp only at h ⊢
      cases hf : find k b.rules with
      | none => rw [hf] at h; cases h
      | some r =>
        rw [hf] at h
        refine bind_of h (fun _ => reduceRule_ofN) fun a h => ?_
        split at h
        · rename_i ht; rw [if_pos ht]; exact rulesetLoop_ofN n _ _ _ h
        · rename_i ht; rw [if_neg ht]; exact rulesetLoop_ofN n _ _ _ h

/-- `reduceRuleset` with a step limit. -/
def rulesetN (p : Pre) (n : Nat) (b : Book) : Option Book := rulesetLoopN p n b (firstKey b.rules)

theorem ruleset_ofN {n : Nat} {b out : Book} (h : rulesetN p n b = some out) : b.reduceRuleset p = some out := rulesetLoop_ofN n _ _ _ h

/-- `firstNew` with a step limit. -/
def firstNewN (p : Pre) (n : Nat) (b : Book) : List (Rule × Rule) → Option (Option Rule)
  | [] => some none
  | (x, y) :: rest =>
    (Rule.combine p x y) >>= fun c =>
      match c with
      | none => firstNewN p n b rest
      | some c => (reduceRuleN p n b c) >>= fun c' => if c'.trivial then firstNewN p n b rest else some (some c')

theorem firstNew_ofN {n : Nat} {b : Book} : ∀ (l : List (Rule × Rule)) (out : Option Rule), firstNewN p n b l = some out → firstNew p b l = some out
  | [], _, h => h
  | (x, y) :: rest, out, h => by
    rw [firstNewN] at h
    rw [firstNew]
    refine bind_of h (fun _ h => h) fun c h => ?_
    cases c with
    | none => exact firstNew_ofN rest out h
    | some c =>
      refine bind_of h (fun _ => reduceRule_ofN) fun a h => ?_
      split at h
      · rename_i ht; rw [if_pos ht]; exact firstNew_ofN rest out h
      · rename_i ht; rw [if_neg ht]; exact h

/-- `mockConjugate` with a step limit. -/
def mockN (p : Pre) (n : Nat) (b : Book) : RMap → Option Bool
  | [] => some false
  | (_, r) :: m => (r.conjugate p) >>= fun c => (reduceRuleN p n b c) >>= fun c' => if c'.trivial then mockN p n b m else some true

theorem mock_ofN {n : Nat} {b : Book} : ∀ (l : RMap) (out : Bool), mockN p n b l = some out → mockConjugate p b l = some out
  | [], _, h => h
  | (k, r) :: m, out, h => by
    rw [mockN] at h
    rw [mockConjugate]
    refine bind_of h (fun _ h => h) fun c h => bind_of h (fun _ => reduceRule_ofN) fun a h => ?_
    split at h
    · rename_i ht; rw [if_pos ht]; exact mock_ofN m out h
    · rename_i ht; rw [if_neg ht]; exact h

/-- `isComplete` with a step limit. -/
def isCompleteN (p : Pre) (n : Nat) (b : Book) (testCC : Bool) : Option Bool :=
  (if testCC then mockN p n b b.rules else some false) >>= fun cc => if cc then some false else (firstNewN p n b (pairs b.rules)).map Option.isNone

theorem isComplete_ofN {n : Nat} {b : Book} {cc out : Bool} (h : isCompleteN p n b cc = some out) : b.isComplete p cc = some out := by
  refine bind_of h (fun a h => ?_) fun a h => ?_
  · split at h
    · rename_i hc; rw [if_pos hc]; exact mock_ofN _ _ h
    · rename_i hc; rw [if_neg hc]; exact h
  · split at h
    · rename_i hc; rw [if_pos hc]; exact h
    · rename_i hc; rw [if_neg hc]; exact map_of h fun _ => firstNew_ofN _ _

/-- `tryNewCombination` with a step limit. -/
def combinationN (p : Pre) (n : Nat) (b : Book) : Option (Book × Bool) :=
  (rulesetN p n b) >>= fun b1 => (firstNewN p n b1 (pairs b1.rules)) >>= fun c =>
    match c with
    | none => some (b1, false)
    | some c => (rulesetN p n { b1 with rules := insert c.lhs.hash c b1.rules }).map fun b2 => (b2, true)

theorem combination_ofN {n : Nat} {b : Book} {out : Book × Bool} (h : combinationN p n b = some out) : b.tryNewCombination p = some out := by
  refine bind_of h (fun _ => ruleset_ofN) fun a h => bind_of h (fun _ => firstNew_ofN _ _) fun c h => ?_
  cases c with
  | none => exact h
  | some c => exact map_of h fun _ => ruleset_ofN

/-- `tryConjugation` with a step limit. -/
def conjugationN (p : Pre) (n : Nat) (b : Book) (r : Rule) : Option (Book × Bool) :=
  (r.conjugate p) >>= fun c => (reduceRuleN p n b c) >>= fun c' =>
    if c'.trivial then some (b, false) else (rulesetN p n { b with rules := insert c'.lhs.hash c' b.rules }).map fun b2 => (b2, true)

theorem conjugation_ofN {n : Nat} {b : Book} {r : Rule} {out : Book × Bool} (h : conjugationN p n b r = some out) : b.tryConjugation p r = some out := by
  refine bind_of h (fun _ h => h) fun c h => bind_of h (fun _ => reduceRule_ofN) fun a h => ?_
  split at h
  · rename_i ht; rw [if_pos ht]; exact h
  · rename_i ht; rw [if_neg ht]; exact map_of h fun _ => ruleset_ofN

/-- `conjugateLoop` with a step limit. -/
def conjLoopN (p : Pre) : Nat → Book → Option UInt64 → Nat → Option (Book × Nat)
  | 0, _, _, _ => none
  | n + 1, b, it, added =>
    match it with
    | none => some (b, added)
    | some k =>
      match find k b.rules with
      | none => none
      | some r =>
        (conjugationN p n b r) >>= fun res =>
          if res.2 then
            match firstKey res.1.rules with
            | none => none
            | some k0 => conjLoopN p n res.1 (nextKey k0 res.1.rules) (added + 1)
          else conjLoopN p n res.1 (nextKey k res.1.rules) added

theorem conjLoop_ofN : ∀ (n : Nat) (b : Book) (it : Option UInt64) (a : Nat) (out : Book × Nat), conjLoopN p n b it a = some out → conjugateLoop p b it a = some out
  | 0, _, _, _, _, h => by cases h
  | n + 1, b, it, a, out, h => by
    rw [conjugateLoop.eq_def]
    rw [conjLoopN.eq_def] at h
    cases it with
    | none => exact h
    | some k =>
      dsimp only at h ⊢
      cases hf : find k b.rules with
      | none => rw [hf] at h; cases h
      | some r =>
        rw [hf] at h
        refine bind_of h (fun _ => conjugation_ofN) fun res h => ?_
        split at h
        · rename_i ht
          rw [if_pos ht]
          cases hk : firstKey res.1.rules with
          | none => rw [hk] at h; cases h
          | some k0 => rw [hk] at h; exact conjLoop_ofN n _ _ _ _ h
        · rename_i ht; rw [if_neg ht]; exact conjLoop_ofN n _ _ _ _ h

/-- `completeLoop` with a step limit. -/
def completeLoopN (p : Pre) (n : Nat) : Nat → Book → Option (Book × Bool)
  | 0, b => some (b, false)
  | left + 1, b => (combinationN p n b) >>= fun res => if res.2 then completeLoopN p n left res.1 else some (res.1.remag, true)

theorem completeLoop_ofN {n : Nat} : ∀ (left : Nat) (b : Book) (out : Book × Bool), completeLoopN p n left b = some out → completeLoop p left b = some out
  | 0, _, _, h => h
  | left + 1, b, out, h => by
    rw [completeLoopN] at h
    rw [completeLoop]
    refine bind_of h (fun _ => combination_ofN) fun res h => ?_
    split at h
    · rename_i ht; rw [if_pos ht]; exact completeLoop_ofN left _ _ h
    · rename_i ht; rw [if_neg ht]; exact h

/-- `complete` with a step limit, for a limit of iterations that is not 0. -/
def completeN (p : Pre) (n : Nat) (b : Book) (maxIter : Nat) : Option (Book × Bool) :=
  (conjLoopN p n b (firstKey b.rules) 0) >>= fun (b1, added) =>
    (completeLoopN p n (maxIter - added) b1) >>= fun (b2, done) =>
      if done then some (b2, true) else (isCompleteN p n b2 false).map fun c => (b2.remag, c)

theorem complete_ofN {n maxIter : Nat} {b : Book} {out : Book × Bool} (h0 : maxIter ≠ 0) (h : completeN p n b maxIter = some out) :
    b.complete p maxIter = some out := by
  unfold Book.complete
  rw [if_neg h0]
  refine bind_of h (fun _ => conjLoop_ofN n _ _ _ _) fun res h => bind_of h (fun _ => completeLoop_ofN _ _ _) fun res h => ?_
  obtain ⟨b2, done⟩ := res
  dsimp only at h ⊢
  split at h
  · rename_i ht; rw [if_pos ht]; exact h
  · rename_i ht; rw [if_neg ht]; exact map_of h fun _ => isComplete_ofN

/-- `addRule` with a step limit. -/
def addRuleN : Nat → RMap → Rule → Option (RMap × Int)
  | 0, _, _ => none
  | n + 1, m, r =>
    if r.trivial then some (m, 0)
    else match find r.lhs.hash m with
    | none =>
      if r.rhs.isZero && r.rhs.sign != .pos then
        (Rule.make r.lhs r.rhs) >>= fun r' => some (insert r.lhs.hash r' m, 1)
      else some (insert r.lhs.hash r m, 1)
    | some pre =>
      if pre.rhs.hash = r.rhs.hash then
        if r.rhs.sign = pre.rhs.sign then some (m, 0)
        else
          (Rule.make ⟨r.lhs.hash, r.lhs.ops, .pos⟩ HSeq.zero) >>= fun lhsZero =>
          (Rule.make ⟨r.rhs.hash, r.rhs.ops, .pos⟩ HSeq.zero) >>= fun rhsZero =>
          addRuleN n (insert r.lhs.hash lhsZero (erase r.lhs.hash m)) rhsZero
      else if pre.rhs.hash < r.rhs.hash then
        (Rule.make r.rhs pre.rhs) >>= fun bToA => addRuleN n m bToA
      else
        (Rule.make pre.rhs r.rhs) >>= fun bToA => addRuleN n (insert r.lhs.hash r (erase r.lhs.hash m)) bToA

theorem addRule_ofN : ∀ (n : Nat) (m : RMap) (r : Rule) (out : RMap × Int), addRuleN n m r = some out → addRule m r = some out
  | 0, _, _, _, h => by cases h
  | n + 1, m, r, out, h => by
    rw [addRuleN] at h
    rw [addRule]
    by_cases h1 : r.trivial = true
    · rw [if_pos h1] at h ⊢; exact h
    · rw [if_neg h1] at h ⊢
      cases hf : find r.lhs.hash m with
      | none => rw [hf] at h; exact h
      | some pre =>
        rw [hf] at h
        dsimp only at h ⊢
        by_cases h2 : pre.rhs.hash = r.rhs.hash
        · rw [if_pos h2] at h ⊢
          by_cases h3 : r.rhs.sign = pre.rhs.sign
          · rw [if_pos h3] at h ⊢; exact h
          · rw [if_neg h3] at h ⊢
            exact bind_of h (fun _ h => h) fun _ h => bind_of h (fun _ h => h) fun _ h => addRule_ofN n _ _ _ h
        · rw [if_neg h2] at h ⊢
          by_cases h3 : pre.rhs.hash < r.rhs.hash
          · rw [if_pos h3] at h ⊢
            exact bind_of h (fun _ h => h) fun _ h => addRule_ofN n _ _ _ h
          · rw [if_neg h3] at h ⊢
            exact bind_of h (fun _ h => h) fun _ h => addRule_ofN n _ _ _ h

/-- `addRulesLoop` with a step limit. -/
def addLoopN (n : Nat) : List Rule → RMap → Int → Option (RMap × Int)
  | [], m, k => some (m, k)
  | r :: rs, m, k => (addRuleN n m r) >>= fun (m', j) => addLoopN n rs m' (k + j)

theorem addLoop_ofN {n : Nat} : ∀ (rs : List Rule) (m : RMap) (k : Int) (out : RMap × Int), addLoopN n rs m k = some out → addRulesLoop rs m k = some out
  | [], _, _, _, h => h
  | r :: rs, m, k, out, h => by
    rw [addLoopN] at h
    rw [addRulesLoop]
    exact bind_of h (fun _ => addRule_ofN n _ _ _) fun _ h => addLoop_ofN rs _ _ _ h

/-- `Book.addRules` with a step limit. -/
def addRulesN (n : Nat) (b : Book) (rs : List Rule) : Option (Book × Int) :=
  (addLoopN n rs b.rules 0).map fun (m, k) => (if k ≠ 0 then Book.remag { b with rules := m } else { b with rules := m }, k)

theorem addRules_ofN {n : Nat} {b : Book} {rs : List Rule} {out : Book × Int} (h : addRulesN n b rs = some out) : b.addRules rs = some out :=
  map_of h fun _ => addLoop_ofN _ _ _ _

end Moment.Rules
