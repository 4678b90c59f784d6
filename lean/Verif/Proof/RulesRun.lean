import Verif.Proof.RulesComplete

/-! Computing with concrete rulebooks: versions of the loops with a step limit, which agree with the unbounded ones when they return. -/

namespace Moment.Rules

/-- `iterLoop` with a step limit. -/
def iterN (m : RMap) : Nat → List Nat → Sign → Bool → Option (Raw × List Nat × Sign)
  | 0, _, _, _ => none
  | n + 1, w, s, b =>
    match firstMatch w m with
    | none => some (if b then .matched else .noMatch, w, s)
    | some (r, i) =>
      if r.rhs.isZero then some (.setToZero, w, .pos)
      else match r.apply w i with
        | none => none
        | some w' => iterN m n w' (s.mul r.rhs.sign) true

theorem iterLoop_of (m : RMap) : ∀ (n : Nat) (w : List Nat) (s : Sign) (b : Bool) (out : Raw × List Nat × Sign),
    iterN m n w s b = some out → iterLoop m w s b = some out
  | 0, _, _, _, _, h => by cases h
  | n + 1, w, s, b, out, h => by
    rw [iterLoop]
    rw [iterN] at h
    split at h
    · rename_i hf; rw [hf]; exact h
    · rename_i r i hf
      rw [hf]
      by_cases hz : r.rhs.isZero = true
      · simpa [hz] using h
      · simp only [hz, if_false, Bool.false_eq_true] at h ⊢
        split at h
        · cases h
        · rename_i w' hw'
          rw [hw']
          exact iterLoop_of m n _ _ _ _ h

theorem viaIteration_of {m : RMap} (n : Nat) {w : List Nat} {s : Sign} {out : Raw × List Nat × Sign}
    (h : iterN m n w s false = some out) : viaIteration m w s = some out := iterLoop_of m n w s false out h

theorem reduce_of {p : Pre} {b : Book} {x : HSeq} (n : Nat) {out : Raw × List Nat × Sign} (h1 : x.ops.isEmpty = false)
    (h2 : b.rules.isEmpty = false) (h3 : b.useSearch x.ops.length = false) (h : iterN b.rules n x.ops x.sign false = some out) :
    b.reduce p x = some (fromRaw p x out) := by
  unfold Book.reduce
  simp only [h1, h2, h3, Bool.false_eq_true, if_false, viaIteration_of n h]
  rfl

instance (s : Substring.State) : Decidable (Substring.atEnd s) := inferInstanceAs (Decidable (_ ∧ _))

/-- `searchSub` with a step limit. -/
def subN (m : RMap) (radix : UInt64) (w : List Nat) : Nat → Substring.State → Option (Option (Rule × Nat))
  | 0, _ => none
  | n + 1, st =>
    if Substring.atEnd st then some none
    else match find (Substring.value st).2.2 m with
      | some r => some (some (r, (Substring.value st).1))
      | none => subN m radix w n (Substring.next radix w st)

theorem searchSub_of (m : RMap) (radix : UInt64) (w : List Nat) : ∀ (n : Nat) (st : Substring.State) (o : Option (Rule × Nat)),
    subN m radix w n st = some o → searchSub m radix w st = some o
  | 0, _, _, h => by cases h
  | n + 1, st, o, h => by
    rw [searchSub]
    rw [subN] at h
    by_cases he : Substring.atEnd st
    · rw [if_pos he] at h ⊢; exact h
    · rw [if_neg he] at h ⊢
      split at h
      · rename_i hf; rw [hf]; exact h
      · rename_i hf; rw [hf]; exact searchSub_of m radix w n _ o h

/-- `searchLoop` with step limits. -/
def searchN (m : RMap) (radix : UInt64) : Nat → List Nat → Sign → Bool → Option (Raw × List Nat × Sign)
  | 0, _, _, _ => none
  | n + 1, w, s, b =>
    match subN m radix w 100 (Substring.first w) with
    | none => none
    | some none => some (if b then .matched else .noMatch, w, s)
    | some (some (r, i)) =>
      if r.rhs.isZero then some (.setToZero, w, s)
      else match r.apply w i with
        | none => none
        | some w' => searchN m radix n w' (s.mul r.rhs.sign) true

theorem searchLoop_of (m : RMap) (radix : UInt64) : ∀ (n : Nat) (w : List Nat) (s : Sign) (b : Bool) (out : Raw × List Nat × Sign),
    searchN m radix n w s b = some out → searchLoop m radix w s b = some out
  | 0, _, _, _, _, h => by cases h
  | n + 1, w, s, b, out, h => by
    rw [searchLoop]
    rw [searchN] at h
    split at h
    · cases h
    · rename_i hs
      rw [searchSub_of m radix w _ _ _ hs]; exact h
    · rename_i r i hs
      rw [searchSub_of m radix w _ _ _ hs]
      simp only [Option.bind_eq_bind, Option.bind_some]
      by_cases hz : r.rhs.isZero = true
      · simpa [hz] using h
      · simp only [hz, if_false, Bool.false_eq_true] at h ⊢
        split at h
        · cases h
        · rename_i w' hw'
          rw [hw']
          exact searchLoop_of m radix n _ _ _ _ h

theorem viaSearch_of {p : Pre} {m : RMap} (n : Nat) {w : List Nat} {s : Sign} {out : Raw × List Nat × Sign}
    (h : searchN m (UInt64.ofNat p.num) n w s false = some out) : viaSearch p m w s = some out := searchLoop_of m _ n w s false out h

theorem reduce_of_search {p : Pre} {b : Book} {x : HSeq} (n : Nat) {out : Raw × List Nat × Sign} (h1 : x.ops.isEmpty = false)
    (h2 : b.rules.isEmpty = false) (h3 : b.useSearch x.ops.length = true)
    (h : searchN b.rules (UInt64.ofNat p.num) n x.ops x.sign false = some out) : b.reduce p x = some (fromRaw p x out) := by
  unfold Book.reduce
  simp only [h1, h2, h3, Bool.false_eq_true, if_false, if_true, viaSearch_of n h]
  rfl

end Moment.Rules
