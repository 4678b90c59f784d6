import Verif.Model.Rules
import Verif.Proof.Rewrite
import Verif.Props.C02_Hash
import Verif.Props.C05_Substring

/-! Reductions of the rulebook model carry out the rewriting of the specification. -/

namespace Moment.Rules

open Rewrite

/-- The term a stored sequence stands for: hash 0 is zero. -/
def term (x : HSeq) : Term := if x.hash = 0 then none else some (x.sign, x.ops)

/-- The rewrite rule a stored rule stands for. -/
def den (r : Rule) : RRule := (r.lhs.ops, term r.rhs)

/-- The rewrite rules of a rulebook. -/
def rset (m : RMap) : Set RRule := {q | ∃ e ∈ m, den e.2 = q}

/-- No wrap-around of hashes of words of length up to `L`: fewer than 2^64 such words. -/
structure Small (p : Pre) (L : Nat) : Prop where
  num : p.num < 2 ^ 64
  count : (∑ k ∈ Finset.range (L + 1), p.num ^ k) < 2 ^ 64

/-- A word over the operators of the context, of length at most `L`. -/
def IsWord (p : Pre) (L : Nat) (w : List Nat) : Prop := (∀ o ∈ w, o < p.num) ∧ w.length ≤ L

/-- A sequence as the program makes it: zero (hash 0, no operators), or a word with its hash. -/
def GoodSeq (p : Pre) (L : Nat) (x : HSeq) : Prop :=
  IsWord p L x.ops ∧ ((x.hash = 0 ∧ x.ops = []) ∨ x.hash = p.hash x.ops)

/-- A rule as the constructor makes it whose two sides are good sequences and whose right side has smaller hash. -/
structure GoodRule (p : Pre) (L : Nat) (r : Rule) : Prop where
  lhs : GoodSeq p L r.lhs
  rhs : GoodSeq p L r.rhs
  sign : r.lhs.sign = .pos
  lt : r.rhs.hash < r.lhs.hash
  toZero : r.toZero = r.rhs.isZero
  delta : r.delta = (r.rhs.ops.length : Int) - (r.lhs.ops.length : Int)
  trivial : r.trivial = false

/-- A map of good rules, filed under the hashes of their left sides, in increasing order. -/
def GoodMap (p : Pre) (L : Nat) (m : RMap) : Prop :=
  (∀ e ∈ m, e.1 = e.2.lhs.hash ∧ GoodRule p L e.2) ∧ m.Pairwise (fun a b => a.1 < b.1)

/-- No non-empty left side of a rule occurs in the word. -/
def Irr (m : RMap) (w : List Nat) : Prop := ∀ e ∈ m, e.2.lhs.ops ≠ [] → ¬ e.2.lhs.ops <:+: w

variable {p : Pre} {L : Nat}

theorem hash_inj (hs : Small p L) {v w : List Nat} (hv : IsWord p L v) (hw : IsWord p L w) : p.hash v = p.hash w ↔ v = w :=
  (C02.C02_hash_shortlex_partial p.num L hs.num hs.count v w hv.1 hw.1 hv.2 hw.2).1

theorem hash_lt (hs : Small p L) {v w : List Nat} (hv : IsWord p L v) (hw : IsWord p L w) :
    p.hash v < p.hash w ↔ List.Shortlex (· < ·) v w :=
  (C02.C02_hash_shortlex_partial p.num L hs.num hs.count v w hv.1 hw.1 hv.2 hw.2).2.1

theorem hash_ne_zero (hs : Small p L) {v : List Nat} (hv : IsWord p L v) : p.hash v ≠ 0 :=
  (C02.C02_hash_shortlex_partial p.num L hs.num hs.count v v hv.1 hv.1 hv.2 hv.2).2.2.1

theorem IsWord.nil : IsWord p L [] := ⟨by simp, by simp⟩

theorem IsWord.infix {v w : List Nat} (hw : IsWord p L w) (h : v <:+: w) : IsWord p L v :=
  ⟨fun o ho => hw.1 o (h.subset ho), h.length_le.trans hw.2⟩

theorem GoodRule.lhs_hash {r : Rule} (h : GoodRule p L r) : r.lhs.hash = p.hash r.lhs.ops := by
  rcases h.lhs.2 with ⟨h0, _⟩ | h0
  · have := h.lt; rw [h0] at this; exact absurd this (by simp)
  · exact h0

theorem shortlex_length {v w : List Nat} (h : List.Shortlex (· < ·) v w) : v.length ≤ w.length := by
  rw [List.shortlex_def] at h; rcases h with h | h
  · exact h.le
  · exact h.1.le

/-- The right side of a good rule is zero or an earlier word. -/
theorem GoodRule.rhs_cases (hs : Small p L) {r : Rule} (h : GoodRule p L r) :
    (r.rhs.hash = 0 ∧ r.rhs.ops = []) ∨
      (r.rhs.hash ≠ 0 ∧ r.rhs.hash = p.hash r.rhs.ops ∧ List.Shortlex (· < ·) r.rhs.ops r.lhs.ops) := by
  rcases h.rhs.2 with h0 | h0
  · exact Or.inl h0
  · refine Or.inr ⟨by rw [h0]; exact hash_ne_zero hs h.rhs.1, h0, ?_⟩
    have := h.lt
    rw [h0, h.lhs_hash] at this
    exact (hash_lt hs h.rhs.1 h.lhs.1).mp this

theorem GoodMap.decreasing (hs : Small p L) {m : RMap} (hm : GoodMap p L m) : Decreasing (rset m) := by
  rintro l t r ⟨e, he, hd⟩
  have hg := (hm.1 e he).2
  simp only [den, term, Prod.mk.injEq] at hd
  obtain ⟨rfl, h2⟩ := hd
  rcases hg.rhs_cases hs with h | ⟨h0, _, h⟩
  · rw [if_pos h.1] at h2; cases h2
  · rw [if_neg h0] at h2
    simp only [Option.some.injEq, Prod.mk.injEq] at h2
    rw [← h2.2]; exact h

/-! ### Finding a rule -/

theorem matchesAnywhere_some {pat : List Nat} : ∀ {w : List Nat} {i j : Nat}, matchesAnywhere pat w i = some j →
    ∃ k, j = i + k ∧ k < w.length ∧ pat <+: w.drop k
  | [], i, j, h => by simp [matchesAnywhere] at h
  | a :: w, i, j, h => by
    rw [matchesAnywhere] at h
    split at h
    · rename_i hp
      simp only [Option.some.injEq] at h
      exact ⟨0, by omega, by simp, by simpa using hp⟩
    · obtain ⟨k, hk, hlt, hp⟩ := matchesAnywhere_some h
      exact ⟨k + 1, by omega, by simpa using hlt, by simpa using hp⟩

theorem matchesAnywhere_none {pat : List Nat} : ∀ {w : List Nat} {i : Nat}, matchesAnywhere pat w i = none → pat ≠ [] →
    ¬ pat <:+: w
  | [], i, _, hp => by
    intro h; exact hp (List.infix_nil.mp h)
  | a :: w, i, h, hp => by
    rw [matchesAnywhere] at h
    split at h
    · simp at h
    · rename_i hn
      intro hi
      rcases List.infix_cons_iff.mp hi with h1 | h1
      · exact hn (by simpa using h1)
      · exact matchesAnywhere_none h hp h1

theorem matchesAnywhere_isSome {pat w : List Nat} {i : Nat} (hp : pat ≠ []) : (matchesAnywhere pat w i).isSome ↔ pat <:+: w := by
  constructor
  · intro h
    obtain ⟨j, hj⟩ := Option.isSome_iff_exists.mp h
    obtain ⟨k, _, _, hk⟩ := matchesAnywhere_some hj
    exact hk.isInfix.trans (List.drop_suffix _ _).isInfix
  · intro h
    by_contra hn
    exact matchesAnywhere_none (by simpa using hn) hp h

/-- What a search for something to replace may answer. -/
def PickSpec (m : RMap) (w : List Nat) : Option (Rule × Nat) → Prop
  | none => Irr m w
  | some (r, i) => (∃ e ∈ m, e.2 = r) ∧ i < w.length ∧ r.lhs.ops <+: w.drop i

theorem firstMatch_spec (w : List Nat) : ∀ m : RMap, PickSpec m w (firstMatch w m)
  | [] => by intro e he; simp at he
  | (k, r) :: m => by
    rw [firstMatch]
    split
    · rename_i i hi
      obtain ⟨j, hj, hlt, hp⟩ := matchesAnywhere_some hi
      simp only [Nat.zero_add] at hj
      subst hj
      exact ⟨⟨(k, r), by simp, rfl⟩, hlt, hp⟩
    · rename_i hn
      have ih := firstMatch_spec w m
      cases hf : firstMatch w m with
      | none =>
        rw [hf] at ih
        intro e he hne
        rcases List.mem_cons.mp he with rfl | he
        · exact matchesAnywhere_none hn hne
        · exact ih e he hne
      | some x =>
        rw [hf] at ih
        obtain ⟨r', i⟩ := x
        obtain ⟨⟨e, he, e1⟩, h2⟩ := ih
        exact ⟨⟨e, List.mem_cons_of_mem _ he, e1⟩, h2⟩

theorem find_some {k : UInt64} {m : RMap} {r : Rule} (h : find k m = some r) : (k, r) ∈ m := by
  induction m with
  | nil => simp [find] at h
  | cons e m ih =>
    obtain ⟨k', v⟩ := e
    rw [find] at h
    split at h
    · rename_i hk; simp only [Option.some.injEq] at h; subst hk h; simp
    · exact List.mem_cons_of_mem _ (ih h)

theorem find_none {k : UInt64} {m : RMap} (h : find k m = none) : ∀ e ∈ m, e.1 ≠ k := by
  induction m with
  | nil => simp
  | cons e m ih =>
    obtain ⟨k', v⟩ := e
    rw [find] at h
    split at h
    · simp at h
    · rename_i hk
      intro e he
      rcases List.mem_cons.mp he with rfl | he
      · exact hk
      · exact ih h e he

theorem searchSub_yields (m : RMap) (radix : UInt64) (w : List Nat) {st : Substring.State} {l : List (Nat × Nat × UInt64)}
    (h : Yields (Substring.next radix w) Substring.atEnd Substring.value st l) :
    searchSub m radix w st = some (l.findSome? fun x => (find x.2.2 m).map fun r => (r, x.1)) := by
  induction h with
  | done he => rw [searchSub, if_pos he]; rfl
  | @step s l hn _ ih =>
    rw [searchSub, if_neg hn, List.findSome?_cons]
    cases hf : find (Substring.value s).2.2 m with
    | some r => rfl
    | none => simpa using ih

theorem slice_infix (w : List Nat) (a b : Nat) : C05.slice w a b <:+: w := by
  unfold C05.slice
  exact (List.take_prefix _ _).isInfix.trans (List.drop_suffix _ _).isInfix

theorem searchSub_spec (hs : Small p L) {m : RMap} (hm : GoodMap p L m) {w : List Nat} (hw : IsWord p L w) :
    ∃ o, searchSub m (UInt64.ofNat p.num) w (Substring.first w) = some o ∧ PickSpec m w o := by
  obtain ⟨l, hl, _, hmem⟩ := C05.C05_substring_hashes (UInt64.ofNat p.num) w
  refine ⟨_, searchSub_yields m _ w hl, ?_⟩
  cases hf : l.findSome? (fun x => (find x.2.2 m).map fun r => (r, x.1)) with
  | none =>
    intro e he hne hinf
    rw [List.findSome?_eq_none_iff] at hf
    obtain ⟨u, v, huv⟩ := hinf
    have hx : (u.length, u.length + e.2.lhs.ops.length, hashWord (UInt64.ofNat p.num) e.2.lhs.ops) ∈ l := by
      rw [hmem]
      refine ⟨?_, ?_, ?_⟩
      · have := List.length_pos_iff.mpr hne; omega
      · rw [← huv]; simp
      · congr 1
        rw [← huv]; simp [C05.slice]
    have := hf _ hx
    simp only [Option.map_eq_none_iff] at this
    refine find_none this e he ?_
    rw [(hm.1 e he).1, (hm.1 e he).2.lhs_hash]; rfl
  | some x =>
    obtain ⟨r, i⟩ := x
    obtain ⟨⟨a, b, h⟩, hx, hfx⟩ := List.exists_of_findSome?_eq_some hf
    simp only [Option.map_eq_some_iff, Prod.mk.injEq] at hfx
    obtain ⟨r', hr', rfl, rfl⟩ := hfx
    obtain ⟨hab, hbl, rfl⟩ := (hmem _ _ _).mp hx
    have he := find_some hr'
    have hg := hm.1 _ he
    refine ⟨⟨_, he, rfl⟩, by omega, ?_⟩
    have : r'.lhs.ops = C05.slice w a b := by
      rw [← hash_inj hs hg.2.lhs.1 (hw.infix (slice_infix w a b)), ← hg.2.lhs_hash, ← hg.1]; rfl
    rw [this]
    unfold C05.slice
    exact List.take_prefix _ _

/-! ### Applying a rule -/

theorem GoodRule.apply_eq {r : Rule} (h : GoodRule p L r) (h0 : r.rhs.isZero = false) (u v : List Nat) :
    r.apply (u ++ r.lhs.ops ++ v) u.length = some (u ++ r.rhs.ops ++ v) := by
  unfold Rule.apply
  rw [h.toZero, h0]
  simp only [Bool.false_eq_true, if_false, h.delta]
  have e : ((u ++ r.lhs.ops ++ v).length : Int) + ((r.rhs.ops.length : Int) - r.lhs.ops.length) =
      u.length + r.rhs.ops.length + v.length := by simp; omega
  rw [e]
  by_cases hz : ((u.length : Int) + r.rhs.ops.length + v.length) ≤ 0
  · have h1 : u.length = 0 := by omega
    have h2 : r.rhs.ops.length = 0 := by omega
    have h3 : v.length = 0 := by omega
    rw [List.length_eq_zero_iff] at h1 h2 h3
    simp [h1, h2, h3]
  · rw [if_neg hz]
    have h1 : List.drop (u.length + r.lhs.ops.length) (u ++ r.lhs.ops ++ v) = v := List.drop_left' (by simp)
    have h2 : List.take u.length (u ++ r.lhs.ops ++ v) = u := by rw [List.append_assoc]; exact List.take_left' rfl
    rw [h1, h2, if_neg (by simp; omega)]

theorem GoodRule.step (hs : Small p L) {m : RMap} (hm : GoodMap p L m) {w : List Nat} (hw : IsWord p L w) {r : Rule} {i : Nat}
    (hp : PickSpec m w (some (r, i))) (s : Sign) :
    (r.rhs.isZero = true ∧ Step (rset m) (some (s, w)) none) ∨
    (r.rhs.isZero = false ∧ ∃ w', r.apply w i = some w' ∧ Step (rset m) (some (s, w)) (some (s.mul r.rhs.sign, w')) ∧
      List.Shortlex (· < ·) w' w ∧ IsWord p L w') := by
  obtain ⟨⟨e, he, rfl⟩, hi, v, hv⟩ := hp
  have hg := (hm.1 e he).2
  have hw' : w = w.take i ++ e.2.lhs.ops ++ v := by rw [List.append_assoc, hv, List.take_append_drop]
  have hu : (w.take i).length = i := by rw [List.length_take]; omega
  have hd : den e.2 ∈ rset m := ⟨e, he, rfl⟩
  cases hz : e.2.rhs.isZero with
  | true =>
    left
    refine ⟨rfl, ?_⟩
    have hz' : e.2.rhs.hash = 0 := by simpa [HSeq.isZero] using hz
    rw [hw']
    exact Step.zero (by simpa [den, term, hz'] using hd)
  | false =>
    right
    have hz' : e.2.rhs.hash ≠ 0 := by simpa [HSeq.isZero] using hz
    refine ⟨rfl, w.take i ++ e.2.rhs.ops ++ v, ?_, ?_, ?_, ?_⟩
    · have := hg.apply_eq hz (w.take i) v
      rwa [hu, ← hw'] at this
    · conv_lhs => rw [hw']
      exact Step.word (by simpa [den, term, hz'] using hd)
    · rcases hg.rhs_cases hs with h | ⟨_, _, h⟩
      · exact absurd h.1 hz'
      · have := shortlex_context h (w.take i) v
        rwa [← hw'] at this
    · rcases hg.rhs_cases hs with h | ⟨_, _, h⟩
      · exact absurd h.1 hz'
      · constructor
        · intro o ho
          rcases List.mem_append.mp ho with ho | ho
          · rcases List.mem_append.mp ho with ho | ho
            · exact hw.1 o (List.mem_of_mem_take ho)
            · exact hg.rhs.1.1 o ho
          · exact hw.1 o (by rw [hw']; exact List.mem_append_right _ ho)
        · have := shortlex_length (shortlex_context h (w.take i) v)
          rw [← hw'] at this
          exact this.trans hw.2

/-! ### The loops -/

/-- What the raw reductions give: nothing found; a fully reduced word reached by at least one replacement; or zero reached. -/
def RawSpec (p : Pre) (L : Nat) (m : RMap) (w : List Nat) (s : Sign) (b : Bool) (out : Raw × List Nat × Sign) : Prop :=
  (out = (if b then .matched else .noMatch, w, s) ∧ Irr m w) ∨
  (∃ w' s', out = (.matched, w', s') ∧ Relation.TransGen (Step (rset m)) (some (s, w)) (some (s', w')) ∧ Irr m w' ∧ IsWord p L w' ∧
    List.Shortlex (· < ·) w' w) ∨
  (out.1 = .setToZero ∧ Relation.TransGen (Step (rset m)) (some (s, w)) none)

theorem shortlex_trans {a b c : List Nat} (h1 : List.Shortlex (· < ·) a b) (h2 : List.Shortlex (· < ·) b c) :
    List.Shortlex (· < ·) a c := by
  rw [List.shortlex_def] at *
  rcases h1 with h1 | ⟨h1, h1'⟩ <;> rcases h2 with h2 | ⟨h2, h2'⟩
  · left; omega
  · left; omega
  · left; omega
  · right
    refine ⟨by omega, ?_⟩
    have t := @List.lt_trans Nat _ _ a b c (by exact h1') (by exact h2')
    exact t

theorem loop_spec (hs : Small p L) {m : RMap} (hm : GoodMap p L m) (loop : List Nat → Sign → Bool → Option (Raw × List Nat × Sign))
    (zs : Sign → Sign)
    (hunf : ∀ w s b, IsWord p L w → ∃ o, PickSpec m w o ∧ loop w s b =
      match o with
      | none => some (if b then .matched else .noMatch, w, s)
      | some (r, i) => if r.rhs.isZero then some (.setToZero, w, zs s) else (r.apply w i) >>= fun w' => loop w' (s.mul r.rhs.sign) true)
    (w : List Nat) : ∀ s b, IsWord p L w → ∃ out, loop w s b = some out ∧ RawSpec p L m w s b out := by
  induction w using (List.Shortlex.wf (r := (· < · : Nat → Nat → Prop)) wellFounded_lt).induction with
  | _ w ih =>
    intro s b hw
    obtain ⟨o, hp, he⟩ := hunf w s b hw
    rw [he]
    rcases o with _ | ⟨r, i⟩
    · exact ⟨_, rfl, Or.inl ⟨rfl, hp⟩⟩
    · rcases GoodRule.step hs hm hw hp s with ⟨hz, hst⟩ | ⟨hz, w', ha, hst, hlt, hw'⟩
      · simp only [hz, if_true]
        exact ⟨_, rfl, Or.inr (Or.inr ⟨rfl, .single hst⟩)⟩
      · simp only [hz, Bool.false_eq_true, if_false, ha, Option.bind_eq_bind, Option.bind_some]
        obtain ⟨out, h1, h2⟩ := ih w' hlt (s.mul r.rhs.sign) true hw'
        refine ⟨out, h1, ?_⟩
        rcases h2 with ⟨rfl, hirr⟩ | ⟨w2, s2, rfl, ht, hirr, hw2, hlt2⟩ | ⟨h3, ht⟩
        · exact Or.inr (Or.inl ⟨_, _, rfl, .single hst, hirr, hw', hlt⟩)
        · exact Or.inr (Or.inl ⟨_, _, rfl, .head hst ht, hirr, hw2, shortlex_trans hlt2 hlt⟩)
        · exact Or.inr (Or.inr ⟨h3, .head hst ht⟩)

theorem viaIteration_spec (hs : Small p L) {m : RMap} (hm : GoodMap p L m) {w : List Nat} (hw : IsWord p L w) (s : Sign) :
    ∃ out, viaIteration m w s = some out ∧ RawSpec p L m w s false out := by
  refine loop_spec hs hm (iterLoop m) (fun _ => .pos) (fun w s b _ => ⟨firstMatch w m, firstMatch_spec w m, ?_⟩) w s false hw
  rw [iterLoop]
  rcases firstMatch w m with _ | ⟨r, i⟩ <;> rfl

theorem viaSearch_spec (hs : Small p L) {m : RMap} (hm : GoodMap p L m) {w : List Nat} (hw : IsWord p L w) (s : Sign) :
    ∃ out, viaSearch p m w s = some out ∧ RawSpec p L m w s false out := by
  refine loop_spec hs hm (searchLoop m (UInt64.ofNat p.num)) (fun s => s) (fun w s b hw => ?_) w s false hw
  obtain ⟨o, ho, hp⟩ := searchSub_spec hs hm hw
  refine ⟨o, hp, ?_⟩
  rw [searchLoop, ho]
  rcases o with _ | ⟨r, i⟩ <;> rfl

end Moment.Rules
