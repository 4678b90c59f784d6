import Verif.Model.Storage
import Verif.Model.Iter
import Mathlib.Data.List.Basic
import Mathlib.Tactic.Linarith
import Mathlib.Logic.Relation

/-! # C39: stored objects are found under their own key; C60: one object for all threads -/

namespace Moment.C39

open Storage

variable {V : Type}

/-! ## Specification -/

/-- Calls that change the store. -/
inductive Call (V : Type) where
  | store : V → Bool → Call V
  | release : UInt64 → Call V
  | clear : Call V

/-- The effect of a call. -/
def perform (s : Store V) : Call V → Store V
  | .store v owned => if owned then (s.storeOwned v).1 else (s.storeShared v).1
  | .release k => s.release k
  | .clear => s.clear

/-- The key returned by storing. -/
def keyOf (s : Store V) (owned : Bool) (v : V) : UInt64 := if owned then (s.storeOwned v).2 else (s.storeShared v).2

/-- The store after a history. -/
def run (signature : UInt32) (h : List (Call V)) : Store V := h.foldl perform (Store.new signature)

/-- Objects stored by a call. -/
def weight : Call V → Nat
  | .store _ _ => 1
  | _ => 0

/-- Number of objects stored in a history. -/
def stores (h : List (Call V)) : Nat := (h.map weight).sum

/-- No call empties the whole store. -/
def NoClear (h : List (Call V)) : Prop := ∀ c ∈ h, match c with | .clear => False | _ => True

/-! ## Keys -/

theorem key_toNat (g i : UInt32) : (signIndex g i).toNat = g.toNat * 2 ^ 32 + i.toNat := by
  have hi := i.toNat_lt
  have hg := g.toNat_lt
  unfold signIndex
  rw [UInt64.toNat_or, UInt64.toNat_shiftLeft]
  simp only [UInt32.toNat_toUInt64]
  have h32 : (UInt64.toNat 32) % 64 = 32 := rfl
  rw [h32, Nat.mod_eq_of_lt (by rw [Nat.shiftLeft_eq]; omega), ← Nat.shiftLeft_add_eq_or_of_lt hi, Nat.shiftLeft_eq]

theorem shared_toNat (g i : UInt32) : (sharedKey g i).toNat = g.toNat * 2 ^ 32 + i.toNat := by
  have hi := i.toNat_lt
  have hg := g.toNat_lt
  unfold sharedKey
  rw [UInt64.toNat_add, UInt64.toNat_shiftLeft]
  simp only [UInt32.toNat_toUInt64]
  have h32 : (UInt64.toNat 32) % 64 = 32 := rfl
  rw [h32, Nat.mod_eq_of_lt (by rw [Nat.shiftLeft_eq]; omega), Nat.shiftLeft_eq, Nat.mod_eq_of_lt (by omega)]

theorem shared_eq (g i : UInt32) : sharedKey g i = signIndex g i := by
  apply UInt64.toNat_inj.mp; rw [shared_toNat, key_toNat]

theorem index_toNat (k : UInt64) : (getIndex k).toNat = k.toNat % 2 ^ 32 := by
  unfold getIndex
  rw [UInt64.toNat_toUInt32, UInt64.toNat_and]
  have : UInt64.toNat 0x00000000FFFFFFFF = 2 ^ 32 - 1 := rfl
  rw [this, Nat.and_two_pow_sub_one_eq_mod, Nat.mod_mod]

theorem check_iff (g : UInt32) (k : UInt64) : checkSignature g k = true ↔ k.toNat / 2 ^ 32 = g.toNat := by
  unfold checkSignature
  rw [beq_iff_eq, ← UInt32.toNat_inj, UInt64.toNat_toUInt32, UInt64.toNat_shiftRight, UInt64.toNat_and]
  have h32 : (UInt64.toNat 32) % 64 = 32 := rfl
  have hk := k.toNat_lt
  have h : (k.toNat &&& UInt64.toNat 0xFFFFFFFF00000000) >>> 32 = k.toNat / 2 ^ 32 := by
    rw [Nat.shiftRight_and_distrib, show (UInt64.toNat 0xFFFFFFFF00000000) >>> 32 = 2 ^ 32 - 1 from rfl, Nat.and_two_pow_sub_one_eq_mod,
      Nat.shiftRight_eq_div_pow, Nat.mod_eq_of_lt (by omega)]
  rw [h32, h, Nat.mod_eq_of_lt (by omega)]

/-- **C39.** Keys are made of the signature and the number, and can be taken apart again. -/
theorem C39_keys (g i : UInt32) : getIndex (signIndex g i) = i ∧ checkSignature g (signIndex g i) = true ∧ sharedKey g i = signIndex g i ∧
    ∀ k : UInt64, checkSignature g k = true → signIndex g (getIndex k) = k := by
  have hi := i.toNat_lt
  refine ⟨?_, ?_, shared_eq g i, fun k hk => ?_⟩
  · apply UInt32.toNat_inj.mp; rw [index_toNat, key_toNat]; omega
  · rw [check_iff, key_toNat]; omega
  · rw [check_iff] at hk
    apply UInt64.toNat_inj.mp
    rw [key_toNat, index_toNat, ← hk]; omega

example : signIndex 0x1234abcd 7 = 0x1234abcd00000007 := by decide

/-- **C39.** Keys of another signature are refused. -/
theorem C39_other_signature (s : Store V) (g i : UInt32) (h : g ≠ s.signature) : s.get (signIndex g i) = .badSignature := by
  have : checkSignature s.signature (signIndex g i) = false := by
    rw [Bool.eq_false_iff]
    intro hc
    rw [check_iff, key_toNat] at hc
    have hi := i.toNat_lt
    exact h (UInt32.toNat_inj.mp (by omega))
  simp [Store.get, this]

example : (5 : UInt32) ≠ (Store.new 4 : Store Nat).signature := by decide

/-! ## The map -/

theorem lookup_emplace (l : List (UInt32 × V)) (x y : UInt32) (w : V) (hl : l.Pairwise fun a b => a.1 < b.1) :
    lookup (emplace l x w) y = if y = x then some ((lookup l x).getD w) else lookup l y := by
  induction l with
  | nil =>
    by_cases h : y = x
    · subst h; simp [emplace, lookup]
    · simp [emplace, lookup, h, Ne.symm h]
  | cons a l ih =>
    obtain ⟨i, v⟩ := a
    have ih' := ih (List.pairwise_cons.mp hl).2
    clear ih
    simp only [emplace]
    split
    · rename_i hix
      have hne : i ≠ x := fun h => by subst h; exact absurd hix (UInt32.lt_irrefl i)
      simp only [lookup, ih', if_neg hne]
      by_cases hy : i = y
      · subst hy; simp [hne]
      · simp [hy]
    · split
      · rename_i h1 h2
        subst h2
        by_cases hy : i = y
        · subst hy; simp [lookup]
        · simp [lookup, hy, Ne.symm hy]
      · rename_i h1 h2
        have hxi : x < i := by
          rw [UInt32.lt_iff_toNat_lt] at *
          have : i.toNat ≠ x.toNat := fun h => h2 (UInt32.toNat_inj.mp h)
          omega
        have hno : lookup l x = none := by
          have : ∀ b ∈ l, b.1 ≠ x := by
            intro b hb h
            have h3 := (List.pairwise_cons.mp hl).1 b hb
            rw [h] at h3
            rw [UInt32.lt_iff_toNat_lt] at h3 hxi
            simp only at h3
            omega
          clear * - this
          induction l with
          | nil => rfl
          | cons b l ihl =>
            obtain ⟨j, u⟩ := b
            rw [lookup, if_neg (this (j, u) (by simp))]
            exact ihl fun b hb => this b (by simp [hb])
        by_cases hy : y = x
        · subst hy; simp [lookup, h2, hno]
        · simp [lookup, hy, Ne.symm hy]

theorem emplace_mem (l : List (UInt32 × V)) (x : UInt32) (w : V) : ∀ a ∈ emplace l x w, a ∈ l ∨ a.1 = x := by
  induction l with
  | nil => intro a ha; simp [emplace] at ha; right; rw [ha]
  | cons b l ih =>
    obtain ⟨i, v⟩ := b
    intro a ha
    simp only [emplace] at ha
    split at ha
    · rcases List.mem_cons.mp ha with h | h
      · left; simp [h]
      · rcases ih a h with h | h
        · left; simp [h]
        · exact Or.inr h
    · split at ha
      · exact Or.inl ha
      · rcases List.mem_cons.mp ha with h | h
        · right; rw [h]
        · exact Or.inl h

theorem emplace_sorted (l : List (UInt32 × V)) (x : UInt32) (w : V) (hl : l.Pairwise fun a b => a.1 < b.1) :
    (emplace l x w).Pairwise fun a b => a.1 < b.1 := by
  induction l with
  | nil => simp [emplace]
  | cons b l ih =>
    obtain ⟨i, v⟩ := b
    obtain ⟨h1, h2⟩ := List.pairwise_cons.mp hl
    simp only [emplace]
    split
    · rename_i hix
      refine List.pairwise_cons.mpr ⟨fun a ha => ?_, ih h2⟩
      rcases emplace_mem l x w a ha with h | h
      · exact h1 a h
      · rw [h]; exact hix
    · split
      · exact hl
      · rename_i h3 h4
        have hxi : x < i := by
          rw [UInt32.lt_iff_toNat_lt] at *
          have : i.toNat ≠ x.toNat := fun h => h4 (UInt32.toNat_inj.mp h)
          omega
        refine List.pairwise_cons.mpr ⟨fun a ha => ?_, hl⟩
        rcases List.mem_cons.mp ha with h | h
        · rw [h]; exact hxi
        · exact UInt32.lt_trans hxi (h1 a h)

theorem lookup_erase (l : List (UInt32 × V)) (x y : UInt32) : lookup (erase l x) y = if y = x then none else lookup l y := by
  induction l with
  | nil => simp [erase, lookup]
  | cons a l ih =>
    obtain ⟨i, v⟩ := a
    have e : erase ((i, v) :: l) x = if i = x then erase l x else (i, v) :: erase l x := by
      unfold erase; rw [List.filter_cons]; simp
    rw [e]
    by_cases h : i = x
    · subst h
      rw [if_pos rfl, ih]
      by_cases hy : y = i
      · rw [if_pos hy, if_pos hy]
      · rw [if_neg hy, if_neg hy, lookup, if_neg (Ne.symm hy)]
    · rw [if_neg h, lookup, ih, lookup]
      by_cases hy : i = y
      · subst hy; simp [h]
      · simp [hy]

theorem lookup_some (l : List (UInt32 × V)) (x : UInt32) (h : lookup l x ≠ none) : ∃ a ∈ l, a.1 = x := by
  induction l with
  | nil => simp [lookup] at h
  | cons a l ih =>
    obtain ⟨i, v⟩ := a
    rw [lookup] at h
    split at h
    · rename_i hi; exact ⟨(i, v), by simp, hi⟩
    · obtain ⟨b, hb, hb2⟩ := ih h
      exact ⟨b, by simp [hb], hb2⟩

/-! ## Histories -/

/-- Objects are ordered. -/
def Good (s : Store V) : Prop := s.objects.Pairwise fun a b => a.1 < b.1

theorem perform_good (s : Store V) (c : Call V) (hs : Good s) : Good (perform s c) ∧ (perform s c).signature = s.signature := by
  cases c with
  | store v owned => cases owned <;> exact ⟨emplace_sorted _ _ _ hs, rfl⟩
  | release k =>
    simp only [perform, Store.release]
    split
    · exact ⟨List.Pairwise.filter _ hs, rfl⟩
    · exact ⟨hs, rfl⟩
  | clear => exact ⟨List.Pairwise.nil, rfl⟩

theorem get_found (s : Store V) (i : UInt32) : s.get (signIndex s.signature i) = match lookup s.objects i with | none => .notFound | some v => .found v := by
  obtain ⟨h1, h2, -, -⟩ := C39_keys s.signature i
  simp only [Store.get, h2, h1, Bool.not_true, Bool.false_eq_true, if_false]
  cases lookup s.objects i <;> rfl

theorem lookup_release (s : Store V) (k : UInt64) (i : UInt32) :
    lookup (s.release k).objects i = if signIndex s.signature i = k then none else lookup s.objects i := by
  obtain ⟨h1, h2, -, -⟩ := C39_keys s.signature i
  by_cases hk : checkSignature s.signature k = true
  · have h3 := (C39_keys s.signature i).2.2.2 k hk
    have hiff : signIndex s.signature i = k ↔ i = getIndex k := by
      constructor
      · intro h; rw [← h, h1]
      · intro h; rw [h, h3]
    simp only [hiff]
    unfold Store.release
    rw [← h3, get_found, (C39_keys s.signature (getIndex k)).1]
    cases hl : lookup s.objects (getIndex k) with
    | none =>
      dsimp only
      by_cases hi : i = getIndex k
      · rw [if_pos hi, hi, hl]
      · rw [if_neg hi]
    | some v => dsimp only; rw [lookup_erase]
  · have hne : signIndex s.signature i ≠ k := by intro h; rw [← h] at hk; exact hk h2
    rw [if_neg hne]
    simp [Store.release, Store.get, hk]

theorem lookup_store (s : Store V) (hs : Good s) (v : V) (owned : Bool) (i : UInt32) :
    lookup (perform s (.store v owned)).objects i = if i = s.nextID then some ((lookup s.objects i).getD v) else lookup s.objects i := by
  have : lookup (emplace s.objects s.nextID v) i = if i = s.nextID then some ((lookup s.objects i).getD v) else lookup s.objects i := by
    rw [lookup_emplace _ _ _ _ hs]
    by_cases h : i = s.nextID
    · subst h; rfl
    · simp [h]
  cases owned <;> exact this

/-- As long as fewer than 2^32 objects were stored since the beginning, used numbers are below the next one. -/
def Fresh (s : Store V) (n : Nat) : Prop := s.nextID.toNat = n ∧ ∀ i, lookup s.objects i ≠ none → i.toNat < n

theorem keyOf_eq (s : Store V) (owned : Bool) (v : V) : keyOf s owned v = signIndex s.signature s.nextID := by
  cases owned
  · exact shared_eq _ _
  · rfl

theorem fresh_perform (s : Store V) (c : Call V) (n : Nat) (hs : Good s) (h : Fresh s n) (hc : match c with | .clear => False | _ => True)
    (hn : n + 1 < 2 ^ 32 ∨ ∃ k, c = .release k) : Fresh (perform s c) (n + weight c) := by
  cases c with
  | store v owned =>
    have hn' : n + 1 < 2 ^ 32 := by rcases hn with h | ⟨k, h⟩ <;> simp_all
    refine ⟨?_, fun i hi => ?_⟩
    · have : (perform s (.store v owned)).nextID = s.nextID + 1 := by cases owned <;> rfl
      rw [this, UInt32.toNat_add, h.1]
      show (n + 1) % 2 ^ 32 = n + 1
      omega
    · rw [lookup_store s hs] at hi
      by_cases e : i = s.nextID
      · rw [e, h.1]; simp only [weight]; omega
      · rw [if_neg e] at hi
        have := h.2 i hi
        simp only [weight]; omega
  | release k =>
    refine ⟨?_, fun i hi => ?_⟩
    · have : (perform s (.release k)).nextID = s.nextID := by simp only [perform, Store.release]; split <;> rfl
      rw [this]; exact h.1
    · simp only [perform, lookup_release] at hi
      split at hi
      · exact absurd rfl hi
      · exact h.2 i hi
  | clear => exact hc.elim

theorem stores_cons (c : Call V) (h : List (Call V)) : stores (c :: h) = stores h + weight c := by
  rw [stores, List.map_cons, List.sum_cons, Nat.add_comm]; rfl

theorem fresh_foldl (h : List (Call V)) : ∀ (s : Store V) (n : Nat), Good s → Fresh s n → NoClear h → n + stores h < 2 ^ 32 →
    Good (h.foldl perform s) ∧ Fresh (h.foldl perform s) (n + stores h) ∧ (h.foldl perform s).signature = s.signature := by
  induction h with
  | nil => intro s n h1 h2 _ _; exact ⟨h1, by simpa [stores] using h2, rfl⟩
  | cons c h ih =>
    intro s n h1 h2 h3 h4
    rw [stores_cons] at h4 ⊢
    have hc := h3 c (by simp)
    have hf := fresh_perform s c n h1 h2 hc (by
      cases c with
      | store v o => left; simp only [weight] at h4; omega
      | release k => exact Or.inr ⟨k, rfl⟩
      | clear => exact hc.elim)
    obtain ⟨i1, i2, i3⟩ := ih _ _ (perform_good s c h1).1 hf (fun d hd => h3 d (by simp [hd])) (by omega)
    refine ⟨i1, ?_, i3.trans (perform_good s c h1).2⟩
    rw [show n + (stores h + weight c) = n + weight c + stores h by omega]
    exact i2

/-- What lies under a number already used: changed only by releasing it. -/
theorem lookup_foldl (h : List (Call V)) (i : UInt32) : ∀ (s : Store V) (n : Nat), Good s → Fresh s n → i.toNat < n → NoClear h → n + stores h < 2 ^ 32 →
    (.release (signIndex s.signature i) ∈ h → lookup (h.foldl perform s).objects i = none) ∧
    (.release (signIndex s.signature i) ∉ h → lookup (h.foldl perform s).objects i = lookup s.objects i) ∧
    (lookup s.objects i = none → lookup (h.foldl perform s).objects i = none) := by
  induction h with
  | nil => intro s n _ _ _ _ _; simp
  | cons c h ih =>
    intro s n h1 h2 hi h3 h4
    rw [stores_cons] at h4
    have hc := h3 c (by simp)
    have hf := fresh_perform s c n h1 h2 hc (by
      cases c with
      | store v o => left; simp only [weight] at h4; omega
      | release k => exact Or.inr ⟨k, rfl⟩
      | clear => exact hc.elim)
    obtain ⟨hg, hsig⟩ := perform_good s c h1
    obtain ⟨i1, i2, i3⟩ := ih _ _ hg hf (by omega) (fun d hd => h3 d (by simp [hd])) (by omega)
    rw [hsig] at i1 i2
    rw [List.foldl_cons]
    cases c with
    | store v o =>
      have : lookup (perform s (.store v o)).objects i = lookup s.objects i := by
        rw [lookup_store s h1, if_neg]
        intro e; rw [e, h2.1] at hi; omega
      rw [this] at i2 i3
      refine ⟨fun hm => i1 (by simpa using hm), fun hm => i2 (by simpa using hm), i3⟩
    | release k =>
      have : lookup (perform s (.release k)).objects i = if signIndex s.signature i = k then none else lookup s.objects i := lookup_release s k i
      rw [this] at i2 i3
      by_cases hk : signIndex s.signature i = k
      · rw [if_pos hk] at i3
        exact ⟨fun _ => i3 rfl, fun hm => absurd (by rw [hk]; simp) hm, fun _ => i3 rfl⟩
      · rw [if_neg hk] at i2 i3
        refine ⟨fun hm => i1 ?_, fun hm => i2 fun hm' => hm (by simp [hm']), i3⟩
        rcases List.mem_cons.mp hm with e | e
        · exact absurd (Call.release.inj e) hk
        · exact e
    | clear => exact hc.elim

theorem new_good (g : UInt32) : Good (Store.new g : Store V) ∧ Fresh (Store.new g : Store V) 0 :=
  ⟨List.Pairwise.nil, rfl, fun i h => absurd rfl h⟩

/-- **C39 (up to 2^32 objects, without `clear`).** Whatever happens before and after an object is stored, the key returned for it gives this object until the key
is released, and is not found from then on. The full statement, for all histories, fails (see below). -/
theorem C39_own_key_partial (g : UInt32) (before after : List (Call V)) (v : V) (owned : Bool) (h1 : NoClear before) (h2 : NoClear after)
    (h3 : stores before + stores after + 1 < 2 ^ 32) :
    (.release (keyOf (run g before) owned v) ∉ after → (run g (before ++ .store v owned :: after)).get (keyOf (run g before) owned v) = .found v) ∧
    (.release (keyOf (run g before) owned v) ∈ after → (run g (before ++ .store v owned :: after)).get (keyOf (run g before) owned v) = .notFound) := by
  obtain ⟨a1, a2, a3⟩ := fresh_foldl before _ 0 (new_good g).1 (new_good g).2 h1 (by omega)
  set s := before.foldl perform (Store.new g) with hs
  have hrun : run g before = s := rfl
  rw [Nat.zero_add] at a2
  have b2 := fresh_perform s (.store v owned) _ a1 a2 trivial (Or.inl (by omega))
  obtain ⟨b1, b3⟩ := perform_good s (.store v owned) a1
  simp only [weight] at b2
  have hl := lookup_foldl after s.nextID (perform s (.store v owned)) _ b1 b2 (by rw [a2.1]; omega) h2 (by omega)
  obtain ⟨-, -, c3⟩ := fresh_foldl after _ _ b1 b2 h2 (by omega)
  have hold : lookup s.objects s.nextID = none := by
    by_contra hne
    have := a2.2 _ hne
    rw [a2.1] at this; omega
  rw [lookup_store s a1, if_pos rfl, hold, Option.getD_none, b3] at hl
  obtain ⟨hl1, hl2, -⟩ := hl
  rw [hrun, keyOf_eq]
  have hfin : run g (before ++ .store v owned :: after) = after.foldl perform (perform s (.store v owned)) := by
    rw [run, List.foldl_append, List.foldl_cons]
  have hsg : s.signature = (after.foldl perform (perform s (.store v owned))).signature := by rw [c3, b3]
  have hget : (after.foldl perform (perform s (.store v owned))).get (signIndex s.signature s.nextID) =
      match lookup (after.foldl perform (perform s (.store v owned))).objects s.nextID with | none => .notFound | some v => .found v := by
    rw [hsg, get_found]
  rw [hfin, hget]
  exact ⟨fun h => by rw [hl2 h], fun h => by rw [hl1 h]⟩

example : NoClear [Call.store 5 true, .release 3] ∧ stores [Call.store 5 true, .release 3] + stores ([] : List (Call Nat)) + 1 < 2 ^ 32 := by
  refine ⟨?_, by decide⟩
  intro c hc
  simp at hc
  rcases hc with rfl | rfl <;> trivial

/-- **C39 (up to 2^32 objects, without `clear`).** Objects stored at different times have different keys. -/
theorem C39_keys_differ_partial (g : UInt32) (before after : List (Call V)) (v w : V) (o o' : Bool) (h1 : NoClear before) (h2 : NoClear after)
    (h3 : stores before + stores after + 1 < 2 ^ 32) :
    keyOf (run g before) o v ≠ keyOf (run g (before ++ .store v o :: after)) o' w := by
  obtain ⟨a1, a2, a3⟩ := fresh_foldl before _ 0 (new_good g).1 (new_good g).2 h1 (by omega)
  set s := before.foldl perform (Store.new g) with hs
  have hrun : run g before = s := rfl
  rw [Nat.zero_add] at a2
  have b2 := fresh_perform s (.store v o) _ a1 a2 trivial (Or.inl (by omega))
  obtain ⟨b1, b3⟩ := perform_good s (.store v o) a1
  simp only [weight] at b2
  obtain ⟨-, c2, c3⟩ := fresh_foldl after _ _ b1 b2 h2 (by omega)
  have hfin : run g (before ++ .store v o :: after) = after.foldl perform (perform s (.store v o)) := by
    rw [run, List.foldl_append, List.foldl_cons]
  rw [hrun, hfin, keyOf_eq, keyOf_eq]
  intro h
  have := congrArg UInt64.toNat h
  rw [key_toNat, key_toNat, c3, b3, a2.1, c2.1] at this
  omega

/-- **C39 (violated).** After `clear` the numbers start again: an old key gives an object stored later. -/
theorem C39_refuted_clear (g : UInt32) (v w : V) :
    keyOf (run g []) true v = keyOf (run g [.store v true, .clear]) true w ∧
    (run g [.store v true, .clear, .store w true]).get (keyOf (run g []) true v) = .found w := by
  have h0 : (run g ([] : List (Call V))) = Store.new g := rfl
  refine ⟨rfl, ?_⟩
  rw [h0, keyOf_eq]
  show Store.get (⟨g, [(0, w)], 1⟩ : Store V) (signIndex g 0) = _
  exact get_found ⟨g, [(0, w)], 1⟩ 0

/-- The store after storing `n` times the same. -/
theorem run_many (g : UInt32) (v w : V) (n : Nat) : Good (run g (.store v true :: List.replicate n (.store w true))) ∧
    (run g (.store v true :: List.replicate n (.store w true))).signature = g ∧
    (run g (.store v true :: List.replicate n (.store w true))).nextID = UInt32.ofNat (n + 1) ∧
    lookup (run g (.store v true :: List.replicate n (.store w true))).objects 0 = some v := by
  induction n with
  | zero =>
    refine ⟨?_, rfl, rfl, rfl⟩
    exact (perform_good (Store.new g) (.store v true) (new_good g).1).1
  | succ n ih =>
    obtain ⟨h1, h2, h3, h4⟩ := ih
    have e : run g (.store v true :: List.replicate (n + 1) (.store w true)) =
        perform (run g (.store v true :: List.replicate n (.store w true))) (.store w true) := by
      rw [List.replicate_succ', ← List.cons_append, run, List.foldl_append]; rfl
    rw [e]
    obtain ⟨g1, g2⟩ := perform_good _ (.store w true) h1
    refine ⟨g1, g2.trans h2, ?_, ?_⟩
    · show (run g (.store v true :: List.replicate n (.store w true))).nextID + 1 = _
      rw [h3]
      apply UInt32.toNat_inj.mp
      rw [UInt32.toNat_add, UInt32.toNat_ofNat', UInt32.toNat_ofNat']
      show ((n + 1) % 2 ^ 32 + 1) % 2 ^ 32 = (n + 1 + 1) % 2 ^ 32
      omega
    · rw [lookup_store _ h1]
      split
      · rw [h4]; rfl
      · exact h4

/-- **C39 (violated).** The number of the object after 2^32 others is 0 again: its key is that of the first object, and gives the first object. -/
theorem C39_refuted_wrap (g : UInt32) (v w u : V) :
    keyOf (run g (.store v true :: List.replicate (2 ^ 32 - 1) (.store w true))) true u = keyOf (run g []) true v ∧
    (perform (run g (.store v true :: List.replicate (2 ^ 32 - 1) (.store w true))) (.store u true)).get
      (keyOf (run g (.store v true :: List.replicate (2 ^ 32 - 1) (.store w true))) true u) = .found v := by
  have key := run_many g v w (2 ^ 32 - 1)
  generalize run g (.store v true :: List.replicate (2 ^ 32 - 1) (.store w true)) = s at key ⊢
  obtain ⟨h1, h2, h3, h4⟩ := key
  have h0 : s.nextID = 0 := by rw [h3]; rfl
  refine ⟨?_, ?_⟩
  · rw [keyOf_eq, keyOf_eq, h2, h0]; rfl
  · rw [keyOf_eq, h0]
    have hsig := (perform_good s (.store u true) h1).2
    rw [← hsig, get_found, lookup_store s h1, if_pos h0.symm, h4]; rfl

/-! ## Going through the objects -/

/-- One step of the loops over all objects (cpp/mex_functions/functions/debug/list.cpp:179-193, 223-237): the next pair of number and object. -/
def advance (s : Store V) (p : UInt32 × Option V) : UInt32 × Option V := s.next p.1

/-- The test of these loops. -/
def atEnd (p : UInt32 × Option V) : Prop := ¬ (p.1 ≠ 0xFFFFFFFF ∧ p.2.isSome)

/-- What `first` and `next` give if these objects are left. -/
def entry : List (UInt32 × V) → UInt32 × Option V
  | [] => (0xFFFFFFFF, none)
  | (j, w) :: _ => (j, some w)

theorem next_split (s : Store V) (hs : Good s) (pre post : List (UInt32 × V)) (i : UInt32) (v : V) (h : s.objects = pre ++ (i, v) :: post) :
    s.next i = entry post := by
  unfold Good at hs
  rw [h, List.pairwise_append, List.pairwise_cons] at hs
  obtain ⟨-, ⟨h2, -⟩, h3⟩ := hs
  have hpre : ∀ a ∈ pre, (!decide (i < a.1)) = true := by
    intro a ha
    have := h3 a ha (i, v) (by simp)
    rw [UInt32.lt_iff_toNat_lt] at this
    simp only [Bool.not_eq_true', decide_eq_false_iff_not, UInt32.lt_iff_toNat_lt]
    simp only at this; omega
  have e : s.objects.dropWhile (fun p => !decide (i < p.1)) = post := by
    rw [h]
    have : ∀ (a b : List (UInt32 × V)), (∀ x ∈ a, (!decide (i < x.1)) = true) →
        (a ++ b).dropWhile (fun p => !decide (i < p.1)) = b.dropWhile (fun p => !decide (i < p.1)) := by
      intro a b ha
      induction a with
      | nil => rfl
      | cons x a ih => rw [List.cons_append, List.dropWhile_cons, if_pos (ha x (by simp)), ih fun y hy => ha y (by simp [hy])]
    rw [this _ _ hpre, List.dropWhile_cons, if_pos (by simp [UInt32.lt_irrefl])]
    cases post with
    | nil => rfl
    | cons a post =>
      have := h2 a (by simp)
      rw [List.dropWhile_cons, if_neg (by simp [this])]
  unfold Store.next
  rw [e]
  cases post with
  | nil => rfl
  | cons a post => rfl

theorem yields_from (s : Store V) (hs : Good s) : ∀ (post pre : List (UInt32 × V)) , s.objects = pre ++ post → (∀ a ∈ post, a.1 ≠ 0xFFFFFFFF) →
    Yields (advance s) atEnd id (entry post) (post.map fun a => (a.1, some a.2)) := by
  intro post
  induction post with
  | nil => intro pre _ _; exact Yields.done (by simp [atEnd, entry])
  | cons a post ih =>
    obtain ⟨i, v⟩ := a
    intro pre h hne
    refine Yields.step (value := id) ?_ ?_
    · have h1 := hne (i, v) (by simp)
      simp only [atEnd, not_not]
      exact ⟨h1, rfl⟩
    · show Yields (advance s) atEnd id (s.next i) _
      rw [next_split s hs pre post i v h]
      exact ih (pre ++ [(i, v)]) (by rw [h]; simp) fun a ha => hne a (by simp [ha])

/-- **C39.** As long as the last number is not in use, listing all objects visits each stored object once, in order of storing. -/
theorem C39_listing (g : UInt32) (h : List (Call V)) (hn : ∀ v, (0xFFFFFFFF, v) ∉ (run g h).objects) :
    Yields (advance (run g h)) atEnd id (run g h).first ((run g h).objects.map fun a => (a.1, some a.2)) := by
  have hg : Good (run g h) := by
    have : ∀ (h : List (Call V)) (s : Store V), Good s → Good (h.foldl perform s) := by
      intro h
      induction h with
      | nil => exact fun s hs => hs
      | cons c h ih => exact fun s hs => ih _ (perform_good s c hs).1
    exact this h _ (new_good g).1
  have := yields_from (run g h) hg (run g h).objects [] rfl (by
    rintro ⟨i, v⟩ ha hi
    simp only at hi
    subst hi
    exact hn v ha)
  unfold Store.first
  cases ho : (run g h).objects with
  | nil => rw [ho] at this; exact this
  | cons a l => rw [ho] at this; exact this

example : ∀ v, (0xFFFFFFFF, v) ∉ (run 9 [.store 5 true, .store 6 false]).objects := by
  intro v
  show (0xFFFFFFFF, v) ∉ [((0 : UInt32), 5), (1, 6)]
  simp

/-- **C39.** Different four-letter names give different signatures. -/
theorem C39_signatures (a b c d a' b' c' d' : Int8) (h : makeSignature a b c d = makeSignature a' b' c' d') : a = a' ∧ b = b' ∧ c = c' ∧ d = d' := by
  have e : ∀ a b c d : Int8, ((makeSignature a b c d).toNat : Int) = (a.toInt + b.toInt * 2 ^ 8 + c.toInt * 2 ^ 16 + d.toInt * 2 ^ 24) % 2 ^ 32 := by
    intro a b c d
    have hof : ∀ x : Int8, ((UInt32.ofInt x.toInt).toNat : Int) = x.toInt % 2 ^ 32 := by
      intro x
      rw [UInt32.ofInt, UInt32.toNat_ofNat']
      have : 0 ≤ x.toInt % 2 ^ 32 := Int.emod_nonneg _ (by norm_num)
      omega
    have hs : ∀ (x : UInt32) (k : UInt32), k.toNat < 32 → ((x <<< k).toNat : Int) = (x.toNat : Int) * 2 ^ k.toNat % 2 ^ 32 := by
      intro x k hk
      rw [UInt32.toNat_shiftLeft, Nat.mod_eq_of_lt hk, Nat.shiftLeft_eq]
      push_cast
      rfl
    unfold makeSignature
    have h8 := hs (UInt32.ofInt b.toInt) 8 (by decide)
    have h16 := hs (UInt32.ofInt c.toInt) 16 (by decide)
    have h24 := hs (UInt32.ofInt d.toInt) 24 (by decide)
    rw [hof] at h8 h16 h24
    have ha := hof a
    simp only [UInt32.toNat_add]
    push_cast
    rw [h8, h16, h24, ha]
    have e8 : UInt32.toNat 8 = 8 := rfl
    have e16 : UInt32.toNat 16 = 16 := rfl
    have e24 : UInt32.toNat 24 = 24 := rfl
    rw [e8, e16, e24]
    omega
  have h1 := e a b c d
  have h2 := e a' b' c' d'
  rw [h, h2] at h1
  have bd : ∀ x : Int8, -128 ≤ x.toInt ∧ x.toInt < 128 := fun x => ⟨Int8.le_toInt x, Int8.toInt_lt x⟩
  have ba := bd a; have bb := bd b; have bc := bd c; have bdd := bd d
  have ba' := bd a'; have bb' := bd b'; have bc' := bd c'; have bd' := bd d'
  refine ⟨Int8.toInt_inj.mp ?_, Int8.toInt_inj.mp ?_, Int8.toInt_inj.mp ?_, Int8.toInt_inj.mp ?_⟩ <;> omega

end Moment.C39

namespace Moment.C60

open Storage

variable {T V : Type} [DecidableEq T]

/-- The beginning: no object, no thread has started. -/
def initial : Mono T V := ⟨none, 0, fun _ => .start⟩

/-- Invariant. -/
def Inv (m : Mono T V) : Prop := (m.object = none → m.made = 0 ∧ ∀ t v, m.phase t ≠ .returned v) ∧
  ∀ w, m.object = some w → m.made = 1 ∧ ∀ t v, m.phase t = .returned v → v = w

theorem step_inv (fresh : T → V) {m m' : Mono T V} (h : Step fresh m m') (hi : Inv m) : Inv m' ∧ ∀ w, m.object = some w → m'.object = some w := by
  obtain ⟨h1, h2⟩ := hi
  cases h with
  | found t v hp ho =>
    refine ⟨⟨fun h => by simp [ho] at h, fun w hw => ?_⟩, fun w hw => hw⟩
    obtain ⟨h3, h4⟩ := h2 w hw
    refine ⟨h3, fun u x hx => ?_⟩
    dsimp only at hx
    split at hx
    · simp only [Phase.returned.injEq] at hx
      rw [← hx]; dsimp only at hw; rw [ho] at hw; exact Option.some.inj hw
    · exact h4 u x hx
  | missing t hp ho =>
    refine ⟨⟨fun h => ⟨(h1 ho).1, fun u x hx => ?_⟩, fun w hw => by simp [ho] at hw⟩, fun w hw => hw⟩
    dsimp only at hx
    split at hx
    · simp at hx
    · exact (h1 ho).2 u x hx
  | late t v hp ho =>
    refine ⟨⟨fun h => by simp [ho] at h, fun w hw => ?_⟩, fun w hw => hw⟩
    obtain ⟨h3, h4⟩ := h2 w hw
    refine ⟨h3, fun u x hx => ?_⟩
    dsimp only at hx
    split at hx
    · simp only [Phase.returned.injEq] at hx
      rw [← hx]; dsimp only at hw; rw [ho] at hw; exact Option.some.inj hw
    · exact h4 u x hx
  | make t hp ho =>
    refine ⟨⟨fun h => by simp at h, fun w hw => ?_⟩, fun w hw => by rw [ho] at hw; simp at hw⟩
    simp only [Option.some.injEq] at hw
    refine ⟨by dsimp only; rw [(h1 ho).1], fun u x hx => ?_⟩
    dsimp only at hx
    split at hx
    · simp only [Phase.returned.injEq] at hx
      rw [← hx, hw]
    · exact absurd hx ((h1 ho).2 u x)

theorem initial_inv : Inv (initial : Mono T V) := ⟨fun _ => ⟨rfl, fun _ _ h => by simp [initial] at h⟩, fun w h => by simp [initial] at h⟩

theorem reach_inv (fresh : T → V) {m : Mono T V} (h : Relation.ReflTransGen (Step fresh) initial m) : Inv m := by
  induction h with
  | refl => exact initial_inv
  | tail _ hs ih => exact (step_inv fresh hs ih).1

/-- **C60.** In every interleaving of any number of threads at most one object is made, all threads get the same one, and it is the stored one. -/
theorem C60_one_object (fresh : T → V) {m : Mono T V} (h : Relation.ReflTransGen (Step fresh) initial m) :
    m.made ≤ 1 ∧ ∀ t v, m.phase t = .returned v → m.object = some v ∧ ∀ u w, m.phase u = .returned w → w = v := by
  obtain ⟨h1, h2⟩ := reach_inv fresh h
  cases ho : m.object with
  | none =>
    obtain ⟨h3, h4⟩ := h1 ho
    exact ⟨by omega, fun t v hv => absurd hv (h4 t v)⟩
  | some x =>
    obtain ⟨h3, h4⟩ := h2 x ho
    refine ⟨by omega, fun t v hv => ?_⟩
    have := h4 t v hv
    subst this
    exact ⟨rfl, fun u w hw => h4 u w hw⟩

/-- **C60.** An object once stored stays. -/
theorem C60_stays (fresh : T → V) {m m' : Mono T V} (h : Relation.ReflTransGen (Step fresh) initial m) (h' : Relation.ReflTransGen (Step fresh) m m') (v : V)
    (hv : m.object = some v) : m'.object = some v := by
  have hi := reach_inv fresh h
  have : Inv m' ∧ m'.object = some v := by
    induction h' with
    | refl => exact ⟨hi, hv⟩
    | tail _ hs ih => exact ⟨(step_inv fresh hs ih.1).1, (step_inv fresh hs ih.1).2 v ih.2⟩
  exact this.2

/-- **C60.** No thread is stuck: a thread that has not returned can go on, and needs at most two steps. -/
theorem C60_progress (fresh : T → V) (m : Mono T V) (t : T) : (∃ v, m.phase t = .returned v) ∨
    ∃ m', Step fresh m m' ∧ ((∃ v, m'.phase t = .returned v) ∨ m.phase t = .start ∧ m'.phase t = .between) := by
  cases hp : m.phase t with
  | returned v => exact Or.inl ⟨v, rfl⟩
  | start =>
    right
    cases ho : m.object with
    | none => exact ⟨_, Step.missing m t hp ho, Or.inr ⟨rfl, by simp⟩⟩
    | some v => exact ⟨_, Step.found m t v hp ho, Or.inl ⟨v, by simp⟩⟩
  | between =>
    right
    cases ho : m.object with
    | none => exact ⟨_, Step.make m t hp ho, Or.inl ⟨fresh t, by simp⟩⟩
    | some v => exact ⟨_, Step.late m t v hp ho, Or.inl ⟨v, by simp⟩⟩

/-- Two threads that both find nothing: the second one to make an object finds that of the first. -/
example : ∃ m : Mono Bool Nat, Relation.ReflTransGen (Step fun b => if b then 1 else 2) initial m ∧ m.phase true = .returned 1 ∧ m.phase false = .returned 1 := by
  refine ⟨_, ((((Relation.ReflTransGen.refl).tail (Step.missing _ true rfl rfl)).tail (Step.missing _ false rfl rfl)).tail
    (Step.make _ true rfl rfl)).tail (Step.late _ false 1 rfl rfl), rfl, rfl⟩

end Moment.C60
