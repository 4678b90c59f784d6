import Verif.Model.RecursiveStorage
import Verif.Spec.RecursiveStorage
import Verif.Proof.CollinsGisin

/-! # Proofs about recursive storage -/

namespace Moment.Recursive

open Probability

variable {α S : Type}

mutual
theorem Store.ind {P : Store α → Prop} (h : ∀ o f cs, (∀ c ∈ cs, P c) → P (.node o f cs)) : ∀ t, P t
  | .node o f cs => h o f cs (Store.indAll h cs)
theorem Store.indAll {P : Store α → Prop} (h : ∀ o f cs, (∀ c ∈ cs, P c) → P (.node o f cs)) : ∀ (cs : List (Store α)), ∀ c ∈ cs, P c
  | [], _, hc => absurd hc (by simp)
  | d :: ds, c, hc => by
    rcases List.mem_cons.mp hc with e | e
    · rw [e]; exact Store.ind h d
    · exact Store.indAll h ds c e
end

/-- No offset of the tree is positive. -/
def Store.Ok (t : Store α) : Prop := ∀ idx s, t.subtree idx = some s → s.off ≤ 0

theorem subtree_cons (t : Store α) (j : Nat) (js : List Nat) : t.subtree (j :: js) = (t.child j).bind fun c => c.subtree js := rfl

theorem Store.Ok.off {t : Store α} (h : t.Ok) : t.off ≤ 0 := h [] t rfl

theorem Store.Ok.child {t c : Store α} (h : t.Ok) {j : Nat} (e : t.child j = some c) : c.Ok := by
  intro idx s hs
  refine h (j :: idx) s ?_
  rw [subtree_cons, e]; exact hs

/-- The number that selects the child at a position. -/
theorem child_at (t : Store α) (h : t.off ≤ 0) (k : Nat) : t.child ((k : Int) - t.off).toNat = t.children[k]? := by
  unfold Store.child
  have e : (((k : Int) - t.off).toNat : Int) + t.off = k := by omega
  rw [e, if_pos (by omega)]; simp

theorem child_inv (t : Store α) {j : Nat} {c : Store α} (e : t.child j = some c) :
    ∃ k : Nat, (j : Int) = k - t.off ∧ t.children[k]? = some c := by
  unfold Store.child at e
  split at e
  · exact ⟨((j : Int) + t.off).toNat, by omega, e⟩
  · cases e

mutual
/-- All values, with their indices: a node before its children, children in order. -/
def Store.entries : Store α → List (List Nat × α)
  | .node o off cs => ([], o) :: entriesAll off 0 cs
def entriesAll (off : Int) : Nat → List (Store α) → List (List Nat × α)
  | _, [] => []
  | k, c :: cs => (c.entries.map fun x => (((k : Int) - off).toNat :: x.1, x.2)) ++ entriesAll off (k + 1) cs
end

theorem mem_entriesAll (off : Int) : ∀ (cs : List (Store α)) (k : Nat) (x : List Nat × α),
    x ∈ entriesAll off k cs ↔ ∃ (i : Nat) (c : Store α) (y : List Nat × α), cs[i]? = some c ∧ y ∈ c.entries ∧ x = ((((k + i : Nat) : Int) - off).toNat :: y.1, y.2) := by
  intro cs
  induction cs with
  | nil => intro k x; simp [entriesAll]
  | cons c cs ih =>
    intro k x
    rw [entriesAll, List.mem_append, ih]
    constructor
    · rintro (h | ⟨i, d, y, h1, h2, h3⟩)
      · obtain ⟨y, hy, e⟩ := List.mem_map.mp h
        exact ⟨0, c, y, rfl, hy, by rw [← e]; simp⟩
      · exact ⟨i + 1, d, y, by simpa using h1, h2, by rw [h3]; congr 3; push_cast; ring⟩
    · rintro ⟨i, d, y, h1, h2, h3⟩
      rcases i with _ | i
      · simp only [List.getElem?_cons_zero, Option.some.injEq] at h1
        subst h1
        exact Or.inl (List.mem_map.mpr ⟨y, h2, by rw [h3]; simp⟩)
      · exact Or.inr ⟨i, d, y, by simpa using h1, h2, by rw [h3]; congr 3; push_cast; ring⟩

/-- The entries are the values of the tree. -/
theorem mem_entries (t : Store α) : t.Ok → ∀ (idx : List Nat) (a : α), (idx, a) ∈ t.entries ↔ ∃ s, t.subtree idx = some s ∧ s.obj = a := by
  induction t using Store.ind with
  | h o f cs ih =>
    intro ok idx a
    rw [Store.entries, List.mem_cons, mem_entriesAll]
    rcases idx with _ | ⟨j, js⟩
    · constructor
      · rintro (h | ⟨i, c, y, _, _, h3⟩)
        · exact ⟨_, rfl, by simp only [Prod.mk.injEq, true_and] at h; rw [h]; rfl⟩
        · simp at h3
      · rintro ⟨s, h, e⟩
        left
        cases h
        rw [← e]; rfl
    · constructor
      · rintro (h | ⟨i, c, y, h1, h2, h3⟩)
        · simp at h
        · have e : (Store.node o f cs).child j = some c := by
            simp only [Prod.mk.injEq, List.cons.injEq] at h3
            rw [h3.1.1, Nat.zero_add]
            rw [← h1]; exact child_at (.node o f cs) ok.off i
          simp only [Prod.mk.injEq, List.cons.injEq] at h3
          rw [subtree_cons, e, Option.bind_some]
          refine (ih c (List.mem_of_getElem? h1) (ok.child e) js a).mp ?_
          rw [h3.1.2, h3.2]; exact h2
      · rintro ⟨s, h, e⟩
        right
        rw [subtree_cons] at h
        obtain ⟨c, hc, h⟩ := Option.bind_eq_some_iff.mp h
        obtain ⟨k, hk, hg⟩ := child_inv _ hc
        refine ⟨k, c, (js, a), hg, (ih c (List.mem_of_getElem? hg) (ok.child hc) js a).mpr ⟨s, h, e⟩, ?_⟩
        simp only [Prod.mk.injEq, List.cons.injEq, and_true]
        change (j : Int) = k - f at hk
        omega

theorem entriesAll_sorted (off : Int) (ho : off ≤ 0) : ∀ (cs : List (Store α)) (k : Nat),
    (∀ c ∈ cs, (c.entries.map Prod.fst).Pairwise (List.Lex (· < ·))) →
    ((entriesAll off k cs).map Prod.fst).Pairwise (List.Lex (· < ·)) := by
  intro cs
  induction cs with
  | nil => intro k _; simp [entriesAll]
  | cons c cs ih =>
    intro k h
    rw [entriesAll, List.map_append, List.pairwise_append]
    refine ⟨?_, ih (k + 1) (fun d hd => h d (List.mem_cons_of_mem _ hd)), ?_⟩
    · rw [List.map_map]
      have := h c List.mem_cons_self
      rw [List.pairwise_map] at this ⊢
      exact this.imp fun hxy => List.Lex.cons hxy
    · intro a ha b hb
      obtain ⟨x, hx, rfl⟩ := List.mem_map.mp ha
      obtain ⟨y, hy, rfl⟩ := List.mem_map.mp hb
      obtain ⟨z, _, rfl⟩ := List.mem_map.mp hx
      obtain ⟨i, d, w, _, _, rfl⟩ := (mem_entriesAll off cs (k + 1) y).mp hy
      exact List.Lex.rel (by omega)

theorem entries_sorted (t : Store α) : t.Ok → (t.entries.map Prod.fst).Pairwise (List.Lex (· < ·)) := by
  induction t using Store.ind with
  | h o f cs ih =>
    intro ok
    rw [Store.entries, List.map_cons, List.pairwise_cons]
    constructor
    · intro a ha
      obtain ⟨x, hx, rfl⟩ := List.mem_map.mp ha
      obtain ⟨i, d, w, _, _, rfl⟩ := (mem_entriesAll f cs 0 x).mp hx
      exact List.Lex.nil
    · refine entriesAll_sorted f ok.off cs 0 fun c hc => ?_
      obtain ⟨k, hk⟩ := List.mem_iff_getElem?.mp hc
      refine ih c hc (ok.child (j := ((k : Int) - f).toNat) ?_)
      rw [← hk]; exact child_at (.node o f cs) ok.off k

theorem runVisitor_append (f : S → α → List Nat → S × α) : ∀ (xs ys : List (List Nat × α)) (s : S),
    runVisitor f (xs ++ ys) s = ((runVisitor f xs s).1 ++ (runVisitor f ys (runVisitor f xs s).2).1, (runVisitor f ys (runVisitor f xs s).2).2) := by
  intro xs
  induction xs with
  | nil => intro ys s; rfl
  | cons x xs ih => intro ys s; simp only [List.cons_append, runVisitor, ih]

/-- Indices with a prefix. -/
def under (pre : List Nat) (xs : List (List Nat × α)) : List (List Nat × α) := xs.map fun x => (pre ++ x.1, x.2)

theorem under_under (p : List Nat) (j : Nat) (xs : List (List Nat × α)) :
    under p (xs.map fun x => (j :: x.1, x.2)) = under (p ++ [j]) xs := by
  unfold under
  rw [List.map_map]
  apply List.map_congr_left
  intro x _
  simp

/-- Trees of equal form. -/
def Store.SameForm (t t' : Store α) : Prop := ∀ idx, ((t.subtree idx).map fun s => (s.off, s.numChildren)) = (t'.subtree idx).map fun s => (s.off, s.numChildren)

theorem doVisit_node (f : S → α → List Nat → S × α) (o : α) (off : Int) (cs : List (Store α)) (st : List Nat) (s : S) :
    Store.doVisit f (.node o off cs) st s = (.node (f s o st).2 off (visitAll f off 0 cs st (f s o st).1).1,
      (if (visitAll f off 0 cs st (f s o st).1).2.1.isEmpty then (visitAll f off 0 cs st (f s o st).1).2.1 else (visitAll f off 0 cs st (f s o st).1).2.1.dropLast),
      (visitAll f off 0 cs st (f s o st).1).2.2) := by
  rw [Store.doVisit]

theorem visitAll_cons (f : S → α → List Nat → S × α) (off : Int) (k : Nat) (c : Store α) (cs : List (Store α)) (st : List Nat) (s : S) :
    visitAll f off k (c :: cs) st s =
      ((c.doVisit f (st ++ [((k : Int) - off).toNat]) s).1 :: (visitAll f off (k + 1) cs (c.doVisit f (st ++ [((k : Int) - off).toNat]) s).2.1 (c.doVisit f (st ++ [((k : Int) - off).toNat]) s).2.2).1,
        (visitAll f off (k + 1) cs (c.doVisit f (st ++ [((k : Int) - off).toNat]) s).2.1 (c.doVisit f (st ++ [((k : Int) - off).toNat]) s).2.2).2.1,
        (visitAll f off (k + 1) cs (c.doVisit f (st ++ [((k : Int) - off).toNat]) s).2.1 (c.doVisit f (st ++ [((k : Int) - off).toNat]) s).2.2).2.2) := by
  rw [visitAll]

/-- What a visit of a node does. -/
def VisitSpec (f : S → α → List Nat → S × α) (t : Store α) : Prop :=
  ∀ (st : List Nat) (s : S),
    (t.doVisit f st s).2.1 = st.dropLast ∧
    (t.doVisit f st s).2.2 = (runVisitor f (under st t.entries) s).2 ∧
    under st (t.doVisit f st s).1.entries = (runVisitor f (under st t.entries) s).1 ∧
    (t.doVisit f st s).1.off = t.off ∧ (t.doVisit f st s).1.children.length = t.children.length

theorem visitAll_spec (f : S → α → List Nat → S × α) (off : Int) : ∀ (cs : List (Store α)) (k : Nat),
    (∀ c ∈ cs, VisitSpec f c) → ∀ (st : List Nat) (s : S),
    (visitAll f off k cs st s).2.1 = st ∧
    (visitAll f off k cs st s).2.2 = (runVisitor f (under st (entriesAll off k cs)) s).2 ∧
    under st (entriesAll off k (visitAll f off k cs st s).1) = (runVisitor f (under st (entriesAll off k cs)) s).1 ∧
    (visitAll f off k cs st s).1.length = cs.length := by
  intro cs
  induction cs with
  | nil => intro k _ st s; simp [visitAll, entriesAll, under, runVisitor]
  | cons c cs ih =>
    intro k h st s
    obtain ⟨c1, c2, c3, c4, c5⟩ := h c List.mem_cons_self (st ++ [((k : Int) - off).toNat]) s
    rw [List.dropLast_concat] at c1
    obtain ⟨i1, i2, i3, i4⟩ := ih (k + 1) (fun d hd => h d (List.mem_cons_of_mem _ hd)) st
      (c.doVisit f (st ++ [((k : Int) - off).toNat]) s).2.2
    have hu : ∀ (d : Store α) (ds : List (Store α)), under st (entriesAll off k (d :: ds)) =
        under (st ++ [((k : Int) - off).toNat]) d.entries ++ under st (entriesAll off (k + 1) ds) := by
      intro d ds
      rw [entriesAll, ← under_under]
      unfold under
      rw [List.map_append]
    rw [visitAll_cons, c1, hu, runVisitor_append, ← c2, ← c3]
    dsimp only
    refine ⟨i1, i2, ?_, by rw [List.length_cons, List.length_cons, i4]⟩
    rw [hu, i3]

theorem doVisit_spec (f : S → α → List Nat → S × α) (t : Store α) : VisitSpec f t := by
  induction t using Store.ind with
  | h o off cs ih =>
    intro st s
    obtain ⟨i1, i2, i3, i4⟩ := visitAll_spec f off cs 0 ih st (f s o st).1
    have hu : ∀ (o : α) (ds : List (Store α)), under st (Store.node o off ds).entries = (st, o) :: under st (entriesAll off 0 ds) := by
      intro o ds
      rw [Store.entries]; unfold under; simp
    rw [doVisit_node, hu, runVisitor, i1]
    dsimp only
    refine ⟨?_, i2, ?_, rfl, i4⟩
    · rcases st with _ | ⟨a, as⟩ <;> simp
    · rw [hu, i3]

/-- Children keep their places in a visit. -/
theorem visitAll_get (f : S → α → List Nat → S × α) (off : Int) : ∀ (cs : List (Store α)) (k : Nat) (st : List Nat) (s : S) (i : Nat),
    match cs[i]? with
    | none => (visitAll f off k cs st s).1[i]? = none
    | some c => ∃ st' s', (visitAll f off k cs st s).1[i]? = some (c.doVisit f st' s').1 := by
  intro cs
  induction cs with
  | nil => intro k st s i; simp [visitAll]
  | cons c cs ih =>
    intro k st s i
    rw [visitAll_cons]
    rcases i with _ | i
    · exact ⟨_, _, rfl⟩
    · simp only [List.getElem?_cons_succ]
      exact ih _ _ _ i

theorem doVisit_form (f : S → α → List Nat → S × α) (t : Store α) : ∀ (st : List Nat) (s : S), t.SameForm (t.doVisit f st s).1 := by
  induction t using Store.ind with
  | h o off cs ih =>
    intro st s idx
    rcases idx with _ | ⟨j, js⟩
    · have := (doVisit_spec f (.node o off cs) st s).2.2.2
      simp only [Store.subtree, Option.map_some, Option.some.injEq, Prod.mk.injEq]
      exact ⟨this.1.symm, this.2.symm⟩
    · rw [subtree_cons, subtree_cons, doVisit_node]
      unfold Store.child
      change ((if 0 ≤ (j : Int) + off then cs[((j : Int) + off).toNat]? else none).bind _).map _ =
        ((if 0 ≤ (j : Int) + off then (visitAll f off 0 cs st (f s o st).1).1[((j : Int) + off).toNat]? else none).bind _).map _
      by_cases h0 : 0 ≤ (j : Int) + off
      · rw [if_pos h0, if_pos h0]
        have hg := visitAll_get f off cs 0 st (f s o st).1 ((j : Int) + off).toNat
        cases hc : cs[((j : Int) + off).toNat]? with
        | none => rw [hc] at hg; rw [hg]
        | some c =>
          rw [hc] at hg
          obtain ⟨st', s', e⟩ := hg
          rw [e]
          exact ih c (List.mem_of_getElem? hc) st' s' js
      · rw [if_neg h0, if_neg h0]

/-- Setting a value: its place has the value, all other places keep theirs, and the form stays. -/
theorem set_spec : ∀ (idx : List Nat) (t : Store α) (x : α),
    ((t.set idx x).isSome ↔ (t.subtree idx).isSome) ∧
    ∀ t', t.set idx x = some t' → t'.off = t.off ∧ t'.numChildren = t.numChildren ∧ t.SameForm t' ∧
      (t'.subtree idx).map Store.obj = some x ∧
      ∀ other, other ≠ idx → (t'.subtree other).map Store.obj = (t.subtree other).map Store.obj := by
  intro idx
  induction idx with
  | nil =>
    intro t x
    refine ⟨by simp [Store.set, Store.subtree], ?_⟩
    intro t' h
    cases h
    have key : ∀ j js, (Store.node x t.off t.children).subtree (j :: js) = t.subtree (j :: js) := fun j js => rfl
    refine ⟨rfl, rfl, ?_, rfl, ?_⟩
    · rintro (_ | ⟨j, js⟩)
      · rfl
      · rw [key]
    · rintro (_ | ⟨j, js⟩) ho
      · exact absurd rfl ho
      · rw [key]
  | cons j js ih =>
    intro t x
    cases hc : t.child j with
    | none =>
      refine ⟨by simp [Store.set, Store.subtree, hc], ?_⟩
      intro t' h
      simp [Store.set, hc] at h
    | some c =>
      obtain ⟨ih1, ih2⟩ := ih c x
      refine ⟨by simpa [Store.set, Store.subtree, hc] using ih1, ?_⟩
      intro t' h
      simp only [Store.set, hc, Option.bind_some] at h
      obtain ⟨c', hc', rfl⟩ := Option.map_eq_some_iff.mp h
      obtain ⟨o1, o2, o3, o4, o5⟩ := ih2 c' hc'
      obtain ⟨k, hk, hg⟩ := child_inv _ hc
      have hkt : ((j : Int) + t.off).toNat = k := by omega
      rw [hkt]
      have hlt : k < t.children.length := (List.getElem?_eq_some_iff.mp hg).1
      have hsame : (Store.node t.obj t.off (t.children.set k c')).child j = some c' := by
        unfold Store.child
        change (if 0 ≤ (j : Int) + t.off then (t.children.set k c')[((j : Int) + t.off).toNat]? else none) = _
        rw [if_pos (by omega), hkt, List.getElem?_set_self hlt]
      have hother : ∀ i, i ≠ j → (Store.node t.obj t.off (t.children.set k c')).child i = t.child i := by
        intro i hi
        unfold Store.child
        change (if 0 ≤ (i : Int) + t.off then (t.children.set k c')[((i : Int) + t.off).toNat]? else none) = _
        by_cases h0 : 0 ≤ (i : Int) + t.off
        · rw [if_pos h0, if_pos h0, List.getElem?_set_ne (by omega)]
        · rw [if_neg h0, if_neg h0]
      refine ⟨rfl, by simp [Store.numChildren, Store.children], ?_, ?_, ?_⟩
      · rintro (_ | ⟨i, is⟩)
        · simp [Store.subtree, Store.off, Store.numChildren, Store.children]
        · rw [subtree_cons, subtree_cons]
          by_cases hi : i = j
          · subst hi
            rw [hsame, hc]; exact o3 is
          · rw [hother i hi]
      · rw [subtree_cons, hsame]; exact o4
      · rintro (_ | ⟨i, is⟩) ho
        · rfl
        · rw [subtree_cons, subtree_cons]
          by_cases hi : i = j
          · subst hi
            rw [hsame, hc]
            exact o5 is fun e => ho (by rw [e])
          · rw [hother i hi]

/-! ## Trees of one width -/

theorem wide_child (zero : α) (w d j : Nat) : (wide zero w (d + 1)).child j = if j < w then some (wide zero w d) else none := by
  unfold Store.child
  change (if 0 ≤ (j : Int) + 0 then (List.replicate w (wide zero w d))[((j : Int) + 0).toNat]? else none) = _
  rw [if_pos (by omega), List.getElem?_replicate]
  simp

theorem wide_zero_child (zero : α) (w j : Nat) : (wide zero w 0).child j = none := by
  unfold Store.child
  change (if 0 ≤ (j : Int) + 0 then ([] : List (Store α))[((j : Int) + 0).toNat]? else none) = _
  simp

theorem wide_subtree (zero : α) (w : Nat) : ∀ (d : Nat) (idx : List Nat),
    (wide zero w d).subtree idx = if idx.length ≤ d ∧ ∀ j ∈ idx, j < w then some (wide zero w (d - idx.length)) else none := by
  intro d idx
  induction idx generalizing d with
  | nil => simp [Store.subtree]
  | cons j js ih =>
    rw [subtree_cons]
    rcases d with _ | d
    · rw [wide_zero_child, if_neg (by simp)]; rfl
    · rw [wide_child]
      by_cases hj : j < w
      · rw [if_pos hj, Option.bind_some, ih]
        simp [hj]
      · rw [if_neg hj, if_neg (fun h => hj (h.2 j List.mem_cons_self))]; rfl

/-! ## Trees of chunks -/

/-- The children: those of the chunk `c` are nodes over the later chunks. -/
theorem chunkLoop_get (zero : α) (mk : List Nat → Int → Store α) : ∀ (sizes : List Nat) (off : Int) (k : Nat),
    (chunkLoop zero mk sizes off)[k]? = (locate sizes k).map fun x =>
      if (sizes.drop (x.1 + 1)).isEmpty then .node zero (off - ((sizes.take (x.1 + 1)).sum : Nat)) [] else mk (sizes.drop (x.1 + 1)) (off - ((sizes.take (x.1 + 1)).sum : Nat)) := by
  intro sizes
  induction sizes with
  | nil => intro off k; simp [chunkLoop, locate]
  | cons s rest ih =>
    intro off k
    rw [chunkLoop, locate]
    by_cases hk : k < s
    · rw [if_pos hk, List.getElem?_append_left (by simpa using hk), List.getElem?_replicate, if_pos hk]
      simp
    · rw [if_neg hk, List.getElem?_append_right (by simpa using hk), List.length_replicate, ih, Option.map_map]
      congr 1
      funext x
      simp only [Function.comp, List.drop_succ_cons, List.take_succ_cons, List.sum_cons, Nat.cast_add, sub_sub]

theorem chunked_off (zero : α) (d : Nat) (sizes : List Nat) (off : Int) : (chunked zero d sizes off).off = off := by
  cases d <;> rfl

theorem chunkOf_some {sizes : List Nat} {b j c : Nat} : chunkOf sizes b j = some c ↔
    ∃ n, sizes[c]? = some n ∧ b + (sizes.take c).sum ≤ j ∧ j < b + (sizes.take c).sum + n := by
  unfold chunkOf
  by_cases h : b ≤ j
  · rw [if_pos h]
    constructor
    · intro e
      obtain ⟨⟨m, k⟩, hx, rfl⟩ := Option.map_eq_some_iff.mp e
      obtain ⟨n, h1, h2, h3⟩ := (Gisin.locate_spec _ _ _ _).mp hx
      refine ⟨n, h1, ?_, ?_⟩ <;> dsimp only <;> omega
    · rintro ⟨n, h1, h2, h3⟩
      have := (Gisin.locate_spec sizes (j - b) c (j - b - (sizes.take c).sum)).mpr ⟨n, h1, by omega, by omega⟩
      rw [this]; rfl
  · rw [if_neg h]
    constructor
    · intro e; cases e
    · rintro ⟨n, h1, h2, h3⟩; omega

/-- Numbers of later chunks, counted from the end of a chunk. -/
theorem chunkOf_drop (sizes : List Nat) (b m j c : Nat) :
    chunkOf (sizes.drop m) (b + (sizes.take m).sum) j = some c ↔ chunkOf sizes b j = some (m + c) := by
  rw [chunkOf_some, chunkOf_some]
  have e : (sizes.take (m + c)).sum = (sizes.take m).sum + ((sizes.drop m).take c).sum := by
    rw [List.take_add, List.sum_append]
  rw [e, List.getElem?_drop, Nat.add_assoc]

theorem chunkOf_lt {sizes : List Nat} {b j c : Nat} (h : chunkOf sizes b j = some c) : c < sizes.length := by
  obtain ⟨n, h1, _⟩ := chunkOf_some.mp h
  exact (List.getElem?_eq_some_iff.mp h1).1

/-- Paths: a number, then numbers of later chunks. -/
theorem path_cons (sizes : List Nat) (b d j : Nat) (js : List Nat) : Path sizes b (d + 1) (j :: js) ↔
    ∃ c, chunkOf sizes b j = some c ∧ Path (sizes.drop (c + 1)) (b + (sizes.take (c + 1)).sum) d js := by
  constructor
  · rintro ⟨h1, h2, h3⟩
    obtain ⟨c, hc⟩ := Option.isSome_iff_exists.mp (h2 j List.mem_cons_self)
    have hl := chunkOf_lt hc
    rw [List.pairwise_cons] at h3
    have hs : ∀ i ∈ js, ∃ a, chunkOf sizes b i = some (c + 1 + a) := by
      intro i hi
      obtain ⟨a, ha⟩ := Option.isSome_iff_exists.mp (h2 i (List.mem_cons_of_mem _ hi))
      have := h3.1 i hi c a hc ha
      exact ⟨a - (c + 1), by rw [ha]; congr 1; omega⟩
    refine ⟨c, hc, by simpa using h1, ?_, ?_⟩
    · intro i hi
      obtain ⟨a, ha⟩ := hs i hi
      rw [(chunkOf_drop sizes b (c + 1) i a).mpr ha]; rfl
    · refine h3.2.imp ?_
      intro x y hxy a a' ha ha'
      rw [chunkOf_drop] at ha ha'
      have := hxy _ _ ha ha'
      omega
  · rintro ⟨c, hc, h1, h2, h3⟩
    have hl := chunkOf_lt hc
    have hs : ∀ i ∈ js, ∃ a, chunkOf sizes b i = some (c + 1 + a) := by
      intro i hi
      obtain ⟨a, ha⟩ := Option.isSome_iff_exists.mp (h2 i hi)
      exact ⟨a, (chunkOf_drop sizes b (c + 1) i a).mp ha⟩
    refine ⟨by simpa using h1, ?_, ?_⟩
    · intro i hi
      rcases List.mem_cons.mp hi with rfl | hi
      · rw [hc]; rfl
      · obtain ⟨a, ha⟩ := hs i hi
        rw [ha]; rfl
    · rw [List.pairwise_cons]
      constructor
      · intro i hi a a' ha ha'
        obtain ⟨e, he⟩ := hs i hi
        rw [hc] at ha; rw [he] at ha'
        cases ha; cases ha'
        omega
      · refine List.Pairwise.imp_of_mem ?_ h3
        intro x y hx hy hxy a a' ha ha'
        obtain ⟨e, he⟩ := hs x hx
        obtain ⟨e', he'⟩ := hs y hy
        have h := hxy e e' ((chunkOf_drop sizes b (c + 1) x e).mpr he) ((chunkOf_drop sizes b (c + 1) y e').mpr he')
        rw [he] at ha; rw [he'] at ha'
        cases ha; cases ha'
        omega

theorem path_nil_sizes (b d : Nat) (idx : List Nat) : Path [] b d idx ↔ idx = [] := by
  constructor
  · rintro ⟨_, h, _⟩
    rcases idx with _ | ⟨j, js⟩
    · rfl
    · have := h j List.mem_cons_self
      simp [chunkOf, locate] at this
  · rintro rfl
    exact ⟨by simp, by simp, List.Pairwise.nil⟩

theorem chunked_child (zero : α) (d : Nat) (sizes : List Nat) (b j : Nat) :
    (chunked zero (d + 1) sizes (-(b : Int))).child j = (chunkOf sizes b j).map fun c =>
      if (sizes.drop (c + 1)).isEmpty then .node zero (-((b + (sizes.take (c + 1)).sum : Nat) : Int)) []
      else chunked zero d (sizes.drop (c + 1)) (-((b + (sizes.take (c + 1)).sum : Nat) : Int)) := by
  unfold Store.child
  change (if 0 ≤ (j : Int) + -(b : Int) then (chunkLoop zero (chunked zero d) sizes (-(b : Int)))[((j : Int) + -(b : Int)).toNat]? else none) = _
  unfold chunkOf
  by_cases h : b ≤ j
  · rw [if_pos (by omega), if_pos h, chunkLoop_get, Option.map_map]
    have e : ((j : Int) + -(b : Int)).toNat = j - b := by omega
    rw [e]
    congr 1
    funext x
    have e2 : -(b : Int) - ((sizes.take (x.1 + 1)).sum : Nat) = -((b + (sizes.take (x.1 + 1)).sum : Nat) : Int) := by push_cast; ring
    simp only [Function.comp, e2]
  · rw [if_neg (by omega), if_neg h]; rfl

theorem leaf_subtree (zero : α) (off : Int) (j : Nat) (js : List Nat) : (Store.node zero off []).subtree (j :: js) = none := by
  rw [subtree_cons]
  have : (Store.node zero off []).child j = none := by
    unfold Store.child
    change (if 0 ≤ (j : Int) + off then ([] : List (Store α))[((j : Int) + off).toNat]? else none) = _
    simp
  rw [this]; rfl

theorem chunked_subtree (zero : α) : ∀ (d : Nat) (sizes : List Nat) (b : Nat) (idx : List Nat),
    (((chunked zero d sizes (-(b : Int))).subtree idx).isSome ↔ Path sizes b d idx) ∧
    ∀ s, (chunked zero d sizes (-(b : Int))).subtree idx = some s → s.obj = zero ∧ s.off ≤ 0 := by
  intro d
  induction d with
  | zero =>
    intro sizes b idx
    rcases idx with _ | ⟨j, js⟩
    · refine ⟨⟨fun _ => ⟨by simp, by simp, List.Pairwise.nil⟩, fun _ => rfl⟩, ?_⟩
      intro s h
      cases h
      exact ⟨rfl, by change -(b : Int) ≤ 0; omega⟩
    · rw [show chunked zero 0 sizes (-(b : Int)) = .node zero (-(b : Int)) [] from rfl, leaf_subtree]
      refine ⟨⟨fun h => by simp at h, fun h => by have := h.1; simp at this⟩, fun s h => by cases h⟩
  | succ d ih =>
    intro sizes b idx
    rcases idx with _ | ⟨j, js⟩
    · refine ⟨⟨fun _ => ⟨by simp, by simp, List.Pairwise.nil⟩, fun _ => rfl⟩, ?_⟩
      intro s h
      cases h
      exact ⟨rfl, by change -(b : Int) ≤ 0; omega⟩
    · rw [subtree_cons, chunked_child, path_cons]
      cases hc : chunkOf sizes b j with
      | none => simp
      | some c =>
        simp only [Option.map_some, Option.bind_some, Option.some.injEq, exists_eq_left']
        by_cases he : (sizes.drop (c + 1)).isEmpty
        · rw [if_pos he]
          have he' : sizes.drop (c + 1) = [] := by simpa using he
          rw [he', path_nil_sizes]
          rcases js with _ | ⟨i, is⟩
          · refine ⟨by simp [Store.subtree], ?_⟩
            intro s h
            cases h
            exact ⟨rfl, by change -((b + (sizes.take (c + 1)).sum : Nat) : Int) ≤ 0; omega⟩
          · rw [leaf_subtree]; simp
        · rw [if_neg he]
          exact ih _ _ js

theorem chunked_ok (zero : α) (d : Nat) (sizes : List Nat) (b : Nat) : (chunked zero d sizes (-(b : Int))).Ok :=
  fun idx s h => ((chunked_subtree zero d sizes b idx).2 s h).2

theorem wide_ok (zero : α) (w d : Nat) : (wide zero w d).Ok := by
  intro idx s h
  rw [wide_subtree] at h
  split at h
  · cases h
    cases hd : d - idx.length <;> simp [wide, Store.off]
  · cases h

end Moment.Recursive
