import Verif.Proof.AutoStorage

/-! # C120: a tensor shows the same elements, whether they are stored or made when asked for

`make` is what an element is, given its index; it is the same before and after (for tensors that resolve symbols later see C93, C97 and C115). -/

namespace Moment.C120
open Moment.AutoStorage

variable {E : Type}

/-! ## Single elements -/

/-- **C120, by index.** Whatever the way of storage, reading at an index in range gives the element for the index; at other indices there is an exception. -/
theorem C120_index (threshold : Nat) (hint : Hint) {dims : List Nat} (hne : dims ≠ []) (make : List Nat → E) (index : List Nat) :
    (List.Forall₂ (· < ·) index dims → (Tensor.new threshold hint dims make).view index = some (some (make index)) ∧
      (Tensor.new threshold hint dims make).element index = some (make index)) ∧
    (¬ List.Forall₂ (· < ·) index dims → (Tensor.new threshold hint dims make).view index = some none) := by
  have hm := new_made threshold hint dims make
  have key : List.Forall₂ (· < ·) index dims → (Tensor.new threshold hint dims make).element index = some (make index) := by
    intro hv
    unfold Tensor.element
    split
    · rename_i hs
      exact hm.readIndex hs hne hv
    · rfl
  unfold Tensor.view
  constructor
  · intro hv
    rw [show (Tensor.new threshold hint dims make).dims = dims from rfl, if_pos ((Tensor.validate_iff _ _).mpr hv), key hv]
    exact ⟨rfl, rfl⟩
  · intro hv
    rw [show (Tensor.new threshold hint dims make).dims = dims from rfl, if_neg (fun h => hv ((Tensor.validate_iff _ _).mp h))]

/-- **C120, by offset.** Reading at an offset below the number of elements gives the element for the one index with this offset; at others there is an exception. -/
theorem C120_offset (threshold : Nat) (hint : Hint) (dims : List Nat) (make : List Nat → E) (o : Nat) :
    (o < Tensor.elementCount dims → ∃ index, List.Forall₂ (· < ·) index dims ∧ Tensor.indexToOffset true dims index = some o ∧
      (Tensor.new threshold hint dims make).at_ o = some (some (make index)) ∧ (Tensor.new threshold hint dims make).elementAt o = some (make index)) ∧
    (Tensor.elementCount dims ≤ o → (Tensor.new threshold hint dims make).at_ o = some none) := by
  have hm := new_made threshold hint dims make
  constructor
  · intro ho
    obtain ⟨index, h1, h2, h3⟩ := C28.C28_offset_roundtrip true dims o ho
    unfold Tensor.offsetToIndex at h1
    rw [if_neg (by omega)] at h1
    have key : (Tensor.new threshold hint dims make).elementAt o = some (make index) := by
      rw [← Option.some.inj h1]
      unfold Tensor.elementAt
      split
      · rename_i hs
        exact hm.read hs ho
      · rfl
    refine ⟨index, h2, (h3 index).mpr rfl, ?_, key⟩
    unfold Tensor.at_
    rw [if_neg (by simp only [Tensor.new]; omega), key]
    rfl
  · intro ho
    unfold Tensor.at_
    rw [if_pos (by simp only [Tensor.new]; omega)]

/-- Elements are stored if this is asked for, or if it is left open and there are not more of them than the threshold; `Data` gives the elements in the order of offsets, and only then. -/
theorem C120_stored (threshold : Nat) (hint : Hint) (dims : List Nat) (make : List Nat → E) :
    ((Tensor.new threshold hint dims make).stored = true ↔ match hint with | .virtual => False | .stored => True | .automatic => Tensor.elementCount dims ≤ threshold) ∧
    ((Tensor.new threshold hint dims make).Data.isSome ↔ (Tensor.new threshold hint dims make).stored = true) ∧
    ∀ d, (Tensor.new threshold hint dims make).Data = some d → d.length = Tensor.elementCount dims ∧
      ∀ o index, Tensor.offsetToIndex true dims o = some index → d[o]? = some (make index) := by
  refine ⟨?_, ?_, fun d hd => ?_⟩
  · cases hint <;> simp [Tensor.new, storageType]
  · unfold Tensor.Data
    split <;> simp_all
  · unfold Tensor.Data at hd
    split at hd
    · rename_i hs
      have hdat := (new_made threshold hint dims make).data hs
      rw [Option.some.inj hd] at hdat
      subst hdat
      refine ⟨by simp [Tensor.new], fun o index h => ?_⟩
      unfold Tensor.offsetToIndex at h
      split at h
      · simp at h
      · rename_i ho
        rw [← Option.some.inj h, List.getElem?_map]
        simp only [Tensor.new]
        rw [List.getElem?_range (by omega)]
        rfl
    · simp at hd

example : (Tensor.new 4 .automatic [2, 3] (fun v => v.map (· + 10))).view [1, 2] = some (some [11, 12]) ∧
    (Tensor.new 6 .automatic [2, 3] (fun v => v.map (· + 10))).view [1, 2] = some (some [11, 12]) ∧
    (Tensor.new 6 .automatic [2, 3] (fun v => v.map (· + 10))).stored = true ∧ (Tensor.new 4 .automatic [2, 3] (fun v => v)).stored = false ∧
    (Tensor.new 6 .automatic [2, 3] (fun v => v)).view [2, 0] = some none ∧ (Tensor.new 6 .virtual [2, 3] (fun v => v)).at_ 3 = some (some [1, 1]) := by decide

/-! ## Iteration over all elements -/

/-- **C120, all elements.** There is one list of indices, all those in range in the order of offsets, such that iteration over the tensor visits them, and shows at each the index,
the offset and the element, whatever the way of storage. -/
theorem C120_all {dims : List Nat} (hne : dims ≠ []) (make : List Nat → E) :
    ∃ l : List (List Nat), (∀ v, v ∈ l ↔ List.Forall₂ (· < ·) v dims) ∧ l.Pairwise (C29.Before true) ∧ l.length = Tensor.elementCount dims ∧
      ∀ threshold hint, Yields (Full.next (Tensor.new threshold hint dims make)) (fun s => s.more (Tensor.new threshold hint dims make) = false)
        (fun s => s.shows (Tensor.new threshold hint dims make)) (Full.first (Tensor.new threshold hint dims make))
        (l.mapIdx fun o v => (v, o, some (make v))) := by
  have hrep : List.Forall₂ (· ≤ ·) (List.replicate dims.length 0) dims := by
    clear hne
    induction dims with
    | nil => exact .nil
    | cons d ds ih => exact .cons (Nat.zero_le _) ih
  have hne' : List.replicate dims.length 0 ≠ [] := by cases dims <;> simp_all
  -- the list of indices by offset
  set l : List (List Nat) := (List.range dims.prod).map fun n => MultiDim.nth true dims n with hl
  have hcount := Tensor.count_eq dims hne
  have hmem : ∀ v, v ∈ l ↔ List.Forall₂ (· < ·) v dims := by
    intro v
    rw [← MultiDim.nth_mem true]
    simp [hl]
  have hoff : ∀ n, n < dims.prod → Tensor.indexToOffsetNoChecks true dims (MultiDim.nth true dims n) = n := fun n hn => Tensor.rank_nth true dims n hn
  have hidx : ∀ f : Nat → List Nat → List Nat × Nat × Option E, l.mapIdx f = (List.range dims.prod).map fun n => f n (MultiDim.nth true dims n) := by
    intro f
    apply List.ext_getElem?
    intro i
    rw [List.getElem?_mapIdx, hl, List.getElem?_map, List.getElem?_map]
    by_cases hi : i < dims.prod
    · rw [List.getElem?_range hi]; rfl
    · rw [List.getElem?_eq_none (by simpa using hi)]; rfl
  refine ⟨l, hmem, ?_, by rw [hl, List.length_map, List.length_range, hcount], fun threshold hint => ?_⟩
  · rw [hl, List.pairwise_map]
    refine (List.pairwise_lt_range (n := dims.prod)).imp_of_mem fun {a b} _ hb hab => ?_
    exact C29.nth_before true dims hab (List.mem_range.mp hb)
  have hm := new_made threshold hint dims make
  set t := Tensor.new threshold hint dims make with ht
  have hd : t.dims = dims := rfl
  rw [hidx]
  cases hs : t.stored
  · -- made when asked for
    have e : Full.first t = .through (Iter.first t (List.replicate dims.length 0) dims) := by
      unfold Full.first
      rw [hs]
      rfl
    have hsh : MultiDimOffset.shift (List.replicate dims.length 0) dims = dims := by
      clear * -
      unfold MultiDimOffset.shift
      induction dims with
      | nil => rfl
      | cons d ds ih => rw [List.length_cons, List.replicate_succ, List.zipWith_cons_cons, ih, Nat.zero_add]
    have run := MultiDimOffset.run_shift true (List.replicate dims.length 0) dims hne (by simp)
    rw [hsh] at run
    have sh : ∀ v : List Nat, v.length = dims.length → MultiDimOffset.shift (List.replicate dims.length 0) v = v := by
      clear * -
      intro v hv
      rw [← hv]
      unfold MultiDimOffset.shift
      induction v generalizing dims with
      | nil => rfl
      | cons d ds ih => rw [List.length_cons, List.replicate_succ, List.zipWith_cons_cons, ih (dims := ds) rfl, Nat.zero_add]
    have len : ∀ n, (MultiDim.nth true dims n).length = dims.length := fun n => by simp [MultiDim.nth, MultiDim.unrank_length]
    have run2 := iterate hm hne (fun _ => 0) run (fun x hx => by
      obtain ⟨n, hn, rfl⟩ := List.mem_map.mp hx
      dsimp only
      rw [sh _ (len n)]
      exact (MultiDim.nth_mem true dims _).mp ⟨n, List.mem_range.mp hn, rfl⟩) (goes_first t (List.replicate dims.length 0) dims)
    rw [e]
    have fin := run2.simOn (next' := Full.next t) (atEnd' := fun s => s.more t = false) (value' := fun s => s.shows t) (fun x => x.2.1 = Tensor.indexToOffsetNoChecks true dims x.1)
      (fun s f => f = .through s) (fun x => (x.1, x.2.1, x.2.2.2)) (fun s f h => by subst h; simp [Full.more])
      (fun s f h _ _ => by subst h; rfl)
      (fun s f h _ hp => by
        subst h
        simp only [Full.shows, Full.index, Full.offset, Full.deref, Iter.shows, hd] at hp ⊢
        rw [hp])
      (fun x hx => by
        obtain ⟨y, -, rfl⟩ := List.mem_map.mp hx
        rfl) rfl
    simp only [List.map_map] at fin
    refine (congrArg (Yields _ _ _ _) ?_).mp fin
    refine List.map_congr_left fun n hn => ?_
    simp only [Function.comp_apply, sh _ (len n), hd, hoff n (List.mem_range.mp hn)]
    rfl
  · -- stored
    have e : Full.first t = .direct 0 := by
      unfold Full.first
      rw [hs]
      rfl
    have hlen : t.data.length = dims.prod := by
      rw [hm.data hs, List.length_map, List.length_range, hd, hcount]
    rw [e, List.range_eq_range']
    have key : ∀ k n, n + k = dims.prod → Yields (Full.next t) (fun s => s.more t = false) (fun s => s.shows t) (.direct n)
        ((List.range' n k).map fun n => (MultiDim.nth true dims n, n, some (make (MultiDim.nth true dims n)))) := by
      intro k
      induction k with
      | zero =>
        intro n hn
        exact .done (by simp only [Full.more, hlen]; simp; omega)
      | succ k ih =>
        intro n hn
        rw [List.range'_succ, List.map_cons]
        have hsh : (Full.direct n).shows t = (MultiDim.nth true dims n, n, some (make (MultiDim.nth true dims n))) := by
          simp only [Full.shows, Full.index, Full.offset, Full.deref]
          rw [hm.read hs (by rw [hd, hcount]; omega), hd, Tensor.toIndex_eq true dims n (by omega)]
          rfl
        rw [← hsh]
        exact .step (by simp only [Full.more, hlen]; simp; omega) (ih (n + 1) (by omega))
    exact key _ 0 (by omega)

/-- Comparison with the end is the test for further elements, for iterators of the tensor. -/
theorem C120_end (t : Tensor E) {s : Full E} (h : (∃ p, s = .direct p) ↔ t.stored = true) : s.eq (Full.last t) = some (!s.more t) := by
  unfold Full.last
  cases s with
  | direct p =>
    rw [if_pos (h.mp ⟨p, rfl⟩)]
    simp only [Full.eq, Full.more, bne, Bool.not_not]
  | through s =>
    rw [if_neg (fun e => by obtain ⟨p, hp⟩ := h.mpr e; simp at hp)]
    simp only [Full.eq, Full.more, Iter.eq, Iter.last]
    cases s.box.done <;> rfl

example : ∃ s, s = Full.next (Tensor.new 0 .automatic [2, 2] (fun v => v)) (Full.first (Tensor.new 0 .automatic [2, 2] (fun v => v))) ∧ s.shows (Tensor.new 0 .automatic [2, 2] (fun v => v)) = ([1, 0], 1, some [1, 0]) ∧
    ((∃ p, s = .direct p) ↔ (Tensor.new 0 .automatic [2, 2] (fun v => v)).stored = true) := by
  refine ⟨_, rfl, by decide, ?_⟩
  simp [Full.first, Full.next, Tensor.new, storageType, Tensor.elementCount]

/-! ## Iteration over parts -/

theorem sum_sub : ∀ {mins maxs : List Nat}, List.Forall₂ (· ≤ ·) mins maxs → MultiDimOffset.shift mins (List.zipWith (· - ·) maxs mins) = maxs
  | _, _, .nil => rfl
  | _, _, .cons h t => by
    have := sum_sub t
    unfold MultiDimOffset.shift at this ⊢
    rw [List.zipWith_cons_cons, List.zipWith_cons_cons, this]
    congr 1
    omega

/-- **C120, parts.** A part is given for corners that are in range and in order, and for no others. Iteration over it visits exactly the indices between the corners, in the order
of offsets; it shows the index, the offset in the tensor, how many were before, and the element, whatever the way of storage, and no matter how often elements are used on the way.
The part says how many there are, and its dimensions, however often it is asked. -/
theorem C120_part {dims mins maxs : List Nat} (hne : dims ≠ []) (make : List Nat → E) :
    (∀ threshold hint, ((Tensor.new threshold hint dims make).splice mins maxs).isSome ↔
      List.Forall₂ (· < ·) mins dims ∧ List.Forall₂ (· ≤ ·) maxs dims ∧ List.Forall₂ (· ≤ ·) mins maxs) ∧
    (List.Forall₂ (· < ·) mins dims → List.Forall₂ (· ≤ ·) maxs dims → List.Forall₂ (· ≤ ·) mins maxs →
      ∃ l : List (List Nat), (∀ v, v ∈ l ↔ List.Forall₂ (· ≤ ·) mins v ∧ List.Forall₂ (· < ·) v maxs) ∧ l.Pairwise (C29.Before true) ∧
        (∀ threshold hint r, (Tensor.new threshold hint dims make).splice mins maxs = some r → r.dimensions.1 = List.zipWith (· - ·) maxs mins ∧ r.count.1 = l.length ∧
          r.count.2.count = r.count ∧ r.dimensions.2.count.1 = l.length ∧ r.count.2.dimensions.1 = r.dimensions.1) ∧
        ∀ threshold hint (uses : Iter E → Nat), Yields (fun s => (s.touch (Tensor.new threshold hint dims make) (uses s)).next (Tensor.new threshold hint dims make) mins maxs)
          (fun s => s.eq Iter.last = true) (fun s => s.shows (Tensor.new threshold hint dims make)) (Iter.first (Tensor.new threshold hint dims make) mins maxs)
          (l.mapIdx fun k v => (v, Tensor.indexToOffsetNoChecks true dims v, k, some (make v)))) := by
  constructor
  · intro threshold hint
    unfold Tensor.splice
    have := C28.C28_validate_range dims mins maxs
    split
    · rename_i h
      simp only [Option.isSome_some, true_iff]
      exact this.mp h
    · rename_i h
      simp only [Option.isSome_none, Bool.false_eq_true, false_iff]
      exact fun c => h (this.mpr c)
  · intro h1 h2 h3
    have hlen := h1.length_eq
    have hlen' := h3.length_eq
    have hne' : mins ≠ [] := by
      rintro rfl
      exact hne (List.length_eq_zero_iff.mp hlen.symm)
    set ds := List.zipWith (· - ·) maxs mins with hds
    have hdl : mins.length = ds.length := by simp [hds, hlen']
    have hds' : ds ≠ [] := by
      intro e
      rw [e] at hdl
      exact hne' (List.length_eq_zero_iff.mp hdl)
    have run := MultiDimOffset.run_shift true mins ds hds' hdl
    rw [sum_sub h3] at run
    obtain ⟨l', hy, hmem, hord, hglob⟩ := C29.C29_sub_box true mins maxs hne' h3
    have el : l' = _ := hy.unique run
    have hll : l'.length = ds.prod := by rw [el]; simp
    refine ⟨l'.map Prod.fst, hmem, hord, fun threshold hint r hr => ?_, fun threshold hint uses => ?_⟩
    · unfold Tensor.splice at hr
      split at hr
      · obtain rfl := Option.some.inj hr
        simp only [Range.dimensions, Range.count, MultiDim.foldl_mul, List.length_map, hll, one_mul, ← hds, and_self]
      · simp at hr
    · have hin : ∀ x ∈ l', List.Forall₂ (· < ·) x.1 dims := by
        intro x hx
        have hx' := ((hmem x.1).mp (List.mem_map_of_mem hx)).2
        clear * - hx' h2
        generalize x.1 = v at hx'
        induction hx' generalizing dims with
        | nil => cases h2; exact .nil
        | cons a _ ih => cases h2 with
          | cons b c => exact .cons (lt_of_lt_of_le a b) (ih c)
      have fin := iterate (new_made threshold hint dims make) hne uses hy hin (goes_first _ mins maxs)
      have fin2 := fin.sim (next' := fun s => (s.touch (Tensor.new threshold hint dims make) (uses s)).next (Tensor.new threshold hint dims make) mins maxs)
        (atEnd' := fun s => s.eq Iter.last = true) (value' := fun s => s.shows (Tensor.new threshold hint dims make)) (fun s u => s = u) id
        (fun s u h => by subst h; cases hb : s.box.done <;> simp [Iter.eq, Iter.last, hb]) (fun s u h _ => by subst h; rfl) (fun s u h _ => by subst h; rfl) rfl
      rw [List.map_id] at fin2
      refine (congrArg (Yields _ _ _ _) ?_).mp fin2
      apply List.ext_getElem?
      intro i
      rw [List.getElem?_mapIdx, List.getElem?_map, List.getElem?_map]
      cases hi : l'[i]? with
      | none => rfl
      | some x =>
        have hx : x.2 = i := by
          have := congrArg (·[i]?) hglob
          simp only [List.getElem?_map, hi, Option.map_some] at this
          rw [List.getElem?_range (List.getElem?_eq_some_iff.mp hi).1] at this
          exact Option.some.inj this
        simp only [Option.map_some, hx]
        rfl

example : List.Forall₂ (· < ·) [1, 0] [3, 2] ∧ List.Forall₂ (· ≤ ·) [3, 1] [3, 2] ∧ List.Forall₂ (· ≤ ·) [1, 0] [3, 1] ∧
    ((Tensor.new 9 .automatic [3, 2] (fun v => v)).splice [1, 0] [3, 1]).isSome ∧
    (Iter.first (Tensor.new 9 .automatic [3, 2] (fun v => v)) [1, 0] [3, 1]).shows (Tensor.new 9 .automatic [3, 2] (fun v => v)) = ([1, 0], 1, 0, some [1, 0]) := by
  refine ⟨?_, ?_, ?_, by decide, by decide⟩ <;> simp

/-! ## Where the ways of storage differ -/

/-- **C120, refuted: without dimensions.** For a tensor without dimensions, the empty index is taken to be in range. Elements that are made are given; stored elements are read where there
are none. A part of it says that it has one element; iteration visits none. -/
theorem C120_refuted_empty (make : List Nat → E) : (Tensor.new 0 .stored [] make).view [] = none ∧ (Tensor.new 0 .virtual [] make).view [] = some (some (make [])) ∧
    (∃ r, (Tensor.new 0 .stored [] make).splice [] [] = some r ∧ r.count.1 = 1 ∧
      Yields (fun s => s.next (Tensor.new 0 .stored [] make) [] []) (fun s => s.box.done = true) (fun s => s.shows (Tensor.new 0 .stored [] make))
        (Iter.first (Tensor.new 0 .stored [] make) [] []) []) :=
  ⟨rfl, rfl, _, rfl, rfl, .done rfl⟩

/-- **C120, refuted: the end.** The offset of the end of the tensor is the number of elements if they are stored, and zero if they are made when asked for. -/
theorem C120_refuted_end (make : List Nat → E) : (Full.last (Tensor.new 0 .stored [2, 3] make)).offset (Tensor.new 0 .stored [2, 3] make) = 6 ∧
    (Full.last (Tensor.new 0 .virtual [2, 3] make)).offset (Tensor.new 0 .virtual [2, 3] make) = 0 := ⟨rfl, rfl⟩

end Moment.C120
