import Verif.Proof.SmallVector

/-! # C118: short vectors behave as lists -/

namespace Moment.C118

open SmallVector

variable {α : Type} [Inhabited α] {N : Nat}

/-- Whatever allowed calls a program makes on any number of vectors, starting with none, no memory is used wrongly; the vectors that exist afterwards have the contents that
lists would have had, by size, index, iteration forwards and backwards; what one vector holds does not depend on calls on others. -/
theorem C118_history (ops : List (Op α)) (hl : Legal (fun _ => none) ops) :
    ∃ w A, World.new.run N ops = some w ∧ Steps (fun _ => none) ops A ∧ (∀ a, A a = none ↔ w.objs a = none) ∧
      ∀ a xs, A a = some xs → ∃ v, w.objs a = some v ∧ v.size = xs.length ∧ v.read = some (xs.map some) ∧ v.readBack = some (xs.reverse.map some) ∧
        ∀ i, v.get i = xs[i]? := by
  obtain ⟨w, A, h1, h2, h3⟩ := Sim.new.run hl
  refine ⟨w, A, h1, h2, fun a => ⟨h3.missing, h3.absent a⟩, ?_⟩
  intro a xs ha
  obtain ⟨v, v1, _, v3⟩ := h3.find ha
  exact ⟨v, v1, v3.size, read_good v3, readBack_good v3, get_good v3⟩

/-- Programs and what they hold. -/
theorem reached {ops : List (Op α)} (hl : Legal (fun _ => none) ops) {w : World α} (hr : World.new.run N ops = some w) : ∃ A, Steps (fun _ => none) ops A ∧ Sim N w A := by
  obtain ⟨w', A, h1, h2, h3⟩ := Sim.new.run (N := N) hl
  rw [hr] at h1
  obtain rfl := Option.some.inj h1
  exact ⟨A, h2, h3⟩

/-- The comparison of two vectors compares what an iteration reads. -/
theorem C118_equal [DecidableEq α] (ops : List (Op α)) (hl : Legal (fun _ => none) ops) {w : World α} (hr : World.new.run N ops = some w) {a b : Nat} {v u : Vec α}
    (hv : w.objs a = some v) (hu : w.objs b = some u) : v.equal u = some (decide (v.read = u.read)) := by
  obtain ⟨A, _, h⟩ := reached hl hr
  obtain ⟨_, xs, _, gv⟩ := h.good a v hv
  obtain ⟨_, ys, _, gu⟩ := h.good b u hu
  rw [equal_good gv gu, read_good gv, read_good gu]
  congr 1
  rw [decide_eq_decide]
  refine ⟨fun e => by rw [e], fun e => ?_⟩
  exact (List.map_inj_right fun _ _ h => Option.some.inj h).mp (Option.some.inj e)

/-- Vectors have room for their elements and for `N` at least, use the heap just if their capacity exceeds `N`, use their own memory, and no two share a block. -/
theorem C118_memory (ops : List (Op α)) (hl : Legal (fun _ => none) ops) {w : World α} (hr : World.new.run N ops = some w) {a : Nat} {v : Vec α} (hv : w.objs a = some v) :
    v.size ≤ v.cap ∧ N ≤ v.cap ∧ (v.onHeap = true ↔ N < v.cap) ∧
      (v.onHeap = false → v.start = .stackOf a) ∧ (∀ blk, v.heap = some blk → v.start = .block blk.id ∧ blk.cells.length = v.cap) ∧
      ∀ b u x y, b ≠ a → w.objs b = some u → v.heap = some x → u.heap = some y → x.id ≠ y.id := by
  obtain ⟨A, _, h⟩ := reached hl hr
  obtain ⟨ha, xs, _, g⟩ := h.good a v hv
  obtain ⟨c1, c2, c3⟩ := g.capacity
  refine ⟨c2, c1, c3, ?_, ?_, ?_⟩
  · intro e
    rcases g.place with ⟨_, h2, _⟩ | ⟨b, h1, _⟩
    · rw [h2, ha]
    · simp [Vec.onHeap, h1] at e
  · intro blk e
    rcases g.place with ⟨h1, _⟩ | ⟨b, h1, h2, h3, _⟩
    · simp [h1] at e
    · rw [h1] at e
      obtain rfl := Option.some.inj e
      exact ⟨h2, h3⟩
  · intro b u x y hb hu hx hy e
    exact hb (h.apart b a u v y.id hu hv (by simp [Vec.blockId, hy]) (by simp [Vec.blockId, hx, e]))

/-- A vector that is moved from becomes empty if it was on the heap, and otherwise keeps its contents. -/
theorem C118_moved (ops : List (Op α)) (hl : Legal (fun _ => none) ops) {w : World α} (hr : World.new.run N ops = some w) {a s : Nat} {v : Vec α}
    (hs : w.objs s = some v) (hne : a ≠ s) {op : Op α} (hop : (op = .moveNew a s ∧ w.objs a = none) ∨ (op = .moveTo a s ∧ (w.objs a).isSome)) :
    ∃ w' x y, w.step N op = some w' ∧ w'.objs a = some x ∧ w'.objs s = some y ∧ x.read = v.read ∧ y.read = if v.onHeap then some [] else v.read := by
  obtain ⟨A, _, h⟩ := reached hl hr
  obtain ⟨hadr, xs, _, g⟩ := h.good s v hs
  have fin : ∀ (x y : Vec α), Good N x xs → Good N y (if v.onHeap then [] else xs) → x.read = v.read ∧ y.read = if v.onHeap then some [] else v.read := by
    intro x y hx hy
    rw [read_good hx, read_good g, read_good hy]
    refine ⟨rfl, ?_⟩
    split <;> simp
  rcases hop with ⟨rfl, ha⟩ | ⟨rfl, ha⟩
  · obtain ⟨x, y, v1, v2, v3, v4, v5, _⟩ := moveNew_good g a
    refine ⟨w.put2 (x, y), x, y, by simp [World.step, hs, v1], by simp [World.put2, v4], ?_, fin x y v2 v3⟩
    simp [World.put2, v4, v5, hadr, Function.update_of_ne hne.symm]
  · obtain ⟨d, hd⟩ := Option.isSome_iff_exists.mp ha
    obtain ⟨hda, ys, _, gd⟩ := h.good a d hd
    obtain ⟨x, y, v1, v2, v3, v4, v5, _⟩ := moveTo_good g gd
    rw [hda] at v4
    refine ⟨w.put2 (x, y), x, y, by simp [World.step, hs, hd, v1], by simp [World.put2, v4], ?_, fin x y v2 v3⟩
    simp [World.put2, v4, v5, hadr, Function.update_of_ne hne.symm]

/-- After `reserve`, the vector has the capacity; appending or inserting within the capacity leaves the array in its place, as do all other changes of elements. -/
theorem C118_stable (ops : List (Op α)) (hl : Legal (fun _ => none) ops) {w : World α} (hr : World.new.run N ops = some w) {a : Nat} {v : Vec α} (hv : w.objs a = some v) :
    (∀ n, ∃ w' u, w.step N (.reserve a n) = some w' ∧ w'.objs a = some u ∧ n ≤ u.cap ∧ u.read = v.read) ∧
    ∀ op, (∃ x, op = .push a x ∧ v.size + 1 ≤ v.cap) ∨ (∃ i xs, op = .insert a i xs ∧ i ≤ v.size ∧ v.size + xs.length ≤ v.cap) ∨
      (op = .pop a ∧ 0 < v.size) ∨ op = .clear a ∨ (∃ i j, op = .erase a i j ∧ i ≤ j ∧ j ≤ v.size) ∨ (∃ i x, op = .set a i x ∧ i < v.size) →
      ∃ w' u, w.step N op = some w' ∧ w'.objs a = some u ∧ u.start = v.start ∧ u.cap = v.cap := by
  obtain ⟨A, _, h⟩ := reached hl hr
  obtain ⟨ha, xs, _, g⟩ := h.good a v hv
  have hz := g.size
  constructor
  · intro n
    obtain ⟨u, u1, u2, u3, _, u5⟩ := reserve_good g w.next n
    exact ⟨w.put u, u, by simp [World.step, hv, u1], by simp [World.put, u3, ha], u5, by rw [read_good u2, read_good g]⟩
  · rintro op (⟨x, rfl, hc⟩ | ⟨i, ys, rfl, hi, hc⟩ | ⟨rfl, hp⟩ | rfl | ⟨i, j, rfl, hi, hj⟩ | ⟨i, x, rfl, hi⟩)
    · obtain ⟨u, u1, _, u3, _, u5⟩ := push_good g w.next x
      exact ⟨w.put u, u, by simp [World.step, hv, u1], by simp [World.put, u3, ha], u5 (by omega)⟩
    · obtain ⟨u, u1, _, u3, _, u5⟩ := insert_good g w.next (i := i) (by omega) ys
      exact ⟨w.put u, u, by simp [World.step, hv, u1], by simp [World.put, u3, ha], u5 hc⟩
    · obtain ⟨u, u1, _, u3, _, u5⟩ := pop_good g (List.length_pos_iff.mp (by omega))
      exact ⟨w.put u, u, by simp [World.step, hv, u1], by simp [World.put, u3, ha], u5⟩
    · exact ⟨w.put v.clear, v.clear, by simp [World.step, hv], by simp [World.put, Vec.clear, ha], rfl, rfl⟩
    · obtain ⟨u, u1, _, u3, _, u5⟩ := erase_good g hi (by omega)
      exact ⟨w.put u, u, by simp [World.step, hv, u1], by simp [World.put, u3, ha], u5⟩
    · obtain ⟨u, u1, _, u3, _, u5⟩ := setAt_good g (i := i) (by omega) x
      exact ⟨w.put u, u, by simp [World.step, hv, u1], by simp [World.put, u3, ha], u5⟩

/-- Appending a copy of an element of the vector itself with `emplace_back` works if there is room, or if the elements are still in the buffer. Missing: full vectors on the
heap, see `C118_refuted_emplace`. -/
theorem C118_emplace_partial (ops : List (Op α)) (hl : Legal (fun _ => none) ops) {w : World α} (hr : World.new.run N ops = some w) {a : Nat} {v : Vec α}
    (hv : w.objs a = some v) {i : Nat} {x : α} (hx : v.get i = some x) (hc : v.size < v.cap ∨ v.onHeap = false) : v.emplaceOwn w.next i = v.push w.next x := by
  obtain ⟨A, _, h⟩ := reached hl hr
  obtain ⟨_, xs, _, g⟩ := h.good a v hv
  rw [get_good g] at hx
  obtain ⟨hi, rfl⟩ := List.getElem?_eq_some_iff.mp hx
  exact emplaceOwn_good g _ hi hc

/-! ## Examples -/

/-- Two vectors, the second a copy that then outgrows the buffer of two elements. -/
def exOps : List (Op Nat) := [.make 0 [7, 8], .copyNew 1 0, .push 1 9, .set 0 0 5, .moveNew 2 1, .swap 0 2]

theorem ex_legal : Legal (fun _ => none) exOps := by
  refine ⟨⟨_, .make rfl⟩, ?_⟩
  rintro _ ⟨⟩
  refine ⟨⟨_, .copyNew (xs := [7, 8]) (by simp) (by simp)⟩, ?_⟩
  rintro _ (_ | _)
  rename_i xs _ hs
  obtain rfl : xs = [7, 8] := by simpa using hs.symm
  refine ⟨⟨_, .push (xs := [7, 8]) (by simp)⟩, ?_⟩
  rintro _ (_ | _)
  rename_i xs hs
  obtain rfl : xs = [7, 8] := by simpa using hs.symm
  refine ⟨⟨_, .set (xs := [7, 8]) (by simp [Function.update]) (by simp)⟩, ?_⟩
  rintro _ (_ | _)
  rename_i xs hs _
  obtain rfl : xs = [7, 8] := by simpa [Function.update] using hs.symm
  refine ⟨⟨_, .moveNew (xs := [7, 8, 9]) (left := []) (by simp [Function.update]) (by simp [Function.update]) (.inr rfl)⟩, ?_⟩
  rintro _ (_ | _)
  rename_i xs left _ hs hl
  refine ⟨⟨_, .swap (xs := [5, 8]) (ys := xs) (by decide) (by simp [Function.update]) (by simp [Function.update])⟩, fun _ _ => trivial⟩

example : ∃ w A, World.new.run 2 exOps = some w ∧ Steps (fun _ => none) exOps A ∧ (∀ a, A a = none ↔ w.objs a = none) ∧
    ∀ a xs, A a = some xs → ∃ v, w.objs a = some v ∧ v.size = xs.length ∧ v.read = some (xs.map some) ∧ v.readBack = some (xs.reverse.map some) ∧
      ∀ i, v.get i = xs[i]? := C118_history exOps ex_legal

theorem ex_made (a : Nat) (xs : List Nat) : Legal (fun _ => none) [Op.make a xs] := ⟨⟨_, .make rfl⟩, fun _ _ => trivial⟩

/-- A program with one vector. -/
theorem ex_run (a : Nat) (xs : List Nat) : ∃ w v, World.new.run N [.make a xs] = some w ∧ w.objs a = some v ∧ v.read = some (xs.map some) ∧ w.next = 1 ∧
    Good N v xs ∧ ofValues N a 0 xs = some v := by
  obtain ⟨v, v1, v2, v3, _⟩ := ofValues_good (N := N) a 0 xs
  exact ⟨World.put World.new v, v, by simp [World.run, World.step, World.new, v1], by simp [World.put, v3], read_good v2, rfl, v2, v1⟩

example : ∃ (w : World Nat) (v : Vec Nat), World.new.run 4 [.make 3 [1, 2]] = some w ∧ w.objs 3 = some v ∧ v.equal v = some (decide (v.read = v.read)) ∧ v.size ≤ v.cap := by
  obtain ⟨w, v, h1, h2, _⟩ := ex_run (N := 4) 3 [1, 2]
  exact ⟨w, v, h1, h2, C118_equal _ (ex_made 3 [1, 2]) h1 h2 h2, (C118_memory _ (ex_made 3 [1, 2]) h1 h2).1⟩

example : ∃ (w w' : World Nat) (v y : Vec Nat), World.new.run 1 [.make 3 [1, 2]] = some w ∧ w.objs 3 = some v ∧ w.step 1 (.moveNew 4 3) = some w' ∧ w'.objs 3 = some y ∧
    y.read = if v.onHeap then some [] else v.read := by
  obtain ⟨w, v, h1, h2, _, _, _, h3⟩ := ex_run (N := 1) 3 [1, 2]
  have h4 : w.objs 4 = none := by
    simp only [World.run, World.step, World.new, h3, Option.map_some, Option.bind_some, Option.some.injEq] at h1
    subst h1
    have : v.addr = 3 := by
      obtain ⟨v', v1, _, v3, _⟩ := ofValues_good (N := 1) 3 0 [1, 2]
      rw [h3] at v1
      obtain rfl := Option.some.inj v1
      exact v3
    simp [World.put, this]
  obtain ⟨w', x, y, k1, k2, k3, k4, k5⟩ := C118_moved _ (ex_made 3 [1, 2]) h1 h2 (a := 4) (by decide) (.inl ⟨rfl, h4⟩)
  exact ⟨w, w', v, y, h1, h2, k1, k3, k5⟩

example : ∃ (w : World Nat) (v : Vec Nat), World.new.run 4 [.make 3 [1, 2]] = some w ∧ w.objs 3 = some v ∧ v.emplaceOwn w.next 1 = v.push w.next 2 := by
  obtain ⟨w, v, h1, h2, _, _, g, _⟩ := ex_run (N := 4) 3 [1, 2]
  refine ⟨w, v, h1, h2, C118_emplace_partial _ (ex_made 3 [1, 2]) h1 h2 (by rw [get_good g]; rfl) ?_⟩
  obtain ⟨c1, c2, _⟩ := g.capacity
  have := g.size
  simp at this
  omega

/-! ## Refutation -/

/-- Appending a copy of an element of the vector itself always works. -/
def EmplacesOwn : Prop := ∀ (N : Nat) (ops : List (Op Nat)) (w : World Nat) (a : Nat) (v : Vec Nat) (i x : Nat), Legal (fun _ => none) ops → World.new.run N ops = some w →
  w.objs a = some v → v.get i = some x → v.emplaceOwn w.next i ≠ none

/-- A full vector on the heap frees the block with the element before it is copied: `v.emplace_back(v[0])` reads freed memory, where it would be fine for `std::vector`. -/
theorem C118_refuted_emplace : ¬ EmplacesOwn := by
  intro h
  have hs : suggest 2 = 2 := by
    have : Nat.clog 2 2 = 1 := by simpa using Nat.clog_pow 2 1 (by norm_num)
    rw [suggest, this]
  obtain ⟨w, v, h1, h2, _, h4, g, h3⟩ := ex_run (N := 1) 0 [7, 8]
  refine h 1 _ w 0 v 0 7 (ex_made 0 [7, 8]) h1 h2 (by rw [get_good g]; rfl) ?_
  have hv : v = ⟨0, some ⟨0, [some 7, some 8]⟩, [none], 2, 2, .block 0⟩ := by
    have : ofValues 1 0 0 [7, 8] = some ⟨0, some ⟨0, [some 7, some 8]⟩, [none], 2, 2, .block 0⟩ := by
      simp [ofValues, hs, write, block, buffer]
    rw [this] at h3
    exact (Option.some.inj h3).symm
  subst hv
  obtain ⟨u, u1, _, _, u4, _⟩ := reallocate_good g w.next (n := 3) (by decide)
  rw [h4] at u1 u4 ⊢
  simp only [Vec.emplaceOwn, Nat.le_refl, if_true, u1, Option.bind_some]
  simp only [Vec.blockId, Option.map_eq_some_iff] at u4
  obtain ⟨b, hb, hid⟩ := u4
  simp [Vec.deref, hb, hid]

end Moment.C118
