import Verif.Model.SmallVector
import Mathlib.Tactic.Linarith

/-! # Short vectors hold the lists they should -/

namespace Moment.SmallVector

variable {α : Type} {N : Nat}

theorem le_suggest (n : Nat) : n ≤ suggest n := Nat.le_pow_clog (by norm_num) n

theorem write_some {cells xs : List (Option α)} {i : Nat} (h : i + xs.length ≤ cells.length) :
    ∃ r, write cells i xs = some r ∧ r = cells.take i ++ xs ++ cells.drop (i + xs.length) ∧ r.length = cells.length := by
  refine ⟨_, by simp only [write, if_pos h], rfl, ?_⟩
  simp only [List.length_append, List.length_take, List.length_drop]
  omega

theorem readCells_some {cells : List (Option α)} {i n : Nat} (h : i + n ≤ cells.length) : readCells cells i n = some ((cells.drop i).take n) := by
  simp only [readCells, if_pos h]

/-- The vector is in order and holds a list. -/
structure Good (N : Nat) (v : Vec α) (xs : List α) : Prop where
  buffer : v.stack.length = N
  size : v.size = xs.length
  fits : v.size ≤ v.cap
  place : (v.heap = none ∧ v.start = .stackOf v.addr ∧ v.cap = N ∧ v.stack.take v.size = xs.map some) ∨
    ∃ b, v.heap = some b ∧ v.start = .block b.id ∧ b.cells.length = v.cap ∧ N < v.cap ∧ b.cells.take v.size = xs.map some

namespace Good

variable {v w : Vec α} {xs ys : List α}

theorem data (h : Good N v xs) : ∃ cells, v.data = some cells ∧ cells.length = v.cap ∧ cells.take v.size = xs.map some := by
  rcases h.place with ⟨h1, h2, h3, h4⟩ | ⟨b, h1, h2, h3, h4, h5⟩
  · exact ⟨v.stack, by simp [Vec.data, h2], by rw [h.buffer, h3], h4⟩
  · exact ⟨b.cells, by simp [Vec.data, h2, h1], h3, h5⟩

/-- Writing through the pointer. -/
theorem withData (h : Good N v xs) {cells : List (Option α)} (hl : cells.length = v.cap) (hf : ys.length ≤ v.cap) (ht : cells.take ys.length = ys.map some) :
    Good N { v.withData cells with size := ys.length } ys := by
  rcases h.place with ⟨h1, h2, h3, h4⟩ | ⟨b, h1, h2, h3, h4, h5⟩
  · simp only [Vec.withData, h2]
    exact ⟨by simpa [h3] using hl, rfl, hf, .inl ⟨h1, rfl, h3, ht⟩⟩
  · simp only [Vec.withData, h2]
    exact ⟨h.buffer, rfl, hf, .inr ⟨_, rfl, rfl, hl, h4, ht⟩⟩

/-- A block of one's own. -/
theorem onBlock {addr id n cap : Nat} {stack cells : List (Option α)} (hb : stack.length = N) (hn : n = ys.length) (hl : cells.length = cap) (hf : n ≤ cap) (hc : N < cap)
    (ht : cells.take n = ys.map some) : Good N ⟨addr, some ⟨id, cells⟩, stack, n, cap, .block id⟩ ys :=
  ⟨hb, hn, hf, .inr ⟨_, rfl, rfl, hl, hc, ht⟩⟩

theorem onStack {addr n : Nat} {cells : List (Option α)} (hb : cells.length = N) (hn : n = ys.length) (hf : n ≤ N) (ht : cells.take n = ys.map some) :
    Good N ⟨addr, none, cells, n, N, .stackOf addr⟩ ys := ⟨hb, hn, hf, .inl ⟨rfl, rfl, rfl, ht⟩⟩

theorem capacity (h : Good N v xs) : N ≤ v.cap ∧ v.size ≤ v.cap ∧ (v.onHeap = true ↔ N < v.cap) := by
  refine ⟨?_, h.fits, ?_⟩ <;> rcases h.place with ⟨h1, h2, h3, h4⟩ | ⟨b, h1, h2, h3, h4, h5⟩
  · omega
  · omega
  · simp [Vec.onHeap, h1, h3]
  · simp [Vec.onHeap, h1, h4]

end Good

/-- Writing at the front of an array. -/
theorem write_front {cells xs : List (Option α)} (h : xs.length ≤ cells.length) :
    ∃ r, write cells 0 xs = some r ∧ r.length = cells.length ∧ r.take xs.length = xs := by
  obtain ⟨r, h1, h2, h3⟩ := write_some (i := 0) (cells := cells) (xs := xs) (by omega)
  exact ⟨r, h1, h3, by simp [h2]⟩

theorem take_front {cells : List (Option α)} {n : Nat} {xs : List α} (hn : n = xs.length) (ht : cells.take n = xs.map some) :
    readCells cells 0 n = some (xs.map some) := by
  have : n ≤ cells.length := by
    have := congrArg List.length ht
    simp at this
    omega
  rw [readCells_some (by omega), List.drop_zero, ht]

/-- Sizes for which `suggest` needs the heap. -/
theorem block_length [Inhabited α] (id n : Nat) : (block id n : Block α).cells.length = n := List.length_replicate ..

/-- What the owner of the block of a vector is. -/
def Vec.blockId (v : Vec α) : Option Nat := v.heap.map (·.id)

variable [Inhabited α]

theorem ofValues_good (addr id : Nat) (xs : List α) :
    ∃ v, ofValues N addr id xs = some v ∧ Good N v xs ∧ v.addr = addr ∧ (v.blockId = none ∨ v.blockId = some id) := by
  unfold ofValues
  split
  · rename_i h
    obtain ⟨r, h1, h2, h3⟩ := write_front (cells := buffer N) (xs := xs.map some) (by simpa [buffer] using h)
    rw [h1]
    refine ⟨_, rfl, Good.onStack ?_ rfl h (by simpa using h3), rfl, .inl rfl⟩
    simpa [buffer] using h2
  · rename_i h
    have hs := le_suggest xs.length
    obtain ⟨r, h1, h2, h3⟩ := write_front (cells := (block id (suggest xs.length) : Block α).cells) (xs := xs.map some) (by simpa [block_length] using hs)
    rw [h1]
    refine ⟨_, rfl, Good.onBlock (by simp [buffer]) rfl ?_ hs (by omega) (by simpa using h3), rfl, .inr rfl⟩
    simpa [block_length] using h2

theorem copyNew_good {v : Vec α} {xs : List α} (h : Good N v xs) (addr id : Nat) :
    ∃ r, copyNew N addr id v = some r ∧ Good N r xs ∧ r.addr = addr ∧ (r.blockId = none ∨ r.blockId = some id) := by
  have hf := h.fits
  have hs := h.size
  rcases h.place with ⟨h1, h2, h3, h4⟩ | ⟨b, h1, h2, h3, h4, h5⟩
  · obtain ⟨r, k1, k2, k3⟩ := write_front (cells := buffer N) (xs := xs.map some) (by simp [buffer]; omega)
    simp only [copyNew, h1, take_front hs h4, Option.bind_some, k1, Option.map_some]
    refine ⟨_, rfl, ?_, rfl, .inl rfl⟩
    rw [h3]
    refine Good.onStack (by simpa [buffer] using k2) hs (by omega) ?_
    rw [hs]
    simpa using k3
  · obtain ⟨r, k1, k2, k3⟩ := write_front (cells := (block id v.cap : Block α).cells) (xs := xs.map some) (by simp [block_length]; omega)
    simp only [copyNew, h1, take_front hs h5, Option.bind_some, k1, Option.map_some]
    refine ⟨_, rfl, Good.onBlock (by simp [buffer]) hs (by simpa [block_length] using k2) hf h4 ?_, rfl, .inr rfl⟩
    rw [hs]
    simpa using k3

theorem copyTo_good {v w : Vec α} {xs ys : List α} (h : Good N v xs) (hw : Good N w ys) (id : Nat) :
    ∃ r, copyTo id w v = some r ∧ Good N r xs ∧ r.addr = w.addr ∧ (r.blockId = none ∨ r.blockId = some id) := by
  have hf := h.fits
  have hs := h.size
  have hb := hw.buffer
  rcases h.place with ⟨h1, h2, h3, h4⟩ | ⟨b, h1, h2, h3, h4, h5⟩
  · obtain ⟨r, k1, k2, k3⟩ := write_front (cells := w.stack) (xs := xs.map some) (by simp; omega)
    simp only [copyTo, h1, take_front hs h4, Option.bind_some, k1, Option.map_some]
    refine ⟨_, rfl, ?_, rfl, .inl rfl⟩
    rw [h3]
    refine Good.onStack (by omega) hs (by omega) ?_
    rw [hs]
    simpa using k3
  · obtain ⟨r, k1, k2, k3⟩ := write_front (cells := (block id v.cap : Block α).cells) (xs := xs.map some) (by simp [block_length]; omega)
    simp only [copyTo, h1, take_front hs h5, Option.bind_some, k1, Option.map_some]
    refine ⟨_, rfl, Good.onBlock hb hs (by simpa [block_length] using k2) hf h4 ?_, rfl, .inr rfl⟩
    rw [hs]
    simpa using k3

omit [Inhabited α] in
theorem moved_good {v : Vec α} {xs : List α} (h : Good N v xs) : Good N { v with heap := none, size := 0, cap := N, start := .stackOf v.addr } ([] : List α) :=
  ⟨h.buffer, rfl, Nat.zero_le _, .inl ⟨rfl, rfl, rfl, by simp⟩⟩

omit [Inhabited α] in
theorem moveNew_good {v : Vec α} {xs : List α} (h : Good N v xs) (addr : Nat) :
    ∃ r l, moveNew N addr v = some (r, l) ∧ Good N r xs ∧ Good N l (if v.onHeap then [] else xs) ∧ r.addr = addr ∧ l.addr = v.addr ∧
      r.blockId = v.blockId ∧ l.blockId = none := by
  have hf := h.fits
  have hs := h.size
  rcases h.place with ⟨h1, h2, h3, h4⟩ | ⟨b, h1, h2, h3, h4, h5⟩
  · obtain ⟨r, k1, k2, k3⟩ := write_front (cells := buffer N) (xs := xs.map some) (by simp [buffer]; omega)
    simp only [moveNew, h1, take_front hs h4, Option.bind_some, k1, Option.map_some]
    refine ⟨_, _, rfl, ?_, by simpa [Vec.onHeap, h1] using h, rfl, rfl, by simp [Vec.blockId, h1], by simp [Vec.blockId, h1]⟩
    rw [h3]
    refine Good.onStack (by simpa [buffer] using k2) hs (by omega) ?_
    rw [hs]
    simpa using k3
  · simp only [moveNew, h1]
    exact ⟨_, _, rfl, Good.onBlock (by simp [buffer]) hs h3 hf h4 h5, by simpa [Vec.onHeap, h1] using moved_good h, rfl, rfl, by simp [Vec.blockId, h1], rfl⟩

omit [Inhabited α] in
theorem moveTo_good {v w : Vec α} {xs ys : List α} (h : Good N v xs) (hw : Good N w ys) :
    ∃ r l, moveTo N w v = some (r, l) ∧ Good N r xs ∧ Good N l (if v.onHeap then [] else xs) ∧ r.addr = w.addr ∧ l.addr = v.addr ∧
      r.blockId = v.blockId ∧ l.blockId = none := by
  have hf := h.fits
  have hs := h.size
  have hb := hw.buffer
  rcases h.place with ⟨h1, h2, h3, h4⟩ | ⟨b, h1, h2, h3, h4, h5⟩
  · obtain ⟨r, k1, k2, k3⟩ := write_front (cells := w.stack) (xs := xs.map some) (by simp; omega)
    simp only [moveTo, h1, take_front hs h4, Option.bind_some, k1, Option.map_some]
    refine ⟨_, _, rfl, ?_, by simpa [Vec.onHeap, h1] using h, rfl, rfl, by simp [Vec.blockId, h1], by simp [Vec.blockId, h1]⟩
    refine Good.onStack (by omega) hs (by omega) ?_
    rw [hs]
    simpa using k3
  · simp only [moveTo, h1]
    exact ⟨_, _, rfl, Good.onBlock hb hs h3 hf h4 h5, by simpa [Vec.onHeap, h1] using moved_good h, rfl, rfl, by simp [Vec.blockId, h1], rfl⟩

theorem reallocate_good {v : Vec α} {xs : List α} (h : Good N v xs) (id : Nat) {n : Nat} (hn : v.cap < n) :
    ∃ r, v.reallocate id n = some r ∧ Good N r xs ∧ r.addr = v.addr ∧ r.blockId = some id ∧ n ≤ r.cap ∧ r.size = v.size := by
  have hf := h.fits
  have hg := le_suggest n
  have hN := h.capacity.1
  have key : ∀ cells : List (Option α), cells.length = v.cap → cells.take v.size = xs.map some →
      ∃ r, (write (block id (suggest n) : Block α).cells 0 cells) = some r ∧ r.length = suggest n ∧ r.take v.size = xs.map some := by
    intro cells hl ht
    obtain ⟨r, k1, k2, k3⟩ := write_front (cells := (block id (suggest n) : Block α).cells) (xs := cells) (by rw [block_length]; omega)
    refine ⟨r, k1, by simpa [block_length] using k2, ?_⟩
    rw [← ht]
    conv_rhs => rw [← k3]
    rw [List.take_take, Nat.min_eq_left (by omega)]
  rcases h.place with ⟨h1, h2, h3, h4⟩ | ⟨b, h1, h2, h3, h4, h5⟩
  · obtain ⟨r, k1, k2, k3⟩ := key v.stack (by rw [h.buffer, h3]) h4
    simp only [Vec.reallocate, h1, Option.bind_some, k1, Option.map_some]
    exact ⟨_, rfl, Good.onBlock h.buffer h.size k2 (by omega) (by omega) k3, rfl, rfl, hg, rfl⟩
  · obtain ⟨r, k1, k2, k3⟩ := key b.cells h3 h5
    have hr : readCells b.cells 0 v.cap = some b.cells := by rw [readCells_some (by omega), List.drop_zero, List.take_of_length_le (by omega)]
    simp only [Vec.reallocate, h1, hr, Option.bind_some, k1, Option.map_some]
    exact ⟨_, rfl, Good.onBlock h.buffer h.size k2 (by omega) (by omega) k3, rfl, rfl, hg, rfl⟩

omit [Inhabited α] in
theorem withData_fields (v : Vec α) (cells : List (Option α)) (h : v.heap = none ∨ True) :
    (v.withData cells).addr = v.addr ∧ (v.withData cells).cap = v.cap ∧ (v.withData cells).start = v.start ∧ (v.withData cells).size = v.size := by
  unfold Vec.withData
  split <;> simp_all

omit [Inhabited α] in
theorem withData_id {v : Vec α} {xs : List α} (h : Good N v xs) (cells : List (Option α)) : (v.withData cells).blockId = v.blockId := by
  rcases h.place with ⟨h1, h2, h3, h4⟩ | ⟨b, h1, h2, h3, h4, h5⟩ <;> simp [Vec.withData, h2, Vec.blockId, h1]

theorem reserve_good {v : Vec α} {xs : List α} (h : Good N v xs) (id n : Nat) :
    ∃ r, v.reserve id n = some r ∧ Good N r xs ∧ r.addr = v.addr ∧ (r.blockId = v.blockId ∨ r.blockId = some id) ∧ n ≤ r.cap := by
  unfold Vec.reserve
  split
  · rename_i hn
    obtain ⟨r, h1, h2, h3, h4, h5, _⟩ := reallocate_good h id hn
    exact ⟨r, h1, h2, h3, .inr h4, h5⟩
  · exact ⟨v, rfl, h, rfl, .inl rfl, by omega⟩

theorem push_good {v : Vec α} {xs : List α} (h : Good N v xs) (id : Nat) (x : α) :
    ∃ r, v.push id x = some r ∧ Good N r (xs ++ [x]) ∧ r.addr = v.addr ∧ (r.blockId = v.blockId ∨ r.blockId = some id) ∧
      (v.size < v.cap → r.start = v.start ∧ r.cap = v.cap) := by
  have main : ∀ u : Vec α, Good N u xs → u.size < u.cap → ∃ r, (u.data.bind fun cells =>
      (write cells u.size [some x]).map fun cells => { u.withData cells with size := u.size + 1 }) = some r ∧ Good N r (xs ++ [x]) ∧ r.addr = u.addr ∧
      r.blockId = u.blockId ∧ r.start = u.start ∧ r.cap = u.cap := by
    intro u hu hlt
    obtain ⟨cells, d1, d2, d3⟩ := hu.data
    obtain ⟨r, k1, k2, k3⟩ := write_some (cells := cells) (xs := [some x]) (i := u.size) (by simp; omega)
    obtain ⟨f1, f2, f3, f4⟩ := withData_fields u r (.inr trivial)
    have hz := hu.size
    simp only [d1, Option.bind_some, k1, Option.map_some]
    refine ⟨_, rfl, ?_, f1, withData_id hu r, f3, f2⟩
    have := hu.withData (cells := r) (ys := xs ++ [x]) (by omega) (by simp; omega) (by
      rw [k2, d3]
      rw [List.take_append_of_le_length (by simp), List.take_of_length_le (by simp)]
      simp)
    simpa [hz] using this
  unfold Vec.push
  split
  · rename_i hc
    have := h.fits
    obtain ⟨u, u1, u2, u3, u4, u5, u6⟩ := reallocate_good h id (n := v.size + 1) (by omega)
    rw [u1, Option.bind_some]
    obtain ⟨r, r1, r2, r3, r4, r5, r6⟩ := main u u2 (by omega)
    exact ⟨r, r1, r2, r3.trans u3, .inr (r4.trans u4), fun hlt => by omega⟩
  · rw [Option.bind_some]
    obtain ⟨r, r1, r2, r3, r4, r5, r6⟩ := main v h (by omega)
    exact ⟨r, r1, r2, r3, .inl r4, fun _ => ⟨r5, r6⟩⟩

omit [Inhabited α] in
/-- Keeping a part of the front. -/
theorem shrink_good {v : Vec α} {xs : List α} (h : Good N v xs) {n : Nat} (hn : n ≤ xs.length) : Good N { v with size := n } (xs.take n) := by
  have hz := h.size
  have hf := h.fits
  refine ⟨h.buffer, by simp [hn], by simp; omega, ?_⟩
  have key : ∀ cells : List (Option α), cells.take v.size = xs.map some → cells.take n = (xs.take n).map some := by
    intro cells hc
    rw [List.map_take, ← hc, List.take_take]
    congr 1
    omega
  rcases h.place with ⟨h1, h2, h3, h4⟩ | ⟨b, h1, h2, h3, h4, h5⟩
  · exact .inl ⟨h1, h2, h3, key _ h4⟩
  · exact .inr ⟨b, h1, h2, h3, h4, key _ h5⟩

omit [Inhabited α] in
theorem pop_good {v : Vec α} {xs : List α} (h : Good N v xs) (hx : xs ≠ []) :
    ∃ r, v.pop = some r ∧ Good N r xs.dropLast ∧ r.addr = v.addr ∧ r.blockId = v.blockId ∧ r.start = v.start ∧ r.cap = v.cap := by
  have := List.length_pos_iff.mpr hx
  have hz := h.size
  refine ⟨{ v with size := v.size - 1 }, by rw [Vec.pop, if_pos (by omega)], ?_, rfl, rfl, rfl, rfl⟩
  rw [List.dropLast_eq_take, hz]
  exact shrink_good h (by omega)

omit [Inhabited α] in
theorem clear_good {v : Vec α} {xs : List α} (h : Good N v xs) : Good N v.clear [] := shrink_good h (Nat.zero_le _)

omit [Inhabited α] in
theorem setAt_good {v : Vec α} {xs : List α} (h : Good N v xs) {i : Nat} (hi : i < xs.length) (x : α) :
    ∃ r, v.setAt i x = some r ∧ Good N r (xs.set i x) ∧ r.addr = v.addr ∧ r.blockId = v.blockId ∧ r.start = v.start ∧ r.cap = v.cap := by
  have hz := h.size
  have hf := h.fits
  obtain ⟨cells, d1, d2, d3⟩ := h.data
  obtain ⟨r, k1, k2, k3⟩ := write_some (cells := cells) (xs := [some x]) (i := i) (by simp; omega)
  obtain ⟨f1, f2, f3, f4⟩ := withData_fields v r (.inr trivial)
  simp only [Vec.setAt, d1, Option.bind_some, k1, Option.map_some]
  refine ⟨_, rfl, ?_, f1, withData_id h r, f3, f2⟩
  have hr : r = cells.set i (some x) := by
    rw [k2, List.set_eq_take_append_cons_drop, if_pos (by omega)]
    simp
  have := h.withData (cells := r) (ys := xs.set i x) (by omega) (by simp; omega) (by
    rw [hr, List.length_set, ← hz, List.take_set, d3, List.map_set])
  have e : { v.withData r with size := (xs.set i x).length } = v.withData r := by
    rw [List.length_set, ← hz, ← f4]
  rwa [e] at this

theorem insert_good {v : Vec α} {xs : List α} (h : Good N v xs) (id : Nat) {i : Nat} (hi : i ≤ xs.length) (ys : List α) :
    ∃ r, v.insert id i ys = some r ∧ Good N r (xs.take i ++ ys ++ xs.drop i) ∧ r.addr = v.addr ∧ (r.blockId = v.blockId ∨ r.blockId = some id) ∧
      (v.size + ys.length ≤ v.cap → r.start = v.start ∧ r.cap = v.cap) := by
  have hz := h.size
  have hf := h.fits
  have hN := h.capacity.1
  obtain ⟨old, d1, d2, d3⟩ := h.data
  have hlen : (xs.take i ++ ys ++ xs.drop i).length = v.size + ys.length := by simp; omega
  have hfront : old.take i = (xs.take i).map some := by
    rw [List.map_take, ← d3, List.take_take]
    congr 1
    omega
  have htail : (old.drop i).take (v.size - i) = (xs.drop i).map some := by rw [List.map_drop, ← d3, List.drop_take]
  simp only [Vec.insert, d1, Option.bind_some]
  split
  · rename_i hc
    have step : ∃ cells, (if i = v.size then some old else (readCells old i (v.size - i)).bind fun tail => write old (i + ys.length) tail) = some cells ∧
        cells.length = v.cap ∧ cells.take i = (xs.take i).map some ∧ (cells.drop (i + ys.length)).take (v.size - i) = (xs.drop i).map some := by
      split
      · rename_i e
        refine ⟨old, rfl, d2, hfront, ?_⟩
        simp [e, hz]
      · rw [readCells_some (by omega), Option.bind_some]
        have tl : ((old.drop i).take (v.size - i)).length = v.size - i := by simp; omega
        obtain ⟨r, k1, k2, k3⟩ := write_some (cells := old) (xs := (old.drop i).take (v.size - i)) (i := i + ys.length) (by rw [tl]; omega)
        refine ⟨r, k1, by omega, ?_, ?_⟩
        · rw [k2, List.append_assoc, List.take_append_of_le_length (by simp; omega), List.take_take, Nat.min_eq_left (by omega), hfront]
        · rw [k2, List.append_assoc, List.drop_append_of_le_length (by simp; omega), List.drop_eq_nil_of_le (by simp), List.nil_append,
            List.take_append_of_le_length (by omega), List.take_of_length_le (by omega), htail]
    obtain ⟨cells, s1, s2, s3, s4⟩ := step
    obtain ⟨r, k1, k2, k3⟩ := write_some (cells := cells) (xs := ys.map some) (i := i) (by simp; omega)
    obtain ⟨f1, f2, f3, f4⟩ := withData_fields v r (.inr trivial)
    rw [s1, Option.bind_some, k1, Option.map_some]
    refine ⟨_, rfl, ?_, f1, .inl (withData_id h r), fun _ => ⟨f3, f2⟩⟩
    have := h.withData (cells := r) (ys := xs.take i ++ ys ++ xs.drop i) (by omega) (by omega) (by
      rw [hlen, k2, List.length_map, s3]
      have e : v.size + ys.length = ((xs.take i).map some ++ ys.map some).length + (v.size - i) := by simp; omega
      rw [e, List.take_length_add_append, s4]
      simp)
    rwa [hlen] at this
  · rename_i hc
    have hg := le_suggest (v.size + ys.length)
    rw [readCells_some (by omega), List.drop_zero, hfront, Option.bind_some]
    have e1 : ((xs.take i).map (some : α → Option α)).length = i := by simp; omega
    obtain ⟨c1, k1, k2, k3⟩ := write_some (cells := (block id (suggest (v.size + ys.length)) : Block α).cells) (xs := (xs.take i).map some) (i := 0)
      (by rw [e1, block_length]; omega)
    rw [block_length] at k3
    have t1 : c1.take i = (xs.take i).map some := by rw [k2]; simp [hi]
    obtain ⟨c2, m1, m2, m3⟩ := write_some (cells := c1) (xs := ys.map some) (i := i) (by simp; omega)
    have t2 : c2.take (i + ys.length) = (xs.take i ++ ys).map some := by
      rw [m2, t1, List.take_append_of_le_length (by simp; omega), List.take_of_length_le (by simp), List.map_append]
    rw [k1, Option.bind_some, m1, Option.bind_some]
    have step : ∃ cells, (if i = v.size then some c2 else (readCells old i (v.size - i)).bind fun tail => write c2 (i + ys.length) tail) = some cells ∧
        cells.length = suggest (v.size + ys.length) ∧ cells.take (v.size + ys.length) = (xs.take i ++ ys ++ xs.drop i).map some := by
      split
      · rename_i e
        refine ⟨c2, rfl, by omega, ?_⟩
        rw [← e, t2]
        simp [e, hz]
      · rw [readCells_some (by omega), Option.bind_some, htail]
        have tl : ((xs.drop i).map (some : α → Option α)).length = v.size - i := by simp; omega
        obtain ⟨r, n1, n2, n3⟩ := write_some (cells := c2) (xs := (xs.drop i).map some) (i := i + ys.length) (by rw [tl]; omega)
        refine ⟨r, n1, by omega, ?_⟩
        rw [n2, t2, ← List.map_append, List.take_append_of_le_length (by rw [List.length_map]; omega), List.take_of_length_le (by rw [List.length_map]; omega)]
    obtain ⟨cells, s1, s2, s3⟩ := step
    rw [s1, Option.map_some]
    exact ⟨_, rfl, Good.onBlock h.buffer hlen.symm s2 hg (by omega) s3, rfl, .inr rfl, fun hle => absurd hle hc⟩

omit [Inhabited α] in
theorem erase_good {v : Vec α} {xs : List α} (h : Good N v xs) {i j : Nat} (hij : i ≤ j) (hj : j ≤ xs.length) :
    ∃ r, v.erase i j = some r ∧ Good N r (xs.take i ++ xs.drop j) ∧ r.addr = v.addr ∧ r.blockId = v.blockId ∧ r.start = v.start ∧ r.cap = v.cap := by
  have hz := h.size
  have hf := h.fits
  obtain ⟨old, d1, d2, d3⟩ := h.data
  have hlen : (xs.take i ++ xs.drop j).length = v.size - (j - i) := by simp; omega
  have hfront : old.take i = (xs.take i).map some := by
    rw [List.map_take, ← d3, List.take_take]
    congr 1
    omega
  have htail : (old.drop j).take (v.size - j) = (xs.drop j).map some := by rw [List.map_drop, ← d3, List.drop_take]
  obtain ⟨r, k1, k2, k3⟩ := write_some (cells := old) (xs := (xs.drop j).map some) (i := i) (by simp; omega)
  obtain ⟨f1, f2, f3, f4⟩ := withData_fields v r (.inr trivial)
  simp only [Vec.erase, d1, Option.bind_some]
  rw [readCells_some (by omega), Option.bind_some, htail, k1, Option.map_some]
  refine ⟨_, rfl, ?_, f1, withData_id h r, f3, f2⟩
  have := h.withData (cells := r) (ys := xs.take i ++ xs.drop j) (by omega) (by omega) (by
    rw [k2, hfront, ← List.map_append, List.take_append_of_le_length (by rw [List.length_map]), List.take_of_length_le (by rw [List.length_map])])
  rwa [hlen] at this

omit [Inhabited α] in
theorem swapStacks_good {a b : List (Option α)} {xs ys : List α} {n m : Nat} (ha : a.length = N) (hb : b.length = N) (hm : m = xs.length) (hn : n = ys.length)
    (hm' : m ≤ N) (hn' : n ≤ N) (hx : a.take m = xs.map some) (hy : b.take n = ys.map some) :
    ∃ a' b', swapStacks a b m n = some (a', b') ∧ a'.length = N ∧ b'.length = N ∧ a'.take n = ys.map some ∧ b'.take m = xs.map some := by
  have hk1 : min m n ≤ m := Nat.min_le_left _ _
  have hk2 : min m n ≤ n := Nat.min_le_right _ _
  have la : (a.take (min m n)).length = min m n := by simp; omega
  have lb : (b.take (min m n)).length = min m n := by simp; omega
  obtain ⟨a', p1, p2, p3⟩ := write_some (cells := a) (xs := b.take (min m n)) (i := 0) (by omega)
  obtain ⟨b', q1, q2, q3⟩ := write_some (cells := b) (xs := a.take (min m n)) (i := 0) (by omega)
  simp only [List.take_zero, List.nil_append, Nat.zero_add, la, lb] at p2 q2
  simp only [swapStacks]
  rw [readCells_some (by omega), Option.bind_some, readCells_some (by omega), Option.bind_some, List.drop_zero, List.drop_zero, p1, Option.bind_some, q1, Option.bind_some]
  have ta : a'.take (min m n) = b.take (min m n) := by rw [p2, List.take_append_of_le_length (by omega), List.take_of_length_le (by omega)]
  have tb : b'.take (min m n) = a.take (min m n) := by rw [q2, List.take_append_of_le_length (by omega), List.take_of_length_le (by omega)]
  have da : a'.drop (min m n) = a.drop (min m n) := by rw [p2, List.drop_append_of_le_length (by omega), List.drop_eq_nil_of_le (by omega), List.nil_append]
  have db : b'.drop (min m n) = b.drop (min m n) := by rw [q2, List.drop_append_of_le_length (by omega), List.drop_eq_nil_of_le (by omega), List.nil_append]
  have whole : ∀ (c : List (Option α)) {k l : Nat}, k ≤ l → c.take k ++ (c.drop k).take (l - k) = c.take l := by
    intro c k l hkl
    obtain ⟨d, rfl⟩ := Nat.exists_eq_add_of_le hkl
    rw [Nat.add_sub_cancel_left, List.take_add]
  split
  · rename_i hlt
    have hmn : min m n = n := by omega
    rw [readCells_some (by omega), Option.bind_some, da]
    have l2 : ((a.drop (min m n)).take (m - min m n)).length = m - min m n := by simp; omega
    obtain ⟨c, r1, r2, r3⟩ := write_some (cells := b') (xs := (a.drop (min m n)).take (m - min m n)) (i := min m n) (by omega)
    rw [r1, Option.map_some]
    refine ⟨a', c, rfl, by omega, by omega, ?_, ?_⟩
    · rw [hmn] at ta
      rw [ta, hy]
    · rw [r2, tb, whole a hk1, List.take_append_of_le_length (by simp; omega), List.take_take, Nat.min_self, hx]
  · split
    · rename_i hlt
      have hmn : min m n = m := by omega
      rw [readCells_some (by omega), Option.bind_some, db]
      have l2 : ((b.drop (min m n)).take (n - min m n)).length = n - min m n := by simp; omega
      obtain ⟨c, r1, r2, r3⟩ := write_some (cells := a') (xs := (b.drop (min m n)).take (n - min m n)) (i := min m n) (by omega)
      rw [r1, Option.map_some]
      refine ⟨c, b', rfl, by omega, by omega, ?_, ?_⟩
      · rw [r2, ta, whole b hk2, List.take_append_of_le_length (by simp; omega), List.take_take, Nat.min_self, hy]
      · rw [hmn] at tb
        rw [tb, hx]
    · have e1 : min m n = m := by omega
      have e2 : min m n = n := by omega
      refine ⟨a', b', rfl, by omega, by omega, ?_, ?_⟩
      · rw [e2] at ta
        rw [ta, hy]
      · rw [e1] at tb
        rw [tb, hx]

omit [Inhabited α] in
theorem swap_good {v w : Vec α} {xs ys : List α} (h : Good N v xs) (hw : Good N w ys) :
    ∃ r l, swap v w = some (r, l) ∧ Good N r ys ∧ Good N l xs ∧ r.addr = v.addr ∧ l.addr = w.addr ∧ r.blockId = w.blockId ∧ l.blockId = v.blockId := by
  have hb := h.buffer
  have hb' := hw.buffer
  have hf := h.fits
  have hf' := hw.fits
  rcases h.place with ⟨h1, h2, h3, h4⟩ | ⟨b, h1, h2, h3, h4, h5⟩ <;> rcases hw.place with ⟨g1, g2, g3, g4⟩ | ⟨c, g1, g2, g3, g4, g5⟩
  · obtain ⟨a', b', s1, s2, s3, s4, s5⟩ := swapStacks_good hb hb' h.size hw.size (by omega) (by omega) h4 g4
    simp only [swap, h1, g1, s1, Option.map_some]
    exact ⟨_, _, rfl, ⟨s2, hw.size, hf', .inl ⟨rfl, h2, g3, s4⟩⟩, ⟨s3, h.size, hf, .inl ⟨rfl, g2, h3, s5⟩⟩, rfl, rfl,
      by simp [Vec.blockId, g1], by simp [Vec.blockId, h1]⟩
  · obtain ⟨r, k1, k2, k3⟩ := write_front (cells := w.stack) (xs := xs.map some) (by have := h.size; simp; omega)
    simp only [swap, h1, g1, take_front h.size h4, Option.bind_some, k1, Option.map_some]
    exact ⟨_, _, rfl, ⟨hb, hw.size, hf', .inr ⟨_, rfl, rfl, g3, g4, g5⟩⟩, ⟨by simp; omega, h.size, hf, .inl ⟨rfl, rfl, h3, by simpa [h.size] using k3⟩⟩, rfl, rfl,
      by simp [Vec.blockId, g1], by simp [Vec.blockId, h1]⟩
  · obtain ⟨r, k1, k2, k3⟩ := write_front (cells := v.stack) (xs := ys.map some) (by have := hw.size; simp; omega)
    simp only [swap, h1, g1, take_front hw.size g4, Option.bind_some, k1, Option.map_some]
    exact ⟨_, _, rfl, ⟨by simp; omega, hw.size, hf', .inl ⟨rfl, rfl, g3, by simpa [hw.size] using k3⟩⟩, ⟨hb', h.size, hf, .inr ⟨_, rfl, rfl, h3, h4, h5⟩⟩, rfl, rfl,
      by simp [Vec.blockId, g1], by simp [Vec.blockId, h1]⟩
  · simp only [swap, h1, g1, Option.map_some]
    exact ⟨_, _, rfl, ⟨hb, hw.size, hf', .inr ⟨_, rfl, g2, g3, g4, g5⟩⟩, ⟨hb', h.size, hf, .inr ⟨_, rfl, h2, h3, h4, h5⟩⟩, rfl, rfl,
      by simp [Vec.blockId, g1], by simp [Vec.blockId, h1]⟩

/-! ## Programs -/

/-- The vectors of a program hold the lists they should, each in memory of its own. -/
structure Sim (N : Nat) (w : World α) (A : Pool α) : Prop where
  absent : ∀ a, w.objs a = none → A a = none
  good : ∀ a v, w.objs a = some v → v.addr = a ∧ ∃ xs, A a = some xs ∧ Good N v xs
  fresh : ∀ a v id, w.objs a = some v → v.blockId = some id → id < w.next
  apart : ∀ a b v u id, w.objs a = some v → w.objs b = some u → v.blockId = some id → u.blockId = some id → a = b

namespace Sim

variable {w : World α} {A : Pool α}

omit [Inhabited α] in
theorem new : Sim N (World.new : World α) (fun _ => none) := ⟨fun _ _ => rfl, fun _ _ h => by simp [World.new] at h, fun _ _ _ h => by simp [World.new] at h,
  fun _ _ _ _ _ h => by simp [World.new] at h⟩

omit [Inhabited α] in
theorem find (h : Sim N w A) {a : Nat} {xs : List α} (ha : A a = some xs) : ∃ v, w.objs a = some v ∧ v.addr = a ∧ Good N v xs := by
  cases hv : w.objs a with
  | none => rw [h.absent a hv] at ha; simp at ha
  | some v =>
    obtain ⟨h1, ys, h2, h3⟩ := h.good a v hv
    rw [ha] at h2
    obtain rfl := Option.some.inj h2
    exact ⟨v, rfl, h1, h3⟩

omit [Inhabited α] in
theorem missing (h : Sim N w A) {a : Nat} (ha : A a = none) : w.objs a = none := by
  cases hv : w.objs a with
  | none => rfl
  | some v =>
    obtain ⟨_, ys, h2, _⟩ := h.good a v hv
    simp [ha] at h2

omit [Inhabited α] in
theorem put (h : Sim N w A) {v : Vec α} {a : Nat} {xs : List α} (ha : v.addr = a) (hg : Good N v xs)
    (hid : ∀ id, v.blockId = some id → id = w.next ∨ ∃ u, w.objs a = some u ∧ u.blockId = some id) : Sim N (w.put v) (Function.update A a (some xs)) := by
  subst ha
  have bound : ∀ id, v.blockId = some id → id < w.next + 1 := by
    intro id e
    rcases hid id e with rfl | ⟨u, hu, hi⟩
    · omega
    · have := h.fresh _ _ _ hu hi
      omega
  have other : ∀ b u id, b ≠ v.addr → w.objs b = some u → u.blockId = some id → v.blockId = some id → False := by
    intro b u id hb hu e1 e2
    rcases hid id e2 with rfl | ⟨x, hx, hi⟩
    · exact absurd (h.fresh _ _ _ hu e1) (Nat.lt_irrefl _)
    · exact hb (h.apart _ _ _ _ _ hu hx e1 hi)
  refine ⟨?_, ?_, ?_, ?_⟩
  · intro b hb
    by_cases e : b = v.addr
    · subst e; simp [World.put] at hb
    · simp only [World.put, Function.update_of_ne e] at hb ⊢
      exact h.absent b hb
  · intro b u hu
    by_cases e : b = v.addr
    · subst e
      simp only [World.put, Function.update_self, Option.some.injEq] at hu
      subst hu
      exact ⟨rfl, xs, by simp, hg⟩
    · simp only [World.put, Function.update_of_ne e] at hu ⊢
      exact h.good b u hu
  · intro b u id hu hi
    by_cases e : b = v.addr
    · subst e
      simp only [World.put, Function.update_self, Option.some.injEq] at hu
      subst hu
      exact bound id hi
    · simp only [World.put, Function.update_of_ne e] at hu ⊢
      exact Nat.lt_succ_of_lt (h.fresh b u id hu hi)
  · intro b c u x id hu hx hi hj
    by_cases e : b = v.addr <;> by_cases e' : c = v.addr
    · rw [e, e']
    · subst e
      simp only [World.put, Function.update_self, Option.some.injEq, Function.update_of_ne e'] at hu hx
      subst hu
      exact (other c x id e' hx hj hi).elim
    · subst e'
      simp only [World.put, Function.update_self, Option.some.injEq, Function.update_of_ne e] at hu hx
      subst hx
      exact (other b u id e hu hi hj).elim
    · simp only [World.put, Function.update_of_ne e, Function.update_of_ne e'] at hu hx
      exact h.apart _ _ _ _ _ hu hx hi hj

omit [Inhabited α] in
/-- Two vectors that share out the blocks of the vectors that were at their addresses. -/
theorem put2 (h : Sim N w A) {p q : Vec α} {a b : Nat} {xs ys : List α} (hab : a ≠ b) (ha : p.addr = a) (hb : q.addr = b) (hg : Good N p xs) (hg' : Good N q ys)
    (hp : ∀ id, p.blockId = some id → ∃ c u, (c = a ∨ c = b) ∧ w.objs c = some u ∧ u.blockId = some id)
    (hq : ∀ id, q.blockId = some id → ∃ c u, (c = a ∨ c = b) ∧ w.objs c = some u ∧ u.blockId = some id) (hd : ∀ id, p.blockId = some id → q.blockId ≠ some id) :
    Sim N (w.put2 (p, q)) (Function.update (Function.update A b (some ys)) a (some xs)) := by
  subst ha hb
  have at1 : (w.put2 (p, q)).objs p.addr = some p := by simp [World.put2]
  have at2 : (w.put2 (p, q)).objs q.addr = some q := by simp [World.put2, Function.update_of_ne hab.symm]
  have at3 : ∀ c, c ≠ p.addr → c ≠ q.addr → (w.put2 (p, q)).objs c = w.objs c := by
    intro c h1 h2
    simp [World.put2, Function.update_of_ne h1, Function.update_of_ne h2]
  have cases3 : ∀ c u, (w.put2 (p, q)).objs c = some u → (c = p.addr ∧ u = p) ∨ (c = q.addr ∧ u = q) ∨ (c ≠ p.addr ∧ c ≠ q.addr ∧ w.objs c = some u) := by
    intro c u hu
    by_cases e : c = p.addr
    · subst e; rw [at1] at hu; exact .inl ⟨rfl, (Option.some.inj hu).symm⟩
    · by_cases e' : c = q.addr
      · subst e'; rw [at2] at hu; exact .inr (.inl ⟨rfl, (Option.some.inj hu).symm⟩)
      · rw [at3 c e e'] at hu; exact .inr (.inr ⟨e, e', hu⟩)
  have clash : ∀ (x : Vec α) c u id, (∀ id, x.blockId = some id → ∃ c u, (c = p.addr ∨ c = q.addr) ∧ w.objs c = some u ∧ u.blockId = some id) →
      c ≠ p.addr → c ≠ q.addr → w.objs c = some u → u.blockId = some id → x.blockId = some id → False := by
    intro x c u id hx h1 h2 hu hi hj
    obtain ⟨d, y, hd, hy, hk⟩ := hx id hj
    have := h.apart _ _ _ _ _ hu hy hi hk
    rcases hd with rfl | rfl
    · exact h1 this
    · exact h2 this
  refine ⟨?_, ?_, ?_, ?_⟩
  · intro c hc
    by_cases e : c = p.addr
    · subst e; rw [at1] at hc; simp at hc
    · by_cases e' : c = q.addr
      · subst e'; rw [at2] at hc; simp at hc
      · rw [at3 c e e'] at hc
        rw [Function.update_of_ne e, Function.update_of_ne e']
        exact h.absent c hc
  · intro c u hu
    rcases cases3 c u hu with ⟨rfl, rfl⟩ | ⟨rfl, rfl⟩ | ⟨h1, h2, h3⟩
    · exact ⟨rfl, xs, by simp, hg⟩
    · exact ⟨rfl, ys, by simp [Function.update_of_ne hab.symm], hg'⟩
    · rw [Function.update_of_ne h1, Function.update_of_ne h2]
      exact h.good c u h3
  · intro c u id hu hi
    refine Nat.lt_succ_of_lt ?_
    rcases cases3 c u hu with ⟨rfl, rfl⟩ | ⟨rfl, rfl⟩ | ⟨h1, h2, h3⟩
    · obtain ⟨d, y, _, hy, hk⟩ := hp id hi
      exact h.fresh _ _ _ hy hk
    · obtain ⟨d, y, _, hy, hk⟩ := hq id hi
      exact h.fresh _ _ _ hy hk
    · exact h.fresh _ _ _ h3 hi
  · intro c d u x id hu hx hi hj
    rcases cases3 c u hu with ⟨rfl, rfl⟩ | ⟨rfl, rfl⟩ | ⟨h1, h2, h3⟩ <;> rcases cases3 d x hx with ⟨rfl, rfl⟩ | ⟨rfl, rfl⟩ | ⟨g1, g2, g3⟩
    · rfl
    · exact (hd id hi hj).elim
    · exact (clash _ d x id hp g1 g2 g3 hj hi).elim
    · exact (hd id hj hi).elim
    · rfl
    · exact (clash _ d x id hq g1 g2 g3 hj hi).elim
    · exact (clash _ c u id hp h1 h2 h3 hi hj).elim
    · exact (clash _ c u id hq h1 h2 h3 hi hj).elim
    · exact h.apart _ _ _ _ _ h3 g3 hi hj

theorem step (h : Sim N w A) {op : Op α} {B : Pool α} (hB : Next A op B) : ∃ w' A', w.step N op = some w' ∧ Next A op A' ∧ Sim N w' A' := by
  cases hB with
  | @make a xs h1 =>
    obtain ⟨v, v1, v2, v3, v4⟩ := ofValues_good (N := N) a w.next xs
    refine ⟨w.put v, _, by simp [World.step, v1], .make h1, h.put v3 v2 ?_⟩
    intro id e
    rcases v4 with v4 | v4 <;> rw [v4] at e
    · simp at e
    · exact .inl (Option.some.inj e).symm
  | @copyNew a s xs h1 hs =>
    obtain ⟨r, r1, r2, r3⟩ := h.find hs
    obtain ⟨v, v1, v2, v3, v4⟩ := copyNew_good r3 a w.next
    refine ⟨w.put v, _, by simp [World.step, r1, v1], .copyNew h1 hs, h.put v3 v2 ?_⟩
    intro id e
    rcases v4 with v4 | v4 <;> rw [v4] at e
    · simp at e
    · exact .inl (Option.some.inj e).symm
  | @moveNew a s xs left h1 hs hl =>
    obtain ⟨r, r1, r2, r3⟩ := h.find hs
    obtain ⟨v, l, v1, v2, v3, v4, v5, v6, v7⟩ := moveNew_good r3 a
    have hne : a ≠ s := by rintro rfl; simp [h1] at hs
    refine ⟨w.put2 (v, l), _, by simp [World.step, r1, v1], .moveNew h1 hs ?_, h.put2 hne v4 (v5.trans r2) v2 v3 ?_ ?_ ?_⟩
    · split <;> simp
    · exact fun id e => ⟨s, r, .inr rfl, r1, v6 ▸ e⟩
    · intro id e; simp [v7] at e
    · intro id _; simp [v7]
  | @copyTo a s xs ys h1 hs =>
    obtain ⟨v, v1, v2, v3⟩ := h.find h1
    obtain ⟨r, r1, r2, r3⟩ := h.find hs
    by_cases e : a = s
    · subst e
      refine ⟨w, _, by simp [World.step, v1], .copyTo h1 hs, ?_⟩
      rwa [← hs, Function.update_eq_self]
    · obtain ⟨u, u1, u2, u3, u4⟩ := copyTo_good r3 v3 w.next
      refine ⟨w.put u, _, by simp [World.step, v1, r1, e, u1], .copyTo h1 hs, h.put (u3.trans v2) u2 ?_⟩
      intro id e
      rcases u4 with u4 | u4 <;> rw [u4] at e
      · simp at e
      · exact .inl (Option.some.inj e).symm
  | @moveTo a s xs ys left hne h1 hs hl =>
    obtain ⟨d, d1, d2, d3⟩ := h.find h1
    obtain ⟨r, r1, r2, r3⟩ := h.find hs
    obtain ⟨v, l, v1, v2, v3, v4, v5, v6, v7⟩ := moveTo_good r3 d3
    refine ⟨w.put2 (v, l), _, by simp [World.step, d1, r1, v1], .moveTo hne h1 hs ?_, h.put2 hne (v4.trans d2) (v5.trans r2) v2 v3 ?_ ?_ ?_⟩
    · split <;> simp
    · exact fun id e => ⟨s, r, .inr rfl, r1, v6 ▸ e⟩
    · intro id e; simp [v7] at e
    · intro id _; simp [v7]
  | @push a x xs h1 =>
    obtain ⟨v, v1, v2, v3⟩ := h.find h1
    obtain ⟨u, u1, u2, u3, u4, _⟩ := push_good v3 w.next x
    refine ⟨w.put u, _, by simp [World.step, v1, u1], .push h1, h.put (u3.trans v2) u2 ?_⟩
    intro id e
    rcases u4 with u4 | u4 <;> rw [u4] at e
    · exact .inr ⟨v, v1, e⟩
    · exact .inl (Option.some.inj e).symm
  | @pop a xs h1 hn =>
    obtain ⟨v, v1, v2, v3⟩ := h.find h1
    obtain ⟨u, u1, u2, u3, u4, _⟩ := pop_good v3 hn
    exact ⟨w.put u, _, by simp [World.step, v1, u1], .pop h1 hn, h.put (u3.trans v2) u2 fun id e => .inr ⟨v, v1, u4 ▸ e⟩⟩
  | @clear a xs h1 =>
    obtain ⟨v, v1, v2, v3⟩ := h.find h1
    exact ⟨w.put v.clear, _, by simp [World.step, v1], .clear h1, h.put v2 (clear_good v3) fun id e => .inr ⟨v, v1, e⟩⟩
  | @reserve a n xs h1 =>
    obtain ⟨v, v1, v2, v3⟩ := h.find h1
    obtain ⟨u, u1, u2, u3, u4, _⟩ := reserve_good v3 w.next n
    refine ⟨w.put u, A, by simp [World.step, v1, u1], .reserve h1, ?_⟩
    have := h.put (u3.trans v2) u2 (by
      intro id e
      rcases u4 with u4 | u4 <;> rw [u4] at e
      · exact .inr ⟨v, v1, e⟩
      · exact .inl (Option.some.inj e).symm)
    rwa [← h1, Function.update_eq_self] at this
  | @insert a i ys xs h1 hi =>
    obtain ⟨v, v1, v2, v3⟩ := h.find h1
    obtain ⟨u, u1, u2, u3, u4, _⟩ := insert_good v3 w.next hi ys
    refine ⟨w.put u, _, by simp [World.step, v1, u1], .insert h1 hi, h.put (u3.trans v2) u2 ?_⟩
    intro id e
    rcases u4 with u4 | u4 <;> rw [u4] at e
    · exact .inr ⟨v, v1, e⟩
    · exact .inl (Option.some.inj e).symm
  | @erase a i j xs h1 hi hj =>
    obtain ⟨v, v1, v2, v3⟩ := h.find h1
    obtain ⟨u, u1, u2, u3, u4, _⟩ := erase_good v3 hi hj
    exact ⟨w.put u, _, by simp [World.step, v1, u1], .erase h1 hi hj, h.put (u3.trans v2) u2 fun id e => .inr ⟨v, v1, u4 ▸ e⟩⟩
  | @set a i x xs h1 hi =>
    obtain ⟨v, v1, v2, v3⟩ := h.find h1
    obtain ⟨u, u1, u2, u3, u4, _⟩ := setAt_good v3 hi x
    exact ⟨w.put u, _, by simp [World.step, v1, u1], .set h1 hi, h.put (u3.trans v2) u2 fun id e => .inr ⟨v, v1, u4 ▸ e⟩⟩
  | @swap a b xs ys hne h1 hb =>
    obtain ⟨d, d1, d2, d3⟩ := h.find h1
    obtain ⟨r, r1, r2, r3⟩ := h.find hb
    obtain ⟨v, l, v1, v2, v3, v4, v5, v6, v7⟩ := swap_good d3 r3
    refine ⟨w.put2 (v, l), _, by simp [World.step, d1, r1, v1], .swap hne h1 hb, ?_⟩
    rw [Function.update_comm hne]
    refine h.put2 hne (v4.trans d2) (v5.trans r2) v2 v3 ?_ ?_ ?_
    · exact fun id e => ⟨b, r, .inr rfl, r1, v6 ▸ e⟩
    · exact fun id e => ⟨a, d, .inl rfl, d1, v7 ▸ e⟩
    · intro id e e'
      exact hne (h.apart _ _ _ _ _ d1 r1 (v7 ▸ e') (v6 ▸ e))
  | @destroy a xs h1 =>
    obtain ⟨v, v1, v2, v3⟩ := h.find h1
    refine ⟨⟨Function.update w.objs a none, w.next⟩, _, by simp [World.step, v1], .destroy h1, ?_, ?_, ?_, ?_⟩
    · intro b hb
      by_cases e : b = a
      · simp [e]
      · simp only [Function.update_of_ne e] at hb ⊢
        exact h.absent b hb
    · intro b u hu
      by_cases e : b = a
      · simp [e] at hu
      · simp only [Function.update_of_ne e] at hu ⊢
        exact h.good b u hu
    · intro b u id hu hi
      by_cases e : b = a
      · simp [e] at hu
      · simp only [Function.update_of_ne e] at hu
        exact h.fresh b u id hu hi
    · intro b c u x id hu hx hi hj
      by_cases e : b = a
      · simp [e] at hu
      · by_cases e' : c = a
        · simp [e'] at hx
        · simp only [Function.update_of_ne e] at hu
          simp only [Function.update_of_ne e'] at hx
          exact h.apart _ _ _ _ _ hu hx hi hj

theorem run (h : Sim N w A) {ops : List (Op α)} (hl : Legal A ops) : ∃ w' A', w.run N ops = some w' ∧ Steps A ops A' ∧ Sim N w' A' := by
  induction ops generalizing w A with
  | nil => exact ⟨w, A, rfl, .nil, h⟩
  | cons op ops ih =>
    obtain ⟨⟨B, hB⟩, hall⟩ := hl
    obtain ⟨w1, A1, h1, h2, h3⟩ := h.step hB
    obtain ⟨w2, A2, g1, g2, g3⟩ := ih h3 (hall A1 h2)
    exact ⟨w2, A2, by simp [World.run, h1, g1], .cons h2 g2, g3⟩

end Sim

/-- A new element that is a copy of an element of the vector itself. -/
theorem emplaceOwn_good {v : Vec α} {xs : List α} (h : Good N v xs) (id : Nat) {i : Nat} (hi : i < xs.length) (hr : v.size < v.cap ∨ v.onHeap = false) :
    v.emplaceOwn id i = v.push id xs[i] := by
  have hz := h.size
  obtain ⟨cells, d1, d2, d3⟩ := h.data
  have cell : ∀ c : List (Option α), c.take v.size = xs.map some → (c[i]?).join = some xs[i] := by
    intro c hc
    have : c[i]? = (xs.map some)[i]? := by rw [← hc, List.getElem?_take_of_lt (by omega)]
    rw [this, List.getElem?_map, List.getElem?_eq_getElem hi]
    rfl
  unfold Vec.emplaceOwn Vec.push
  split
  · rename_i hc
    rcases h.place with ⟨h1, h2, h3, h4⟩ | ⟨b, h1, h2, h3, h4, h5⟩
    · obtain ⟨u, u1, u2, u3, u4, u5, u6⟩ := reallocate_good h id (n := v.size + 1) (by have := h.fits; omega)
      have us : u.stack = v.stack := by
        simp only [Vec.reallocate, h1, Option.bind_some, Option.map_eq_some_iff] at u1
        obtain ⟨_, _, rfl⟩ := u1
        rfl
      rw [u1, Option.bind_some, Option.bind_some, h2]
      simp [Vec.deref, u3, us, cell _ h4]
    · rcases hr with hr | hr
      · omega
      · simp [Vec.onHeap, h1] at hr
  · rw [Option.bind_some, Option.bind_some]
    rcases h.place with ⟨h1, h2, h3, h4⟩ | ⟨b, h1, h2, h3, h4, h5⟩
    · simp [Vec.deref, h2, cell _ h4]
    · simp [Vec.deref, h2, h1, cell _ h5]

/-! ## Observers -/

omit [Inhabited α] in
theorem read_good {v : Vec α} {xs : List α} (h : Good N v xs) : v.read = some (xs.map some) := by
  obtain ⟨cells, d1, d2, d3⟩ := h.data
  rw [Vec.read, d1, Option.bind_some, take_front h.size d3]

omit [Inhabited α] in
theorem get_good {v : Vec α} {xs : List α} (h : Good N v xs) (i : Nat) : v.get i = xs[i]? := by
  obtain ⟨cells, d1, d2, d3⟩ := h.data
  have hz := h.size
  rw [Vec.get, d1, Option.bind_some]
  split
  · rename_i hi
    have : cells[i]? = (xs.map some)[i]? := by rw [← d3, List.getElem?_take_of_lt hi]
    rw [this, List.getElem?_map]
    cases xs[i]? <;> rfl
  · rw [List.getElem?_eq_none (by omega)]

omit [Inhabited α] in
theorem backwards_eq (cells : List (Option α)) : ∀ {n : Nat}, n ≤ cells.length → backwards cells n = (cells.take n).reverse
  | 0, _ => by simp [backwards]
  | n + 1, h => by
    rw [backwards, backwards_eq cells (by omega), List.take_succ_eq_append_getElem (by omega), List.reverse_append, List.getElem?_eq_getElem (by omega)]
    simp

omit [Inhabited α] in
theorem readBack_good {v : Vec α} {xs : List α} (h : Good N v xs) : v.readBack = some (xs.reverse.map some) := by
  obtain ⟨cells, d1, d2, d3⟩ := h.data
  rw [Vec.readBack, d1, Option.map_some, backwards_eq _ (by have := h.fits; omega), d3, List.map_reverse]

omit [Inhabited α] in
theorem equal_good [DecidableEq α] {v u : Vec α} {xs ys : List α} (h : Good N v xs) (hu : Good N u ys) : v.equal u = some (decide (xs = ys)) := by
  rw [Vec.equal, read_good h, read_good hu, Option.bind_some, Option.map_some]
  congr 1
  rw [decide_eq_decide]
  exact ⟨fun e => (List.map_inj_right fun _ _ h => Option.some.inj h).mp e, fun e => by rw [e]⟩

end Moment.SmallVector
