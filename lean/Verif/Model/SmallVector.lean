import Mathlib.Data.Nat.Log
import Verif.Spec.SmallVector

/-! # Model of short vectors (cpp/lib_moment/utilities/small_vector.h)

Objects with a buffer of their own, and for longer contents a block on the heap. `none` is undefined behaviour: a position outside the array that is used, or access through a
pointer that is not to the memory of the object itself. Simplifications: `std::copy`, `std::move` and `std::move_backward` read everything before they write (their
directions are right for the overlaps that occur); memory and `size_t` are unbounded; ranges that are inserted are given as lists, so they are not part of the vector;
values that were never set (`none` in a cell) may be copied. -/

namespace Moment.SmallVector

variable {α : Type}

/-- Where `data_start` points: the buffer of the object with an address, or a block on the heap. -/
inductive Ptr
  | stackOf (addr : Nat)
  | block (id : Nat)
  deriving DecidableEq

/-- A block on the heap, held by a `unique_ptr`. -/
structure Block (α : Type) where
  id : Nat
  cells : List (Option α)

/-- `SmallVector` (small_vector.h:65-71). -/
structure Vec (α : Type) where
  addr : Nat
  heap : Option (Block α)
  stack : List (Option α)
  size : Nat
  cap : Nat
  start : Ptr

/-- `suggest_capacity` (small_vector.h:585-587): `std::bit_ceil`. -/
def suggest (n : Nat) : Nat := 2 ^ Nat.clog 2 n

/-- `std::copy` to a position of an array. -/
def write (cells : List (Option α)) (i : Nat) (xs : List (Option α)) : Option (List (Option α)) :=
  if i + xs.length ≤ cells.length then some (cells.take i ++ xs ++ cells.drop (i + xs.length)) else none

/-- Reading `n` cells from a position of an array. -/
def readCells (cells : List (Option α)) (i n : Nat) : Option (List (Option α)) := if i + n ≤ cells.length then some ((cells.drop i).take n) else none

/-- `std::make_unique<value_t[]>(n)`: the elements are set to the default value. -/
def block [Inhabited α] (id n : Nat) : Block α := ⟨id, List.replicate n (some default)⟩

/-- The buffer of a new object, not set to anything (small_vector.h:66). -/
def buffer (N : Nat) : List (Option α) := List.replicate N none

/-- The array that `data_start` points to. -/
def Vec.data (v : Vec α) : Option (List (Option α)) :=
  match v.start with
  | .stackOf a => if a = v.addr then some v.stack else none
  | .block id => v.heap.bind fun b => if id = b.id then some b.cells else none

/-- Writing through `data_start`. -/
def Vec.withData (v : Vec α) (cells : List (Option α)) : Vec α :=
  match v.start with
  | .stackOf _ => { v with stack := cells }
  | .block id => { v with heap := some ⟨id, cells⟩ }

/-- Default constructor (small_vector.h:77). -/
def empty (N addr : Nat) : Vec α := ⟨addr, none, buffer N, 0, N, .stackOf addr⟩

/-- Copy constructor (small_vector.h:83-92). `id` is the block that `make_unique` would give. -/
def copyNew [Inhabited α] (N addr id : Nat) (rhs : Vec α) : Option (Vec α) :=
  match rhs.heap with
  | some b => (readCells b.cells 0 rhs.size).bind fun xs => (write (block id rhs.cap : Block α).cells 0 xs).map fun cells =>
      ⟨addr, some ⟨id, cells⟩, buffer N, rhs.size, rhs.cap, .block id⟩
  | none => (readCells rhs.stack 0 rhs.size).bind fun xs => (write (buffer N) 0 xs).map fun cells => ⟨addr, none, cells, rhs.size, rhs.cap, .stackOf addr⟩

/-- Copy assignment (small_vector.h:98-114); assignment to itself is left to the caller. -/
def copyTo [Inhabited α] (id : Nat) (v rhs : Vec α) : Option (Vec α) :=
  match rhs.heap with
  | some b => (readCells b.cells 0 rhs.size).bind fun xs => (write (block id rhs.cap : Block α).cells 0 xs).map fun cells =>
      { v with heap := some ⟨id, cells⟩, size := rhs.size, cap := rhs.cap, start := .block id }
  | none => (readCells rhs.stack 0 rhs.size).bind fun xs => (write v.stack 0 xs).map fun cells =>
      { v with heap := none, stack := cells, size := rhs.size, cap := rhs.cap, start := .stackOf v.addr }

/-- Move constructor (small_vector.h:120-136): the new object, and what is left of the other. -/
def moveNew (N addr : Nat) (rhs : Vec α) : Option (Vec α × Vec α) :=
  match rhs.heap with
  | some b => some (⟨addr, some b, buffer N, rhs.size, rhs.cap, .block b.id⟩, { rhs with heap := none, size := 0, cap := N, start := .stackOf rhs.addr })
  | none => (readCells rhs.stack 0 rhs.size).bind fun xs => (write (buffer N) 0 xs).map fun cells =>
      (⟨addr, none, cells, rhs.size, rhs.cap, .stackOf addr⟩, rhs)

/-- Move assignment (small_vector.h:142-168), from another object. -/
def moveTo (N : Nat) (v rhs : Vec α) : Option (Vec α × Vec α) :=
  match rhs.heap with
  | some b => some ({ v with heap := some b, start := .block b.id, size := rhs.size, cap := rhs.cap },
      { rhs with heap := none, size := 0, cap := N, start := .stackOf rhs.addr })
  | none => (readCells rhs.stack 0 rhs.size).bind fun xs => (write v.stack 0 xs).map fun cells =>
      ({ v with heap := none, stack := cells, size := rhs.size, cap := N, start := .stackOf v.addr }, rhs)

/-- Construction from values: repeated values (small_vector.h:176-190), iterators (199-211) and lists (216-227). -/
def ofValues [Inhabited α] (N addr id : Nat) (xs : List α) : Option (Vec α) :=
  if xs.length ≤ N then (write (buffer N) 0 (xs.map some)).map fun cells => ⟨addr, none, cells, xs.length, N, .stackOf addr⟩
  else (write (block id (suggest xs.length) : Block α).cells 0 (xs.map some)).map fun cells =>
    ⟨addr, some ⟨id, cells⟩, buffer N, xs.length, suggest xs.length, .block id⟩

/-- `reallocate_from_stack_to_heap` and `reallocate_from_heap_to_heap` (small_vector.h:589-615): all cells are taken over, used or not. -/
def Vec.reallocate [Inhabited α] (id : Nat) (v : Vec α) (required : Nat) : Option (Vec α) :=
  (match v.heap with
    | some b => readCells b.cells 0 v.cap
    | none => some v.stack).bind fun xs => (write (block id (suggest required) : Block α).cells 0 xs).map fun cells =>
      { v with heap := some ⟨id, cells⟩, cap := suggest required, start := .block id }

/-- `push_back` (small_vector.h:301-311) and `emplace_back` (325-336). -/
def Vec.push [Inhabited α] (id : Nat) (v : Vec α) (x : α) : Option (Vec α) :=
  (if v.cap ≤ v.size then v.reallocate id (v.size + 1) else some v).bind fun v => v.data.bind fun cells =>
    (write cells v.size [some x]).map fun cells => { v.withData cells with size := v.size + 1 }

/-- What a reference to position `i` of an array refers to: nothing, if the array is no longer there. -/
def Vec.deref (v : Vec α) (p : Ptr) (i : Nat) : Option α :=
  match p with
  | .stackOf a => if a = v.addr then (v.stack[i]?).join else none
  | .block id => v.heap.bind fun b => if id = b.id then (b.cells[i]?).join else none

/-- `emplace_back` (small_vector.h:325-336) of a reference to an element of the vector itself: it is read after the reallocation. -/
def Vec.emplaceOwn [Inhabited α] (id : Nat) (v : Vec α) (i : Nat) : Option (Vec α) :=
  (if v.cap ≤ v.size then v.reallocate id (v.size + 1) else some v).bind fun u => (u.deref v.start i).bind fun x => u.data.bind fun cells =>
    (write cells u.size [some x]).map fun cells => { u.withData cells with size := u.size + 1 }

/-- `pop_back` (small_vector.h:316-319). -/
def Vec.pop (v : Vec α) : Option (Vec α) := if 0 < v.size then some { v with size := v.size - 1 } else none

/-- `clear` (small_vector.h:273-275). -/
def Vec.clear (v : Vec α) : Vec α := { v with size := 0 }

/-- `reserve` (small_vector.h:462-467). -/
def Vec.reserve [Inhabited α] (id : Nat) (v : Vec α) (n : Nat) : Option (Vec α) := if v.cap < n then v.reallocate id n else some v

/-- `insert` (small_vector.h:341-375); `i` is the position of `where`. -/
def Vec.insert [Inhabited α] (id : Nat) (v : Vec α) (i : Nat) (xs : List α) : Option (Vec α) :=
  v.data.bind fun old =>
    if v.size + xs.length ≤ v.cap then
      (if i = v.size then some old else (readCells old i (v.size - i)).bind fun tail => write old (i + xs.length) tail).bind fun cells =>
        (write cells i (xs.map some)).map fun cells => { v.withData cells with size := v.size + xs.length }
    else
      (readCells old 0 i).bind fun front => (write (block id (suggest (v.size + xs.length)) : Block α).cells 0 front).bind fun cells =>
        (write cells i (xs.map some)).bind fun cells =>
          (if i = v.size then some cells else (readCells old i (v.size - i)).bind fun tail => write cells (i + xs.length) tail).map fun cells =>
            { v with heap := some ⟨id, cells⟩, size := v.size + xs.length, cap := suggest (v.size + xs.length), start := .block id }

/-- `erase` (small_vector.h:381-386), for positions `i ≤ j`. -/
def Vec.erase (v : Vec α) (i j : Nat) : Option (Vec α) :=
  v.data.bind fun old => (readCells old j (v.size - j)).bind fun tail => (write old i tail).map fun cells => { v.withData cells with size := v.size - (j - i) }

/-- Assignment to `operator[]` (small_vector.h:251-253), `front`, `back` or through an iterator. -/
def Vec.setAt (v : Vec α) (i : Nat) (x : α) : Option (Vec α) :=
  v.data.bind fun old => (write old i [some x]).map fun cells => v.withData cells

/-- Exchange of the common part of two buffers, and moving the rest of the longer one (small_vector.h:533-543). -/
def swapStacks (a b : List (Option α)) (m n : Nat) : Option (List (Option α) × List (Option α)) :=
  (readCells a 0 (min m n)).bind fun xa => (readCells b 0 (min m n)).bind fun xb => (write a 0 xb).bind fun a' => (write b 0 xa).bind fun b' =>
    if min m n < m then (readCells a' (min m n) (m - min m n)).bind fun rest => (write b' (min m n) rest).map fun b'' => (a', b'')
    else if min m n < n then (readCells b' (min m n) (n - min m n)).bind fun rest => (write a' (min m n) rest).map fun a'' => (a'', b')
    else some (a', b')

/-- `swap` (small_vector.h:512-557) of different objects. -/
def swap (v w : Vec α) : Option (Vec α × Vec α) :=
  Option.map (fun p : Vec α × Vec α => ({ p.1 with size := w.size, cap := w.cap }, { p.2 with size := v.size, cap := v.cap })) <|
  match v.heap, w.heap with
    | some b, some c => some ({ v with heap := some c, start := w.start }, { w with heap := some b, start := v.start })
    | some b, none => (readCells w.stack 0 w.size).bind fun xs => (write v.stack 0 xs).map fun cells =>
        ({ v with heap := none, stack := cells, start := .stackOf v.addr }, { w with heap := some b, start := .block b.id })
    | none, some c => (readCells v.stack 0 v.size).bind fun xs => (write w.stack 0 xs).map fun cells =>
        ({ v with heap := some c, start := .block c.id }, { w with heap := none, stack := cells, start := .stackOf w.addr })
    | none, none => (swapStacks v.stack w.stack v.size w.size).map fun (a, b) => ({ v with stack := a }, { w with stack := b })

/-! ## Observers -/

/-- What an iteration from `begin` to `end` reads (small_vector.h:391-428), as do the conversions to `span` (562-571). -/
def Vec.read (v : Vec α) : Option (List (Option α)) := v.data.bind fun cells => readCells cells 0 v.size

/-- `operator[]` (small_vector.h:258-260), `front` (473-486) for 0 and `back` (492-505) for `size() - 1`. -/
def Vec.get (v : Vec α) (i : Nat) : Option α := v.data.bind fun cells => if i < v.size then (cells[i]?).join else none

/-- Iteration backwards: `k` steps remain until the pointer is `rend` (small_vector.h:37-62, 433-456). -/
def backwards (cells : List (Option α)) : Nat → List (Option α)
  | 0 => []
  | k + 1 => (cells[k]?).join :: backwards cells k

/-- Iteration from `rbegin` to `rend`. -/
def Vec.readBack (v : Vec α) : Option (List (Option α)) := v.data.map fun cells => backwards cells v.size

/-- `operator==` (small_vector.h:575-582): `std::equal`. -/
def Vec.equal [DecidableEq α] (v w : Vec α) : Option Bool := v.read.bind fun x => w.read.map fun y => decide (x = y)

/-- `on_heap` (small_vector.h:294-296). -/
def Vec.onHeap (v : Vec α) : Bool := v.heap.isSome

/-! ## Programs with several vectors -/

/-- The vectors that exist, by address, and the number of blocks allocated so far. -/
structure World (α : Type) where
  objs : Nat → Option (Vec α)
  next : Nat

/-- A vector is put at its address. -/
def World.put (w : World α) (v : Vec α) : World α := ⟨Function.update w.objs v.addr (some v), w.next + 1⟩

/-- Two vectors are put at their addresses. -/
def World.put2 (w : World α) (p : Vec α × Vec α) : World α := ⟨Function.update (Function.update w.objs p.2.addr (some p.2)) p.1.addr (some p.1), w.next + 1⟩

/-- A program before its first vector. -/
def World.new : World α := ⟨fun _ => none, 0⟩

/-- One call; assignment of a vector to itself by copying does nothing (small_vector.h:99-101), the destructor (232) frees the block. -/
def World.step [Inhabited α] (N : Nat) (w : World α) : Op α → Option (World α)
  | .make a xs => (ofValues N a w.next xs).map w.put
  | .copyNew a s => (w.objs s).bind fun r => (SmallVector.copyNew N a w.next r).map w.put
  | .moveNew a s => (w.objs s).bind fun r => (SmallVector.moveNew N a r).map w.put2
  | .copyTo a s => (w.objs a).bind fun v => (w.objs s).bind fun r => if a = s then some w else (SmallVector.copyTo w.next v r).map w.put
  | .moveTo a s => (w.objs a).bind fun v => (w.objs s).bind fun r => (SmallVector.moveTo N v r).map w.put2
  | .push a x => (w.objs a).bind fun v => (v.push w.next x).map w.put
  | .pop a => (w.objs a).bind fun v => v.pop.map w.put
  | .clear a => (w.objs a).map fun v => w.put v.clear
  | .reserve a n => (w.objs a).bind fun v => (v.reserve w.next n).map w.put
  | .insert a i xs => (w.objs a).bind fun v => (v.insert w.next i xs).map w.put
  | .erase a i j => (w.objs a).bind fun v => (v.erase i j).map w.put
  | .set a i x => (w.objs a).bind fun v => (v.setAt i x).map w.put
  | .swap a b => (w.objs a).bind fun v => (w.objs b).bind fun r => (SmallVector.swap v r).map w.put2
  | .destroy a => (w.objs a).map fun _ => ⟨Function.update w.objs a none, w.next⟩

/-- A sequence of calls. -/
def World.run [Inhabited α] (N : Nat) (w : World α) : List (Op α) → Option (World α)
  | [] => some w
  | op :: ops => (w.step N op).bind fun w => w.run N ops

end Moment.SmallVector
