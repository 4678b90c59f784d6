import Mathlib.Logic.Function.Basic

/-! Model of cpp/lib_moment/multithreading/queue.h as a transition system. A step of a thread is one access to shared memory, or a lock or condition variable
operation. Atomics are sequentially consistent. Two simplifications: `get_tail` (queue.h:189-192) locks, reads one pointer and unlocks, and is one step that needs the
tail lock to be free; `pop_head` (queue.h:183-187) is one step, since `head` is only used under the head lock. -/

namespace Moment.Queue

/-- A node (queue.h:29-36). -/
structure Cell (V : Type) where
  datum : Option V
  next : Option Nat

/-- Where a thread is. `w` says whether a consumer waits (`wait_pop_front`) or not (`try_pop_front`). -/
inductive Loc (V : Type) where
  | idle
  /-- has allocated a node (queue.h:87, 102) -/
  | alloc (v : V) (n : Nat)
  /-- holds the tail lock (queue.h:90, 105) -/
  | locked (v : V) (n : Nat)
  /-- has written the datum (queue.h:93, 108) -/
  | datum (v : V) (n : Nat)
  /-- has linked the new node (queue.h:94, 109) -/
  | linked (v : V) (n : Nat)
  /-- has moved the tail (queue.h:95, 110) -/
  | moved
  /-- is about to notify one thread (queue.h:97, 112) -/
  | notify
  /-- has set the abort flag and is about to notify all (queue.h:117-118) -/
  | notifyAll
  /-- wants the head lock (queue.h:127, 166) -/
  | want (w : Bool)
  /-- is about to test the abort flag (queue.h:130) -/
  | checking
  /-- is about to read the tail (queue.h:135, 170) -/
  | looking (w : Bool)
  /-- has read the tail -/
  | got (w : Bool) (n : Nat)
  /-- is about to test the abort flag in the predicate (queue.h:170) -/
  | flagTest
  /-- the predicate is false, is about to sleep -/
  | sleepy
  | asleep
  /-- the predicate is true, is about to read the abort flag (queue.h:173) -/
  | flagRead
  /-- is about to take the head (queue.h:140, 155) -/
  | popping (w : Bool)
  /-- is about to release the head lock and return this -/
  | leaving (r : Option V)

/-- The queue and its threads; `pushed` and `popped` record the order in which items were published and taken, `crashed` says that a null pointer was used. -/
structure State (T V : Type) where
  head : Nat
  tail : Nat
  heap : Nat → Cell V
  fresh : Nat
  headLock : Option T
  tailLock : Option T
  aborted : Bool
  loc : T → Loc V
  pushed : List V
  popped : List V
  crashed : Bool

variable {T V : Type} [DecidableEq T]

/-- The constructor (queue.h:81-83). -/
def initial : State T V := ⟨0, 0, fun _ => ⟨none, none⟩, 1, none, none, false, fun _ => .idle, [], [], false⟩

/-- Thread `t` goes to `l`. -/
def State.goto (s : State T V) (t : T) (l : Loc V) : State T V := { s with loc := Function.update s.loc t l }

/-- One step. -/
inductive Step : State T V → State T V → Prop where
  -- emplace_back, push_back (queue.h:86-114)
  | pAlloc (s : State T V) (t : T) (v : V) : s.loc t = .idle →
      Step s { s with heap := Function.update s.heap s.fresh ⟨none, none⟩, fresh := s.fresh + 1, loc := Function.update s.loc t (.alloc v s.fresh) }
  | pLock (s : State T V) (t : T) (v : V) (n : Nat) : s.loc t = .alloc v n → s.tailLock = none →
      Step s { s with tailLock := some t, loc := Function.update s.loc t (.locked v n) }
  | pDatum (s : State T V) (t : T) (v : V) (n : Nat) : s.loc t = .locked v n →
      Step s { s with heap := Function.update s.heap s.tail ⟨some v, (s.heap s.tail).next⟩, loc := Function.update s.loc t (.datum v n) }
  | pLink (s : State T V) (t : T) (v : V) (n : Nat) : s.loc t = .datum v n →
      Step s { s with heap := Function.update s.heap s.tail ⟨(s.heap s.tail).datum, some n⟩, loc := Function.update s.loc t (.linked v n) }
  | pMove (s : State T V) (t : T) (v : V) (n m : Nat) : s.loc t = .linked v n → (s.heap s.tail).next = some m →
      Step s { s with tail := m, pushed := s.pushed ++ [v], loc := Function.update s.loc t .moved }
  | pMoveNull (s : State T V) (t : T) (v : V) (n : Nat) : s.loc t = .linked v n → (s.heap s.tail).next = none →
      Step s { s with crashed := true }
  | pUnlock (s : State T V) (t : T) : s.loc t = .moved → Step s { s with tailLock := none, loc := Function.update s.loc t .notify }
  | pNotify (s : State T V) (t u : T) : s.loc t = .notify → s.loc u = .asleep →
      Step s { s with loc := Function.update (Function.update s.loc t .idle) u (.want true) }
  | pNotifyNone (s : State T V) (t : T) : s.loc t = .notify → (∀ u, s.loc u ≠ .asleep) → Step s (s.goto t .idle)
  -- abort (queue.h:116-119)
  | abort (s : State T V) (t : T) : s.loc t = .idle → Step s { s with aborted := true, loc := Function.update s.loc t .notifyAll }
  | notifyAll (s : State T V) (t : T) (l' : T → Loc V) : s.loc t = .notifyAll → l' t = .idle →
      (∀ u, u ≠ t → s.loc u = .asleep → l' u = .want true) → (∀ u, u ≠ t → s.loc u ≠ .asleep → l' u = s.loc u) → Step s { s with loc := l' }
  -- try_pop_front, wait_pop_front (queue.h:126-187)
  | start (s : State T V) (t : T) (w : Bool) : s.loc t = .idle → Step s (s.goto t (.want w))
  | lockTry (s : State T V) (t : T) : s.loc t = .want false → s.headLock = none →
      Step s { s with headLock := some t, loc := Function.update s.loc t .checking }
  | lockWait (s : State T V) (t : T) : s.loc t = .want true → s.headLock = none →
      Step s { s with headLock := some t, loc := Function.update s.loc t (.looking true) }
  | checkAbort (s : State T V) (t : T) : s.loc t = .checking → s.aborted = true → Step s (s.goto t (.leaving none))
  | checkGo (s : State T V) (t : T) : s.loc t = .checking → s.aborted = false → Step s (s.goto t (.looking false))
  | look (s : State T V) (t : T) (w : Bool) : s.loc t = .looking w → s.tailLock = none → Step s (s.goto t (.got w s.tail))
  | emptyTry (s : State T V) (t : T) (n : Nat) : s.loc t = .got false n → s.head = n → Step s (s.goto t (.leaving none))
  | emptyWait (s : State T V) (t : T) (n : Nat) : s.loc t = .got true n → s.head = n → Step s (s.goto t .flagTest)
  | dataTry (s : State T V) (t : T) (n : Nat) : s.loc t = .got false n → s.head ≠ n → Step s (s.goto t (.popping false))
  | dataWait (s : State T V) (t : T) (n : Nat) : s.loc t = .got true n → s.head ≠ n → Step s (s.goto t .flagRead)
  | flagUp (s : State T V) (t : T) : s.loc t = .flagTest → s.aborted = true → Step s (s.goto t .flagRead)
  | flagDown (s : State T V) (t : T) : s.loc t = .flagTest → s.aborted = false → Step s (s.goto t .sleepy)
  | sleep (s : State T V) (t : T) : s.loc t = .sleepy → Step s { s with headLock := none, loc := Function.update s.loc t .asleep }
  | spurious (s : State T V) (t : T) : s.loc t = .asleep → Step s (s.goto t (.want true))
  | readAbort (s : State T V) (t : T) : s.loc t = .flagRead → s.aborted = true → Step s (s.goto t (.leaving none))
  | readGo (s : State T V) (t : T) : s.loc t = .flagRead → s.aborted = false → Step s (s.goto t (.popping true))
  | pop (s : State T V) (t : T) (w : Bool) (m : Nat) (v : V) : s.loc t = .popping w → (s.heap s.head).next = some m → (s.heap s.head).datum = some v →
      Step s { s with head := m, heap := Function.update s.heap s.head ⟨some v, none⟩, popped := s.popped ++ [v], loc := Function.update s.loc t (.leaving (some v)) }
  | popNull (s : State T V) (t : T) (w : Bool) : s.loc t = .popping w → ((s.heap s.head).next = none ∨ (s.heap s.head).datum = none) →
      Step s { s with crashed := true }
  | leave (s : State T V) (t : T) (r : Option V) : s.loc t = .leaving r → Step s { s with headLock := none, loc := Function.update s.loc t .idle }

end Moment.Queue
