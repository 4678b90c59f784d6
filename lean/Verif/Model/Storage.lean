/-! Model of cpp/lib_moment/utilities/persistent_storage.h. Every function of the store holds the mutex from beginning to end (or only reads constants), so
concurrent calls behave like calls in some order; a history is a sequence of calls. -/

namespace Moment.Storage

variable {V : Type}

/-- `PersistentStorage` (persistent_storage.h:148-156). The map is a list with ascending numbers. -/
structure Store (V : Type) where
  signature : UInt32
  objects : List (UInt32 × V)
  nextID : UInt32

/-- Constructor (persistent_storage.h:163). -/
def Store.new (signature : UInt32) : Store V := ⟨signature, [], 0⟩

/-- `get_index` (persistent_storage.h:169-171). -/
def getIndex (key : UInt64) : UInt32 := (key &&& 0x00000000FFFFFFFF).toUInt32

/-- `sign_index` (persistent_storage.h:178-180), also used for owned objects (persistent_storage.h:214). -/
def signIndex (signature : UInt32) (id : UInt32) : UInt64 := (signature.toUInt64 <<< 32) ||| id.toUInt64

/-- The key of shared objects (persistent_storage.h:229). -/
def sharedKey (signature : UInt32) (id : UInt32) : UInt64 := (signature.toUInt64 <<< 32) + id.toUInt64

/-- `check_signature` (persistent_storage.h:69-72). -/
def checkSignature (signature : UInt32) (key : UInt64) : Bool := ((key &&& 0xFFFFFFFF00000000) >>> 32).toUInt32 == signature

/-- What a lookup can end in (persistent_storage.h:300-317). -/
inductive Outcome (V : Type) where
  | found : V → Outcome V
  | badSignature : Outcome V
  | notFound : Outcome V

/-- `std::map::find`. -/
def lookup : List (UInt32 × V) → UInt32 → Option V
  | [], _ => none
  | (i, v) :: l, x => if i = x then some v else lookup l x

/-- `std::map::emplace_hint`: nothing happens if there is such a number already. -/
def emplace : List (UInt32 × V) → UInt32 → V → List (UInt32 × V)
  | [], x, w => [(x, w)]
  | (i, v) :: l, x, w => if i < x then (i, v) :: emplace l x w else if i = x then (i, v) :: l else (x, w) :: (i, v) :: l

/-- `std::map::erase`. -/
def erase (l : List (UInt32 × V)) (x : UInt32) : List (UInt32 × V) := l.filter fun p => p.1 ≠ x

/-- `get` (persistent_storage.h:188-192, 300-317). -/
def Store.get (s : Store V) (key : UInt64) : Outcome V :=
  if !checkSignature s.signature key then .badSignature
  else match lookup s.objects (getIndex key) with
    | none => .notFound
    | some v => .found v

/-- `release` (persistent_storage.h:199-203); an exception leaves the store as it was. -/
def Store.release (s : Store V) (key : UInt64) : Store V :=
  match s.get key with
  | .found _ => { s with objects := erase s.objects (getIndex key) }
  | _ => s

/-- `store` of an owned object (persistent_storage.h:210-218). -/
def Store.storeOwned (s : Store V) (v : V) : Store V × UInt64 :=
  ({ s with objects := emplace s.objects s.nextID v, nextID := s.nextID + 1 }, signIndex s.signature s.nextID)

/-- `store` of a shared object (persistent_storage.h:225-233). -/
def Store.storeShared (s : Store V) (v : V) : Store V × UInt64 :=
  ({ s with objects := emplace s.objects s.nextID v, nextID := s.nextID + 1 }, sharedKey s.signature s.nextID)

/-- `clear` (persistent_storage.h:282-286). -/
def Store.clear (s : Store V) : Store V := { s with objects := [], nextID := 0 }

/-- `first` (persistent_storage.h:239-246). -/
def Store.first (s : Store V) : UInt32 × Option V :=
  match s.objects with
  | [] => (0xFFFFFFFF, none)
  | (i, v) :: _ => (i, some v)

/-- `next` (persistent_storage.h:252-259). -/
def Store.next (s : Store V) (previous : UInt32) : UInt32 × Option V :=
  match s.objects.dropWhile fun p => !decide (previous < p.1) with
  | [] => (0xFFFFFFFF, none)
  | (i, v) :: _ => (i, some v)

/-- `make_signature` (persistent_storage.h:313-318); `char` is a signed byte. -/
def makeSignature (a b c d : Int8) : UInt32 :=
  UInt32.ofInt a.toInt + (UInt32.ofInt b.toInt <<< 8) + (UInt32.ofInt c.toInt <<< 16) + (UInt32.ofInt d.toInt <<< 24)

/-! ## The store of one object -/

/-- Where a thread is in `create_if_empty` (persistent_storage.h:121-139): before the first test, between the two locks, or returned. -/
inductive Phase (V : Type) where
  | start : Phase V
  | between : Phase V
  | returned : V → Phase V

/-- The stored object, how many objects were made, and the threads. Only the two locked sections of the function touch the object. -/
structure Mono (T V : Type) where
  object : Option V
  made : Nat
  phase : T → Phase V

/-- One locked section of thread `t`; `fresh t` is the object the thread would make. -/
inductive Step {T V : Type} [DecidableEq T] (fresh : T → V) : Mono T V → Mono T V → Prop where
  /-- The first test finds an object (persistent_storage.h:123-126). -/
  | found (m : Mono T V) (t : T) (v : V) : m.phase t = .start → m.object = some v →
      Step fresh m { m with phase := fun u => if u = t then .returned v else m.phase u }
  /-- The first test finds none, the read lock is released (persistent_storage.h:127). -/
  | missing (m : Mono T V) (t : T) : m.phase t = .start → m.object = none →
      Step fresh m { m with phase := fun u => if u = t then .between else m.phase u }
  /-- The second test finds an object (persistent_storage.h:132-134). -/
  | late (m : Mono T V) (t : T) (v : V) : m.phase t = .between → m.object = some v →
      Step fresh m { m with phase := fun u => if u = t then .returned v else m.phase u }
  /-- The object is made (persistent_storage.h:136-137). -/
  | make (m : Mono T V) (t : T) : m.phase t = .between → m.object = none →
      Step fresh m ⟨some (fresh t), m.made + 1, fun u => if u = t then .returned (fresh t) else m.phase u⟩

end Moment.Storage
