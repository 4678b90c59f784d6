import Verif.Model.Iter
import Verif.Model.Hash

/-! # Model of `SubstringHashIter` (cpp/lib_moment/utilities/substring_hasher.h) -/

namespace Moment.Substring

/-- Data members of `SubstringHashIter` (substring_hasher.h:28-34); the pointer to the word and the radix are parameters below. -/
structure State where
  start : Int
  stop : Int
  stride : UInt64
  hash : UInt64

/-- Constructor (substring_hasher.h:37-45). For the empty word `ss.size() - 1` converts to -1 and the hash stays uninitialised (0 here, never
read). -/
def first (w : List Nat) : State :=
  let start : Int := (w.length : Int) - 1
  { start, stop := start + 1, stride := 1,
    hash := if 0 ≤ start then UInt64.ofNat (w.getD start.toNat 0) + 2 else 0 }

/-- Comparison with the end iterator (substring_hasher.h:47-61): start -1, end 0. -/
def atEnd (s : State) : Prop := s.start = -1 ∧ s.stop = 0

/-- `operator++` (substring_hasher.h:67-84). -/
def next (radix : UInt64) (w : List Nat) (s : State) : State :=
  let start := s.start - 1
  let s1 : State :=
    if start < 0 then
      { start := s.stop - 1 - 1, stop := s.stop - 1, stride := 1, hash := 1 }
    else { s with start := start, stride := s.stride * radix }
  if 0 ≤ s1.start then
    { s1 with hash := s1.hash + (1 + UInt64.ofNat (w.getD s1.start.toNat 0)) * s1.stride }
  else s1

/-- `index()` and `operator*` (substring_hasher.h:92-100), together with the (private) end of the substring. -/
def value (s : State) : Nat × Nat × UInt64 := (s.start.toNat, s.stop.toNat, s.hash)

end Moment.Substring
