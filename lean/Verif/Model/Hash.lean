/-! # Model of `ShortlexHasher` (cpp/lib_moment/shortlex_hasher.h)

`hash_t` is `uint64_t` (shortlex_hasher.h:19): arithmetic wraps modulo 2^64, modelled by `UInt64`.
Operator names (`oper_name_t`, int16) are natural numbers; negative names do not occur in words. -/

namespace Moment

/-- The loop of `ShortlexHasher::hash` (shortlex_hasher.h:43-46), reading the word from its last letter:
`hash += (op + 1) * multiplier; multiplier *= radix`. The list argument is the word reversed. -/
def hashLoop (radix : UInt64) : List Nat → UInt64 → UInt64 → UInt64
  | [], h, _ => h
  | o :: os, h, m => hashLoop radix os (h + (UInt64.ofNat o + 1) * m) (m * radix)

/-- `ShortlexHasher::hash(span)` with `offset = 1`, the only offset used by contexts
(shortlex_hasher.h:33, 36-48; scenarios/context.cpp:22). -/
def hashWord (radix : UInt64) (w : List Nat) : UInt64 := hashLoop radix w.reverse 1 1

/-- `ShortlexHasher::hash(oper_name_t)` for a single letter (shortlex_hasher.h:51-53). -/
def hashLetter (o : Nat) : UInt64 := 1 + UInt64.ofNat o + 1

/-- `ShortlexHasher::longest_hashable_string` (shortlex_hasher.h:66-74), for `offset = 1`.
The C++ computes `floor(64 / log2(radix))` in `double`; here it is computed exactly, as the largest `L` with
`radix ^ L ≤ 2 ^ 64` (`Nat.log2`-free definition by search from 64 downwards). -/
def longestHashable (radix : Nat) : Nat :=
  if radix = 1 then 2 ^ 64 - 1 - 1
  else ((List.range 65).filter (fun L => decide (radix ^ L ≤ 2 ^ 64 ∧ (radix = 0 → L = 0)))).foldl max 0

end Moment
