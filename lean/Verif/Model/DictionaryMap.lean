import Verif.Model.SymbolTable

/-! # Model of the translation from positions in the list of words to symbols
(cpp/lib_moment/dictionary/dictionary_map.{h,cpp})

Locks are left out. Ids are natural numbers, signed in the map. -/

namespace Moment.DictionaryMap

open Moment.Symbols (Sym Table Env)

/-- `DictionaryMap` (dictionary_map.h:29-33): `symbol_map` and `symbol_map_max_length`. -/
structure Index where
  entries : List Int
  maxLength : Nat
  deriving DecidableEq

/-- Constructor (dictionary_map.cpp:19-23). -/
def Index.new : Index := ⟨[1], 0⟩

/-- The entry of a word (dictionary_map.cpp:45-49). A word that is not found, or whose symbol has no word, gives no result: then a null pointer or an
empty optional is dereferenced. -/
def entry (c : Env) (t : Table) (w : HSeq) : Option Int :=
  (t.lookup c w).1.bind fun r => (t.syms[r.1]?).bind fun s => s.seq.map fun q => (if !w.beq q then -1 else 1) * (s.id : Int)

/-- `update_if_necessary` (dictionary_map.cpp:25-58), given the words of each length (`operator_sequence_generator`), and whether entries were added. A
list that is shorter than the map gives no result. -/
def Index.update (c : Env) (t : Table) (words : Nat → List HSeq) (I : Index) (n : Nat) : Option (Index × Bool) :=
  if n ≤ I.maxLength then some (I, false)
  else if (words n).length < I.entries.length then none
  else (((words n).drop I.entries.length).mapM (entry c t)).map fun l => (⟨I.entries ++ l, n⟩, true)

/-- `operator()` (dictionary_map.cpp:61-75); `none` if it throws. -/
def Index.get (I : Index) (i : Nat) : Option (Nat × Bool) := (I.entries[i]?).map fun v => if v < 0 then ((-v).toNat, true) else (v.toNat, false)

end Moment.DictionaryMap
