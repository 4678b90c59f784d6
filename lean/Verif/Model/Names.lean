import Verif.Model.Rules

/-! # Model of names of operators in algebraic scenarios
(cpp/lib_moment/scenarios/algebraic/name_table.cpp, name_table.h, algebraic_context.cpp, cpp/mex_functions/import/read_monomial_rules.cpp)

Text is a list of characters. `std::map<std::string, oper_name_t>` is a list of pairs with different keys. Numbers that are stored as `oper_name_t` are reduced
to 16 bits. What a string holds after it was moved from is not specified by the language; it is a parameter here. -/

namespace Moment.Names
open Moment.Rules (Pre ConjMode)

abbrev Text := List Char

/-- `[A-Za-z]` (name_table.cpp:129) -/
def letter (c : Char) : Bool := (decide ('A' ≤ c) && decide (c ≤ 'Z')) || (decide ('a' ≤ c) && decide (c ≤ 'z'))

/-- `[A-Za-z0-9_\.\|]` (name_table.cpp:129) -/
def nameChar (c : Char) : Bool := letter c || (decide ('0' ≤ c) && decide (c ≤ '9')) || c == '_' || c == '.' || c == '|'

/-- `NameTable::validate_name` (name_table.cpp:121-145): true if there is no complaint. The complaints only differ in their texts. -/
def validName : Text → Bool
  | [] => false
  | c :: cs => letter c && cs.all nameChar

/-- Conversion to `oper_name_t`, which is `int16_t` (integer_types.h:41). -/
def oper (n : Nat) : Int := Int.bmod n 65536

abbrev Index := List (Text × Int)

/-- `index.insert`, `index.emplace`: what is there already stays; the flag is `new_insert`. -/
def Index.put (m : Index) (t : Text) (v : Int) : Index × Bool := if m.any fun e => e.1 == t then (m, false) else (m ++ [(t, v)], true)

/-- `index.find`. -/
def Index.get (m : Index) (t : Text) : Option Int := (m.find? fun e => e.1 == t).map Prod.snd

/-- `class NameTable` (name_table.h:24-31). -/
structure Table where
  count : Nat
  names : List Text
  index : Index
  single : Bool

/-- What a string holds after it was assigned to itself by a move, and what it holds after it was moved elsewhere. -/
structure Moves where
  self : Text → Text
  left : Text → Text

/-- The loop that checks names (name_table.cpp:36-59); `none` is an exception. -/
def checkNames (mode : ConjMode) : Nat → List Text → Index → Bool → Option (Index × Bool)
  | _, [], ix, s => some (ix, s)
  | op, t :: ts, ix, s =>
    if !validName t then none
    else
      let r := ix.put t (oper (op * if mode = .interleaved then 2 else 1))
      if !r.2 then none else checkNames mode (op + 1) ts r.1 (s && t.length == 1)

/-- The name of the conjugate (name_table.cpp:65-66, 73-74, 82-83). -/
def star (t : Text) : Text := t ++ ['*']

/-- The loop for self-adjoint operators (name_table.cpp:64-68). -/
def markSelf (names : List Text) (n : Nat) (ix : Index) : Index :=
  (List.range n).foldl (fun ix k => (Index.put ix (star (names.getD k [])) (oper k)).1) ix

/-- The loop for conjugates after the operators (name_table.cpp:71-77). -/
def bunch (n : Nat) (x : List Text × Index) : List Text × Index :=
  (List.range n).foldl (fun x k => (x.1 ++ [star (x.1.getD k [])], (Index.put x.2 (star (x.1.getD k [])) (oper (x.1.length + 1 - 1))).1)) x

/-- The loop for conjugates next to the operators, backwards (name_table.cpp:80-90). The first string is moved to itself. -/
def interleave (mv : Moves) : Nat → List Text × Index → List Text × Index
  | 0, x => x
  | k + 1, (ns, ix) =>
    let t := ns.getD k []
    let ns := if 2 * k = k then ns.set k (mv.self t) else (ns.set (2 * k) t).set k (mv.left t)
    interleave mv k (ns.set (2 * k + 1) (star t), (Index.put ix (star t) (oper (2 * k + 1))).1)

/-- The constructor (name_table.cpp:23-93); `none` is an exception. -/
def Table.make (mv : Moves) (p : Pre) (input : List Text) : Option Table :=
  if input.length ≠ p.raw then none
  else (checkNames p.mode 0 input [] true).map fun r => match p.mode with
    | .selfAdjoint => ⟨input.length, input, markSelf input input.length r.1, r.2⟩
    | .bunched => let x := bunch input.length (input, r.1); ⟨input.length, x.1, x.2, r.2⟩
    | .interleaved => let x := interleave mv input.length (input ++ List.replicate input.length [], r.1); ⟨input.length, x.1, x.2, r.2⟩

/-- `default_string_names` (name_table.cpp:106-119) with the name of `NameTable(apc)` (name_table.cpp:95-97). -/
def defaultNames (n : Nat) : List Text := (List.range n).map fun i => 'X' :: Nat.toDigits 10 (i + 1)

/-- `NameTable::find` (name_table.cpp:147-162); `none` is an exception. -/
def Table.find (T : Table) (t : Text) : Option Int := if t = [] then none else T.index.get t

/-- `format_stream` for one number (name_table.cpp:164-171). -/
def Table.stream (T : Table) (id : Int) : Text :=
  if 0 ≤ id ∧ id < T.names.length then T.names.getD id.toNat [] else "[UNK:".toList ++ (toString id).toList ++ "]".toList

/-- The operators of a word, in `format_sequence` (algebraic_context.cpp:195-209, 228-242); `none` if a name out of range is read. -/
def Table.body (T : Table) (w : List Nat) : Option Text :=
  if T.single then (w.mapM fun o => T.names[o]?).map List.flatten
  else some (List.intercalate [';'] (w.map fun o : Nat => T.stream (o : Int)))

/-- The text before and after, if braces are shown (algebraic_context.cpp:191-193, 211-213). -/
def wrap (braces : Bool) (t : Text) : Text := if braces then '<' :: t ++ ['>'] else t

/-- `AlgebraicContext::format_raw_sequence` (algebraic_context.cpp:218-247). -/
def Table.formatRaw (T : Table) (braces : Bool) (w : List Nat) : Option Text := if w = [] then some ['1'] else (T.body w).map (wrap braces)

/-- The text of a sign (algebraic_context.cpp:177-189). -/
def signText : Sign → Text
  | .pos => []
  | .imag => ['i']
  | .neg => ['-']
  | .negImag => ['-', 'i']

/-- `AlgebraicContext::format_sequence` (algebraic_context.cpp:166-215). -/
def Table.format (T : Table) (braces : Bool) (x : HSeq) : Option Text :=
  if x.isZero then some ['0'] else if x.ops = [] then some ['1'] else (T.body x.ops).map fun t => signText x.sign ++ wrap braces t

/-- `get_op_seq_from_string` (read_monomial_rules.cpp:28-57), without the conversion of texts; `none` is an exception. -/
def Table.readNames (T : Table) (l : List Text) : Option (List Int) := l.mapM T.find

/-- `get_op_seq_from_char_array` (read_monomial_rules.cpp:59-89). -/
def Table.readChars (T : Table) (t : Text) : Option (List Int) := if T.single then t.mapM fun c => T.find [c] else none

end Moment.Names
