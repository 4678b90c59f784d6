import Verif.Model.Parties
import Verif.Model.Inflation

/-! # Model of the text of words in generic, Pauli and inflation contexts
(cpp/lib_moment/scenarios/context.cpp, pauli/pauli_context.cpp, inflation/inflation_context.cpp)

Text is a list of characters. Operators are natural numbers. A word with sign is `some (operators, sign)`, zero is `none`. The texts of words in locality contexts are in
`Model/Parties`, those in algebraic contexts in `Model/Names`. -/

namespace Moment.WordText
open Moment.Parties (Text joined negative letters)

/-- The texts of signs (context.cpp:165-177, pauli_context.cpp:387-399). -/
def signText : Sign → Text
  | .pos => []
  | .imag => ['i']
  | .neg => ['-']
  | .negImag => ['-', 'i']

/-- `show_braces`. -/
def braced (braces : Bool) (t : Text) : Text := (if braces then ['<'] else []) ++ (t ++ if braces then ['>'] else [])

/-! ## Generic contexts -/

/-- `"X" << (oper+1)` (context.cpp:190, 227). -/
def genericOp (o : Nat) : Text := 'X' :: Nat.toDigits 10 (o + 1)

/-- `Context::format_raw_sequence` (context.cpp:206-232). -/
def genericRaw (braces : Bool) (w : List Nat) : Text :=
  if w.isEmpty then ['1'] else braced braces (joined (w.map genericOp))

/-- `Context::format_sequence` (context.cpp:137-196). -/
def generic (braces : Bool) : Option (List Nat × Sign) → Text
  | none => ['0']
  | some (w, g) =>
    if w.isEmpty then
      match g with
      | .pos => ['1']
      | .imag => ['i']
      | .neg => ['-', '1']
      | .negImag => ['-', 'i']
    else signText g ++ braced braces (joined (w.map genericOp))

/-! ## Pauli contexts -/

/-- The letter and the number of the qubit (pauli_context.cpp:416-431). -/
def pauliOp (o : Nat) : Text :=
  (match o % 3 with
    | 0 => 'X'
    | 1 => 'Y'
    | _ => 'Z') :: Nat.toDigits 10 (o / 3 + 1)

/-- `PauliContext::format_raw_sequence` (pauli_context.cpp:404-437). -/
def pauliRaw (braces : Bool) (w : List Nat) : Text := braced braces (if w.isEmpty then ['I'] else w.flatMap pauliOp)

/-- `PauliContext::format_sequence` (pauli_context.cpp:381-402). -/
def pauli (braces : Bool) : Option (List Nat × Sign) → Text
  | none => ['0']
  | some (w, g) => signText g ++ pauliRaw braces w

/-! ## Inflation contexts -/

open Moment.Inflation (Ctx obsAt operatorInfo variantIndices Obs.copies)

/-- `needs_braces` (inflation_context.cpp:590-591, 646-647). -/
def needsBraces (c : Ctx) : Bool := c.net.observables.any fun ob => decide (2 < ob.outcomes)

/-- The numbers of the copies of sources (inflation_context.cpp:611-628, 674-691). -/
def copyText (c : Ctx) (l : List Nat) : Text :=
  (if needsBraces c then ['['] else []) ++
    ((if 9 < c.infl then [','].intercalate (l.map (Nat.toDigits 10)) else l.flatMap (Nat.toDigits 10)) ++ if needsBraces c then [']'] else [])

/-- The text of one operator (inflation_context.cpp:600-629). -/
noncomputable def inflationOp (c : Ctx) (m : Nat) : Text :=
  match (operatorInfo c)[m]? with
  | none => "[UNK:".toList ++ (Nat.toDigits 10 m ++ [']'])
  | some i => letters true i.obs ++ ((if 2 < (obsAt c i.obs).outcomes then Nat.toDigits 10 i.out else []) ++
      if 1 < c.infl then copyText c (variantIndices c i.obs i.variant) else [])

/-- `InflationContext::format_sequence(ContextualOS&, seq)` (inflation_context.cpp:568-636). -/
noncomputable def inflation (c : Ctx) (braces : Bool) : Option (List Nat × Sign) → Text
  | none => ['0']
  | some (w, g) =>
    if w.isEmpty then ['1']
    else (if negative g then ['-'] else []) ++ braced braces (joined (w.map (inflationOp c)))

/-- The text of an outcome of a copy of an observable (inflation_context.cpp:657-697). -/
noncomputable def outcomeText (c : Ctx) (t : Nat × Nat × Nat) : Text :=
  (match c.net.observables[t.1]? with
    | none => "[UNK: ".toList ++ (Nat.toDigits 10 t.1 ++ (", ".toList ++ (Nat.toDigits 10 t.2.1 ++ (", ".toList ++ (Nat.toDigits 10 t.2.2 ++ [']'])))))
    | some ob => letters true t.1 ++
        if 1 < c.infl then
          if ob.copies c.infl ≤ t.2.1 then "[UNK-VAR: ".toList ++ (Nat.toDigits 10 t.2.1 ++ [']'])
          else copyText c (variantIndices c t.1 t.2.1)
        else []) ++ '.' :: Nat.toDigits 10 t.2.2

/-- `InflationContext::format_sequence(indices)` (inflation_context.cpp:638-701). -/
noncomputable def outcomesText (c : Ctx) (l : List (Nat × Nat × Nat)) : Text :=
  if l.isEmpty then ['1'] else joined (l.map (outcomeText c))

end Moment.WordText
