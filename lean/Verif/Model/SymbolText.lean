import Verif.Model.Tolerance

/-! # Model of symbols as text
(cpp/lib_moment/symbolic/monomial.cpp, cpp/lib_moment/utilities/format_factor.cpp)

Text is a list of characters of one byte. What the standard library does with numbers is modelled for decimal numbers; numbers are rational, and a parameter says how
they are rounded. Infinities, `nan` and hexadecimal numbers are a parameter, and so is the text of a `double`. -/

namespace Moment.SymbolText

abbrev Text := List Char

/-- A number that `stod` reads. -/
inductive Number
  | finite (q : ℚ)
  | other (infinite : Bool)
deriving DecidableEq

/-- What is left open about `double`: the nearest one, if there is one in range, and forms of numbers that are not decimal, with the number of characters. -/
structure Doubles where
  round : ℚ → Option ℚ
  special : Text → Option (Number × Nat)

/-- `isspace` in the "C" locale. -/
def space (c : Char) : Bool := c == ' ' || c == '\t' || c == '\n' || c == '\x0b' || c == '\x0c' || c == '\r'

/-- A sign before a number, and the rest. -/
def sign : Text → Bool × Text
  | '-' :: t => (true, t)
  | '+' :: t => (false, t)
  | t => (false, t)

/-- The digits at the beginning. -/
def digits (t : Text) : Text := t.takeWhile Char.isDigit

/-- The rest after the digits. -/
def afterDigits (t : Text) : Text := t.dropWhile Char.isDigit

/-- The number that is written with these digits. -/
def number (ds : Text) : Nat := Nat.ofDigitChars 10 ds 0

/-- `std::stoi`: the number and the text after it; `none` is an exception. -/
def stoi (t : Text) : Option (Int × Text) :=
  let s := sign (t.dropWhile space)
  if digits s.2 = [] then none
  else
    let n : Int := if s.1 then -(number (digits s.2) : Int) else number (digits s.2)
    if -2147483648 ≤ n ∧ n ≤ 2147483647 then some (n, afterDigits s.2) else none

/-- An exponent and the text after it. Without digits, the letter is not part of the number. -/
def exponent : Text → Int × Text
  | c :: t =>
    if (c == 'e' || c == 'E') && digits (sign t).2 != [] then
      ((if (sign t).1 then -(number (digits (sign t).2) : Int) else number (digits (sign t).2)), afterDigits (sign t).2)
    else (0, c :: t)
  | [] => (0, [])

/-- The digits after a decimal point. -/
def fraction : Text → Text × Text
  | '.' :: t => (digits t, afterDigits t)
  | t => ([], t)

/-- A decimal number without sign. -/
def decimal (t : Text) : Option (ℚ × Text) :=
  let f := fraction (afterDigits t)
  if digits t ++ f.1 = [] then none
  else
    let e := exponent f.2
    some ((number (digits t ++ f.1) : ℚ) * 10 ^ (e.1 - f.1.length), e.2)

/-- `std::stod`: the number and the text after it; `none` is an exception. -/
def stod (D : Doubles) (t : Text) : Option (Number × Text) :=
  let s := sign (t.dropWhile space)
  match D.special s.2 with
  | some (.finite q, k) => some (.finite (if s.1 then -q else q), s.2.drop k)
  | some (v, k) => some (v, s.2.drop k)
  | none => (decimal s.2).bind fun x => (D.round (if s.1 then -x.1 else x.1)).map fun q => (.finite q, x.2)

/-- What comes of a text: undefined behaviour, an exception or a monomial. -/
inductive Outcome
  | undefined
  | refused
  | symbol (id : Int) (factor : Number) (conjugated : Bool)
deriving DecidableEq

/-- The part with the number of the symbol (monomial.cpp:243-284). Negation of the least `int` is undefined. -/
def readSymbol (prefactor : Option Number) (t : Text) : Outcome :=
  let conjugated := t.getLast? == some '*'
  match stoi (if conjugated then t.dropLast else t) with
  | none => .refused
  | some (n, rest) =>
    if rest ≠ [] then .refused
    else if n < 0 then
      match prefactor with
      | none => if n = -2147483648 then .undefined else .symbol (-n) (.finite (-1)) conjugated
      | some _ => .refused
    else .symbol n (prefactor.getD (.finite 1)) conjugated

/-- The factor before `#` (monomial.cpp:218-231). -/
def readFactor (D : Doubles) (t : Text) : Option Number :=
  if t = [] then some (.finite 1) else (stod D t).bind fun x => if x.2 = [] then some x.1 else none

/-- `Monomial(const std::string&)` (monomial.cpp:196-285). -/
def parse (D : Doubles) (t : Text) : Outcome :=
  if t = [] ∨ 32 < t.length then .refused
  else if '#' ∈ t then
    match readFactor D (t.take (t.idxOf '#')) with
    | none => .refused
    | some f => readSymbol (some f) (t.drop (t.idxOf '#' + 1))
  else if '.' ∈ t then
    match readFactor D t with
    | none => .refused
    | some f => .symbol 1 f false
  else readSymbol none t

/-! ## Output -/

open Classical in
/-- `format_factor` (format_factor.cpp:17-77): the text, and whether something is needed before what follows. `print` is the text of a `double`. -/
noncomputable def formatFactor (print : ℝ → Text) (z : ℂ) (isScalar needsPlus : Bool) : Text × Bool :=
  if Tolerance.real z 1 then
    if 0 < z.re then
      let plus := if needsPlus then " + ".toList else []
      if isScalar || !Tolerance.near z.re 1 1 then (plus ++ print z.re, true) else (plus, false)
    else if needsPlus then
      if isScalar || !Tolerance.near z.re (-1) 1 then (" - ".toList ++ print (-z.re), true) else (" - ".toList, false)
    else if isScalar || !Tolerance.near z.re (-1) 1 then (print z.re, true) else ("-".toList, false)
  else if Tolerance.tiny z.re 1 then
    if 0 < z.im then
      ((if needsPlus then " + ".toList else []) ++ (if Tolerance.near z.im 1 1 then [] else print z.im) ++ ['i'], true)
    else if needsPlus then (" - ".toList ++ (if Tolerance.near z.im (-1) 1 then [] else print (-z.im)) ++ ['i'], true)
    else ((if Tolerance.near z.im (-1) 1 then ['-'] else print z.im) ++ ['i'], true)
  else ((if needsPlus then " + ".toList else []) ++ ['('] ++ print z.re ++ " + ".toList ++ print z.im ++ "i)".toList, true)

open Classical in
/-- `format_as_symbol_id_without_context` (monomial.cpp:27-55). Numbers of symbols are not negative. -/
noncomputable def format (print : ℝ → Text) (id : Nat) (z : ℂ) (conjugated plus hash : Bool) : Text :=
  if id = 0 ∨ z = 0 then (if plus then " + ".toList else []) ++ ['0']
  else
    let f := formatFactor print z (id == 1) plus
    if id = 1 then f.1
    else f.1 ++ (if f.2 then (if hash then [' '] else ['*']) else []) ++ (if hash then ['#'] else []) ++ Nat.toDigits 10 id ++ (if conjugated then ['*'] else [])

end Moment.SymbolText
