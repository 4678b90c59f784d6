import Verif.Model.RuleInput

/-! # Model of reading one of several choices (cpp/mex_functions/utilities/read_choice.cpp)

Simplified: characters beyond ASCII are kept as they are. Reading a null string is left to the MATLAB library and counted as undefined. -/

namespace Moment.ChoiceInput
open Moment.RuleInput (Out)

/-- What can be given: an array of characters, an array of strings, of which each can be null, or something else. -/
inductive Input
  | chars (w : List Char)
  | strings (l : List (Option (List Char)))
  | other

/-- The text that is compared (read_choice.cpp:24-46). The messages for arrays of strings that are not single, and for null strings, are written but not thrown (29-32, 35-38): the first
string is taken; if there is none, the iterator that is read is at the end (34). -/
def text : Input → Out (List Char)
  | .chars w => .ok w
  | .strings [] => .undefined
  | .strings (none :: _) => .undefined
  | .strings (some w :: _) => .ok w
  | .other => .refused

/-- The loop over the choices (read_choice.cpp:53-57). -/
def search (w : List Char) : Nat → List (List Char) → Option Nat
  | _, [] => none
  | k, c :: cs => if w = c then some k else search w (k + 1) cs

/-- `read_choice` (read_choice.cpp:21-74). -/
def readChoice (choices : List (List Char)) (i : Input) : Out Nat := (text i).bind fun w => Out.ofOption (search (w.map Char.toLower) 0 choices)

end Moment.ChoiceInput
