import Mathlib.Data.List.Basic

/-! Model of cpp/lib_moment/utilities/utf_conversion.cpp. UTF-16 units and bytes are natural numbers. The output strings have a fixed size and are
filled from the left; a write past the end is undefined behaviour (`none`), unwritten places keep the value 0. -/

namespace Moment.Utf

/-- The output string: `cap` places, of which the first ones are written. -/
def fill (cap : Nat) (written : List Nat) : Option (List Nat) :=
  if written.length ≤ cap then some (written ++ List.replicate (cap - written.length) 0) else none

/-- `UTF16toUTF8Convertor::size_in_utf8` (utf_conversion.cpp:15-29). -/
def size8 : List Nat → Nat
  | [] => 0
  | e :: w => (if e < 0x007f then 1 else if e ≤ 0x07ff then 2 else if e ≥ 0xd800 ∧ e ≤ 0xdfff then 2 else 3) + size8 w

/-- The four bytes for a surrogate pair (utf_conversion.cpp:110-121). -/
def pair8 (src low : Nat) : List Nat :=
  let high := (src &&& 0x03ff) + 0x0040
  [0xf0 ||| ((high &&& 0x0300) >>> 8), 0x80 ||| ((high &&& 0x00fc) >>> 2), 0x80 ||| ((high &&& 0x0003) <<< 4) ||| ((low &&& 0x03c0) >>> 6),
    0x80 ||| (low &&& 0x003f)]

/-- The bytes for a unit that is no surrogate (utf_conversion.cpp:64-95). -/
def unit8 (src : Nat) : List Nat :=
  if src ≤ 0x007f then [src &&& 0x007f]
  else if src ≤ 0x07ff then [0xc0 ||| ((0x07c0 &&& src) >>> 6), 0x80 ||| (0x003f &&& src)]
  else [0xe0 ||| ((0xf000 &&& src) >>> 12), 0x80 ||| ((0x0fc0 &&& src) >>> 6), 0x80 ||| (0x003f &&& src)]

/-- The loop of `UTF16toUTF8Convertor::convert` (utf_conversion.cpp:61-132): the bytes written. -/
def emit8 : List Nat → List Nat
  | [] => []
  | [src] => if (src &&& 0xf800) ≠ 0xd800 then unit8 src else [0, 0]
  | src :: low :: w =>
    if (src &&& 0xf800) ≠ 0xd800 then unit8 src ++ emit8 (low :: w)
    else if (src &&& 0xfc00) = 0xd800 ∧ (low &&& 0xfc00) = 0xdc00 then pair8 src low ++ emit8 w
    else [0, 0] ++ emit8 (low :: w)

/-- `UTF16toUTF8Convertor::convert` (utf_conversion.cpp:32-41, 43-135). -/
def convert8 (w : List Nat) : Option (List Nat) :=
  if w.length = size8 w then some (w.map (· &&& 0x7f)) else fill (size8 w) (emit8 w)

/-- `UTF8toUTF16Convertor::size_in_utf16` (utf_conversion.cpp:137-173). -/
def size16 : List Nat → Nat
  | [] => 0
  | e :: w =>
    if e &&& 0x80 = 0 then 1 + size16 w
    else if e &&& 0xe0 = 0xc0 then 1 + size16 (w.drop 1)
    else if e &&& 0xf0 = 0xe0 then 1 + size16 (w.drop 2)
    else if e &&& 0xf8 = 0xf0 then 2 + size16 (w.drop 3)
    else 1 + size16 w
termination_by w => w.length
decreasing_by all_goals (simp; try omega)

/-- The loop of `UTF8toUTF16Convertor::convert` (utf_conversion.cpp:205-269): the units written. Truncated characters end the conversion. -/
def emit16 : List Nat → List Nat
  | [] => []
  | src :: w =>
    if src &&& 0x80 = 0 then src :: emit16 w
    else if src &&& 0xe0 = 0xc0 then
      match w with
      | lo :: w' => (((0x1f &&& src) <<< 6) ||| (0x3f &&& lo)) :: emit16 w'
      | [] => []
    else if src &&& 0xf0 = 0xe0 then
      match w with
      | mid :: lo :: w' => (((src &&& 0x0f) <<< 12) ||| ((mid &&& 0x3f) <<< 6) ||| (lo &&& 0x3f)) :: emit16 w'
      | _ => []
    else if src &&& 0xf8 = 0xf0 then
      match w with
      | c2 :: c3 :: c4 :: w' =>
        let b1 := src &&& 0x03
        let b2 := c2 &&& 0x3f
        let b3 := c3 &&& 0x3f
        let b4 := c4 &&& 0x3f
        ((0xd800 ||| (b1 <<< 8) ||| (b2 <<< 2) ||| ((b3 &&& 0x30) >>> 4)) - 0x0040) :: (0xdc00 ||| ((b3 &&& 0x0f) <<< 6) ||| b4) :: emit16 w'
      | _ => []
    else emit16 w
termination_by w => w.length
decreasing_by all_goals (simp; try omega)

/-- `UTF8toUTF16Convertor::convert` (utf_conversion.cpp:176-185, 187-274). -/
def convert16 (s : List Nat) : Option (List Nat) :=
  if s.length = size16 s then some (s.map (· &&& 0x7f)) else fill (size16 s) (emit16 s)

end Moment.Utf
