/-! Model of cpp/lib_moment/utilities/dynamic_bitset.h with 64 bit pages. Indices are unbounded numbers: sizes within 64 of 2^64 are not covered.
`none` is an access outside the pages. -/

namespace Moment.Bits

abbrev Page := BitVec 64

/-- `pages_required` (dynamic_bitset.h:376-382). -/
def pagesRequired (size : Nat) : Nat := if size % 64 = 0 then size / 64 else size / 64 + 1

/-- `make_final_mask` (dynamic_bitset.h:384-390). -/
def finalMask (size : Nat) : Page := if size % 64 = 0 then ~~~0#64 else (1#64 <<< (size % 64)) - 1#64

/-- `DynamicBitset` (dynamic_bitset.h:84-92). The number of pages and the final mask are functions of the size. -/
structure Bitset where
  size : Nat
  data : List Page

/-- Empty bitset (dynamic_bitset.h:96-99). -/
def Bitset.new (size : Nat) : Bitset := ⟨size, List.replicate (pagesRequired size) 0#64⟩

/-- Bitset with a default value (dynamic_bitset.h:101-110). Without pages, `page_count - 1` is 2^64 - 1. -/
def Bitset.filled (size : Nat) (default : Bool) : Option Bitset :=
  if default then
    if pagesRequired size = 0 then none
    else some ⟨size, List.replicate (pagesRequired size - 1) (~~~0#64) ++ [finalMask size]⟩
  else some (Bitset.new size)

/-- Writing one page. -/
def Bitset.write (b : Bitset) (page : Nat) (v : Page) : Bitset := { b with data := b.data.set page v }

/-- `set` (dynamic_bitset.h:121-124). -/
def Bitset.set (b : Bitset) (i : Nat) : Option Bitset := do
  let v ← b.data[i / 64]?
  return b.write (i / 64) (v ||| (1#64 <<< (i % 64)))

/-- `unset` (dynamic_bitset.h:126-130). -/
def Bitset.unset (b : Bitset) (i : Nat) : Option Bitset := do
  let v ← b.data[i / 64]?
  return b.write (i / 64) (v &&& ~~~(1#64 <<< (i % 64)))

/-- `clear` (dynamic_bitset.h:132-136). -/
def Bitset.clear (b : Bitset) : Bitset := { b with data := b.data.map fun _ => 0#64 }

/-- `test` (dynamic_bitset.h:138-141). -/
def Bitset.test (b : Bitset) (i : Nat) : Option Bool := do
  let v ← b.data[i / 64]?
  return (v &&& (1#64 <<< (i % 64))) != 0#64

/-- `empty` (dynamic_bitset.h:144-147). -/
def Bitset.empty (b : Bitset) : Bool := b.data.all fun x => x == 0#64

/-- `std::popcount`. -/
def popcount (x : Page) : Nat := (List.range 64).countP fun i => x.getLsbD i

/-- `std::countr_zero`. -/
def countrZero (x : Page) : Nat := (List.range 64).findIdx fun i => x.getLsbD i

/-- `count` (dynamic_bitset.h:150-153). -/
def Bitset.count (b : Bitset) : Nat := (b.data.map popcount).sum

/-- The loop of `first_index` (dynamic_bitset.h:156-166). -/
def firstLoop (size : Nat) : Nat → List Page → Nat
  | _, [] => size
  | first, x :: l => if countrZero x ≠ 64 then first + countrZero x else firstLoop size (first + countrZero x) l

/-- `first_index` (dynamic_bitset.h:156-166). -/
def Bitset.firstIndex (b : Bitset) : Nat := firstLoop b.size 0 b.data

/-- `operator==` (dynamic_bitset.h:202-211), for operands of the same size. -/
def Bitset.eq (b c : Bitset) : Option Bool := if c.data.length < b.data.length then none else some ((b.data.zip c.data).all fun p => p.1 == p.2)

/-- `operator&=` and `operator&` (dynamic_bitset.h:219-233). -/
def Bitset.and (b c : Bitset) : Option Bitset := if c.data.length < b.data.length then none else some { b with data := List.zipWith (· &&& ·) b.data c.data }

/-- `operator|=` and `operator|` (dynamic_bitset.h:235-249). -/
def Bitset.or (b c : Bitset) : Option Bitset := if c.data.length < b.data.length then none else some { b with data := List.zipWith (· ||| ·) b.data c.data }

/-- The inverted pages: all but the last are inverted, the last one is masked. -/
def invertPages (mask : Page) : List Page → List Page
  | [] => []
  | [x] => [~~~x &&& mask]
  | x :: y :: l => ~~~x :: invertPages mask (y :: l)

/-- `invert_in_place` (dynamic_bitset.h:251-264). -/
def Bitset.invert (b : Bitset) : Bitset := { b with data := invertPages (finalMask b.size) b.data }

/-- `operator~` (dynamic_bitset.h:269-276); without pages, the loop runs over 2^64 - 1 pages. -/
def Bitset.complement (b : Bitset) : Option Bitset :=
  if pagesRequired b.size = 0 then none else some ⟨b.size, invertPages (finalMask b.size) b.data⟩

/-- A page of an unaligned copy (dynamic_bitset.h:314-315). -/
def unaligned (b : Bitset) (page offset : Nat) : Option Page := do
  let lo ← b.data[page]?
  let hi ← b.data[page + 1]?
  return (lo >>> offset) ||| (hi <<< (64 - offset))

/-- `output.data.back() = ...`. -/
def setBack (l : List Page) (f : Page → Page) : List Page := l.modify (l.length - 1) f

/-- `subset` (dynamic_bitset.h:281-330). -/
def Bitset.subset (b : Bitset) (first len : Nat) : Option Bitset := do
  let last := first + len
  if len = 0 then return Bitset.new len
  let out := pagesRequired len
  let page := first / 64
  let offset := first % 64
  if offset = 0 then
    let full ← (List.range (last / 64 - page)).mapM fun k => b.data[page + k]?
    let padded := full ++ List.replicate (out - full.length) 0#64
    if last % 64 ≠ 0 then
      let v ← b.data[last / 64]?
      return ⟨len, setBack padded fun _ => v &&& finalMask len⟩
    return ⟨len, padded⟩
  if page + out < b.data.length then
    let pages ← (List.range out).mapM fun k => unaligned b (page + k) offset
    return ⟨len, setBack pages fun v => v &&& finalMask len⟩
  let pages ← (List.range (out - 1)).mapM fun k => unaligned b (page + k) offset
  let v ← b.data[page + out - 1]?
  return ⟨len, pages ++ [(v >>> offset) &&& finalMask len]⟩

/-- `small_subset` (dynamic_bitset.h:336-364). -/
def Bitset.smallSubset (b : Bitset) (first len : Nat) : Option Page := do
  if len = 0 then return 0#64
  let page := first / 64
  let offset := first % 64
  let mask := finalMask len
  if offset = 0 then
    let v ← b.data[page]?
    return v &&& mask
  if offset + len ≤ 64 then
    let v ← b.data[page]?
    return (v >>> offset) &&& mask
  let v ← b.data[page]?
  let w ← b.data[page + 1]?
  return ((v >>> offset) ||| (w <<< (64 - offset))) &&& mask

/-- `operator++` of the iterator (dynamic_bitset.h:45-50). -/
def Bitset.next (b : Bitset) : Bitset := (b.unset b.firstIndex).getD b

/-- The end of the iteration: the cursor equals an empty bitset (dynamic_bitset.h:38, 52-54, 173-175). -/
def Bitset.atEnd (b : Bitset) : Prop := b.eq (Bitset.new b.size) = some true

end Moment.Bits
