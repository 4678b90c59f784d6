import Verif.Model.Translate

/-! # Model of the site hasher and of the simplifiers of Pauli words on chains and lattices that wrap
(cpp/lib_moment/scenarios/pauli/symmetry/site_hasher.h, moment_simplifier_wrapping.h, moment_simplifier.cpp)

A hash is a list of 64-bit numbers, the slides; each holds 32 qubits with two bits each. The hashers of one slide, of two slides and of more slides are
separate implementations. A shift by 64 bits or more is undefined behaviour; the argument `wide` tells what it gives: `none` stands for undefined
behaviour, a function for a machine that gives a number. Shifts whose counts are always less than 64 are modelled as such. -/

namespace Moment.SiteHash

/-- `storage_t` (site_hasher.h:27). -/
abbrev Page := BitVec 64

/-- `Datum` (site_hasher.h:107, 329, 451): the slides. -/
abbrev Datum := List Page

/-- What shifts by 64 bits or more give. -/
abbrev Wide := Option (Page → Page)

/-- `x << k`. -/
def shl (wide : Wide) (x : Page) (k : Nat) : Option Page := if k < 64 then some (x <<< k) else wide.map fun f => f x

/-- `x >> k`. -/
def shr (wide : Wide) (x : Page) (k : Nat) : Option Page := if k < 64 then some (x >>> k) else wide.map fun f => f x

/-- Subtraction of 64-bit numbers. -/
def sub64 (a b : Nat) : Nat := (a + 2 ^ 64 - b) % 2 ^ 64

/-- `qubits_per_slide` (site_hasher.h:30). -/
def perSlide : Nat := 32

/-! ## Construction -/

/-- `calculate_last_slide_qubit_count` (site_hasher.h:67-70), in signed arithmetic. -/
def lastCount (n : Nat) : Nat := if n = 0 then 0 else (n - 1) % 32 + 1

/-- `calculate_mask_from_bits` (site_hasher.h:77-85). -/
def maskBits (wide : Wide) (k : Nat) : Option Page :=
  if k = 64 ∨ k = 0 then some (BitVec.allOnes 64) else (shl wide 1 k).map fun x => x - 1

/-- `SiteHasherImplBase` (site_hasher.h:24-61): `column_height`, `row_width`, the number of slides, `final_slide_mask` and `column_mask`. -/
structure Hasher where
  height : Nat
  width : Nat
  slides : Nat
  finalMask : Page
  columnMask : Page

/-- `qubits` (site_hasher.h:32). -/
def Hasher.qubits (H : Hasher) : Nat := H.height * H.width

/-- The constructor (site_hasher.h:56-61). -/
def Hasher.make (wide : Wide) (slides height width : Nat) : Option Hasher :=
  (maskBits wide (lastCount (height * width) * 2)).bind fun f =>
    (maskBits wide (height * 2)).map fun c => ⟨height, width, slides, f, c⟩

/-! ## Hashes -/

/-- One step of the loop of `hash` (site_hasher.h:127-133, 353-357, 527-533). Operators of qubits past the last slide are ignored in the model. -/
def hashStep (D : Datum) (o : Nat) : Datum := D.modify (o / 3 / 32) fun x => x + (BitVec.ofNat 64 (o % 3 + 1) <<< (o / 3 % 32 * 2))

/-- `hash` (site_hasher.h:124-135, 349-359, 525-535). -/
def hash (slides : Nat) (w : List Nat) : Datum := w.foldl hashStep (List.replicate slides 0)

/-- `std::countr_zero`. -/
def ctz (x : Page) : Nat := ((List.range 64).find? fun i => x.getLsbD i).getD 64

/-- The loop over the qubits of a slide (site_hasher.h:157-173, 379-392, 555-571). The argument `fuel` bounds the number of rounds: each removes two
bits or more. -/
def unhashPage : Nat → Nat → Page → List Nat
  | 0, _, _ => []
  | fuel + 1, q, x =>
    if x = 0 then []
    else
      let d := ctz x / 2
      let y := x >>> (d * 2)
      ((q + d) * 3 + ((y &&& 3).toNat - 1)) :: unhashPage fuel (q + d + 1) (y >>> 2)

/-- `unhash` (site_hasher.h:149-175, 372-394, 547-573). -/
def unhash (D : Datum) : List Nat := (D.mapIdx fun i x => unhashPage 32 (i * 32) x).flatten

/-! ## Rotation along the chain -/

/-- A slide. -/
def slide (D : Datum) (i : Nat) : Page := D.getD i 0

/-- `SiteHasherSized<1>::cyclic_shift` (site_hasher.h:400-406). -/
def cyclic1 (wide : Wide) (H : Hasher) (D : Datum) (o : Nat) : Option Datum :=
  let k := 2 * (o % 32)
  if k = 0 then some D
  else (shr wide (slide D 0) (sub64 (2 * H.qubits) k)).map fun b => [(((slide D 0) <<< k) &&& H.finalMask) ||| b]

/-- `SiteHasherSized<2>::cyclic_shift` (site_hasher.h:578-623). -/
def cyclic2 (H : Hasher) (D : Datum) (o : Nat) : Datum :=
  let o := o % H.qubits
  if o = 0 then D
  else
    let f := if o < 32 then
        ((slide D 0) <<< (2 * o), ((slide D 0) >>> (64 - 2 * o)) ||| ((slide D 1) <<< (2 * o)))
      else (0, (slide D 0) <<< (2 * (o - 32)))
    let b := H.qubits - o
    let g := if b < 32 then
        (f.1 ||| (((slide D 1) <<< (64 - b * 2)) ||| ((slide D 0) >>> (b * 2))), f.2 ||| ((slide D 1) >>> (b * 2)))
      else (f.1 ||| ((slide D 1) >>> (2 * (b - 32))), f.2)
    [g.1, g.2 &&& H.finalMask]

/-- The first loop of `SiteHasherSized<num_slides>::cyclic_shift` (site_hasher.h:203-215): what it writes at an index. -/
def front (D : Datum) (o i : Nat) : Page :=
  let s := o / 32
  let k := o % 32 * 2
  if i < s then 0
  else if k = 0 then slide D (i - s)
  else if i = s then (slide D 0) <<< k
  else ((slide D (i - s)) <<< k) + ((slide D (i - s - 1)) >>> (64 - k))

/-- The second loop (site_hasher.h:217-228): what it adds at an index. -/
def back (slides : Nat) (D : Datum) (b i : Nat) : Page :=
  let s := b / 32
  let k := b % 32 * 2
  if slides ≤ i + s then 0
  else if k = 0 then slide D (i + s)
  else if i + s + 1 < slides then ((slide D (i + s)) >>> k) ||| ((slide D (i + s + 1)) <<< (64 - k))
  else (slide D (slides - 1)) >>> k

/-- `SiteHasherSized<num_slides>::cyclic_shift` (site_hasher.h:181-235). -/
def cyclicN (H : Hasher) (D : Datum) (o : Nat) : Datum :=
  let o := o % H.qubits
  if o = 0 then D
  else (List.range H.slides).map fun i =>
    let x := front D o i ||| back H.slides D (H.qubits - o) i
    if i = H.slides - 1 then x &&& H.finalMask else x

/-- `cyclic_shift`. -/
def cyclic (wide : Wide) (H : Hasher) (D : Datum) (o : Nat) : Option Datum :=
  if H.slides = 1 then cyclic1 wide H D o else if H.slides = 2 then some (cyclic2 H D o) else some (cyclicN H D o)

/-- `col_shift` (site_hasher.h:715-717). -/
def colShift (wide : Wide) (H : Hasher) (D : Datum) (o : Nat) : Option Datum := cyclic wide H D (o % H.width * H.height)

/-! ## Rotation within the columns -/

/-- The rotation of the word of a column (site_hasher.h:268, 277, 424, 645, 652, 661). -/
def rotate (wide : Wide) (H : Hasher) (x : Page) (k : Nat) : Option Page :=
  (shl wide x k).bind fun a => (shr wide x (sub64 (H.height * 2) k)).map fun b => (a ||| b) &&& H.columnMask

/-- `SiteHasherSized<1>::row_cyclic_shift` (site_hasher.h:411-428). -/
def rows1 (wide : Wide) (H : Hasher) (D : Datum) (o : Nat) : Option Datum :=
  let o := o % H.height
  if o = 0 then some D
  else ((List.range H.width).foldlM (fun out c =>
      (shr wide (slide D 0) (c * H.height * 2)).bind fun x => (rotate wide H (x &&& H.columnMask) (2 * o)).bind fun y =>
        (shl wide y (c * H.height * 2)).map fun z => out ||| z) (0 : Page)).map fun x => [x]

/-- `BoundaryCalculator` (site_hasher.h:457-499): `lhs_mask`, `lhs_anti_offset`, `rhs_mask`, `rhs_offset`, `wrap_column`. -/
structure Boundary where
  lhsMask : Page
  lhsAnti : Nat
  rhsMask : Page
  rhsOffset : Nat
  wrap : Nat

/-- Its constructor (site_hasher.h:475-500). -/
def boundary (wide : Wide) (h : Nat) : Option Boundary :=
  if h = 0 then some ⟨0, 0, 0, 0, 1⟩
  else if 0 < 32 % h then (maskBits wide (2 * (32 - 32 % h))).bind fun m => (maskBits wide ((h - 32 % h) * 2)).map fun r =>
    ⟨~~~m, 2 * (32 - 32 % h), r, 2 * (32 % h), 32 / h⟩
  else (maskBits wide (h * 2)).map fun r => ⟨0, 64, r, 0, 32 / h⟩

/-- `evaluate` (site_hasher.h:502-504). -/
def Boundary.evaluate (wide : Wide) (B : Boundary) (D : Datum) : Option Page :=
  (shr wide (slide D 0 &&& B.lhsMask) B.lhsAnti).bind fun a => (shl wide (slide D 1 &&& B.rhsMask) B.rhsOffset).map fun b => a ||| b

/-- `splice_in` (site_hasher.h:506-509), on both slides. -/
def Boundary.splice (wide : Wide) (B : Boundary) (out : Page × Page) (x : Page) : Option (Page × Page) :=
  (shl wide x B.lhsAnti).bind fun a => (shr wide x B.rhsOffset).map fun b => (out.1 ||| (a &&& B.lhsMask), out.2 ||| (b &&& B.rhsMask))

/-- One round of the loops over the columns of a slide (site_hasher.h:643-647, 657-663). -/
def column (wide : Wide) (H : Hasher) (x : Page) (k o : Nat) (out : Page) : Option Page :=
  (shr wide x k).bind fun y => (rotate wide H (y &&& H.columnMask) (2 * o)).bind fun y => (shl wide y k).map fun z => out ||| z

/-- `SiteHasherSized<2>::row_cyclic_shift` (site_hasher.h:628-667). -/
def rows2 (wide : Wide) (H : Hasher) (D : Datum) (o : Nat) : Option Datum :=
  let o := o % H.height
  if o = 0 then some D
  else (boundary wide H.height).bind fun B =>
    (if slide D 0 = 0 then some 0
      else (List.range B.wrap).foldlM (fun out c => column wide H (slide D 0) (c * H.height * 2) o out) (0 : Page)).bind fun l =>
    (B.evaluate wide D).bind fun m => (rotate wide H m (2 * o)).bind fun m => (B.splice wide (l, 0) m).bind fun out =>
    (if slide D 1 = 0 then some out.2
      else (List.range' (B.wrap + 1) (H.width - (B.wrap + 1))).foldlM
        (fun out c => column wide H (slide D 1) (sub64 (c * H.height * 2) 64) o out) out.2).map fun r => [out.1, r]

/-- One round of the loop of `SiteHasherSized<num_slides>::row_cyclic_shift` (site_hasher.h:255-281). -/
def columnN (wide : Wide) (H : Hasher) (D : Datum) (o : Nat) (out : Datum) (c : Nat) : Option Datum :=
  let i := c * H.height / 32
  let a := 2 * (c * H.height % 32)
  let b := 2 * ((c + 1) * H.height % 32)
  if b ≤ a ∧ b ≠ 0 then
    (D[i]?).bind fun x => (D[i + 1]?).bind fun y => (maskBits wide b).bind fun m => (shl wide (y &&& m) ((H.height - b / 2) * 2)).bind fun z =>
      (rotate wide H (((x >>> a) &&& H.columnMask) ||| z) (2 * o)).bind fun r => (shr wide r ((H.height - b / 2) * 2)).map fun t =>
        (out.modify i fun x => x ||| (r <<< a)).set (i + 1) t
  else (D[i]?).bind fun x => (rotate wide H ((x >>> a) &&& H.columnMask) (2 * o)).map fun (r : Page) => out.modify i fun x => x ||| (r <<< a)

/-- `SiteHasherSized<num_slides>::row_cyclic_shift` (site_hasher.h:240-282). -/
def rowsN (wide : Wide) (H : Hasher) (D : Datum) (o : Nat) : Option Datum :=
  let o := o % H.width
  if o = 0 then some D
  else (List.range H.width).foldlM (columnN wide H D o) (List.replicate H.slides 0)

/-- `row_cyclic_shift`. -/
def rows (wide : Wide) (H : Hasher) (D : Datum) (o : Nat) : Option Datum :=
  if H.slides = 1 then rows1 wide H D o else if H.slides = 2 then rows2 wide H D o else rowsN wide H D o

/-- `lattice_shift` (site_hasher.h:733-736). -/
def latticeShift (wide : Wide) (H : Hasher) (D : Datum) (row col : Nat) : Option Datum := (colShift wide H D col).bind fun E => rows wide H E row

/-! ## Classes -/

/-- The loops of `less` (site_hasher.h:309-318, 438-440, 688-695), from the last slide to the first. -/
def lessRev : List Page → List Page → Bool
  | x :: l, y :: m => if x < y then true else if y < x then false else lessRev l m
  | _, _ => false

/-- `less`. -/
def less (D E : Datum) : Bool := lessRev D.reverse E.reverse

/-- The shift that brings a qubit to the origin (site_hasher.h:782-788, 796-797). -/
def toOrigin (wide : Wide) (H : Hasher) (D : Datum) (q : Nat) : Option Datum :=
  if H.width = 1 then cyclic wide H D (H.qubits - q)
  else latticeShift wide H D (H.height - q % H.height) (H.width - q / H.height)

/-- The loop of `do_canonical_hash` (site_hasher.h:778-803). -/
def candidates (wide : Wide) (H : Hasher) (D : Datum) : List Nat → Option Datum → Option (Option Datum)
  | [], best => some best
  | o :: w, best => (toOrigin wide H D (o / 3)).bind fun c =>
    candidates wide H D w (match best with
      | none => some c
      | some b => if less c b then some c else some b)

/-- `canonical_hash` (site_hasher.h:745-749, 766-806): the least hash and the hash of the word. -/
def canonicalHash (wide : Wide) (H : Hasher) (w : List Nat) : Option (Datum × Datum) :=
  if w.isEmpty then some (List.replicate H.slides 0, List.replicate H.slides 0)
  else (candidates wide H (hash H.slides w) w none).bind fun b => b.map fun b => (b, hash H.slides w)

/-- `first_chain_alias` (site_hasher.h:755-762). -/
def firstAlias (wide : Wide) (H : Hasher) (D : Datum) : Option Nat := go (H.qubits - 1) 1
where
  go : Nat → Nat → Option Nat
    | 0, _ => some H.qubits
    | k + 1, o => (cyclic wide H D o).bind fun E => if D = E then some o else go k (o + 1)

/-! ## Simplification -/

/-- `MomentSimplifier::make` (moment_simplifier.cpp:35-66) with wrapping: the hasher of the right number of slides; `some none` stands for the exception
beyond 256 qubits. Chains have one column (moment_simplifier_wrapping.h:27-32). -/
def wrapping (wide : Wide) (height width : Nat) : Option (Option Hasher) :=
  if height * width > 256 then some none
  else (Hasher.make wide (if height * width / 32 + (if height * width % 32 ≠ 0 then 1 else 0) = 0 then 1
    else height * width / 32 + (if height * width % 32 ≠ 0 then 1 else 0)) height width).map some

/-- `MomentSimplifierWrapping::canonical_sequence` (moment_simplifier_wrapping.h:37-52). -/
def canonical (wide : Wide) (H : Hasher) (w : List Nat) : Option (List Nat) :=
  (canonicalHash wide H w).map fun r => if r.1 = r.2 then w else unhash r.1

/-- `MomentSimplifierWrapping::is_canonical` (moment_simplifier_wrapping.h:57-63). -/
def isCanonical (wide : Wide) (H : Hasher) (w : List Nat) : Option Bool := (canonicalHash wide H w).map fun r => r.1 == r.2

/-- `offset % qubit_size` for a signed offset and an unsigned size (moment_simplifier_wrapping.h:71, 87, 92): the offset is converted to a 64-bit number
first. The result is never negative, so that the next lines have no effect. -/
def wrapOffset (n : Nat) (d : Int) : Nat := (d % 2 ^ 64).toNat % n

/-- `MomentSimplifierWrapping::chain_offset` (moment_simplifier_wrapping.h:68-78). -/
def chainOffset (wide : Wide) (H : Hasher) (w : List Nat) (d : Int) : Option (List Nat) :=
  (cyclic wide H (hash H.slides w) (wrapOffset H.qubits d)).map unhash

/-- `MomentSimplifierWrapping::lattice_offset` (moment_simplifier_wrapping.h:83-100). -/
def latticeOffset (wide : Wide) (H : Hasher) (w : List Nat) (row col : Int) : Option (List Nat) :=
  (latticeShift wide H (hash H.slides w) (wrapOffset H.qubits row) (wrapOffset H.qubits col)).map unhash

end Moment.SiteHash
