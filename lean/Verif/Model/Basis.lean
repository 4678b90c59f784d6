import Verif.Model.SymbolTable
import Verif.Model.MomentRules

/-! # Model of the conversions between polynomials and basis vectors
(cpp/lib_moment/symbolic/polynomial_to_basis.{h,cpp}, polynomial_to_basis_mask.{h,cpp}, rules/moment_rulebook_to_basis.{h,cpp})

Arithmetic is exact, as in Model/Poly.lean. A sparse vector is the list of its stored entries, a sparse matrix the list of triplets it is made
from (`setFromTriplets` adds up triplets of the same place). `none` stands for the exceptions `unknown_symbol` and `unknown_basis_elem`, and
for reading a symbol table or setting a bit out of range. -/

namespace Moment.BasisVec

open Classical
open Moment.Symbols (Sym Table)
open Moment.Poly (Mono MRule Order)

/-! ## From polynomials to vectors -/

/-- The walk over a polynomial with `factor_and_cc` (polynomial_to_basis.cpp:22-39 and the `++iter` of 174-176): symbol, factor of the symbol and
factor of its conjugate. -/
noncomputable def pairs : List Mono → List (Nat × ℂ × ℂ)
  | [] => []
  | [m] => if m.conj then [(m.id, 0, m.factor)] else [(m.id, m.factor, 0)]
  | m :: n :: l => if m.conj then (m.id, 0, m.factor) :: pairs (n :: l)
                   else if n.id ≠ m.id then (m.id, m.factor, 0) :: pairs (n :: l)
                   else (m.id, m.factor, n.factor) :: pairs l

/-- The walk with the look-up of symbols (polynomial_to_basis.cpp:205-213). -/
noncomputable def terms (t : Table) (p : List Mono) : Option (List (Sym × ℂ × ℂ)) :=
  (pairs p).mapM fun q => (t.syms[q.1]?).map fun s => (s, q.2.1, q.2.2)

/-- `az_factor_ax` (polynomial_to_basis.cpp:141, 215, 315). -/
noncomputable def azAx (f g : ℂ) : ℝ := f.re + g.re
/-- `az_factor_bx` (polynomial_to_basis.cpp:142, 216, 316). -/
noncomputable def azBx (f g : ℂ) : ℝ := -f.im + g.im
/-- `bz_factor_ax` (polynomial_to_basis.cpp:143, 217, 317). -/
noncomputable def bzAx (f g : ℂ) : ℝ := f.im + g.im
/-- `bz_factor_bx` (polynomial_to_basis.cpp:144, 218, 318). -/
noncomputable def bzBx (f g : ℂ) : ℝ := f.re - g.re
/-- First part of `coefs_to_factors` (polynomial_to_basis.cpp:313-324). -/
noncomputable def zAx (f g : ℂ) : ℂ := ⟨azAx f g, bzAx f g⟩
/-- Second part of `coefs_to_factors` (polynomial_to_basis.cpp:313-324). -/
noncomputable def zBx (f g : ℂ) : ℂ := ⟨azBx f g, bzBx f g⟩

/-- `Eigen::SparseVector::insert(i) = x`: the entry is put behind all entries whose index is not greater. -/
def insertAt {K : Type} (i : Nat) (x : K) : List (Nat × K) → List (Nat × K)
  | [] => [(i, x)]
  | (j, y) :: l => if j > i then (i, x) :: (j, y) :: l else (j, y) :: insertAt i x l

/-- One vector of the loops at polynomial_to_basis.cpp:205-260 and 335-366: for each term whose symbol has the offset `key`, `val` is inserted unless
`test` is zero. -/
noncomputable def fill {K : Type} [Zero K] (key : Sym → Option Nat) (test val : ℂ → ℂ → K) : List (Sym × ℂ × ℂ) → List (Nat × K) → List (Nat × K)
  | [], v => v
  | (s, f, g) :: l, v => match key s with
    | some k => fill key test val l (if test f g = 0 then v else insertAt k (val f g) v)
    | none => fill key test val l v

/-- `PolynomialToBasisVec::Real` and `real_part` of `operator()` (polynomial_to_basis.cpp:191-287). -/
noncomputable def realPart (t : Table) (p : List Mono) : Option (List (Nat × ℝ) × List (Nat × ℝ)) :=
  (terms t p).map fun l => (fill Sym.re azAx azAx l [], fill Sym.im azBx azBx l [])

/-- `PolynomialToBasisVec::Imaginary` and `imaginary_part` of `operator()` (polynomial_to_basis.cpp:191-294; the first vector gets `az_factor_ax` at
line 234). -/
noncomputable def imagPart (t : Table) (p : List Mono) : Option (List (Nat × ℝ) × List (Nat × ℝ)) :=
  (terms t p).map fun l => (fill Sym.re bzAx azAx l [], fill Sym.im bzBx bzBx l [])

/-- `PolynomialToComplexBasisVec::operator()(Polynomial)` (polynomial_to_basis.cpp:326-373). -/
noncomputable def complexVec (t : Table) (p : List Mono) : Option (List (Nat × ℂ) × List (Nat × ℂ)) :=
  (terms t p).map fun l => (fill Sym.re zAx zAx l [], fill Sym.im zBx zBx l [])

/-- The coefficient of a sparse vector at an index. -/
noncomputable def coef {K : Type} [AddCommMonoid K] (v : List (Nat × K)) (k : Nat) : K := (v.map fun e => if e.1 = k then e.2 else 0).sum

/-- `ComplexBasisVector(RealAndImaginaryBasisVector)` (polynomial_to_basis.h:56-61), as functions from indices to coefficients. -/
noncomputable def ofParts (r i : List (Nat × ℝ) × List (Nat × ℝ)) : (Nat → ℂ) × (Nat → ℂ) :=
  (fun k => Complex.I * (coef r.1 k : ℝ) + Complex.I * (coef i.1 k : ℝ), fun k => 1 * (coef r.2 k : ℝ) + Complex.I * (coef i.2 k : ℝ))

/-- The triplets of one column, sorted by row (polynomial_to_basis.cpp:399-441). -/
noncomputable def column (key : Sym → Option Nat) (val : ℂ → ℂ → ℂ) (col : Nat) (l : List (Sym × ℂ × ℂ)) : List (Nat × Nat × ℂ) :=
  stableSort (fun e => e.1) (l.filterMap fun q => (key q.1).bind fun k => if val q.2.1 q.2.2 = 0 then none else some (k, col, val q.2.1 q.2.2))

/-- `PolynomialToComplexBasisVec::operator()(span)` (polynomial_to_basis.cpp:385-445): entries (row, column, value) of both matrices. -/
noncomputable def monolith (t : Table) : List (List Mono) → Nat → Option (List (Nat × Nat × ℂ) × List (Nat × Nat × ℂ))
  | [], _ => some ([], [])
  | p :: ps, col => do
    let l ← terms t p
    let r ← monolith t ps (col + 1)
    some (column Sym.re zAx col l ++ r.1, column Sym.im zBx col l ++ r.2)

/-! ## From vectors to polynomials -/

/-- `std::map::emplace` for maps with integer keys; an existing entry is kept. -/
def emplace {K : Type} (k : Nat) (x : K) : List (Nat × K) → List (Nat × K)
  | [] => [(k, x)]
  | (j, y) :: l => if k < j then (k, x) :: (j, y) :: l else if k = j then (j, y) :: l else (j, y) :: emplace k x l

/-- The first loop of `zip_basis` (polynomial_to_basis.cpp:52-63). -/
def zipRe (t : Table) : List (Nat × ℂ) → List (Nat × ℂ × ℂ) → Option (List (Nat × ℂ × ℂ))
  | [], z => some z
  | (k, x) :: l, z => (t.basis.real[k]?).bind fun i => (t.syms[i]?).bind fun s => zipRe t l (emplace s.id (x, 0) z)

/-- The second loop of `zip_basis` (polynomial_to_basis.cpp:64-82). -/
def zipIm (t : Table) : List (Nat × ℂ) → List (Nat × ℂ × ℂ) → Option (List (Nat × ℂ × ℂ))
  | [], z => some z
  | (k, y) :: l, z => (t.basis.imag[k]?).bind fun i => (t.syms[i]?).bind fun s =>
    zipIm t l (if (z.lookup s.id).isSome then z.map (fun e => if e.1 = s.id then (e.1, e.2.1, y) else e) else emplace s.id (0, y) z)

/-- The terms of one symbol (polynomial_to_basis.cpp:94-115). -/
noncomputable def emit (s : Sym) (id : Nat) (x y : ℂ) : List Mono :=
  if s.herm then [⟨id, false, x⟩]
  else if s.anti then [⟨id, false, y⟩]
  else (if (1 / 2) * (x + y) = 0 then [] else [⟨id, false, (1 / 2) * (x + y)⟩]) ++
       (if (1 / 2) * (x - y) = 0 then [] else [⟨id, true, (1 / 2) * (x - y)⟩])

/-- `do_basis_vec_to_polynomial` (polynomial_to_basis.cpp:85-117), which is `ComplexBasisVecToPolynomial::operator()` (380-383). With real entries it
is `BasisVecToPolynomial::operator()` (375-378). -/
noncomputable def toPoly (t : Table) (ft : Poly.Table) (o : Order) (re im : List (Nat × ℂ)) : Option (List Mono) := do
  let z ← zipRe t re []
  let z ← zipIm t im z
  let l ← z.mapM fun e => (t.syms[e.1]?).map fun s => emit s e.1 e.2.1 e.2.2
  some (Poly.make ft o l.flatten)

/-! ## Masks -/

/-- The two indices of a symbol (polynomial_to_basis_mask.cpp:32-47, 82-84). -/
def bothBits (s : Sym) : List Nat × List Nat := (s.re.toList, s.im.toList)

/-- The bits for a symbol with two parts that is followed by its conjugate (polynomial_to_basis_mask.cpp:53-74). -/
noncomputable def pairBits (s : Sym) (f g : ℂ) : List Nat × List Nat :=
  if Complex.normSq g = Complex.normSq f then
    if g = 0 then ([], [])
    else if (f / g).im ≠ 0 then bothBits s
    else if 0 ≤ (f / g).re then (s.re.toList, []) else ([], s.im.toList)
  else bothBits s

/-- `PolynomialToBasisMask::set_bits(Polynomial)` (polynomial_to_basis_mask.cpp:19-88): the bits that are set. -/
noncomputable def maskBits (t : Table) : List Mono → Option (List Nat × List Nat)
  | [] => some ([], [])
  | [m] => (t.syms[m.id]?).map bothBits
  | m :: n :: l => (t.syms[m.id]?).bind fun s =>
    if s.re = none ∨ s.im = none ∨ n.id ≠ m.id then (maskBits t (n :: l)).map fun r => (s.re.toList ++ r.1, s.im.toList ++ r.2)
    else (maskBits t l).map fun r => ((pairBits s m.factor n.factor).1 ++ r.1, (pairBits s m.factor n.factor).2 ++ r.2)

/-- `PolynomialToBasisMask::set_bits(Monomial)` (polynomial_to_basis_mask.cpp:91-108). -/
noncomputable def maskBitsMono (t : Table) (m : Mono) : Option (List Nat × List Nat) :=
  if m.id = 0 ∨ m.factor = 0 then some ([], [])
  else (t.syms[m.id]?).map fun s => (s.re.toList.filter (0 < ·), s.im.toList.filter (0 < ·))

/-! ## Moment rulebooks as matrices -/

/-- One conditional `emplace_back` of `do_polynomial_to_triplets` (polynomial_to_basis.cpp:147-170). -/
noncomputable def putTriplet (row col : Option Nat) (x : ℝ) : List (Nat × Nat × ℝ) := match row, col with
  | some i, some j => if x = 0 then [] else [(i, j, x)]
  | _, _ => []

/-- `do_polynomial_to_triplets<true>` (polynomial_to_basis.cpp:120-177), which is the second `add_triplet_row` (305-311). `n` is the number of real
basis elements. -/
noncomputable def tripletRow (t : Table) (p : List Mono) (zre zim : Option Nat) : Option (List (Nat × Nat × ℝ)) :=
  let n := t.basis.real.length
  (terms t p).map fun l => (l.map fun q =>
    putTriplet zre q.1.re (azAx q.2.1 q.2.2) ++ putTriplet (zim.map (· + n)) q.1.re (bzAx q.2.1 q.2.2) ++
      putTriplet zre (q.1.im.map (· + n)) (azBx q.2.1 q.2.2) ++ putTriplet (zim.map (· + n)) (q.1.im.map (· + n)) (bzBx q.2.1 q.2.2)).flatten

/-- The loop body of `MomentRulebookToBasis::operator()` (moment_rulebook_to_basis.cpp:45-102): triplets and bits set in the two masks. -/
noncomputable def ruleRow (t : Table) (r : MRule) : Option (List (Nat × Nat × ℝ) × List Nat × List Nat) :=
  let n := t.basis.real.length
  (t.syms[r.lhs]?).bind fun s =>
    if r.partial then
      if r.dir.im = 0 then s.re.bind fun k => (tripletRow t r.rhs (some k) none).map fun x => (x, [k], [])
      else if r.dir.re = 0 then s.im.bind fun k => (tripletRow t r.rhs none (some k)).map fun x => (x, [], [k])
      else s.re.bind fun k => s.im.bind fun j =>
        let q := Poly.scale ((starRingEnd ℂ) r.dir) r.rhs.dropLast.dropLast
        if |r.dir.im| ≤ |r.dir.re| then
          (tripletRow t (Poly.scale ((1 / r.dir.re : ℝ) : ℂ) q) (some k) none).map fun x => (x ++ [(k, n + j, -r.dir.im / r.dir.re)], [k], [])
        else
          (tripletRow t (Poly.scale ((1 / r.dir.im : ℝ) : ℂ) q) (some (n + j)) none).map fun x => (x ++ [(n + j, k, -r.dir.re / r.dir.im)], [], [j])
    else (tripletRow t r.rhs s.re s.im).map fun x => (x, s.re.toList, s.im.toList)

/-- The loop of `MomentRulebookToBasis::operator()` (moment_rulebook_to_basis.cpp:45-102). -/
noncomputable def ruleRows (t : Table) : List MRule → Option (List (Nat × Nat × ℝ) × List Nat × List Nat)
  | [] => some ([], [], [])
  | r :: b => do
    let x ← ruleRow t r
    let y ← ruleRows t b
    some (x.1 ++ y.1, x.2.1 ++ y.2.1, x.2.2 ++ y.2.2)

/-- `ExportMode` (moment_rulebook_to_basis.h). -/
inductive Mode | rewrite | homogeneous
  deriving DecidableEq

/-- `MomentRulebookToBasis::operator()` (moment_rulebook_to_basis.cpp:30-130). -/
noncomputable def rulebookMatrix (t : Table) (mode : Mode) (b : List MRule) : Option (List (Nat × Nat × ℝ)) :=
  let n := t.basis.real.length
  let m := t.basis.imag.length
  (ruleRows t b).map fun x => match mode with
    | .rewrite => x.1 ++ ((List.range n).filter fun i => !x.2.1.contains i).map (fun i => (i, i, 1)) ++
        ((List.range m).filter fun i => !x.2.2.contains i).map (fun i => (n + i, n + i, 1))
    | .homogeneous => x.1 ++ ((List.range n).filter fun i => x.2.1.contains i).map (fun i => (i, i, -1)) ++
        ((List.range m).filter fun i => x.2.2.contains i).map (fun i => (n + i, n + i, -1))

end Moment.BasisVec
