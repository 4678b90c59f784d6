import Verif.Model.MatrixBasis

/-! # Model of matrices of symbols made from matrices of operators, and of their multiplication by words, monomials and polynomials
(cpp/lib_moment/matrix/monomial_matrix_factory.cpp, monomial_matrix.cpp, monomial_matrix_arithmetic.cpp, symbolic_matrix.cpp,
polynomial_matrix.cpp, operator_matrix/operator_matrix.cpp, operator_matrix/is_hermitian.cpp, dictionary/raw_polynomial.cpp)

Only the single-threaded converter is modelled here. Arithmetic is exact. A matrix of operators always holds dimension² words; reading it out of
range gives the zero word in the model. `none` stands for undefined behaviour. -/

namespace Moment.SymbolMatrix

open Classical
open Moment.Symbols (Sym Table Env)
open Moment.Poly (Mono)
open Moment.MatrixBasis (Mat SymMat)

/-- The members of `Context` that are used: those of the symbol table, `multiply`, and `can_be_nonhermitian` (context.h:50). -/
structure Host where
  env : Env
  mul : HSeq → HSeq → HSeq
  canNonHerm : Bool

/-- `to_scalar` (sequence_sign_type.h:94-106). -/
noncomputable def scalar : Sign → ℂ
  | .pos => 1 | .imag => Complex.I | .neg => -1 | .negImag => -Complex.I

/-- `SquareMatrix<OperatorSequence>::operator()`. -/
def word (A : Mat HSeq) (i j : Nat) : HSeq := (A.get? i j).getD HSeq.zero

/-- `NonHInfo::find_first_index` (is_hermitian.cpp:11-29): column by column, from the diagonal downwards. -/
def firstNonHerm (c : Env) (A : Mat HSeq) : Option (Nat × Nat) := (List.range A.dim).findSome? fun col =>
  (List.range' col (A.dim - col)).findSome? fun row =>
    if (word A row col).beq (c.conj (word A col row)) then none else some (row, col)

/-- `OperatorMatrix::is_hermitian` (operator_matrix.cpp:48-52). -/
def isHerm (c : Env) (A : Mat HSeq) : Bool := (firstNonHerm c A).isNone

/-! ## Registering the words -/

/-- The loop over `LowerTriangle()` (monomial_matrix_factory.cpp:70-72). -/
noncomputable def visitLower (n : Nat) : List ((Nat × Nat) × Nat) :=
  Locality.collect (Triangle.next false true n) (Triangle.atEnd false true n) Triangle.value (Triangle.first false true n)

/-- The loops for contexts in which words need not be Hermitian (monomial_matrix_factory.cpp:88-121, 156-181). The list holds the words `elem` and
`conj_elem`. -/
def scan : List (HSeq × HSeq) → List UInt64 → List Sym
  | [], _ => []
  | (e, v) :: l, known =>
    let herm := HSeq.compareSameNegation e v == 1
    if known.contains e.hash || (!herm && known.contains v.hash) then scan l known
    else if herm then Sym.ofSeq e :: scan l (e.hash :: known)
    else (if e.hash < v.hash then Sym.ofPair e v else Sym.ofPair v e) :: scan l (v.hash :: e.hash :: known)

/-- The loops for contexts in which all words are Hermitian (monomial_matrix_factory.cpp:74-87, 142-154). The first of them goes on to the next word
only when it meets a hash it knows, so that it looks at each new word twice. -/
def scanPlain : List HSeq → List UInt64 → List Sym
  | [], _ => []
  | e :: l, known =>
    if known.contains e.hash then scanPlain l known
    else Sym.ofSeq { e with sign := .pos } :: scanPlain l (e.hash :: known)

/-- The words in the order in which they are looked at (monomial_matrix_factory.cpp:70-72, 143, 157). -/
noncomputable def visited (herm : Bool) (A : Mat HSeq) : List HSeq :=
  if herm then (visitLower A.dim).map fun v => (A.data[v.2]?).getD HSeq.zero else A.data

/-- `identify_unique_sequences_hermitian` and `identify_unique_sequences_generic` (monomial_matrix_factory.cpp:59-187). -/
noncomputable def identify (h : Host) (herm : Bool) (A : Mat HSeq) : List Sym :=
  Sym.zero :: Sym.one :: if h.canNonHerm then
      scan ((visited herm A).map fun x => if herm then (h.env.conj x, x) else (x, h.env.conj x)) [1, 0]
    else scanPlain (visited herm A) [1, 0]

/-! ## The matrix of symbols -/

/-- The monomial of a word (monomial_matrix_factory.cpp:203-219, 237, 259-275), its symbol, and whether it is conjugated; `none` if the word is not
found, for which the code throws `std::logic_error`. -/
noncomputable def entry (t : Table) (f : ℂ) (w : HSeq) : Option (Mono × Sym) :=
  (t.find w.hash).bind fun r => (t.syms[r.1]?).map fun s => (⟨s.id, r.2, f * scalar w.sign⟩, s)

/-- The monomial at the mirrored place (monomial_matrix_factory.cpp:221-233, 239-250). -/
noncomputable def mirror (f : ℂ) (w : HSeq) (e : Mono × Sym) : Mono :=
  ⟨e.2.id, if e.2.herm then false else !e.1.conj, f * (starRingEnd ℂ) (scalar w.sign)⟩

/-- The writes of `build_symbol_matrix_hermitian` (monomial_matrix_factory.cpp:190-253), in order. -/
noncomputable def hermWrites (t : Table) (f : ℂ) (A : Mat HSeq) : Option (List (Nat × Mono)) :=
  ((MatrixBasis.visitUpper A.dim).mapM fun (v : (Nat × Nat) × Nat) =>
    let w := (A.data[v.2]?).getD HSeq.zero
    (entry t f w).map fun e =>
      (v.2, e.1) :: if v.1.1 = v.1.2 then [] else [(v.1.2 + v.1.1 * A.dim, mirror f w e)]).map List.flatten

/-- `build_symbol_matrix_hermitian` and `build_symbol_matrix_generic` (monomial_matrix_factory.cpp:190-281). The versions without prefactor are those
for the prefactor one. -/
noncomputable def build (t : Table) (f : ℂ) (herm : Bool) (A : Mat HSeq) : Option (Mat Mono) :=
  if herm then (hermWrites t f A).map fun ws =>
    ⟨A.dim, ws.foldl (fun d w => d.set w.1 w.2) (List.replicate (A.dim * A.dim) ⟨0, false, 0⟩)⟩
  else (A.data.mapM fun w => (entry t f w).map Prod.fst).map fun d => ⟨A.dim, d⟩

/-- `class MonomialMatrix` (monomial_matrix.h, symbolic_matrix.h): matrix of operators before and after simplification of moments, matrix of symbols,
`global_prefactor`. -/
structure MonoMat where
  ops : Option (Mat HSeq)
  aliased : Option (Mat HSeq)
  sym : SymMat Mono
  prefactor : ℂ

/-- What a call leaves behind: the table, and the result unless it threw an exception. -/
abbrev Out (α : Type) := Option (Table × Option α)

/-- `do_os_to_sym_st` (monomial_matrix_factory.cpp:285-303, 47-56). -/
noncomputable def convert (h : Host) (t : Table) (f : ℂ) (A : Mat HSeq) : Out (Mat Mono) :=
  let herm := isHerm h.env A
  (t.mergeAll h.env (identify h herm A)).map fun r => (r.1, build r.1 f herm A)

/-- `OperatorMatrix::simplify_as_moments` (operator_matrix.cpp:131-144). -/
def simplified (h : Host) (A : Mat HSeq) : Option (Mat HSeq) :=
  if h.env.aliases then some ⟨A.dim, A.data.map h.env.simp⟩ else none

/-- The constructor of `MonomialMatrix` from matrices of operators (monomial_matrix.cpp:44-70). -/
noncomputable def fromOps (h : Host) (t : Table) (ops : Mat HSeq) (al : Option (Mat HSeq)) (S : Mat Mono) (f : ℂ) : Option MonoMat :=
  (MatrixBasis.makeMono t (isHerm h.env (al.getD ops)) S).map fun S => ⟨some ops, al, S, f⟩

/-- `MonomialMatrix::register_symbols_and_create_matrix`, single-threaded (monomial_matrix_factory.cpp:724-758, 782-798). -/
noncomputable def create (h : Host) (t : Table) (ops : Mat HSeq) (al : Option (Mat HSeq)) (f : ℂ) : Out MonoMat :=
  (convert h t f (al.getD ops)).bind fun r => match r.2 with
    | none => some (r.1, none)
    | some S => (fromOps h r.1 ops al S f).map fun M => (r.1, some M)

/-! ## Multiplication -/

/-- `MonomialMatrix::zero_matrix` (monomial_matrix.cpp:131-160) in a context with operators. -/
noncomputable def zeroMatrix (h : Host) (t : Table) (n : Nat) : Option MonoMat :=
  let Z : Mat HSeq := ⟨n, List.replicate (n * n) HSeq.zero⟩
  fromOps h t Z (if h.env.aliases then some Z else none) ⟨n, List.replicate (n * n) ⟨0, false, 0⟩⟩ 1

/-- `MonomialMatrix::clone` (monomial_matrix.cpp:162-186). The constructor it calls reads the context from the matrix of operators, and so reads a
null pointer if there is none. The flags are copied afterwards. -/
noncomputable def clone (h : Host) (t : Table) (A : MonoMat) : Option MonoMat :=
  A.ops.bind fun ops => (fromOps h t ops (if h.env.aliases then A.aliased else none) A.sym.mat 1).map fun B =>
    { B with sym := { A.sym with mat := B.sym.mat }, prefactor := A.prefactor }

/-- `OperatorMatrix::pre_multiply` and `post_multiply` (operator_matrix.cpp:75-96). -/
def timesWord (h : Host) (pre : Bool) (s : HSeq) (A : Mat HSeq) : Mat HSeq :=
  ⟨A.dim, A.data.map fun w => if pre then h.mul s w else h.mul w s⟩

/-- `do_raw_monomial_multiply` (monomial_matrix_arithmetic.cpp:76-112). -/
noncomputable def rawMono (h : Host) (t : Table) (pre : Bool) (s : HSeq) (f : ℂ) (A : MonoMat) : Out MonoMat :=
  if s.isZero then (zeroMatrix h t A.sym.mat.dim).map fun M => (t, some M)
  else match A.ops with
    | none => some (t, none)
    | some ops =>
      let m := timesWord h pre s ops
      create h t m (simplified h m) (A.prefactor * f)

/-- `Symbol::sequence_conj` (symbol.h:89-92). -/
def seqConj (s : Sym) : Option HSeq := if s.herm then s.seq else s.conj

/-- `do_monomial_multiply` (symbolic_matrix.cpp:135-168). -/
noncomputable def timesMono (h : Host) (t : Table) (pre : Bool) (m : Mono) (A : MonoMat) : Out MonoMat :=
  if m.id = 0 then (zeroMatrix h t A.sym.mat.dim).map fun M => (t, some M)
  else if m.id = 1 ∧ m.factor = 1 then (clone h t A).map fun M => (t, some M)
  else match A.ops with
    | none => some (t, none)
    | some _ => (t.syms[m.id]?).bind fun s => (if m.conj then s.seq else seqConj s).bind fun w => rawMono h t pre w m.factor A

/-- `RawPolynomialElement(OperatorSequence, std::complex<double>)` (raw_polynomial.h:31-54): the sign goes to the weight. -/
noncomputable def rawElem (w : HSeq) (f : ℂ) : HSeq × ℂ := ({ w with sign := .pos }, f * scalar w.sign)

/-- `RawPolynomial(const Polynomial&, const SymbolTable&)` (raw_polynomial.cpp:27-40); `none` inside means that it throws. -/
noncomputable def rawPoly (t : Table) : List Mono → Option (Option (List (HSeq × ℂ)))
  | [] => some (some [])
  | m :: l => match t.syms[m.id]? with
    | none => some none
    | some s => match s.seq with
      | none => some none
      | some q => (if m.conj then seqConj s else some q).bind fun w => (rawPoly t l).map fun r => r.map fun l => rawElem w m.factor :: l

/-- A matrix of monomials or of polynomials. -/
inductive AnyMat
  | mono (A : MonoMat)
  | poly (A : SymMat (List Mono))

/-- The loop of `do_raw_polynomial_multiply` that registers the symbols of each product (monomial_matrix_arithmetic.cpp:152-188). -/
noncomputable def createAll (h : Host) (pre : Bool) (g : ℂ) (ops : Mat HSeq) : Table → List (HSeq × ℂ) → Out (List MonoMat)
  | t, [] => some (t, some [])
  | t, p :: l =>
    let m := timesWord h pre p.1 ops
    (create h t m (simplified h m) (g * p.2)).bind fun r => match r.2 with
      | none => some (r.1, none)
      | some M => (createAll h pre g ops r.1 l).map fun q => (q.1, q.2.map fun l => M :: l)

/-- `synthesize_from_parts` (polynomial_matrix.cpp:43-90). -/
noncomputable def synthesize (t : Table) (o : Poly.Order) : List MonoMat → Option (Mat (List Mono))
  | [] => none
  | [A] => some ⟨A.sym.mat.dim, A.sym.mat.data.map Poly.ofMono⟩
  | [A, B] => some ⟨A.sym.mat.dim, List.zipWith (Poly.sumMM o) A.sym.mat.data B.sym.mat.data⟩
  | A :: l => some ⟨A.sym.mat.dim, (List.range (A.sym.mat.dim * A.sym.mat.dim)).map fun k =>
      Poly.make (MatrixBasis.polyTable t) o ((A :: l).map fun B => (B.sym.mat.data[k]?).getD ⟨0, false, 0⟩)⟩

/-- `do_raw_polynomial_multiply` (monomial_matrix_arithmetic.cpp:130-193). -/
noncomputable def rawTimes (h : Host) (t : Table) (o : Poly.Order) (pre : Bool) (p : List (HSeq × ℂ)) (A : MonoMat) : Out AnyMat :=
  match p with
  | [] => (zeroMatrix h t A.sym.mat.dim).map fun M => (t, some (.mono M))
  | [q] => (rawMono h t pre q.1 q.2 A).map fun r => (r.1, r.2.map .mono)
  | p => match A.ops with
    | none => some (t, none)
    | some ops => (createAll h pre A.prefactor ops t p).bind fun r => match r.2 with
      | none => some (r.1, none)
      | some l => (synthesize r.1 o l).bind fun P => (MatrixBasis.makePoly r.1 P).map fun B => (r.1, some (.poly B))

/-- `do_polynomial_multiply` (symbolic_matrix.cpp:192-220). -/
noncomputable def timesPoly (h : Host) (t : Table) (o : Poly.Order) (pre : Bool) (p : List Mono) (A : MonoMat) : Out AnyMat :=
  match p with
  | [] => (zeroMatrix h t A.sym.mat.dim).map fun M => (t, some (.mono M))
  | [m] => (timesMono h t pre m A).map fun r => (r.1, r.2.map .mono)
  | p => (rawPoly t p).bind fun q => match q with
    | none => some (t, none)
    | some q => rawTimes h t o pre q A

end Moment.SymbolMatrix
