import Verif.Model.SymbolMatrix
import Verif.Model.Pauli

/-! # Model of raw polynomials: weighted sums of words
(cpp/lib_moment/dictionary/raw_polynomial.{h,cpp}, symbolic/polynomial_factory.cpp, scenarios/context.cpp, scenarios/pauli/pauli_context.cpp)

Arithmetic is exact, so that `approximately_zero` is a test for zero. `SymbolMatrix.rawElem` and `SymbolMatrix.rawPoly` are the constructors. -/

namespace Moment.RawPoly

open Classical
open Moment.Symbols (Table Env)
open Moment.Poly (Mono)
open Moment.SymbolMatrix (rawElem rawPoly)

/-- `class RawPolynomial` (raw_polynomial.h:63-66). -/
abbrev Raw := List (HSeq × ℂ)

/-- The insertion into `std::map<hash_t, RawPolynomialElement>` with the addition to an element that is there (raw_polynomial.cpp:115-119). -/
noncomputable def insertAdd (e : HSeq × ℂ) : Raw → Raw
  | [] => [e]
  | x :: l => if e.1.hash < x.1.hash then e :: x :: l else if x.1.hash < e.1.hash then x :: insertAdd e l else (x.1, x.2 + e.2) :: l

/-- The loop over the elements (raw_polynomial.cpp:113-121). -/
noncomputable def collect (r : Raw) : Raw := r.foldl (fun acc e => if e.1.isZero then acc else insertAdd e acc) []

/-- `RawPolynomial::condense` (raw_polynomial.cpp:98-131). -/
noncomputable def condense (r : Raw) : Raw := match r with
  | [] => []
  | [e] => (collect (if e.1.isZero ∨ e.2 = 0 then [] else [e])).filter fun e => decide (e.2 ≠ 0)
  | r => (collect r).filter fun e => decide (e.2 ≠ 0)

/-- `RawPolynomial::add` (raw_polynomial.cpp:78-84). -/
noncomputable def add (p q : Raw) : Raw := condense (p ++ q)

/-- `RawPolynomial::subtract` (raw_polynomial.cpp:86-96). -/
noncomputable def subtract (p q : Raw) : Raw := condense (p ++ q.map fun e => (e.1, e.2 * -1))

/-- `RawPolynomial::distributed_product` (raw_polynomial.h:149-162). -/
noncomputable def product (op : HSeq → HSeq → HSeq) (weight : ℂ → ℂ → ℂ) (p q : Raw) : Raw :=
  condense (p.flatMap fun a => q.map fun b => rawElem (op a.1 b.1) (weight a.2 b.2))

/-- `Context::multiply(RawPolynomial, RawPolynomial)` (context.cpp:52-57). -/
noncomputable def multiply (mul : HSeq → HSeq → HSeq) (p q : Raw) : Raw := product mul (fun a b => a * b) p q

/-- `PauliContext::commutator(RawPolynomial, RawPolynomial)` (pauli_context.cpp:336-343). -/
noncomputable def pauliCommutator (n : Nat) (p q : Raw) : Raw := product (Pauli.commutator n) (fun a b => a * b * 2) p q

/-- `PauliContext::anticommutator(RawPolynomial, RawPolynomial)` (pauli_context.cpp:345-352). -/
noncomputable def pauliAnticommutator (n : Nat) (p q : Raw) : Raw := product (Pauli.anticommutator n) (fun a b => a * b * 2) p q

/-- `Commutator::one_to_one` in contexts other than Pauli contexts (cpp/mex_functions/functions/algebraic/commutator.cpp:65-72). -/
noncomputable def bracket (mul : HSeq → HSeq → HSeq) (anti : Bool) (p q : Raw) : Raw :=
  if anti then add (multiply mul p q) (multiply mul q p) else subtract (multiply mul p q) (multiply mul q p)

/-- `RawPolynomial::is_scalar` (raw_polynomial.cpp:57-67). -/
def isScalar (r : Raw) : Bool := r.all fun e => e.1.ops.isEmpty

/-- `make_storage_data_from_raw` (polynomial_factory.cpp:50-63); `none` stands for the exception `unregistered_operator_sequence`. -/
noncomputable def storage (c : Env) (t : Table) (r : Raw) : Option (List Mono) :=
  r.mapM fun e => (t.lookup c e.1).1.map fun k => ⟨k.1, k.2, e.2⟩

/-- `PolynomialFactory::construct` (polynomial_factory.cpp:86-88). -/
noncomputable def construct (c : Env) (t : Table) (o : Poly.Order) (r : Raw) : Option (List Mono) :=
  (storage c t r).map (Poly.make (MatrixBasis.polyTable t) o)

/-- `register_and_make_storage_data_from_raw` (polynomial_factory.cpp:65-83); `none` is undefined behaviour: in release builds a word that is not
found after it was registered leads to a null pointer. -/
noncomputable def registerStorage (c : Env) (t : Table) : Raw → Option (Table × List Mono)
  | [] => some (t, [])
  | e :: r => match (t.lookup c e.1).1 with
    | some k => (registerStorage c t r).map fun x => (x.1, ⟨k.1, k.2, e.2⟩ :: x.2)
    | none => (t.mergeSeq c e.1).bind fun m => (m.1.lookup c e.1).1.bind fun k =>
        (registerStorage c m.1 r).map fun x => (x.1, ⟨k.1, k.2, e.2⟩ :: x.2)

/-- `PolynomialFactory::register_and_construct` (polynomial_factory.cpp:90-94). -/
noncomputable def register (c : Env) (t : Table) (o : Poly.Order) (r : Raw) : Option (Table × List Mono) :=
  (registerStorage c t r).map fun x => (x.1, Poly.make (MatrixBasis.polyTable x.1) o x.2)

end Moment.RawPoly
