import Verif.Model.Derived
import Verif.Model.PolyInput

/-! # Model of the function that transforms symbols and polynomials to a derived system
(cpp/mex_functions/functions/transform_symbols.cpp)

Simplified: numbers of symbols are given after they were read as integers; each cell is read and made a polynomial in one step, where the code first reads all cells;
only output of type `SymbolCell`, which is the default for both inputs (transform_symbols.cpp:147-153), is modelled; the look-up of the system, the count of outputs
(transform_symbols.cpp:212-237) and locks are left out. Input of type `Basis` is always refused by the code (transform_symbols.cpp:195-199). -/

namespace Moment.TransformSymbols
open Moment.RuleInput (Out)
open Moment.PolyInput (Value Streams importPolynomial exportPolynomial)
open Moment.SymbolText (Doubles)
open Moment.Symbols (Table)
open Moment.Poly (Mono)
open Moment.Derived (STM)

/-- The second input, with its shape: numbers of symbols, or polynomials (transform_symbols.cpp:91-130, 167-193). -/
inductive Input
  | ids (shape : List Nat) (l : List Int)
  | cells (shape : List Nat) (l : List Value)

/-- `Polynomial{Monomial{id, 1.0}}` (polynomial.cpp:36-40). -/
noncomputable def symbol (id : Nat) : List Mono := if id = 0 then [] else [⟨id, false, 1⟩]

/-- The loop of `transform_symbol_ids` (transform_symbols.cpp:260-276); `t` is the table of the base system. -/
noncomputable def symbols (t : Table) (l : List Int) : Out (List (List Mono)) :=
  Out.each (fun id => if id < 0 ∨ (t.syms.length : Int) ≤ id then .refused else .ok (symbol id.toNat)) l

/-- The loops of `read_symbol_cell` and `transform_symbol_cells` (transform_symbols.cpp:178-193, 286-295); `o` is the order of the base system. -/
noncomputable def polynomials (s : Streams) (D : Doubles) (t : Table) (o : Poly.Order) (l : List Value) : Out (List (List Mono)) := Out.each (importPolynomial s D t o) l

/-- `transform_polynomials` (transform_symbols.cpp:72-83); `u` is the table of the derived system. -/
noncomputable def transformed (M : STM) (u : Table) (l : List (List Mono)) : Out (List (List Mono)) := Out.each (fun p => Out.ofOption (M.applyPoly u p)) l

/-- `TransformSymbols::operator()` (transform_symbols.cpp:211-302) with `output_from_polynomials` (transform_symbols.cpp:33-70): the shape and the cells. -/
noncomputable def run (s : Streams) (D : Doubles) (t : Table) (o : Poly.Order) (M : STM) (u : Table) : Input → Out (List Nat × List Value)
  | .ids shape l => (symbols t l).bind fun ps => (transformed M u ps).bind fun qs => .ok (shape, qs.map exportPolynomial)
  | .cells shape l => (polynomials s D t o l).bind fun ps => (transformed M u ps).bind fun qs => .ok (shape, qs.map exportPolynomial)

end Moment.TransformSymbols
