import Verif.Model.PolyInput
import Verif.Model.Basis

/-! # Model of the function that gives the basis matrices of a cell of polynomials
(cpp/mex_functions/functions/generate_basis.cpp, for input of type `SymbolCell`)

Flags have no influence on this type of input. The copy of the matrices to the output is left out. -/

namespace Moment.CellBasis
open Moment.RuleInput (Out)
open Moment.PolyInput (Value Streams readTerms toPolynomial)
open Moment.SymbolText (Doubles)
open Moment.Symbols (Table)
open Moment.Poly (Mono)

/-- The check of the number of outputs (mex_main.cpp:278-288), with the limits of `GenerateBasis` (generate_basis.cpp:95-96). -/
def counted (outputs : Nat) : Out Unit := if 3 < outputs ∨ outputs < 1 then .refused else .ok ()

/-- `GenerateBasisParams::read_symbol_cell` (generate_basis.cpp:68-89). -/
noncomputable def cells (s : Streams) (D : Doubles) (l : List Value) : Out (List (List Mono)) := Out.each (readTerms s D) l

/-- The loop over the polynomials that were read (generate_basis.cpp:163-168). -/
noncomputable def polynomials (t : Table) (o : Poly.Order) (l : List (List Mono)) : Out (List (List Mono)) := Out.each (toPolynomial t o) l

/-- The assignment to `output[0]` and `output[1]` (generate_basis.cpp:174): `IOArgumentRange::operator[]` (io_parameters.h:105-108) does not check its argument. -/
def assign {α : Type} (outputs : Nat) (r : α) : Out α := if outputs < 2 then .undefined else .ok r

/-- `GenerateBasis::generate_symbol_cell_basis` (generate_basis.cpp:159-175), after the checks of the number of outputs and of the input. -/
noncomputable def generate (s : Streams) (D : Doubles) (t : Table) (o : Poly.Order) (outputs : Nat) (l : List Value) :
    Out (List (Nat × Nat × ℂ) × List (Nat × Nat × ℂ)) :=
  (cells s D l).bind fun r => (counted outputs).bind fun _ => (polynomials t o r).bind fun ps => (Out.ofOption (BasisVec.monolith t ps 0)).bind (assign outputs)

end Moment.CellBasis
