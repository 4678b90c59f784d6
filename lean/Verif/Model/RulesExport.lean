import Verif.Model.RulesInput
import Verif.Model.MonoExport

/-! # Model of the export of moment rulebooks, and of merging them
(cpp/mex_functions/export/export_moment_substitution_rules.cpp, functions/moment_rules/create_moment_rules.cpp,
cpp/lib_moment/matrix_system/rulebook_storage.cpp)

Texts are left out; the matrices of rules are in Model/Basis.lean. -/

namespace Moment.RulesExport
open Classical
open Moment.RuleInput (Out)
open Moment.PolyInput (Value Streams exportPolynomial)
open Moment.Poly (Mono MRule)
open Moment.Symbols (Table)
open Moment.MonoExport (FullRow sequences)

/-- `for (const auto& rule : rules)` runs through `MomentRulebook::rules`, a map from symbols to rules (moment_rulebook.h:65, 290): by number of the symbol, not in the
order of the factory. -/
def inOrder (b : List MRule) : List MRule := b.mergeSort fun r s => r.lhs ≤ s.lhs

/-- `MomentSubstitutionRuleExporter::as_symbol_cell` (export_moment_substitution_rules.cpp:26-35). -/
noncomputable def asSymbolCell (o : Poly.Order) (b : List MRule) : Value := .cell ((inOrder b).map fun r => exportPolynomial (r.asPolynomial o))

/-- `MomentSubstitutionRuleExporter::as_polynomials` (export_moment_substitution_rules.cpp:37-48). -/
noncomputable def asPolynomials (t : Table) (o : Poly.Order) (b : List MRule) : Out (List (List FullRow)) := Out.each (fun r => sequences t (r.asPolynomial o)) (inOrder b)

/-- `RulebookStorage::merge_in` (rulebook_storage.cpp:65-86), called in create_moment_rules.cpp:307-309, for a rulebook that is not in use: the outcome, and the rulebook that is
stored afterwards. -/
noncomputable def mergeIn (t : Poly.Table) (o : Poly.Order) (sort : List (List Mono) → List (List Mono)) (b c : List MRule) : Out Unit × List MRule :=
  match Poly.combineAndComplete t o b c sort with
  | none => (.undefined, b)
  | some (b', true) => (.ok (), b')
  | some (b', false) => (.refused, b')

end Moment.RulesExport
