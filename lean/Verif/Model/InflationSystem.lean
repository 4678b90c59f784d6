import Verif.Model.InflationContext
import Verif.Model.LocalitySystem
import Verif.Model.FactorTable

/-! # Model of the matrix system of inflation scenarios
(cpp/lib_moment/scenarios/inflation/{inflation_matrix_system.cpp, factor_table.cpp}, and what they inherit from cpp/lib_moment/matrix_system/)

The functions that make matrices are those of the other models, with one thread and in exact arithmetic. Terms of polynomials are ordered by the numbers of their
symbols, because the constructor does not choose another factory (inflation_matrix_system.cpp:26-31, matrix_system.cpp:41-48). Of the factor table only the numbers
of the factors are kept, not their sequences, the index tree and the counts of appearances (C104 has these). Rulebooks are parameters, and that
`on_new_symbols_registered` goes on to refresh them is left out (C106). Extended matrices are left out (C104). -/

namespace Moment.InflationSystem

open Moment.Symbols (Sym Table)
open Moment.Poly (Mono)
open Moment.OperatorMatrix (createMatrix momentFn localizingFn)
open Moment.SymbolMatrix (MonoMat)
open Moment.RawPoly (Raw)
open Moment.LocalitySystem (Matrix termWord)
open Moment.Inflation (host env generate sequence canHaveAliases factorGroups)

/-- The symbol table, and `canonical.symbols` of the entries of the factor table. -/
structure State where
  table : Table
  factors : List (List Nat)

/-- `InflationContext::factorize` (inflation_context.cpp:167-239), as sequences. -/
def factorSeqs (c : Inflation.Ctx) (w : HSeq) : List HSeq :=
  if w.ops.length ≤ 1 then [w] else (factorGroups c w.ops).map (sequence c)

/-- `InflationContext::canonical_moment` (inflation_context.h:255-261). -/
noncomputable def canonicalMoment (c : Inflation.Ctx) (w : HSeq) : HSeq := if (env c).aliases then (env c).simp w else w

/-- The loop over the factors of a symbol (factor_table.cpp:95-108): the table, and the numbers of the symbols of the factors. `none` is undefined behaviour.
Symbols have their position as number (C27). -/
noncomputable def resolve (c : Inflation.Ctx) : Table → List HSeq → Option (Table × List Nat)
  | t, [] => some (t, [])
  | t, f :: l => match (t.lookup (env c) (canonicalMoment c f)).1 with
    | some k => (resolve c t l).map fun r => (r.1, k.1 :: r.2)
    | none => (t.mergeSym (env c) (Sym.ofSeq (canonicalMoment c f))).bind fun m => (resolve c m.1 l).map fun r => (r.1, m.2.1 :: r.2)

/-- The body of the first loop of `check_for_new_factors` (factor_table.cpp:82-114). -/
noncomputable def State.analyse (c : Inflation.Ctx) (S : State) (i : Nat) : Option State :=
  (S.table.syms[i]?).bind fun e => e.seq.bind fun w => (resolve c S.table (factorSeqs c w)).map fun r =>
    ⟨r.1, S.factors ++ [Inflation.Extend.sortNat r.2]⟩

/-- `on_new_symbols_added` and `check_for_new_factors` (factor_table.cpp:64-144). -/
noncomputable def State.refresh (c : Inflation.Ctx) (S : State) : Option State :=
  if S.factors.length = S.table.syms.length then some S
  else ((List.range' S.factors.length (S.table.syms.length - S.factors.length)).foldlM (State.analyse c) S).map fun S' =>
    ⟨S'.table, S'.factors ++ (List.range' S.table.syms.length (S'.table.syms.length - S.table.syms.length)).map fun i => [i]⟩

/-- The state after the constructor (inflation_matrix_system.cpp:24-31, factor_table.cpp:58-62). -/
noncomputable def State.new (c : Inflation.Ctx) : Option State := State.refresh c ⟨Table.new, []⟩

/-- `on_new_symbols_registered` (inflation_matrix_system.cpp:44-49), called if there are more symbols than before (matrix_system.cpp:115-119, 131-135,
166-169). -/
noncomputable def State.grow (c : Inflation.Ctx) (S : State) (t : Table) : Option State :=
  if S.table.syms.length < t.syms.length then State.refresh c ⟨t, S.factors⟩ else some ⟨t, S.factors⟩

/-- `Dictionary::Level` (dictionary.cpp:29-67) with the words of `InflationOperatorSequenceGenerator`. -/
noncomputable def level (c : Inflation.Ctx) (n : Nat) : List HSeq := (generate c n).map (sequence c)

/-- `create_moment_matrix`, `create_localizing_matrix` (matrix_system.cpp:109-136). An exception leaves the factor table as it was. -/
noncomputable def make (c : Inflation.Ctx) (S : State) (f : HSeq → HSeq → HSeq) (n : Nat) : Option (State × Option Matrix) :=
  (createMatrix (host c) S.table f (level c n)).bind fun r => match r.2 with
    | none => some (⟨r.1, S.factors⟩, none)
    | some M => (S.grow c r.1).map fun S' => (S', some (.mono M))

/-- The order of `ByIDPolynomialFactory` (polynomial_factory.h). -/
def byId : Poly.Order := ⟨id⟩

/-- A weighted sum of matrices (composite_matrix.h:182-210, 256-266). The dimension is that of the first of them, or the number of words. -/
noncomputable def sum (c : Inflation.Ctx) (S : State) (n : Nat) (l : List Matrix) (factors : List ℂ) : Option (State × Option Matrix) :=
  (MatrixSum.composite S.table byId ⟨(l.head?).elim (level c n).length fun M => M.part.dim, (l.zip factors).map fun x => (x.1.part, x.2)⟩).map fun r =>
    (S, r.map .poly)

/-- The end of `create_from_raw` in contexts with aliases (composite_matrix.h:256-266): the polynomial in symbols is made for the index, which throws if one of
the words has no symbol (polynomial_factory.cpp:50-63). -/
noncomputable def sumRaw (c : Inflation.Ctx) (S : State) (n : Nat) (q : Raw) (l : List Matrix) : Option (State × Option Matrix) :=
  match RawPoly.construct (env c) S.table byId q with
  | none => some (S, none)
  | some _ => sum c S n l (q.map Prod.snd)

/-- The system of a context. `skip` says when `fill_to_word_length` returns early (symbol_table.cpp:311-313). In contexts without aliases,
`create_from_raw` registers words (composite_matrix.h:229-236) without a call of `on_new_symbols_registered`. -/
noncomputable def maker {B : Type} (c : Inflation.Ctx) (skip : State → Nat → Bool) (substitute : State → B → Matrix → Option (State × Option Matrix))
    (merge : B → B → B × Bool) : MatrixSystem.Maker State HSeq (List Mono) Raw B Matrix where
  moment S n := make c S (momentFn (host c)) n
  localizing S n w := make c S (localizingFn (host c) w) n
  hash w := w.hash
  less := PolyOrder.less (PolyOrder.withCoefficients PolyOrder.compareExact byId)
  size p := p.length
  word S p k := (p[k]?).bind (termWord S.table)
  compose S n p l := sum c S n l (p.map Mono.factor)
  aliases := canHaveAliases c
  register S q := (RawPoly.registerStorage (env c) S.table q).map fun x => (⟨x.1, S.factors⟩, Poly.make (MatrixBasis.polyTable x.1) byId x.2)
  rawWords q := q.map Prod.fst
  composeRaw S n q l := sumRaw c S n q l
  substitute := substitute
  merge := merge
  fill S n := if skip S n then some (S, some false) else (S.table.fill (env c) (level c n)).bind fun r => (S.grow c r.1).map fun S' => (S', some (r.2 != 0))

end Moment.InflationSystem
