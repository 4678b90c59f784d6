import Verif.Model.RuleInput
import Verif.Model.SymbolTable

/-! # Model of the function that returns rows of the symbol table
(cpp/mex_functions/functions/symbol_table.cpp, export/export_symbol_table.cpp)

Simplified: the columns with texts hold the word itself instead of its text; the columns for factors in inflation systems are left out. Numbers of operators are given
after they were read as 64 bit integers. -/

namespace Moment.SymbolQuery
open Moment.RuleInput (Out cast16)
open Moment.Symbols (Sym Table Env)

/-- The columns (export_symbol_table.cpp:74-98). The columns `conjugated` and `is_alias` only exist for searches, the latter only if there can be aliases. -/
structure Row where
  symbol : Int
  operators : Option HSeq
  conjugate : Option HSeq
  hermitian : Bool
  re : Nat
  im : Nat
  conjugated : Option Bool
  aliased : Option Bool
  deriving DecidableEq

/-- A basis offset, counted from one, and zero for the offset -1 (export_symbol_table.cpp:216, 234). -/
def fromOne : Option Nat → Nat
  | some k => k + 1
  | none => 0

/-- `do_row_write` (export_symbol_table.cpp:190-243), with `sequence_conj` (symbol.h:89-92). -/
def row (s : Sym) (conjugated aliased : Option Bool) : Row :=
  ⟨s.id, s.seq, if s.herm then s.seq else s.conj, s.herm, fromOne s.re, fromOne s.im, conjugated, aliased⟩

/-- `do_missing_row_write` (export_symbol_table.cpp:246-273). -/
def missing (c : Env) : Row := ⟨-1, none, none, false, 0, 0, some false, if c.aliases then some false else none⟩

/-- `export_table` (export_symbol_table.cpp:123-161). -/
def table (t : Table) (start : Nat) : List Row := (t.syms.drop start).map fun s => row s none none

/-- Numbers below one are refused; others are cut to 16 bits (symbol_table.cpp:53-60, 72-81). Results that are negative are outside of this model and counted as undefined. -/
def readOp (x : Int) : Out Nat := if x < 1 then .refused else if cast16 (x - 1) < 0 then .undefined else .ok (cast16 (x - 1)).toNat

/-- `SymbolTable::where` for a word; `seq` is the constructor of words (symbol_table.cpp:178-181, 204-206). A position that does not exist does not come about (C27). -/
def findRow (c : Env) (t : Table) (w : HSeq) : Option Row := match t.lookup c w with
  | (some k, a) => (t.syms[k.1]?).map fun s => row s (some k.2) (if c.aliases then some a else none)
  | (none, _) => none

/-- The modes (symbol_table.cpp:27-86). -/
inductive Query
  | all
  | start (id : Nat)
  | word (l : List Int)
  | words (shape : List Nat) (ls : List (List Int))

/-- `SymbolTable::operator()` (symbol_table.cpp:130-168) with `find_and_return_symbol` (170-190) and `find_and_return_symbol_array` (192-209): shape and rows. -/
def run (c : Env) (seq : List Nat → HSeq) (t : Table) : Query → Out (List Nat × List Row)
  | .all => .ok ([1, (table t 0).length], table t 0)
  | .start id => .ok ([1, (table t id).length], table t id)
  | .word l => (Out.each readOp l).bind fun w => match findRow c t (seq w) with
    | some r => .ok ([1, 1], [r])
    | none => .ok ([1, 0], [])
  | .words shape ls => (Out.each (Out.each readOp) ls).bind fun ws => .ok (shape, ws.map fun w => (findRow c t (seq w)).getD (missing c))

end Moment.SymbolQuery
