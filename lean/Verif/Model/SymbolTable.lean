import Verif.Model.OpSeq

/-! # Model of `Symbol` and `SymbolTable`
(cpp/lib_moment/symbolic/symbol.{h,cpp}, symbolic/symbol_table.{h,cpp})

Simplifications: ids and basis offsets are natural numbers, with `none` for the offset -1; `std::map` is an association list whose
`emplace` keeps an existing entry; bit sets are functions from positions to truth values together with a size (their page
representation is modelled in `Model/Bitset.lean`); the translation table `OSGIndex` and the output operators are left out. -/

namespace Moment.Symbols

/-- `class Symbol` (symbolic/symbol.h:23-36). -/
structure Sym where
  id : Nat
  seq : Option HSeq
  conj : Option HSeq
  herm : Bool
  anti : Bool
  re : Option Nat
  im : Option Nat
  deriving DecidableEq, Repr

/-- The members of `Context` that the table calls: `OperatorSequence::conjugate`, `is_sequence_null` (scenarios/context.h:137-139),
`can_have_aliases`, `simplify_as_moment` and `can_be_simplified_as_moment` (scenarios/context.h:60-110). -/
structure Env where
  conj : HSeq → HSeq
  null : HSeq → Bool × Bool
  aliases : Bool
  simp : HSeq → HSeq
  canSimp : HSeq → Bool

/-- `Symbol(OperatorSequence)` (symbolic/symbol.h:40-41). The id of a symbol outside a table is -1; the value 0 used here is
overwritten before it is read. -/
def Sym.ofSeq (w : HSeq) : Sym := { id := 0, seq := some w, conj := none, herm := true, anti := false, re := none, im := none }

/-- `Symbol(OperatorSequence, OperatorSequence)` (symbolic/symbol.cpp:14-32). -/
def Sym.ofPair (w v : HSeq) : Sym :=
  let v' := { v with sign := v.sign.mul w.sign }
  let w' := { w with sign := .pos }
  let cmp := HSeq.compareSameNegation w' v'
  { id := 0, seq := some w', conj := some v', herm := cmp == 1, anti := cmp == -1, re := none, im := none }

/-- `Symbol::Zero` (symbolic/symbol.h:117-123). -/
def Sym.zero : Sym := { Sym.ofSeq HSeq.zero with id := 0, herm := true, anti := true }

/-- `Symbol::Identity` (symbolic/symbol.h:129-136). -/
def Sym.one : Sym := { Sym.ofSeq (HSeq.identity .pos) with id := 1, herm := true, anti := false, re := some 0 }

/-- `SymbolTable::BasisView` (symbolic/symbol_table.h: members real_symbols, imaginary_symbols, im_of_real, re_of_imaginary). -/
structure Basis where
  real : List Nat
  imag : List Nat
  imOfRe : List (Option Nat)
  reOfIm : List (Option Nat)
  deriving DecidableEq, Repr

/-- `BasisView::push_back` (symbolic/symbol_table.cpp:379-395). -/
def Basis.push (b : Basis) (id : Nat) (hasRe hasIm : Bool) : Basis × Option Nat × Option Nat :=
  let r := if hasRe then some b.real.length else none
  let i := if hasIm then some b.imag.length else none
  ({ real := if hasRe then b.real ++ [id] else b.real
     imag := if hasIm then b.imag ++ [id] else b.imag
     reOfIm := if hasIm then b.reOfIm ++ [r] else b.reOfIm
     imOfRe := if hasRe then b.imOfRe ++ [i] else b.imOfRe }, r, i)

/-- `class SymbolTable` (symbolic/symbol_table.h): `unique_sequences`, `hash_table` and `Basis`. -/
structure Table where
  syms : List Sym
  hashes : List (UInt64 × Int)
  basis : Basis
  deriving DecidableEq, Repr

/-- `std::map::emplace`: an existing entry is kept. -/
def emplace (m : List (UInt64 × Int)) (k : UInt64) (v : Int) : List (UInt64 × Int) :=
  if (m.lookup k).isSome then m else (k, v) :: m

/-- `SymbolTable::SymbolTable` (symbolic/symbol_table.cpp:22-35). -/
def Table.new : Table :=
  { syms := [Sym.zero, Sym.one]
    hashes := emplace (emplace [] 0 0) 1 1
    basis := (Basis.push ⟨[], [], [], []⟩ 1 true false).1 }

/-- `SymbolTable::create(bool, bool)` (symbolic/symbol_table.cpp:39-58). -/
def Table.create (t : Table) (hasRe hasIm : Bool) : Table × Nat :=
  let id := t.syms.length
  let p := t.basis.push id hasRe hasIm
  ({ t with
     syms := t.syms ++ [{ id, seq := none, conj := none, herm := !hasIm, anti := !hasRe, re := p.2.1, im := p.2.2 }]
     basis := p.1 }, id)

/-- The loop of `SymbolTable::create(size_t, bool, bool)` (symbolic/symbol_table.cpp:60-90); its result is the first new id. -/
def Table.createMany (t : Table) (hasRe hasIm : Bool) : Nat → Table
  | 0 => t
  | n + 1 => Table.createMany (t.create hasRe hasIm).1 hasRe hasIm n

/-- `Symbol::hash_conj` (symbolic/symbol.h:71-74), for a symbol whose word is `w`. -/
def Sym.hashConj (e : Sym) (w : HSeq) : UInt64 := match e.conj with
  | some v => v.hash
  | none => w.hash

/-- `SymbolTable::merge_in(Symbol&&, size_t*)` (symbolic/symbol_table.cpp:132-195) in a release build. The result holds the table,
the id and whether a symbol was added; `none` is undefined behaviour (a symbol without word, or a dangling table entry). -/
def Table.mergeSym (c : Env) (t : Table) (e : Sym) : Option (Table × Nat × Bool) :=
  match e.seq with
  | none => none
  | some w =>
    match t.hashes.lookup w.hash with
    | some k => (t.syms[k.natAbs]?).map fun s => (t, s.id, false)
    | none =>
      let id := t.syms.length
      let imZero := (c.null w).2 || e.herm
      let reZero := (c.null w).1 || e.anti
      let p := t.basis.push id (!reZero) (!imZero)
      let h := emplace t.hashes w.hash id
      let h := if e.herm then h else emplace h (e.hashConj w) (-(id : Int))
      some ({ syms := t.syms ++ [{ e with id, re := p.2.1, im := p.2.2 }], hashes := h, basis := p.1 }, id, true)

/-- `SymbolTable::merge_in(OperatorSequence&&)` (symbolic/symbol_table.cpp:116-130). -/
def Table.mergeSeq (c : Env) (t : Table) (w : HSeq) : Option (Table × Nat × Bool) :=
  let w := { w with sign := .pos }
  let a := if c.aliases then c.simp w else w
  t.mergeSym c (Sym.ofPair a (c.conj a))

/-- `SymbolTable::merge_in(std::vector<Symbol>&&, size_t*)` (symbolic/symbol_table.cpp:92-99) and the overload for iterators into a
map (101-112): table, ids in order, and the number of symbols added. -/
def Table.mergeAll (c : Env) (t : Table) : List Sym → Option (Table × List Nat × Nat)
  | [] => some (t, [], 0)
  | e :: l => do
    let r ← t.mergeSym c e
    let q ← r.1.mergeAll c l
    some (q.1, r.2.1 :: q.2.1, q.2.2 + if r.2.2 then 1 else 0)

/-- Outcome of merging bit sets. An exception leaves the table in the given state. -/
inductive Flagged | done (t : Table) (changes : Bool) | thrown (t : Table) (id : Nat)

/-- The loop of `SymbolTable::merge_in(bitsets)` (symbolic/symbol_table.cpp:212-242): the symbols as the loop leaves them, whether
anything changed, and the symbol for which it threw, after which the rest is untouched. -/
def flagLoop (canRe canIm : Nat → Bool) : List Sym → Bool → List Sym × Bool × Option Nat
  | [], ch => ([], ch, none)
  | s :: l, ch =>
    if s.id = 0 then
      let r := flagLoop canRe canIm l ch
      ({ s with herm := true, anti := true } :: r.1, r.2)
    else if canRe s.id then
      if canIm s.id then
        let r := flagLoop canRe canIm l ch
        (s :: r.1, r.2)
      else
        let s' := { s with herm := true }
        if s.anti then (s' :: l, ch || !s.herm, some s.id)
        else
          let r := flagLoop canRe canIm l (ch || !s.herm)
          (s' :: r.1, r.2)
    else if canIm s.id then
      let s' := { s with anti := true }
      if s.herm then (s' :: l, ch || !s.anti, some s.id)
      else
        let r := flagLoop canRe canIm l (ch || !s.anti)
        (s' :: r.1, r.2)
    else (s :: l, ch, some s.id)

/-- The loop of `BasisView::renumerate_bases` (symbolic/symbol_table.cpp:342-376). Its counters always equal the lengths of the lists
being built, so that each round does what `push_back` does. -/
def renumLoop : List Sym → Basis → List Sym × Basis
  | [], b => ([], b)
  | s :: l, b =>
    let p := b.push s.id (!s.anti) (!s.herm)
    let r := renumLoop l p.1
    ({ s with re := p.2.1, im := p.2.2 } :: r.1, r.2)

/-- `BasisView::renumerate_bases` (symbolic/symbol_table.cpp:342-376). -/
def Table.renumerate (t : Table) : Table :=
  let r := renumLoop t.syms ⟨[], [], [], []⟩
  { t with syms := r.1, basis := r.2 }

/-- `SymbolTable::merge_in(const DynamicBitset&, const DynamicBitset&)` (symbolic/symbol_table.cpp:199-248). Bit sets shorter than the
table are read out of range: `none`. -/
def Table.mergeBits (t : Table) (size : Nat) (canRe canIm : Nat → Bool) : Option Flagged :=
  let t := if t.syms.length < size then t.createMany true true (size - t.syms.length) else t
  if size < t.syms.length then none
  else
    let r := flagLoop canRe canIm t.syms false
    match r.2.2 with
    | some id => some (.thrown { t with syms := r.1 } id)
    | none => some (.done (Table.renumerate { t with syms := r.1 }) r.2.1)

/-- `SymbolTable::hash_to_index` (symbolic/symbol_table.cpp:293-304). -/
def Table.find (t : Table) (h : UInt64) : Option (Nat × Bool) :=
  (t.hashes.lookup h).map fun k => (k.natAbs, decide (k < 0))

/-- `SymbolTable::where(const OperatorSequence&)` (symbolic/symbol_table.cpp:251-279), for words whose stored hash is the hash the
context computes: position of the symbol, conjugated, aliased. -/
def Table.lookup (c : Env) (t : Table) (w : HSeq) : Option (Nat × Bool) × Bool :=
  match t.find w.hash with
  | some r => (some r, false)
  | none =>
    if c.aliases then
      let a := c.simp w
      if a.hash != w.hash then (t.find a.hash, true) else (none, false)
    else (none, false)

/-- `std::map<size_t, Symbol>::emplace_hint` as used by `fill_to_word_length`: keys ascending, an existing entry is kept. -/
def putAsc (k : UInt64) (e : Sym) : List (UInt64 × Sym) → List (UInt64 × Sym)
  | [] => [(k, e)]
  | p :: l => if k < p.1 then (k, e) :: p :: l else if k = p.1 then p :: l else p :: putAsc k e l

/-- The symbol `fill_to_word_length` makes of a word (symbolic/symbol_table.cpp:316-332): nothing for an aliased word, and nothing for
a word whose conjugate has the smaller hash. -/
def fillEntry (c : Env) (w : HSeq) : Option Sym :=
  if c.aliases && c.canSimp w then none
  else
    let v := c.conj w
    if w.hash = v.hash then some (Sym.ofSeq w)
    else if w.hash < v.hash then some (Sym.ofPair w v)
    else none

/-- The map `build_unique` (symbolic/symbol_table.cpp:315-332). -/
def fillMap (c : Env) : List HSeq → List (UInt64 × Sym) → List (UInt64 × Sym)
  | [], m => m
  | w :: l, m => match fillEntry c w with
    | some e => fillMap c l (putAsc w.hash e m)
    | none => fillMap c l m

/-- `SymbolTable::fill_to_word_length` (symbolic/symbol_table.cpp:306-339) given the words of the generator, when no longer table was
made before: table and number of new symbols. -/
def Table.fill (c : Env) (t : Table) (words : List HSeq) : Option (Table × Nat) :=
  (t.mergeAll c ((fillMap c words []).map Prod.snd)).map fun r => (r.1, r.2.2)

end Moment.Symbols
