import Verif.Model.SymbolTable

/-! # Specification: histories of a symbol table -/

namespace Moment.Symbols

/-- What callers do to a symbol table. -/
inductive Op
  /-- `create(has_real, has_im)` -/
  | create (hasRe hasIm : Bool)
  /-- `create(count, has_real, has_im)` -/
  | createMany (n : Nat) (hasRe hasIm : Bool)
  /-- `merge_in(OperatorSequence)` -/
  | seq (w : HSeq)
  /-- `merge_in(Symbol{w, w.conjugate()})` -/
  | pair (w : HSeq)
  /-- `merge_in(Symbol{w})` -/
  | herm (w : HSeq)
  /-- `fill_to_word_length` where the generator gives `words` -/
  | fill (words : List HSeq)
  /-- `merge_in(can_be_real, can_be_imaginary)`, exceptions being caught by the caller -/
  | bits (size : Nat) (canRe canIm : Nat → Bool)

/-- The table left by an operation and the id it returned, if it returns one; `none` for undefined behaviour. -/
def step (c : Env) (t : Table) : Op → Option (Table × Option Nat)
  | .create r i => some ((t.create r i).1, some (t.create r i).2)
  | .createMany n r i => some (t.createMany r i n, some t.syms.length)
  | .seq w => (t.mergeSeq c w).map fun r => (r.1, some r.2.1)
  | .pair w => (t.mergeSym c (Sym.ofPair w (c.conj w))).map fun r => (r.1, some r.2.1)
  | .herm w => (t.mergeSym c (Sym.ofSeq w)).map fun r => (r.1, some r.2.1)
  | .fill ws => (t.fill c ws).map fun r => (r.1, none)
  | .bits n re im => (t.mergeBits n re im).map fun
      | .done t _ => (t, none)
      | .thrown t _ => (t, none)

/-- The table after a history. -/
def run (c : Env) (t : Table) : List Op → Option Table
  | [] => some t
  | o :: l => (step c t o).bind fun r => run c r.1 l

/-- The words of a context, as far as a symbol table can tell: a set of words closed under conjugation and change of sign on which
the hash of the conjugate is a function of the hash, and conjugating twice gives back the hash. -/
structure Words (c : Env) (W : HSeq → Prop) : Prop where
  zero : W HSeq.zero ∧ (c.conj HSeq.zero).hash = 0
  one : W (HSeq.identity .pos) ∧ (c.conj (HSeq.identity .pos)).hash = 1
  conj : ∀ w, W w → W (c.conj w)
  sign : ∀ w, W w → W { w with sign := .pos }
  twice : ∀ w, W w → (c.conj (c.conj w)).hash = w.hash
  hash : ∀ w v, W w → W v → w.hash = v.hash → (c.conj w).hash = (c.conj v).hash

/-- Operations of a caller that keeps to the rules: words belong to the context, and a symbol is only made from a single word if the
word has the hash of its conjugate. -/
def Op.Legal (c : Env) (W : HSeq → Prop) : Op → Prop
  | .create _ _ => True
  | .createMany _ _ _ => True
  | .seq w => W (if c.aliases then c.simp { w with sign := .pos } else w)
  | .pair w => W w
  | .herm w => W w ∧ (c.conj w).hash = w.hash
  | .fill ws => ∀ w ∈ ws, W w
  | .bits _ _ _ => True

/-- The word whose symbol an operation asks for. -/
def Op.Asks (c : Env) (w : HSeq) : Op → Prop
  | .seq v => w = if c.aliases then c.simp { v with sign := .pos } else v
  | .pair v => w = v
  | .herm v => w = v
  | _ => False

end Moment.Symbols

namespace Moment.Symbols

/-- A history in which no merge of bit sets threw an exception. -/
def runOk (c : Env) (t : Table) : List Op → Option Table
  | [] => some t
  | .bits n re im :: l => match t.mergeBits n re im with
    | some (.done t' _) => runOk c t' l
    | _ => none
  | o :: l => (step c t o).bind fun r => runOk c r.1 l

/-- Offsets and basis lists agree: offset `k` of a symbol is the position of its id in the list, the cross lists hold the other
offset of the same symbol, and every position of a list belongs to a symbol. -/
structure Offsets (t : Table) : Prop where
  ids : t.syms.map Sym.id = List.range t.syms.length
  re : ∀ s ∈ t.syms, ∀ k, s.re = some k ↔ t.basis.real[k]? = some s.id
  im : ∀ s ∈ t.syms, ∀ k, s.im = some k ↔ t.basis.imag[k]? = some s.id
  imOfRe : ∀ s ∈ t.syms, ∀ k, s.re = some k → t.basis.imOfRe[k]? = some s.im
  reOfIm : ∀ s ∈ t.syms, ∀ k, s.im = some k → t.basis.reOfIm[k]? = some s.re
  reAll : ∀ id ∈ t.basis.real, id < t.syms.length
  imAll : ∀ id ∈ t.basis.imag, id < t.syms.length
  len : t.basis.imOfRe.length = t.basis.real.length ∧ t.basis.reOfIm.length = t.basis.imag.length

end Moment.Symbols
