import Verif.Model.SymbolMatrix
import Verif.Spec.SymbolTable
import Verif.Spec.Rules
import Verif.Spec.Poly
import Verif.Spec.MatrixBasis

/-! # Specification: matrices of symbols

Moments are numbers assigned to words: linear in the phase, conjugate for the conjugate word. A matrix of symbols stands for a matrix of words if the
value of each entry is the moment of the word, when each symbol has the moment of its word as its value. -/

namespace Moment.SymbolMatrix

open Moment.Symbols (Sym Table Env Words Op step)
open Moment.Poly (Mono)
open Moment.MatrixBasis (Mat)

/-- Moments of the words of a context. -/
structure Moments (c : Env) (W : HSeq → Prop) (L : HSeq → ℂ) : Prop where
  zero : L HSeq.zero = 0
  phase : ∀ w, W w → L w = Rewrite.phase w.sign * L { w with sign := .pos }
  hash : ∀ w v, W w → W v → w.hash = v.hash → w.sign = v.sign → L w = L v
  conj : ∀ w, W w → L (c.conj w) = (starRingEnd ℂ) (L w)

/-- Each symbol has the moment of its word as its value; the flags of symbols without word are respected too. -/
structure Agrees (t : Table) (L : HSeq → ℂ) (v : Nat → ℂ) : Prop where
  word : ∀ (id : Nat) (s : Sym) (q : HSeq), t.syms[id]? = some s → s.seq = some q → v id = L q
  flags : Poly.Respects (MatrixBasis.polyTable t) v

/-- The value of an entry of a matrix of monomials. -/
noncomputable def valueAt (v : Nat → ℂ) (A : Mat Mono) (i j : Nat) : ℂ := (A.get? i j).elim 0 (Poly.Mono.value v)

/-- The value of an entry of a matrix of polynomials. -/
noncomputable def polyAt (v : Nat → ℂ) (A : Mat (List Mono)) (i j : Nat) : ℂ := (A.get? i j).elim 0 (Poly.value v)

/-- No phase is lost when a word is identified by the hash of its conjugate: the conjugate of a word with positive sign has positive sign, unless it
is the word itself up to the sign. -/
def PlainConj (c : Env) (W : HSeq → Prop) : Prop := ∀ w, W w → w.sign = .pos → (c.conj w).hash ≠ w.hash → (c.conj w).sign = .pos

/-- The words of the symbols have positive sign. -/
def Plain (t : Table) : Prop := ∀ s ∈ t.syms, ∀ q, s.seq = some q → q.sign = .pos

/-- A word that equals its conjugate has positive sign. -/
def PlainWord (c : Env) (w : HSeq) : Prop := HSeq.compareSameNegation (c.conj w) w = 1 → w.sign = .pos

/-- The words of a matrix belong to the context, and those that equal their conjugates have positive sign. The last is only needed in contexts where
words need not be Hermitian. -/
structure Usable (h : Host) (W : HSeq → Prop) (A : Mat HSeq) : Prop where
  square : A.Square
  mem : ∀ w ∈ A.data, W w
  plain : h.canNonHerm = true → ∀ w ∈ A.data, PlainWord h.env w

/-- What is assumed of a context. -/
structure Setting (h : Host) (W : HSeq → Prop) : Prop where
  words : Words h.env W
  plain : PlainConj h.env W
  herm : h.canNonHerm = false → ∀ w, W w → (h.env.conj w).hash = w.hash

/-- Operations on the table that do not register a word with negative or imaginary phase as the word of a symbol. -/
def PlainOp (c : Env) : Op → Prop
  | .herm w => w.sign = .pos
  | .fill ws => ∀ w ∈ ws, (c.conj w).hash = w.hash → w.sign = .pos
  | _ => True

/-- The tables that come about by operations on the table and by the creation of matrices. -/
inductive Ready (h : Host) (W : HSeq → Prop) : Table → Prop
  | new : Ready h W Table.new
  | step {t t' : Table} {o : Op} {r : Option Nat} : Ready h W t → o.Legal h.env W → PlainOp h.env o → step h.env t o = some (t', r) → Ready h W t'
  | matrix {t t' : Table} {ops : Mat HSeq} {al : Option (Mat HSeq)} {f : ℂ} {M : Option MonoMat} : Ready h W t → Usable h W (al.getD ops) →
      create h t ops al f = some (t', M) → Ready h W t'

/-! ## Multiplication -/

/-- The operator a monomial stands for: the word of its symbol, or the conjugate word that is kept with the symbol (that of a Hermitian symbol is its
word). -/
def Denotes (t : Table) (m : Mono) (w : HSeq) : Prop := ∃ s, t.syms[m.id]? = some s ∧ ∃ q, s.seq = some q ∧
  if m.conj then (if s.herm then q = w else s.conj = some w) else q = w

/-- Product from the left or from the right. -/
def product (h : Host) (pre : Bool) (s w : HSeq) : HSeq := if pre then h.mul s w else h.mul w s

/-- The matrix of the products, simplified as moments, consists of words that can be used. -/
def UsableProduct (h : Host) (W : HSeq → Prop) (pre : Bool) (s : HSeq) (A : Mat HSeq) : Prop :=
  Usable h W ⟨A.dim, A.data.map fun w => if h.env.aliases then h.env.simp (product h pre s w) else product h pre s w⟩

/-- The moments of the products with a word are linear in the phase of the word. -/
def LinearIn (h : Host) (pre : Bool) (L : HSeq → ℂ) (w : HSeq) (A : Mat HSeq) : Prop := ∀ x ∈ A.data,
  L (product h pre w x) = Rewrite.phase w.sign * L (product h pre { w with sign := .pos } x)

/-- Simplification of moments does not change moments. -/
def KeepsMoments (h : Host) (L : HSeq → ℂ) : Prop := h.env.aliases = true → ∀ w, L (h.env.simp w) = L w

end Moment.SymbolMatrix
