import Verif.Model.DictionaryMap
import Verif.Spec.SymbolMatrix

/-! # What positions in the list of words stand for -/

namespace Moment.DictionaryMap

open Moment.Symbols Moment.SymbolMatrix

/-- What is assumed of the lists of words up to each length: longer lists continue shorter ones, the first word is the identity, words belong to the
context, have positive sign, are not zero and are listed once. -/
structure Lists (W : HSeq → Prop) (words : Nat → List HSeq) : Prop where
  grow : ∀ m n, m ≤ n → words m <+: words n
  first : words 0 = [HSeq.identity .pos]
  mem : ∀ n, ∀ w ∈ words n, W w ∧ w.sign = .pos ∧ w.hash ≠ 0
  nodup : ∀ n, ((words n).map HSeq.hash).Nodup

/-- The states of table and index that come about by operations on the table, creation of matrices, and updates of the index. -/
inductive Reached (h : Host) (W : HSeq → Prop) (words : Nat → List HSeq) : Table → Index → Prop
  | new : Reached h W words Table.new Index.new
  | step {t t' : Table} {I : Index} {o : Op} {r : Option Nat} : Reached h W words t I → o.Legal h.env W → PlainOp h.env o →
      step h.env t o = some (t', r) → Reached h W words t' I
  | matrix {t t' : Table} {I : Index} {ops : MatrixBasis.Mat HSeq} {al : Option (MatrixBasis.Mat HSeq)} {f : ℂ} {M : Option MonoMat} :
      Reached h W words t I → Usable h W (al.getD ops) → create h t ops al f = some (t', M) → Reached h W words t' I
  | update {t : Table} {I I' : Index} {n : Nat} {b : Bool} : Reached h W words t I → I.update h.env t words n = some (I', b) → Reached h W words t I'

/-- Moments are invariant under simplification as moments, which gives words of the context with positive sign. -/
structure Simplified (h : Host) (W : HSeq → Prop) (L : HSeq → ℂ) : Prop where
  mem : h.env.aliases = true → ∀ w, W w → w.sign = .pos → W (h.env.simp w) ∧ (h.env.simp w).sign = .pos
  same : h.env.aliases = true → ∀ w, W w → w.sign = .pos → L (h.env.simp w) = L w
  real : h.env.aliases = true → ∀ w, W w → w.sign = .pos → (starRingEnd ℂ) (L w) = L w

/-- The value of a symbol or its conjugate. -/
noncomputable def at' (v : Nat → ℂ) (r : Nat × Bool) : ℂ := if r.2 then (starRingEnd ℂ) (v r.1) else v r.1

end Moment.DictionaryMap
