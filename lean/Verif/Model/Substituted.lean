import Verif.Model.MatrixBasis
import Verif.Model.MomentRules

/-! # Model of substituted matrices
(cpp/lib_moment/matrix/substituted_matrix.{h,cpp}, symbolic/rules/moment_rulebook.cpp: create_substituted_matrix, complete)

Arithmetic is exact. The loop of one thread is modelled; `Model/Workers.lean` models several. The result `none` is undefined behaviour, `some none` an
exception. -/

namespace Moment.Substituted

open Classical
open Moment.Symbols (Table)
open Moment.Poly (Mono MRule Flags)
open Moment.MatrixBasis (Mat SymMat makeMono makePoly polyTable)

/-- A `MonomialMatrix` or a `PolynomialMatrix`. -/
inductive Matrix
  | mono (A : SymMat Mono)
  | poly (A : SymMat (List Mono))

/-- A `MomentRulebook`: its rules and flags (moment_rulebook.h:95-113). -/
structure Rules where
  book : List MRule
  flags : Flags

/-- `MomentRulebook::create_substituted_matrix` (moment_rulebook.cpp:384-403) and the constructors it calls (substituted_matrix.cpp:54-120). -/
noncomputable def substitute (t : Table) (o : Poly.Order) (R : Rules) : Matrix → Option (Option Matrix)
  | .poly A => (makePoly t ⟨A.mat.dim, A.mat.data.map (Poly.reduceBook (polyTable t) o R.book)⟩).map fun B => some (.poly B)
  | .mono A => if R.flags.monomial then
      match A.mat.data.mapM (Poly.reduceBookMonomial (polyTable t) R.book) with
      | none => some none
      | some d => (makeMono t (A.hermitian && R.flags.hermitian) ⟨A.mat.dim, d⟩).map fun B => some (.mono B)
    else (makePoly t ⟨A.mat.dim, A.mat.data.map (Poly.reduceBookOne (polyTable t) o R.book)⟩).map fun B => some (.poly B)

/-- The loop of `complete()` (moment_rulebook.cpp:138-222), as `Poly.completeLoop`, but with the rules that are there when it ends or throws; the flag
tells whether it ended. -/
noncomputable def completeBook (t : Poly.Table) (o : Poly.Order) (b : List MRule) (raw : List (List Mono)) : Option (List MRule × Bool) :=
  match raw with
  | [] => some (b, true)
  | p :: rest =>
    match Poly.makeRule t o (Poly.reduceBook t o b p) with
    | none => some (b, false)
    | some (r, split) =>
      if r.lhs = 0 then completeBook t o b rest
      else if b.all fun s => decide (o.rank s.lhs < o.rank r.lhs) then completeBook t o (b ++ [r]) (rest ++ split.toList)
      else match Poly.findRule b r.lhs with
        | some old =>
          completeBook t o (Poly.updateLater t o (old.merge o r) (b.map fun s => if s.lhs = r.lhs then old.merge o r else s)) (rest ++ split.toList)
        | none => completeBook t o (Poly.updateLater t o r (Poly.insertRule o r b)) (rest ++ split.toList)
partial_fixpoint

/-- The rulebook after `complete()` (moment_rulebook.cpp:121-243), and whether it returned. The flags are only set at the end. -/
noncomputable def completeRules (t : Poly.Table) (o : Poly.Order) (R : Rules) (raw : List (List Mono)) : Option (Rules × Bool) :=
  if raw.isEmpty then some (R, true)
  else (completeBook t o R.book raw).map fun r => (⟨r.1, if r.2 then Poly.flagsOf t r.1 else R.flags⟩, r.2)

/-- A new `MomentRulebook` (moment_rulebook.cpp:34-36, moment_rulebook.h:105-113). -/
def Rules.new : Rules := ⟨[], ⟨true, true⟩⟩

end Moment.Substituted
