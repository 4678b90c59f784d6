import Verif.Model.CollinsGisin
import Verif.Model.MatrixBasis

/-! # Model of tensors of polynomials and of what maintains them (cpp/lib_moment/probability/polynomial_tensor.cpp, maintains_tensors.cpp)

For locality scenarios. One caller at a time: see `Model/Refresh.lean` for several threads. -/

namespace Moment.PolyTensor
open Moment.Probability (Element Gisin attempt makeElement makeCorrelator localityInfo correlatorDims canHaveCorrelators)
open Moment.Locality (Scenario)

/-- `StorageType`, `data`, `missingSymbols` (a set of positions, hence ascending) and `hasAllSymbols` of `PolynomialTensor`
(polynomial_tensor.h:41-53). -/
structure Tensor where
  isVirtual : Bool
  data : List Element
  missing : List Nat
  hasAll : Bool

/-- Positions of elements without symbols, from position `k` on. -/
def absent : Nat → List Element → List Nat
  | _, [] => []
  | k, e :: l => if e.symbols.isSome then absent (k + 1) l else k :: absent (k + 1) l

/-- The constructors of `ProbabilityTensor` and `FullCorrelator` (probability_tensor.cpp:28-39, 93-113; full_correlator.cpp:19-30, 165-182; storage:
polynomial_tensor.h:37, auto_storage_tensor.h), given how an element is made; `none` if one cannot be made. -/
noncomputable def build (dims : List Nat) (make : List Nat → Option Element) : Option Tensor :=
  if Moment.Tensor.elementCount dims > 1024 then some ⟨true, [], [], true⟩
  else ((Gisin.indices dims).mapM make).map fun es => ⟨false, es, absent 0 es, (absent 0 es).isEmpty⟩

/-- The loop of `fill_missing_polynomials` (polynomial_tensor.cpp:38-45): the data, and `still_missing`. -/
noncomputable def fillLoop (t : Poly.Table) (o : Poly.Order) (cg : Gisin) : List Element → List Nat → List Element × List Nat
  | d, [] => (d, [])
  | d, k :: ks => match d[k]? with
    | none => fillLoop t o cg d ks
    | some e =>
      let e' := attempt t o cg e
      let r := fillLoop t o cg (d.set k e') ks
      if (Probability.resolve cg (e.gisin.map fun m => (m.id - 1, m.factor))).isSome then r else (r.1, k :: r.2)

/-- `fill_missing_polynomials` (polynomial_tensor.cpp:28-51), and what it returns. When nothing is missing any more, `missingSymbols` stays as it was. -/
noncomputable def Tensor.fill (t : Poly.Table) (o : Poly.Order) (cg : Gisin) (T : Tensor) : Tensor × Bool :=
  if T.hasAll then (T, true)
  else
    let r := fillLoop t o cg T.data T.missing
    if r.2.isEmpty then (⟨T.isVirtual, r.1, T.missing, true⟩, true) else (⟨T.isVirtual, r.1, r.2, false⟩, false)

/-- The element at an index that is in range (auto_storage_tensor.h:77-85), given how elements are made now. -/
def Tensor.element (dims : List Nat) (make : List Nat → Option Element) (T : Tensor) (index : List Nat) : Option Element :=
  if T.isVirtual then make index else T.data[Moment.Tensor.indexToOffsetNoChecks true dims index]?

/-! ## The tensors of a system -/

/-- The symbol table of a system, and its tensors (maintains_tensors.h). -/
structure System where
  table : Symbols.Table
  gisin : Option Gisin.Tensor
  prob : Option Tensor
  corr : Option Tensor

/-- The dimensions of the probability tensor (locality_probability_tensor.cpp:17-40): all outcomes of all measurements, and 1. -/
def probDims (s : Scenario) : List Nat := s.map fun mmts => mmts.sum + 1

/-- How elements of the probability tensor are made. -/
noncomputable def probElement (s : Scenario) (o : Poly.Order) (t : Symbols.Table) (G : Gisin.Tensor) (index : List Nat) : Option Element :=
  makeElement (MatrixBasis.polyTable t) o (G.view s t) (localityInfo s) index

/-- How elements of the full-correlator tensor are made. -/
noncomputable def corrElement (s : Scenario) (o : Poly.Order) (t : Symbols.Table) (G : Gisin.Tensor) (index : List Nat) : Option Element :=
  makeCorrelator (MatrixBasis.polyTable t) o (G.view s t) (correlatorDims s) index

/-- `RefreshCollinsGisin` (maintains_tensors.cpp:39-69): the tensor, and what is returned. -/
noncomputable def refreshGisin (s : Scenario) (t : Symbols.Table) : Option Gisin.Tensor → Option (Gisin.Tensor × Bool)
  | none => (Gisin.construct s t).map fun G => (G, G.hasAllSymbols)
  | some G => if G.hasAllSymbols then some (G, true) else some (G.fill (Locality.env s) t)

/-- What `RefreshProbabilityTensor` and `RefreshFullCorrelator` have in common (maintains_tensors.cpp:92-119, 132-158). -/
noncomputable def refreshPoly (t : Poly.Table) (o : Poly.Order) (cg : Gisin) (made : Option Tensor) : Option Tensor → Option (Tensor × Bool)
  | none => made.map fun T => (T, T.hasAll)
  | some T => if T.hasAll then some (T, true) else some (T.fill t o cg)

/-- `RefreshCollinsGisin`. -/
noncomputable def System.refreshGisin (s : Scenario) (S : System) : Option (System × Bool) :=
  (PolyTensor.refreshGisin s S.table S.gisin).map fun r => ({ S with gisin := some r.1 }, r.2)

/-- `RefreshProbabilityTensor` (maintains_tensors.cpp:128-160). -/
noncomputable def System.refreshProb (s : Scenario) (o : Poly.Order) (S : System) : Option (System × Bool) :=
  (PolyTensor.refreshGisin s S.table S.gisin).bind fun g =>
    (refreshPoly (MatrixBasis.polyTable S.table) o (g.1.view s S.table) (build (probDims s) (probElement s o S.table g.1)) S.prob).map fun r =>
      (⟨S.table, some g.1, some r.1, S.corr⟩, r.2)

/-- `RefreshFullCorrelator` (maintains_tensors.cpp:77-119). The outer `none` is undefined, the inner one is the exception for scenarios with other numbers
of outcomes (in which case the Collins-Gisin tensor is still refreshed: the system is the first component). -/
noncomputable def System.refreshCorr (s : Scenario) (o : Poly.Order) (S : System) : Option (System × Option Bool) :=
  (PolyTensor.refreshGisin s S.table S.gisin).bind fun g =>
    if S.corr.isNone ∧ canHaveCorrelators s = false then some (⟨S.table, some g.1, S.prob, S.corr⟩, none)
    else (refreshPoly (MatrixBasis.polyTable S.table) o (g.1.view s S.table) (build (correlatorDims s) (corrElement s o S.table g.1)) S.corr).map fun r =>
      (⟨S.table, some g.1, S.prob, some r.1⟩, some r.2)

end Moment.PolyTensor
