import Verif.Model.Tensor

/-! # Model of tensors whose elements are stored, or made when they are asked for
(cpp/lib_moment/tensor/auto_storage_tensor.h)

Elements are of any type. Results: `none` is undefined behaviour, that is, reading beyond the end of the stored elements; exceptions are `none` inside. Sizes are natural numbers
(see C28). References into the tensor and copies of elements are not told apart. -/

namespace Moment.AutoStorage

variable {E : Type}

/-- `TensorStorageType` (auto_storage_tensor.h:30-37). -/
inductive Hint
  | virtual
  | stored
  | automatic

/-- `get_storage_type` (auto_storage_tensor.h:471-480): are elements stored? -/
def storageType (threshold : Nat) (hint : Hint) (count : Nat) : Bool :=
  match hint with
  | .virtual => false
  | .stored => true
  | .automatic => if count > threshold then false else true

/-- The members (auto_storage_tensor.h:374-382), and how elements are made (`make_element_no_checks`, line 466). -/
structure Tensor (E : Type) where
  dims : List Nat
  stored : Bool
  data : List E
  make : List Nat → E

/-- The constructor (auto_storage_tensor.h:385-387), with elements filled in as by `ProbabilityTensor` (probability_tensor.cpp:93-110), `FullCorrelator` (full_correlator.cpp:165-177) and
`PolynomialTensor` (polynomial_tensor.cpp:29-45): for all offsets, the element at the index of the offset (these iterate over indices, in the order of offsets: C29). -/
def Tensor.new (threshold : Nat) (hint : Hint) (dims : List Nat) (make : List Nat → E) : Tensor E :=
  let stored := storageType threshold hint (Tensor.elementCount dims)
  ⟨dims, stored, if stored then (List.range (Tensor.elementCount dims)).map fun o => make (Tensor.offsetToIndexNoChecks true dims o) else [], make⟩

/-- `Data()` (auto_storage_tensor.h:391-396). -/
def Tensor.Data (t : Tensor E) : Option (List E) := if t.stored then some t.data else none

/-- `elem_no_checks` by index (auto_storage_tensor.h:99-106, 449-451). -/
def Tensor.element (t : Tensor E) (index : List Nat) : Option E :=
  if t.stored then t.data[Tensor.indexToOffsetNoChecks true t.dims index]? else some (t.make index)

/-- `elem_no_checks` by offset (auto_storage_tensor.h:108-115, 457-459). -/
def Tensor.elementAt (t : Tensor E) (offset : Nat) : Option E :=
  if t.stored then t.data[offset]? else some (t.make (Tensor.offsetToIndexNoChecks true t.dims offset))

/-- `operator()`, a view by index (auto_storage_tensor.h:77-85, 398-400). -/
def Tensor.view (t : Tensor E) (index : List Nat) : Option (Option E) :=
  if Tensor.validateIndex t.dims index then (t.element index).map some else some none

/-- `at`, a view by offset (auto_storage_tensor.h:88-96, 413-415). -/
def Tensor.at_ (t : Tensor E) (offset : Nat) : Option (Option E) :=
  if offset ≥ Tensor.elementCount t.dims then some none else (t.elementAt offset).map some

/-! ## Iteration over a part -/

/-- Members of `Iterator` (auto_storage_tensor.h:143-154). -/
structure Iter (E : Type) where
  entry : Option E
  box : MultiDim.State
  offset : Nat

/-- Constructor (auto_storage_tensor.h:159-164). -/
def Iter.first (t : Tensor E) (mins maxs : List Nat) : Iter E :=
  let b := MultiDimOffset.first mins maxs
  ⟨none, b, if b.done then 0 else Tensor.indexToOffsetNoChecks true t.dims b.indices⟩

/-- Constructor for the end (auto_storage_tensor.h:169, multi_dimensional_offset_index_iterator.h:63-66). -/
def Iter.last : Iter E := ⟨none, ⟨[], 0, true⟩, 0⟩

/-- `operator++` (auto_storage_tensor.h:174-183). -/
def Iter.next (t : Tensor E) (mins maxs : List Nat) (s : Iter E) : Iter E :=
  let b := MultiDimOffset.next true mins maxs s.box
  ⟨none, b, if b.done then 0 else Tensor.indexToOffsetNoChecks true t.dims b.indices⟩

/-- `operator*` (auto_storage_tensor.h:209-217); an element that is made is kept. -/
def Iter.deref (t : Tensor E) (s : Iter E) : Option (E × Iter E) :=
  if t.stored then (t.data[s.offset]?).map fun e => (e, s)
  else match s.entry with
    | some e => some (e, s)
    | none => let e := t.make s.box.indices; some (e, { s with entry := some e })

/-- `operator==` (auto_storage_tensor.h:235-237, multi_dimensional_offset_index_iterator.h:120-139). -/
def Iter.eq (s u : Iter E) : Bool :=
  if s.box.done != u.box.done then false else if s.box.done then true else s.box.indices == u.box.indices

/-- Use of the element several times, or not at all. -/
def Iter.touch (t : Tensor E) : Nat → Iter E → Iter E
  | 0, s => s
  | n + 1, s => match s.deref t with
    | some r => Iter.touch t n r.2
    | none => s

/-- What an iterator shows: `index()`, `offset()`, `block_offset()` and `operator*` (auto_storage_tensor.h:202-217, 249-258). -/
def Iter.shows (t : Tensor E) (s : Iter E) : List Nat × Nat × Nat × Option E := (s.box.indices, s.offset, s.box.global, (s.deref t).map Prod.fst)

/-! ## Iteration over all -/

/-- `FullIterator` (auto_storage_tensor.h:265-275): a position in the stored elements, or an iterator over the largest part. -/
inductive Full (E : Type)
  | direct (pos : Nat)
  | through (s : Iter E)

/-- Constructor (auto_storage_tensor.h:273-284). -/
def Full.first (t : Tensor E) : Full E :=
  if t.stored then .direct 0 else .through (Iter.first t (List.replicate t.dims.length 0) t.dims)

/-- Constructor for the end (auto_storage_tensor.h:286-294). -/
def Full.last (t : Tensor E) : Full E := if t.stored then .direct t.data.length else .through Iter.last

/-- `index()` (auto_storage_tensor.h:301-309). -/
def Full.index (t : Tensor E) : Full E → List Nat
  | .direct p => Tensor.offsetToIndexNoChecks true t.dims p
  | .through s => s.box.indices

/-- `offset()` (auto_storage_tensor.h:311-318). -/
def Full.offset (t : Tensor E) : Full E → Nat
  | .direct p => p
  | .through s => Tensor.indexToOffsetNoChecks true t.dims s.box.indices

/-- `operator++` (auto_storage_tensor.h:320-327). -/
def Full.next (t : Tensor E) : Full E → Full E
  | .direct p => .direct (p + 1)
  | .through s => .through (s.next t (List.replicate t.dims.length 0) t.dims)

/-- `operator*` (auto_storage_tensor.h:329-335). -/
def Full.deref (t : Tensor E) : Full E → Option E
  | .direct p => t.data[p]?
  | .through s => (s.deref t).map Prod.fst

/-- `operator==` (auto_storage_tensor.h:345-352); `none` if the kinds differ, against which there is an assertion. -/
def Full.eq : Full E → Full E → Option Bool
  | .direct p, .direct q => some (p == q)
  | .through s, .through u => some (s.eq u)
  | _, _ => none

/-- `operator bool` (auto_storage_tensor.h:358-365). -/
def Full.more (t : Tensor E) : Full E → Bool
  | .direct p => p != t.data.length
  | .through s => !s.box.done

/-- What an iterator shows. -/
def Full.shows (t : Tensor E) (s : Full E) : List Nat × Nat × Option E := (s.index t, s.offset t, s.deref t)

/-! ## Parts -/

/-- `TensorRange` (auto_storage_tensor.h:490-546): the corners, and what was computed of dimensions and size. -/
structure Range where
  mins : List Nat
  maxs : List Nat
  dims : Option (List Nat)
  size : Option Nat

/-- `Splice` (auto_storage_tensor.h:423-433), `none` is an exception. -/
def Tensor.splice (t : Tensor E) (mins maxs : List Nat) : Option Range :=
  if Tensor.validateRange t.dims mins maxs then some ⟨mins, maxs, none, none⟩ else none

/-- `Dimensions()` (auto_storage_tensor.h:521-529). -/
def Range.dimensions (r : Range) : List Nat × Range :=
  match r.dims with
  | some d => (d, r)
  | none => let d := List.zipWith (· - ·) r.maxs r.mins; (d, { r with dims := some d })

/-- `size()` (auto_storage_tensor.h:532-538). -/
def Range.count (r : Range) : Nat × Range :=
  match r.size with
  | some n => (n, r)
  | none => let d := r.dimensions; let n := d.1.foldl (· * ·) 1; (n, { d.2 with size := some n })

end Moment.AutoStorage
