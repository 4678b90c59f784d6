import Verif.Model.MatrixSystem

/-! # Model of derived matrix systems: requests that go through to the base system
(cpp/lib_moment/scenarios/derived/{derived_matrix_system.cpp, derived_matrix_indices.cpp}, matrix_system/matrix_indices.h)

The base system is a matrix system as in `MatrixSystem`; the map of symbols, applied to a matrix (`do_create_transformed_matrix`, see `Derived`), is a parameter. A result `none` is
undefined behaviour; an exception is `none` inside. This is the program without assertions; the assertion about aliases is `aliasAsserted`. Simplifications: `2 * level` stays
below `2^64`; the transformation does not depend on the symbol table of the derived system. -/

namespace Moment.DerivedSystem

open MatrixSystem

variable {T W P R B M T' R' B' M' : Type}

/-- What a derived system is made of: how matrices of the base system are made; words, polynomials and substituted matrices of the derived system; the map; the longest words
that the map supports (derived_matrix_system.h:74); lengths of words and degrees of polynomials (`PolynomialFactory::maximum_degree`). -/
structure Setup (T W P R B M T' R' B' M' : Type) where
  maker : Maker T W P R B M
  own : Maker T' W P R' B' M'
  map : M → Option M'
  longest : Nat
  length : W → Nat
  degree : T → P → Nat

/-- `class DerivedMatrixSystem` (derived_matrix_system.h:47-66): the base system, the matrices and indices of its own, and `DerivedMatrices`. -/
structure State (T W P B M T' B' M' : Type) where
  base : System T W P B M
  own : System T' W P B' M'
  sources : List Int

/-- The constructor (derived_matrix_system.cpp:81-98). -/
def State.new (S : System T W P B M) (t : T') : State T W P B M T' B' M' := ⟨S, System.new t, []⟩

/-- The longest word in the matrix of an index (derived_matrix_system.cpp:111, 148-149, 191-193); other matrices are not limited. -/
def Setup.required (X : Setup T W P R B M T' R' B' M') (t : T) : Index W P → Nat
  | .moment n => n * 2
  | .localizing n w => n * 2 + X.length w
  | .poly n p => 2 * n + X.degree t p
  | .subst _ _ => 0

/-- Indices whose matrices come from the base system. -/
def Mapped : Index W P → Bool
  | .subst _ _ => false
  | _ => true

abbrev Reply (T W P B M T' B' M' : Type) := Option (State T W P B M T' B' M' × Option (Nat × M'))

/-- A matrix of the derived system is put at the end, entered under its index, and entered in `DerivedMatrices` under the number of its source, unless there is an entry already
(derived_matrix_system.cpp:239-263, matrix_indices.h:156-167). -/
def State.enter (X : Setup T W P R B M T' R' B' M') (D : State T W P B M T' B' M') (i : Index W P) (m : M') : State T W P B M T' B' M' :=
  ⟨D.base, (D.own.push m).insert X.own i D.own.matrices.length, (vectorInsert D.sources (D.base.find X.maker i).toNat D.own.matrices.length).1⟩

/-- `create_moment_matrix`, `create_localizing_matrix`, `create_polynomial_localizing_matrix` (derived_matrix_system.cpp:105-216) and what follows in
`MatrixIndices::create` (matrix_indices.h:144-148). The base system finds its matrix, or makes it. -/
def State.make (X : Setup T W P R B M T' R' B' M') (D : State T W P B M T' B' M') (i : Index W P) : Reply T W P B M T' B' M' :=
  if X.longest < X.required D.base.table i then some (D, none)
  else (D.base.request X.maker i).map fun r => match r.2 with
    | none => ({ D with base := r.1 }, none)
    | some (_, m) => match X.map m with
      | none => ({ D with base := r.1 }, none)
      | some m' => (({ D with base := r.1 } : State T W P B M T' B' M').enter X i m', some (D.own.matrices.length, m'))

/-- A request for the matrix of an index (matrix_indices.h:106-151); substituted matrices are those of any system. -/
def State.request (X : Setup T W P R B M T' R' B' M') (D : State T W P B M T' B' M') (i : Index W P) : Reply T W P B M T' B' M' :=
  if Mapped i then
    let o := D.own.find X.own i
    if 0 ≤ o then some (D, (D.own.get o).map fun m => (o.toNat, m)) else D.make X i
  else (D.own.request X.own i).map fun r => ({ D with own := r.1 }, r.2)

/-- Does the assertion hold that the entry in `DerivedMatrices` is the matrix just made (derived_matrix_system.cpp:245, 253, 262)? -/
def State.aliasAsserted (X : Setup T W P R B M T' R' B' M') (D : State T W P B M T' B' M') (i : Index W P) : Bool :=
  (vectorInsert D.sources (D.base.find X.maker i).toNat D.own.matrices.length).2.1 == D.own.matrices.length

/-- `DerivedMatrices.create` (matrix_indices.h:121-151) with `create_derived_matrix` (derived_matrix_system.cpp:218-240, derived_matrix_indices.cpp:32-41). -/
def State.derived (X : Setup T W P R B M T' R' B' M') (D : State T W P B M T' B' M') (k : Nat) : State T W P B M T' B' M' × Option (Nat × M') :=
  let o := vectorFind D.sources k
  if 0 ≤ o then (D, (D.own.get o).map fun m => (o.toNat, m))
  else match (D.base.get k).bind X.map with
    | none => (D, none)
    | some m' => (⟨D.base, D.own.push m', (vectorInsert D.sources k D.own.matrices.length).1⟩, some (D.own.matrices.length, m'))

/-- What can be done with a derived system and with its base system. -/
inductive Op (W P R B : Type)
  | base (x : MatrixSystem.Op W P R B)
  | request (i : Index W P)
  | derived (k : Nat)
  | delete (o : Int)

/-- One operation; exceptions are like other results here. -/
def State.exec (X : Setup T W P R B M T' R' B' M') (D : State T W P B M T' B' M') : Op W P R B → Option (State T W P B M T' B' M')
  | .base x => (D.base.exec X.maker x).map fun r => { D with base := r.1 }
  | .request i => (D.request X i).map (·.1)
  | .derived k => some (D.derived X k).1
  | .delete o => (D.own.delete o).map fun r => { D with own := r.1 }

/-- A sequence of operations. -/
inductive Steps (X : Setup T W P R B M T' R' B' M') : State T W P B M T' B' M' → List (Op W P R B) → State T W P B M T' B' M' → Prop
  | refl (D : State T W P B M T' B' M') : Steps X D [] D
  | step {D D' D'' : State T W P B M T' B' M'} {l : List (Op W P R B)} {x : Op W P R B} : Steps X D l D' → D'.exec X x = some D'' → Steps X D (l ++ [x]) D''

end Moment.DerivedSystem
