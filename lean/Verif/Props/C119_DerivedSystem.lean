import Verif.Proof.DerivedSystem
import Verif.Props.C100_MatrixSystem

/-! # C119: matrices of derived systems are transformed matrices of their base systems

Symbol tables, words, polynomials, matrices and the map are parameters. Indices that are the same for the derived system are taken to be the same for its base system (`Agree`). -/

namespace Moment.C119
open Moment.MatrixSystem Moment.DerivedSystem

variable {T W P R B M T' R' B' M' : Type}

/-- A derived system made from a base system that was in use, and operations on either since, in any order. -/
def Reached (X : Setup T W P R B M T' R' B' M') (l : List (DerivedSystem.Op W P R B)) (D : State T W P B M T' B' M') : Prop :=
  ∃ S t, C100.Reached X.maker S ∧ DerivedSystem.Steps X (State.new S t) l D

/-- What is asked of the comparisons of polynomials. -/
structure Fit (X : Setup T W P R B M T' R' B' M') : Prop where
  base : Ordered X.maker
  own : Ordered X.own
  agree : Agree X

theorem Reached.inv {X : Setup T W P R B M T' R' B' M'} (hX : Fit X) {l : List (DerivedSystem.Op W P R B)} {D : State T W P B M T' B' M'} (h : Reached X l D) : DInv X D := by
  obtain ⟨S, t, h1, h2⟩ := h
  exact h2.spec hX.agree hX.base hX.own (dinv_new X (h1.inv hX.base) t)

theorem Reached.alive {X : Setup T W P R B M T' R' B' M'} {l : List (DerivedSystem.Op W P R B)} {D : State T W P B M T' B' M'} (h : Reached X l D)
    (hd : ∀ o, .delete o ∉ l) : ∀ x ∈ D.own.matrices, x.isSome := by
  obtain ⟨S, t, -, h2⟩ := h
  exact h2.alive (by simp [State.new, System.new]) hd

theorem Reached.tied {X : Setup T W P R B M T' R' B' M'} (hX : Fit X) (hA : ∀ i j, Same X.maker i j → Same X.own i j) {l : List (DerivedSystem.Op W P R B)}
    {D : State T W P B M T' B' M'} (h : Reached X l D) (hd : ∀ k, .derived k ∉ l) : Tied X D := by
  obtain ⟨S, t, h1, h2⟩ := h
  exact h2.tied hX.agree hA hX.base hX.own (dinv_new X (h1.inv hX.base) t) (tied_new X S t) hd

/-! ## A small system, for examples

Base and derived system are small systems of C100; matrices are marked as mapped, except localizing matrices of words with nine in their text. Words have length one. -/

def toy : Setup Nat Int (List Nat) (List Int) Nat (String × Nat) Nat (List Int) Nat (String × Nat) where
  maker := C100.toy
  own := C100.toy
  map m := if m.1 = "localizing 1 9" then none else some ("mapped " ++ m.1, m.2)
  longest := 5
  length _ := 1
  degree _ p := p.length

theorem toy_fit : Fit toy := ⟨C100.toy_ordered, C100.toy_ordered, fun _ _ h => h⟩

/-- The base system with its moment matrix of level 1, and the derived system. -/
def toyBase : System Nat Int (List Nat) Nat (String × Nat) := (((System.new 0).request C100.toy (.moment 1)).get rfl).1

def toyStart : State Nat Int (List Nat) Nat (String × Nat) Nat Nat (String × Nat) := State.new toyBase 0

theorem toyBase_reached : C100.Reached C100.toy toyBase := ⟨0, _, .step (.refl _) (x := .request (.moment 1)) rfl⟩

theorem toyStart_reached : Reached toy [] toyStart := ⟨toyBase, 0, toyBase_reached, .refl _⟩

/-! ## Requests by index -/

/-- The greatest length of words in a matrix: twice the level, and the length of the word or the degree of the polynomial. -/
def Longest (X : Setup T W P R B M T' R' B' M') (t : T) (i : Index W P) (k : Nat) : Prop :=
  (∃ n, i = .moment n ∧ k = n + n) ∨ (∃ n w, i = .localizing n w ∧ k = n + X.length w + n) ∨ ∃ n p, i = .poly n p ∧ k = n + X.degree t p + n

theorem Longest.spec {X : Setup T W P R B M T' R' B' M'} {t : T} {i : Index W P} {k : Nat} (h : Longest X t i k) : Mapped i ∧ X.required t i = k := by
  rcases h with ⟨n, rfl, rfl⟩ | ⟨n, w, rfl, rfl⟩ | ⟨n, p, rfl, rfl⟩
  · exact ⟨rfl, by simp only [Setup.required]; omega⟩
  · exact ⟨rfl, by simp only [Setup.required]; omega⟩
  · exact ⟨rfl, by simp only [Setup.required]; omega⟩

/-- **C119, transformed matrices.** What a request for a level, a word or a polynomial gives is the transform of the matrix that the base system has for it; to find that matrix,
nothing more has to be made in the base system. -/
theorem C119_transformed {X : Setup T W P R B M T' R' B' M'} (hX : Fit X) {l : List (DerivedSystem.Op W P R B)} {D D' : State T W P B M T' B' M'} (hD : Reached X l D)
    {i : Index W P} (hi : Mapped i) {o : Nat} {m' : M'} (h : D.request X i = some (D', some (o, m'))) :
    D'.own.get o = some m' ∧ ∃ b : Nat, D'.base.request X.maker i = some (D'.base, (D'.base.get b).map fun m => (b, m)) ∧ ∀ m, D'.base.get b = some m → X.map m = some m' := by
  obtain ⟨h1, -, -, h2⟩ := request_spec hX.agree hX.base hX.own (hD.inv hX) h
  obtain ⟨h3, h4⟩ := h2 o m' rfl
  dsimp only at h1 h3 h4
  obtain ⟨h5, h6⟩ := h1.mapped i hi (by omega)
  obtain ⟨b, hb⟩ := Int.eq_ofNat_of_zero_le h5
  rw [hb, h3] at h6
  exact ⟨h4, b, C100.request_known hb, fun m hm => h6 m m' hm h4⟩

/-- **C119, matrices are made.** If the words are not too long, the base system gives a matrix, and the map can be applied to it, then the transform is given, as a new matrix. -/
theorem C119_made {X : Setup T W P R B M T' R' B' M'} {D : State T W P B M T' B' M'} {i : Index W P} (hn : D.own.look X.own i = none) {k : Nat}
    (hk : Longest X D.base.table i k) (hl : k ≤ X.longest) {S : System T W P B M} {b : Nat} {m : M} {m' : M'} (hb : D.base.request X.maker i = some (S, some (b, m)))
    (hm : X.map m = some m') : ∃ D', D.request X i = some (D', some (D.own.matrices.length, m')) ∧ D'.base = S ∧ D'.own.matrices = D.own.matrices ++ [some m'] := by
  obtain ⟨hi, rfl⟩ := hk.spec
  have hf : ¬ 0 ≤ D.own.find X.own i := by
    unfold System.look at hn
    dsimp only at hn
    split at hn
    · omega
    · simp at hn
  unfold State.request State.make
  simp only [if_pos hi, if_neg hf]
  rw [if_neg (by omega), hb]
  simp only [Option.map_some, hm]
  exact ⟨_, rfl, rfl, enter_matrices X _ i m'⟩

/-- **C119, long words.** If words are longer than the map supports, an exception is thrown before anything is done. -/
theorem C119_rejected {X : Setup T W P R B M T' R' B' M'} {D : State T W P B M T' B' M'} {i : Index W P} (hn : D.own.look X.own i = none) {k : Nat}
    (hk : Longest X D.base.table i k) (hl : X.longest < k) : D.request X i = some (D, none) := by
  obtain ⟨hi, rfl⟩ := hk.spec
  have hf : ¬ 0 ≤ D.own.find X.own i := by
    unfold System.look at hn
    dsimp only at hn
    split at hn
    · omega
    · simp at hn
  unfold State.request State.make
  simp only [if_pos hi, if_neg hf, if_pos hl]

/-- **C119, asking again.** Once a matrix was made, requests for the same index give it with its number, and change neither system, whatever was done with either in between,
unless it was deleted from the derived system. -/
theorem C119_again {X : Setup T W P R B M T' R' B' M'} (hX : Fit X) {l l' : List (DerivedSystem.Op W P R B)} {D D' D'' : State T W P B M T' B' M'} (hD : Reached X l D)
    {i j : Index W P} (hj : Mapped j) {o : Nat} {m' : M'} (h : D.request X i = some (D', some (o, m'))) (hl : DerivedSystem.Steps X D' l' D'') (hd : .delete o ∉ l')
    (hs : Same X.own i j) : D''.request X j = some (D'', some (o, m')) := by
  obtain ⟨h1, -, -, h2⟩ := request_spec hX.agree hX.base hX.own (hD.inv hX) h
  obtain ⟨h3, h4⟩ := h2 o m' rfl
  dsimp only at h1 h3 h4
  have f1 := (hl.later hX.agree hX.base hX.own h1).2.find i (by omega)
  have f2 := (hl.spec hX.agree hX.base hX.own h1).own.find_same hX.own hs (by omega)
  unfold State.request
  rw [if_pos hj]
  dsimp only
  rw [f2, f1, h3, hl.kept h4 hd]
  simp

/-- **C119, the base system.** Requests to the derived system, by index or by number, take nothing from the base system: its matrices stay with their numbers. -/
theorem C119_base {X : Setup T W P R B M T' R' B' M'} (hX : Fit X) {l : List (DerivedSystem.Op W P R B)} {D : State T W P B M T' B' M'} (hD : Reached X l D) :
    (∀ i r, D.request X i = some r → D.base.matrices <+: r.1.base.matrices) ∧ ∀ k, (D.derived X k).1.base = D.base :=
  ⟨fun _ _ h => (request_spec hX.agree hX.base hX.own (hD.inv hX) h).2.1.matrices, fun k => (derived_spec (hD.inv hX) k).2.1⟩

/-- A matrix that the base system has already, one that it has to make, the first again; words that are too long; a matrix that cannot be mapped. -/
example : ∃ D₁ D₂ D₃ D₄ m₁ m₂, toyStart.request toy (.moment 1) = some (D₁, some (0, m₁)) ∧ m₁.1 = "mapped moment 1" ∧ D₁.base = toyBase ∧
    D₁.request toy (.localizing 1 3) = some (D₂, some (1, m₂)) ∧ m₂.1 = "mapped localizing 1 3" ∧ D₂.base.matrices.length = 2 ∧
    D₂.request toy (.moment 1) = some (D₃, some (0, m₁)) ∧ D₃.request toy (.moment 3) = some (D₃, none) ∧ D₃.request toy (.localizing 1 9) = some (D₄, none) ∧
    D₄.base.matrices.length = 3 ∧ D₄.own.matrices.length = 2 :=
  ⟨_, _, _, _, _, _, rfl, by decide +kernel, rfl, rfl, by decide +kernel, rfl, rfl, rfl, rfl, rfl, rfl⟩

example : toyStart.own.look toy.own (.moment 1) = none ∧ Longest toy toyStart.base.table (.moment 1) 2 ∧ 2 ≤ toy.longest ∧ Longest toy toyStart.base.table (.localizing 3 1) 7 ∧
    toy.longest < 7 ∧ Same toy.own (.localizing 1 3) (.localizing 1 (-3)) :=
  ⟨rfl, .inl ⟨1, rfl, rfl⟩, by decide, .inr (.inl ⟨3, 1, rfl, rfl⟩), by decide, ⟨rfl, rfl⟩⟩

/-- **C119, substituted matrices.** Matrices with substitutions are made from the matrices of the derived system itself; the base system is not asked. -/
theorem C119_substituted {X : Setup T W P R B M T' R' B' M'} {D : State T W P B M T' B' M'} (k r : Int) :
    D.request X (.subst k r) = (D.own.request X.own (.subst k r)).map fun r => (⟨D.base, r.1, D.sources⟩, r.2) := rfl

example : toyStart.request toy (.subst 0 0) = (toyStart.own.request toy.own (.subst 0 0)).map fun r => (⟨toyBase, r.1, []⟩, r.2) := C119_substituted 0 0

/-! ## Requests by the number of the source -/

/-- **C119, sources.** What a request by the number of a matrix of the base system gives is the transform of that matrix. -/
theorem C119_source {X : Setup T W P R B M T' R' B' M'} (hX : Fit X) {l : List (DerivedSystem.Op W P R B)} {D D' : State T W P B M T' B' M'} (hD : Reached X l D) {k o : Nat}
    {m' : M'} (h : D.derived X k = (D', some (o, m'))) : D'.own.get o = some m' ∧ ∀ m, D'.base.get k = some m → X.map m = some m' := by
  obtain ⟨h1, -, -, h2⟩ := derived_spec (hD.inv hX) k (X := X)
  rw [h] at h1 h2
  obtain ⟨h3, h4⟩ := h2 o m' rfl
  dsimp only at h1 h3 h4
  refine ⟨h4, fun m hm => ?_⟩
  have := (h1.sources k (by omega)).2
  rw [h3] at this
  exact this m m' hm h4

/-- If nothing was deleted from the derived system, then every matrix of the base system to which the map can be applied has its transform. -/
theorem C119_every {X : Setup T W P R B M T' R' B' M'} (hX : Fit X) {l : List (DerivedSystem.Op W P R B)} {D : State T W P B M T' B' M'} (hD : Reached X l D)
    (hd : ∀ o, .delete o ∉ l) {k : Nat} {m : M} {m' : M'} (hm : D.base.get k = some m) (ht : X.map m = some m') : ∃ D' o, D.derived X k = (D', some (o, m')) := by
  have hi := hD.inv hX
  unfold State.derived
  dsimp only
  split
  · rename_i hf
    obtain ⟨n, hn⟩ := alive_get (hD.alive hd) hf (hi.high k)
    have := (hi.sources k hf).2 m n hm hn
    rw [ht] at this
    rw [hn, Option.some.inj this]
    exact ⟨_, _, rfl⟩
  · rw [hm, Option.bind_some, ht]
    exact ⟨_, _, rfl⟩

/-- **C119, two ways to a matrix.** After a request by index, the number of the source is known: asking by this number makes no further matrix, and gives an equal one. -/
theorem C119_ways {X : Setup T W P R B M T' R' B' M'} (hX : Fit X) {l : List (DerivedSystem.Op W P R B)} {D D' : State T W P B M T' B' M'} (hD : Reached X l D)
    {i : Index W P} (hi : Mapped i) {o : Nat} {m' : M'} (h : D.request X i = some (D', some (o, m'))) :
    ∃ b : Nat, D'.base.find X.maker i = b ∧ (D'.derived X b).1 = D' ∧ ∀ m, D'.base.get b = some m → ∀ x n, (D'.derived X b).2 = some (x, n) → n = m' := by
  obtain ⟨h1, -, -, h2⟩ := request_spec hX.agree hX.base hX.own (hD.inv hX) h
  obtain ⟨h3, h4⟩ := h2 o m' rfl
  dsimp only at h1 h3 h4
  obtain ⟨h5, h6⟩ := h1.mapped i hi (by omega)
  have hk := h1.known i hi (by omega)
  obtain ⟨b, hb⟩ := Int.eq_ofNat_of_zero_le h5
  rw [hb] at hk h6
  simp only [Int.toNat_natCast] at hk
  refine ⟨b, hb, ?_, fun m hm x n hx => ?_⟩
  · unfold State.derived
    dsimp only
    rw [if_pos hk]
  · unfold State.derived at hx
    dsimp only at hx
    rw [if_pos hk] at hx
    simp only [Option.map_eq_some_iff, Prod.mk.injEq] at hx
    obtain ⟨n', hn, -, rfl⟩ := hx
    have a := (h1.sources b hk).2 m n' hm hn
    have c := h6 m m' hm (by rwa [h3])
    rw [a] at c
    exact Option.some.inj c

/-- **C119, one matrix (partial).** As long as no matrix was asked for by the number of its source, both ways lead to the same number, and the assertion about numbers holds whenever a
matrix is made. Missing: requests by number that come first, see `C119_refuted_alias`. -/
theorem C119_alias_partial {X : Setup T W P R B M T' R' B' M'} (hX : Fit X) (hA : ∀ i j, Same X.maker i j → Same X.own i j) {l : List (DerivedSystem.Op W P R B)}
    {D D' : State T W P B M T' B' M'} (hD : Reached X l D) (hd : ∀ k, .derived k ∉ l) {i : Index W P} (hi : Mapped i) {o : Nat} {m' : M'}
    (h : D.request X i = some (D', some (o, m'))) :
    (∃ b : Nat, D'.base.find X.maker i = b ∧ D'.derived X b = (D', some (o, m'))) ∧
    (D.own.look X.own i = none → ({ D with base := D'.base } : State T W P B M T' B' M').aliasAsserted X i) := by
  have hinv := hD.inv hX
  have ht := hD.tied hX hA hd
  have ht' := ht.request hX.agree hA hX.base hX.own hinv h
  obtain ⟨h1, hg, -, h2⟩ := request_spec hX.agree hX.base hX.own hinv h
  obtain ⟨h3, h4⟩ := h2 o m' rfl
  dsimp only at h1 h3 h4 ht' hg
  obtain ⟨h5, -⟩ := h1.mapped i hi (by omega)
  obtain ⟨b, hb⟩ := Int.eq_ofNat_of_zero_le h5
  have hv := ht'.index i hi (by omega)
  rw [hb, h3] at hv
  simp only [Int.toNat_natCast] at hv
  refine ⟨⟨b, hb, ?_⟩, fun hn => ?_⟩
  · unfold State.derived
    dsimp only
    rw [hv, if_pos (by omega), h4]
    simp
  · have hf : D.own.find X.own i < 0 := by
      unfold System.look at hn
      dsimp only at hn
      split at hn
      · assumption
      · simp at hn
    have st : DInv X ⟨D'.base, D.own, D.sources⟩ := hinv.later (Grows.later hg) hg.inv (.refl _ _) hinv.own fun _ _ e => e
    have tt : Tied X ⟨D'.base, D.own, D.sources⟩ := ht.later hinv (Grows.later hg) fun _ _ => rfl
    have fr := tt.fresh hA hX.own st hf hb
    unfold State.aliasAsserted
    dsimp only at fr ⊢
    rw [hb, Int.toNat_natCast]
    unfold vectorInsert
    rw [vectorFind_eq] at fr
    split
    · simp
    · rw [if_neg (by simpa using fr)]
      simp

/-- **C119, refuted.** The assertion that the number of the source leads to the matrix just made (derived_matrix_system.cpp:245, 253, 262) does not hold in general: if a matrix is
asked for by the number of its source first and by its level then, it is made twice, with two numbers; by the source it is the first one that is found. -/
theorem C119_refuted_alias : ∃ D₁ D₂ : State Nat Int (List Nat) Nat (String × Nat) Nat Nat (String × Nat), ∃ m, Reached toy [] toyStart ∧
    toyStart.derived toy 0 = (D₁, some (0, m)) ∧ D₁.aliasAsserted toy (.moment 1) = false ∧ D₁.request toy (.moment 1) = some (D₂, some (1, m)) ∧
    D₂.derived toy 0 = (D₂, some (0, m)) ∧ D₂.own.matrices.length = 2 :=
  ⟨_, _, _, toyStart_reached, rfl, by decide +kernel, rfl, rfl, rfl⟩

/-- By level first, and by the number of the source then: one matrix. -/
example : ∃ D₁ m, toyStart.request toy (.moment 1) = some (D₁, some (0, m)) ∧ D₁.derived toy 0 = (D₁, some (0, m)) ∧ D₁.own.matrices.length = 1 ∧
    (∀ i j : Index Int (List Nat), Same toy.maker i j → Same toy.own i j) := ⟨_, _, rfl, rfl, rfl, fun _ _ h => h⟩

/-- Sources that are not there, and sources that cannot be mapped. -/
example : (toyStart.derived toy 1).2 = none ∧ toyStart.base.get 0 ≠ none ∧ (toyStart.derived toy 0).2.isSome := ⟨rfl, by decide +kernel, by decide +kernel⟩

end Moment.C119
