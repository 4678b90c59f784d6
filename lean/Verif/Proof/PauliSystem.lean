import Verif.Spec.PauliSystem
import Verif.Proof.MatrixSystem

/-! # Indices and matrices of matrix systems of Pauli scenarios -/

namespace Moment.PauliSystem
open Moment.MatrixSystem (Maker System Index mapFind mapInsert mapFind_cases mapFind_insert mapInsert_mem Same Ordered get_some get_iff)

variable {T W P R B M : Type}

/-! ## Comparisons -/

theorem lessNear_iff {a b : Nat × Nat} : (lessNear a b = false ∧ lessNear b a = false) ↔ a = b := by
  unfold lessNear
  constructor
  · rintro ⟨h1, h2⟩
    simp only [Bool.or_eq_false_iff, decide_eq_false_iff_not, Bool.and_eq_false_iff, beq_eq_false_iff_ne] at h1 h2
    have e : a.1 = b.1 := by omega
    have e2 : a.2 = b.2 := by rcases h1.2 with x | x <;> rcases h2.2 with y | y <;> omega
    exact Prod.ext e e2
  · rintro rfl
    simp

theorem lessMono_iff {hash : W → UInt64} {a b : (Nat × Nat) × W} :
    (lessMono hash a b = false ∧ lessMono hash b a = false) ↔ a.1 = b.1 ∧ hash a.2 = hash b.2 := by
  have hr : ∀ x, lessNear x x = false := fun x => (lessNear_iff.mpr rfl).1
  unfold lessMono
  constructor
  · rintro ⟨h1, h2⟩
    cases h : lessNear a.1 b.1
    · cases h' : lessNear b.1 a.1
      · have e := lessNear_iff.mp ⟨h, h'⟩
        rw [e, hr] at h1 h2
        simp only [Bool.false_eq_true, if_false, decide_eq_false_iff_not] at h1 h2
        rw [UInt64.lt_iff_toNat_lt] at h1 h2
        exact ⟨e, UInt64.toNat_inj.mp (by omega)⟩
      · simp [h, h'] at h2
    · simp [h] at h1
  · rintro ⟨h1, h2⟩
    simp [h1, h2, hr]

theorem lessPoly_iff {less : P → P → Bool} {a b : (Nat × Nat) × P} :
    (lessPoly less a b = false ∧ lessPoly less b a = false) ↔ a.1 = b.1 ∧ less a.2 b.2 = false ∧ less b.2 a.2 = false := by
  have hr : ∀ x, lessNear x x = false := fun x => (lessNear_iff.mpr rfl).1
  unfold lessPoly
  constructor
  · rintro ⟨h1, h2⟩
    cases h : lessNear a.1 b.1
    · cases h' : lessNear b.1 a.1
      · have e := lessNear_iff.mp ⟨h, h'⟩
        rw [e, hr] at h1 h2
        simp only [Bool.false_eq_true, if_false] at h1 h2
        exact ⟨e, h1, h2⟩
      · simp [h, h'] at h2
    · simp [h] at h1
  · rintro ⟨h1, h2, h3⟩
    simp [h1, h2, h3, hr]

theorem POrdered.base {mk : PMaker T W P R B M} (ho : POrdered mk) : Ordered mk.base := ⟨ho.refl, ho.trans⟩

/-- Keys that are not told apart within one of the stores. -/
def KeySame (mk : PMaker T W P R B M) : Key W P → Key W P → Prop
  | .plain i, .plain j => Same mk.base i j
  | .moment n, .moment n' => n = n'
  | .mono k n w, .mono k' n' w' => k = k' ∧ n = n' ∧ mk.hash w = mk.hash w'
  | .poly k n p, .poly k' n' p' => k = k' ∧ n = n' ∧ mk.less p p' = false ∧ mk.less p' p = false
  | _, _ => False

/-- The other index under which hooks enter a matrix. -/
def other : Key W P → Option (Key W P)
  | .plain (.moment n) => some (.moment (n, 0))
  | .plain (.localizing n w) => some (.mono .localizing (n, 0) w)
  | .plain (.poly n p) => some (.poly .localizing (n, 0) p)
  | .moment n => if n.2 = 0 then some (.plain (.moment n.1)) else none
  | .mono .localizing n w => if n.2 = 0 then some (.plain (.localizing n.1 w)) else none
  | .poly .localizing n p => if n.2 = 0 then some (.plain (.poly n.1 p)) else none
  | _ => none

theorem notify_eq (mk : PMaker T W P R B M) (S : PSystem T W P B M) (i : Key W P) (o : Int) :
    S.notify mk i o = match other i with | none => some S | some j => S.alias mk j o := by
  cases i with
  | plain i => cases i <;> rfl
  | moment n => unfold PSystem.notify other; dsimp only; split <;> rfl
  | mono k n w => cases k <;> unfold PSystem.notify other <;> dsimp only <;> split <;> rfl
  | poly k n w => cases k <;> unfold PSystem.notify other <;> dsimp only <;> split <;> rfl

theorem other_whole {i j : Key W P} (h : other i = some j) : whole j = whole i := by
  cases i with
  | plain i => cases i <;> simp only [other, Option.some.injEq, reduceCtorEq] at h <;> subst h <;> rfl
  | moment n =>
    obtain ⟨a, b⟩ := n
    simp only [other] at h
    split at h <;> simp only [Option.some.injEq, reduceCtorEq] at h
    subst h; rename_i hb; subst hb; rfl
  | mono k n w =>
    obtain ⟨a, b⟩ := n
    cases k <;> simp only [other, reduceCtorEq] at h
    split at h <;> simp only [Option.some.injEq, reduceCtorEq] at h
    subst h; rename_i hb; subst hb; rfl
  | poly k n w =>
    obtain ⟨a, b⟩ := n
    cases k <;> simp only [other, reduceCtorEq] at h
    split at h <;> simp only [Option.some.injEq, reduceCtorEq] at h
    subst h; rename_i hb; subst hb; rfl

theorem alike_plain (mk : PMaker T W P R B M) (i : Index W P) (k : Key W P) :
    Alike mk (.plain i) k ↔ KeySame mk (.plain i) k ∨ ∃ j, other (.plain i) = some j ∧ KeySame mk j k := by
  rcases k with k | ⟨c, d⟩ | ⟨kd', ⟨c, d⟩, w'⟩ | ⟨kd', ⟨c, d⟩, p'⟩
  · cases i <;> cases k <;> simp [Alike, whole, other, KeySame, Same, PMaker.base]
  all_goals cases i <;> simp [Alike, whole, other, KeySame]

theorem alike_moment (mk : PMaker T W P R B M) (n : Nat × Nat) (k : Key W P) :
    Alike mk (.moment n) k ↔ KeySame mk (.moment n) k ∨ ∃ j, other (.moment n) = some j ∧ KeySame mk j k := by
  obtain ⟨a, b⟩ := n
  rcases k with k | ⟨c, d⟩ | ⟨kd', ⟨c, d⟩, w'⟩ | ⟨kd', ⟨c, d⟩, p'⟩
  · cases k <;> by_cases hb : b = 0 <;> simp [Alike, whole, other, KeySame, Same, hb]
  all_goals by_cases hb : b = 0 <;> simp [Alike, whole, other, KeySame, hb]

theorem alike_mono (mk : PMaker T W P R B M) (kd : Kind) (n : Nat × Nat) (w : W) (k : Key W P) :
    Alike mk (.mono kd n w) k ↔ KeySame mk (.mono kd n w) k ∨ ∃ j, other (.mono kd n w) = some j ∧ KeySame mk j k := by
  obtain ⟨a, b⟩ := n
  rcases k with k | ⟨c, d⟩ | ⟨kd', ⟨c, d⟩, w'⟩ | ⟨kd', ⟨c, d⟩, p'⟩
  · cases kd <;> cases k <;> by_cases hb : b = 0 <;> simp [Alike, whole, other, KeySame, Same, PMaker.base, hb]
  all_goals cases kd <;> by_cases hb : b = 0 <;> simp [Alike, whole, other, KeySame, hb]

theorem alike_poly (mk : PMaker T W P R B M) (kd : Kind) (n : Nat × Nat) (p : P) (k : Key W P) :
    Alike mk (.poly kd n p) k ↔ KeySame mk (.poly kd n p) k ∨ ∃ j, other (.poly kd n p) = some j ∧ KeySame mk j k := by
  obtain ⟨a, b⟩ := n
  rcases k with k | ⟨c, d⟩ | ⟨kd', ⟨c, d⟩, w'⟩ | ⟨kd', ⟨c, d⟩, p'⟩
  · cases kd <;> cases k <;> by_cases hb : b = 0 <;> simp [Alike, whole, other, KeySame, Same, PMaker.base, hb]
  all_goals cases kd <;> by_cases hb : b = 0 <;> simp [Alike, whole, other, KeySame, hb]

/-- The store of a key tells everything that is alike, but for the other index. -/
theorem alike_iff (mk : PMaker T W P R B M) (i k : Key W P) : Alike mk i k ↔ KeySame mk i k ∨ ∃ j, other i = some j ∧ KeySame mk j k := by
  cases i with
  | plain i => exact alike_plain mk i k
  | moment n => exact alike_moment mk n k
  | mono kd n w => exact alike_mono mk kd n w k
  | poly kd n p => exact alike_poly mk kd n p k

theorem whole_whole (i : Key W P) : whole (whole i) = whole i := by
  cases i with
  | plain i => cases i <;> rfl
  | _ => rfl

theorem alike_whole (mk : PMaker T W P R B M) (i : Key W P) (j : Key W P) : Alike mk (whole i) j ↔ Alike mk i j := by
  unfold Alike
  rw [whole_whole]

theorem alike_refl {mk : PMaker T W P R B M} (ho : POrdered mk) (i : Key W P) : Alike mk i i := by
  rcases i with i | n | ⟨k, n, w⟩ | ⟨k, n, p⟩
  · cases i <;> simp [Alike, whole, ho.refl]
  all_goals simp [Alike, whole, ho.refl]

theorem alike_of_whole {mk : PMaker T W P R B M} (ho : POrdered mk) {i j : Key W P} (h : whole i = whole j) : Alike mk i j := by
  have := alike_refl ho j
  unfold Alike at this ⊢
  rw [h]
  exact this

theorem Alike.symm {mk : PMaker T W P R B M} {i j : Key W P} (h : Alike mk i j) : Alike mk j i := by
  unfold Alike at *
  generalize whole i = a at *
  generalize whole j = b at *
  split at h
  · exact ⟨h.1.symm, h.2.symm⟩
  · exact h.symm
  · exact ⟨h.1.symm, h.2.1.symm, h.2.2.symm⟩
  · exact ⟨h.1.symm, h.2.1.symm, h.2.2.2, h.2.2.1⟩
  · exact h.elim

theorem Alike.trans {mk : PMaker T W P R B M} (ho : POrdered mk) {i j k : Key W P} (h : Alike mk i j) (h' : Alike mk j k) : Alike mk i k := by
  unfold Alike at *
  generalize whole i = a at *
  generalize whole j = b at *
  generalize whole k = c at *
  split at h
  · split at h' <;> simp_all
  · split at h' <;> simp_all
  · split at h' <;> simp_all
  · split at h' <;> simp_all only [reduceCtorEq, Key.poly.injEq]
    rename_i x
    obtain ⟨rfl, rfl, rfl⟩ := x
    exact ⟨trivial, trivial, ho.trans _ _ _ h.2.2.1 h.2.2.2 h'.2.2.1 h'.2.2.2⟩
  · exact h.elim

/-! ## Stores -/

/-- What holds of the stores by themselves. -/
structure Store (mk : PMaker T W P R B M) (S : PSystem T W P B M) : Prop where
  base : MatrixSystem.Inv mk.base S.base
  moments : ∀ e ∈ S.moments, 0 ≤ e.2
  monos : ∀ k, ∀ e ∈ S.monos k, 0 ≤ e.2
  polys : ∀ k, ∀ e ∈ S.polys k, 0 ≤ e.2

theorem mapFind_neg {K : Type} {less : K → K → Bool} {l : List (K × Int)} (hv : ∀ e ∈ l, 0 ≤ e.2) {k : K} (h : mapFind less l k < 0) : mapFind less l k = -1 := by
  rcases mapFind_cases less l k with x | ⟨e, he, -, x⟩
  · exact x.2
  · have := hv e he
    omega

theorem Store.neg {mk : PMaker T W P R B M} {S : PSystem T W P B M} (h : Store mk S) {i : Key W P} (hi : S.find mk i < 0) : S.find mk i = -1 := by
  cases i with
  | plain i => exact h.base.neg hi
  | moment n => exact mapFind_neg h.moments hi
  | mono k n w => exact mapFind_neg (h.monos k) hi
  | poly k n p => exact mapFind_neg (h.polys k) hi

theorem mapFind_any {K : Type} {less : K → K → Bool} {l : List (K × Int)} (hv : ∀ e ∈ l, 0 ≤ e.2) {k : K} (h : mapFind less l k < 0) :
    l.any (fun e => !less e.1 k && !less k e.1) = false := by
  rcases mapFind_cases less l k with ⟨x, -⟩ | ⟨e, he, -, x⟩
  · rw [List.any_eq_false]
    intro e he
    simpa using x e he
  · have := hv e he
    omega

theorem Store.contains {mk : PMaker T W P R B M} {S : PSystem T W P B M} (h : Store mk S) {i : Key W P} (hi : S.find mk i < 0) : S.contains mk i = false := by
  cases i with
  | plain i =>
    cases i with
    | moment n =>
      have : MatrixSystem.vectorFind S.base.moments n = -1 := h.neg hi
      show MatrixSystem.vectorContains S.base.moments n = false
      rw [MatrixSystem.vectorContains_eq, this]
      rfl
    | localizing n w => exact mapFind_any h.base.localizing hi
    | poly n p => exact decide_eq_false (by have : mapFind _ _ _ < 0 := hi; exact Int.not_le.mpr this)
    | subst a b => exact mapFind_any h.base.substituted hi
  | moment n => exact mapFind_any h.moments hi
  | mono k n w => exact mapFind_any (h.monos k) hi
  | poly k n p => exact decide_eq_false (by have : mapFind _ _ _ < 0 := hi; exact Int.not_le.mpr this)

/-- A new index is found from then on, and nothing else changes. -/
theorem Store.find_insert {mk : PMaker T W P R B M} (ho : POrdered mk) {S : PSystem T W P B M} (h : Store mk S) {i : Key W P} (hi : S.find mk i < 0) (o : Int)
    (j : Key W P) : (KeySame mk i j → (S.insert mk i o).find mk j = o) ∧ (¬ KeySame mk i j → (S.insert mk i o).find mk j = S.find mk j) := by
  classical
  cases i with
  | plain i =>
    cases j with
    | plain j => exact h.base.find_insert ho.base hi o j
    | _ => exact ⟨fun e => e.elim, fun _ => rfl⟩
  | moment n =>
    cases j with
    | moment n' =>
      simp only [PSystem.find, PSystem.insert, KeySame]
      rw [mapFind_insert (fun a => (lessNear_iff.mpr rfl).1) (fun a b c x y => lessNear_iff.mpr ((lessNear_iff.mp x).trans (lessNear_iff.mp y))) h.moments hi]
      exact ⟨fun e => if_pos (lessNear_iff.mpr e), fun e => if_neg fun x => e (lessNear_iff.mp x)⟩
    | _ => exact ⟨fun e => e.elim, fun _ => rfl⟩
  | mono k n w =>
    cases j with
    | mono k' n' w' =>
      simp only [PSystem.find, PSystem.insert, KeySame]
      by_cases hk : k' = k
      · subst hk
        rw [if_pos rfl, mapFind_insert (fun a => (lessMono_iff.mpr ⟨rfl, rfl⟩).1) (fun a b c x y => lessMono_iff.mpr (by
          obtain ⟨x1, x2⟩ := lessMono_iff.mp x
          obtain ⟨y1, y2⟩ := lessMono_iff.mp y
          exact ⟨x1.trans y1, x2.trans y2⟩)) (h.monos k') hi]
        exact ⟨fun e => if_pos (lessMono_iff.mpr e.2), fun e => if_neg fun x => e ⟨rfl, lessMono_iff.mp x⟩⟩
      · rw [if_neg hk]
        exact ⟨fun e => absurd e.1.symm hk, fun _ => rfl⟩
    | _ => exact ⟨fun e => e.elim, fun _ => rfl⟩
  | poly k n p =>
    cases j with
    | poly k' n' p' =>
      simp only [PSystem.find, PSystem.insert, KeySame]
      by_cases hk : k' = k
      · subst hk
        rw [if_pos rfl, mapFind_insert (fun a => (lessPoly_iff.mpr ⟨rfl, ho.refl _, ho.refl _⟩).1) (fun a b c x y => lessPoly_iff.mpr (by
          obtain ⟨x1, x2, x3⟩ := lessPoly_iff.mp x
          obtain ⟨y1, y2, y3⟩ := lessPoly_iff.mp y
          exact ⟨x1.trans y1, ho.trans _ _ _ x2 x3 y2 y3⟩)) (h.polys k') hi]
        exact ⟨fun e => if_pos (lessPoly_iff.mpr e.2), fun e => if_neg fun x => e ⟨rfl, lessPoly_iff.mp x⟩⟩
      · rw [if_neg hk]
        exact ⟨fun e => absurd e.1.symm hk, fun _ => rfl⟩
    | _ => exact ⟨fun e => e.elim, fun _ => rfl⟩

theorem base_insert_table (mk : Maker T W P R B M) (S : System T W P B M) (i : Index W P) (o : Int) :
    (S.insert mk i o).table = S.table ∧ (S.insert mk i o).matrices = S.matrices ∧ (S.insert mk i o).books = S.books := by
  cases i <;> exact ⟨rfl, rfl, rfl⟩

theorem insert_table (mk : PMaker T W P R B M) (S : PSystem T W P B M) (i : Key W P) (o : Int) :
    (S.insert mk i o).base.table = S.base.table ∧ (S.insert mk i o).base.matrices = S.base.matrices ∧ (S.insert mk i o).base.books = S.base.books := by
  cases i with
  | plain i => exact base_insert_table _ _ _ _
  | _ => exact ⟨rfl, rfl, rfl⟩

/-- Entering an index for a matrix that has none in this store keeps all this. -/
theorem Store.insert {mk : PMaker T W P R B M} (ho : POrdered mk) {S : PSystem T W P B M} (h : Store mk S) {i : Key W P} (hi : S.find mk i < 0) {o : Nat}
    (hl : o < S.base.matrices.length) (hn : ∀ j, (∃ x, i = .plain x) → S.find mk (.plain j) ≠ o) : Store mk (S.insert mk i o) := by
  cases i with
  | plain i => exact ⟨h.base.insert ho.base hi hl fun j => hn j ⟨i, rfl⟩, h.moments, h.monos, h.polys⟩
  | moment n =>
    refine ⟨h.base, fun e he => ?_, h.monos, h.polys⟩
    rcases mapInsert_mem he with y | y
    · exact h.moments e y
    · rw [y]; simp
  | mono k n w =>
    refine ⟨h.base, h.moments, fun k' e he => ?_, h.polys⟩
    simp only [PSystem.insert] at he
    split at he
    · rcases mapInsert_mem he with y | y
      · exact h.monos k e y
      · rw [y]; simp
    · exact h.monos k' e he
  | poly k n w =>
    refine ⟨h.base, h.moments, h.monos, fun k' e he => ?_⟩
    simp only [PSystem.insert] at he
    split at he
    · rcases mapInsert_mem he with y | y
      · exact h.polys k e y
      · rw [y]; simp
    · exact h.polys k' e he

/-! ## The system -/

/-- What holds of systems at all times. -/
structure Inv (mk : PMaker T W P R B M) (c : Terms T W P R B M) (S : PSystem T W P B M) : Prop where
  store : Store mk S
  range : ∀ i, S.find mk i < S.base.matrices.length
  alike : ∀ i j, Alike mk i j → S.find mk i = S.find mk j
  inj : ∀ i j, 0 ≤ S.find mk i → S.find mk i = S.find mk j → Alike mk i j
  ok : c.ok S.base.table
  right : ∀ i (o : Nat) m, S.find mk i = o → S.base.matrices[o]? = some (some m) → ∃ j, Alike mk j i ∧ c.good S.base.table j m

/-- What operations other than deletions do: matrices stay where they are, and indices that were known lead to the same matrices; others lead to new ones. -/
structure Grows (mk : PMaker T W P R B M) (c : Terms T W P R B M) (S S' : PSystem T W P B M) : Prop where
  inv : Inv mk c S'
  le : c.le S.base.table S'.base.table
  matrices : S.base.matrices <+: S'.base.matrices
  old : ∀ i, 0 ≤ S.find mk i → S'.find mk i = S.find mk i
  new : ∀ i, S.find mk i < 0 → 0 ≤ S'.find mk i → (S.base.matrices.length : Int) ≤ S'.find mk i

variable {mk : PMaker T W P R B M} {c : Terms T W P R B M}

theorem new_find (mk : PMaker T W P R B M) (t : T) (i : Key W P) : (PSystem.new t : PSystem T W P B M).find mk i = -1 := by
  cases i with
  | plain i => cases i <;> rfl
  | _ => rfl

theorem new_inv (mk : PMaker T W P R B M) {t : T} (ht : c.ok t) : Inv mk c (PSystem.new t) := by
  refine ⟨⟨MatrixSystem.inv_new mk.base t, (fun _ h => by cases h), (fun _ _ h => by cases h), (fun _ _ h => by cases h)⟩, fun i => ?_, fun i j _ => ?_, fun i j h => ?_, ht,
    fun i o m h => ?_⟩
  · rw [new_find]; simp [PSystem.new, System.new]
  · rw [new_find, new_find]
  · rw [new_find] at h; omega
  · rw [new_find] at h; omega

theorem Grows.refl (hc : Contract mk c) {S : PSystem T W P B M} (h : Inv mk c S) : Grows mk c S S :=
  ⟨h, hc.refl _, List.prefix_rfl, fun _ _ => rfl, fun _ a b => by omega⟩

theorem Grows.trans (hc : Contract mk c) {S S' S'' : PSystem T W P B M} (h : Grows mk c S S') (h' : Grows mk c S' S'') : Grows mk c S S'' := by
  refine ⟨h'.inv, hc.trans _ _ _ h.le h'.le, h.matrices.trans h'.matrices, fun i hi => ?_, fun i hi hi' => ?_⟩
  · have := h.old i hi
    rw [h'.old i (by omega), this]
  · by_cases hx : 0 ≤ S'.find mk i
    · have := h.new i hi hx
      rw [h'.old i hx]
      exact this
    · have := h'.new i (by omega) hi'
      have := h.matrices.length_le
      omega

/-- The indices of a system, without matrices, symbols and rulebooks. -/
def SameIndices (S S' : PSystem T W P B M) : Prop :=
  MatrixSystem.SameIndices S.base S'.base ∧ S'.moments = S.moments ∧ S'.monos = S.monos ∧ S'.polys = S.polys

theorem SameIndices.find {S S' : PSystem T W P B M} (h : SameIndices S S') (mk : PMaker T W P R B M) (i : Key W P) : S'.find mk i = S.find mk i := by
  obtain ⟨h1, h2, h3, h4⟩ := h
  cases i with
  | plain i => exact h1.find mk.base i
  | _ => simp [PSystem.find, h2, h3, h4]

/-- Changes that leave the indices alone. -/
theorem Inv.same (hc : Contract mk c) {S S' : PSystem T W P B M} (h : Inv mk c S) (hs : SameIndices S S') (hl : S.base.matrices.length ≤ S'.base.matrices.length)
    (hm : ∀ (o : Nat) m, o < S.base.matrices.length → S'.base.matrices[o]? = some (some m) → S.base.matrices[o]? = some (some m)) (hok : c.ok S'.base.table)
    (hle : c.le S.base.table S'.base.table) : Inv mk c S' := by
  have hf := hs.find mk
  obtain ⟨h1, h2, h3, h4⟩ := hs
  refine ⟨⟨h.store.base.same h1 hl, h2 ▸ h.store.moments, h3 ▸ h.store.monos, h4 ▸ h.store.polys⟩, fun i => ?_, fun i j => ?_, fun i j => ?_, hok, fun i o m => ?_⟩
  · rw [hf]; have := h.range i; omega
  · rw [hf, hf]; exact h.alike i j
  · rw [hf, hf]; exact h.inj i j
  · rw [hf]
    intro hi ho
    have := h.range i
    obtain ⟨j, a, b⟩ := h.right i o m hi (hm o m (by omega) ho)
    exact ⟨j, a, hc.stays _ _ _ _ hle b⟩

theorem Grows.same (hc : Contract mk c) {S S' : PSystem T W P B M} (h : Inv mk c S) (hs : SameIndices S S') (hp : S.base.matrices <+: S'.base.matrices)
    (hok : c.ok S'.base.table) (hle : c.le S.base.table S'.base.table) : Grows mk c S S' := by
  have hf := hs.find mk
  refine ⟨h.same hc hs hp.length_le (fun o m ho hm => ?_) hok hle, hle, hp, fun i _ => hf i, fun i a b => by rw [hf] at b; omega⟩
  obtain ⟨l, hl⟩ := hp
  rw [← hl, List.getElem?_append_left ho] at hm
  exact hm

theorem made_same (S : PSystem T W P B M) (r : T × Option M) : SameIndices S (S.made r).1 ∧ S.base.matrices <+: (S.made r).1.base.matrices :=
  ⟨⟨(MatrixSystem.made_same S.base r).1, rfl, rfl, rfl⟩, (MatrixSystem.made_same S.base r).2⟩

theorem made_table (S : PSystem T W P B M) (r : T × Option M) : (S.made r).1.base.table = r.1 := by
  unfold PSystem.made System.made
  split <;> rfl

/-- What a factory does: the system grows, and the matrix is new: its number is not that of an index, it is there, and it is right. -/
def Makes (mk : PMaker T W P R B M) (c : Terms T W P R B M) (S : PSystem T W P B M) (good : T → M → Prop) (r : PSystem T W P B M × Option (Nat × M)) : Prop :=
  Grows mk c S r.1 ∧ ∀ o m, r.2 = some (o, m) → S.base.matrices.length ≤ o ∧ r.1.base.matrices[o]? = some (some m) ∧ (∀ j, r.1.find mk j ≠ o) ∧ good r.1.base.table m

/-- There is a result, if there always is one, and it is as it should be. -/
def Answers {α : Type} (c : Terms T W P R B M) (x : Option α) (post : α → Prop) : Prop := (c.safe → x.isSome) ∧ ∀ r, x = some r → post r

theorem Answers.mono {α : Type} {x : Option α} {p q : α → Prop} (h : Answers c x p) (hpq : ∀ a, p a → q a) : Answers c x q := ⟨h.1, fun r hr => hpq r (h.2 r hr)⟩

theorem Answers.bind {α β : Type} {x : Option α} {f : α → Option β} {p : α → Prop} {q : β → Prop} (h : Answers c x p) (hf : ∀ a, p a → Answers c (f a) q) :
    Answers c (x.bind f) q := by
  cases x with
  | none => exact ⟨fun hs => by simpa using h.1 hs, fun r hr => by simp at hr⟩
  | some a => exact hf a (h.2 a rfl)

theorem Answers.map {α β : Type} {x : Option α} {f : α → β} {p : α → Prop} {q : β → Prop} (h : Answers c x p) (hf : ∀ a, p a → q (f a)) : Answers c (x.map f) q := by
  cases x with
  | none => exact ⟨fun hs => by simpa using h.1 hs, fun r hr => by simp at hr⟩
  | some a => exact ⟨fun _ => rfl, fun r hr => by simp only [Option.map_some, Option.some.injEq] at hr; subst hr; exact hf a (h.2 a rfl)⟩

theorem Answers.pure {α : Type} {a : α} {p : α → Prop} (h : p a) : Answers c (some a) p := ⟨fun _ => rfl, fun r hr => by cases hr; exact h⟩

theorem made_makes (hc : Contract mk c) {S : PSystem T W P B M} (h : Inv mk c S) {x : Option (T × Option M)} {good : T → M → Prop} (hx : Fulfils c S.base.table x good) :
    Answers c (x.map S.made) fun r => Makes mk c S good r ∧ ∀ j, r.1.find mk j = S.find mk j := by
  have h0 : Answers c x fun r => c.ok r.1 ∧ c.le S.base.table r.1 ∧ ∀ m, r.2 = some m → good r.1 m := ⟨hx.1, fun r hr => hx.2 r.1 r.2 hr⟩
  refine h0.map fun r hr => ?_
  have hf := (made_same S r).1.find mk
  refine ⟨⟨Grows.same hc h (made_same S r).1 (made_same S r).2 (by rw [made_table]; exact hr.1) (by rw [made_table]; exact hr.2.1), fun o m ho => ?_⟩, hf⟩
  have : o = S.base.matrices.length ∧ r.2 = some m := by
    unfold PSystem.made System.made at ho
    split at ho <;> simp at ho
    rename_i m' e
    exact ⟨ho.1.symm, by rw [e, ho.2]⟩
  obtain ⟨rfl, e⟩ := this
  refine ⟨le_rfl, ?_, fun j => ?_, by rw [made_table]; exact hr.2.2 m e⟩
  · simp [PSystem.made, System.made, e, System.push]
  · rw [hf]
    have := h.range j
    omega

/-- Entering a new matrix under both its indices. -/
theorem enter_spec (ho : POrdered mk) {S : PSystem T W P B M} (h : Inv mk c S) {i : Key W P} (hi : S.find mk i < 0) {o : Nat} {m : M}
    (hm : S.base.matrices[o]? = some (some m)) (hn : ∀ j, S.find mk j ≠ o) (hg : ∃ j, Alike mk j i ∧ c.good S.base.table j m) :
    ∃ S', (S.insert mk i o).notify mk i o = some S' ∧ Inv mk c S' ∧ S'.base.table = S.base.table ∧ S'.base.matrices = S.base.matrices ∧ S'.base.books = S.base.books ∧
      ∀ j, (Alike mk i j → S'.find mk j = o) ∧ (¬ Alike mk i j → S'.find mk j = S.find mk j) := by
  have hl := (List.getElem?_eq_some_iff.mp hm).1
  have hf := h.store.find_insert ho hi (o : Int)
  have hs := h.store.insert ho hi hl fun j _ => hn (.plain j)
  obtain ⟨t1, t2, t3⟩ := insert_table mk S i o
  have key : ∀ S' : PSystem T W P B M, Store mk S' → S'.base.table = S.base.table → S'.base.matrices = S.base.matrices →
      (∀ j, (Alike mk i j → S'.find mk j = o) ∧ (¬ Alike mk i j → S'.find mk j = S.find mk j)) → Inv mk c S' := by
    intro S' hs' e1 e2 hf'
    refine ⟨hs', fun j => ?_, fun j k hjk => ?_, fun j k h1 h2 => ?_, e1 ▸ h.ok, fun j x m' h1 h2 => ?_⟩
    · rw [e2]
      by_cases hj : Alike mk i j
      · rw [(hf' j).1 hj]; omega
      · rw [(hf' j).2 hj]; exact h.range j
    · by_cases hj : Alike mk i j
      · rw [(hf' j).1 hj, (hf' k).1 (hj.trans ho hjk)]
      · rw [(hf' j).2 hj, (hf' k).2 fun x => hj (x.trans ho hjk.symm)]
        exact h.alike j k hjk
    · by_cases hj : Alike mk i j
      · by_cases hk : Alike mk i k
        · exact hj.symm.trans ho hk
        · rw [(hf' j).1 hj, (hf' k).2 hk] at h2
          exact absurd h2.symm (hn k)
      · rw [(hf' j).2 hj] at h1 h2
        by_cases hk : Alike mk i k
        · rw [(hf' k).1 hk] at h2
          exact absurd h2 (hn j)
        · rw [(hf' k).2 hk] at h2
          exact h.inj j k h1 h2
    · rw [e2] at h2
      rw [e1]
      by_cases hj : Alike mk i j
      · rw [(hf' j).1 hj] at h1
        have : o = x := by omega
        subst this
        rw [hm] at h2
        obtain rfl : m = m' := by simpa using h2
        obtain ⟨k, a, b⟩ := hg
        exact ⟨k, a.trans ho hj, b⟩
      · rw [(hf' j).2 hj] at h1
        exact h.right j x m' h1 h2
  rw [notify_eq]
  cases hoth : other i with
  | none =>
    have hA : ∀ j, Alike mk i j ↔ KeySame mk i j := fun j => by rw [alike_iff, hoth]; simp
    have hff : ∀ j, (Alike mk i j → (S.insert mk i o).find mk j = o) ∧ (¬ Alike mk i j → (S.insert mk i o).find mk j = S.find mk j) := fun j => by
      rw [hA]; exact hf j
    exact ⟨_, rfl, key _ hs t1 t2 hff, t1, t2, t3, hff⟩
  | some i' =>
    have hA : ∀ j, Alike mk i j ↔ KeySame mk i j ∨ KeySame mk i' j := fun j => by rw [alike_iff, hoth]; simp
    have hal : Alike mk i i' := alike_of_whole ho (other_whole hoth).symm
    have hd : ¬ KeySame mk i i' := by
      rcases i with i | n | ⟨k, n, w⟩ | ⟨k, n, p⟩
      · cases i <;> simp only [other, Option.some.injEq, reduceCtorEq] at hoth <;> subst hoth <;> exact id
      · simp only [other] at hoth
        split at hoth <;> simp only [Option.some.injEq, reduceCtorEq] at hoth
        subst hoth; exact id
      · cases k <;> simp only [other, reduceCtorEq] at hoth
        split at hoth <;> simp only [Option.some.injEq, reduceCtorEq] at hoth
        subst hoth; exact id
      · cases k <;> simp only [other, reduceCtorEq] at hoth
        split at hoth <;> simp only [Option.some.injEq, reduceCtorEq] at hoth
        subst hoth; exact id
    have hi' : (S.insert mk i o).find mk i' < 0 := by
      rw [(hf i').2 hd, ← h.alike i i' hal]
      exact hi
    have hn' : ∀ j, (∃ x, i' = .plain x) → (S.insert mk i o).find mk (.plain j) ≠ o := by
      rintro j ⟨x, rfl⟩
      have : ¬ KeySame mk i (.plain j) := by
        rcases i with i | n | ⟨k, n, w⟩ | ⟨k, n, p⟩
        · cases i <;> simp [other] at hoth
        all_goals exact id
      rw [(hf _).2 this]
      exact hn _
    have hf2 := hs.find_insert ho hi' (o : Int)
    have hs2 := hs.insert ho hi' (by rw [t2]; exact hl) hn'
    obtain ⟨u1, u2, u3⟩ := insert_table mk (S.insert mk i o) i' o
    have hff : ∀ j, (Alike mk i j → ((S.insert mk i o).insert mk i' o).find mk j = o) ∧
        (¬ Alike mk i j → ((S.insert mk i o).insert mk i' o).find mk j = S.find mk j) := by
      intro j
      rw [hA]
      constructor
      · intro hj
        by_cases h2 : KeySame mk i' j
        · exact (hf2 j).1 h2
        · rw [(hf2 j).2 h2]
          exact (hf j).1 (hj.resolve_right h2)
      · intro hj
        rw [(hf2 j).2 fun x => hj (Or.inr x), (hf j).2 fun x => hj (Or.inl x)]
    refine ⟨(S.insert mk i o).insert mk i' o, ?_, key _ hs2 (u1.trans t1) (u2.trans t2) hff, u1.trans t1, u2.trans t2, u3.trans t3, hff⟩
    dsimp only [PSystem.alias]
    rw [hs.contains hi']
    rfl

/-- What a request does: the system grows; if there is a matrix, then its index is known afterwards. -/
def Gives (mk : PMaker T W P R B M) (c : Terms T W P R B M) (S : PSystem T W P B M) (i : Key W P) (r : PSystem T W P B M × Option (Nat × M)) : Prop :=
  Grows mk c S r.1 ∧ (0 ≤ S.find mk i → r.1 = S) ∧ ∀ o m, r.2 = some (o, m) → r.1.find mk i = o ∧ r.1.base.matrices[o]? = some (some m)

theorem create_gives (ho : POrdered mk) (hc : Contract mk c) {make : PSystem T W P B M → Reply T W P B M} {S : PSystem T W P B M} (h : Inv mk c S) {i : Key W P}
    {F : Key W P → Prop}
    (hm : Answers c (make S) fun r => Makes mk c S (fun t m => ∃ j, Alike mk j i ∧ c.good t j m) r ∧ (S.find mk i < 0 → r.1.find mk i < 0) ∧
      ∀ j, F j → r.1.find mk j = S.find mk j) :
    Answers c (S.create mk make i) fun r => Gives mk c S i r ∧ ∀ j, F j → ¬ Alike mk i j → r.1.find mk j = S.find mk j := by
  unfold PSystem.create
  dsimp only
  split
  · rename_i hi
    refine Answers.pure ⟨⟨.refl hc h, fun _ => rfl, fun o m e => ?_⟩, fun _ _ _ => rfl⟩
    cases hg : S.base.get (S.find mk i) with
    | none => simp [hg] at e
    | some m' =>
      simp only [hg, Option.map_some, Option.some.injEq, Prod.mk.injEq] at e
      obtain ⟨rfl, rfl⟩ := e
      exact ⟨by simp only; omega, (get_iff hg).2⟩
  · rename_i hi
    refine hm.bind fun q hq => ?_
    obtain ⟨⟨g1, g2⟩, g3, g4⟩ := hq
    obtain ⟨S', v⟩ := q
    cases v with
    | none => exact Answers.pure ⟨⟨g1, fun x => absurd x hi, fun o m e => by simp at e⟩, fun j hj _ => g4 j hj⟩
    | some km =>
      obtain ⟨k, m⟩ := km
      dsimp only at g1 g2 g3 g4 ⊢
      obtain ⟨a, b, d, e⟩ := g2 k m rfl
      have hneg := g3 (by omega)
      rw [g1.inv.store.contains hneg]
      obtain ⟨S'', e1, e2, e3, e4, -, e5⟩ := enter_spec ho g1.inv hneg b d e
      simp only [Bool.false_eq_true, if_false, e1, Option.map_some]
      refine Answers.pure ⟨⟨⟨e2, by rw [e3]; exact g1.le, by rw [e4]; exact g1.matrices, fun j hj => ?_, fun j hj hj' => ?_⟩, fun x => absurd x hi, fun o m' e' => ?_⟩,
        fun j hj hja => by rw [(e5 j).2 hja]; exact g4 j hj⟩
      · have hold := g1.old j hj
        by_cases hs : Alike mk i j
        · have := g1.inv.alike i j hs
          omega
        · rw [(e5 j).2 hs, hold]
      · dsimp only at hj' ⊢
        by_cases hs : Alike mk i j
        · rw [(e5 j).1 hs]; omega
        · rw [(e5 j).2 hs] at hj' ⊢
          exact g1.new j hj hj'
      · simp only [Option.some.injEq, Prod.mk.injEq] at e'
        obtain ⟨rfl, rfl⟩ := e'
        exact ⟨(e5 i).1 (alike_refl ho i), by rw [e4]; exact b⟩

/-- The index under which a term is looked for. -/
theorem term_whole {kind : Kind} {n : Nat × Nat} {plain : Bool} (hp : plain = true → kind = .localizing ∧ n.2 = 0) (w : W) :
    whole (if plain then .plain (.localizing n.1 w) else .mono kind n w : Key W P) = .mono kind n w := by
  cases plain with
  | false => rfl
  | true =>
    obtain ⟨rfl, h⟩ := hp rfl
    obtain ⟨a, b⟩ := n
    dsimp only at h
    subst h
    rfl

theorem createMono_gives (ho : POrdered mk) (hc : Contract mk c) {S : PSystem T W P B M} (h : Inv mk c S) {kind : Kind} {n : Nat × Nat} {plain : Bool}
    (hp : plain = true → kind = .localizing ∧ n.2 = 0) {w : W} (hl : c.legal S.base.table (.request (.mono kind n w))) :
    Answers c (S.createMono mk kind n plain w) fun r => Gives mk c S (.mono kind n w) r ∧ ∀ j, ¬ Alike mk (.mono kind n w) j → r.1.find mk j = S.find mk j := by
  have hw := term_whole (W := W) (P := P) hp w
  unfold PSystem.createMono
  generalize (if plain then .plain (.localizing n.1 w) else .mono kind n w : Key W P) = i at hw ⊢
  have hal : Alike mk (.mono kind n w) i := alike_of_whole ho hw.symm
  have hm := made_makes hc h (hc.mono _ kind n w h.ok hl)
  have := create_gives ho hc h (i := i) (F := fun _ => True) (make := fun S => (mk.mono kind S.base.table n w).map S.made)
    (hm.mono fun r hr => ⟨⟨hr.1.1, fun o m e => by
      obtain ⟨a, b, d, g⟩ := hr.1.2 o m e
      exact ⟨a, b, d, _, hal, g⟩⟩, fun hi => by rw [hr.2]; exact hi, fun j _ => hr.2 j⟩)
  refine this.mono fun r hr => ?_
  obtain ⟨⟨a, b, d⟩, e⟩ := hr
  refine ⟨⟨a, fun hi => b (by rw [← h.alike _ _ hal]; exact hi), fun o m hom => ?_⟩, fun j hj => e j trivial fun x => hj (hal.trans ho x)⟩
  rw [a.inv.alike _ _ hal]
  exact d o m hom

theorem parts_spec (ho : POrdered mk) (hc : Contract mk c) {kind : Kind} {n : Nat × Nat} {plain : Bool}
    (hp : plain = true → kind = .localizing ∧ n.2 = 0) (p : P) : ∀ (k : Nat), k ≤ mk.size p → ∀ {S : PSystem T W P B M}, Inv mk c S →
    c.legal S.base.table (.request (.poly kind n p)) → Answers c (S.parts mk kind n plain p k) fun q => Grows mk c S q.1 ∧
      (∀ j, (∀ w, ¬ Alike mk (.mono kind n w) j) → q.1.find mk j = S.find mk j) ∧
      ∀ l, q.2 = some l → ∃ ws : List W, ws.length = k ∧ Serves mk c q.1.base.table kind n l ws ∧
        ∀ (x : Nat) w, ws[x]? = some w → ∃ t', c.ok t' ∧ c.le t' q.1.base.table ∧ mk.word t' p (mk.size p - k + x) = some w
  | 0, _, S, h, hl => Answers.pure ⟨.refl hc h, fun _ _ => rfl, fun l e => by
      simp only [Option.some.injEq] at e; subst e; exact ⟨[], rfl, ⟨rfl, fun x m w e => by simp at e⟩, fun x w e => by simp at e⟩⟩
  | k + 1, hk, S, h, hl => by
    unfold PSystem.parts
    have hw := hc.word _ kind n p (mk.size p - (k + 1)) h.ok hl (by omega)
    refine Answers.bind (p := fun w => mk.word S.base.table p (mk.size p - (k + 1)) = some w ∧ c.legal S.base.table (.request (.mono kind n w)))
      ⟨hw.1, fun w e => ⟨e, hw.2 w e⟩⟩ fun w hw' => ?_
    refine (createMono_gives ho hc h hp hw'.2).bind fun r hr => ?_
    obtain ⟨⟨g1, -, g2⟩, g3⟩ := hr
    obtain ⟨S', v⟩ := r
    cases v with
    | none => exact Answers.pure ⟨g1, fun j hj => g3 j (hj w), fun l e => by simp at e⟩
    | some om =>
      obtain ⟨o, m⟩ := om
      dsimp only at g1 g2 g3 ⊢
      obtain ⟨g4, g5⟩ := g2 o m rfl
      obtain ⟨j, ha, hg⟩ := g1.inv.right _ o m g4 g5
      refine (parts_spec ho hc hp p k (by omega) g1.inv (hc.legal _ _ _ g1.le hl)).map fun q hq => ?_
      obtain ⟨q1, q2, q3⟩ := hq
      refine ⟨g1.trans hc q1, fun j hj => by rw [q2 j hj, g3 j (hj w)], fun l e => ?_⟩
      dsimp only at e ⊢
      rw [Option.map_eq_some_iff] at e
      obtain ⟨l', e, rfl⟩ := e
      obtain ⟨ws, q4, q5, q6⟩ := q3 l' e
      refine ⟨w :: ws, by simp [q4], ⟨by simp [q5.1], fun x m' w' hx hx' => ?_⟩, fun x w' hx => ?_⟩
      · cases x with
        | zero =>
          simp only [List.getElem?_cons_zero, Option.some.injEq] at hx hx'
          subst hx hx'
          exact ⟨j, ha, hc.stays _ _ _ _ q1.le hg⟩
        | succ x =>
          rw [List.getElem?_cons_succ] at hx hx'
          exact q5.2 x m' w' hx hx'
      · cases x with
        | zero =>
          simp only [List.getElem?_cons_zero, Option.some.injEq] at hx
          subst hx
          exact ⟨_, h.ok, hc.trans _ _ _ g1.le q1.le, hw'.1⟩
        | succ x =>
          rw [List.getElem?_cons_succ] at hx
          have e2 : mk.size p - (k + 1) + (x + 1) = mk.size p - k + x := by omega
          rw [e2]
          exact q6 x w' hx

theorem Makes.after (hc : Contract mk c) {S S' : PSystem T W P B M} (h : Grows mk c S S') {good : T → M → Prop} {r : PSystem T W P B M × Option (Nat × M)} (hr : Makes mk c S' good r) :
    Makes mk c S good r :=
  ⟨h.trans hc hr.1, fun o m e => by
    obtain ⟨a, b⟩ := hr.2 o m e
    exact ⟨le_trans h.matrices.length_le a, b⟩⟩

theorem Makes.weaken {S : PSystem T W P B M} {good good' : T → M → Prop} {r : PSystem T W P B M × Option (Nat × M)} (hr : Makes mk c S good r)
    (hg : ∀ m, good r.1.base.table m → good' r.1.base.table m) : Makes mk c S good' r :=
  ⟨hr.1, fun o m e => by
    obtain ⟨a, b, d, g⟩ := hr.2 o m e
    exact ⟨a, b, d, hg m g⟩⟩

theorem makePoly_makes (ho : POrdered mk) (hc : Contract mk c) {kind : Kind} {n : Nat × Nat} {plain : Bool} (hp : plain = true → kind = .localizing ∧ n.2 = 0) (p : P)
    {S : PSystem T W P B M} (h : Inv mk c S) (hl : c.legal S.base.table (.request (.poly kind n p))) :
    Answers c (S.makePoly mk kind n plain p) fun r => Makes mk c S (fun t => c.good t (.poly kind n p)) r ∧
      ∀ j, (∀ w, ¬ Alike mk (.mono kind n w) j) → r.1.find mk j = S.find mk j := by
  unfold PSystem.makePoly
  refine (parts_spec ho hc hp p _ le_rfl h hl).bind fun q hq => ?_
  obtain ⟨q1, q2, q3⟩ := hq
  obtain ⟨S', v⟩ := q
  cases v with
  | none => exact Answers.pure ⟨⟨q1, fun o m e => by simp at e⟩, q2⟩
  | some l =>
    dsimp only at q1 q2 q3 ⊢
    obtain ⟨ws, q4, q5, q6⟩ := q3 l rfl
    have hl' := hc.legal _ _ _ q1.le hl
    have q7 : Spelt mk c S'.base.table p ws := ⟨q4, fun x w hx => by simpa using q6 x w hx⟩
    have hx : Fulfils c S'.base.table (if plain then mk.composePlain S'.base.table n.1 p l else mk.compose kind S'.base.table n p l) fun t' => c.good t' (.poly kind n p) := by
      cases plain with
      | false => exact hc.compose _ kind n p l ws q1.inv.ok hl' q7 q5
      | true =>
        obtain ⟨rfl, h0⟩ := hp rfl
        obtain ⟨a, b⟩ := n
        dsimp only at h0
        subst h0
        exact hc.composePlain _ a p l ws q1.inv.ok hl' q7 q5
    exact (made_makes hc q1.inv hx).mono fun r hr => ⟨hr.1.after hc q1, fun j hj => by rw [hr.2, q2 j hj]⟩

theorem rawParts_spec (ho : POrdered mk) (hc : Contract mk c) {kind : Kind} {n : Nat × Nat} {plain : Bool}
    (hp : plain = true → kind = .localizing ∧ n.2 = 0) : ∀ (ws : List W) {S : PSystem T W P B M}, Inv mk c S →
    (∀ w ∈ ws, c.legal S.base.table (.request (.mono kind n w))) → Answers c (S.rawParts mk kind n plain ws) fun q => Grows mk c S q.1 ∧
      ∀ l, q.2 = some l → Serves mk c q.1.base.table kind n l ws
  | [], S, h, hl => Answers.pure ⟨.refl hc h, fun l e => by simp only [Option.some.injEq] at e; subst e; exact ⟨rfl, fun x m w e => by simp at e⟩⟩
  | w :: ws, S, h, hl => by
    unfold PSystem.rawParts
    refine (createMono_gives ho hc h hp (hl w List.mem_cons_self)).bind fun r hr => ?_
    obtain ⟨⟨g1, -, g2⟩, -⟩ := hr
    obtain ⟨S', v⟩ := r
    cases v with
    | none => exact Answers.pure ⟨g1, fun l e => by simp at e⟩
    | some om =>
      obtain ⟨o, m⟩ := om
      dsimp only at g1 g2 ⊢
      obtain ⟨g4, g5⟩ := g2 o m rfl
      obtain ⟨j, ha, hg⟩ := g1.inv.right _ o m g4 g5
      refine (rawParts_spec ho hc hp ws g1.inv fun w hw => hc.legal _ _ _ g1.le (hl w (List.mem_cons_of_mem _ hw))).map fun q hq => ?_
      obtain ⟨q1, q3⟩ := hq
      refine ⟨g1.trans hc q1, fun l e => ?_⟩
      dsimp only at e ⊢
      rw [Option.map_eq_some_iff] at e
      obtain ⟨l', e, rfl⟩ := e
      obtain ⟨q4, q5⟩ := q3 l' e
      refine ⟨by simp [q4], fun (x : Nat) m' w' hx hx' => ?_⟩
      cases x with
      | zero =>
        simp only [List.getElem?_cons_zero, Option.some.injEq] at hx hx'
        subst hx hx'
        exact ⟨j, ha, hc.stays _ _ _ _ q1.le hg⟩
      | succ x =>
        rw [List.getElem?_cons_succ] at hx hx'
        exact q5 x m' w' hx hx'

theorem makeRaw_makes (ho : POrdered mk) (hc : Contract mk c) {kind : Kind} {n : Nat × Nat} {plain : Bool} (hp : plain = true → kind = .localizing ∧ n.2 = 0) (q : R)
    {S : PSystem T W P B M} (h : Inv mk c S) (hl : c.legal S.base.table (.raw kind n q)) :
    Answers c (S.makeRaw mk kind n plain q) fun r => Makes mk c S (fun t => c.goodRaw t kind n q) r := by
  unfold PSystem.makeRaw
  cases ha : mk.aliases with
  | true =>
    rw [if_pos rfl]
    refine (rawParts_spec ho hc hp _ h (hc.rawWords ha _ kind n q h.ok hl)).bind fun x hx => ?_
    obtain ⟨q1, q3⟩ := hx
    obtain ⟨S', v⟩ := x
    cases v with
    | none => exact Answers.pure ⟨q1, fun o m e => by simp at e⟩
    | some l =>
      dsimp only at q1 q3 ⊢
      have hl' := hc.legal _ _ _ q1.le hl
      have hx : Fulfils c S'.base.table (if plain then mk.composeRawPlain S'.base.table n.1 q l else mk.composeRaw kind S'.base.table n q l) fun t' => c.goodRaw t' kind n q := by
        cases plain with
        | false => exact hc.composeRaw ha _ kind n q l q1.inv.ok hl' (q3 l rfl)
        | true =>
          obtain ⟨rfl, h0⟩ := hp rfl
          obtain ⟨a, b⟩ := n
          dsimp only at h0
          subst h0
          exact hc.composeRawPlain ha _ a q l q1.inv.ok hl' (q3 l rfl)
      exact (made_makes hc q1.inv hx).mono fun r hr => hr.1.after hc q1
  | false =>
    rw [if_neg (by simp)]
    have hr := hc.register ha _ kind n q h.ok hl
    refine Answers.bind (p := fun r => c.ok r.1 ∧ c.le S.base.table r.1 ∧ c.legal r.1 (.request (.poly kind n r.2)) ∧
      ∀ t'' m, c.le r.1 t'' → c.good t'' (.poly kind n r.2) m → c.goodRaw t'' kind n q m) ⟨hr.1, fun r e => hr.2 r.1 r.2 e⟩ fun r hr => ?_
    obtain ⟨h1, h2, h3, h4⟩ := hr
    have g : Grows mk c S { S with base := { S.base with table := r.1 } } := Grows.same hc h ⟨⟨rfl, rfl, rfl, rfl⟩, rfl, rfl, rfl⟩ List.prefix_rfl h1 h2
    exact (makePoly_makes ho hc hp r.2 g.inv h3).mono fun x hx => (hx.1.weaken fun m hm => h4 _ m hx.1.1.le hm).after hc g

theorem make_makes (ho : POrdered mk) (hc : Contract mk c) {S : PSystem T W P B M} (h : Inv mk c S) {i : Key W P} (hl : c.legal S.base.table (.request i)) :
    Answers c (S.make mk i) fun r => Makes mk c S (fun t m => ∃ j, Alike mk j i ∧ c.good t j m) r ∧ (S.find mk i < 0 → r.1.find mk i < 0) ∧
      ∀ j : Key W P, False → r.1.find mk j = S.find mk j := by
  have hl' := hc.plain _ _ hl
  have simple : ∀ {x : Option (T × Option M)} {j : Key W P}, Alike mk j i → Fulfils c S.base.table x (fun t => c.good t j) →
      Answers c (x.map S.made) fun r => Makes mk c S (fun t m => ∃ j, Alike mk j i ∧ c.good t j m) r ∧ (S.find mk i < 0 → r.1.find mk i < 0) ∧
        ∀ j : Key W P, False → r.1.find mk j = S.find mk j := fun ha hx =>
    (made_makes hc h hx).mono fun r hr => ⟨hr.1.weaken fun m hm => ⟨_, ha, hm⟩, fun hi => by rw [hr.2]; exact hi, fun _ e => e.elim⟩
  have poly : ∀ {kind : Kind} {n : Nat × Nat} {p : P}, Alike mk (.poly kind n p) i → (∀ w, ¬ Alike mk (.mono kind n w) i) → c.legal S.base.table (.request (.poly kind n p)) →
      Answers c (S.makePoly mk kind n false p) fun r => Makes mk c S (fun t m => ∃ j, Alike mk j i ∧ c.good t j m) r ∧ (S.find mk i < 0 → r.1.find mk i < 0) ∧
        ∀ j : Key W P, False → r.1.find mk j = S.find mk j := fun ha hn hl =>
    (makePoly_makes ho hc (by simp) _ h hl).mono fun r hr => ⟨hr.1.weaken fun m hm => ⟨_, ha, hm⟩, fun hi => by rw [hr.2 i hn]; exact hi, fun _ e => e.elim⟩
  cases i with
  | plain i =>
    cases i with
    | moment n => exact simple (j := .moment (n, 0)) (alike_of_whole ho rfl) (hc.moment _ _ h.ok hl')
    | localizing n w => exact simple (j := .mono .localizing (n, 0) w) (alike_of_whole ho rfl) (hc.mono _ _ _ _ h.ok hl')
    | poly n p => exact poly (alike_of_whole ho rfl) (fun w => by simp [Alike, whole]) hl'
    | subst a b =>
      show Answers c (match S.base.get a, S.base.book b with
        | some m, some r => (mk.substitute S.base.table r m).map S.made
        | _, _ => some (S, none)) _
      split
      · exact simple (j := .plain (.subst a b)) (alike_refl ho _) (hc.substitute _ a b _ _ h.ok hl)
      · exact Answers.pure ⟨⟨.refl hc h, fun o m e => by simp at e⟩, id, fun _ e => e.elim⟩
  | moment n => exact simple (alike_refl ho _) (hc.moment _ _ h.ok hl)
  | mono k n w => exact simple (alike_refl ho _) (hc.mono _ _ _ _ h.ok hl)
  | poly k n p => exact poly (alike_refl ho _) (fun w => by simp [Alike, whole]) hl

theorem request_gives (ho : POrdered mk) (hc : Contract mk c) {S : PSystem T W P B M} (h : Inv mk c S) {i : Key W P} (hl : c.legal S.base.table (.request i)) :
    Answers c (S.request mk i) fun r => Gives mk c S i r :=
  (create_gives ho hc h (make_makes ho hc h hl)).mono fun _ hr => hr.1

/-- What operations keep: all but matrices that are deleted. -/
structure Keeps (mk : PMaker T W P R B M) (c : Terms T W P R B M) (S S' : PSystem T W P B M) (x : Op W P R B) : Prop where
  inv : Inv mk c S'
  le : c.le S.base.table S'.base.table
  old : ∀ i, 0 ≤ S.find mk i → S'.find mk i = S.find mk i
  length : S.base.matrices.length ≤ S'.base.matrices.length
  matrices : ∀ (o : Nat) y, S.base.matrices[o]? = some y → x ≠ .delete o → S'.base.matrices[o]? = some y

theorem Grows.keeps {S S' : PSystem T W P B M} (h : Grows mk c S S') (x : Op W P R B) : Keeps mk c S S' x :=
  ⟨h.inv, h.le, h.old, h.matrices.length_le, fun o y ho _ => by
    obtain ⟨l, hl⟩ := h.matrices
    rw [← hl, List.getElem?_append_left (List.getElem?_eq_some_iff.mp ho).1]
    exact ho⟩

theorem exec_spec (ho : POrdered mk) (hc : Contract mk c) {S : PSystem T W P B M} (h : Inv mk c S) {x : Op W P R B} (hl : c.legal S.base.table x) :
    (c.safe → (x ≠ .delete S.base.matrices.length) → (S.exec mk x).isSome) ∧ ∀ S' r, S.exec mk x = some (S', r) → Keeps mk c S S' x ∧ ∀ o m, r = some (o, m) →
      S'.base.matrices[o]? = some (some m) ∧ (∀ i, x = .request i → S'.find mk i = o) ∧
      ∀ k n q, x.forRaw = some (k, n, q) → c.goodRaw S'.base.table k n q m ∧ S.base.matrices.length ≤ o := by
  cases x with
  | request i =>
    have := request_gives ho hc h hl
    refine ⟨fun hs _ => this.1 hs, fun S' r e => ?_⟩
    obtain ⟨g1, -, g2⟩ := this.2 _ e
    refine ⟨g1.keeps _, fun o m hom => ⟨(g2 o m hom).2, fun j hj => ?_, fun k n q e => by simp [Op.forRaw] at e⟩⟩
    cases hj
    exact (g2 o m hom).1
  | rawPlain n q =>
    have := makeRaw_makes ho hc (n := (n, 0)) (plain := true) (fun _ => ⟨rfl, rfl⟩) q h (hc.plainRaw _ _ _ hl)
    refine ⟨fun hs _ => this.1 hs, fun S' r e => ?_⟩
    obtain ⟨g1, g2⟩ := this.2 _ e
    refine ⟨g1.keeps _, fun o m hom => ?_⟩
    obtain ⟨a, b, -, d⟩ := g2 o m hom
    exact ⟨b, fun i e => (by cases e), fun k n' q' e => by
      simp only [Op.forRaw, Option.some.injEq, Prod.mk.injEq] at e
      obtain ⟨rfl, rfl, rfl⟩ := e
      exact ⟨d, a⟩⟩
  | raw k n q =>
    have := makeRaw_makes ho hc (kind := k) (n := n) (plain := false) (by simp) q h hl
    refine ⟨fun hs _ => this.1 hs, fun S' r e => ?_⟩
    obtain ⟨g1, g2⟩ := this.2 _ e
    refine ⟨g1.keeps _, fun o m hom => ?_⟩
    obtain ⟨a, b, -, d⟩ := g2 o m hom
    exact ⟨b, fun i e => (by cases e), fun k n' q' e => by
      simp only [Op.forRaw, Option.some.injEq, Prod.mk.injEq] at e
      obtain ⟨rfl, rfl, rfl⟩ := e
      exact ⟨d, a⟩⟩
  | delete i =>
    have hd : ∀ S1 b, S.base.delete i = some (S1, b) → MatrixSystem.SameIndices S.base S1 ∧ S1.table = S.base.table ∧ S1.matrices.length = S.base.matrices.length ∧
        (∀ o : Nat, (i ≠ o → S1.matrices[o]? = S.base.matrices[o]?)) ∧ ∀ (o : Nat) m, S1.matrices[o]? = some (some m) → S.base.matrices[o]? = some (some m) := by
      intro S1 b e
      unfold System.delete at e
      split at e
      · cases e; exact ⟨⟨rfl, rfl, rfl, rfl⟩, rfl, rfl, fun _ _ => rfl, fun _ _ => id⟩
      · split at e
        · cases e
        · cases e; exact ⟨⟨rfl, rfl, rfl, rfl⟩, rfl, rfl, fun _ _ => rfl, fun _ _ => id⟩
        · cases e
          refine ⟨⟨rfl, rfl, rfl, rfl⟩, rfl, by simp, fun o ho => ?_, fun o m ho => ?_⟩
          · exact List.getElem?_set_ne (by omega)
          · by_cases he : i.toNat = o
            · subst he
              dsimp only at ho
              rw [List.getElem?_set] at ho
              simp at ho
            · dsimp only at ho
              rwa [List.getElem?_set_ne he] at ho
    constructor
    · intro hs hx
      show ((S.base.delete i).map _).isSome
      rw [Option.isSome_map]
      unfold System.delete
      split
      · rfl
      · rename_i hi
        have : i ≠ S.base.matrices.length := fun e => hx (by rw [e])
        have hlt : i.toNat < S.base.matrices.length := by omega
        rw [List.getElem?_eq_getElem hlt]
        split
        · rename_i e; cases e
        · rfl
        · rfl
    · intro S' r e
      change (S.base.delete i).map _ = _ at e
      rw [Option.map_eq_some_iff] at e
      obtain ⟨⟨S1, b⟩, e1, e2⟩ := e
      cases e2
      obtain ⟨a1, a2, a3, a4, a5⟩ := hd S1 b e1
      refine ⟨⟨h.same hc ⟨a1, rfl, rfl, rfl⟩ a3.ge (fun o m _ => a5 o m) (a2 ▸ h.ok) (a2 ▸ hc.refl _), a2 ▸ hc.refl _, fun j _ => ?_, a3.ge, fun o y ho hx => ?_⟩,
        fun o m e => by cases e⟩
      · exact SameIndices.find (S' := { S with base := S1 }) ⟨a1, rfl, rfl, rfl⟩ mk j
      · exact (a4 o fun e => hx (by rw [e])).trans ho
  | addBook b =>
    refine ⟨fun _ _ => rfl, fun S' r e => ?_⟩
    cases e
    have g : Grows mk c S { S with base := { S.base with books := S.base.books ++ [b] } } :=
      Grows.same hc h ⟨⟨rfl, rfl, rfl, rfl⟩, rfl, rfl, rfl⟩ List.prefix_rfl h.ok (hc.refl _)
    exact ⟨g.keeps _, fun o m e => by cases e⟩
  | mergeBook i b =>
    have hx : ∃ S1, S.exec mk (.mergeBook i b) = some (S1, none) ∧ Grows mk c S S1 := by
      show ∃ S1, (match S.base.books[i]? with
        | none => some (S, none)
        | some c => some ({ S with base := { S.base with books := S.base.books.set i (mk.merge c b).1 } }, none)) = some (S1, none) ∧ _
      split
      · exact ⟨S, rfl, .refl hc h⟩
      · exact ⟨_, rfl, Grows.same hc h ⟨⟨rfl, rfl, rfl, rfl⟩, rfl, rfl, rfl⟩ List.prefix_rfl h.ok (hc.refl _)⟩
    obtain ⟨S1, e1, g⟩ := hx
    refine ⟨fun _ _ => by rw [e1]; rfl, fun S' r e => ?_⟩
    rw [e1] at e
    cases e
    exact ⟨g.keeps _, fun o m e => by cases e⟩
  | dictionary n =>
    have hf := hc.fill _ n h.ok hl
    refine ⟨fun hs _ => ?_, fun S' r e => ?_⟩
    · show ((mk.fill S.base.table n).map _).isSome
      rw [Option.isSome_map]
      exact hf.1 hs
    · change (mk.fill S.base.table n).map _ = _ at e
      rw [Option.map_eq_some_iff] at e
      obtain ⟨⟨t', y⟩, e1, e2⟩ := e
      cases e2
      obtain ⟨a, b⟩ := hf.2 t' y e1
      have g : Grows mk c S { S with base := { S.base with table := t' } } := Grows.same hc h ⟨⟨rfl, rfl, rfl, rfl⟩, rfl, rfl, rfl⟩ List.prefix_rfl a b
      exact ⟨g.keeps _, fun o m e => by cases e⟩

theorem runs_spec (ho : POrdered mk) (hc : Contract mk c) {S S' : PSystem T W P B M} {l : List (Op W P R B)} (hr : Runs mk c S l S') (h : Inv mk c S) :
    Inv mk c S' ∧ c.le S.base.table S'.base.table ∧ (∀ i, 0 ≤ S.find mk i → S'.find mk i = S.find mk i) ∧ S.base.matrices.length ≤ S'.base.matrices.length ∧
      ∀ (o : Nat) y, S.base.matrices[o]? = some y → .delete o ∉ l → S'.base.matrices[o]? = some y := by
  induction hr with
  | refl => exact ⟨h, hc.refl _, fun _ _ => rfl, le_rfl, fun _ _ e _ => e⟩
  | step hr hl he ih =>
    obtain ⟨i1, i2, i3, i4, i5⟩ := ih
    obtain ⟨k, -⟩ := (exec_spec ho hc i1 hl).2 _ _ he
    refine ⟨k.inv, hc.trans _ _ _ i2 k.le, fun i hi => ?_, le_trans i4 k.length, fun o y ho hd => ?_⟩
    · rw [k.old i (by rw [i3 i hi]; exact hi), i3 i hi]
    · simp only [List.mem_append, List.mem_singleton, not_or] at hd
      exact k.matrices o y (i5 o y ho hd.1) fun e => hd.2 e.symm

/-- No promises at all. -/
def Terms.none : Terms T W P R B M := ⟨fun _ => True, fun _ _ => True, fun _ _ => True, fun _ _ _ => True, fun _ _ _ _ _ => True, False⟩

theorem contract_none (mk : PMaker T W P R B M) : Contract mk Terms.none := by
  have hf : ∀ t (x : Option (T × Option M)) good, (∀ t m, good t m) → Fulfils (Terms.none : Terms T W P R B M) t x good :=
    fun t x good hg => ⟨fun h => h.elim, fun t' r _ => ⟨trivial, trivial, fun m _ => hg t' m⟩⟩
  exact {
    refl := fun _ => trivial
    trans := fun _ _ _ _ _ => trivial
    legal := fun _ _ _ _ _ => trivial
    plain := fun _ _ _ => trivial
    plainRaw := fun _ _ _ _ => trivial
    stays := fun _ _ _ _ _ _ => trivial
    moment := fun t n _ _ => hf _ _ _ fun _ _ => trivial
    mono := fun t k n w _ _ => hf _ _ _ fun _ _ => trivial
    word := fun t k n p x _ _ _ => ⟨fun h => h.elim, fun _ _ => trivial⟩
    compose := fun t k n p l ws _ _ _ _ => hf _ _ _ fun _ _ => trivial
    composePlain := fun t n p l ws _ _ _ _ => hf _ _ _ fun _ _ => trivial
    register := fun _ t k n q _ _ => ⟨fun h => h.elim, fun _ _ _ => ⟨trivial, trivial, trivial, fun _ _ _ _ => trivial⟩⟩
    rawWords := fun _ _ _ _ _ _ _ _ _ => trivial
    composeRaw := fun _ t k n q l _ _ _ => hf _ _ _ fun _ _ => trivial
    composeRawPlain := fun _ t n q l _ _ _ => hf _ _ _ fun _ _ => trivial
    substitute := fun t a b r m _ _ => hf _ _ _ fun _ _ => trivial
    fill := fun t n _ _ => ⟨fun h => h.elim, fun _ _ _ => ⟨trivial, trivial⟩⟩ }

theorem Steps.runs {S S' : PSystem T W P B M} {l : List (Op W P R B)} (h : Steps mk S l S') : Runs mk Terms.none S l S' := by
  induction h with
  | refl => exact .refl _
  | step _ he ih => exact .step ih trivial he

end Moment.PauliSystem
