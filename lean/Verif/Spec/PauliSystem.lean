import Verif.Model.PauliSystem

/-! # What is expected of matrix systems of Pauli scenarios -/

namespace Moment.PauliSystem
open Moment.MatrixSystem (Index)

variable {T W P R B M : Type}

/-- An index without mention of neighbours means the same as one with zero neighbours, that is, without restriction. -/
def whole : Key W P → Key W P
  | .plain (.moment n) => .moment (n, 0)
  | .plain (.localizing n w) => .mono .localizing (n, 0) w
  | .plain (.poly n p) => .poly .localizing (n, 0) p
  | i => i

/-- Indices for the same matrix: same kind, level, neighbours and hash of the word; for polynomials neither is less. -/
def Alike (mk : PMaker T W P R B M) (i j : Key W P) : Prop :=
  match whole i, whole j with
  | .plain (.subst a b), .plain (.subst a' b') => a = a' ∧ b = b'
  | .moment n, .moment n' => n = n'
  | .mono k n w, .mono k' n' w' => k = k' ∧ n = n' ∧ mk.hash w = mk.hash w'
  | .poly k n p, .poly k' n' p' => k = k' ∧ n = n' ∧ mk.less p p' = false ∧ mk.less p' p = false
  | _, _ => False

/-- The comparison of polynomials is one that `std::map` can use: not being less either way is an equivalence. -/
structure POrdered (mk : PMaker T W P R B M) : Prop where
  refl : ∀ p, mk.less p p = false
  trans : ∀ p q r, mk.less p q = false → mk.less q p = false → mk.less q r = false → mk.less r q = false → mk.less p r = false ∧ mk.less r p = false

/-- The words in which promises are given: tables that are all right, tables that come from earlier ones, operations that are allowed, matrices that are right
for an index or a raw polynomial, and whether there always is a result. -/
structure Terms (T W P R B M : Type) where
  ok : T → Prop
  le : T → T → Prop
  legal : T → Op W P R B → Prop
  good : T → Key W P → M → Prop
  goodRaw : T → Kind → Nat × Nat → R → M → Prop
  safe : Prop

/-- The result, if there is one, has a table that is all right, and so is the matrix, if there is one. -/
def Fulfils (c : Terms T W P R B M) (t : T) (x : Option (T × Option M)) (good : T → M → Prop) : Prop :=
  (c.safe → x.isSome) ∧ ∀ t' r, x = some (t', r) → c.ok t' ∧ c.le t t' ∧ ∀ m, r = some m → good t' m

/-- A list of matrices for a list of words. -/
def Serves (mk : PMaker T W P R B M) (c : Terms T W P R B M) (t : T) (k : Kind) (n : Nat × Nat) (l : List M) (ws : List W) : Prop :=
  l.length = ws.length ∧ ∀ (x : Nat) m w, l[x]? = some m → ws[x]? = some w → ∃ j, Alike mk j (.mono k n w) ∧ c.good t j m

/-- The words of a polynomial, each read from the table as it was at some earlier time. -/
def Spelt (mk : PMaker T W P R B M) (c : Terms T W P R B M) (t : T) (p : P) (ws : List W) : Prop :=
  ws.length = mk.size p ∧ ∀ (x : Nat) w, ws[x]? = some w → ∃ t', c.ok t' ∧ c.le t' t ∧ mk.word t' p x = some w

/-- What is promised by the functions that make matrices. Each of them is only spoken of by itself. -/
structure Contract (mk : PMaker T W P R B M) (c : Terms T W P R B M) : Prop where
  refl : ∀ t, c.le t t
  trans : ∀ t t' t'', c.le t t' → c.le t' t'' → c.le t t''
  legal : ∀ t t' x, c.le t t' → c.legal t x → c.legal t' x
  plain : ∀ t i, c.legal t (.request i) → c.legal t (.request (whole i))
  plainRaw : ∀ t n q, c.legal t (.rawPlain n q) → c.legal t (.raw .localizing (n, 0) q)
  stays : ∀ t t' i m, c.le t t' → c.good t i m → c.good t' i m
  moment : ∀ t n, c.ok t → c.legal t (.request (.moment n)) → Fulfils c t (mk.moment t n) fun t' => c.good t' (.moment n)
  mono : ∀ t k n w, c.ok t → c.legal t (.request (.mono k n w)) → Fulfils c t (mk.mono k t n w) fun t' => c.good t' (.mono k n w)
  word : ∀ t k n p x, c.ok t → c.legal t (.request (.poly k n p)) → x < mk.size p → (c.safe → (mk.word t p x).isSome) ∧
    ∀ w, mk.word t p x = some w → c.legal t (.request (.mono k n w))
  compose : ∀ t k n p l ws, c.ok t → c.legal t (.request (.poly k n p)) → Spelt mk c t p ws → Serves mk c t k n l ws →
    Fulfils c t (mk.compose k t n p l) fun t' => c.good t' (.poly k n p)
  composePlain : ∀ t n p l ws, c.ok t → c.legal t (.request (.poly .localizing (n, 0) p)) → Spelt mk c t p ws →
    Serves mk c t .localizing (n, 0) l ws → Fulfils c t (mk.composePlain t n p l) fun t' => c.good t' (.poly .localizing (n, 0) p)
  register : mk.aliases = false → ∀ t k n q, c.ok t → c.legal t (.raw k n q) → (c.safe → (mk.register t q).isSome) ∧
    ∀ t' p, mk.register t q = some (t', p) → c.ok t' ∧ c.le t t' ∧ c.legal t' (.request (.poly k n p)) ∧
      ∀ t'' m, c.le t' t'' → c.good t'' (.poly k n p) m → c.goodRaw t'' k n q m
  rawWords : mk.aliases = true → ∀ t k n q, c.ok t → c.legal t (.raw k n q) → ∀ w ∈ mk.rawWords q, c.legal t (.request (.mono k n w))
  composeRaw : mk.aliases = true → ∀ t k n q l, c.ok t → c.legal t (.raw k n q) →
    Serves mk c t k n l (mk.rawWords q) → Fulfils c t (mk.composeRaw k t n q l) fun t' => c.goodRaw t' k n q
  composeRawPlain : mk.aliases = true → ∀ t n q l, c.ok t → c.legal t (.raw .localizing (n, 0) q) →
    Serves mk c t .localizing (n, 0) l (mk.rawWords q) → Fulfils c t (mk.composeRawPlain t n q l) fun t' => c.goodRaw t' .localizing (n, 0) q
  substitute : ∀ t a b r m, c.ok t → c.legal t (.request (.plain (.subst a b))) → Fulfils c t (mk.substitute t r m) fun t' => c.good t' (.plain (.subst a b))
  fill : ∀ t n, c.ok t → c.legal t (.dictionary n) → (c.safe → (mk.fill t n).isSome) ∧ ∀ t' r, mk.fill t n = some (t', r) → c.ok t' ∧ c.le t t'

/-- The functions that make matrices do not throw for the levels and neighbours in `fine`, nor those for raw polynomials for the kinds and neighbours in `fineRaw`. -/
structure Lively (mk : PMaker T W P R B M) (c : Terms T W P R B M) (fine : Nat × Nat → Prop) (fineRaw : Kind → Nat × Nat → Prop) : Prop where
  moment : ∀ t n t' r, c.ok t → c.legal t (.request (.moment n)) → fine n → mk.moment t n = some (t', r) → r.isSome
  mono : ∀ t k n w t' r, c.ok t → c.legal t (.request (.mono k n w)) → fine n → mk.mono k t n w = some (t', r) → r.isSome
  compose : ∀ t k n p l ws t' r, c.ok t → c.legal t (.request (.poly k n p)) → fine n → Spelt mk c t p ws → Serves mk c t k n l ws →
    mk.compose k t n p l = some (t', r) → r.isSome
  composePlain : ∀ t n p l ws t' r, c.ok t → c.legal t (.request (.poly .localizing (n, 0) p)) → fine (n, 0) → Spelt mk c t p ws →
    Serves mk c t .localizing (n, 0) l ws → mk.composePlain t n p l = some (t', r) → r.isSome
  raw : ∀ k n, fineRaw k n → fine n
  composeRaw : mk.aliases = true → ∀ t k n q l t' r, c.ok t → c.legal t (.raw k n q) → fineRaw k n → Serves mk c t k n l (mk.rawWords q) →
    mk.composeRaw k t n q l = some (t', r) → r.isSome
  composeRawPlain : mk.aliases = true → ∀ t n q l t' r, c.ok t → c.legal t (.raw .localizing (n, 0) q) → fineRaw .localizing (n, 0) →
    Serves mk c t .localizing (n, 0) l (mk.rawWords q) → mk.composeRawPlain t n q l = some (t', r) → r.isSome

/-- The level and neighbours of an index, but for substituted matrices. -/
def Key.near (i : Key W P) : Option (Nat × Nat) :=
  match whole i with
  | .plain _ => none
  | .moment n => some n
  | .mono _ n _ => some n
  | .poly _ n _ => some n

/-- The kind and the neighbours that a raw polynomial is meant for. -/
def Op.forRaw : Op W P R B → Option (Kind × (Nat × Nat) × R)
  | .raw k n q => some (k, n, q)
  | .rawPlain n q => some (.localizing, (n, 0), q)
  | _ => none

/-- Operations that are allowed at their time; matrices are not deleted at the place after the last (C100). -/
inductive Runs (mk : PMaker T W P R B M) (c : Terms T W P R B M) : PSystem T W P B M → List (Op W P R B) → PSystem T W P B M → Prop
  | refl (S : PSystem T W P B M) : Runs mk c S [] S
  | step {S S' S'' : PSystem T W P B M} {l : List (Op W P R B)} {x : Op W P R B} {r : Option (Nat × M)} : Runs mk c S l S' → c.legal S'.base.table x →
      S'.exec mk x = some (S'', r) → Runs mk c S (l ++ [x]) S''

end Moment.PauliSystem
