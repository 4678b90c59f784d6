import Verif.Proof.PauliAlive
import Verif.Spec.Order
import Mathlib.Data.List.Lex

/-! # C109: matrices of Pauli scenarios by number and by index

Symbol tables, words, polynomials and matrices are parameters: the theorems are about all matrix systems of Pauli scenarios. -/

namespace Moment.C109
open Moment.PauliSystem
open Moment.MatrixSystem (Index get_some get_iff)

variable {T W P R B M : Type} {mk : PMaker T W P R B M}

/-- A system that was made by its constructor, and operations since. -/
def Reached (mk : PMaker T W P R B M) (S : PSystem T W P B M) : Prop := ∃ t l, Steps mk (PSystem.new t) l S

theorem Reached.inv (ho : POrdered mk) {S : PSystem T W P B M} (h : Reached mk S) : PauliSystem.Inv mk Terms.none S := by
  obtain ⟨t, l, h⟩ := h
  exact (runs_spec ho (contract_none mk) h.runs (new_inv mk trivial)).1

/-! ## A small system, for examples

Tables are numbers that count the matrices made; a matrix is the text of what it was made for, and the count. Words are numbers; a polynomial is the list of
its words. Rulebooks are numbers. -/

inductive Text
  | moment (n : Nat × Nat)
  | mono (k : Kind) (n : Nat × Nat) (w : Nat)
  | poly (k : Kind) (n : Nat × Nat) (p : List Nat) (l : List Text)
  | raw (k : Kind) (n : Nat × Nat) (q : List Nat) (l : List Text)
  | subst (b : Nat) (m : Text)

def toy : PMaker Nat Nat (List Nat) (List Nat) Nat (Text × Nat) where
  moment t n := some (t + 1, some (.moment n, t))
  mono k t n w := some (t + 1, some (.mono k n w, t))
  hash w := UInt64.ofNat w
  less p q := decide (p < q)
  size p := p.length
  word _ p x := p[x]?
  compose k t n p l := some (t + 1, some (.poly k n p (l.map Prod.fst), t))
  composePlain t n p l := some (t + 1, some (.poly .localizing (n, 0) p (l.map Prod.fst), t))
  aliases := true
  register _ _ := none
  rawWords q := q
  composeRaw k t n q l := some (t + 1, some (.raw k n q (l.map Prod.fst), t))
  composeRawPlain t n q l := some (t + 1, some (.raw .localizing (n, 0) q (l.map Prod.fst), t))
  substitute t b m := some (t + 1, some (.subst b m.1, t))
  merge b c := (b + c, true)
  fill t n := some (t + n, some (n != 0))

theorem toy_ordered : POrdered toy :=
  ⟨fun p => by simp [toy], fun p q r h1 h2 h3 h4 => by
    simp only [toy, decide_eq_false_iff_not, not_lt] at *
    exact ⟨h3.trans h1, h2.trans h4⟩⟩

/-! ## Two indices for one matrix -/

theorem enter_whole {S : PSystem T W P B M} {i : Key W P} {k : Int} (h1 : S.contains mk i = false) (h2 : S.contains mk (whole i) = false) :
    (if S.contains mk i then none else (S.insert mk i k).notify mk i k) = (if S.contains mk (whole i) then none else (S.insert mk (whole i) k).notify mk (whole i) k) := by
  rw [h1, h2]
  simp only [Bool.false_eq_true, if_false]
  rcases i with i | n | ⟨kd, n, w⟩ | ⟨kd, n, p⟩
  · cases i with
    | moment n =>
      show (if S.contains mk (.moment (n, 0)) then none else _) = if S.contains mk (.plain (.moment n)) then none else _
      rw [h1, show S.contains mk (.moment (n, 0)) = false from h2]
      rfl
    | localizing n w =>
      show (if S.contains mk (.mono .localizing (n, 0) w) then none else _) = if S.contains mk (.plain (.localizing n w)) then none else _
      rw [h1, show S.contains mk (.mono .localizing (n, 0) w) = false from h2]
      rfl
    | poly n p =>
      show (if S.contains mk (.poly .localizing (n, 0) p) then none else _) = if S.contains mk (.plain (.poly n p)) then none else _
      rw [h1, show S.contains mk (.poly .localizing (n, 0) p) = false from h2]
      rfl
    | subst a b => rfl
  all_goals rfl

/-- **C109, two indices.** A request for a matrix by an index without neighbours, and one for zero neighbours, do exactly the same: they give the same matrix
and number, and leave the same system behind. Each finds what the other has made. -/
theorem C109_alias (ho : POrdered mk) {S : PSystem T W P B M} (hS : Reached mk S) (i : Key W P) : S.request mk i = S.request mk (whole i) ∧ S.look mk i = S.look mk (whole i) := by
  have h := hS.inv ho
  have ha : Alike mk i (whole i) := alike_of_whole ho (whole_whole i).symm
  have hf := h.alike _ _ ha
  have hm := make_makes ho (contract_none mk) h (i := i) trivial
  have e : S.make mk (whole i) = S.make mk i := by
    rcases i with i | n | ⟨kd, n, w⟩ | ⟨kd, n, p⟩
    · cases i <;> rfl
    all_goals rfl
  constructor
  · unfold PSystem.request PSystem.create
    dsimp only
    rw [← hf, e]
    split
    · rfl
    · rename_i hneg
      cases hx : S.make mk i with
      | none => rfl
      | some r =>
        obtain ⟨⟨g1, -⟩, g2, -⟩ := hm.2 r hx
        obtain ⟨S', v⟩ := r
        cases v with
        | none => rfl
        | some km =>
          obtain ⟨k, m⟩ := km
          have h1 := g2 (by omega)
          have h2 : S'.find mk (whole i) < 0 := by rw [← g1.inv.alike _ _ ha]; exact h1
          have := enter_whole (mk := mk) (k := (k : Int)) (g1.inv.store.contains h1) (g1.inv.store.contains h2)
          simp only [Option.bind_some]
          rw [g1.inv.store.contains h1, g1.inv.store.contains h2] at this ⊢
          simp only [Bool.false_eq_true, if_false] at this ⊢
          rw [this]
  · unfold PSystem.look
    dsimp only
    rw [hf]

/-- A moment matrix without mention of neighbours, with zero neighbours, with one neighbour. -/
example : ∃ S₁ S₂ S₃ m₁ m₂, (PSystem.new 0).request toy (.plain (.moment 2)) = some (S₁, some (0, m₁)) ∧
    S₁.request toy (.moment (2, 0)) = some (S₂, some (0, m₁)) ∧ S₂.request toy (.moment (2, 1)) = some (S₃, some (1, m₂)) ∧ m₂.1 = .moment (2, 1) :=
  ⟨_, _, _, _, _, rfl, rfl, rfl, rfl⟩

/-- **C109, comparisons.** The comparisons of indices are such as `std::map` needs, if that of polynomials is; this is why the model of maps is right. -/
theorem C109_order (hash : W → UInt64) {less : P → P → Bool} (hl : StrictWeak less) :
    StrictWeak lessNear ∧ StrictWeak (lessMono hash) ∧ StrictWeak (PauliSystem.lessPoly less) := by
  have near : StrictWeak lessNear := by
    refine ⟨fun a => by simp [lessNear], fun a b c => ?_, fun a b c => ?_⟩
    · simp only [lessNear, Bool.or_eq_true, decide_eq_true_eq, Bool.and_eq_true, beq_iff_eq]
      omega
    · simp only [lessNear, Bool.or_eq_false_iff, decide_eq_false_iff_not, Bool.and_eq_false_iff, beq_eq_false_iff_ne]
      omega
  have byHash : StrictWeak fun a b : W => decide (hash a < hash b) := by
    refine ⟨fun a => by simp, fun a b c => ?_, fun a b c => ?_⟩ <;> simp only [decide_eq_true_eq, decide_eq_false_iff_not, UInt64.lt_iff_toNat_lt] <;> omega
  exact ⟨near, near.lex byHash, near.lex hl⟩

example : StrictWeak (fun a b : Nat => decide (a < b)) ∧ lessNear (1, 2) (2, 0) = true := by
  refine ⟨⟨fun a => by simp, fun a b c => ?_, fun a b c => ?_⟩, rfl⟩ <;> simp only [decide_eq_true_eq, decide_eq_false_iff_not] <;> omega

/-! ## Matrices stay -/

/-- **C109, matrices stay.** A matrix keeps its number through all operations, until it is deleted by that number. -/
theorem C109_kept (ho : POrdered mk) {S S' : PSystem T W P B M} (hS : Reached mk S) {l : List (Op W P R B)} (hl : Steps mk S l S')
    {o : Nat} {m : M} (h : S.base.get o = some m) (hd : .delete o ∉ l) : S'.base.get o = some m := by
  have := (get_iff h).2
  simp only [Int.toNat_natCast] at this
  exact get_some ((runs_spec ho (contract_none mk) hl.runs (hS.inv ho)).2.2.2.2 o _ this hd)

/-- What a request gives can be read at its number, and found by its index and all that are alike. -/
theorem C109_number (ho : POrdered mk) {S S' : PSystem T W P B M} (hS : Reached mk S) {i j : Key W P} {o : Nat} {m : M}
    (h : S.request mk i = some (S', some (o, m))) (hj : Alike mk i j) : S'.base.get o = some m ∧ S'.look mk j = some (some (o, m)) := by
  obtain ⟨g, -, g'⟩ := (request_gives ho (contract_none mk) (hS.inv ho) (i := i) trivial).2 _ h
  obtain ⟨g1, g2⟩ := g' o m rfl
  dsimp only at g g1 g2
  refine ⟨get_some g2, ?_⟩
  unfold PSystem.look
  rw [← g.inv.alike i j hj, g1]
  simp only [get_some g2, Option.map_some, Int.toNat_natCast]
  rw [if_neg (by omega)]

theorem request_known {S : PSystem T W P B M} {j : Key W P} {o : Nat} (h : S.find mk j = o) : S.request mk j = some (S, (S.base.get o).map fun m => (o, m)) := by
  unfold PSystem.request PSystem.create
  rw [h]
  simp

/-- **C109, asking again.** Once a matrix was made, every later request for it, by the same index or one that is alike, gives this matrix with this number, and
leaves the system as it is, unless it was deleted by its number in between. -/
theorem C109_again (ho : POrdered mk) {S S' S'' : PSystem T W P B M} (hS : Reached mk S) {i j : Key W P} {o : Nat} {m : M}
    (h : S.request mk i = some (S', some (o, m))) {l : List (Op W P R B)} (hl : Steps mk S' l S'') (hd : .delete o ∉ l) (hs : Alike mk i j) :
    S''.request mk j = some (S'', some (o, m)) := by
  obtain ⟨g, -, g'⟩ := (request_gives ho (contract_none mk) (hS.inv ho) (i := i) trivial).2 _ h
  obtain ⟨g1, g2⟩ := g' o m rfl
  dsimp only at g g1 g2
  obtain ⟨i1, -, i2, -, i3⟩ := runs_spec ho (contract_none mk) hl.runs g.inv
  have f1 := i2 i (by omega)
  rw [request_known (o := o) (by rw [← i1.alike i j hs, f1, g1]), get_some (i3 o _ g2 hd)]
  rfl

/-- **C109, different indices.** Requests for indices that are not alike give different numbers, at whatever times. -/
theorem C109_distinct (ho : POrdered mk) {S S' U U' : PSystem T W P B M} (hS : Reached mk S) {i j : Key W P} {o k : Nat} {m n : M}
    (h : S.request mk i = some (S', some (o, m))) {l : List (Op W P R B)} (hl : Steps mk S' l U) (h' : U.request mk j = some (U', some (k, n)))
    (hs : ¬ Alike mk i j) : o ≠ k := by
  obtain ⟨g, -, g'⟩ := (request_gives ho (contract_none mk) (hS.inv ho) (i := i) trivial).2 _ h
  obtain ⟨g1, -⟩ := g' o m rfl
  dsimp only at g g1
  obtain ⟨i1, -, i2, -, -⟩ := runs_spec ho (contract_none mk) hl.runs g.inv
  have f1 := i2 i (by omega)
  obtain ⟨k1, -, k2⟩ := (request_gives ho (contract_none mk) i1 (i := j) trivial).2 _ h'
  obtain ⟨k3, -⟩ := k2 k n rfl
  dsimp only at k1 k3
  rintro rfl
  exact hs (k1.inv.inj i j (by rw [k1.old i (by omega)]; omega) (by rw [k1.old i (by omega)]; omega))

/-- In particular, each number of neighbours has matrices of its own. -/
theorem C109_neighbours (ho : POrdered mk) {S S' U U' : PSystem T W P B M} (hS : Reached mk S) {level a b : Nat} (hab : a ≠ b) {o k : Nat} {m n : M}
    (h : S.request mk (.moment (level, a)) = some (S', some (o, m))) {l : List (Op W P R B)} (hl : Steps mk S' l U)
    (h' : U.request mk (.moment (level, b)) = some (U', some (k, n))) : o ≠ k :=
  C109_distinct ho hS h hl h' fun e => hab (by simpa [Alike, whole] using e)

/-- A matrix for a polynomial with matrices for its terms, one of these terms by its plain index, and a commutator for the same word. -/
example : ∃ S₁ S₂ S₃ m₁ m₂ m₃, (PSystem.new 0).request toy (.poly .localizing (1, 0) [3, 5]) = some (S₁, some (2, m₁)) ∧
    S₁.request toy (.plain (.localizing 1 5)) = some (S₂, some (1, m₂)) ∧ S₂.request toy (.mono .commutator (1, 0) 5) = some (S₃, some (3, m₃)) ∧
    m₁.1 = .poly .localizing (1, 0) [3, 5] [.mono .localizing (1, 0) 3, .mono .localizing (1, 0) 5] ∧ m₃.1 = .mono .commutator (1, 0) 5 :=
  ⟨_, _, _, _, _, _, rfl, rfl, rfl, rfl, rfl⟩

/-! ## Matrices are right -/

/-- **C109, right matrices.** Suppose that the functions that make matrices keep their promises, each by itself. Then, whatever was done with the system
before, all allowed operations have results, so that no assertion fails; the table stays all right and only ever grows; every matrix that a request gives is
right for the index that was asked for or one that is alike, also when it was made earlier for another index; and matrices for raw polynomials are right, with
numbers of their own. -/
theorem C109_contract (ho : POrdered mk) {c : Terms T W P R B M} (hc : Contract mk c) {t : T} (ht : c.ok t)
    {S : PSystem T W P B M} {l : List (Op W P R B)} (hl : Runs mk c (PSystem.new t) l S) {x : Op W P R B} (hx : c.legal S.base.table x) :
    (c.safe → x ≠ .delete S.base.matrices.length → (S.exec mk x).isSome) ∧ c.le t S.base.table ∧
    ∀ S' r, S.exec mk x = some (S', r) → c.ok S'.base.table ∧ c.le S.base.table S'.base.table ∧ ∀ o m, r = some (o, m) →
      (∀ i, x = .request i → ∃ j, Alike mk j i ∧ c.good S'.base.table j m) ∧
      ∀ k n q, x.forRaw = some (k, n, q) → c.goodRaw S'.base.table k n q m ∧ S.base.matrices.length ≤ o := by
  obtain ⟨i1, i2, -⟩ := runs_spec ho hc hl (new_inv mk ht)
  obtain ⟨e1, e2⟩ := exec_spec ho hc i1 hx
  refine ⟨e1, i2, fun S' r he => ?_⟩
  obtain ⟨k, g⟩ := e2 S' r he
  refine ⟨k.inv.ok, k.le, fun o m hom => ?_⟩
  obtain ⟨g1, g2, g3⟩ := g o m hom
  exact ⟨fun i hi => k.inv.right i o m (g2 i hi) g1, g3⟩

/-- Matrices of the small system say what they are for. -/
def toyTerms : Terms Nat Nat (List Nat) (List Nat) Nat (Text × Nat) where
  ok _ := True
  le t t' := t ≤ t'
  legal _ _ := True
  good _ i m := match whole i with
    | .moment n => m.1 = .moment n
    | .mono k n w => m.1 = .mono k n w
    | .poly k n p => ∃ l : List Text, l.length = p.length ∧ m.1 = .poly k n p l ∧
        ∀ (x : Nat) y w, l[x]? = some y → p[x]? = some w → ∃ w', UInt64.ofNat w' = UInt64.ofNat w ∧ y = .mono k n w'
    | .plain _ => True
  goodRaw _ k n q m := ∃ l : List Text, l.length = q.length ∧ m.1 = .raw k n q l
  safe := True

theorem toy_part {t : Nat} {k : Kind} {n : Nat × Nat} {w : Nat} {j : Key Nat (List Nat)} {m : Text × Nat} (ha : Alike toy j (.mono k n w)) (hg : toyTerms.good t j m) :
    ∃ w', UInt64.ofNat w' = UInt64.ofNat w ∧ m.1 = .mono k n w' := by
  unfold Alike at ha
  simp only [toyTerms] at hg
  generalize whole j = a at *
  simp only [whole] at ha
  cases a with
  | mono k' n' w' =>
    obtain ⟨rfl, rfl, hh⟩ := ha
    exact ⟨w', hh, hg⟩
  | plain i => cases i <;> exact ha.elim
  | moment n => exact ha.elim
  | poly k n p => exact ha.elim

theorem toy_poly {t : Nat} {k : Kind} {n : Nat × Nat} {p : List Nat} {l : List (Text × Nat)} {ws : List Nat} (hs : Spelt toy toyTerms t p ws)
    (hv : Serves toy toyTerms t k n l ws) : ∃ l' : List Text, l'.length = p.length ∧ Text.poly k n p (l.map Prod.fst) = .poly k n p l' ∧
      ∀ (x : Nat) y w, l'[x]? = some y → p[x]? = some w → ∃ w', UInt64.ofNat w' = UInt64.ofNat w ∧ y = .mono k n w' := by
  refine ⟨l.map Prod.fst, by rw [List.length_map, hv.1, hs.1]; rfl, rfl, fun x y w hy hw => ?_⟩
  rw [List.getElem?_map, Option.map_eq_some_iff] at hy
  obtain ⟨m, hm, rfl⟩ := hy
  have hlt := (List.getElem?_eq_some_iff.mp hm).1
  rw [hv.1] at hlt
  obtain ⟨j, ha, hg⟩ := hv.2 x m ws[x] hm (List.getElem?_eq_getElem hlt)
  obtain ⟨_, -, -, e⟩ := hs.2 x ws[x] (List.getElem?_eq_getElem hlt)
  have : ws[x] = w := Option.some.inj (e.symm.trans hw)
  rw [← this]
  exact toy_part ha hg

theorem toy_fulfils {t : Nat} {m : Text × Nat} {good : Nat → Text × Nat → Prop} (h : good (t + 1) m) : Fulfils toyTerms t (some (t + 1, some m)) good :=
  ⟨fun _ => rfl, fun t' r e => by
    simp only [Option.some.injEq, Prod.mk.injEq] at e
    obtain ⟨rfl, rfl⟩ := e
    exact ⟨trivial, Nat.le_succ t, fun m' e => by cases e; exact h⟩⟩

theorem toy_contract : Contract toy toyTerms where
  refl _ := le_rfl
  trans _ _ _ := le_trans
  legal _ _ _ _ _ := trivial
  plain _ _ _ := trivial
  plainRaw _ _ _ _ := trivial
  stays _ _ _ _ _ h := h
  moment t n _ _ := toy_fulfils rfl
  mono t k n w _ _ := toy_fulfils rfl
  word t k n p x _ _ hx := ⟨fun _ => by
    have hx : x < p.length := hx
    show (p[x]?).isSome
    rw [List.getElem?_eq_getElem hx]
    rfl, fun _ _ => trivial⟩
  compose t k n p l ws _ _ hs hv := toy_fulfils (toy_poly hs hv)
  composePlain t n p l ws _ _ hs hv := toy_fulfils (toy_poly hs hv)
  register h := by simp [toy] at h
  rawWords _ _ _ _ _ _ _ _ _ := trivial
  composeRaw _ t k n q l _ _ hv := toy_fulfils ⟨l.map Prod.fst, by rw [List.length_map, hv.1]; rfl, rfl⟩
  composeRawPlain _ t n q l _ _ hv := toy_fulfils ⟨l.map Prod.fst, by rw [List.length_map, hv.1]; rfl, rfl⟩
  substitute t a b r m _ _ := toy_fulfils trivial
  fill t n _ _ := ⟨fun _ => rfl, fun t' r e => by
    simp only [toy, Option.some.injEq, Prod.mk.injEq] at e
    exact ⟨trivial, by rw [← e.1]; exact Nat.le_add_right t n⟩⟩

/-- After a request for a localizing matrix, a matrix for a raw polynomial is made with it, by way of plain indices. -/
example : ∃ S S' o m, Runs toy toyTerms (PSystem.new 0) [.request (.mono .localizing (1, 0) 3), .dictionary 4] S ∧
    S.exec toy (.rawPlain 1 [3]) = some (S', some (o, m)) ∧ toyTerms.goodRaw S'.base.table .localizing (1, 0) [3] m ∧
    m.1 = .raw .localizing (1, 0) [3] [.mono .localizing (1, 0) 3] ∧ o = 1 :=
  ⟨_, _, _, _, .step (l := [.request (.mono .localizing (1, 0) 3)]) (x := .dictionary 4) (.step (l := []) (x := .request (.mono .localizing (1, 0) 3)) (.refl _) trivial rfl) trivial rfl,
    rfl, ⟨[.mono .localizing (1, 0) 3], rfl, rfl⟩, rfl, rfl⟩

/-! ## There are matrices -/

/-- **C109, matrices without exceptions.** If moreover the functions that make matrices do not throw for certain levels and neighbours, nor those for raw
polynomials, then without deletions every allowed request for such levels and neighbours gives a matrix, and the right one. -/
theorem C109_complete (ho : POrdered mk) {c : Terms T W P R B M} (hc : Contract mk c) {fine : Nat × Nat → Prop} {fineRaw : Kind → Nat × Nat → Prop}
    (hv : Lively mk c fine fineRaw) (hs : c.safe) {t : T} (ht : c.ok t) {S : PSystem T W P B M} {l : List (Op W P R B)} (hl : Runs mk c (PSystem.new t) l S)
    (hd : ∀ i, .delete i ∉ l) :
    (∀ i n, i.near = some n → fine n → c.legal S.base.table (.request i) →
      ∃ S' o m j, S.request mk i = some (S', some (o, m)) ∧ Alike mk j i ∧ c.good S'.base.table j m) ∧
    ∀ x k n q, x.forRaw = some (k, n, q) → fineRaw k n → c.legal S.base.table x →
      ∃ S' o m, S.exec mk x = some (S', some (o, m)) ∧ c.goodRaw S'.base.table k n q m := by
  obtain ⟨i1, -, -⟩ := runs_spec ho hc hl (new_inv mk ht)
  have ha : Alive S := runs_alive hl hd (by simp [Alive, PSystem.new, MatrixSystem.System.new])
  constructor
  · intro i n hi hf hli
    obtain ⟨h1, -, h2⟩ := C109_contract ho hc ht hl hli
    obtain ⟨⟨S', r⟩, e⟩ := Option.isSome_iff_exists.mp (h1 hs (by simp))
    obtain ⟨-, -, h3⟩ := h2 S' r e
    obtain ⟨⟨o, m⟩, rfl⟩ := Option.isSome_iff_exists.mp (request_live ho hc hv hi hf i1 ha hli _ e)
    obtain ⟨j, j1, j2⟩ := (h3 o m rfl).1 i rfl
    exact ⟨S', o, m, j, e, j1, j2⟩
  · intro x k n q hx hf hli
    have hne : x ≠ .delete S.base.matrices.length := by rintro rfl; cases hx
    obtain ⟨h1, -, h2⟩ := C109_contract ho hc ht hl hli
    obtain ⟨⟨S', r⟩, e⟩ := Option.isSome_iff_exists.mp (h1 hs hne)
    obtain ⟨-, -, h3⟩ := h2 S' r e
    have : r.isSome := by
      cases x with
      | raw k' n' q' =>
        cases hx
        exact makeRaw_live ho hc hv (by simp) hf i1 ha hli _ e
      | rawPlain n' q' =>
        cases hx
        exact makeRaw_live ho hc hv (by simp) hf i1 ha (hc.plainRaw _ _ _ hli) _ e
      | _ => cases hx
    obtain ⟨⟨o, m⟩, rfl⟩ := Option.isSome_iff_exists.mp this
    exact ⟨S', o, m, e, ((h3 o m rfl).2 k n q hx).1⟩

/-- The small system never throws. -/
theorem toy_lively : Lively toy toyTerms (fun _ => True) (fun _ _ => True) where
  moment _ _ _ _ _ _ _ e := by cases e; rfl
  mono _ _ _ _ _ _ _ _ _ e := by cases e; rfl
  compose _ _ _ _ _ _ _ _ _ _ _ _ _ e := by cases e; rfl
  composePlain _ _ _ _ _ _ _ _ _ _ _ _ e := by cases e; rfl
  raw _ _ _ := trivial
  composeRaw _ _ _ _ _ _ _ _ _ _ _ _ e := by cases e; rfl
  composeRawPlain _ _ _ _ _ _ _ _ _ _ _ e := by cases e; rfl

/-- A request for an anticommutator matrix after others. -/
example : ∃ S S' o m, Runs toy toyTerms (PSystem.new 0) [.request (.mono .localizing (1, 0) 3), .dictionary 4] S ∧
    S.request toy (.poly .anticommutator (2, 1) [3, 5]) = some (S', some (o, m)) := by
  have r : Runs toy toyTerms (PSystem.new 0) [.request (.mono .localizing (1, 0) 3), .dictionary 4] _ :=
    .step (l := [.request (.mono .localizing (1, 0) 3)]) (x := .dictionary 4) (.step (l := []) (x := .request (.mono .localizing (1, 0) 3)) (.refl _) trivial rfl) trivial rfl
  obtain ⟨S', o, m, -, e, -⟩ := (C109_complete toy_ordered toy_contract toy_lively trivial trivial r (by simp)).1 (.poly .anticommutator (2, 1) [3, 5]) (2, 1) rfl trivial trivial
  exact ⟨_, S', o, m, r, e⟩

/-! ## Deletions -/

/-- **C109, deleted matrices.** Nothing removes indices. After a matrix was deleted, requests for it throw, by all indices that are alike. -/
theorem C109_deleted (ho : POrdered mk) {S S' S'' : PSystem T W P B M} (hS : Reached mk S) {i j : Key W P} {o : Nat} {m : M} {r : Option (Nat × M)}
    (h : S.request mk i = some (S', some (o, m))) (hd : S'.exec mk (.delete o) = some (S'', r)) (hs : Alike mk i j) :
    S''.request mk j = some (S'', none) ∧ S''.look mk j = some none ∧ S''.base.get o = none := by
  obtain ⟨g, -, g'⟩ := (request_gives ho (contract_none mk) (hS.inv ho) (i := i) trivial).2 _ h
  obtain ⟨g1, g2⟩ := g' o m rfl
  dsimp only at g g1 g2
  obtain ⟨k, -⟩ := (exec_spec ho (contract_none mk) g.inv (x := .delete o) trivial).2 _ _ hd
  have f := k.old i (by omega)
  have fj : S''.find mk j = o := by rw [← k.inv.alike i j hs, f, g1]
  have hget : S''.base.get o = none := by
    change (S'.base.delete o).map _ = _ at hd
    rw [Option.map_eq_some_iff] at hd
    obtain ⟨⟨S1, b⟩, e1, e2⟩ := hd
    cases e2
    have hlt := (List.getElem?_eq_some_iff.mp g2).1
    unfold MatrixSystem.System.delete at e1
    rw [if_neg (by omega), Int.toNat_natCast, g2] at e1
    cases e1
    unfold MatrixSystem.System.get
    dsimp only
    rw [List.length_set, if_neg (by omega), Int.toNat_natCast, List.getElem?_set_self hlt]
    rfl
  refine ⟨by rw [request_known fj, hget]; rfl, ?_, hget⟩
  unfold PSystem.look
  rw [fj]
  simp only [hget, Option.map_none]
  rw [if_neg (by omega)]

/-- A matrix is deleted and asked for by its other index. -/
example : ∃ S₁ S₂ m r, (PSystem.new 0).request toy (.plain (.moment 2)) = some (S₁, some (0, m)) ∧ S₁.exec toy (.delete 0) = some (S₂, r) ∧
    S₂.request toy (.moment (2, 0)) = some (S₂, none) := ⟨_, _, _, _, rfl, rfl, rfl⟩

end Moment.C109
