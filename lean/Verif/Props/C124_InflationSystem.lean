import Verif.Proof.InflationMaker
import Verif.Props.C100_MatrixSystem
import Verif.Props.C104_ExtendedMatrix

/-! # C124: matrix systems of inflation scenarios

The promises of C100 kept by the functions of an inflation scenario: everything that `InflationMatrixSystem` is asked for, at any time, is a matrix of moments of
products of the operators; and its factor table splits each symbol into those of independent parts. -/

namespace Moment.C124
open Moment.Symbols (Table)
open Moment.SymbolMatrix Moment.Inflation Moment.InflationSystem
open Moment.OperatorMatrix hiding State
open Moment.MatrixSystem (System Runs Index)
open Moment.LocalitySystem (Matrix termWord)
open Moment.C12 (ContextOf)
open Moment.C104 (three threeCtx three_context)
open Moment.C114 (ones ones_represents ones_star ones_exchange)
open Moment.Poly (Mono)
open scoped ComplexOrder Matrix

/-- The constructor, which asks for the factors of zero and one. -/
theorem C124_new (c : Inflation.Ctx) : State.new c = some ⟨Table.new, [[0], [1]]⟩ := new_eq c

/-- The system after the constructor. -/
abbrev fresh (B : Type) : System State HSeq (List Mono) B Matrix := System.new ⟨Table.new, [[0], [1]]⟩

/-- The sequence made of a word of operators. -/
abbrev made (c : Inflation.Ctx) (u : List Op) (heap : Bool) : HSeq := HSeq.construct (hctx c) heap (u.map (Inflation.enc c)) .pos

section
variable {B : Type} {n : Causal} {c : Inflation.Ctx} {L : Nat} {strict : Prop} {skip : State → Nat → Bool}
  {substitute : State → B → Matrix → Option (State × Option Matrix)} {merge : B → B → B × Bool} {S : System State HSeq (List Mono) B Matrix}
  {l : List (MatrixSystem.Op HSeq (List Mono) RawPoly.Raw B)}

/-- **C124, moment matrices and localizing matrices.** However the system was used before, without deletions: a moment matrix of any level, and a localizing
matrix for any word, of lengths for which hashes are unique, is Hermitian and has as entries the moments of `u† v` and `u† m v` for the words `u`, `v` of the
level, in all algebras whose operators are self-adjoint and meet the relations of the scenario, for functionals that do not see which copies of sources are
which. -/
theorem C124_words (hc : ContextOf n c) (h : Room c L) (hl : Runs (maker c skip substitute merge) (terms B n c L strict) (fresh B) l S)
    (hd : ∀ i, .delete i ∉ l) :
    (∀ k, 2 * k ≤ L → ∃ S' o M, S.request (maker c skip substitute merge) (.moment k) = some (S', some (o, M)) ∧
      Shows n c k S'.table.table M (fun _ _ _ _ => 1) ∧ M.hermitian = true) ∧
    ∀ k u heap, (∀ a ∈ u, Inflation.Exists n c.infl a) → 2 * k + u.length ≤ L →
      ∃ S' o M, S.request (maker c skip substitute merge) (.localizing k (made c u heap)) = some (S', some (o, M)) ∧
        Shows n c k S'.table.table M (fun _ _ _ P => (u.map P).prod) ∧ M.hermitian = true := by
  have hb : Built n c := ⟨hc⟩
  obtain ⟨h1, -⟩ := C100.C100_complete ordered (contract hb h) trivial ok_new hl hd
  refine ⟨fun k hk => h1 (.moment k) trivial hk, fun k u heap hu hk => ?_⟩
  have hw : Word n c L u := ⟨hu, by omega⟩
  rw [made, construct_stored hb h hw heap]
  obtain ⟨S', o, M, e, g1, g2, -⟩ := h1 (.localizing k (stored n c u)) trivial ⟨by omega, u, ⟨hu, by omega⟩, rfl⟩
  exact ⟨S', o, M, e, g1.stays List.prefix_rfl fun A _ _ _ _ P hP _ => op_stored hb h hw hP, g2⟩

/-- **C124, matrices for polynomials.** Polynomials in operators give the moments of `u† X v`, where `X` is the polynomial. -/
theorem C124_raw (hc : ContextOf n c) (h : Room c L) (hl : Runs (maker c skip substitute merge) (terms B n c L strict) (fresh B) l S)
    (hd : ∀ i, .delete i ∉ l) (hs : strict → canHaveAliases c = true) {k : Nat} (hk : 2 * k ≤ L) {q : List (List Op × ℂ)}
    (hq : ∀ e ∈ q, (∀ a ∈ e.1, Inflation.Exists n c.infl a) ∧ 2 * k + e.1.length ≤ L) (heap : Bool) :
    ∃ S' o M, S.makeRaw (maker c skip substitute merge) k (q.map fun e => (made c e.1 heap, e.2)) = some (S', some (o, M)) ∧
      Shows n c k S'.table.table M (fun _ _ _ P => (q.map fun e => e.2 • (e.1.map P).prod).sum) := by
  have hb : Built n c := ⟨hc⟩
  obtain ⟨-, h2⟩ := C100.C100_complete ordered (contract hb h) trivial ok_new hl hd
  have hw : ∀ e ∈ q, Word n c L e.1 := fun e he => ⟨(hq e he).1, by have := (hq e he).2; omega⟩
  obtain ⟨S', o, M, e, g⟩ := h2 k (q.map fun e => (made c e.1 heap, e.2)) ⟨hk, fun x hx => by
    obtain ⟨e, he, rfl⟩ := List.mem_map.mp hx
    exact ⟨e.1, ⟨(hq e he).1, by have := (hq e he).2; omega⟩, construct_stored hb h (hw e he) heap⟩, hs⟩
  refine ⟨S', o, M, e, Shows.stays g List.prefix_rfl fun A _ _ _ _ P hP _ => ?_⟩
  unfold RawPoly.total
  rw [List.map_map]
  congr 1
  apply List.map_congr_left
  intro x hx
  simp only [Function.comp, made]
  rw [construct_stored hb h (hw x hx) heap, op_stored hb h (hw x hx) hP]

/-- **C124, polynomials in symbols.** The same for polynomials in symbols that the table has, where a symbol stands for its word. -/
theorem C124_polynomial (hc : ContextOf n c) (h : Room c L) (hl : Runs (maker c skip substitute merge) (terms B n c L strict) (fresh B) l S)
    (hd : ∀ i, .delete i ∉ l) {k : Nat} (hk : 2 * k ≤ L) {p : List Mono}
    (hp : ∀ m ∈ p, ∃ e u, S.table.table.syms[m.id]? = some e ∧ e.seq = some (stored n c u) ∧ (∀ a ∈ u, Inflation.Exists n c.infl a) ∧ 2 * k + u.length ≤ L) :
    ∃ S' o M, S.request (maker c skip substitute merge) (.poly k p) = some (S', some (o, M)) ∧
      Shows n c k S'.table.table M (fun _ _ _ P => polyOp n c S.table.table P p) ∧
      ∀ (A : Type) [Ring A] [Algebra ℂ A] [StarRing A] [StarModule ℂ A] (P : Op → A) (φ : A →ₗ[ℂ] ℂ) (v : Nat → ℂ),
        Agrees S.table.table (moment n c P φ) v → Poly.value v p = φ (polyOp n c S.table.table P p) := by
  have hb : Built n c := ⟨hc⟩
  have hs : ∀ m ∈ p, Short n c (L - 2 * k) S.table.table m := fun m hm => by
    obtain ⟨e, u, a, b, c, d⟩ := hp m hm
    exact ⟨e, u, a, b, c, by omega⟩
  obtain ⟨h1, -⟩ := C100.C100_complete ordered (contract hb h) trivial ok_new hl hd
  obtain ⟨S', o, M, e, g1, g2⟩ := h1 (.poly k p) trivial ⟨hk, hs⟩
  obtain ⟨f1, -, -⟩ := hl.fine ordered (contract hb h) (MatrixSystem.inv_new _ _) (MatrixSystem.fine_new _ _ ok_new)
  obtain ⟨S₁, r, e', -, -, l1, -⟩ := C100.C100_contract ordered (contract hb h) ok_new hl (x := .request (.poly k p)) ⟨hk, hs⟩
    (fun _ i hi => by cases hi; trivial) trivial
  have ht : S.table.table.syms <+: S'.table.table.syms := by
    simp only [System.exec, e, Option.map_some, Option.some.injEq, MatrixSystem.ofReply, Prod.mk.injEq] at e'
    rw [e'.1]
    exact l1.1
  refine ⟨S', o, M, e, g2.stays List.prefix_rfl fun A _ _ _ _ P _ _ => polyOp_stays ht P fun m hm => (hs m hm).lt, fun A _ _ _ _ P φ v hv => ?_⟩
  exact f1.ok.sound.poly hv fun m hm => (hs m hm).lt

/-- **C124, all matrices together.** At any time, deletions or not, there are values of the symbols that agree with the moments, and with the same values all
matrices in the system are right. -/
theorem C124_together (hc : ContextOf n c) (h : Room c L) (hl : Runs (maker c skip substitute merge) (terms B n c L strict) (fresh B) l S) :
    (∀ (A : Type) [Ring A] [Algebra ℂ A] [StarRing A] [StarModule ℂ A] (P : Op → A) (φ : A →ₗ[ℂ] ℂ), Represents n P → (∀ a, star (P a) = P a) →
      (∀ a, φ (star a) = (starRingEnd ℂ) (φ a)) → ∃ v, Agrees S.table.table (moment n c P φ) v) ∧
    ∀ (i : Index HSeq (List Mono)) (o : Nat) M, i.Plain → Legal (B := B) n c L strict S.table (.request i) → S.find (maker c skip substitute merge) i = o →
      S.matrices[o]? = some (some M) → Right n c S.table.table i M := by
  have hb : Built n c := ⟨hc⟩
  obtain ⟨f1, -, -⟩ := hl.fine ordered (contract hb h) (MatrixSystem.inv_new _ _) (MatrixSystem.fine_new _ _ ok_new)
  refine ⟨fun A _ _ _ _ P φ hP hs hφ => f1.ok.sound.values hb h hP hs hφ, fun i o M hi hli hf hm => ?_⟩
  obtain ⟨j, j1, j2, j3⟩ := f1.good i M o hi hf hm
  exact (contract (B := B) (skip := skip) (substitute := substitute) (merge := merge) (strict := strict) hb h).same _ j i M f1.ok j1 j2 hli j3

/-- Allowed operations have results, so that there are runs of all kinds. -/
theorem C124_runs (hc : ContextOf n c) (h : Room c L) (hl : Runs (maker c skip substitute merge) (terms B n c L strict) (fresh B) l S)
    {x : MatrixSystem.Op HSeq (List Mono) RawPoly.Raw B} (hx : Legal n c L strict S.table x) (ha : x ≠ .delete S.matrices.length) :
    ∃ S', Runs (maker c skip substitute merge) (terms B n c L strict) (fresh B) (l ++ [x]) S' := by
  have hA : MatrixSystem.Apart S x := by
    cases x <;> simp_all [MatrixSystem.Apart]
  have hp : (terms B n c L strict).safe → ∀ i, x = .request i → i.Plain := fun _ i e => by
    subst e
    cases i with
    | subst a b => exact hx.elim
    | _ => trivial
  obtain ⟨S', r, e, -⟩ := C100.C100_contract ordered (contract ⟨hc⟩ h) ok_new hl (x := x) hx hp hA
  exact ⟨S', .step hl hx hA hp e⟩

/-- **C124, factors.** However the system was used, entries of the factor table are sorted and right: the word of the symbol is a product of words that share no
sources and cannot be split any further, and the symbols have the canonical moments of these words. -/
theorem C124_entries (hc : ContextOf n c) (h : Room c L) (hl : Runs (maker c skip substitute merge) (terms B n c L strict) (fresh B) l S) :
    S.table.factors.length ≤ S.table.table.syms.length ∧
    ∀ (i : Nat) ks, S.table.factors[i]? = some ks → Splits n c L S.table.table i ks ∧ ks.Pairwise (· ≤ ·) := by
  obtain ⟨f1, -, -⟩ := hl.fine ordered (contract ⟨hc⟩ h) (MatrixSystem.inv_new _ _) (MatrixSystem.fine_new _ _ ok_new)
  exact ⟨f1.ok.factored.short, f1.ok.factored.right⟩

/-- **C124, factors of all symbols.** There is an entry for each symbol at any time, if polynomials in operators are only used in contexts with aliases (see
`C124_refuted_factors`). -/
theorem C124_factors_partial (hc : ContextOf n c) (h : Room c L) (hl : Runs (maker c skip substitute merge) (terms B n c L True) (fresh B) l S) :
    S.table.factors.length = S.table.table.syms.length := by
  obtain ⟨f1, -, -⟩ := hl.fine ordered (contract ⟨hc⟩ h) (MatrixSystem.inv_new _ _) (MatrixSystem.fine_new _ _ ok_new)
  exact f1.ok.complete trivial

end

section
variable {n : Causal} {c : Inflation.Ctx} {L : Nat} {A : Type} [Ring A] [Algebra ℂ A]

theorem product_words {P : Op → A} {φ : A →ₗ[ℂ] ℂ} (h1 : φ 1 = 1)
    (hi : ∀ u w : List Op, (∀ a ∈ u, ∀ b ∈ w, ¬ Linked n a b) → φ ((u ++ w).map P).prod = φ (u.map P).prod * φ (w.map P).prod) : ∀ gs : List (List Op),
    gs.Pairwise (fun g h => ∀ a ∈ g, ∀ b ∈ h, ¬ Linked n a b) → φ (gs.flatten.map P).prod = (gs.map fun g => φ (g.map P).prod).prod
  | [], _ => by simpa using h1
  | g :: gs, hp => by
    rw [List.pairwise_cons] at hp
    rw [List.flatten_cons, hi, List.map_cons, List.prod_cons, product_words h1 hi gs hp.2]
    intro a ha b hb
    obtain ⟨k, hk, hb⟩ := List.mem_flatten.mp hb
    exact hp.1 k hk a ha b hb

/-- **C124, values of factors.** If the functional is normalized and independent words have independent moments, then the value of a symbol is the product of those
of its factors. -/
theorem C124_product (hc : ContextOf n c) (h : Room c L) {t : Table} {i : Nat} {ks : List Nat} (hs : Splits n c L t i ks) {P : Op → A} {φ : A →ₗ[ℂ] ℂ}
    {v : Nat → ℂ} (hP : Represents n P) (hx : Exchangeable n c.infl P φ) (h1 : φ 1 = 1)
    (hi : ∀ u w : List Op, (∀ a ∈ u, ∀ b ∈ w, ¬ Linked n a b) → φ ((u ++ w).map P).prod = φ (u.map P).prod * φ (w.map P).prod)
    (hv : Agrees t (moment n c P φ) v) : v i = (ks.map v).prod := by
  have hb : Built n c := ⟨hc⟩
  rcases hs with ⟨-, rfl⟩ | ⟨gs, js, ⟨e, h2, h3⟩, h4, h5, -, h6, h7⟩
  · simp
  · rw [hv.word _ _ _ h2 h3, moment_stored hb h hP φ h4, product_words h1 hi gs h5, (h6.map v).prod_eq]
    congr 1
    have hg : ∀ g ∈ gs, Word n c L g := fun g hg => word_part h4 hg
    clear h2 h3 h4 h5 h6
    induction h7 with
    | nil => rfl
    | @cons g k gs js hk _ ih =>
      obtain ⟨e, e1, e2⟩ := hk
      have w := hg g List.mem_cons_self
      rw [List.map_cons, List.map_cons, ih fun x hx => hg x (List.mem_cons_of_mem _ hx), hv.word _ _ _ e1 e2, moment_shown hb h hP hx w, moment_stored hb h hP φ w]

end

/-- **C124, positive matrices.** If the functional is positive on `a† X a` for all `a`, then the matrix is positive semidefinite. -/
theorem C124_positive {n : Causal} {c : Inflation.Ctx} (hc : ContextOf n c) {k : Nat} {t : Table} {M : Matrix} {X : Element} (hM : Shows n c k t M X) {A : Type}
    [Ring A] [Algebra ℂ A] [StarRing A] [StarModule ℂ A] {P : Op → A} {φ : A →ₗ[ℂ] ℂ} {v : Nat → ℂ} (hP : Represents n P) (hs : ∀ a, star (P a) = P a)
    (hφ : ∀ a, φ (star a) = (starRingEnd ℂ) (φ a)) (hx : Exchangeable n c.infl P φ) (hv : Agrees t (moment n c P φ) v) (hpos : ∀ a, 0 ≤ φ (star a * X A P * a)) :
    (Matrix.of fun i j : Fin M.part.dim => MatrixSum.entryAt v M.part i j).PosSemidef := by
  have names : ∀ i : Fin M.part.dim, ∃ x a, (generate c k)[(i : Nat)]? = some x ∧ C12.Names n c a x := by
    intro i
    have hi : (i : Nat) < (generate c k).length := hM.dim ▸ i.2
    obtain ⟨u, hu, e, -⟩ := (normal_iff ⟨hc⟩).mp (((C12.C51_complete hc k).2 _).mp (List.getElem_mem hi)).2
    exact ⟨_, u, List.getElem?_eq_getElem hi, C12.names_iff.mpr ⟨hu, e⟩⟩
  choose x a hx' ha using names
  have e : (Matrix.of fun i j : Fin M.part.dim => MatrixSum.entryAt v M.part i j) =
      Matrix.of fun i j => φ (star ((a i).map P).prod * X A P * ((a j).map P).prod) := by
    ext i j
    rw [Matrix.of_apply, Matrix.of_apply]
    exact hM.value A P φ v hP hs hφ hx hv i j _ _ _ _ (hx' i) (hx' j) (ha i) (ha j)
  rw [e]
  exact C82.gram_posSemidef φ _ hpos _

/-! ## What is wrong -/

/-- Systems with one rulebook, which do not substitute. -/
noncomputable def system (c : Inflation.Ctx) : MatrixSystem.Maker State HSeq (List Mono) RawPoly.Raw Unit Matrix :=
  maker c (fun _ _ => false) (fun _ _ _ => none) (fun _ _ => ((), true))

theorem three_room : Room threeCtx 4 := ⟨by decide +kernel, by decide +kernel⟩

/-- The first operator of three that share no sources. -/
def firstOp : Op := ⟨0, [], 0⟩

theorem first_exists : Inflation.Exists three threeCtx.infl firstOp := ⟨2, rfl, by decide +kernel, by decide, by decide⟩

/-- Its sequence. -/
def first : HSeq := HSeq.construct (hctx threeCtx) false [0] .pos

theorem first_made : made threeCtx [firstOp] false = first := by decide +kernel

/-- The symbols with that of the operator. -/
noncomputable def after : Table := ((Table.new.mergeSeq (env threeCtx) first).map Prod.fst).getD Table.new

theorem after_register : RawPoly.registerStorage (env threeCtx) Table.new [(first, 1)] = some (after, [⟨2, false, 1⟩]) := rfl

theorem after_length : after.syms.length = 3 := by decide +kernel

theorem after_make : Poly.make (MatrixBasis.polyTable after) byId [⟨2, false, 1⟩] = [⟨2, false, 1⟩] := by
  have : (MatrixBasis.polyTable after).herm 2 = true := by decide +kernel
  simp [Poly.make, Poly.makeRaw, Poly.fixCC, Poly.removeZeros, this]

theorem level_zero : level threeCtx 0 = [HSeq.identity .pos] := by decide +kernel

theorem after_create {t' : Table} {M : Option MonoMat} (h : createMatrix (host threeCtx) after (localizingFn (host threeCtx) first) (level threeCtx 0) = some (t', M)) :
    t'.syms.length = 3 := by
  rw [level_zero] at h
  obtain ⟨ids, k, hm⟩ := create_merge (host threeCtx) h
  have hU : ∀ U : MatrixBasis.Mat HSeq, U.dim = 1 → U.data = [first] → U = ⟨1, [first]⟩ := fun U h1 h2 => by cases U; cases h1; cases h2; rfl
  have hv : ∀ b, visited b ⟨1, [first]⟩ = [first] := fun b => by cases b <;> simp [visited, C70.visitLower_one]
  have hn : (host threeCtx).canNonHerm = false := by decide +kernel
  rw [hU ((singleAliased (host threeCtx) (localizingFn (host threeCtx) first) (rowWords (host threeCtx) [HSeq.identity .pos]) [HSeq.identity .pos]).2.getD
    (singleAliased (host threeCtx) (localizingFn (host threeCtx) first) (rowWords (host threeCtx) [HSeq.identity .pos]) [HSeq.identity .pos]).1)
    (by decide +kernel) (by decide +kernel), identify, hv, hn, if_neg (by decide)] at hm
  have : (after.mergeAll (env threeCtx) (Symbols.Sym.zero :: Symbols.Sym.one :: scanPlain [first] [1, 0])).map (fun r => r.1.syms.length) = some 3 := by decide +kernel
  rw [show after.mergeAll (env threeCtx) _ = _ from hm] at this
  simpa using this

/-- **C124 is false for all symbols.** In contexts without aliases, the matrix of a polynomial in operators may bring new symbols that get no entry in the factor
table; looking for their factors then reads beyond its end. Here the matrix of level 0 of the first of three operators. -/
theorem C124_refuted_factors : ∃ n c S, ContextOf n c ∧ Room c 4 ∧
    Runs (system c) (terms Unit n c 4 False) (fresh Unit) [.raw 0 [(made c [firstOp] false, 1)]] S ∧ ∃ i < S.table.table.syms.length, S.table.factors[i]? = none := by
  have hb : Built three threeCtx := ⟨three_context⟩
  have hw : Word three threeCtx 4 [firstOp] := ⟨by simpa using first_exists, by decide⟩
  have hf : first = stored three threeCtx [firstOp] := by
    rw [← first_made]
    exact construct_stored hb three_room hw false
  have hal : canHaveAliases threeCtx = false := by decide +kernel
  have hlegal : Legal (B := Unit) three threeCtx 4 False ⟨Table.new, [[0], [1]]⟩ (.raw 0 [(first, 1)]) :=
    ⟨by decide, by simpa using ⟨[firstOp], hw, hf⟩, fun h => h.elim⟩
  obtain ⟨t1, l1, r1, r2, -, -, -⟩ := register_op hb three_room hal (K := 4) (Nat.le_refl _) (q := [(first, 1)]) (Sound.new (L := 4)) (by simpa using ⟨[firstOp], hw, hf⟩)
  rw [after_register, Option.some.injEq, Prod.mk.injEq] at r1
  obtain ⟨rfl, rfl⟩ := r1
  obtain ⟨t', M, m1, -, -, m2, -⟩ := shows_create hb three_room r2 (k := 0) (m := [firstOp]) hw.1 (by decide) (f := localizingFn (host threeCtx) first) (.inr (by rw [hf]))
  have ml := after_create m1
  have mk : (system threeCtx).localizing ⟨after, [[0], [1]]⟩ 0 first = some (⟨t', [[0], [1]]⟩, some (.mono M)) := by
    show make threeCtx _ _ 0 = _
    unfold make
    rw [show (State.table ⟨after, [[0], [1]]⟩) = after from rfl, m1, Option.bind_some]
    dsimp only
    unfold State.grow
    rw [if_neg (by show ¬ after.syms.length < _; rw [after_length, ml]; decide)]
    rfl
  obtain ⟨R, s1, -⟩ := sum_spec (n := three) (c := threeCtx) (k := 0) (S := ⟨t', [[0], [1]]⟩) (l := [.mono M]) (q := [(first, 1)]) (.cons (m2.stays List.prefix_rfl
    fun A _ _ _ _ P hP _ => by rw [hf]; exact (op_stored hb three_room hw hP).symm) .nil)
  have hraw : ∃ S', (fresh Unit).makeRaw (system threeCtx) 0 [(first, 1)] = some (S', some (1, R)) ∧ S'.table = ⟨t', [[0], [1]]⟩ := by
    have hreg : (system threeCtx).register (⟨Table.new, [[0], [1]]⟩ : State) [(first, 1)] = some (⟨after, [[0], [1]]⟩, [⟨2, false, 1⟩]) := by
      show (RawPoly.registerStorage (env threeCtx) Table.new [(first, 1)]).map
        (fun x => ((⟨x.1, [[0], [1]]⟩ : State), Poly.make (MatrixBasis.polyTable x.1) byId x.2)) = _
      rw [after_register, Option.map_some, after_make]
    have hword : (system threeCtx).word ⟨after, [[0], [1]]⟩ [⟨2, false, 1⟩] 0 = some first := by
      show termWord after ⟨2, false, 1⟩ = some first
      decide +kernel
    have hsum : ∀ S : State, S = ⟨t', [[0], [1]]⟩ → (system threeCtx).compose S 0 [⟨2, false, 1⟩] [.mono M] = some (S, some R) := by
      rintro S rfl
      exact s1
    unfold System.makeRaw
    rw [if_neg (by rw [show (system threeCtx).aliases = false from hal]; decide), show (fresh Unit).table = (⟨Table.new, [[0], [1]]⟩ : State) from rfl, hreg, Option.bind_some]
    dsimp only
    unfold System.makePoly
    rw [show (system threeCtx).size [⟨2, false, 1⟩] = 0 + 1 from rfl, System.parts]
    dsimp only
    rw [show (system threeCtx).size [⟨2, false, 1⟩] - (0 + 1) = 0 from rfl, hword, Option.bind_some]
    unfold System.createLocalizing System.create
    dsimp only
    rw [if_neg (by decide), mk]
    simp only [Option.map_some, Option.bind_some, System.made, System.parts]
    simp only [System.insert, System.push, hsum]
    exact ⟨_, rfl, rfl⟩
  obtain ⟨S', e1, e2⟩ := hraw
  refine ⟨three, threeCtx, S', three_context, three_room, ?_, 2, ?_, ?_⟩
  · rw [first_made]
    refine .step (l := []) (.refl _) hlegal trivial (fun _ i h => by cases h) (r := MatrixSystem.ofReply (S', some (1, R)) |>.2) ?_
    simp only [System.exec, e1, Option.map_some]
    rfl
  · rw [e2]; show 2 < t'.syms.length; omega
  · rw [e2]; rfl

/-- Words of length 2 in the table, a moment matrix, and then the matrix of a polynomial, in a network with copies of sources: all symbols have factors, and there
are values for which a symbol is the product of those and the matrix is positive. -/
example : ∃ S S' o M v, Runs (system C12.exCtx) (terms Unit C12.exNet C12.exCtx 8 True) (fresh Unit) [.dictionary 2, .request (.moment 1)] S ∧
    S.makeRaw (system C12.exCtx) 2 ([([⟨2, [1], 0⟩], (2 : ℂ)), ([⟨0, [1], 0⟩, ⟨1, [0, 1], 0⟩], 1)].map fun e => (made C12.exCtx e.1 false, e.2)) = some (S', some (o, M)) ∧
    Agrees S'.table.table (moment C12.exNet C12.exCtx ones LinearMap.id) v ∧ S'.table.factors.length = S'.table.table.syms.length ∧
    (∀ i ks, S'.table.factors[i]? = some ks → v i = (ks.map v).prod) ∧
    (Matrix.of fun i j : Fin M.part.dim => MatrixSum.entryAt v M.part i j).PosSemidef := by
  obtain ⟨S₁, r1⟩ := C124_runs (B := Unit) (strict := True) (skip := fun _ _ => false) (substitute := fun _ _ _ => none) (merge := fun _ _ => ((), true))
    C12.exContext C114.ex_room (.refl _) (x := .dictionary 2) (by decide : 2 ≤ 8) (by simp)
  obtain ⟨S, r2⟩ := C124_runs C12.exContext C114.ex_room r1 (x := .request (.moment 1)) (by decide : 2 * 1 ≤ 8) (by simp)
  have hd : ∀ i, MatrixSystem.Op.delete i ∉ ([] ++ [.dictionary 2] ++ [.request (.moment 1)] : List (MatrixSystem.Op HSeq (List Mono) RawPoly.Raw Unit)) := by simp
  have e1 : Inflation.Exists C12.exNet C12.exCtx.infl ⟨2, [1], 0⟩ := ⟨0, rfl, by decide +kernel, by decide, by decide⟩
  have e2 : Inflation.Exists C12.exNet C12.exCtx.infl ⟨0, [1], 0⟩ := ⟨2, rfl, by decide +kernel, by decide, by decide⟩
  have e3 : Inflation.Exists C12.exNet C12.exCtx.infl ⟨1, [0, 1], 0⟩ := ⟨3, rfl, by decide +kernel, by decide, by decide⟩
  have ha : canHaveAliases C12.exCtx = true := by decide +kernel
  have hq : ∀ e ∈ [([⟨2, [1], 0⟩], (2 : ℂ)), ([⟨0, [1], 0⟩, ⟨1, [0, 1], 0⟩], 1)], (∀ a ∈ e.1, Inflation.Exists C12.exNet C12.exCtx.infl a) ∧ 2 * 2 + e.1.length ≤ 8 := by
    simp [e1, e2, e3]
  obtain ⟨S', o, M, e, g⟩ := C124_raw C12.exContext C114.ex_room r2 hd (fun _ => ha) (k := 2) (by decide) hq false
  have hleg : Legal (B := Unit) C12.exNet C12.exCtx 8 True S.table (.raw 2 ([([⟨2, [1], 0⟩], (2 : ℂ)), ([⟨0, [1], 0⟩, ⟨1, [0, 1], 0⟩], 1)].map fun e =>
      (made C12.exCtx e.1 false, e.2))) := ⟨by decide, fun x hx => by
    obtain ⟨y, hy, rfl⟩ := List.mem_map.mp hx
    exact ⟨y.1, ⟨(hq y hy).1, by have := (hq y hy).2; omega⟩, construct_stored ⟨C12.exContext⟩ C114.ex_room ⟨(hq y hy).1, by have := (hq y hy).2; omega⟩ false⟩, fun _ => ha⟩
  have r3 : Runs (system C12.exCtx) (terms Unit C12.exNet C12.exCtx 8 True) (fresh Unit) ([] ++ [.dictionary 2] ++ [.request (.moment 1)] ++ [.raw 2
      ([([⟨2, [1], 0⟩], (2 : ℂ)), ([⟨0, [1], 0⟩, ⟨1, [0, 1], 0⟩], 1)].map fun e => (made C12.exCtx e.1 false, e.2))]) S' := by
    refine .step r2 hleg trivial (fun _ i h => by cases h) (r := (MatrixSystem.ofReply (S', some (o, M))).2) ?_
    simp only [System.exec]
    erw [e]
    rfl
  obtain ⟨v, hv⟩ := (C124_together C12.exContext C114.ex_room r3).1 ℂ ones LinearMap.id (ones_represents _) ones_star fun a => rfl
  refine ⟨S, S', o, M, v, r2, e, hv, C124_factors_partial C12.exContext C114.ex_room r3, fun i ks hi => ?_, ?_⟩
  · exact C124_product C12.exContext C114.ex_room ((C124_entries C12.exContext C114.ex_room r3).2 i ks hi).1 (ones_represents _) (ones_exchange _ _) rfl
      (fun u w _ => by simp) hv
  · refine C124_positive C12.exContext g (ones_represents _) ones_star (fun a => rfl) (ones_exchange _ _) hv fun a => ?_
    have e : (LinearMap.id : ℂ →ₗ[ℂ] ℂ) (star a * ([([⟨2, [1], 0⟩], (2 : ℂ)), ([⟨0, [1], 0⟩, ⟨1, [0, 1], 0⟩], 1)].map fun e => e.2 • (e.1.map ones).prod).sum * a) = 3 * (star a * a) := by
      simp only [ones, LinearMap.id_apply, List.map_cons, List.map_nil, List.sum_cons, List.sum_nil, List.prod_cons, List.prod_nil, if_true, smul_eq_mul]
      ring
    exact (mul_nonneg (by norm_num) (star_mul_self_nonneg a)).trans_eq e.symm

end Moment.C124
