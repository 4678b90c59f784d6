import Verif.Proof.LocalityMaker
import Verif.Props.C100_MatrixSystem

/-! # C101: matrix systems of locality scenarios

The promises of C100 kept by the functions of a locality scenario: everything that `LocalityMatrixSystem` is asked for, at any time, is a matrix of moments of
products of the operators. -/

namespace Moment.C101
open Moment.Symbols (Table)
open Moment.SymbolMatrix Moment.Locality Moment.LocalitySystem
open Moment.MatrixSystem (System Runs Index)
open Moment.C98 (stored Word chsh chsh_room construct_stored op_stored stored_inj conj_stored stored_same)
open Moment.Poly (Mono)
open scoped ComplexOrder Matrix

section
variable {B : Type} {s : Scenario} {L : Nat} {ord : Table → Poly.Order} {rank : Poly.Order} {skip : Table → Nat → Bool}
  {substitute : Table → B → Matrix → Option (Table × Option Matrix)} {merge : B → B → B × Bool} {S : System Table HSeq (List Mono) B Matrix}
  {l : List (MatrixSystem.Op HSeq (List Mono) RawPoly.Raw B)}

/-- The sequence made of a word of operators. -/
abbrev made (s : Scenario) (u : List Op) (heap : Bool) : HSeq := HSeq.construct (ctx s) heap (u.map (Locality.enc s)) .pos

/-- **C101, moment matrices and localizing matrices.** However the system was used before, without deletions: a moment matrix of any level, and a localizing
matrix for any word, of lengths for which hashes are unique, has as entries the moments of `u† v` and `u† m v` for the words `u`, `v` of the level, in all
algebras whose operators are self-adjoint and meet the relations of the scenario. It is flagged as Hermitian if the relations make `m` its own reverse. -/
theorem C101_words (h : Room s L) (hr : Function.Injective rank.rank) (hl : Runs (maker s ord rank skip substitute merge) (terms B s L) (System.new Table.new) l S)
    (hd : ∀ i, .delete i ∉ l) :
    (∀ n, 2 * n ≤ L → ∃ S' o M, S.request (maker s ord rank skip substitute merge) (.moment n) = some (S', some (o, M)) ∧
      Shows s n S'.table M (fun _ _ _ _ => 1) ∧ M.hermitian = true) ∧
    ∀ n u heap, (∀ a ∈ u, Exists s a) → 2 * n + u.length ≤ L →
      ∃ S' o M, S.request (maker s ord rank skip substitute merge) (.localizing n (made s u heap)) = some (S', some (o, M)) ∧
        Shows s n S'.table M (fun _ _ _ P => (u.map P).prod) ∧ (SameOperator (some u.reverse) (some u) → M.hermitian = true) := by
  obtain ⟨h1, -⟩ := C100.C100_complete (ordered hr) (contract h hr) trivial (Sound.new s L) hl hd
  refine ⟨fun n hn => h1 (.moment n) trivial hn, fun n u heap hu hn => ?_⟩
  have hw : Word s L u := ⟨hu, by omega⟩
  rw [made, construct_stored h hw heap]
  obtain ⟨S', o, M, e, g1, g2⟩ := h1 (.localizing n (stored s u)) trivial ⟨by omega, u, ⟨hu, by omega⟩, rfl⟩
  refine ⟨S', o, M, e, g1.stays List.prefix_rfl fun A _ _ _ _ P hP _ => op_stored h hw hP, fun hs => g2 ?_⟩
  rw [conj_stored h hw, stored_same hs]

/-- **C101, matrices for polynomials.** Polynomials in operators give the moments of `u† X v`, where `X` is the polynomial. -/
theorem C101_raw (h : Room s L) (hr : Function.Injective rank.rank) (hl : Runs (maker s ord rank skip substitute merge) (terms B s L) (System.new Table.new) l S)
    (hd : ∀ i, .delete i ∉ l) {n : Nat} (hn : 2 * n ≤ L) {q : List (List Op × ℂ)} (hq : ∀ e ∈ q, (∀ a ∈ e.1, Exists s a) ∧ 2 * n + e.1.length ≤ L) (heap : Bool) :
    ∃ S' o M, S.makeRaw (maker s ord rank skip substitute merge) n (q.map fun e => (made s e.1 heap, e.2)) = some (S', some (o, M)) ∧
      Shows s n S'.table M (fun _ _ _ P => (q.map fun e => e.2 • (e.1.map P).prod).sum) := by
  obtain ⟨-, h2⟩ := C100.C100_complete (ordered hr) (contract h hr) trivial (Sound.new s L) hl hd
  have hw : ∀ e ∈ q, Word s L e.1 := fun e he => ⟨(hq e he).1, by have := (hq e he).2; omega⟩
  obtain ⟨S', o, M, e, g⟩ := h2 n (q.map fun e => (made s e.1 heap, e.2)) ⟨hn, fun x hx => by
    obtain ⟨e, he, rfl⟩ := List.mem_map.mp hx
    exact ⟨e.1, ⟨(hq e he).1, by have := (hq e he).2; omega⟩, construct_stored h (hw e he) heap⟩⟩
  refine ⟨S', o, M, e, Shows.stays g List.prefix_rfl fun A _ _ _ _ P hP _ => ?_⟩
  unfold RawPoly.total
  rw [List.map_map]
  congr 1
  apply List.map_congr_left
  intro x hx
  simp only [Function.comp, made]
  rw [construct_stored h (hw x hx) heap, op_stored h (hw x hx) hP]

/-- **C101, polynomials in symbols.** The same for polynomials in symbols that the table has, where a symbol stands for its word. -/
theorem C101_polynomial (h : Room s L) (hr : Function.Injective rank.rank) (hl : Runs (maker s ord rank skip substitute merge) (terms B s L) (System.new Table.new) l S)
    (hd : ∀ i, .delete i ∉ l) {n : Nat} (hn : 2 * n ≤ L) {p : List Mono}
    (hp : ∀ m ∈ p, ∃ e u, S.table.syms[m.id]? = some e ∧ e.seq = some (stored s u) ∧ (∀ a ∈ u, Exists s a) ∧ 2 * n + u.length ≤ L) :
    ∃ S' o M, S.request (maker s ord rank skip substitute merge) (.poly n p) = some (S', some (o, M)) ∧
      Shows s n S'.table M (fun _ _ _ P => polyOp s S.table P p) ∧
      ∀ (A : Type) [Ring A] [Algebra ℂ A] [StarRing A] [StarModule ℂ A] (P : Op → A) (φ : A →ₗ[ℂ] ℂ) (v : Nat → ℂ), Represents P → (∀ a, star (P a) = P a) →
        (∀ a, φ (star a) = (starRingEnd ℂ) (φ a)) → Agrees S.table (moment s P φ) v → Poly.value v p = φ (polyOp s S.table P p) := by
  have hs : ∀ m ∈ p, Short s (L - 2 * n) S.table m := fun m hm => by
    obtain ⟨e, u, a, b, c, d⟩ := hp m hm
    exact ⟨e, u, a, b, c, by omega⟩
  obtain ⟨h1, -⟩ := C100.C100_complete (ordered hr) (contract h hr) trivial (Sound.new s L) hl hd
  obtain ⟨S', o, M, e, g1, g2⟩ := h1 (.poly n p) trivial ⟨hn, hs⟩
  obtain ⟨f1, -, -⟩ := hl.fine (ordered hr) (contract h hr) (MatrixSystem.inv_new _ _) (MatrixSystem.fine_new _ _ (Sound.new s L))
  obtain ⟨S₁, r, e', -, -, l1, -⟩ := C100.C100_contract (ordered hr) (contract h hr) (Sound.new s L) hl (x := .request (.poly n p)) ⟨hn, hs⟩
    (fun _ i hi => by cases hi; trivial) trivial
  have ht : S.table.syms <+: S'.table.syms := by
    simp only [System.exec, e, Option.map_some, Option.some.injEq, MatrixSystem.ofReply, Prod.mk.injEq] at e'
    rw [e'.1]
    exact l1
  refine ⟨S', o, M, e, g2.stays List.prefix_rfl fun A _ _ _ _ P _ _ => polyOp_stays ht P fun m hm => (hs m hm).lt, fun A _ _ _ _ P φ v hP hP' hφ hv => ?_⟩
  exact f1.ok.poly h hP hP' hφ hv fun m hm => (hs m hm).lt

/-- **C101, all matrices together.** At any time, deletions or not, there are values of the symbols that agree with the moments, and with the same values all
matrices in the system are right. -/
theorem C101_together (h : Room s L) (hr : Function.Injective rank.rank) (hl : Runs (maker s ord rank skip substitute merge) (terms B s L) (System.new Table.new) l S) :
    (∀ (A : Type) [Ring A] [Algebra ℂ A] [StarRing A] [StarModule ℂ A] (P : Op → A) (φ : A →ₗ[ℂ] ℂ), Represents P → (∀ a, star (P a) = P a) →
      (∀ a, φ (star a) = (starRingEnd ℂ) (φ a)) → ∃ v, Agrees S.table (moment s P φ) v) ∧
    ∀ (i : Index HSeq (List Mono)) (o : Nat) M, i.Plain → Legal (B := B) s L S.table (.request i) → S.find (maker s ord rank skip substitute merge) i = o →
      S.matrices[o]? = some (some M) → Right s S.table i M := by
  obtain ⟨f1, -, -⟩ := hl.fine (ordered hr) (contract h hr) (MatrixSystem.inv_new _ _) (MatrixSystem.fine_new _ _ (Sound.new s L))
  refine ⟨fun A _ _ _ _ P φ hP hs hφ => f1.ok.values h hP hs hφ, fun i o M hi hli hf hm => ?_⟩
  obtain ⟨j, j1, j2, j3⟩ := f1.good i M o hi hf hm
  exact (contract h hr).same _ j i M f1.ok j1 j2 hli j3

/-- Allowed operations have results, so that there are runs of all kinds. -/
theorem C101_runs (h : Room s L) (hr : Function.Injective rank.rank) (hl : Runs (maker s ord rank skip substitute merge) (terms B s L) (System.new Table.new) l S)
    {x : MatrixSystem.Op HSeq (List Mono) RawPoly.Raw B} (hx : Legal s L S.table x) (ha : x ≠ .delete S.matrices.length) :
    ∃ S', Runs (maker s ord rank skip substitute merge) (terms B s L) (System.new Table.new) (l ++ [x]) S' := by
  have hA : MatrixSystem.Apart S x := by
    cases x <;> simp_all [MatrixSystem.Apart]
  have hp : (terms B s L).safe → ∀ i, x = .request i → i.Plain := fun _ i e => by
    subst e
    cases i with
    | subst a b => exact hx.elim
    | _ => trivial
  obtain ⟨S', r, e, -⟩ := C100.C100_contract (ordered hr) (contract h hr) (Sound.new s L) hl (x := x) hx hp hA
  exact ⟨S', .step hl hx hA hp e⟩

end

/-- **C101, positive matrices.** If the functional is positive on `a† X a` for all `a`, then the matrix is positive semidefinite. -/
theorem C101_positive {s : Scenario} {n : Nat} {t : Table} {M : Matrix} {X : Element} (hM : Shows s n t M X) {A : Type} [Ring A] [Algebra ℂ A] [StarRing A]
    [StarModule ℂ A] {P : Op → A} {φ : A →ₗ[ℂ] ℂ} {v : Nat → ℂ} (hP : Represents P) (hs : ∀ a, star (P a) = P a)
    (hφ : ∀ a, φ (star a) = (starRingEnd ℂ) (φ a)) (hv : Agrees t (moment s P φ) v) (hpos : ∀ a, 0 ≤ φ (star a * X A P * a)) :
    (Matrix.of fun i j : Fin M.part.dim => MatrixSum.entryAt v M.part i j).PosSemidef := by
  have names : ∀ i : Fin M.part.dim, ∃ x a, (generate s n)[(i : Nat)]? = some x ∧ C10.Names s a x := by
    intro i
    have hi : (i : Nat) < (generate s n).length := hM.dim ▸ i.2
    obtain ⟨u, hu, e, -⟩ := normal_iff.mp (((C10.C11_complete s n).2 _).mp (List.getElem_mem hi)).2
    exact ⟨_, u, List.getElem?_eq_getElem hi, C10.names_iff.mpr ⟨hu, e⟩⟩
  choose x a hx ha using names
  have e : (Matrix.of fun i j : Fin M.part.dim => MatrixSum.entryAt v M.part i j) =
      Matrix.of fun i j => φ (star ((a i).map P).prod * X A P * ((a j).map P).prod) := by
    ext i j
    rw [Matrix.of_apply, Matrix.of_apply]
    exact hM.value A P φ v hP hs hφ hv i j _ _ _ _ (hx i) (hx j) (ha i) (ha j)
  rw [e]
  exact C82.gram_posSemidef φ _ hpos _

/-! ## An example -/

/-- The system of the scenario of Clauser, Horne, Shimony and Holt. -/
noncomputable def system : MatrixSystem.Maker Table HSeq (List Mono) RawPoly.Raw Unit Matrix :=
  maker chsh (fun _ => ⟨id⟩) ⟨id⟩ (fun _ _ => false) (fun _ _ _ => none) (fun _ _ => ((), true))

/-- The operator of outcome 0. -/
def outcome (party mmt : Nat) : Op := ⟨party, mmt, 0⟩

/-- Words of length 2 in the table, a moment matrix, and then the localizing matrix of the operator of the inequality; values of the symbols for classical
parties whose outcome is always 0. -/
example : ∃ S S' o M v, Runs system (terms Unit chsh 6) (System.new Table.new) [.dictionary 2, .request (.moment 1)] S ∧
    S.makeRaw system 2 ([([outcome 0 0, outcome 1 0], (1 : ℂ)), ([outcome 0 0, outcome 1 1], 1), ([outcome 0 1, outcome 1 0], 1),
      ([outcome 0 1, outcome 1 1], -1)].map fun e => (made chsh e.1 false, e.2)) = some (S', some (o, M)) ∧ M.part.dim = (generate chsh 2).length ∧
    Agrees S'.table (moment chsh (fun a => if a.out = 0 then (1 : ℂ) else 0) LinearMap.id) v ∧
    (Matrix.of fun i j : Fin M.part.dim => MatrixSum.entryAt v M.part i j).PosSemidef := by
  have hP : Represents fun a : Op => if a.out = 0 then (1 : ℂ) else 0 := by
    refine ⟨fun a b _ => mul_comm _ _, fun a => by split <;> simp, fun a b _ _ hne => ?_⟩
    by_cases h1 : a.out = 0
    · by_cases h2 : b.out = 0
      · exact absurd (h1.trans h2.symm) hne
      · simp [h2]
    · simp [h1]
  have hst : ∀ a : Op, star (if a.out = 0 then (1 : ℂ) else 0) = if a.out = 0 then (1 : ℂ) else 0 := fun a => by split <;> simp
  have hr : Function.Injective (Poly.Order.mk id).rank := Function.injective_id
  obtain ⟨S₁, r1⟩ := C101_runs (B := Unit) (s := chsh) (ord := fun _ => ⟨id⟩) (rank := ⟨id⟩) (skip := fun _ _ => false) (substitute := fun _ _ _ => none)
    (merge := fun _ _ => ((), true)) chsh_room hr (.refl _) (x := .dictionary 2) (by decide : 2 ≤ 6) (by simp)
  obtain ⟨S, r2⟩ := C101_runs chsh_room hr r1 (x := .request (.moment 1)) (by decide : 2 * 1 ≤ 6) (by simp)
  have hd : ∀ i, MatrixSystem.Op.delete i ∉ ([] ++ [.dictionary 2] ++ [.request (.moment 1)] : List (MatrixSystem.Op HSeq (List Mono) RawPoly.Raw Unit)) := by simp
  obtain ⟨S', o, M, e, g⟩ := C101_raw chsh_room hr r2 hd (n := 2) (by decide) (q := [([outcome 0 0, outcome 1 0], 1), ([outcome 0 0, outcome 1 1], 1),
    ([outcome 0 1, outcome 1 0], 1), ([outcome 0 1, outcome 1 1], -1)]) (by simp [Locality.Exists, chsh, outcome]) false
  obtain ⟨S₂, r, e', k, -⟩ := C100.C100_contract (ordered hr) (contract chsh_room hr) (Sound.new chsh 6) r2 (x := .raw 2 ([([outcome 0 0, outcome 1 0], (1 : ℂ)),
    ([outcome 0 0, outcome 1 1], 1), ([outcome 0 1, outcome 1 0], 1), ([outcome 0 1, outcome 1 1], -1)].map fun e => (made chsh e.1 false, e.2))) ⟨by decide, by
      intro x hx
      obtain ⟨y, hy, rfl⟩ := List.mem_map.mp hx
      have hw : Word chsh 2 y.1 := by
        simp only [List.mem_cons, List.not_mem_nil, or_false] at hy
        rcases hy with rfl | rfl | rfl | rfl <;> exact ⟨by simp [Locality.Exists, chsh, outcome], by simp⟩
      exact ⟨y.1, hw, construct_stored chsh_room ⟨hw.1, hw.2.trans (by decide)⟩ false⟩⟩ (fun _ i h => by cases h) trivial
  simp only [System.exec, e, Option.map_some, Option.some.injEq, MatrixSystem.ofReply, Prod.mk.injEq] at e'
  rw [← e'.1] at k
  have k : Sound chsh 6 S'.table := k
  obtain ⟨v, hv⟩ := k.values chsh_room (φ := LinearMap.id) hP hst (fun a => rfl)
  refine ⟨S, S', o, M, v, r2, e, g.dim, hv, C101_positive g hP hst (fun a => rfl) hv fun a => ?_⟩
  simp only [outcome, List.map_cons, if_true, List.map_nil, List.prod_cons, List.prod_nil, mul_one, one_smul, List.sum_cons, List.sum_nil, LinearMap.id_apply]
  have : star a * (1 + (1 + (1 + ((-1 : ℂ) • 1 + 0)))) * a = 2 * (star a * a) := by simp; ring
  rw [this]
  exact mul_nonneg (by norm_num) (star_mul_self_nonneg a)

end Moment.C101
