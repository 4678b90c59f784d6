import Verif.Props.C86_Representations
import Mathlib.LinearAlgebra.FreeAlgebra
import Mathlib.Data.Matrix.Basic
import Mathlib.LinearAlgebra.Matrix.Notation

/-! # C87, continued: free algebras, and products that come with signs -/

namespace Moment.C87
open Moment.SymRep Moment.GenericWords

/-! ## Free algebras -/

/-- The free algebra whose generators are the operators. -/
abbrev Free := FreeAlgebra ℝ Nat

/-- A word in the free algebra. -/
noncomputable abbrev inFree : HSeq → Free := value (FreeAlgebra.ι ℝ)

theorem free_independent (r : Nat) {N n : Nat} (hr : r < 2 ^ 64) (hL : (∑ k ∈ Finset.range (N + 1), r ^ k) < 2 ^ 64) (hn : n ≤ N) :
    LinearIndependent ℝ fun i : Fin ((freeCtx r).words n).length => inFree ((freeCtx r).words n)[i] := by
  obtain ⟨h1, -⟩ := free_words r hr hL hn
  have hb : ∀ s : HSeq, inFree s = FreeAlgebra.basisFreeMonoid ℝ Nat (FreeMonoid.ofList s.ops) := by
    intro s
    have : FreeAlgebra.basisFreeMonoid ℝ Nat (FreeMonoid.ofList s.ops) =
        (FreeAlgebra.equivMonoidAlgebraFreeMonoid (R := ℝ) (X := Nat)).symm (MonoidAlgebra.single (FreeMonoid.ofList s.ops) 1) := by
      simp [FreeAlgebra.basisFreeMonoid]
    rw [this]
    show _ = MonoidAlgebra.lift ℝ (FreeAlgebra ℝ Nat) (FreeMonoid Nat) (FreeMonoid.lift (FreeAlgebra.ι ℝ)) (MonoidAlgebra.single (FreeMonoid.ofList s.ops) 1)
    rw [MonoidAlgebra.lift_single, one_smul, FreeMonoid.lift_apply]
    rfl
  have hinj : Function.Injective fun i : Fin ((freeCtx r).words n).length => FreeMonoid.ofList ((freeCtx r).words n)[i].ops := by
    intro i j h
    have h' : ((freeCtx r).words n)[i].ops = ((freeCtx r).words n)[j].ops := h
    by_contra hne
    have key : ∀ a b : Fin ((freeCtx r).words n).length, a.1 < b.1 → ((freeCtx r).words n)[a].ops ≠ ((freeCtx r).words n)[b].ops := by
      intro a b hab e
      have := List.pairwise_iff_getElem.mp h1 a.1 b.1 (by simp) (by simp) hab
      simp only [List.getElem_map] at this
      have e' : ((freeCtx r).words n)[a.1].ops = ((freeCtx r).words n)[b.1].ops := e
      rw [e'] at this
      rcases List.shortlex_def.mp this with h | ⟨-, h⟩
      · omega
      · exact lex_irrefl _ h
    rcases Nat.lt_or_gt_of_ne (fun h => hne (Fin.ext h)) with h | h
    · exact key i j h h'
    · exact key j i h h'.symm
  have := (FreeAlgebra.basisFreeMonoid ℝ Nat).linearIndependent.comp _ hinj
  have e : (fun i : Fin ((freeCtx r).words n).length => inFree ((freeCtx r).words n)[i]) =
      (FreeAlgebra.basisFreeMonoid ℝ Nat) ∘ fun i : Fin ((freeCtx r).words n).length => FreeMonoid.ofList ((freeCtx r).words n)[i].ops := funext fun i => hb _
  rw [e]
  exact this

/-- A matrix on the words of length up to one that leaves the identity as it is. -/
def Unital (A : Entries) : Prop := ∀ i, A i 0 = if i = 0 then 1 else 0

theorem free_first (r n : Nat) : ((freeCtx r).words n)[0]? = some (HSeq.identity .pos) := by
  have : (freeCtx r).words n = HSeq.identity .pos :: ((visited r n).map fun w => getIfCanonical { radix := r, simplify := fun w s => some (w, s) } false w).reduceOption := by
    show (generic _ r n).getD [] = _
    unfold generic
    rw [mapM_values _ (fun w => getIfCanonical { radix := r, simplify := fun w s => some (w, s) } false w) _ (fun _ _ => rfl)]
    rfl
  rw [this]; rfl

/-- Every matrix that leaves the identity as it is comes from a homomorphism of the free algebra. -/
theorem free_hom (r : Nat) {N : Nat} (hr : r < 2 ^ 64) (hL : (∑ k ∈ Finset.range (N + 1), r ^ k) < 2 ^ 64) (hN : 1 ≤ N) {A : Entries} (hA : Unital A) :
    ∃ φ : Free →ₐ[ℝ] Free, Represents inFree φ ((freeCtx r).words 1) A := by
  classical
  obtain ⟨h1, h2⟩ := free_words r hr hL hN
  set ws := (freeCtx r).words 1 with hws
  refine ⟨FreeAlgebra.lift ℝ fun o => ∑ i : Fin ws.length, A i (ws.map HSeq.ops |>.idxOf [o]) • inFree ws[i], ?_⟩
  have hnd : (ws.map HSeq.ops).Nodup := h1.imp (by
    rintro a b h rfl
    rcases List.shortlex_def.mp h with h | ⟨-, h⟩
    · omega
    · exact lex_irrefl _ h)
  intro j hj
  obtain ⟨w, w1, w2, hw⟩ := (h2 ws[j]).mp (List.getElem_mem hj)
  have hidx : (ws.map HSeq.ops).idxOf w = j := by
    have e : (ws.map HSeq.ops)[j]'(by simpa using hj) = w := by rw [List.getElem_map, hw]; rfl
    rw [← e]
    exact List.Nodup.idxOf_getElem hnd j _
  match w, w2 with
  | [], _ =>
    have h0 := free_first r 1
    rw [← hws] at h0
    have hj0 : j = 0 := by
      rw [← hidx]
      obtain ⟨hp, e⟩ := List.getElem?_eq_some_iff.mp h0
      have e' : (ws.map HSeq.ops)[0]'(by simpa using hp) = [] := by rw [List.getElem_map, e]; rfl
      have := List.Nodup.idxOf_getElem hnd 0 (by simpa using hp)
      rwa [e'] at this
    have hv : inFree ws[j] = 1 := by rw [hw]; rfl
    rw [hv, map_one]
    rw [Finset.sum_eq_single (⟨j, hj⟩ : Fin ws.length)]
    · show 1 = A j j • inFree ws[j]
      rw [hv]
      subst hj0
      rw [hA, if_pos rfl, one_smul]
    · intro b _ hb
      have : b.1 ≠ j := fun h => hb (Fin.ext h)
      subst hj0
      rw [hA, if_neg this, zero_smul]
    · simp
  | [o], _ =>
    have hv : inFree ws[j] = FreeAlgebra.ι ℝ o := by rw [hw]; simp [inFree, value, C70.letters]
    rw [hv, FreeAlgebra.lift_ι_apply, hidx]

/-- Products of matrices on words of length one stand for compositions, on the words. -/
theorem free_comp (r : Nat) {N : Nat} (hr : r < 2 ^ 64) (hL : (∑ k ∈ Finset.range (N + 1), r ^ k) < 2 ^ 64) (hN : 1 ≤ N) {A B C : Entries} {f g k : Free →ₐ[ℝ] Free}
    (hA : Represents inFree f ((freeCtx r).words 1) A) (hB : Represents inFree g ((freeCtx r).words 1) B) (hC : Represents inFree k ((freeCtx r).words 1) C)
    (hm : ∀ i j, i < ((freeCtx r).words 1).length → j < ((freeCtx r).words 1).length → C i j = mulE ((freeCtx r).words 1).length A B i j) {o : Nat} (ho : o < r) :
    k (FreeAlgebra.ι ℝ o) = f (g (FreeAlgebra.ι ℝ o)) := by
  obtain ⟨-, h2⟩ := free_words r hr hL hN
  set ws := (freeCtx r).words 1 with hws
  have hmem : C70.letters r [o] ∈ ws := (h2 _).mpr ⟨[o], by intro x hx; rw [List.mem_singleton] at hx; omega, Nat.le_refl _, rfl⟩
  obtain ⟨j, hj, e⟩ := List.getElem_of_mem hmem
  have hv : inFree ws[j] = FreeAlgebra.ι ℝ o := by rw [e]; simp [inFree, value, C70.letters]
  rw [← hv, hC j hj, hB j hj, map_sum]
  simp only [map_smul]
  have : ∀ t : Fin ws.length, B t j • f (inFree ws[t]) = ∑ i : Fin ws.length, (A i t * B t j) • inFree ws[i] := by
    intro t
    rw [show f (inFree ws[t]) = f (inFree (ws[t.1]'t.2)) from rfl, hA t.1 t.2, Finset.smul_sum]
    exact Finset.sum_congr rfl fun i _ => by rw [smul_smul, mul_comm]
  rw [Finset.sum_congr rfl fun t _ => this t, Finset.sum_comm]
  refine Finset.sum_congr rfl fun i _ => ?_
  rw [← Finset.sum_smul, hm i j i.2 hj, mulE, Finset.sum_range]

/-- Homomorphisms that agree on the letters agree on the words. -/
theorem represents_congr (r : Nat) {N n : Nat} (hr : r < 2 ^ 64) (hL : (∑ k ∈ Finset.range (N + 1), r ^ k) < 2 ^ 64) (hn : n ≤ N) {f g : Free →ₐ[ℝ] Free}
    (h : ∀ o < r, f (FreeAlgebra.ι ℝ o) = g (FreeAlgebra.ι ℝ o)) {s : HSeq} (hs : s ∈ (freeCtx r).words n) : f (inFree s) = g (inFree s) := by
  obtain ⟨w, w1, -, rfl⟩ := ((free_words r hr hL hn).2 s).mp hs
  simp only [inFree, value, C70.letters, map_list_prod, List.map_map]
  congr 1
  exact List.map_congr_left fun o ho => h o (w1 o ho)

/-- **C87.** In contexts without relations. The matrices of the generators of the group on words of length one leave the identity as it is. Then, whatever was
built before, a representation on words of length `n` is returned. Its matrices act on the words as the homomorphisms of the free algebra that the matrices on
words of length one give; and if one of these is the product of two others, then so it is on words of length `n`. -/
theorem C87_free (r : Nat) {N : Nat} (hr : r < 2 ^ 64) (hL : (∑ k ∈ Finset.range (N + 1), r ^ k) < 2 ^ 64) (hN64 : N < 2 ^ 64) {fund : List Entries}
    (hu : ∀ A ∈ fund, Unital A) {G : Grp} (hG : After (freeCtx r) fund.length N fund G) {n : Nat} (h1 : 1 ≤ n) (hn : n ≤ N) :
    ∃ G' rep, G.create (freeCtx r) fund.length n = some (G', some rep) ∧ rep.length = fund.length ∧
      (∀ i : Nat, ∀ A B, fund[i]? = some A → rep[i]? = some B → ∃ φ : Free →ₐ[ℝ] Free, Represents inFree φ ((freeCtx r).words 1) A ∧ Represents inFree φ ((freeCtx r).words n) B) ∧
      ∀ f g k : Nat, ∀ A B C A' B' C', fund[f]? = some A → fund[g]? = some B → fund[k]? = some C → rep[f]? = some A' → rep[g]? = some B' → rep[k]? = some C' →
        (∀ i j, i < ((freeCtx r).words 1).length → j < ((freeCtx r).words 1).length → C i j = mulE ((freeCtx r).words 1).length A B i j) →
        ∀ i j, i < ((freeCtx r).words n).length → j < ((freeCtx r).words n).length → C' i j = mulE ((freeCtx r).words n).length A' B' i j := by
  classical
  have hex : ∀ i : Nat, ∃ φ : Free →ₐ[ℝ] Free, ∀ A, fund[i]? = some A → Represents inFree φ ((freeCtx r).words 1) A := by
    intro i
    cases hA : fund[i]? with
    | none => exact ⟨AlgHom.id ℝ _, fun A h => by cases h⟩
    | some A =>
      obtain ⟨φ, h⟩ := free_hom r hr hL (by omega) (hu A (List.mem_of_getElem? hA))
      exact ⟨φ, fun A' h' => by obtain rfl := Option.some.inj h'; exact h⟩
  choose φ hφ using hex
  have hf := free_faithful r hr hL (FreeAlgebra.ι ℝ)
  obtain ⟨G', o, e, h⟩ := C87_represents_partial (φ := φ) hf hN64 rfl (fun i A h => hφ i A h) hG hn
  rcases h with ⟨h0, -⟩ | ⟨-, rep, rfl, hlen, hrep⟩
  · omega
  refine ⟨G', rep, e, hlen, fun i A B hA hB => ⟨φ i, hφ i A hA, hrep i B hB⟩, ?_⟩
  intro f g k A B C A' B' C' hA hB hC hA' hB' hC' hm i j hi hj
  have hk := fun o (ho : o < r) => free_comp r hr hL (by omega) (hφ f A hA) (hφ g B hB) (hφ k C hC) hm ho
  have hk' : Represents inFree ((φ f).comp (φ g)) ((freeCtx r).words n) C' := by
    intro j hj
    rw [← hrep k C' hC' j hj]
    exact (represents_congr r hr hL hn (f := φ k) (g := (φ f).comp (φ g)) (fun o ho => hk o ho) (List.getElem_mem hj)).symm
  exact represents_mul (fun _ => rfl) (hrep f A' hA') (hrep g B' hB') hk' (free_independent r hr hL hn) hi hj

/-- Two letters, swapped: words of length up to twenty. -/
def swapped : Entries := fun i j => if (i, j) = (0, 0) ∨ (i, j) = (1, 2) ∨ (i, j) = (2, 1) then 1 else 0

def still : Entries := fun i j => if i = j then 1 else 0

example : (∑ k ∈ Finset.range (20 + 1), 2 ^ k) < 2 ^ 64 ∧ (∀ A ∈ [still, swapped], Unital A) ∧
    After (freeCtx 2) [still, swapped].length 20 [still, swapped] (Grp.new (freeCtx 2) [still, swapped]) := by
  refine ⟨by decide, ?_, .new⟩
  intro A hA i
  rcases List.mem_cons.mp hA with rfl | hA
  · rfl
  · rw [List.mem_singleton] at hA
    subst hA
    simp [swapped]

/-! ## Products with signs -/

open Moment.C83 (anti antiBook antiWord algHost)

/-- The context with the rule `yx → -xy`. -/
noncomputable def antiCtx : SymRep.Ctx where
  words n := (generic (algebraicGet anti antiBook) 2 n).getD []
  mul := (algHost anti antiBook).mul

theorem shortlex_unique {l m : List (List Nat)} (hl : l.Pairwise (List.Shortlex (· < ·))) (hm : m.Pairwise (List.Shortlex (· < ·))) (h : ∀ w, w ∈ l ↔ w ∈ m) : l = m := by
  have irr : ∀ a : List Nat, ¬ List.Shortlex (· < ·) a a := by
    intro a h
    rcases List.shortlex_def.mp h with h | ⟨-, h⟩
    · omega
    · exact lex_irrefl _ h
  have nd : ∀ {l : List (List Nat)}, l.Pairwise (List.Shortlex (· < ·)) → l.Nodup := fun h => h.imp (by rintro a b h' rfl; exact irr a h')
  refine List.Perm.eq_of_pairwise ?_ hl hm ((List.perm_ext_iff_of_nodup (nd hl) (nd hm)).mpr h)
  intro a b _ _ h1 h2
  exfalso
  rcases List.shortlex_def.mp h1 with h1 | ⟨e1, h1⟩ <;> rcases List.shortlex_def.mp h2 with h2 | ⟨e2, h2⟩
  · omega
  · omega
  · omega
  · exact List.lt_asymm h1 h2

theorem visited_one : visited 2 1 = [[0], [1]] := by
  refine shortlex_unique (visited_sorted 2 1) (by simp [List.shortlex_def]; decide) fun w => ?_
  rw [mem_visited]
  constructor
  · rintro ⟨h0, h1, h2⟩
    match w, h0, h1, h2 with
    | [a], _, h1, _ =>
      have := h1 a (by simp)
      interval_cases a <;> simp
  · intro h
    fin_cases h <;> simp [C02.IsWord]

theorem visited_two : visited 2 2 = [[0], [1], [0, 0], [0, 1], [1, 0], [1, 1]] := by
  refine shortlex_unique (visited_sorted 2 2) (by simp [List.shortlex_def]; decide) fun w => ?_
  rw [mem_visited]
  constructor
  · rintro ⟨h0, h1, h2⟩
    match w, h0, h1, h2 with
    | [a], _, h1, _ =>
      have := h1 a (by simp)
      interval_cases a <;> simp
    | [a, b], _, h1, _ =>
      have ha := h1 a (by simp)
      have hb := h1 b (by simp)
      interval_cases a <;> interval_cases b <;> simp
  · intro h
    fin_cases h <;> simp [C02.IsWord]

theorem anti_get : algebraicGet anti antiBook [0] = some (some (antiWord [0])) ∧ algebraicGet anti antiBook [1] = some (some (antiWord [1])) ∧
    algebraicGet anti antiBook [0, 0] = some (some (antiWord [0, 0])) ∧ algebraicGet anti antiBook [0, 1] = some (some (antiWord [0, 1])) ∧
    algebraicGet anti antiBook [1, 0] = some none ∧ algebraicGet anti antiBook [1, 1] = some (some (antiWord [1, 1])) := by
  have key : ∀ w : List Nat, w.isEmpty = false → antiBook.useSearch w.length = false →
      antiBook.canReduce anti w = some (antiBook.rules.any fun e => (Rules.matchesAnywhere e.2.lhs.ops w 0).isSome) := by
    intro w h1 h2
    unfold Rules.Book.canReduce
    have h3 : antiBook.rules.isEmpty = false := rfl
    simp [h1, h2, h3]
  unfold algebraicGet
  refine ⟨?_, ?_, ?_, ?_, ?_, ?_⟩ <;> rw [key _ rfl (by decide)] <;> decide +kernel

theorem anti_words_one : antiCtx.words 1 = [antiWord [], antiWord [0], antiWord [1]] := by
  obtain ⟨g1, g2, -⟩ := anti_get
  show (generic (algebraicGet anti antiBook) 2 1).getD [] = _
  unfold generic
  rw [visited_one]
  simp only [List.mapM_cons, List.mapM_nil, g1, g2]
  rfl

theorem anti_words_two : antiCtx.words 2 = [antiWord [], antiWord [0], antiWord [1], antiWord [0, 0], antiWord [0, 1], antiWord [1, 1]] := by
  obtain ⟨g1, g2, g3, g4, g5, g6⟩ := anti_get
  show (generic (algebraicGet anti antiBook) 2 2).getD [] = _
  unfold generic
  rw [visited_two]
  simp only [List.mapM_cons, List.mapM_nil, g1, g2, g3, g4, g5, g6]
  rfl

theorem anti_products : products antiCtx 1 1 = [antiWord [], antiWord [0], antiWord [1], antiWord [0], antiWord [0, 0], antiWord [0, 1], antiWord [1], antiWord [0, 1] .neg,
    antiWord [1, 1]] := by
  have ne : anti.hash [] ≠ 0 ∧ anti.hash [0] ≠ 0 ∧ anti.hash [1] ≠ 0 ∧ anti.hash [0, 0] ≠ 0 ∧ anti.hash [0, 1] ≠ 0 ∧ anti.hash [1, 0] ≠ 0 ∧ anti.hash [1, 1] ≠ 0 := by
    decide +kernel
  obtain ⟨n, n0, n1, n00, n01, n10, n11⟩ := ne
  unfold products
  rw [anti_words_one]
  show [(algHost anti antiBook).mul (antiWord []) (antiWord []), (algHost anti antiBook).mul (antiWord []) (antiWord [0]), (algHost anti antiBook).mul (antiWord []) (antiWord [1]),
    (algHost anti antiBook).mul (antiWord [0]) (antiWord []), (algHost anti antiBook).mul (antiWord [0]) (antiWord [0]), (algHost anti antiBook).mul (antiWord [0]) (antiWord [1]),
    (algHost anti antiBook).mul (antiWord [1]) (antiWord []), (algHost anti antiBook).mul (antiWord [1]) (antiWord [0]), (algHost anti antiBook).mul (antiWord [1]) (antiWord [1])] = _
  have m : (algHost anti antiBook).mul (antiWord []) (antiWord []) = antiWord [] := by
    have h : (Rules.simplify anti false antiBook [] .pos).getD none = some ([], .pos) := rfl
    simp only [algHost, HSeq.multiply, antiWord, HSeq.isZero, beq_iff_eq, n, Bool.or_eq_true, or_self, if_false]
    simp only [HSeq.construct, HSeq.toCanonical, List.append_nil, show Sign.mul .pos .pos = .pos from rfl, h]
    rfl
  rw [m, C83.anti_mul (l := []) (m := [0]) (r := .noMatch) (out := ([0], .pos)) n n0 rfl (by decide) (by decide +kernel) (by simp) n0,
    C83.anti_mul (l := []) (m := [1]) (r := .noMatch) (out := ([1], .pos)) n n1 rfl (by decide) (by decide +kernel) (by simp) n1,
    C83.anti_mul (l := [0]) (m := []) (r := .noMatch) (out := ([0], .pos)) n0 n rfl (by decide) (by decide +kernel) (by simp) n0,
    C83.anti_mul (l := [0]) (m := [0]) (r := .noMatch) (out := ([0, 0], .pos)) n0 n0 rfl (by decide) (by decide +kernel) (by simp) n00,
    C83.anti_mul (l := [0]) (m := [1]) (r := .noMatch) (out := ([0, 1], .pos)) n0 n1 rfl (by decide) (by decide +kernel) (by simp) n01,
    C83.anti_mul (l := [1]) (m := []) (r := .noMatch) (out := ([1], .pos)) n1 n rfl (by decide) (by decide +kernel) (by simp) n1,
    C83.anti_mul (l := [1]) (m := [0]) (r := .matched) (out := ([0, 1], .neg)) n1 n0 rfl (by decide) (by decide +kernel) (by simp) n10,
    C83.anti_mul (l := [1]) (m := [1]) (r := .noMatch) (out := ([1, 1], .pos)) n1 n1 rfl (by decide) (by decide +kernel) (by simp) n11]

theorem anti_remap : vectorRemap antiCtx 1 1 2 = some [1, 2, 3, 2, 4, 5, 3, 5, 6] := by
  unfold vectorRemap
  rw [anti_products, anti_words_two]
  decide +kernel

theorem list_two : buildList 2 = some [2] := by
  unfold buildList
  rw [if_neg (by decide), buildLoop.eq_def]
  dsimp only
  rw [if_pos (by decide), if_neg (by decide)]
  rfl

/-- The mapper to words of length two. -/
noncomputable def antiMapper : Mapper :=
  ⟨2, 3, 3, 9, 6, [1, 2, 3, 2, 4, 5, 3, 5, 6], fromTriplets (lhsTriplets 0 [1, 2, 3, 2, 4, 5, 3, 5, 6]), fromTriplets (rhsTriplets 0 [] [1, 2, 3, 2, 4, 5, 3, 5, 6])⟩

theorem anti_make : Mapper.make antiCtx (Mapper.one antiCtx) (Mapper.one antiCtx) 2 = some antiMapper := by
  unfold Mapper.make
  have e : vectorRemap antiCtx (Mapper.one antiCtx).target (Mapper.one antiCtx).target 2 = some [1, 2, 3, 2, 4, 5, 3, 5, 6] := anti_remap
  rw [e]
  have e1 : (Mapper.one antiCtx).remapped = 3 := by simp [Mapper.one, anti_words_one]
  have e2 : (antiCtx.words 2).length = 6 := by rw [anti_words_two]; rfl
  rw [Option.map_some, e1, e2]
  rfl

theorem anti_column (i : Nat) : antiMapper.apply swapped swapped i 4 = if i = 4 then 1 else 0 := by
  obtain ⟨q0, h1, h2⟩ := rhs_entry [1, 2, 3, 2, 4, 5, 3, 5, 6] 0 [] 4 (by simp) (by simp)
  have hr : ∀ q, antiMapper.rhs q 4 = if q = 5 then 1 else 0 := by
    intro q
    show fromTriplets (rhsTriplets 0 [] [1, 2, 3, 2, 4, 5, 3, 5, 6]) q 4 = _
    simp [rhsTriplets, fromTriplets_cons, fromTriplets_nil, eq_comm]
  have hl : ∀ q, antiMapper.lhs i q = if ([1, 2, 3, 2, 4, 5, 3, 5, 6] : List Nat)[q]? = some (i + 1) then 1 else 0 := by
    intro q
    have := lhs_entry [1, 2, 3, 2, 4, 5, 3, 5, 6] 0 i q
    rw [Nat.zero_add] at this
    exact this
  unfold Mapper.apply mulE
  simp only [hr, mul_ite, mul_one, mul_zero, Finset.sum_ite_eq', Finset.mem_range]
  have e9 : antiMapper.raw = 9 := rfl
  rw [e9, if_pos (by decide)]
  have e3 : antiMapper.right = 3 := rfl
  rw [Finset.sum_eq_single 7]
  · rw [hl, e3]
    simp [kron, swapped, eq_comm]
  · intro q hq hne
    rw [e3]
    have : kron 3 swapped swapped q 5 = 0 := by
      rw [Finset.mem_range] at hq
      interval_cases q <;> simp [kron, swapped] at hne ⊢
    rw [this, mul_zero]
  · simp

/-- **C87, refuted.** Two operators `x`, `y` with `yx = -xy`, a complete set of rules, and the symmetry that swaps them. In every algebra where `x` and `y`
anticommute and `xy` is not zero, the matrix that is returned for words of length two does not represent the swap: `xy` goes to `yx = -xy`, but the matrix sends it to `xy`. -/
theorem C87_refuted_sign : ∃ G' rep A, (Grp.new antiCtx [still, swapped]).create antiCtx 2 2 = some (G', some rep) ∧ rep[1]? = some A ∧
    ∀ (R : Type) [Ring R] [Algebra ℝ R] (x : Nat → R), x 1 * x 0 = -(x 0 * x 1) → x 0 * x 1 ≠ 0 → ∀ φ : R →ₐ[ℝ] R,
      Represents (value x) φ (antiCtx.words 1) swapped → ¬ Represents (value x) φ (antiCtx.words 2) A := by
  refine ⟨⟨[some [still, swapped], some [antiMapper.apply still still, antiMapper.apply swapped swapped]], [some (Mapper.one antiCtx), some antiMapper]⟩,
    [antiMapper.apply still still, antiMapper.apply swapped swapped], antiMapper.apply swapped swapped, ?_, rfl, ?_⟩
  · unfold Grp.create
    rw [if_neg (by decide)]
    have hb : (Grp.new antiCtx [still, swapped]).build antiCtx 2 2 = some ⟨[some [still, swapped], some [antiMapper.apply still still, antiMapper.apply swapped swapped]],
        [some (Mapper.one antiCtx), some antiMapper]⟩ := by
      unfold Grp.build
      rw [list_two]
      have hg1 : grow (Grp.new antiCtx [still, swapped]).mappers 2 = [some (Mapper.one antiCtx), none] := rfl
      have hg2 : grow (Grp.new antiCtx [still, swapped]).reps 2 = [some [still, swapped], none] := rfl
      have hp : parents 2 = (1, 1) := by decide
      have hm : makeMappers antiCtx [2] [some (Mapper.one antiCtx), none] = some [some (Mapper.one antiCtx), some antiMapper] := by
        simp only [makeMappers, hp]
        show (Mapper.make antiCtx (Mapper.one antiCtx) (Mapper.one antiCtx) 2 >>= fun m => some [some (Mapper.one antiCtx), some m]) = _
        rw [anti_make]; rfl
      rw [hg1, hg2]
      simp only [Option.bind_eq_bind, Option.bind_some, hm]
      have hf : List.filter (fun k => (at? [some [still, swapped], none] k).isNone) [2] = [2] := rfl
      have hg : ([some (Mapper.one antiCtx), some antiMapper] : List (Option Mapper)).getLast?.join = some antiMapper := rfl
      rw [hf, hg]
      simp only [buildReps, hp]
      rfl
    rw [hb]
    rfl
  · intro R _ _ x hanti hne φ h1 h2
    have w1 : ∀ j w, (antiCtx.words 1)[j]? = some w → φ (value x w) = ∑ i ∈ Finset.range 3, swapped i j • evAt (value x) (antiCtx.words 1) i := by
      intro j w hw
      have hj := (List.getElem?_eq_some_iff.mp hw).1
      have := represents_iff.mp h1 j hj
      rw [evAt_of hw] at this
      rw [this, anti_words_one]; rfl
    have vx : φ (x 0) = x 1 := by
      have := w1 1 (antiWord [0]) (by rw [anti_words_one]; rfl)
      rw [Finset.sum_eq_single 2 (by intro b hb hne; rw [Finset.mem_range] at hb; interval_cases b <;> simp [swapped] at hne ⊢) (by simp)] at this
      rw [evAt_of (w := antiWord [1]) (by rw [anti_words_one]; rfl)] at this
      simpa [value, antiWord, swapped] using this
    have vy : φ (x 1) = x 0 := by
      have := w1 2 (antiWord [1]) (by rw [anti_words_one]; rfl)
      rw [Finset.sum_eq_single 1 (by intro b hb hne; rw [Finset.mem_range] at hb; interval_cases b <;> simp [swapped] at hne ⊢) (by simp)] at this
      rw [evAt_of (w := antiWord [0]) (by rw [anti_words_one]; rfl)] at this
      simpa [value, antiWord, swapped] using this
    have h3 := represents_iff.mp h2 4 (by rw [anti_words_two]; decide)
    simp only [anti_column] at h3
    rw [evAt_of (w := antiWord [0, 1]) (by rw [anti_words_two]; rfl), Finset.sum_eq_single 4 (by intro b _ hne; rw [if_neg hne, zero_smul]) (by rw [anti_words_two]; simp),
      evAt_of (w := antiWord [0, 1]) (by rw [anti_words_two]; rfl)] at h3
    have h4 : x 1 * x 0 = x 0 * x 1 := by simpa [value, antiWord, vx, vy] using h3
    rw [hanti] at h4
    have h5 : (2 : ℝ) • (x 0 * x 1) = 0 := by
      rw [two_smul]
      nth_rewrite 1 [← h4]
      exact neg_add_cancel _
    exact hne ((smul_eq_zero.mp h5).resolve_left (by norm_num))

/-- Two matrices that anticommute, the first and third Pauli matrix. -/
def paulis : Nat → Matrix (Fin 2) (Fin 2) ℝ
  | 0 => !![1, 0; 0, -1]
  | _ => !![0, 1; 1, 0]

/-- A multiple of a reflection that swaps them. -/
def mirror : Matrix (Fin 2) (Fin 2) ℝ := !![1, 1; 1, -1]

theorem mirror_sq : mirror * mirror = (2 : ℝ) • 1 := by
  ext i j
  fin_cases i <;> fin_cases j <;> simp [mirror] <;> norm_num

/-- Conjugation with it. -/
noncomputable def swapHom : Matrix (Fin 2) (Fin 2) ℝ →ₐ[ℝ] Matrix (Fin 2) (Fin 2) ℝ :=
  AlgHom.ofLinearMap
    { toFun := fun M => (1 / 2 : ℝ) • (mirror * M * mirror)
      map_add' := fun A B => by rw [mul_add, add_mul, smul_add]
      map_smul' := fun t A => by rw [RingHom.id_apply, mul_smul_comm, smul_mul_assoc, smul_comm] }
    (by
      show (1 / 2 : ℝ) • (mirror * 1 * mirror) = 1
      rw [mul_one, mirror_sq, smul_smul]; norm_num)
    (by
      intro A B
      show (1 / 2 : ℝ) • (mirror * (A * B) * mirror) = (1 / 2 : ℝ) • (mirror * A * mirror) * ((1 / 2 : ℝ) • (mirror * B * mirror))
      have e : mirror * A * mirror * (mirror * B * mirror) = (2 : ℝ) • (mirror * (A * B) * mirror) := by
        have : mirror * A * mirror * (mirror * B * mirror) = mirror * A * (mirror * mirror) * B * mirror := by simp only [mul_assoc]
        rw [this, mirror_sq]
        simp only [mul_assoc, smul_mul_assoc, mul_smul_comm, one_mul]
      rw [smul_mul_assoc, mul_smul_comm, e, smul_smul, smul_smul]
      norm_num)

/-- Such algebras and symmetries exist. -/
example : paulis 1 * paulis 0 = -(paulis 0 * paulis 1) ∧ paulis 0 * paulis 1 ≠ 0 ∧ Represents (value paulis) swapHom (antiCtx.words 1) swapped := by
  refine ⟨?_, ?_, ?_⟩
  · ext i j
    fin_cases i <;> fin_cases j <;> simp [paulis]
  · intro h
    have := congrFun (congrFun h 0) 1
    simp [paulis] at this
  · rw [represents_iff, anti_words_one]
    have hx : swapHom (paulis 0) = paulis 1 := by
      show (1 / 2 : ℝ) • (mirror * paulis 0 * mirror) = paulis 1
      ext i j
      fin_cases i <;> fin_cases j <;> simp [mirror, paulis] <;> norm_num
    have hy : swapHom (paulis 1) = paulis 0 := by
      show (1 / 2 : ℝ) • (mirror * paulis 1 * mirror) = paulis 0
      ext i j
      fin_cases i <;> fin_cases j <;> simp [mirror, paulis] <;> norm_num
    intro j hj
    have hj' : j < 3 := hj
    have e0 : evAt (value paulis) [antiWord [], antiWord [0], antiWord [1]] 0 = 1 := by simp [evAt, value, antiWord]
    have e1 : evAt (value paulis) [antiWord [], antiWord [0], antiWord [1]] 1 = paulis 0 := by simp [evAt, value, antiWord]
    have e2 : evAt (value paulis) [antiWord [], antiWord [0], antiWord [1]] 2 = paulis 1 := by simp [evAt, value, antiWord]
    show _ = ∑ i ∈ Finset.range 3, _
    simp only [Finset.sum_range_succ, Finset.sum_range_zero, zero_add, e0, e1, e2]
    interval_cases j
    · rw [e0, map_one]; simp [swapped]
    · rw [e1, hx]; simp [swapped]
    · rw [e2, hy]; simp [swapped]

end Moment.C87
