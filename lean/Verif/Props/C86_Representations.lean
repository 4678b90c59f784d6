import Verif.Proof.SymmetryRep
import Verif.Props.C88_GenericWords
import Verif.Props.C83_OperatorThreads
import Mathlib.Algebra.FreeAlgebra
import Mathlib.LinearAlgebra.LinearIndependent.Defs

/-! # C86: which lengths are built for a representation; C87: representations of symmetry groups on longer words -/

namespace Moment.C86
open Moment.SymRep

/-- **C86.** The list of lengths for `n`: increasing, ends with `n`, and every length in it is the sum of two that are one or come earlier. -/
theorem C86_plan {n : Nat} (h2 : 2 ≤ n) (h64 : n < 2 ^ 64) : ∃ l, buildList n = some l ∧ Plan n l := by
  obtain ⟨l, h1, hl, hs, hb, hp⟩ := buildList_spec h2 h64
  refine ⟨l, h1, hl, hs, fun m hm => ?_⟩
  have hbm := hb m hm
  have hps := parents_spec hbm.1 (by omega)
  exact ⟨(parents m).1, (parents m).2, hps.1, hps.2.1, (hp m hm).1, (hp m hm).2⟩

/-- **C86.** For lengths up to one there is nothing to build. -/
theorem C86_short {n : Nat} (h : n ≤ 1) : buildList n = some [] := if_pos h

/-- **C86.** A length has one bit set, or its largest bit and the others are its parents; the parents are shorter. -/
theorem C86_parents {n : Nat} (h2 : 2 ≤ n) (h64 : n < 2 ^ 64) : (parents n).1 + (parents n).2 = n ∧ 0 < (parents n).2 ∧ (parents n).2 ≤ (parents n).1 ∧ (parents n).1 < n := by
  have h := parents_spec h2 h64
  omega

example : (2 : Nat) ≤ 13 ∧ 13 < 2 ^ 64 ∧ parents 13 = (8, 5) := by decide

end Moment.C86

namespace Moment.C87
open Moment.SymRep Moment.GenericWords

variable {R : Type} [Ring R] [Algebra ℝ R] {c : SymRep.Ctx} {ev : HSeq → R} {N size : Nat} {φ : Nat → (R →ₐ[ℝ] R)}

/-- What may have happened to a group since it was made: any calls for representations on words of length up to `N`. -/
inductive After (c : SymRep.Ctx) (size N : Nat) (fund : List Entries) : Grp → Prop
  | new : After c size N fund (Grp.new c fund)
  | call {G G' : Grp} {n : Nat} {o : Option (List Entries)} : After c size N fund G → n ≤ N → G.create c size n = some (G', o) → After c size N fund G'

theorem after_inv (hf : Faithful c ev N) (hN : N < 2 ^ 64) {fund : List Entries} (h1 : fund.length = size)
    (h2 : ∀ i A, fund[i]? = some A → Represents ev (φ i) (c.words 1) A) {G : Grp} (hG : After c size N fund G) : Inv c ev size φ G := by
  induction hG with
  | new => exact inv_new h1 h2
  | call _ hn hc ih =>
    obtain ⟨G', o, e, hi, -⟩ := inv_create hf hN ih hn
    rw [e] at hc
    obtain ⟨rfl, rfl⟩ := Prod.mk.inj (Option.some.inj hc)
    exact hi

/-- **C87.** Whatever representations were made before, a call for words of length `n` returns without reading null pointers, gives one matrix for each element of the group,
and the matrix of element `i` on words of length `n` represents the same homomorphism as its matrix on words of length one. For length zero the call throws.
Missing: contexts where products of words come with phases (`C87_refuted_sign`), exceptions. -/
theorem C87_represents_partial (hf : Faithful c ev N) (hN : N < 2 ^ 64) {fund : List Entries} (h1 : fund.length = size)
    (h2 : ∀ i A, fund[i]? = some A → Represents ev (φ i) (c.words 1) A) {G : Grp} (hG : After c size N fund G) {n : Nat} (hn : n ≤ N) :
    ∃ G' o, G.create c size n = some (G', o) ∧
      (n = 0 ∧ o = none ∨ 1 ≤ n ∧ ∃ r, o = some r ∧ r.length = size ∧ ∀ i A, r[i]? = some A → Represents ev (φ i) (c.words n) A) := by
  obtain ⟨G', o, e, -, h⟩ := inv_create hf hN (after_inv hf hN h1 h2 hG) hn
  exact ⟨G', o, e, h⟩

theorem represents_mul {ws : List HSeq} {f g k : R →ₐ[ℝ] R} (hk : ∀ a, k a = f (g a)) {A B C : Entries} (hA : Represents ev f ws A) (hB : Represents ev g ws B)
    (hC : Represents ev k ws C) (hli : LinearIndependent ℝ fun i : Fin ws.length => ev ws[i]) {i j : Nat} (hi : i < ws.length) (hj : j < ws.length) :
    C i j = mulE ws.length A B i j := by
  have e1 : k (ev ws[j]) = ∑ i : Fin ws.length, (mulE ws.length A B i j) • ev ws[i] := by
    rw [hk, hB j hj, map_sum]
    simp only [map_smul]
    have : ∀ t : Fin ws.length, B t j • f (ev ws[t]) = ∑ i : Fin ws.length, (A i t * B t j) • ev ws[i] := by
      intro t
      rw [show f (ev ws[t]) = f (ev (ws[t.1]'t.2)) from rfl, hA t.1 t.2, Finset.smul_sum]
      exact Finset.sum_congr rfl fun i _ => by rw [smul_smul, mul_comm]
    rw [Finset.sum_congr rfl fun t _ => this t, Finset.sum_comm]
    refine Finset.sum_congr rfl fun i _ => ?_
    rw [← Finset.sum_smul, mulE, Finset.sum_range]
  have e2 := hC j hj
  rw [e1] at e2
  have e3 := (linearIndependent_iff'ₛ.mp hli) Finset.univ (fun i => C i j) (fun i => mulE ws.length A B i j) (by rw [← e2]) ⟨i, hi⟩ (Finset.mem_univ _)
  exact e3

/-- **C87.** If the words are linearly independent, then products of elements of the group go to products of matrices, on words of each length.
Missing: as for `C87_represents_partial`. -/
theorem C87_multiplies_partial (hf : Faithful c ev N) (hN : N < 2 ^ 64) {fund : List Entries} (h1 : fund.length = size)
    (h2 : ∀ i A, fund[i]? = some A → Represents ev (φ i) (c.words 1) A) {G G' : Grp} (hG : After c size N fund G) {n : Nat} (hn : n ≤ N) {r : List Entries}
    (hr : G.create c size n = some (G', some r)) (hli : LinearIndependent ℝ fun i : Fin (c.words n).length => ev (c.words n)[i])
    {f g k : Nat} (hk : ∀ a, φ k a = φ f (φ g a)) {A B C : Entries} (hA : r[f]? = some A) (hB : r[g]? = some B) (hC : r[k]? = some C) {i j : Nat}
    (hi : i < (c.words n).length) (hj : j < (c.words n).length) : C i j = mulE (c.words n).length A B i j := by
  obtain ⟨G'', o, e, h⟩ := C87_represents_partial hf hN h1 h2 hG hn
  rw [e] at hr
  obtain ⟨rfl, rfl⟩ := Prod.mk.inj (Option.some.inj hr)
  rcases h with ⟨-, h⟩ | ⟨-, r', hr', -, h⟩
  · cases h
  · obtain rfl := Option.some.inj hr'
    exact represents_mul hk (h f A hA) (h g B hB) (h k C hC) hli hi hj

/-! ## Free algebras -/

/-- The context without relations. -/
noncomputable def freeCtx (r : Nat) : SymRep.Ctx where
  words n := (generic (fun w => some (getIfCanonical { radix := r, simplify := fun w s => some (w, s) } false w)) r n).getD []
  mul := (C70.freeHost r).mul

/-- The value of a word. -/
def value (x : Nat → R) (s : HSeq) : R := (s.ops.map x).prod

theorem free_words (r : Nat) {N n : Nat} (hr : r < 2 ^ 64) (hL : (∑ k ∈ Finset.range (N + 1), r ^ k) < 2 ^ 64) (hn : n ≤ N) :
    (((freeCtx r).words n).map HSeq.ops).Pairwise (List.Shortlex (· < ·)) ∧
    ∀ s, s ∈ (freeCtx r).words n ↔ ∃ w, C02.IsWord r w ∧ w.length ≤ n ∧ s = C70.letters r w := by
  have hL' : (∑ k ∈ Finset.range (n + 1), r ^ k) < 2 ^ 64 :=
    lt_of_le_of_lt (Finset.sum_le_sum_of_subset (by simpa using hn)) hL
  obtain ⟨l, h1, h2, h3⟩ := C88.C88_plain_partial { radix := r, simplify := fun w s => some (w, s) } n hr hL' (by
    intro w hw hl v s h
    obtain ⟨rfl, rfl⟩ := Prod.mk.inj (Option.some.inj h)
    exact ⟨hw, hl⟩)
  have e : (freeCtx r).words n = l := by
    show (generic _ r n).getD [] = l
    rw [h1]; rfl
  rw [e]
  refine ⟨h2, fun s => (h3 s).trans ⟨?_, ?_⟩⟩
  · rintro (rfl | ⟨_, a1, a2, a3, a4⟩)
    · exact ⟨[], by simp [C02.IsWord], Nat.zero_le _, rfl⟩
    · refine ⟨s.ops, a1, a2, ?_⟩
      have e2 : s.sign = .pos := (Prod.mk.inj (Option.some.inj a3)).2.symm
      have : s = ⟨s.hash, s.ops, s.sign⟩ := rfl
      rw [this, a4, e2]; rfl
  · rintro ⟨w, a1, a2, rfl⟩
    by_cases h0 : w = []
    · left; rw [h0]; rfl
    · exact .inr ⟨h0, a1, a2, rfl, rfl⟩

theorem free_mul (r : Nat) {N : Nat} (hr : r < 2 ^ 64) (hL : (∑ k ∈ Finset.range (N + 1), r ^ k) < 2 ^ 64) {v w : List Nat} (hv : C02.IsWord r v) (hw : C02.IsWord r w)
    (hl : v.length + w.length ≤ N) : (freeCtx r).mul (C70.letters r v) (C70.letters r w) = C70.letters r (v ++ w) := by
  have ne0 := fun (u : List Nat) (hu : C02.IsWord r u) (h : u.length ≤ N) => C88.hash_one hr hL hu h
  have a := ne0 v hv (by omega)
  have b := ne0 w hw (by omega)
  have ab := ne0 (v ++ w) (fun o ho => (List.mem_append.mp ho).elim (hv o) (hw o)) (by rw [List.length_append]; omega)
  simp [freeCtx, C70.freeHost, HSeq.multiply, C70.letters, HSeq.isZero, a, b, HSeq.construct, HSeq.toCanonical, HSeq.ctxHash, HSeq.movedFrom, HSeq.hashOps, ab,
    Sign.mul, Sign.code, Sign.ofCode]

theorem free_faithful (r : Nat) {N : Nat} (hr : r < 2 ^ 64) (hL : (∑ k ∈ Finset.range (N + 1), r ^ k) < 2 ^ 64) (x : Nat → R) : Faithful (freeCtx r) (value x) N := by
  have inj := C02.C02_hash_shortlex_partial r N hr hL
  have happ : ∀ {v w : List Nat}, C02.IsWord r v → C02.IsWord r w → C02.IsWord r (v ++ w) := fun hv hw o ho => (List.mem_append.mp ho).elim (hv o) (hw o)
  have ne0 := fun (u : List Nat) (hu : C02.IsWord r u) (h : u.length ≤ N) => C88.hash_one hr hL hu h
  constructor
  · intro a b l r' h hl hr'
    obtain ⟨v, v1, v2, rfl⟩ := ((free_words r hr hL (by omega)).2 l).mp hl
    obtain ⟨w, w1, w2, rfl⟩ := ((free_words r hr hL (by omega)).2 r').mp hr'
    rw [free_mul r hr hL v1 w1 (by omega)]
    simp [value, C70.letters]
  · intro a b l r' h hl hr' h0
    obtain ⟨v, v1, v2, rfl⟩ := ((free_words r hr hL (by omega)).2 l).mp hl
    obtain ⟨w, w1, w2, rfl⟩ := ((free_words r hr hL (by omega)).2 r').mp hr'
    rw [free_mul r hr hL v1 w1 (by omega)] at h0
    exact absurd h0 (ne0 _ (happ v1 w1) (by rw [List.length_append]; omega))
  · intro a b l r' h hl hr'
    obtain ⟨v, v1, v2, rfl⟩ := ((free_words r hr hL (by omega)).2 l).mp hl
    obtain ⟨w, w1, w2, rfl⟩ := ((free_words r hr hL (by omega)).2 r').mp hr'
    rw [free_mul r hr hL v1 w1 (by omega)]
    exact .inr ⟨_, ((free_words r hr hL h).2 _).mpr ⟨v ++ w, happ v1 w1, by rw [List.length_append]; omega, rfl⟩, rfl⟩
  · intro a b l r' u h hl hr' hu he
    obtain ⟨v, v1, v2, rfl⟩ := ((free_words r hr hL (by omega)).2 l).mp hl
    obtain ⟨w, w1, w2, rfl⟩ := ((free_words r hr hL (by omega)).2 r').mp hr'
    obtain ⟨t, t1, t2, rfl⟩ := ((free_words r hr hL h).2 u).mp hu
    rw [free_mul r hr hL v1 w1 (by omega)] at he ⊢
    rw [(inj _ _ (happ v1 w1) t1 (by rw [List.length_append]; omega) (by omega)).1.mp he]
  · intro a b u ha hb h hu
    obtain ⟨t, t1, t2, rfl⟩ := ((free_words r hr hL h).2 u).mp hu
    have h1 : C02.IsWord r (t.take a) := fun o ho => t1 o (List.mem_of_mem_take ho)
    have h2 : C02.IsWord r (t.drop a) := fun o ho => t1 o (List.mem_of_mem_drop ho)
    have l1 : (t.take a).length ≤ a := by rw [List.length_take]; omega
    have l2 : (t.drop a).length ≤ b := by rw [List.length_drop]; omega
    refine ⟨_, ((free_words r hr hL (by omega)).2 _).mpr ⟨t.take a, h1, l1, rfl⟩, _, ((free_words r hr hL (by omega)).2 _).mpr ⟨t.drop a, h2, l2, rfl⟩, ?_⟩
    rw [free_mul r hr hL h1 h2 (by omega), List.take_append_drop]
  · intro n hn
    obtain ⟨h1, h2⟩ := free_words r hr hL hn
    have : ((freeCtx r).words n).map HSeq.hash = (((freeCtx r).words n).map HSeq.ops).map (hashWord (UInt64.ofNat r)) := by
      rw [List.map_map]
      refine List.map_congr_left fun s hs => ?_
      obtain ⟨w, -, -, rfl⟩ := (h2 s).mp hs
      rfl
    rw [this]
    have hmem : ∀ w ∈ ((freeCtx r).words n).map HSeq.ops, C02.IsWord r w ∧ w.length ≤ N := by
      intro w hw
      obtain ⟨s, hs, rfl⟩ := List.mem_map.mp hw
      obtain ⟨w, w1, w2, rfl⟩ := (h2 s).mp hs
      exact ⟨w1, le_trans w2 hn⟩
    refine List.Nodup.map_on ?_ (h1.imp ?_)
    · intro v hv w hw e
      exact (inj v w (hmem v hv).1 (hmem w hw).1 (hmem v hv).2 (hmem w hw).2).1.mp e
    · rintro a b h rfl
      rcases List.shortlex_def.mp h with h | ⟨-, h⟩
      · omega
      · exact lex_irrefl _ h
  · intro n w hn hw
    obtain ⟨w, w1, w2, rfl⟩ := ((free_words r hr hL hn).2 w).mp hw
    exact ne0 w w1 (by omega)

end Moment.C87
