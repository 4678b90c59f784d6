import Verif.Proof.Transformed
import Verif.Props.C89_WordIndex
import Verif.Props.C90_DerivedMap
import Mathlib.Algebra.Star.Free
import Mathlib.Algebra.BigOperators.Field

/-! # C91: symmetrized systems -/

namespace Moment.C91
open Moment.Symbols (Table)
open Moment.SymbolMatrix (Setting Moments Agrees)
open Moment.SymRep (Entries Represents Faithful Grp)
open Moment.Derived
open Moment.DictionaryMap (Index Lists Reached Simplified at')
open Moment.Poly (Mono)
open Moment.C87 (After)

variable {A : Type} [Ring A] [Algebra ℝ A] {h : SymbolMatrix.Host} {W : HSeq → Prop} {c : SymRep.Ctx} {words : Nat → List HSeq} {ev : HSeq → A} {N size : Nat} {φ : Nat → A →ₐ[ℝ] A}

/-- The mean of a functional over a list of maps. -/
noncomputable def mean (T : A →ₗ[ℝ] ℂ) (φ : Nat → A →ₐ[ℝ] A) (size : Nat) (x : A) : ℂ := (∑ g ∈ Finset.range size, T (φ g x)) / size

/-! ## Helpers -/

theorem sum_list {r : List Entries} (i j : Nat) : (r.map fun B => B i j).sum = ∑ g ∈ Finset.range r.length, (r[g]?).elim 0 fun B => B i j := by
  induction r with
  | nil => simp
  | cons B r ih => rw [List.map_cons, List.sum_cons, ih, List.length_cons, Finset.sum_range_succ']; simp [add_comm]

/-- The average of matrices that represent maps gives means of functionals. -/
theorem average_mean {ws : List HSeq} {r : List Entries} (hr : r.length = size) (hR : ∀ (i : Nat) B, r[i]? = some B → Represents ev (φ i) ws B)
    (T : A →ₗ[ℝ] ℂ) {j : Nat} (hj : j < ws.length) :
    ∑ i ∈ Finset.range ws.length, (((average ws.length r).val i j : ℝ) : ℂ) * (ws[i]?).elim 0 (fun w => T (ev w)) = mean T φ size (ev ws[j]) := by
  have h1 : ∀ g ∈ Finset.range size, T (φ g (ev ws[j])) =
      ∑ i ∈ Finset.range ws.length, (((r[g]?).elim 0 fun B => B i j : ℝ) : ℂ) * (ws[i]?).elim 0 (fun w => T (ev w)) := by
    intro g hg
    have hlt : g < r.length := by rw [hr]; exact Finset.mem_range.mp hg
    rw [hR g r[g] (List.getElem?_eq_getElem hlt) j hj, map_sum, Finset.sum_range]
    refine Finset.sum_congr rfl fun i _ => ?_
    rw [map_smul, List.getElem?_eq_getElem hlt, List.getElem?_eq_getElem i.2]
    simp
  unfold mean
  rw [Finset.sum_congr rfl h1, Finset.sum_comm, Finset.sum_div]
  refine Finset.sum_congr rfl fun i _ => ?_
  simp only [average]
  rw [sum_list, hr, ← Finset.sum_mul]
  push_cast
  ring

theorem average_first {ws : List HSeq} {r : List Entries} (hs : 0 < size) (hr : r.length = size)
    (hR : ∀ (i : Nat) B, r[i]? = some B → Represents ev (φ i) ws B) (hli : LinearIndependent ℝ fun i : Fin ws.length => ev ws[i])
    (h0 : 0 < ws.length) (h1 : ev ws[0] = 1) {i : Nat} (hi : i < ws.length) : (average ws.length r).val i 0 = if i = 0 then 1 else 0 := by
  have key : ∀ (g : Nat) (B : Entries), r[g]? = some B → B i 0 = if i = 0 then 1 else 0 := by
    intro g B hB
    have e := hR g B hB 0 h0
    rw [h1, map_one, ← h1] at e
    have e' : ∑ k : Fin ws.length, (if k.1 = 0 then (1 : ℝ) else 0) • ev ws[k] = ∑ k : Fin ws.length, B k 0 • ev ws[k] := by
      rw [← e, Finset.sum_eq_single (⟨0, h0⟩ : Fin ws.length)]
      · simp
      · intro b _ hb
        rw [if_neg fun h => hb (Fin.ext h), zero_smul]
      · simp
    exact ((linearIndependent_iff'ₛ.mp hli) Finset.univ _ _ e' ⟨i, hi⟩ (Finset.mem_univ _)).symm
  simp only [average]
  rw [sum_list, hr, Finset.sum_congr rfl (g := fun _ => if i = 0 then (1 : ℝ) else 0), Finset.sum_const, Finset.card_range]
  · have : (size : ℝ) ≠ 0 := by exact_mod_cast hs.ne'
    rw [nsmul_eq_mul]
    field_simp
  · intro g hg
    have hlt : g < r.length := by rw [hr]; exact Finset.mem_range.mp hg
    rw [List.getElem?_eq_getElem hlt]
    exact key g _ (List.getElem?_eq_getElem hlt)

/-- The positions of the list of words of length `n`. -/
theorem reached_positions (hS : Setting h W) (hl : Lists W words) (ha : h.env.aliases = false) {t : Table} {I : Index} (hr : Reached h W words t I) {n : Nat}
    (hn : n ≤ I.maxLength) : ∃ osg, unzip I (words n).length = some osg ∧ (∀ i : Nat, i < (words n).length → osg[i]? = I.get i) ∧
      osg.length = (words n).length ∧ Positions t.syms.length osg := by
  have hst := C89.reached_state hS hl hr
  have hpre := (hl.grow n _ hn).length_le
  have hdef := (C89.C89_values_partial hS hl hr).1
  obtain ⟨hz, honce⟩ := C89.C89_distinct hS hl hr (by simp [ha])
  have hsome : ((List.range (words n).length).mapM I.get).isSome := by
    rw [BasisVec.mapM_isSome]
    intro i hi
    exact (hdef i).mpr (by have := List.mem_range.mp hi; omega)
  obtain ⟨osg, ho⟩ := Option.isSome_iff_exists.mp hsome
  obtain ⟨hlen, hget⟩ := unzip_length (I := I) ho
  have hget' : ∀ i : Nat, i < (words n).length → osg[i]? = I.get i := hget
  have hpos : 0 < (words n).length := by
    have := (hl.grow 0 n (Nat.zero_le _)).length_le
    rw [hl.first] at this
    simp at this
    omega
  have hw0 : (words I.maxLength)[0]? = some (HSeq.identity .pos) := by
    obtain ⟨x, hx⟩ := hl.grow 0 I.maxLength (Nat.zero_le _)
    rw [← hx, hl.first]
    rfl
  have hentry : ∀ (i : Nat) r, I.get i = some r → ∃ k : Int, I.entries[i]? = some k ∧ r = (k.natAbs, decide (k < 0)) := by
    intro i r hg
    obtain ⟨k, hk, e⟩ := Option.map_eq_some_iff.mp hg
    refine ⟨k, hk, ?_⟩
    rw [← e]
    split <;> rename_i hk0 <;> simp [hk0] <;> omega
  have hlink : ∀ (i : Nat) r, I.get i = some r → ∃ (k : Int) (w : HSeq), (words I.maxLength)[i]? = some w ∧ r = (k.natAbs, decide (k < 0)) ∧ C89.Link h t.keys w k := by
    intro i r hg
    obtain ⟨k, hk, e⟩ := hentry i r hg
    have hi := (List.getElem?_eq_some_iff.mp hk).1
    rw [hst.length] at hi
    exact ⟨k, _, List.getElem?_eq_getElem hi, e, hst.link i _ k (List.getElem?_eq_getElem hi) hk⟩
  have hone := hst.fit.inv.full 1 _ _ hst.fit.inv.one
  have hfirst : I.get 0 = some (1, false) := by
    obtain ⟨r, hr0⟩ := Option.isSome_iff_exists.mp ((hdef 0).mpr (by omega))
    obtain ⟨k, w, hw, e, q, cq, h1, h2⟩ := hlink 0 r hr0
    rw [hw0] at hw
    obtain rfl := Option.some.inj hw
    obtain ⟨-, f1, f2, -⟩ := hst.fit.inv.full _ _ _ h1
    have hk : k = 1 := by
      rcases h2 with ⟨a, b⟩ | ⟨a, b, b'⟩ | ⟨-, b, -⟩
      · rw [b, hone.2.1] at f1
        have := Option.some.inj f1
        omega
      · rw [b, if_neg b'.symm, hone.2.1] at f2
        have := Option.some.inj f2
        omega
      · simp [ha] at b
    rw [hr0, e, hk]
    rfl
  refine ⟨osg, ho, hget', hlen, ?_, ?_, ?_, ?_, ?_⟩
  · rw [hget' 0 hpos, hfirst]
  · intro r hr'
    obtain ⟨i, hi, e⟩ := List.getElem_of_mem hr'
    obtain ⟨k, w, hw, e', q, cq, h1, -⟩ := hlink i r (by rw [← hget' i (by omega), List.getElem?_eq_getElem hi, e])
    have := (List.getElem?_eq_some_iff.mp h1).1
    rw [e']
    simpa [Table.keys] using this
  · have := (List.getElem?_eq_some_iff.mp hst.fit.inv.one).1
    simp only [Table.keys, List.length_map] at this
    omega
  · intro i j id hi hj
    have hi' := (List.getElem?_eq_some_iff.mp hi).1
    have hj' := (List.getElem?_eq_some_iff.mp hj).1
    rw [hget' i (by omega)] at hi
    rw [hget' j (by omega)] at hj
    exact honce i j id hi hj
  · intro r hr'
    obtain ⟨i, hi, e⟩ := List.getElem_of_mem hr'
    exact hz i r (by rw [← hget' i (by omega), List.getElem?_eq_getElem hi, e])

/-- The conjugate of the word at a flagged position is at a position with the same symbol and without flag. -/
theorem partner (hS : Setting h W) (hl : Lists W words) (ha : h.env.aliases = false) {t : Table} {I : Index} (hr : Reached h W words t I)
    {i j id : Nat} (hi : I.get i = some (id, true)) {w u : HSeq} (hw : (words I.maxLength)[i]? = some w)
    (hu : (words I.maxLength)[j]? = some u) (hc : u.hash = (h.env.conj w).hash) : I.get j = some (id, false) ∧ (h.env.conj u).hash = w.hash := by
  have hst := C89.reached_state hS hl hr
  have hz := (C89.C89_distinct hS hl hr (by simp [ha])).1
  have hW := (hl.mem _ w (List.mem_of_getElem? hw)).1
  have hU := (hl.mem _ u (List.mem_of_getElem? hu)).1
  refine ⟨?_, by rw [hS.words.hash u _ hU (hS.words.conj w hW) hc, hS.words.twice w hW]⟩
  obtain ⟨k, hk, e⟩ := Option.map_eq_some_iff.mp hi
  have a : k < 0 ∧ k.natAbs = id := by
    split at e
    · simp only [Prod.mk.injEq, and_true] at e
      omega
    · simp at e
  obtain ⟨q, cq, h1, h2⟩ := hst.link i w k hw hk
  have h3 : (h.env.conj q).hash = w.hash := by
    rcases h2 with ⟨b, -⟩ | ⟨-, b, -⟩ | ⟨-, b, -⟩
    · omega
    · exact b
    · simp [ha] at b
  obtain ⟨hq, f1, f2, -⟩ := hst.fit.inv.full _ _ _ h1
  have h4 : q.hash = u.hash := by
    rw [hc, ← hS.words.hash _ w (hS.words.conj q hq) hW h3, hS.words.twice q hq]
  obtain ⟨s, hs⟩ := Option.isSome_iff_exists.mp (((C89.C89_values_partial hS hl hr).1 j).mpr (List.getElem?_eq_some_iff.mp hu).1)
  have hs0 := hz j s hs
  obtain ⟨k', hk', e'⟩ := Option.map_eq_some_iff.mp hs
  obtain ⟨q', cq', g1, g2⟩ := hst.link j u k' hu hk'
  obtain ⟨hq', f1', f2', -⟩ := hst.fit.inv.full _ _ _ g1
  have hk1 : k' = id := by
    rcases g2 with ⟨x, y⟩ | ⟨x, y, z⟩ | ⟨-, x, -⟩
    · rw [y, ← h4, f1] at f1'
      have := Option.some.inj f1'
      omega
    · rw [y, if_neg z.symm, ← h4, f1] at f2'
      have := Option.some.inj f2'
      omega
    · simp [ha] at x
  rw [hs, ← e', hk1]
  simp

/-! ## Theorems -/

/-- What is assumed of a system with symmetries: the words of the list stand for elements of an algebra that are linearly independent, the identity for
the one and conjugates for adjoints; the matrices of the group on words of length one represent maps that keep adjoints; all words have symbols. The words of length up to `N` are those in
`words`; what longer lists the context has does not matter. -/
structure Symmetric [StarRing A] (h : SymbolMatrix.Host) (W : HSeq → Prop) (c : SymRep.Ctx) (words : Nat → List HSeq) (ev : HSeq → A) (N size : Nat) (φ : Nat → A →ₐ[ℝ] A) (fund : List Entries)
    (t : Table) (I : Index) (G : Grp) (n : Nat) : Prop where
  setting : Setting h W
  lists : Lists W words
  same : ∀ m, m ≤ N → words m = c.words m
  distinct : h.env.aliases = false
  faithful : Faithful c ev N
  small : N < 2 ^ 64
  elements : fund.length = size
  nonempty : 0 < size
  maps : ∀ i B, fund[i]? = some B → Represents ev (φ i) (c.words 1) B
  after : After c size N fund G
  reached : Reached h W words t I
  length : 1 ≤ n ∧ n ≤ N
  independent : LinearIndependent ℝ fun i : Fin (c.words n).length => ev (c.words n)[i]
  one : ev (HSeq.identity .pos) = 1
  found : ∀ w ∈ c.words n, (t.lookup h.env w).1.isSome
  closed : ∀ w ∈ c.words n, ∃ u ∈ c.words n, u.hash = (h.env.conj w).hash
  adjoint : ∀ w ∈ c.words n, ∀ u ∈ c.words n, (h.env.conj u).hash = w.hash → ev w = star (ev u)
  stars : ∀ g x, φ g (star x) = star (φ g x)

variable [StarRing A] {fund : List Entries} {t : Table} {I : Index} {G : Grp} {n : Nat} {store : Dense → Sparse} {solve : Core → Solved}

/-- The symmetrized system is made, and its map carries the symbols at positions without flag to means. -/
theorem made (hH : Symmetric h W c words ev N size φ fund t I G n) (hst : Stores store) (hsol : ∀ C, Solves C (solve C)) :
    ∃ J b osg R M u, I.update h.env t c.words n = some (J, b) ∧ symmetrized h.env c size t I G n store solve = some (some (M, u)) ∧
      Reached h W words t J ∧ n ≤ J.maxLength ∧ (∀ i : Nat, i < (c.words n).length → osg[i]? = J.get i) ∧ osg.length = (c.words n).length ∧
      Positions t.syms.length osg ∧ Maps t (c.words n).length R osg M u ∧
      ∀ (T : A →ₗ[ℝ] ℂ) (L : HSeq → ℂ) (v : Nat → ℂ), T 1 = 1 → Moments h.env W L → (∀ w ∈ c.words n, L w = T (ev w)) → Agrees t L v → v 1 = 1 ∧
        ∀ (j : Nat) w id, (c.words n)[j]? = some w → osg[j]? = some (id, false) → carried M (pulled v M.inverse) id = mean T φ size (ev w) := by
  obtain ⟨hS, hl, hwe, ha, hf, hN, hfl, hsz, hφ, hG, hr, ⟨hn1, hn⟩, hli, h1, hfound, hcl, hadj, hstar⟩ := hH
  have hwn := hwe n hn
  rw [← hwn] at hfound
  obtain ⟨J, b, hJ, hJn, -⟩ := C89.C89_defined hS hl hr n hfound
  have hrJ : Reached h W words t J := .update hr hJ
  have hJc : I.update h.env t c.words n = some (J, b) := by
    rw [← hJ]
    unfold Index.update
    rw [hwn]
  have hSt := C89.reached_state hS hl hrJ
  obtain ⟨osg, ho, hget, hlen, hP⟩ := reached_positions hS hl ha hrJ hJn
  rw [hwn] at ho hget hlen
  obtain ⟨G', o, hc, hrep⟩ := C87.C87_represents_partial hf hN hfl hφ hG hn
  obtain ⟨-, r, rfl, hrl, hR⟩ : 1 ≤ n ∧ ∃ r, o = some r ∧ r.length = size ∧ ∀ (i : Nat) B, r[i]? = some B → Represents ev (φ i) (c.words n) B := by
    rcases hrep with ⟨h0, -⟩ | h
    · omega
    · exact h
  set ws := c.words n with hws
  have hfirst : ws[0]? = some (HSeq.identity .pos) := by
    obtain ⟨x, hx⟩ := hl.grow 0 n (Nat.zero_le _)
    rw [← hwn, ← hx, hl.first]
    rfl
  obtain ⟨hpos, hw0⟩ := List.getElem?_eq_some_iff.mp hfirst
  set P := average ws.length r with hPdef
  have hcol : (store P).col 0 = [(0, 1)] := hst.first P hpos hpos fun i hi => average_first hsz hrl hR hli hpos (by rw [hw0, h1]) hi
  have hrows : (store P).rows = ws.length := hst.rows P
  have hcols : (store P).cols = ws.length := hst.cols P
  obtain ⟨M, u, hM, hMaps⟩ := C90.C90_sparse (t := t) (I := J) (A := store P) (solve := solve) (by rw [hcols]; exact ho) hP (hst.fine P) (by omega) (by omega) hcol
    fun C _ => hsol C
  refine ⟨J, b, osg, (store P).coeff, M, u, hJc, by simp only [symmetrized, hJc, hc, Option.bind_some]; exact hM, hrJ, hJn, hget, hlen, hP, hrows ▸ hMaps, ?_⟩
  intro T L v hT1 hL hLT hv
  have hsim : Simplified h W L := ⟨by simp [ha], by simp [ha], by simp [ha]⟩
  have hone : v 1 = 1 := by
    have : at' v (1, false) = L (HSeq.identity .pos) := by
      refine (C89.C89_values_partial hS hl hrJ).2 0 _ _ ?_ (by rw [← hget 0 hpos]; exact hP.first) L v hL hsim hv
      obtain ⟨x, hx⟩ := hl.grow 0 J.maxLength (Nat.zero_le _)
      rw [← hx, hl.first]
      rfl
    rw [hLT _ (List.mem_of_getElem? hfirst), h1, hT1] at this
    simpa [at'] using this
  have hpre : ∀ (i : Nat) w, ws[i]? = some w → (words J.maxLength)[i]? = some w := by
    intro i w hw
    obtain ⟨x, hx⟩ := hl.grow n J.maxLength hJn
    rw [← hx, hwn, List.getElem?_append_left (List.getElem?_eq_some_iff.mp hw).1]
    exact hw
  -- values of positions without flag
  have key : ∀ (j : Nat) w id, ws[j]? = some w → osg[j]? = some (id, false) → carried M (pulled v M.inverse) id = mean T φ size (ev w) := by
    intro j w id hw hj
    obtain ⟨p, hp, hval⟩ := hMaps.value v hv.flags.zero hone j id hj
    have hjl := (List.getElem?_eq_some_iff.mp hw).1
    rw [carried, List.getD_eq_getElem?_getD, hp, Option.getD_some, hval, ← (List.getElem?_eq_some_iff.mp hw).2, ← average_mean hrl hR T hjl, combined, hrows]
    refine Finset.sum_congr rfl fun k hk => ?_
    have hk' := Finset.mem_range.mp hk
    rw [hst.coeff P k j hk' hjl, List.getElem?_eq_getElem hk', Option.elim_some]
    obtain ⟨x, hx⟩ := Option.isSome_iff_exists.mp (((C89.C89_values_partial hS hl hrJ).1 k).mpr (by
      have := (hl.grow n J.maxLength hJn).length_le
      rw [hwn] at this
      omega))
    rw [hget k hk', hx, Option.elim_some, (C89.C89_values_partial hS hl hrJ).2 k _ x (hpre k _ (List.getElem?_eq_getElem hk')) hx L v hL hsim hv,
      hLT _ (List.getElem_mem hk')]
  exact ⟨hone, key⟩

theorem list_prefix (hl : Lists W words) (hwn : words n = c.words n) {m : Nat} (hm : n ≤ m) {i : Nat} {w : HSeq} (hw : (c.words n)[i]? = some w) :
    (words m)[i]? = some w := by
  obtain ⟨x, hx⟩ := hl.grow n m hm
  rw [← hx, hwn, List.getElem?_append_left (List.getElem?_eq_some_iff.mp hw).1]
  exact hw

/-- The symmetrized system is made. If the symbols have the moments of a functional as values, and the new symbols those of the polynomials they stand
for, then the map sends the symbol of each word, conjugates included, to a polynomial whose value is the mean of the functional over the group. Missing:
contexts with words of the same moment, and those excluded by `C87_represents_partial`. -/
theorem C91_mean_partial (hH : Symmetric h W c words ev N size φ fund t I G n) (hst : Stores store) (hsol : ∀ C, Solves C (solve C)) :
    ∃ J b M u, I.update h.env t c.words n = some (J, b) ∧ symmetrized h.env c size t I G n store solve = some (some (M, u)) ∧
      ∀ (T : A →ₗ[ℝ] ℂ) (L : HSeq → ℂ) (v : Nat → ℂ), (∀ x, T (star x) = (starRingEnd ℂ) (T x)) → T 1 = 1 → Moments h.env W L → (∀ w ∈ c.words n, L w = T (ev w)) →
        Agrees t L v → ∀ (i : Nat) (w : HSeq) (r : Nat × Bool), (c.words n)[i]? = some w → J.get i = some r →
          ∃ p, M.apply u ⟨r.1, r.2, 1⟩ = some p ∧ Poly.value (pulled v M.inverse) p = mean T φ size (ev w) := by
  obtain ⟨J, b, osg, R, M, u, hJ, hM, hrJ, hJn, hget, -, hP, hMaps, hkey⟩ := made hH hst hsol
  refine ⟨J, b, M, u, hJ, hM, ?_⟩
  obtain ⟨hS, hl, hwe, ha, -, -, -, -, -, -, -, ⟨-, hn⟩, -, -, -, hcl, hadj, hstar⟩ := hH
  intro T L v hT hT1 hL hLT hv i w s hw hs
  obtain ⟨hone, key⟩ := hkey T L v hT1 hL hLT hv
  have hil := (List.getElem?_eq_some_iff.mp hw).1
  have hso : osg[i]? = some s := by rw [hget i hil]; exact hs
  obtain ⟨p, hp, -, -, hval⟩ := apply_value hMaps (m := ⟨s.1, s.2, 1⟩) (hP.known s (List.mem_of_getElem? hso))
  refine ⟨p, hp, ?_⟩
  rw [hval _ (hMaps.respects v hone hv.flags) (by simp), Mono.value, one_mul]
  simp only
  obtain ⟨id, cj⟩ := s
  cases cj with
  | false => exact key i w id hw hso
  | true =>
    simp only [if_true]
    obtain ⟨x, hx, hxw⟩ := hcl w (List.mem_of_getElem? hw)
    obtain ⟨j, hj, rfl⟩ := List.getElem_of_mem hx
    obtain ⟨hgj, hcj⟩ := partner hS hl ha hrJ hs (list_prefix hl (hwe n hn) hJn hw) (list_prefix hl (hwe n hn) hJn (List.getElem?_eq_getElem hj)) hxw
    rw [key j _ id (List.getElem?_eq_getElem hj) (by rw [hget j hj]; exact hgj), hadj w (List.mem_of_getElem? hw) _ hx hcj]
    simp only [mean, map_div₀, map_sum, map_natCast, hstar, hT]

/-- A functional that has the symmetries keeps its moments. -/
theorem C91_invariant_partial (hH : Symmetric h W c words ev N size φ fund t I G n) (hst : Stores store) (hsol : ∀ C, Solves C (solve C)) :
    ∃ J b M u, I.update h.env t c.words n = some (J, b) ∧ symmetrized h.env c size t I G n store solve = some (some (M, u)) ∧
      ∀ (T : A →ₗ[ℝ] ℂ) (L : HSeq → ℂ) (v : Nat → ℂ), (∀ x, T (star x) = (starRingEnd ℂ) (T x)) → T 1 = 1 → (∀ g x, g < size → T (φ g x) = T x) →
        Moments h.env W L → (∀ w ∈ c.words n, L w = T (ev w)) → Agrees t L v → ∀ (i : Nat) (w : HSeq) (r : Nat × Bool), (c.words n)[i]? = some w → J.get i = some r →
          ∃ p, M.apply u ⟨r.1, r.2, 1⟩ = some p ∧ Poly.value (pulled v M.inverse) p = L w := by
  obtain ⟨J, b, M, u, h1, h2, h3⟩ := C91_mean_partial hH hst hsol
  refine ⟨J, b, M, u, h1, h2, fun T L v hT hT1 hinv hL hLT hv i w r hw hr => ?_⟩
  obtain ⟨p, hp, hval⟩ := h3 T L v hT hT1 hL hLT hv i w r hw hr
  refine ⟨p, hp, ?_⟩
  have : (size : ℂ) ≠ 0 := by exact_mod_cast hH.nonempty.ne'
  rw [hval, hLT w (List.mem_of_getElem? hw), mean, Finset.sum_congr rfl fun g hg => hinv g (ev w) (Finset.mem_range.mp hg), Finset.sum_const, Finset.card_range,
    nsmul_eq_mul]
  field_simp

omit [StarRing A] in
/-- The mean over a list of maps that with each map is carried to itself by composition has the symmetries. -/
theorem C91_mean_invariant (T : A →ₗ[ℝ] ℂ) {k : Nat} {σ : Equiv.Perm (Fin size)} (hσ : ∀ (g : Fin size) x, φ (σ g) x = φ g (φ k x)) (x : A) :
    mean T φ size (φ k x) = mean T φ size x := by
  unfold mean
  congr 1
  rw [Finset.sum_range, Finset.sum_range, ← Equiv.sum_comp σ (fun g : Fin size => T (φ g x))]
  exact Finset.sum_congr rfl fun g _ => by rw [hσ]

/-! ## Instances -/

/-- A way to store matrices: the elements that are not zero. -/
noncomputable def plain (B : Dense) : Sparse :=
  ⟨B.rows, B.cols, fun j => ((List.range B.rows).filter fun i => decide (B.val i j ≠ 0)).map fun i => (i, B.val i j)⟩

theorem lookup_map {l : List Nat} (f : Nat → ℝ) (i : Nat) : (l.map fun i => (i, f i)).lookup i = if i ∈ l then some (f i) else none := by
  induction l with
  | nil => simp
  | cons a l ih =>
    rw [List.map_cons, List.lookup_cons, ih]
    by_cases e : i = a
    · subst e
      simp
    · have : (i == a) = false := by simpa using e
      rw [this]
      simp [e]

theorem stores_plain : Stores plain := by
  refine ⟨fun _ => rfl, fun _ => rfl, ?_, ?_, ?_⟩
  · intro B j _
    refine ⟨?_, ?_⟩
    · simp only [plain, List.map_map]
      have : (Prod.fst ∘ fun i => (i, B.val i j)) = id := rfl
      rw [this, List.map_id]
      exact List.pairwise_lt_range.filter _
    · intro e he
      simp only [plain, List.mem_map, List.mem_filter, List.mem_range] at he
      obtain ⟨i, ⟨hi, -⟩, rfl⟩ := he
      exact hi
  · intro B i j hi _
    simp only [Sparse.coeff, plain]
    rw [lookup_map (fun i => B.val i j)]
    split
    · rfl
    · rename_i h
      simp only [List.mem_filter, List.mem_range, hi, true_and, decide_eq_true_eq, not_not] at h
      simp [h]
  · intro B hr _ h0
    have : ((List.range B.rows).filter fun i => decide (B.val i 0 ≠ 0)) = [0] := by
      obtain ⟨n, hn⟩ := Nat.exists_eq_add_of_lt hr
      rw [show B.rows = n + 1 by omega, List.range_succ_eq_map, List.filter_cons, if_pos (by simp [h0 0 hr])]
      congr 1
      rw [List.filter_eq_nil_iff]
      intro i hi
      obtain ⟨k, hk, rfl⟩ := List.mem_map.mp hi
      have := List.mem_range.mp hk
      simp [h0 (k + 1) (by omega)]
    simp only [plain, this, List.map_cons, List.map_nil]
    rw [h0 0 hr, if_pos rfl]

/-- The processor that makes one symbol of each row of the core. -/
noncomputable def rowwise (C : Core) : Solved := ⟨C.core.rows, true, ⟨C.core.rows, C.core.rows, fun i j => if i = j then 1 else 0⟩, C.core⟩

theorem solves_rowwise (C : Core) : Solves C (rowwise C) := by
  refine ⟨?_, rfl, fun _ => ⟨rfl, rfl, rfl⟩, ?_⟩
  · simp [Solved.fits, rowwise]
  · intro k l hk _
    simp only [rowwise]
    rw [Finset.sum_eq_single k]
    · simp
    · intro b _ hb
      rw [if_neg (Ne.symm hb), zero_mul]
    · intro h
      exact absurd (Finset.mem_range.mpr hk) h

open Moment.C87 (Free inFree freeCtx Unital)

theorem star_smul_free (a : ℝ) (x : Free) : star (a • x) = a • star x := by
  rw [Algebra.smul_def, star_mul, FreeAlgebra.star_algebraMap, Algebra.smul_def, Algebra.commutes]

/-- Matrices that leave the identity as it is come from homomorphisms of the free algebra that keep adjoints. -/
theorem free_hom_star (r : Nat) {N : Nat} (hr : r < 2 ^ 64) (hL : (∑ k ∈ Finset.range (N + 1), r ^ k) < 2 ^ 64) (hN : 1 ≤ N) {B : Entries} (hB : Unital B) :
    ∃ φ : Free →ₐ[ℝ] Free, Represents inFree φ ((freeCtx r).words 1) B ∧ ∀ x, φ (star x) = star (φ x) := by
  obtain ⟨φ, hφ⟩ := C87.free_hom r hr hL hN hB
  obtain ⟨-, h2⟩ := C87.free_words r hr hL hN
  let ψ : Free →ₐ[ℝ] Free := FreeAlgebra.lift ℝ fun o => if o < r then φ (FreeAlgebra.ι ℝ o) else 0
  have hψ : ∀ o < r, ψ (FreeAlgebra.ι ℝ o) = φ (FreeAlgebra.ι ℝ o) := by
    intro o ho
    simp only [ψ]
    rw [FreeAlgebra.lift_ι_apply, if_pos ho]
  have hword : ∀ w ∈ (freeCtx r).words 1, star (inFree w) = inFree w := by
    intro w hw
    obtain ⟨l, -, h3, rfl⟩ := (h2 w).mp hw
    match l, h3 with
    | [], _ => simp [inFree, C87.value, C70.letters]
    | [o], _ => simp [inFree, C87.value, C70.letters]
  have hself : ∀ o, star (ψ (FreeAlgebra.ι ℝ o)) = ψ (FreeAlgebra.ι ℝ o) := by
    intro o
    by_cases ho : o < r
    · rw [hψ o ho]
      have hmem : C70.letters r [o] ∈ (freeCtx r).words 1 := (h2 _).mpr ⟨[o], by intro x hx; rw [List.mem_singleton] at hx; omega, Nat.le_refl _, rfl⟩
      obtain ⟨j, hj, e⟩ := List.getElem_of_mem hmem
      have hv : inFree ((freeCtx r).words 1)[j] = FreeAlgebra.ι ℝ o := by rw [e]; simp [inFree, C87.value, C70.letters]
      rw [← hv, hφ j hj, star_sum]
      exact Finset.sum_congr rfl fun i _ => by rw [star_smul_free]; congr 1; exact hword _ (List.getElem_mem _)
    · simp only [ψ]
      rw [FreeAlgebra.lift_ι_apply, if_neg ho, star_zero]
  refine ⟨ψ, ?_, ?_⟩
  · intro j hj
    rw [← hφ j hj]
    exact C87.represents_congr r hr hL hN hψ (List.getElem_mem hj)
  · intro x
    induction x using FreeAlgebra.induction with
    | grade0 a => rw [FreeAlgebra.star_algebraMap, AlgHom.commutes, FreeAlgebra.star_algebraMap]
    | grade1 o => rw [FreeAlgebra.star_ι, hself]
    | mul a b ha hb => rw [star_mul, map_mul, map_mul, star_mul, ha, hb]
    | add a b ha hb => rw [star_add, map_add, map_add, star_add, ha, hb]

/-- Systems without relations are as assumed, for every list of matrices on words of length one that leave the identity as it is: there are the homomorphisms
that they represent. -/
theorem free_symmetric (r : Nat) {N : Nat} (hr : r < 2 ^ 64) (hL : (∑ k ∈ Finset.range (N + 1), r ^ k) < 2 ^ 64) (hN64 : N < 2 ^ 64) {fund : List Entries}
    (hu : ∀ B ∈ fund, Unital B) (hne : 0 < fund.length) {t : Table} {I : Index} {G : Grp} (hG : After (freeCtx r) fund.length N fund G) {n : Nat} (h1 : 1 ≤ n) (hn : n ≤ N)
    (hR : Reached (C70.freeHost r) (C27.FreeWord r N) (fun n => (freeCtx r).words (min n N)) t I)
    (hf : ∀ w ∈ (freeCtx r).words n, (t.lookup (C70.freeHost r).env w).1.isSome) :
    ∃ φ : Nat → Free →ₐ[ℝ] Free, (∀ (i : Nat) B, fund[i]? = some B → Represents inFree (φ i) ((freeCtx r).words 1) B) ∧
      Symmetric (C70.freeHost r) (C27.FreeWord r N) (freeCtx r) (fun n => (freeCtx r).words (min n N)) inFree N fund.length φ fund t I G n := by
  have hex : ∀ i : Nat, ∃ φ : Free →ₐ[ℝ] Free, (∀ B, fund[i]? = some B → Represents inFree φ ((freeCtx r).words 1) B) ∧ ∀ x, φ (star x) = star (φ x) := by
    intro i
    cases hB : fund[i]? with
    | none => exact ⟨AlgHom.id ℝ _, ⟨fun B e => absurd e (by simp), fun _ => rfl⟩⟩
    | some B =>
      obtain ⟨φ, h, h'⟩ := free_hom_star r hr hL (by omega) (hu B (List.mem_of_getElem? hB))
      exact ⟨φ, ⟨fun A' e => by obtain rfl := Option.some.inj e; exact h, h'⟩⟩
  choose φ hφ hs using hex
  refine ⟨φ, fun i B h => hφ i B h, C70.setting_free r N hr hL, C89.free_lists r N hr hL, ?_, rfl, C87.free_faithful r hr hL _, hN64, rfl, hne,
    fun i B h => hφ i B h, hG, hR, ⟨h1, hn⟩, C87.free_independent r hr hL hn, by simp [inFree, C87.value, HSeq.identity], hf, C89.free_closed r N hr hL hn, ?_, hs⟩
  · intro m hm
    rw [Nat.min_eq_left hm]
  · intro w hw u hu' he
    obtain ⟨l, l1, l2, rfl⟩ := ((C87.free_words r hr hL hn).2 w).mp hw
    obtain ⟨m, m1, m2, rfl⟩ := ((C87.free_words r hr hL hn).2 u).mp hu'
    have h0 := (C87.free_faithful r hr hL (fun _ => (0 : ℝ))).nonzero hn hu'
    have m1' : C02.IsWord r m.reverse := fun o ho => m1 o (List.mem_reverse.mp ho)
    have h3 : hashWord (UInt64.ofNat r) m.reverse ≠ 0 := C88.hash_one hr hL m1' (by rw [List.length_reverse]; omega)
    simp only [C70.letters] at h0
    have he' : hashWord (UInt64.ofNat r) m.reverse = hashWord (UInt64.ofNat r) l := by
      simpa [C70.freeHost, C27.freeEnv, HSeq.conjugate, HSeq.isZero, HSeq.construct, HSeq.toCanonical, HSeq.ctxHash, HSeq.hashOps, HSeq.movedFrom, C70.letters, h0, h3] using he
    have e : m.reverse = l := (C02.C02_hash_shortlex_partial r N hr hL m.reverse l m1' l1 (by rw [List.length_reverse]; omega) (by omega)).1.mp he'
    subst e
    simp only [inFree, C87.value, C70.letters]
    clear * -
    induction m with
    | nil => simp
    | cons a m ih => rw [List.map_cons, List.prod_cons, star_mul, ← ih, FreeAlgebra.star_ι]; simp

/-- Two letters that are exchanged, words up to length two: the hypotheses hold. -/
theorem sample_symmetric : ∃ φ : Nat → Free →ₐ[ℝ] Free, Symmetric (C70.freeHost 2) (C27.FreeWord 2 20) (freeCtx 2) (fun n => (freeCtx 2).words (min n 20)) inFree 20 2 φ
    [C87.still, C87.swapped] C89.sampleTable Index.new (Grp.new (freeCtx 2) [C87.still, C87.swapped]) 2 := by
  have hf : Symbols.step (C70.freeHost 2).env Table.new (.fill ([[], [0], [1], [0, 0], [0, 1], [1, 0], [1, 1]].map fun l => C70.letters 2 l)) =
      some (C89.sampleTable, none) := by
    decide +kernel
  have hu : ∀ B ∈ [C87.still, C87.swapped], Unital B := by
    intro B hB i
    rcases List.mem_cons.mp hB with rfl | hB
    · rfl
    · rw [List.mem_singleton] at hB
      subst hB
      simp [C87.swapped]
  have hl : (Symbols.Op.fill ([[], [0], [1], [0, 0], [0, 1], [1, 0], [1, 1]].map fun l => C70.letters 2 l)).Legal (C70.freeHost 2).env (C27.FreeWord 2 20) := by
    intro w hw
    obtain ⟨l, hl, rfl⟩ := List.mem_map.mp hw
    refine .inr ⟨rfl, ?_⟩
    revert l
    unfold C70.letters C02.IsWord
    decide
  have hp : SymbolMatrix.PlainOp (C70.freeHost 2).env (.fill ([[], [0], [1], [0, 0], [0, 1], [1, 0], [1, 1]].map fun l => C70.letters 2 l)) := by
    intro w hw _
    obtain ⟨l, hl, rfl⟩ := List.mem_map.mp hw
    rfl
  have hk : ∀ w ∈ (freeCtx 2).words 2, (C89.sampleTable.lookup (C70.freeHost 2).env w).1.isSome := by
    rw [C89.sample_words]
    decide +kernel
  obtain ⟨φ, -, h⟩ := free_symmetric 2 (N := 20) (by norm_num) (by decide) (by norm_num) hu (by simp) .new (n := 2) (by norm_num) (by norm_num)
    (.step .new hl hp hf) hk
  exact ⟨φ, h⟩

example : ∃ φ : Nat → Free →ₐ[ℝ] Free, Symmetric (C70.freeHost 2) (C27.FreeWord 2 20) (freeCtx 2) (fun n => (freeCtx 2).words (min n 20)) inFree 20 2 φ
    [C87.still, C87.swapped] C89.sampleTable Index.new (Grp.new (freeCtx 2) [C87.still, C87.swapped]) 2 ∧ Stores plain ∧ ∀ C, Solves C (rowwise C) :=
  let ⟨φ, h⟩ := sample_symmetric
  ⟨φ, h, stores_plain, solves_rowwise⟩

/-- The hypothesis of `C91_mean_invariant` for the group of the identity and one more map whose square is the identity. -/
example (f : A →ₐ[ℝ] A) (hf : ∀ x, f (f x) = x) (T : A →ₗ[ℝ] ℂ) (x : A) :
    mean T (fun g => if g = 0 then AlgHom.id ℝ A else f) 2 (f x) = mean T (fun g => if g = 0 then AlgHom.id ℝ A else f) 2 x :=
  C91_mean_invariant (k := 1) (σ := Equiv.swap 0 1) (φ := fun g => if g = 0 then AlgHom.id ℝ A else f) T (by
    intro g y
    match g with
    | 0 => simp
    | 1 => simp [hf]) x

end Moment.C91
