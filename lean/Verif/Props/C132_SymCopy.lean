import Verif.Model.SymCopy
import Verif.Props.C75_Translate
import Verif.Props.C77_Wrapping
import Verif.Props.C78_WrapOffset
import Verif.Props.C112_Flatten
import Mathlib.Algebra.BigOperators.Group.Finset.Basic
import Mathlib.Data.Finset.Prod
import Mathlib.Tactic.Ring
import Mathlib.Tactic.Positivity

/-! # C132: Averages of polynomials over translations -/

namespace Moment.C132

open Moment.SymCopy
open Moment.SiteHash
open Moment.Translate
open Moment.Fill (Layout)
open Moment.Pauli (Normal)

/-! ## Specification -/

/-- The value of a polynomial when each word has a value. Since any values are allowed, two polynomials have the same coefficients exactly if they have the same
values. -/
noncomputable def value (f : List Nat → ℂ) (l : List Term) : ℂ := (l.map fun t => t.2 * f t.1).sum

/-- All words are simplified words on `n` qubits. -/
def On (n : Nat) (l : List Term) : Prop := ∀ t ∈ l, Normal t.1 ∧ Within n t.1

/-- The polynomial `out` is the average of the translates of the polynomial `input` by the steps `S d` for all `d` in the set: whatever the values `G` of words
are, the value of `out` is the average of the values of `input`, computed with the value of the translated word for each word. -/
def Average {σ : Type} (n : Nat) (S : σ → Nat → Nat → Prop) (D : Finset σ) (input out : List Term) : Prop :=
  On n out ∧ ∀ (G : List Nat → ℂ) (g : σ → List Nat → ℂ),
    (∀ d ∈ D, ∀ w v, Normal w → Normal v → Within n w → Within n v → MovedBy (S d) w v → g d w = G v) →
    value G out = 1 / (D.card : ℂ) * ∑ d ∈ D, value (g d) input

/-! ## Proofs -/

theorem value_cons (f : List Nat → ℂ) (t : Term) (l : List Term) : value f (t :: l) = t.2 * f t.1 + value f l := by
  simp [value]

theorem value_append (f : List Nat → ℂ) (a b : List Term) : value f (a ++ b) = value f a + value f b := by
  simp [value]

theorem value_copies (f : List Nat → ℂ) (c : ℂ) : ∀ l : List (List Nat), value f (l.map fun v => (v, c)) = c * (l.map f).sum
  | [] => by simp [value]
  | v :: l => by
    rw [List.map_cons, value_cons, value_copies f c l, List.map_cons, List.sum_cons, mul_add]

/-- Copies of each term at the first offset, where it stays, and at the others are the average. -/
theorem spread_average {σ : Type} [DecidableEq σ] {n : Nat} {move : σ → List Nat → Option (List Nat)} {S : σ → Nat → Nat → Prop} {z : σ} {offsets : List σ}
    (hnd : (z :: offsets).Nodup) {input : List Term} (hin : On n input) (hz : ∀ t ∈ input, MovedBy (S z) t.1 t.1)
    (hmove : ∀ d ∈ offsets, ∀ t ∈ input, ∃ v, move d t.1 = some v ∧ MovedBy (S d) t.1 v ∧ Normal v ∧ Within n v) :
    ∃ out, spread move offsets (1 / ((z :: offsets).length : ℝ)) input = some out ∧ Average n S (z :: offsets).toFinset input out := by
  have hT : ∀ d ∈ offsets, ∀ t ∈ input, move d t.1 = some ((move d t.1).getD []) ∧ MovedBy (S d) t.1 ((move d t.1).getD []) ∧
      Normal ((move d t.1).getD []) ∧ Within n ((move d t.1).getD []) := by
    intro d hd t ht
    obtain ⟨v, hv, h⟩ := hmove d hd t ht
    rw [hv]
    exact ⟨rfl, h⟩
  unfold spread
  rw [C112.mapM_some (k := fun t => (t.1, t.2 * ((1 / ((z :: offsets).length : ℝ) : ℝ) : ℂ)) ::
    (offsets.map fun d => (move d t.1).getD []).map fun v => (v, t.2 * ((1 / ((z :: offsets).length : ℝ) : ℝ) : ℂ))) fun t ht => by
      rw [C112.mapM_some (k := fun d => (move d t.1).getD []) fun d hd => (hT d hd t ht).1]
      rfl]
  refine ⟨_, rfl, ?_, ?_⟩
  · intro x hx
    obtain ⟨l, hl, hx⟩ := List.mem_flatten.mp hx
    obtain ⟨t, ht, rfl⟩ := List.mem_map.mp hl
    rcases List.mem_cons.mp hx with rfl | hx
    · exact hin t ht
    · obtain ⟨v, hv, rfl⟩ := List.mem_map.mp hx
      obtain ⟨d, hd, rfl⟩ := List.mem_map.mp hv
      exact (hT d hd t ht).2.2
  · intro G g hg
    rw [List.toFinset_card_of_nodup hnd]
    set N := (z :: offsets).length with hN
    clear_value N
    have hsum : ∀ f : σ → ℂ, ∑ d ∈ (z :: offsets).toFinset, f d = f z + (offsets.map f).sum := by
      intro f
      rw [List.sum_toFinset f hnd, List.map_cons, List.sum_cons]
    rw [hsum]
    have key : ∀ l : List Term, (∀ t ∈ l, t ∈ input) →
        value G ((l.map fun t => (t.1, t.2 * ((1 / (N : ℝ) : ℝ) : ℂ)) ::
          (offsets.map fun d => (move d t.1).getD []).map fun v => (v, t.2 * ((1 / (N : ℝ) : ℝ) : ℂ))).flatten) =
        1 / (N : ℂ) * (value (g z) l + (offsets.map fun d => value (g d) l).sum) := by
      intro l
      induction l with
      | nil => intro _; simp [value]
      | cons t l ih =>
        intro hl
        have ht := hl t (by simp)
        have hinT := hin t ht
        rw [List.map_cons, List.flatten_cons, value_append, value_cons, value_copies, ih fun x hx => hl x (by simp [hx]), value_cons,
          hg z (by simp) t.1 t.1 hinT.1 hinT.1 hinT.2 hinT.2 (hz t ht), List.map_map]
        have e : (offsets.map fun d => value (g d) (t :: l)).sum =
            t.2 * (offsets.map (G ∘ fun d => (move d t.1).getD [])).sum + (offsets.map fun d => value (g d) l).sum := by
          rw [← List.sum_map_mul_left, ← List.sum_map_add]
          refine congrArg List.sum (List.map_congr_left fun d hd => ?_)
          obtain ⟨-, h2, h3, h4⟩ := hT d hd t ht
          rw [value_cons, hg d (by simp [hd]) t.1 _ hinT.1 h3 hinT.2 h4 h2]
          rfl
        rw [e]
        push_cast
        ring
    exact key input fun t ht => ht

theorem offsets_eq {m : Nat} (hm : 0 < m) : 0 :: List.range' 1 (m - 1) = List.range m := by
  obtain ⟨k, rfl⟩ : ∃ k, m = k + 1 := ⟨m - 1, by omega⟩
  rw [List.range_eq_range', List.range'_succ]
  rfl

theorem range_finset (m : Nat) : (List.range m).toFinset = Finset.range m := by
  ext x
  simp

theorem scalar_false {input : List Term} (h : ∃ t ∈ input, t.1 ≠ []) : isScalar input = false := by
  obtain ⟨t, ht, hne⟩ := h
  unfold isScalar
  rw [Bool.eq_false_iff]
  intro hall
  rw [List.all_eq_true] at hall
  exact hne (by simpa using hall t ht)

theorem moved_zero {R : Nat → Nat → Prop} {w : List Nat} (h : ∀ q p, Has w q p → R q q) : MovedBy R w w :=
  ⟨fun q p hq => ⟨q, h q p hq, hq⟩, fun q p hq => ⟨q, h q p hq, hq⟩⟩

theorem moved_unique {R : Nat → Nat → Prop} (hR : ∀ a b c, R a b → R a c → b = c) {w v u : List Nat} (hv : Normal v) (hu : Normal u) (h : MovedBy R w v)
    (k : MovedBy R w u) : v = u := by
  refine normal_ext hv hu fun q p => ⟨fun hq => ?_, fun hq => ?_⟩
  · obtain ⟨a, ha, hw⟩ := h.2 q p hq
    obtain ⟨c, hc, hx⟩ := k.1 a p hw
    rwa [hR a q c ha hc]
  · obtain ⟨a, ha, hw⟩ := k.2 q p hq
    obtain ⟨c, hc, hx⟩ := h.1 a p hw
    rwa [hR a q c ha hc]

/-- Three qubits: a word of one letter, and a number. -/
noncomputable def sample : List Term := [([2], 2), ([], 3)]

theorem sample_on {n : Nat} (hn : 0 < n) : On n sample := by
  intro t ht
  unfold sample at ht
  rcases List.mem_cons.mp ht with rfl | ht
  · refine ⟨by simp [Normal], ?_⟩
    rintro q p ⟨hp, h⟩
    simp at h
    omega
  · rw [List.mem_singleton.mp ht]
    exact ⟨by simp [Normal], fun q p h => absurd h.2 (by simp)⟩

theorem sample_word : ∃ t ∈ sample, t.1 ≠ [] := ⟨([2], 2), by simp [sample], by simp⟩

/-! ## Property -/

/-- Polynomials without words other than the identity, and all polynomials in contexts without symmetry, are copied. -/
theorem C132_plain (wide : Wide) (H : Hasher) (L : Layout) (input : List Term) (h : L.symmetric = false ∨ ∀ t ∈ input, t.1 = []) :
    symmetricalCopy wide H L input = some input := by
  unfold symmetricalCopy
  rw [if_pos]
  rcases h with h | h
  · exact .inl h
  · right
    unfold isScalar
    rw [List.all_eq_true]
    intro t ht
    rw [h t ht]
    rfl

example (H : Hasher) : symmetricalCopy none H ⟨false, 3, 1, true, true⟩ [([], 3), ([], 4)] = some [([], 3), ([], 4)] :=
  C132_plain none _ _ _ (.inr (by simp))

/-- On a closed chain of up to 256 qubits the result is the average over all rotations. -/
theorem C132_ring {wide : Wide} {n : Nat} (hn : 0 < n) (hn256 : n ≤ 256) {H : Hasher} (hH : wrapping wide n 1 = some (some H)) {L : Layout}
    (hL : L.lattice = false ∧ L.height = n ∧ L.width = 1 ∧ L.wrap = true ∧ L.symmetric = true) {input : List Term} (hin : On n input)
    (hne : ∃ t ∈ input, t.1 ≠ []) :
    ∃ out, symmetricalCopy wide H L input = some out ∧ Average n (RingStep n) (Finset.range n) input out := by
  obtain ⟨h1, h2, h3, h4, h5⟩ := hL
  have hq : L.qubits = n := by unfold Layout.qubits; rw [h2, h3, Nat.mul_one]
  have hc : chainCount L input = n := by unfold chainCount; rw [if_pos h4, hq]
  have e := offsets_eq hn
  unfold symmetricalCopy
  rw [if_neg (by simp [h5, scalar_false hne]), if_neg (by simp [h1])]
  unfold applyChain
  rw [hc]
  have := spread_average (n := n) (move := chainMove wide H L) (S := RingStep n) (z := 0) (offsets := List.range' 1 (n - 1)) (by rw [e]; exact List.nodup_range)
    hin (fun t ht => moved_zero fun q p hqp => ⟨(hin t ht).2 q p hqp, by rw [Nat.add_zero, Nat.mod_eq_of_lt ((hin t ht).2 q p hqp)]⟩) ?_
  · rw [e, List.length_range, range_finset] at this
    exact this
  · intro d hd t ht
    have hd' : d < n := by
      have := List.mem_range'_1.mp hd
      omega
    obtain ⟨v, hv, hm, hr⟩ := C78.C78_chain_partial hn hn256 hH (hin t ht).1 (hin t ht).2 (d := (d : Int)) ⟨by omega, by omega⟩ (.inl (by omega))
    refine ⟨v, by unfold chainMove; rw [if_pos h4]; exact hv, ?_, hr⟩
    have ed : ((d : Int) % (n : Int)).toNat = d := by rw [← Int.natCast_mod, Int.toNat_natCast, Nat.mod_eq_of_lt hd']
    rwa [ed] at hm

example : ∃ H out, symmetricalCopy none H ⟨false, 3, 1, true, true⟩ sample = some out ∧ Average 3 (RingStep 3) (Finset.range 3) sample out :=
  ⟨_, C132_ring (wide := none) (by decide) (by decide) rfl ⟨rfl, rfl, rfl, rfl, rfl⟩ (sample_on (by decide)) sample_word⟩

/-- On an open chain the result is the average over all translations to the right at which the whole polynomial is still on the chain. -/
theorem C132_chain {wide : Wide} {n : Nat} {H : Hasher} {L : Layout}
    (hL : L.lattice = false ∧ L.height = n ∧ L.width = 1 ∧ L.wrap = false ∧ L.symmetric = true) {input : List Term} (hin : On n input)
    (hne : ∃ t ∈ input, t.1 ≠ []) :
    ∃ out D, symmetricalCopy wide H L input = some out ∧ Average n (fun d : Nat => ChainStep d) D input out ∧
      ∀ d, d ∈ D ↔ ∀ t ∈ input, ∀ q p, Has t.1 q p → q + d < n := by
  obtain ⟨h1, h2, h3, h4, h5⟩ := hL
  have hq : L.qubits = n := by unfold Layout.qubits; rw [h2, h3, Nat.mul_one]
  obtain ⟨hub, hleast⟩ := C75.C75_chain_supremum.2 (l := input.map fun t => t.1) (fun w hw => by
    obtain ⟨t, ht, rfl⟩ := List.mem_map.mp hw
    exact (hin t ht).1)
  have hc : chainCount L input = 1 + n - chainSupremumAll (input.map fun t => t.1) := by unfold chainCount; rw [if_neg (by simp [h4]), hq]
  have hle : chainSupremumAll (input.map fun t => t.1) ≤ n := hleast n fun q ⟨w, hw, p, h⟩ => by
    obtain ⟨t, ht, rfl⟩ := List.mem_map.mp hw
    exact (hin t ht).2 q p h
  have hpos : 0 < chainCount L input := by rw [hc]; omega
  have hfit : ∀ d, d < chainCount L input → ∀ t ∈ input, ∀ q p, Has t.1 q p → q + d < n := by
    intro d hd t ht q p h
    have := hub q ⟨_, List.mem_map.mpr ⟨t, ht, rfl⟩, p, h⟩
    omega
  have e := offsets_eq hpos
  unfold symmetricalCopy
  rw [if_neg (by simp [h5, scalar_false hne]), if_neg (by simp [h1])]
  unfold applyChain
  obtain ⟨out, ho, ha⟩ := spread_average (n := n) (move := chainMove wide H L) (S := fun d : Nat => ChainStep d) (z := 0)
    (offsets := List.range' 1 (chainCount L input - 1)) (by rw [e]; exact List.nodup_range)
    hin (fun t ht => moved_zero fun q p hqp => by unfold ChainStep; omega) (by
      intro d hd t ht
      have hd' : d < chainCount L input := by
        have := List.mem_range'_1.mp hd
        omega
      obtain ⟨hm, hv⟩ := C75.C75_chain_offset (hin t ht).1 (d := (d : Int)) (fun q p h => by omega)
      refine ⟨_, by unfold chainMove; rw [if_neg (by simp [h4])], hm, hv, fun r p h => ?_⟩
      obtain ⟨q, hs, h⟩ := hm.2 r p h
      have := hfit d hd' t ht q p h
      unfold ChainStep at hs
      omega)
  rw [e, List.length_range] at ho
  rw [e, range_finset] at ha
  refine ⟨out, _, ho, ha, fun d => ⟨fun hd => hfit d (Finset.mem_range.mp hd), fun h => Finset.mem_range.mpr ?_⟩⟩
  have := hleast (n - d) fun q ⟨w, hw, p, hq⟩ => by
    obtain ⟨t, ht, rfl⟩ := List.mem_map.mp hw
    have := h t ht q p hq
    omega
  have hd : d < n := by
    obtain ⟨t, ht, hne⟩ := hne
    obtain ⟨q, p, hqp⟩ := nonempty_has hne
    have := h t ht q p hqp
    omega
  omega

example (H : Hasher) : ∃ out D, symmetricalCopy none H ⟨false, 3, 1, false, true⟩ sample = some out ∧
    Average 3 (fun d : Nat => ChainStep d) D sample out ∧ ∀ d, d ∈ D ↔ ∀ t ∈ sample, ∀ q p, Has t.1 q p → q + d < 3 :=
  C132_chain ⟨rfl, rfl, rfl, rfl, rfl⟩ (sample_on (by decide)) sample_word

/-- The first offset and the others are all offsets. -/
theorem lattice_offsets {c : Nat × Nat} (h1 : 0 < c.1) (h2 : 0 < c.2) : (((0, 0) : Nat × Nat) :: otherOffsets c).Nodup ∧
    (((0, 0) : Nat × Nat) :: otherOffsets c).toFinset = Finset.range c.1 ×ˢ Finset.range c.2 ∧ (((0, 0) : Nat × Nat) :: otherOffsets c).length = c.1 * c.2 := by
  have hmem : ∀ x : Nat × Nat, x ∈ otherOffsets c ↔ x ≠ (0, 0) ∧ x.1 < c.1 ∧ x.2 < c.2 := by
    rintro ⟨a, b⟩
    unfold otherOffsets
    simp only [List.mem_flatMap, List.mem_range, List.mem_map, List.mem_range'_1, Prod.mk.injEq, ne_eq]
    constructor
    · rintro ⟨col, hcol, row, hrow, rfl, rfl⟩
      split at hrow <;> omega
    · rintro ⟨hne, ha, hb⟩
      refine ⟨b, hb, a, ?_, rfl, rfl⟩
      split <;> omega
  have hnd : (((0, 0) : Nat × Nat) :: otherOffsets c).Nodup := by
    rw [List.nodup_cons]
    refine ⟨fun h => ((hmem _).mp h).1 rfl, ?_⟩
    unfold otherOffsets
    rw [List.nodup_flatMap]
    refine ⟨fun col _ => List.Nodup.map (fun a b h => (Prod.mk.inj h).1) List.nodup_range', ?_⟩
    refine (List.nodup_range (n := c.2)).imp fun {a b} hab => ?_
    intro x hx hy
    obtain ⟨_, _, rfl⟩ := List.mem_map.mp hx
    obtain ⟨_, _, h⟩ := List.mem_map.mp hy
    exact hab (Prod.mk.inj h).2.symm
  have hset : (((0, 0) : Nat × Nat) :: otherOffsets c).toFinset = Finset.range c.1 ×ˢ Finset.range c.2 := by
    ext x
    rw [List.mem_toFinset, List.mem_cons, hmem, Finset.mem_product, Finset.mem_range, Finset.mem_range]
    constructor
    · rintro (rfl | h)
      · exact ⟨h1, h2⟩
      · exact h.2
    · intro h
      by_cases hx : x = (0, 0)
      · exact .inl hx
      · exact .inr ⟨hx, h⟩
  refine ⟨hnd, hset, ?_⟩
  rw [← List.toFinset_card_of_nodup hnd, hset, Finset.card_product, Finset.card_range, Finset.card_range]

/-- On an open lattice the result is the average over all translations by rows and columns at which the whole polynomial is still on the lattice. -/
theorem C132_lattice {wide : Wide} {h k : Nat} (hh : 0 < h) {H : Hasher} {L : Layout}
    (hL : L.lattice = true ∧ L.height = h ∧ L.width = k ∧ L.wrap = false ∧ L.symmetric = true) {input : List Term} (hin : On (h * k) input)
    (hne : ∃ t ∈ input, t.1 ≠ []) :
    ∃ out D, symmetricalCopy wide H L input = some out ∧ Average (h * k) (fun d : Nat × Nat => LatticeStep h d.1 d.2) D input out ∧
      ∀ d, d ∈ D ↔ ∀ t ∈ input, ∀ q p, Has t.1 q p → q % h + d.1 < h ∧ q / h + d.2 < k := by
  obtain ⟨h1, h2, h3, h4, h5⟩ := hL
  obtain ⟨⟨hub1, hleast1⟩, ⟨hub2, hleast2⟩⟩ := (C75.C75_lattice_supremum h).2.1 (l := input.map fun t => t.1) (fun w hw => by
    obtain ⟨t, ht, rfl⟩ := List.mem_map.mp hw
    exact (hin t ht).1)
  have hc1 : (latticeCount L input).1 = 1 + h - (latticeSupremumAll h (input.map fun t => t.1)).1 := by
    unfold latticeCount; rw [if_neg (by simp [h4]), h2]
  have hc2 : (latticeCount L input).2 = 1 + k - (latticeSupremumAll h (input.map fun t => t.1)).2 := by
    unfold latticeCount; rw [if_neg (by simp [h4]), h2, h3]
  have hle1 : (latticeSupremumAll h (input.map fun t => t.1)).1 ≤ h := hleast1 h fun r ⟨w, hw, q, p, hq, e⟩ => e ▸ Nat.mod_lt _ hh
  have hle2 : (latticeSupremumAll h (input.map fun t => t.1)).2 ≤ k := hleast2 k fun c ⟨w, hw, q, p, hq, e⟩ => by
    obtain ⟨t, ht, rfl⟩ := List.mem_map.mp hw
    rw [e]
    exact Nat.div_lt_of_lt_mul ((hin t ht).2 q p hq)
  have hfit : ∀ d : Nat × Nat, d.1 < (latticeCount L input).1 → d.2 < (latticeCount L input).2 → ∀ t ∈ input, ∀ q p, Has t.1 q p → q % h + d.1 < h ∧ q / h + d.2 < k := by
    intro d hd1 hd2 t ht q p hq
    have e1 := hub1 (q % h) ⟨_, List.mem_map.mpr ⟨t, ht, rfl⟩, q, p, hq, rfl⟩
    have e2 := hub2 (q / h) ⟨_, List.mem_map.mpr ⟨t, ht, rfl⟩, q, p, hq, rfl⟩
    omega
  obtain ⟨hnd, hset, hlen⟩ := lattice_offsets (c := latticeCount L input) (by omega) (by omega)
  have hmem : ∀ d ∈ otherOffsets (latticeCount L input), d.1 < (latticeCount L input).1 ∧ d.2 < (latticeCount L input).2 := by
    intro d hd
    have : d ∈ (((0, 0) : Nat × Nat) :: otherOffsets (latticeCount L input)).toFinset := by simp [hd]
    rw [hset, Finset.mem_product, Finset.mem_range, Finset.mem_range] at this
    exact this
  unfold symmetricalCopy
  rw [if_neg (by simp [h5, scalar_false hne]), if_pos h1]
  unfold applyLattice
  obtain ⟨out, ho, ha⟩ := spread_average (n := h * k) (move := latticeMove wide H L) (S := fun d : Nat × Nat => LatticeStep h d.1 d.2) (z := (0, 0))
    (offsets := otherOffsets (latticeCount L input)) hnd
    hin (fun t ht => moved_zero fun q p hqp => by unfold LatticeStep; simp) (by
      intro d hd t ht
      obtain ⟨hd1, hd2⟩ := hmem d hd
      have hf := hfit d hd1 hd2 t ht
      obtain ⟨hm, hv⟩ := C75.C75_lattice_offset hh (hin t ht).1 (row := (d.1 : Int)) (col := (d.2 : Int))
        (fun q p hq => by have := (hf q p hq).1; omega) (fun q p hq => by positivity)
      refine ⟨_, by unfold latticeMove; rw [if_neg (by simp [h4]), h2], hm, hv, fun r p hr => ?_⟩
      obtain ⟨q, hs, hq⟩ := hm.2 r p hr
      have := (hf q p hq).2
      have hs2 : r / h = q / h + d.2 := by have := hs.2; omega
      have hlt : r / h < k := by omega
      rw [Nat.mul_comm]
      exact (Nat.div_lt_iff_lt_mul hh).mp hlt)
  rw [hlen] at ho
  rw [hset] at ha
  refine ⟨out, _, ho, ha, fun d => ⟨fun hd => ?_, fun hall => ?_⟩⟩
  · rw [Finset.mem_product, Finset.mem_range, Finset.mem_range] at hd
    exact hfit d hd.1 hd.2
  · rw [Finset.mem_product, Finset.mem_range, Finset.mem_range]
    obtain ⟨t, ht, hne⟩ := hne
    obtain ⟨q, p, hqp⟩ := nonempty_has hne
    have hd := hall t ht q p hqp
    have e1 := hleast1 (h - d.1) fun r ⟨w, hw, q, p, hq, e⟩ => by
      obtain ⟨t, ht, rfl⟩ := List.mem_map.mp hw
      have := (hall t ht q p hq).1
      omega
    have e2 := hleast2 (k - d.2) fun r ⟨w, hw, q, p, hq, e⟩ => by
      obtain ⟨t, ht, rfl⟩ := List.mem_map.mp hw
      have := (hall t ht q p hq).2
      omega
    have hd2 : d.2 < k := Nat.lt_of_le_of_lt (Nat.le_add_left _ _) hd.2
    have hd1 : d.1 < h := Nat.lt_of_le_of_lt (Nat.le_add_left _ _) hd.1
    exact ⟨by omega, by omega⟩

example (H : Hasher) : ∃ out D, symmetricalCopy none H ⟨true, 2, 3, false, true⟩ sample = some out ∧
    Average (2 * 3) (fun d : Nat × Nat => LatticeStep 2 d.1 d.2) D sample out ∧
    ∀ d, d ∈ D ↔ ∀ t ∈ sample, ∀ q p, Has t.1 q p → q % 2 + d.1 < 2 ∧ q / 2 + d.2 < 3 :=
  C132_lattice (by decide) ⟨rfl, rfl, rfl, rfl, rfl⟩ (sample_on (by decide)) sample_word

/-- On a closed lattice of up to 256 qubits the result is the average over all rotations by rows and columns. Missing: lattices of one column, and those on which
words cannot be shifted (`Good`; see C76 and C77). -/
theorem C132_torus_partial {wide : Wide} {h k : Nat} (hn : 0 < h * k) (hn256 : h * k ≤ 256) (hk1 : k ≠ 1) (hg : Good wide h k) {H : Hasher}
    (hH : wrapping wide h k = some (some H)) {L : Layout}
    (hL : L.lattice = true ∧ L.height = h ∧ L.width = k ∧ L.wrap = true ∧ L.symmetric = true) {input : List Term} (hin : On (h * k) input)
    (hne : ∃ t ∈ input, t.1 ≠ []) :
    ∃ out, symmetricalCopy wide H L input = some out ∧
      Average (h * k) (fun d : Nat × Nat => TorusStep h k d.1 d.2) (Finset.range h ×ˢ Finset.range k) input out := by
  obtain ⟨h1, h2, h3, h4, h5⟩ := hL
  have hh : 0 < h := Nat.pos_of_mul_pos_right hn
  have hk : 0 < k := Nat.pos_of_mul_pos_left hn
  have hc : latticeCount L input = (h, k) := by unfold latticeCount; rw [if_pos h4, h2, h3]
  obtain ⟨hnd, hset, hlen⟩ := lattice_offsets (c := (h, k)) hh hk
  unfold symmetricalCopy
  rw [if_neg (by simp [h5, scalar_false hne]), if_pos h1]
  unfold applyLattice
  rw [hc]
  obtain ⟨out, ho, ha⟩ := spread_average (n := h * k) (move := latticeMove wide H L) (S := fun d : Nat × Nat => TorusStep h k d.1 d.2) (z := (0, 0))
    (offsets := otherOffsets (h, k)) hnd
    hin (fun t ht => moved_zero fun q p hqp => ⟨(hin t ht).2 q p hqp, by rw [Nat.add_zero, Nat.mod_mod], by
      rw [Nat.add_zero, Nat.mod_eq_of_lt (Nat.div_lt_of_lt_mul ((hin t ht).2 q p hqp))]⟩) (by
      intro d hd t ht
      have hd' : d ∈ (((0, 0) : Nat × Nat) :: otherOffsets (h, k)).toFinset := by simp [hd]
      rw [hset, Finset.mem_product, Finset.mem_range, Finset.mem_range] at hd'
      have b1 : h ≤ h * k := Nat.le_mul_of_pos_right h hk
      have b2 : k ≤ h * k := Nat.le_mul_of_pos_left k hh
      have c1 : d.1 < h := hd'.1
      have c2 : d.2 < k := hd'.2
      obtain ⟨v, hv, hm⟩ := C78.C78_lattice_partial hn hn256 hk1 hg hH (hin t ht).1 (hin t ht).2 (row := d.1) (col := d.2) (by omega) (by omega) (.inr (by omega))
      exact ⟨v, by unfold latticeMove; rw [if_pos h4]; exact hv, hm⟩)
  rw [hlen] at ho
  rw [hset] at ha
  exact ⟨out, ho, ha⟩

example : ∃ H out, symmetricalCopy none H ⟨true, 2, 3, true, true⟩ sample = some out ∧
    Average (2 * 3) (fun d : Nat × Nat => TorusStep 2 3 d.1 d.2) (Finset.range 2 ×ˢ Finset.range 3) sample out :=
  ⟨_, C132_torus_partial (wide := none) (h := 2) (k := 3) (by decide) (by decide) (by decide) (.inr ⟨by decide, by omega, by omega⟩) rfl ⟨rfl, rfl, rfl, rfl, rfl⟩
    (sample_on (by decide)) sample_word⟩

/-- An average over translations has the same value as the polynomial in all states that do not change under these translations. -/
theorem C132_keeps {σ : Type} {n : Nat} {S : σ → Nat → Nat → Prop} {D : Finset σ} (hD : D.Nonempty) {input out : List Term} (h : Average n S D input out)
    {f : List Nat → ℂ} (hf : ∀ d ∈ D, ∀ w v, Normal w → Normal v → Within n w → Within n v → MovedBy (S d) w v → f w = f v) :
    value f out = value f input := by
  rw [h.2 f (fun _ => f) hf, Finset.sum_const, nsmul_eq_mul, ← mul_assoc, one_div, inv_mul_cancel₀, one_mul]
  exact_mod_cast hD.card_pos.ne'

example (H : Hasher) : ∃ out, symmetricalCopy none H ⟨false, 3, 1, false, true⟩ sample = some out ∧
    value (fun w => (w.length : ℂ)) out = value (fun w => (w.length : ℂ)) sample := by
  obtain ⟨out, D, h1, h2, h3⟩ := C132_chain (wide := none) (H := H) (n := 3) (L := ⟨false, 3, 1, false, true⟩) ⟨rfl, rfl, rfl, rfl, rfl⟩ (sample_on (by decide)) sample_word
  refine ⟨out, h1, C132_keeps ⟨0, (h3 0).mpr fun t ht q p hq => by rw [Nat.add_zero]; exact (sample_on (by decide) t ht).2 q p hq⟩ h2 ?_⟩
  intro d _ w v hw hv hwb hvb hm
  have e : v = chainOffset w (d : Int) := moved_unique (fun a b c hb hc => by unfold ChainStep at *; omega) hv
    (C75.C75_chain_offset hw fun q p h => by omega).2 hm (C75.C75_chain_offset hw fun q p h => by omega).1
  rw [e, Translate.chainOffset, List.length_map]

theorem value_congr {f g : List Nat → ℂ} {l : List Term} (h : ∀ t ∈ l, f t.1 = g t.1) : value f l = value g l := by
  unfold value
  exact congrArg List.sum (List.map_congr_left fun t ht => by rw [h t ht])

/-- An average over all elements of a set of translations does not change under a translation `E` that permutes the set. -/
theorem average_fixed {σ : Type} {n : Nat} {S : σ → Nat → Nat → Prop} {D : Finset σ} {input out : List Term} (hin : On n input) (h : Average n S D input out)
    (hS : ∀ d ∈ D, ∀ a b c, S d a b → S d a c → b = c)
    (T : σ → List Nat → List Nat) (hT : ∀ d ∈ D, ∀ w, Normal w → Within n w → MovedBy (S d) w (T d w) ∧ Normal (T d w) ∧ Within n (T d w))
    {E : Nat → Nat → Prop} {i j : σ → σ} (hi : ∀ d ∈ D, i d ∈ D) (hj : ∀ d ∈ D, j d ∈ D) (hij : ∀ d ∈ D, j (i d) = d) (hji : ∀ d ∈ D, i (j d) = d)
    (hE : ∀ d ∈ D, ∀ q a b, S d q a → S (i d) q b → E a b)
    {g g' : List Nat → ℂ} (hg : ∀ w v, Normal w → Normal v → Within n w → Within n v → MovedBy E w v → g' w = g v) :
    value g' out = value g out := by
  have fam : ∀ G : List Nat → ℂ, value G out = 1 / (D.card : ℂ) * ∑ d ∈ D, value (fun w => G (T d w)) input := by
    intro G
    refine h.2 G (fun d w => G (T d w)) fun d hd w v hw hv hwb hvb hm => ?_
    obtain ⟨h1, h2, -⟩ := hT d hd w hw hwb
    rw [moved_unique (hS d hd) hv h2 hm h1]
  rw [fam g', fam g]
  congr 1
  refine Finset.sum_nbij' i j hi hj hij hji fun d hd => value_congr fun t ht => ?_
  obtain ⟨h1, h2, h3⟩ := hT d hd t.1 (hin t ht).1 (hin t ht).2
  obtain ⟨k1, k2, k3⟩ := hT (i d) (hi d hd) t.1 (hin t ht).1 (hin t ht).2
  refine hg _ _ h2 k2 h3 k3 ((h1.symm.trans k1).mono ?_)
  rintro a b ⟨q, hq, hb⟩
  exact hE d hd q a b hq hb

theorem turn_back {n d e : Nat} (hd : d < n) : ((d + e) % n + (n - e % n)) % n = d ∧ ((d + (n - e % n)) % n + e) % n = d := by
  have hn : 0 < n := by omega
  have he := Nat.mod_lt e hn
  have e1 : e % n + (n - e % n) = n := by omega
  have key : (d + e + (n - e % n)) % n = d := by
    rw [← Nat.mod_add_div e n]
    have : d + (e % n + n * (e / n)) + (n - (e % n + n * (e / n)) % n) = d + n * (e / n + 1) := by
      rw [Nat.add_mul_mod_self_left, Nat.mod_mod, Nat.mul_add, Nat.mul_one]
      omega
    rw [this, Nat.add_mul_mod_self_left, Nat.mod_eq_of_lt hd]
  constructor
  · rw [Nat.mod_add_mod]
    exact key
  · rw [Nat.mod_add_mod, show d + (n - e % n) + e = d + e + (n - e % n) by omega]
    exact key

/-- The average over all rotations of a closed chain does not change under rotations. -/
theorem C132_ring_fixed {wide : Wide} {n : Nat} (hn : 0 < n) (hn256 : n ≤ 256) {H : Hasher} (hH : wrapping wide n 1 = some (some H)) {L : Layout}
    (hL : L.lattice = false ∧ L.height = n ∧ L.width = 1 ∧ L.wrap = true ∧ L.symmetric = true) {input out : List Term} (hin : On n input)
    (hout : symmetricalCopy wide H L input = some out) (e : Nat) {g g' : List Nat → ℂ}
    (hg : ∀ w v, Normal w → Normal v → Within n w → Within n v → MovedBy (RingStep n e) w v → g' w = g v) : value g' out = value g out := by
  by_cases hne : ∃ t ∈ input, t.1 ≠ []
  · obtain ⟨o, ho, ha⟩ := C132_ring hn hn256 hH hL hin hne
    rw [hout, Option.some.injEq] at ho
    subst ho
    refine average_fixed hin ha (fun d _ a b c hb hc => by rw [hb.2, hc.2]) (fun d w => (chainOffset wide H w (d : Int)).getD []) ?_
      (i := fun d => (d + e) % n) (j := fun d => (d + (n - e % n)) % n) (fun d _ => Finset.mem_range.mpr (Nat.mod_lt _ hn))
      (fun d _ => Finset.mem_range.mpr (Nat.mod_lt _ hn)) (fun d hd => (turn_back (Finset.mem_range.mp hd)).1)
      (fun d hd => (turn_back (Finset.mem_range.mp hd)).2) (E := RingStep n e) ?_ hg
    · intro d hd w hw hb
      obtain ⟨v, hv, hm, hr⟩ := C78.C78_chain_partial hn hn256 hH hw hb (d := (d : Int))
        ⟨by omega, by have := Finset.mem_range.mp hd; omega⟩ (.inl (by omega))
      rw [hv]
      have ed : ((d : Int) % (n : Int)).toNat = d := by rw [← Int.natCast_mod, Int.toNat_natCast, Nat.mod_eq_of_lt (Finset.mem_range.mp hd)]
      rw [ed] at hm
      exact ⟨hm, hr⟩
    · rintro d hd q a b ⟨hq, rfl⟩ ⟨-, rfl⟩
      refine ⟨Nat.mod_lt _ hn, ?_⟩
      rw [Nat.add_mod_mod, Nat.mod_add_mod, Nat.add_assoc]
  · have hall : ∀ t ∈ input, t.1 = [] := by
      intro t ht
      by_contra hc
      exact hne ⟨t, ht, hc⟩
    rw [C132_plain wide H L input (.inr hall), Option.some.injEq] at hout
    subst hout
    refine value_congr fun t ht => ?_
    have hnil : ∀ m : Nat, Within m [] := fun m q p hq => absurd hq.2 (by simp)
    rw [hall t ht]
    exact hg [] [] (by simp [Normal]) (by simp [Normal]) (hnil n) (hnil n) (moved_zero fun q p hq => absurd hq.2 (by simp))

example : ∃ H, ∀ out, symmetricalCopy none H ⟨false, 3, 1, true, true⟩ sample = some out →
    value (fun w => if w = [2] then 1 else 0) out = value (fun w => if w = [5] then 1 else 0) out := by
  refine ⟨_, fun out h => C132_ring_fixed (wide := none) (n := 3) (by decide) (by decide) rfl ⟨rfl, rfl, rfl, rfl, rfl⟩ (sample_on (by decide)) h 1 ?_⟩
  intro w v hw hv hwb hvb hm
  have m25 : MovedBy (RingStep 3 1) [2] [5] := by
    refine ⟨fun q p h => ⟨1, ?_, h.1, ?_⟩, fun r p h => ⟨0, ?_, h.1, ?_⟩⟩ <;> obtain ⟨hp, h⟩ := h <;> simp [RingStep] at h ⊢ <;> omega
  by_cases e : w = [2]
  · subst e
    rw [if_pos rfl, if_pos (moved_unique (fun a b c hb hc => by rw [hb.2, hc.2]) hv (by simp [Normal]) hm m25)]
  · rw [if_neg e, if_neg]
    rintro rfl
    refine e (moved_unique (R := fun a b => RingStep 3 1 b a) ?_ hw (by simp [Normal]) hm.symm m25.symm)
    rintro a b c ⟨h1, h2⟩ ⟨h3, h4⟩
    omega

/-- The average over all rotations of a closed lattice does not change under rotations. Missing: as for `C132_torus_partial`. -/
theorem C132_torus_fixed_partial {wide : Wide} {h k : Nat} (hn : 0 < h * k) (hn256 : h * k ≤ 256) (hk1 : k ≠ 1) (hgood : Good wide h k) {H : Hasher}
    (hH : wrapping wide h k = some (some H)) {L : Layout}
    (hL : L.lattice = true ∧ L.height = h ∧ L.width = k ∧ L.wrap = true ∧ L.symmetric = true) {input out : List Term} (hin : On (h * k) input)
    (hout : symmetricalCopy wide H L input = some out) (row col : Nat) {g g' : List Nat → ℂ}
    (hg : ∀ w v, Normal w → Normal v → Within (h * k) w → Within (h * k) v → MovedBy (TorusStep h k row col) w v → g' w = g v) : value g' out = value g out := by
  have hh : 0 < h := Nat.pos_of_mul_pos_right hn
  have hk : 0 < k := Nat.pos_of_mul_pos_left hn
  by_cases hne : ∃ t ∈ input, t.1 ≠ []
  · obtain ⟨o, ho, ha⟩ := C132_torus_partial hn hn256 hk1 hgood hH hL hin hne
    rw [hout, Option.some.injEq] at ho
    subst ho
    have mem : ∀ d : Nat × Nat, d ∈ Finset.range h ×ˢ Finset.range k ↔ d.1 < h ∧ d.2 < k := fun d => by simp
    refine average_fixed hin ha ?_ (fun d w => (latticeOffset wide H w (d.1 : Int) (d.2 : Int)).getD []) ?_
      (i := fun d => ((d.1 + row) % h, (d.2 + col) % k)) (j := fun d => ((d.1 + (h - row % h)) % h, (d.2 + (k - col % k)) % k))
      (fun d _ => (mem _).mpr ⟨Nat.mod_lt _ hh, Nat.mod_lt _ hk⟩) (fun d _ => (mem _).mpr ⟨Nat.mod_lt _ hh, Nat.mod_lt _ hk⟩)
      (fun d hd => Prod.ext (turn_back ((mem d).mp hd).1).1 (turn_back ((mem d).mp hd).2).1)
      (fun d hd => Prod.ext (turn_back ((mem d).mp hd).1).2 (turn_back ((mem d).mp hd).2).2) (E := TorusStep h k row col) ?_ hg
    · rintro d _ a b c ⟨-, h1, h2⟩ ⟨-, k1, k2⟩
      rw [← Nat.div_add_mod b h, ← Nat.div_add_mod c h, h1, h2, k1, k2]
    · intro d hd w hw hb
      obtain ⟨c1, c2⟩ := (mem d).mp hd
      have b1 : h ≤ h * k := Nat.le_mul_of_pos_right h hk
      have b2 : k ≤ h * k := Nat.le_mul_of_pos_left k hh
      obtain ⟨v, hv, hm⟩ := C78.C78_lattice_partial hn hn256 hk1 hgood hH hw hb (row := d.1) (col := d.2) (by omega) (by omega) (.inr (by omega))
      rw [hv]
      exact hm
    · rintro d hd q a b ⟨hq, h1, h2⟩ ⟨-, k1, k2⟩
      refine ⟨?_, ?_, ?_⟩
      · rw [Nat.mul_comm]
        refine (Nat.div_lt_iff_lt_mul hh).mp ?_
        rw [h2]
        exact Nat.mod_lt _ hk
      · rw [k1, h1]
        simp only [Nat.add_mod_mod, Nat.mod_add_mod, Nat.add_assoc]
      · rw [k2, h2]
        simp only [Nat.add_mod_mod, Nat.mod_add_mod, Nat.add_assoc]
  · have hall : ∀ t ∈ input, t.1 = [] := by
      intro t ht
      by_contra hc
      exact hne ⟨t, ht, hc⟩
    rw [C132_plain wide H L input (.inr hall), Option.some.injEq] at hout
    subst hout
    refine value_congr fun t ht => ?_
    have hnil : ∀ m : Nat, Within m [] := fun m q p hq => absurd hq.2 (by simp)
    rw [hall t ht]
    exact hg [] [] (by simp [Normal]) (by simp [Normal]) (hnil _) (hnil _) (moved_zero fun q p hq => absurd hq.2 (by simp))

example : ∃ H, ∀ out, symmetricalCopy none H ⟨true, 2, 3, true, true⟩ sample = some out →
    ∀ (g g' : List Nat → ℂ), (∀ w v, Normal w → Normal v → Within (2 * 3) w → Within (2 * 3) v → MovedBy (TorusStep 2 3 1 2) w v → g' w = g v) →
      value g' out = value g out :=
  ⟨_, fun _ h _ _ hg => C132_torus_fixed_partial (wide := none) (h := 2) (k := 3) (by decide) (by decide) (by decide) (.inr ⟨by decide, by omega, by omega⟩) rfl
    ⟨rfl, rfl, rfl, rfl, rfl⟩ (sample_on (by decide)) h 1 2 hg⟩

/-- On open chains, polynomials are not translated to the left: of two translates, that on the first qubit gives the average, that on the last qubit stays. -/
theorem C132_refuted_left (H : Hasher) : symmetricalCopy none H ⟨false, 2, 1, false, true⟩ [([2], 1)] = some [([2], 1 / 2), ([5], 1 / 2)] ∧
    symmetricalCopy none H ⟨false, 2, 1, false, true⟩ [([5], 1)] = some [([5], 1)] ∧ MovedBy (ChainStep 1) [2] [5] := by
  refine ⟨?_, ?_, ?_⟩
  · simp [symmetricalCopy, isScalar, applyChain, spread, chainCount, chainMove, chainSupremumAll, Layout.qubits, Translate.chainOffset]
  · simp [symmetricalCopy, isScalar, applyChain, spread, chainCount, chainMove, chainSupremumAll, Layout.qubits, Translate.chainOffset]
  · refine ⟨fun q p h => ⟨1, ?_, h.1, ?_⟩, fun r p h => ⟨0, ?_, h.1, ?_⟩⟩ <;> obtain ⟨hp, h⟩ := h <;> simp [ChainStep] at h ⊢ <;> omega

end Moment.C132
