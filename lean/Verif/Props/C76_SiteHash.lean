import Verif.Proof.SiteCanonical

/-! # C76: Hashes of Pauli words by sites -/

namespace Moment.C76

open Moment.SiteHash
open Moment.Translate
open Moment.Pauli (Normal)

/-- A word in normal form on the qubits of the hasher is recovered from its hash; every hash is the hash of its word; so that distinct words have distinct
hashes. -/
theorem C76_round_trip (s : Nat) :
    (∀ {w : List Nat}, Normal w → Within (32 * s) w → unhash (hash s w) = w) ∧
    (∀ {D : Datum}, D.length = s → hash s (unhash D) = D ∧ Normal (unhash D) ∧ Within (32 * s) (unhash D)) ∧
    (∀ {w v : List Nat}, Normal w → Normal v → Within (32 * s) w → Within (32 * s) v → (hash s w = hash s v ↔ w = v)) := by
  refine ⟨unhash_hash, ?_, ?_⟩
  · rintro D rfl
    exact ⟨hash_unhash D, unhash_normal D, unhash_within (valid_iff.mpr fun q hq => fld_oob hq)⟩
  · intro w v hw hv hwb hvb
    constructor
    · intro e
      rw [← unhash_hash hw hwb, e, unhash_hash hv hvb]
    · rintro rfl
      rfl

example : unhash (hash 3 [1, 101, 200]) = [1, 101, 200] ∧ hash 3 [1, 101, 200] ≠ hash 3 [1, 102, 200] := by decide +kernel

/-- `less` compares hashes of the same hasher as numbers; it is a strict total order. -/
theorem C76_order {D E F : Datum} (h : D.length = E.length) (h' : E.length = F.length) :
    less D D = false ∧ (less D E = true → less E F = true → less D F = true) ∧ (less D E = true ∨ D = E ∨ less E D = true) ∧
    (less D E = true → less E D = false) := by
  have hDE := less_iff h
  have hED := less_iff h.symm
  have hEF := less_iff h'
  have hDF := less_iff (h.trans h')
  refine ⟨?_, ?_, ?_, ?_⟩
  · rw [← Bool.not_eq_true, less_iff rfl]
    omega
  · rw [hDE, hEF, hDF]
    omega
  · rw [hDE, hED]
    rcases Nat.lt_trichotomy (value D) (value E) with h1 | h1 | h1
    · exact .inl h1
    · exact .inr (.inl (value_inj h h1))
    · exact .inr (.inr h1)
  · rw [← Bool.not_eq_true, hDE, hED]
    omega

example : less [5, 1] [3, 2] = true ∧ less [3, 2] [5, 1] = false := by decide +kernel

/-- On a chain, `cyclic_shift` by up to the number of qubits translates the word around the ring, whatever shifts by 64 bits or more give. -/
theorem C76_chain_shift {wide : Wide} {n : Nat} (hn : 0 < n) (hn256 : n ≤ 256) {H : Hasher} (hH : wrapping wide n 1 = some (some H)) {w : List Nat}
    (hw : Normal w) (hb : Within n w) {o : Nat} (ho : o ≤ n) :
    ∃ E, cyclic wide H (hash H.slides w) o = some E ∧ MovedBy (RingStep n o) w (unhash E) ∧ Normal (unhash E) ∧ Within n (unhash E) ∧
      hash H.slides (unhash E) = E := by
  obtain ⟨hr, hh, hk, hs⟩ := wrapping_ready (by omega) (by omega) (.inl rfl) hH
  have hq : H.qubits = n := by unfold Hasher.qubits; rw [hh, hk, Nat.mul_one]
  have hhigh := hr.1.high
  rw [← hq] at hb ho
  have hb32 : Within (32 * H.slides) w := fun q p h => Nat.lt_of_lt_of_le (hb q p h) hhigh
  have hval := hash_valid hw hhigh hb
  obtain ⟨E, hE, s⟩ := cyclic_shifted (wide := wide) hr.1 hk length_hash hval ho 0
  refine ⟨E, hE, ?_, unhash_normal E, ?_, ?_⟩
  · have hm := s.moved hr.pos.1 hr.pos.2 hval
    rw [unhash_hash hw hb32, hh, hk] at hm
    refine hm.mono ?_
    rintro a b ⟨h1, h2, h3⟩
    rw [Nat.mul_one] at h1
    rw [Nat.mod_one] at h3
    refine ⟨h1, ?_⟩
    have := Nat.div_add_mod b n
    rw [h3, Nat.mul_zero, Nat.zero_add] at this
    rw [← this, h2, Nat.mod_eq_of_lt h1]
  · rw [← hq]
    exact unhash_within s.valid
  · have := hash_unhash E
    rwa [s.1, length_hash] at this

example : ∃ H, wrapping none 5 1 = some (some H) ∧ (cyclic none H (hash H.slides [1, 11]) 2).map unhash = some [2, 7] :=
  ⟨_, rfl, by decide +kernel⟩

/-- On a lattice of a good size, `lattice_shift` by up to the number of rows and any number of columns translates the word around the torus; up to two slides
hold any number of rows. Missing: lattices of more than 64 qubits that have more rows than columns, where it does not; and more rows on larger lattices. -/
theorem C76_lattice_shift_partial {wide : Wide} {h k : Nat} (hn : 0 < h * k) (hn256 : h * k ≤ 256) (hk1 : k ≠ 1) (hg : Good wide h k) {H : Hasher}
    (hH : wrapping wide h k = some (some H)) {w : List Nat} (hw : Normal w) (hb : Within (h * k) w) {row : Nat} (hrow : h * k ≤ 64 ∨ row ≤ h)
    (col : Nat) :
    ∃ E, latticeShift wide H (hash H.slides w) row col = some E ∧ MovedBy (TorusStep h k row col) w (unhash E) ∧ Normal (unhash E) ∧
      Within (h * k) (unhash E) ∧ hash H.slides (unhash E) = E := by
  obtain ⟨hr, hh, hk, hs⟩ := wrapping_ready hn hn256 hg hH
  have hq : H.qubits = h * k := by unfold Hasher.qubits; rw [hh, hk]
  have hhigh := hr.1.high
  obtain ⟨b1, b2, b3⟩ := slidesFor_bounds hn
  have hrow' : H.slides = 1 ∨ H.slides = 2 ∨ row ≤ H.height := by
    rw [hs, hh]
    rcases hrow with h1 | h1
    · omega
    · exact .inr (.inr h1)
  rw [← hq] at hb
  have hb32 : Within (32 * H.slides) w := fun q p h => Nat.lt_of_lt_of_le (hb q p h) hhigh
  have hval := hash_valid hw hhigh hb
  obtain ⟨E, hE, s⟩ := latticeShift_shifted hr.1 (hr.2 (by rw [hk]; exact hk1)) length_hash hval hrow' col
  refine ⟨E, hE, ?_, unhash_normal E, ?_, ?_⟩
  · have hm := s.moved hr.pos.1 hr.pos.2 hval
    rwa [unhash_hash hw hb32, hh, hk] at hm
  · rw [← hq]
    exact unhash_within s.valid
  · have := hash_unhash E
    rwa [s.1, length_hash] at this

example : Good none 3 4 ∧ Good none 7 9 ∧ Good none 9 10 ∧
    ∃ H, wrapping none 9 10 = some (some H) ∧ (latticeShift none H (hash H.slides [1, 101, 241]) 4 7).map unhash = some [5, 145, 202] :=
  ⟨.inr ⟨by decide, fun h => absurd h (by decide), by decide⟩, .inr ⟨by decide, fun _ _ => .inl (by decide), by decide⟩,
    .inr ⟨by decide, fun _ h => absurd h (by decide), by decide⟩, _, rfl, by decide +kernel⟩

/-- Beyond 64 qubits, the row shift is reduced by the number of columns instead of the number of rows: a lattice of nine rows and eight columns is not shifted
at all by eight rows. -/
theorem C76_refuted_rows : ∃ H, wrapping none 9 8 = some (some H) ∧ Normal [0] ∧ Within (9 * 8) [0] ∧
    latticeShift none H (hash H.slides [0]) 8 0 = some (hash H.slides [0]) ∧ ¬ MovedBy (TorusStep 9 8 8 0) [0] [0] := by
  refine ⟨_, rfl, by simp [Normal], ?_, by decide +kernel, ?_⟩
  · rintro q p ⟨hp, h⟩
    simp at h
    omega
  · intro hm
    obtain ⟨r, ⟨-, h1, -⟩, hr⟩ := hm.1 0 0 ⟨by decide, by simp⟩
    have : r = 0 := by
      have := hr.2
      simp at this
      omega
    subst this
    simp at h1

/-- A lattice of two slides whose columns are not cut by the boundary of the slides shifts by 64 bits: undefined behaviour. -/
theorem C76_refuted_aligned : ∃ H, wrapping none 4 10 = some (some H) ∧ latticeShift none H (hash H.slides [0]) 1 0 = none := ⟨_, rfl, by decide +kernel⟩

/-- `first_chain_alias` is the least positive distance by which the word can be moved around the ring to itself. -/
theorem C76_first_alias {wide : Wide} {n : Nat} (hn : 0 < n) (hn256 : n ≤ 256) {H : Hasher} (hH : wrapping wide n 1 = some (some H)) {w : List Nat}
    (hw : Normal w) (hb : Within n w) :
    ∃ m, firstAlias wide H (hash H.slides w) = some m ∧ 0 < m ∧ m ≤ n ∧ MovedBy (RingStep n m) w w ∧
      ∀ o, 0 < o → o < m → ¬ MovedBy (RingStep n o) w w := by
  obtain ⟨hr, hh, hk, hs⟩ := wrapping_ready (by omega) (by omega) (.inl rfl) hH
  have hq : H.qubits = n := by unfold Hasher.qubits; rw [hh, hk, Nat.mul_one]
  have hb32 : Within (32 * H.slides) w := fun q p h => Nat.lt_of_lt_of_le (hb q p h) (by rw [← hq]; exact hr.1.high)
  have full : MovedBy (RingStep n n) w w := by
    refine ⟨fun q p h => ⟨q, ⟨hb q p h, ?_⟩, h⟩, fun q p h => ⟨q, ⟨hb q p h, ?_⟩, h⟩⟩ <;>
      rw [Nat.add_mod_right, Nat.mod_eq_of_lt (hb q p h)]
  -- Each comparison tells whether the word is moved to itself.
  have test : ∀ o, o ≤ n → ∃ E, cyclic wide H (hash H.slides w) o = some E ∧ (hash H.slides w = E ↔ MovedBy (RingStep n o) w w) := by
    intro o ho
    obtain ⟨E, hE, hm, hnE, -, hu⟩ := C76_chain_shift hn hn256 hH hw hb ho
    refine ⟨E, hE, ⟨fun e => ?_, fun hself => ?_⟩⟩
    · rw [← e, unhash_hash hw hb32] at hm
      exact hm
    · have : unhash E = w := by
        refine normal_ext hnE hw fun r p => ⟨fun h => ?_, fun h => ?_⟩
        · obtain ⟨q, h1, h2⟩ := hm.2 r p h
          obtain ⟨r', h3, h4⟩ := hself.1 q p h2
          rwa [h1.2, ← h3.2]
        · obtain ⟨q, h1, h2⟩ := hself.2 r p h
          obtain ⟨r', h3, h4⟩ := hm.1 q p h2
          rwa [h1.2, ← h3.2]
      rw [← hu, this]
  have main : ∀ k o, 0 < o → o + k = n → (∀ j, 0 < j → j < o → ¬ MovedBy (RingStep n j) w w) →
      ∃ m, firstAlias.go wide H (hash H.slides w) k o = some m ∧ 0 < m ∧ m ≤ n ∧ MovedBy (RingStep n m) w w ∧
        ∀ j, 0 < j → j < m → ¬ MovedBy (RingStep n j) w w := by
    intro k
    induction k with
    | zero =>
      intro o ho e hlow
      refine ⟨n, by simp [firstAlias.go, hq], hn, Nat.le_refl _, full, ?_⟩
      intro j h1 h2
      exact hlow j h1 (by omega)
    | succ k ih =>
      intro o ho e hlow
      obtain ⟨E, hE, ht⟩ := test o (by omega)
      simp only [firstAlias.go, hE, Option.bind_some]
      by_cases hD : hash H.slides w = E
      · rw [if_pos hD]
        exact ⟨o, rfl, ho, by omega, ht.mp hD, hlow⟩
      · rw [if_neg hD]
        refine ih (o + 1) (by omega) (by omega) fun j hj hlt => ?_
        rcases Nat.lt_or_ge j o with h1 | h1
        · exact hlow j hj h1
        · have : j = o := by omega
          subst this
          exact fun h => hD (ht.mpr h)
  unfold firstAlias
  exact main (H.qubits - 1) 1 (by decide) (by omega) fun j h1 h2 => by omega

example : ∃ H, wrapping none 6 1 = some (some H) ∧ firstAlias none H (hash H.slides [0, 9]) = some 3 ∧ firstAlias none H (hash H.slides [0, 10]) = some 6 :=
  ⟨_, rfl, by decide +kernel⟩

end Moment.C76
