import Verif.Props.C76_SiteHash

/-! # C78: Offsets of Pauli words on closed chains and lattices -/

namespace Moment.C78

open Moment.SiteHash
open Moment.Translate
open Moment.Pauli (Normal)

theorem wrapOffset_eq {n : Nat} (hn : 0 < n) {d : Int} (hd : -2 ^ 63 ≤ d ∧ d < 2 ^ 63) (h : 0 ≤ d ∨ n ∣ 2 ^ 64) :
    wrapOffset n d = (d % (n : Int)).toNat := by
  have key : ((wrapOffset n d : Nat) : Int) = d % (n : Int) := by
    unfold wrapOffset
    rw [Int.natCast_mod]
    have e : (((d % 2 ^ 64).toNat : Nat) : Int) = d % 2 ^ 64 := Int.toNat_of_nonneg (Int.emod_nonneg _ (by decide))
    rw [e]
    rcases h with h | h
    · rw [Int.emod_eq_of_lt h (by omega)]
    · refine Int.emod_emod_of_dvd _ ?_
      exact_mod_cast h
  rw [← key]
  rfl

theorem ring_mod {n d q r : Nat} (h : RingStep n (d % n) q r) : RingStep n d q r := ⟨h.1, by rw [h.2, Nat.add_mod_mod]⟩

/-- On a closed chain, `chain_offset` by a number that is not negative translates the word around the ring by it, and so do negative numbers if the number of
qubits is a power of two. Missing: other negative numbers, where it does not. -/
theorem C78_chain_partial {wide : Wide} {n : Nat} (hn : 0 < n) (hn256 : n ≤ 256) {H : Hasher} (hH : wrapping wide n 1 = some (some H)) {w : List Nat}
    (hw : Normal w) (hb : Within n w) {d : Int} (hd : -2 ^ 63 ≤ d ∧ d < 2 ^ 63) (hpos : 0 ≤ d ∨ n ∣ 2 ^ 64) :
    ∃ v, chainOffset wide H w d = some v ∧ MovedBy (RingStep n (d % (n : Int)).toNat) w v ∧ Normal v ∧ Within n v := by
  obtain ⟨hr, hh, hk, -⟩ := wrapping_ready (by omega) (by omega) (.inl rfl) hH
  have hq : H.qubits = n := by unfold Hasher.qubits; rw [hh, hk, Nat.mul_one]
  have hlt : (d % (n : Int)).toNat < n := by
    have h1 := Int.emod_lt_of_pos d (show (0 : Int) < n by omega)
    have h2 := Int.emod_nonneg d (show (n : Int) ≠ 0 by omega)
    omega
  obtain ⟨E, hE, hm, hnE, hwE, -⟩ := C76.C76_chain_shift hn hn256 hH hw hb (Nat.le_of_lt hlt)
  refine ⟨unhash E, ?_, hm, hnE, hwE⟩
  unfold SiteHash.chainOffset
  rw [hq, wrapOffset_eq hn hd hpos, hE]
  rfl

example : ∃ H, wrapping none 5 1 = some (some H) ∧ chainOffset none H [1, 11] 7 = some [2, 7] := ⟨_, rfl, by decide +kernel⟩

example : ∃ H, wrapping none 4 1 = some (some H) ∧ chainOffset none H [1, 8] (-1) = some [5, 10] := ⟨_, rfl, by decide +kernel⟩

/-- A closed chain of three qubits is not moved at all by −1: the negative number is converted to an unsigned one first. -/
theorem C78_refuted_negative : ∃ H, wrapping none 3 1 = some (some H) ∧ Normal [0] ∧ Within 3 [0] ∧ chainOffset none H [0] (-1) = some [0] ∧
    ¬ MovedBy (RingStep 3 2) [0] [0] := by
  refine ⟨_, rfl, by simp [Normal], ?_, by decide +kernel, ?_⟩
  · rintro q p ⟨hp, h⟩
    simp at h
    omega
  · intro hm
    obtain ⟨r, ⟨-, rfl⟩, hr⟩ := hm.1 0 0 ⟨by decide, by simp⟩
    have := hr.2
    simp at this

/-- On a closed lattice of a good size, `lattice_offset` by numbers that are not negative translates the word around the torus by them; on lattices of more
than 64 qubits, if the number of rows to move is no more than the height. Missing: negative numbers, and more rows on larger lattices. -/
theorem C78_lattice_partial {wide : Wide} {h k : Nat} (hn : 0 < h * k) (hn256 : h * k ≤ 256) (hk1 : k ≠ 1) (hg : Good wide h k) {H : Hasher}
    (hH : wrapping wide h k = some (some H)) {w : List Nat} (hw : Normal w) (hb : Within (h * k) w) {row col : Nat} (hrow : row < 2 ^ 63)
    (hcol : col < 2 ^ 63) (hsize : h * k ≤ 64 ∨ row ≤ h) :
    ∃ v, latticeOffset wide H w row col = some v ∧ MovedBy (TorusStep h k row col) w v ∧ Normal v ∧ Within (h * k) v := by
  obtain ⟨hr, hh, hk, -⟩ := wrapping_ready hn hn256 hg hH
  have hq : H.qubits = h * k := by unfold Hasher.qubits; rw [hh, hk]
  have e : ∀ x : Nat, x < 2 ^ 63 → wrapOffset H.qubits (x : Int) = x % (h * k) := by
    intro x hx
    rw [hq, wrapOffset_eq hn ⟨by omega, by exact_mod_cast hx⟩ (.inl (by omega)), ← Int.natCast_mod]
    rfl
  obtain ⟨E, hE, hm, hnE, hwE, -⟩ := C76.C76_lattice_shift_partial hn hn256 hk1 hg hH hw hb (row := row % (h * k)) (by
    rcases hsize with h1 | h1
    · exact .inl h1
    · exact .inr (Nat.le_trans (Nat.mod_le _ _) h1)) (col % (h * k))
  refine ⟨unhash E, ?_, ?_, hnE, hwE⟩
  · unfold SiteHash.latticeOffset
    rw [e row hrow, e col hcol, hE]
    rfl
  · refine hm.mono ?_
    rintro a b ⟨h1, h2, h3⟩
    refine ⟨h1, ?_, ?_⟩
    · rw [h2, Nat.add_mod, Nat.mod_mod_of_dvd _ (Nat.dvd_mul_right h k), ← Nat.add_mod]
    · rw [h3, Nat.add_mod, Nat.mod_mod_of_dvd _ (Nat.dvd_mul_left k h), ← Nat.add_mod]

example : Good none 3 4 ∧ ∃ H, wrapping none 3 4 = some (some H) ∧ latticeOffset none H [1, 21] 4 3 = some [15, 31] :=
  ⟨.inr ⟨by decide, fun h => absurd h (by decide), by decide⟩, _, rfl, by decide +kernel⟩

/-- Negative numbers of rows and columns are converted too: on the closed lattice of three rows and four columns, −1 rows are none. -/
theorem C78_refuted_lattice_negative : ∃ H, wrapping none 3 4 = some (some H) ∧ latticeOffset none H [0] (-1) 0 = some [0] ∧
    ¬ MovedBy (TorusStep 3 4 2 0) [0] [0] := by
  refine ⟨_, rfl, by decide +kernel, ?_⟩
  intro hm
  obtain ⟨r, ⟨-, h1, -⟩, hr⟩ := hm.1 0 0 ⟨by decide, by simp⟩
  have : r = 0 := by
    have := hr.2
    simp at this
    omega
  subst this
  simp at h1

/-- A closed lattice of nine rows and ten columns is moved by no rows instead of one by ten: the number is reduced by the number of columns. -/
theorem C78_refuted_rows : ∃ H, wrapping none 9 10 = some (some H) ∧ latticeOffset none H [0] 10 0 = some [0] ∧ ¬ MovedBy (TorusStep 9 10 10 0) [0] [0] := by
  refine ⟨_, rfl, by decide +kernel, ?_⟩
  intro hm
  obtain ⟨r, ⟨-, h1, -⟩, hr⟩ := hm.1 0 0 ⟨by decide, by simp⟩
  have : r = 0 := by
    have := hr.2
    simp at this
    omega
  subst this
  simp at h1

end Moment.C78
