import Verif.Proof.SiteCanonical

/-! # C77: Pauli words on closed chains and lattices are simplified up to translation -/

namespace Moment.C77

open Moment.SiteHash
open Moment.Translate
open Moment.Pauli (Normal)

theorem ringStep_iff {n d : Nat} (q r : Nat) (hq : q < n) : TorusStep n 1 d 0 q r ↔ RingStep n d q r := by
  unfold TorusStep RingStep
  rw [Nat.mul_one, Nat.mod_one, Nat.mod_eq_of_lt hq]
  constructor
  · rintro ⟨h1, h2, h3⟩
    refine ⟨h1, ?_⟩
    have := Nat.div_add_mod r n
    rw [h3, Nat.mul_zero, Nat.zero_add] at this
    rw [← this, h2]
  · rintro ⟨h1, rfl⟩
    exact ⟨h1, Nat.mod_mod _ _, Nat.div_eq_of_lt (Nat.mod_lt _ (by omega))⟩

theorem ringClass_iff {n : Nat} {w v : List Nat} : TorusClass n 1 w v ↔ ∃ d, MovedBy (RingStep n d) w v := by
  constructor
  · rintro ⟨row, col, m⟩
    refine ⟨row, m.mono ?_⟩
    rintro a b ⟨h1, h2, h3⟩
    have ha : a < n := by rwa [Nat.mul_one] at h1
    exact (ringStep_iff a b ha).mp ⟨h1, h2, by rw [h3, Nat.mod_one, Nat.mod_one]⟩
  · rintro ⟨d, m⟩
    exact ⟨d, 0, m.mono fun a b h => (ringStep_iff a b h.1).mpr h⟩

theorem canonical_class {wide : Wide} {H : Hasher} (hr : Ready wide H) {w v : List Nat} (hw : Normal w) (hv : Normal v) (hwb : Within H.qubits w)
    (hvb : Within H.qubits v) : ∃ a b, canonical wide H w = some a ∧ canonical wide H v = some b ∧ (a = b ↔ TorusClass H.height H.width w v) := by
  obtain ⟨hh, hk⟩ := hr.pos
  have nonempty : ∀ {x y : List Nat}, TorusClass H.height H.width x y → x = [] → y = [] := by
    rintro x y ⟨_, _, m⟩ rfl
    exact m.nil
  by_cases hwn : w = []
  · subst hwn
    by_cases hvn : v = []
    · subst hvn
      refine ⟨[], [], (canonical_nil wide H).1, (canonical_nil wide H).1, iff_of_true rfl ⟨0, 0, ?_⟩⟩
      exact ⟨fun q p h => absurd h.2 (by simp), fun q p h => absurd h.2 (by simp)⟩
    · obtain ⟨b, hb, -, hc, -⟩ := canonical_spec hr hv hvb hvn
      refine ⟨[], b, (canonical_nil wide H).1, hb, iff_of_false ?_ ?_⟩
      · rintro rfl
        obtain ⟨p, hp⟩ := hc.2.2.2
        exact absurd hp.2 (by simp)
      · exact fun h => hvn (nonempty h rfl)
  · obtain ⟨a, ha, -, hca, hmina⟩ := canonical_spec hr hw hwb hwn
    by_cases hvn : v = []
    · subst hvn
      refine ⟨a, [], ha, (canonical_nil wide H).1, iff_of_false ?_ ?_⟩
      · rintro rfl
        obtain ⟨p, hp⟩ := hca.2.2.2
        exact absurd hp.2 (by simp)
      · exact fun h => hwn (nonempty (h.symm hh hk) rfl)
    · obtain ⟨b, hb, -, hcb, hminb⟩ := canonical_spec hr hv hvb hvn
      refine ⟨a, b, ha, hb, ⟨?_, ?_⟩⟩
      · rintro rfl
        exact hca.2.2.1.trans (hcb.2.2.1.symm hh hk)
      · intro hwv
        have hab : Candidate H v a := ⟨hca.1, hca.2.1, (hwv.symm hh hk).trans hca.2.2.1, hca.2.2.2⟩
        have hba : Candidate H w b := ⟨hcb.1, hcb.2.1, hwv.trans hcb.2.2.1, hcb.2.2.2⟩
        exact hca.unique hr.1.high hcb (Nat.le_antisymm (hmina b hba) (hminb a hab))

theorem canonical_form {wide : Wide} {H : Hasher} (hr : Ready wide H) {w : List Nat} (hw : Normal w) (hwb : Within H.qubits w) :
    ∃ u, canonical wide H w = some u ∧ isCanonical wide H w = some (decide (u = w)) ∧ Normal u ∧ Within H.qubits u ∧
      TorusClass H.height H.width w u ∧ canonical wide H u = some u ∧ (w ≠ [] → ∃ p, Has u 0 p) := by
  by_cases hwn : w = []
  · subst hwn
    have hn := canonical_nil wide H
    refine ⟨[], hn.1, by simpa using hn.2, hw, hwb, ⟨0, 0, ?_⟩, hn.1, fun h => absurd rfl h⟩
    exact ⟨fun q p h => absurd h.2 (by simp), fun q p h => absurd h.2 (by simp)⟩
  · obtain ⟨u, hu, hi, hc, -⟩ := canonical_spec hr hw hwb hwn
    refine ⟨u, hu, hi, hc.1, hc.2.1, hc.2.2.1, ?_, fun _ => hc.2.2.2⟩
    obtain ⟨a, b, ha, hb, hab⟩ := canonical_class hr hw hc.1 hwb hc.2.1
    rw [hu, Option.some.injEq] at ha
    rw [hb, ← hab.mpr hc.2.2.1, ha]

/-- On a closed chain of up to 256 qubits, two words have the same simplified word exactly if one is a rotation of the other; whatever shifts by 64 bits or more
give, if they give anything. -/
theorem C77_chain {wide : Wide} {n : Nat} (hn : 0 < n) (hn256 : n ≤ 256) (hwide : n ≤ 32 ∨ wide ≠ none) :
    ∃ H, wrapping wide n 1 = some (some H) ∧
    (∀ w v, Normal w → Normal v → Within n w → Within n v →
      ∃ a b, canonical wide H w = some a ∧ canonical wide H v = some b ∧ (a = b ↔ ∃ d, MovedBy (RingStep n d) w v)) ∧
    (∀ w, Normal w → Within n w → ∃ u, canonical wide H w = some u ∧ isCanonical wide H w = some (decide (u = w)) ∧ Normal u ∧ Within n u ∧
      (∃ d, MovedBy (RingStep n d) w u) ∧ canonical wide H u = some u ∧ (w ≠ [] → ∃ p, Has u 0 p)) := by
  obtain ⟨H, hH⟩ := wrapping_some (wide := wide) (h := n) (k := 1) (by omega) (by omega) hwide
  obtain ⟨hr, hh, hk, -⟩ := wrapping_ready (by omega) (by omega) (.inl rfl) hH
  have hq : H.qubits = n := by unfold Hasher.qubits; rw [hh, hk, Nat.mul_one]
  refine ⟨H, hH, fun w v hw hv hwb hvb => ?_, fun w hw hwb => ?_⟩
  · have := canonical_class hr hw hv (by rwa [hq]) (by rwa [hq])
    rwa [hh, hk, ringClass_iff] at this
  · have := canonical_form hr hw (by rwa [hq])
    rw [hh, hk, hq] at this
    simpa only [ringClass_iff] using this

example : ∃ H, wrapping none 5 1 = some (some H) ∧ canonical none H [7, 11] = some [1, 5] ∧ canonical none H [2, 13] = some [1, 5] ∧
    canonical none H [1, 8] = some [1, 8] := ⟨_, rfl, by decide +kernel⟩

example : ∃ H, wrapping (some fun _ => 0) 70 1 = some (some H) ∧ canonical (some fun _ => 0) H [2, 208] = some [1, 5] := ⟨_, rfl, by decide +kernel⟩

/-- On a closed lattice of a good size, two words have the same simplified word exactly if one is a translate of the other around the torus. Missing: lattices
of more than 32 rows, and those of more than 64 qubits with more rows than columns; there it is not so. -/
theorem C77_lattice_partial {wide : Wide} {h k : Nat} (hn : 0 < h * k) (hn256 : h * k ≤ 256) (hg : Good wide h k) (h32 : h ≤ 32) :
    ∃ H, wrapping wide h k = some (some H) ∧
    (∀ w v, Normal w → Normal v → Within (h * k) w → Within (h * k) v →
      ∃ a b, canonical wide H w = some a ∧ canonical wide H v = some b ∧ (a = b ↔ ∃ row col, MovedBy (TorusStep h k row col) w v)) ∧
    (∀ w, Normal w → Within (h * k) w → ∃ u, canonical wide H w = some u ∧ isCanonical wide H w = some (decide (u = w)) ∧ Normal u ∧
      Within (h * k) u ∧ (∃ row col, MovedBy (TorusStep h k row col) w u) ∧ canonical wide H u = some u ∧ (w ≠ [] → ∃ p, Has u 0 p)) := by
  obtain ⟨H, hH⟩ := wrapping_some (wide := wide) hn hn256 (.inl h32)
  obtain ⟨hr, hh, hk, -⟩ := wrapping_ready hn hn256 hg hH
  have hq : H.qubits = h * k := by unfold Hasher.qubits; rw [hh, hk]
  refine ⟨H, hH, fun w v hw hv hwb hvb => ?_, fun w hw hwb => ?_⟩
  · have := canonical_class hr hw hv (by rwa [hq]) (by rwa [hq])
    rwa [hh, hk] at this
  · have := canonical_form hr hw (by rwa [hq])
    rwa [hh, hk, hq] at this

example : Good none 3 4 ∧ ∃ H, wrapping none 3 4 = some (some H) ∧ canonical none H [13, 33] = some [1, 21] ∧ canonical none H [1, 18] = some [1, 18] :=
  ⟨.inr ⟨by decide, fun h => absurd h (by decide), by decide⟩, _, rfl, by decide +kernel⟩

/-- On the closed lattice of nine rows and eight columns, words that are translates of each other have different simplified words, and the simplified word of a
simplified word is another one. -/
theorem C77_refuted_lattice : ∃ H, wrapping none 9 8 = some (some H) ∧ canonical none H [3] = some [3] ∧ canonical none H [6] = some [0] ∧
    canonical none H [0] = some [3] ∧ MovedBy (TorusStep 9 8 1 0) [3] [6] := by
  refine ⟨_, rfl, by decide +kernel, by decide +kernel, by decide +kernel, ?_⟩
  refine ⟨fun q p h => ⟨2, ?_, h.1, ?_⟩, fun r p h => ⟨1, ?_, h.1, ?_⟩⟩
  all_goals
    obtain ⟨hp, h⟩ := h
    simp at h
  · have : q = 1 := by omega
    subst this
    unfold TorusStep
    decide
  · simp; omega
  · have : r = 2 := by omega
    subst this
    unfold TorusStep
    decide
  · simp; omega

/-- The constructor of the hasher shifts by 64 bits or more for every closed chain of more than 32 qubits, and for every closed lattice of more than 32 rows:
undefined behaviour. -/
theorem C77_refuted_construction {h k : Nat} (hh : 32 < h) (hk : 0 < k) (hn : h * k ≤ 256) : wrapping none h k = none := by
  have hn0 : 0 < h * k := Nat.mul_pos (by omega) hk
  rw [wrapping_make hn]
  unfold Hasher.make
  have hl : lastCount (h * k) = (h * k - 1) % 32 + 1 := by unfold lastCount; rw [if_neg (by omega)]
  obtain ⟨m, hm, -⟩ := maskBits_eq none (k := lastCount (h * k) * 2) (by omega) (by omega)
  rw [hm]
  unfold maskBits shl
  rw [if_neg (by omega), if_neg (by omega)]
  rfl

example : wrapping none 33 1 = none ∧ wrapping none 40 2 = none := by decide +kernel

/-- A closed lattice of four rows and ten columns shifts by 64 bits as soon as a letter is not in the first row: undefined behaviour. -/
theorem C77_refuted_aligned : ∃ H, wrapping none 4 10 = some (some H) ∧ canonical none H [3] = none := ⟨_, rfl, by decide +kernel⟩

end Moment.C77
