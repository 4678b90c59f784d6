import Verif.Model.SiteHash
import Mathlib.Data.List.GetD

/-! # Bits of site hashes: rotation along the chain -/

namespace Moment.SiteHash

/-- Bit of a hash. -/
def bit (D : Datum) (k : Nat) : Bool := (slide D (k / 64)).getLsbD (k % 64)

theorem bit_at (D : Datum) (a : Nat) {b : Nat} (hb : b < 64) : bit D (64 * a + b) = (slide D a).getLsbD b := by
  unfold bit
  rw [Nat.mul_add_div (by decide), Nat.div_eq_of_lt hb, Nat.mul_add_mod, Nat.mod_eq_of_lt hb, Nat.add_zero]

theorem slide_oob {D : Datum} {i : Nat} (h : D.length ≤ i) : slide D i = 0 := by
  unfold slide
  rw [List.getD_eq_default _ _ h]

theorem bit_oob {D : Datum} {k : Nat} (h : 64 * D.length ≤ k) : bit D k = false := by
  unfold bit
  rw [slide_oob (by omega)]
  simp

theorem datum_ext {D E : Datum} (hl : D.length = E.length) (h : ∀ k, bit D k = bit E k) : D = E := by
  refine List.ext_getElem hl fun i h1 h2 => ?_
  have key : ∀ b, b < 64 → D[i].getLsbD b = E[i].getLsbD b := by
    intro b hb
    have := h (64 * i + b)
    rw [bit_at _ _ hb, bit_at _ _ hb] at this
    unfold slide at this
    rw [List.getD_eq_getElem _ _ h1, List.getD_eq_getElem _ _ h2] at this
    exact this
  exact BitVec.eq_of_getLsbD_eq key

theorem slide_map {f : Nat → Page} {s i : Nat} (h : i < s) : slide ((List.range s).map f) i = f i := by
  unfold slide
  rw [List.getD_eq_getElem _ _ (by simpa using h)]
  simp

/-- No letters beyond the last qubit. -/
def Valid (n : Nat) (D : Datum) : Prop := ∀ k, 2 * n ≤ k → bit D k = false

theorem maskBits_eq (wide : Wide) {k : Nat} (h0 : 0 < k) (h : k ≤ 64) : ∃ m, maskBits wide k = some m ∧ ∀ i, m.getLsbD i = decide (i < k) := by
  unfold maskBits
  by_cases hk : k = 64
  · subst hk
    refine ⟨BitVec.allOnes 64, by simp, fun i => ?_⟩
    exact BitVec.getLsbD_allOnes
  · rw [if_neg (by omega)]
    unfold shl
    rw [if_pos (by omega)]
    refine ⟨(1 : Page) <<< k - 1, rfl, fun i => ?_⟩
    have h1 : ((1 : Page) <<< k).toNat = 2 ^ k := by
      rw [BitVec.toNat_shiftLeft]
      have : (1 : Page).toNat = 1 := rfl
      rw [this, Nat.one_shiftLeft, Nat.mod_eq_of_lt]
      exact Nat.pow_lt_pow_right (by decide) (by omega)
    have hp : 0 < 2 ^ k := Nat.two_pow_pos k
    have h2 : ((1 : Page) <<< k - 1).toNat = 2 ^ k - 1 := by
      have hlt := ((1 : Page) <<< k).isLt
      rw [h1] at hlt
      rw [BitVec.toNat_sub, h1]
      have : (1 : Page).toNat = 1 := rfl
      rw [this]
      omega
    rw [← BitVec.testBit_toNat, h2, Nat.testBit_two_pow_sub_one]

/-- The rotation of the first `n` qubits by `o ≤ n`. -/
def Rotated (n o : Nat) (D E : Datum) : Prop :=
  E.length = D.length ∧ ∀ i, bit E i = (decide (i < 2 * n) && bit D ((i + 2 * (n - o)) % (2 * n)))

theorem rotated_of_parts {n o : Nat} {D E : Datum} (hv : Valid n D) (ho : o ≤ n) (hl : E.length = D.length)
    (h : ∀ i, bit E i = (decide (i < 2 * n) && ((decide (2 * o ≤ i) && bit D (i - 2 * o)) || bit D (i + 2 * (n - o))))) : Rotated n o D E := by
  refine ⟨hl, fun i => ?_⟩
  rw [h]
  by_cases hi : i < 2 * n
  · simp only [hi, decide_true, Bool.true_and]
    by_cases hio : 2 * o ≤ i
    · rw [hv (i + 2 * (n - o)) (by omega)]
      have : (i + 2 * (n - o)) % (2 * n) = i - 2 * o := by
        have : i + 2 * (n - o) = i - 2 * o + 2 * n := by omega
        rw [this, Nat.add_mod_right, Nat.mod_eq_of_lt (by omega)]
      simp [hio, this]
    · rw [Nat.mod_eq_of_lt (by omega)]
      simp [hio]
  · simp [hi]

theorem rotated_zero {n : Nat} {D : Datum} (hv : Valid n D) : Rotated n 0 D D := by
  refine rotated_of_parts hv (Nat.zero_le _) rfl fun i => ?_
  by_cases hi : i < 2 * n
  · rw [hv (i + 2 * (n - 0)) (by omega)]
    simp [hi]
  · simp [hi, hv i (by omega)]

theorem rotated_full {n : Nat} {D : Datum} (hv : Valid n D) : Rotated n n D D := by
  refine rotated_of_parts hv (Nat.le_refl _) rfl fun i => ?_
  by_cases hi : i < 2 * n
  · simp [hi, Nat.not_le.mpr hi]
  · simp [hi, hv i (by omega)]

theorem Rotated.valid {n o : Nat} {D E : Datum} (h : Rotated n o D E) : Valid n E := by
  intro k hk
  rw [h.2]
  simp [Nat.not_lt.mpr hk]

/-- The number of slides fits, and the mask of the last slide is as constructed. -/
structure Fits (H : Hasher) : Prop where
  pos : 0 < H.qubits
  low : 32 * (H.slides - 1) < H.qubits
  high : H.qubits ≤ 32 * H.slides
  mask : ∀ i, i < 64 → H.finalMask.getLsbD i = decide (64 * (H.slides - 1) + i < 2 * H.qubits)

theorem cyclic1_rotated {wide : Wide} {H : Hasher} (hf : Fits H) (hs : H.slides = 1) {D : Datum} (hl : D.length = 1) (hv : Valid H.qubits D) {o : Nat}
    (ho : o ≤ H.qubits) : ∃ E, cyclic1 wide H D o = some E ∧ Rotated H.qubits o D E := by
  have hhigh := hf.high
  rw [hs] at hhigh
  have hpos := hf.pos
  unfold cyclic1
  dsimp only
  by_cases h0 : o % 32 = 0
  · rw [if_pos (by omega)]
    refine ⟨D, rfl, ?_⟩
    have : o = 0 ∨ (o = 32 ∧ H.qubits = 32) := by omega
    rcases this with rfl | ⟨rfl, e⟩
    · exact rotated_zero hv
    · have := rotated_full hv
      rwa [e] at this ⊢
  · have hlt : o < 32 := by omega
    rw [if_neg (by omega), Nat.mod_eq_of_lt hlt]
    have hsub : sub64 (2 * H.qubits) (2 * o) = 2 * (H.qubits - o) := by unfold sub64; omega
    rw [hsub]
    unfold shr
    rw [if_pos (by omega)]
    refine ⟨_, rfl, rotated_of_parts hv ho (by simp [hl]) fun i => ?_⟩
    by_cases hi : i < 64
    · have e1 : ∀ x : Page, bit [x] i = x.getLsbD i := by
        intro x
        have := bit_at [x] 0 hi
        simpa [slide] using this
      have e2 : ∀ j, j < 64 → (slide D 0).getLsbD j = bit D j := by
        intro j hj
        have := bit_at D 0 hj
        simpa using this.symm
      have e3 : (slide D 0).getLsbD (2 * (H.qubits - o) + i) = bit D (i + 2 * (H.qubits - o)) := by
        by_cases hj : 2 * (H.qubits - o) + i < 64
        · rw [e2 _ hj, Nat.add_comm]
        · rw [BitVec.getLsbD_of_ge _ _ (by omega), bit_oob (by omega)]
      have hm := hf.mask i hi
      rw [hs] at hm
      rw [e1]
      simp only [BitVec.getLsbD_or, BitVec.getLsbD_and, BitVec.getLsbD_shiftLeft, BitVec.getLsbD_ushiftRight, hm, e3, hi, decide_true, Bool.true_and]
      by_cases hin : i < 2 * H.qubits
      · by_cases hio : i < 2 * o
        · simp [hin, hio, Nat.not_le.mpr hio]
        · rw [e2 _ (by omega)]
          simp [hin, hio, Nat.not_lt.mp hio]
      · rw [hv (i + 2 * (H.qubits - o)) (by omega)]
        simp [hin]
    · rw [bit_oob (by simp; omega)]
      simp [show ¬ i < 2 * H.qubits by omega]

theorem cyclic2_rotated {H : Hasher} (hf : Fits H) (hs : H.slides = 2) {D : Datum} (hl : D.length = 2) (hv : Valid H.qubits D) {o : Nat}
    (ho : o ≤ H.qubits) : Rotated H.qubits o D (cyclic2 H D o) := by
  have hhigh := hf.high
  have hlow := hf.low
  rw [hs] at hhigh hlow
  unfold cyclic2
  dsimp only
  by_cases h0 : o % H.qubits = 0
  · rw [if_pos h0]
    have : o = 0 ∨ o = H.qubits := by
      rcases Nat.lt_or_ge o H.qubits with h | h
      · rw [Nat.mod_eq_of_lt h] at h0
        exact .inl h0
      · exact .inr (by omega)
    rcases this with rfl | rfl
    · exact rotated_zero hv
    · exact rotated_full hv
  · have hlt : o < H.qubits := by
      rcases Nat.lt_or_ge o H.qubits with h | h
      · exact h
      · have : o = H.qubits := by omega
        subst this
        simp at h0
    rw [if_neg h0, Nat.mod_eq_of_lt hlt]
    rw [Nat.mod_eq_of_lt hlt] at h0
    generalize hn : H.qubits = n at *
    have b0 : ∀ j, (slide D 0).getLsbD j = (decide (j < 64) && bit D j) := by
      intro j
      by_cases hj : j < 64
      · have := bit_at D 0 hj
        simp only [Nat.mul_zero, Nat.zero_add] at this
        simp [hj, this]
      · rw [BitVec.getLsbD_of_ge _ _ (by omega)]
        simp [hj]
    have b1 : ∀ j, (slide D 1).getLsbD j = bit D (64 + j) := by
      intro j
      by_cases hj : j < 64
      · exact (bit_at D 1 hj).symm
      · rw [BitVec.getLsbD_of_ge _ _ (by omega), bit_oob (by omega)]
    refine rotated_of_parts hv ho (by simp [hl]) fun i => ?_
    have hv' := hv
    unfold Valid at hv'
    rcases Nat.lt_or_ge i 64 with hi | hi
    · -- the first slide
      have e : ∀ x y : Page, bit [x, y] i = x.getLsbD i := by
        intro x y
        have := bit_at [x, y] 0 hi
        simpa [slide] using this
      rw [e]
      have hin : i < 2 * n := by omega
      simp only [hin, decide_true, Bool.true_and]
      have hA : (if o < 32 then (slide D 0 <<< (2 * o), slide D 0 >>> (64 - 2 * o) ||| slide D 1 <<< (2 * o)) else
          ((0 : Page), slide D 0 <<< (2 * (o - 32)))).1.getLsbD i = (decide (2 * o ≤ i) && bit D (i - 2 * o)) := by
        split
        · simp only [BitVec.getLsbD_shiftLeft, hi, decide_true, Bool.true_and, b0]
          by_cases hio : i < 2 * o
          · simp [hio]; omega
          · simp [hio, Nat.not_lt.mp hio, show i - 2 * o < 64 by omega]
        · simp [show ¬ 2 * o ≤ i by omega]
      rw [← hA]
      split
      · simp only [BitVec.getLsbD_or, BitVec.getLsbD_shiftLeft, BitVec.getLsbD_ushiftRight, hi, decide_true, Bool.true_and, b0, b1]
        congr 1
        by_cases hj : (n - o) * 2 + i < 64
        · simp [hj, show i < 64 - (n - o) * 2 by omega, show (n - o) * 2 + i = i + 2 * (n - o) by omega]; omega
        · simp [hj, show ¬ i < 64 - (n - o) * 2 by omega, show 64 + (i - (64 - (n - o) * 2)) = i + 2 * (n - o) by omega]
      · simp only [BitVec.getLsbD_or, BitVec.getLsbD_ushiftRight, b1]
        congr 2
        omega
    · rcases Nat.lt_or_ge i 128 with hi2 | hi2
      · obtain ⟨j, rfl⟩ := Nat.exists_eq_add_of_le hi
        have hj : j < 64 := by omega
        have e : ∀ x y : Page, bit [x, y] (64 + j) = y.getLsbD j := by
          intro x y
          have := bit_at [x, y] 1 hj
          simpa [slide] using this
        have hm := hf.mask j hj
        rw [hs, hn] at hm
        rw [e, BitVec.getLsbD_and, hm, Bool.and_comm]
        have : decide (64 * (2 - 1) + j < 2 * n) = decide (64 + j < 2 * n) := rfl
        rw [this]
        by_cases hjn : 64 + j < 2 * n
        · simp only [hjn, decide_true, Bool.true_and]
          have hA : (if o < 32 then (slide D 0 <<< (2 * o), slide D 0 >>> (64 - 2 * o) ||| slide D 1 <<< (2 * o)) else
              ((0 : Page), slide D 0 <<< (2 * (o - 32)))).2.getLsbD j = (decide (2 * o ≤ 64 + j) && bit D (64 + j - 2 * o)) := by
            split
            · simp only [BitVec.getLsbD_or, BitVec.getLsbD_shiftLeft, BitVec.getLsbD_ushiftRight, hj, decide_true, Bool.true_and, b0, b1]
              by_cases hjo : j < 2 * o
              · simp [hjo, show 64 - 2 * o + j < 64 by omega, show 2 * o ≤ 64 + j by omega, show 64 - 2 * o + j = 64 + j - 2 * o by omega]; omega
              · simp [hjo, show ¬ 64 - 2 * o + j < 64 by omega, show 2 * o ≤ 64 + j by omega, show 64 + (j - 2 * o) = 64 + j - 2 * o by omega]
            · simp only [BitVec.getLsbD_shiftLeft, hj, decide_true, Bool.true_and, b0]
              by_cases hjo : j < 2 * (o - 32)
              · simp [hjo, show ¬ 2 * o ≤ 64 + j by omega]
              · simp [hjo, show j - 2 * (o - 32) < 64 by omega, show 2 * o ≤ 64 + j by omega, show 64 + j - 2 * o = j - 2 * (o - 32) by omega]
          rw [← hA]
          split
          · simp only [BitVec.getLsbD_or, BitVec.getLsbD_ushiftRight, b1]
            congr 2
            omega
          · rw [hv (64 + j + 2 * (n - o)) (by omega)]
            simp
        · simp [hjn]
      · rw [bit_oob (by simp; omega)]
        simp [show ¬ i < 2 * n by omega]

theorem page_add_or {x y : Page} (h : ∀ i, i < 64 → (x.getLsbD i && y.getLsbD i) = false) : x + y = x ||| y := by
  refine BitVec.add_eq_or_of_and_eq_zero x y ?_
  refine BitVec.eq_of_getLsbD_eq fun i hi => ?_
  rw [BitVec.getLsbD_and, h i hi]
  simp

theorem front_bit (D : Datum) {o : Nat} {a b : Nat} (hb : b < 64) :
    (front D o a).getLsbD b = (decide (2 * o ≤ 64 * a + b) && bit D (64 * a + b - 2 * o)) := by
  unfold front
  dsimp only
  have ho := Nat.div_add_mod o 32
  have hk : o % 32 < 32 := Nat.mod_lt _ (by decide)
  generalize o / 32 = s at *
  generalize o % 32 = k at *
  subst ho
  split
  · simp [show ¬ 2 * (32 * s + k) ≤ 64 * a + b by omega]
  · next h1 =>
    split
    · next h2 =>
      have : 64 * a + b - 2 * (32 * s + k) = 64 * (a - s) + b := by omega
      rw [this, bit_at _ _ hb]
      simp [show 2 * (32 * s + k) ≤ 64 * a + b by omega]
    · next h2 =>
      split
      · next h3 =>
        subst h3
        rw [BitVec.getLsbD_shiftLeft]
        by_cases hbk : b < k * 2
        · simp [hbk, show ¬ 2 * (32 * a + k) ≤ 64 * a + b by omega]
        · have : 64 * a + b - 2 * (32 * a + k) = 64 * 0 + (b - k * 2) := by omega
          rw [this, bit_at _ _ (by omega)]
          simp [hb, hbk, show 2 * (32 * a + k) ≤ 64 * a + b by omega]
      · next h3 =>
        have hor : (slide D (a - s)) <<< (k * 2) + (slide D (a - s - 1)) >>> (64 - k * 2) =
            (slide D (a - s)) <<< (k * 2) ||| (slide D (a - s - 1)) >>> (64 - k * 2) := by
          refine page_add_or fun i hi => ?_
          rw [BitVec.getLsbD_shiftLeft, BitVec.getLsbD_ushiftRight]
          by_cases hik : i < k * 2
          · simp [hik]
          · rw [BitVec.getLsbD_of_ge (slide D (a - s - 1)) _ (by omega)]
            simp
        rw [hor, BitVec.getLsbD_or, BitVec.getLsbD_shiftLeft, BitVec.getLsbD_ushiftRight]
        by_cases hbk : b < k * 2
        · have : 64 * a + b - 2 * (32 * s + k) = 64 * (a - s - 1) + (64 - k * 2 + b) := by omega
          rw [this, bit_at _ _ (by omega)]
          simp [hbk, show 2 * (32 * s + k) ≤ 64 * a + b by omega]
        · have : 64 * a + b - 2 * (32 * s + k) = 64 * (a - s) + (b - k * 2) := by omega
          rw [this, bit_at _ _ (by omega), BitVec.getLsbD_of_ge (slide D (a - s - 1)) _ (by omega)]
          simp [hb, hbk, show 2 * (32 * s + k) ≤ 64 * a + b by omega]

theorem back_bit {slides : Nat} {D : Datum} (hl : D.length = slides) {o : Nat} {a b : Nat} (hb : b < 64) :
    (back slides D o a).getLsbD b = bit D (64 * a + b + 2 * o) := by
  unfold back
  dsimp only
  have ho := Nat.div_add_mod o 32
  have hk : o % 32 < 32 := Nat.mod_lt _ (by decide)
  generalize o / 32 = s at *
  generalize o % 32 = k at *
  subst ho
  split
  · rw [bit_oob (by omega)]
    simp
  · next h1 =>
    split
    · next h2 =>
      have : 64 * a + b + 2 * (32 * s + k) = 64 * (a + s) + b := by omega
      rw [this, bit_at _ _ hb]
    · next h2 =>
      have main : ((slide D (a + s)) >>> (k * 2) ||| (slide D (a + s + 1)) <<< (64 - k * 2)).getLsbD b = bit D (64 * a + b + 2 * (32 * s + k)) := by
        rw [BitVec.getLsbD_or, BitVec.getLsbD_shiftLeft, BitVec.getLsbD_ushiftRight]
        by_cases hbk : k * 2 + b < 64
        · have : 64 * a + b + 2 * (32 * s + k) = 64 * (a + s) + (k * 2 + b) := by omega
          rw [this, bit_at _ _ hbk]
          simp [show b < 64 - k * 2 by omega]
        · have : 64 * a + b + 2 * (32 * s + k) = 64 * (a + s + 1) + (b - (64 - k * 2)) := by omega
          rw [this, bit_at _ _ (by omega), BitVec.getLsbD_of_ge (slide D (a + s)) _ (by omega)]
          simp [hb, show ¬ b < 64 - k * 2 by omega]
      split
      · exact main
      · next h3 =>
        rw [← main, slide_oob (i := a + s + 1) (by omega)]
        have : slides - 1 = a + s := by omega
        rw [this]
        simp

theorem cyclicN_rotated {H : Hasher} (hf : Fits H) {D : Datum} (hl : D.length = H.slides) (hv : Valid H.qubits D) {o : Nat}
    (ho : o ≤ H.qubits) : Rotated H.qubits o D (cyclicN H D o) := by
  have hhigh := hf.high
  have hlow := hf.low
  have hpos := hf.pos
  unfold cyclicN
  dsimp only
  by_cases h0 : o % H.qubits = 0
  · rw [if_pos h0]
    have : o = 0 ∨ o = H.qubits := by
      rcases Nat.lt_or_ge o H.qubits with h | h
      · rw [Nat.mod_eq_of_lt h] at h0
        exact .inl h0
      · exact .inr (by omega)
    rcases this with rfl | rfl
    · exact rotated_zero hv
    · exact rotated_full hv
  · have hlt : o < H.qubits := by
      rcases Nat.lt_or_ge o H.qubits with h | h
      · exact h
      · have : o = H.qubits := by omega
        subst this
        simp at h0
    rw [if_neg h0, Nat.mod_eq_of_lt hlt]
    refine rotated_of_parts hv ho (by simp [hl]) fun i => ?_
    rcases Nat.lt_or_ge (i / 64) H.slides with hi | hi
    · have e := Nat.div_add_mod i 64
      have hb : i % 64 < 64 := Nat.mod_lt _ (by decide)
      generalize i / 64 = a at *
      generalize i % 64 = b at *
      subst e
      rw [bit_at _ _ hb, slide_map hi]
      have key : (front D o a ||| back H.slides D (H.qubits - o) a).getLsbD b =
          ((decide (2 * o ≤ 64 * a + b) && bit D (64 * a + b - 2 * o)) || bit D (64 * a + b + 2 * (H.qubits - o))) := by
        rw [BitVec.getLsbD_or, front_bit D hb, back_bit hl hb]
      split
      · next h1 =>
        rw [BitVec.getLsbD_and, key, hf.mask b hb, Bool.and_comm, h1]
      · next h1 =>
        rw [key]
        simp [show 64 * a + b < 2 * H.qubits by omega]
    · rw [bit_oob (by simp; omega)]
      simp [show ¬ i < 2 * H.qubits by omega]

/-- Rotation along the chain. -/
theorem cyclic_rotated {wide : Wide} {H : Hasher} (hf : Fits H) {D : Datum} (hl : D.length = H.slides) (hv : Valid H.qubits D) {o : Nat}
    (ho : o ≤ H.qubits) : ∃ E, cyclic wide H D o = some E ∧ Rotated H.qubits o D E := by
  unfold cyclic
  split
  · next h1 => exact cyclic1_rotated hf h1 (by rw [hl, h1]) hv ho
  · split
    · next h2 => exact ⟨_, rfl, cyclic2_rotated hf h2 (by rw [hl, h2]) hv ho⟩
    · exact ⟨_, rfl, cyclicN_rotated hf hl hv ho⟩

end Moment.SiteHash
