import Verif.Proof.SiteBits

/-! # Bits of site hashes: rotation within the columns -/

namespace Moment.SiteHash

/-- A bit after the rotation of the rows of a lattice of column height `h`. -/
def turned (h o : Nat) (D : Datum) (i : Nat) : Bool := bit D (2 * h * (i / (2 * h)) + (i % (2 * h) + 2 * (h - o)) % (2 * h))

/-- The rotation of the rows by `o ≤ h`. -/
def Turned (h k o : Nat) (D E : Datum) : Prop :=
  E.length = D.length ∧ ∀ i, bit E i = (decide (i < 2 * h * k) && turned h o D i)

theorem turned_column {h o c i : Nat} (hi : i < 2 * h) (D : Datum) :
    turned h o D (2 * h * c + i) = bit D (2 * h * c + (i + 2 * (h - o)) % (2 * h)) := by
  unfold turned
  rw [Nat.mul_add_div (by omega), Nat.div_eq_of_lt hi, Nat.mul_add_mod, Nat.mod_eq_of_lt hi, Nat.add_zero]

theorem foldlM_inv {α β : Type} {f : α → β → Option α} {P : Nat → α → Prop} : ∀ (l : List β) (c : Nat) (a : α), P c a →
    (∀ j (hj : j < l.length) x, P (c + j) x → ∃ y, f x l[j] = some y ∧ P (c + j + 1) y) → ∃ y, l.foldlM f a = some y ∧ P (c + l.length) y
  | [], c, a, h, _ => ⟨a, rfl, h⟩
  | b :: l, c, a, h, step => by
    obtain ⟨y, hy, hP⟩ := step 0 (by simp) a h
    simp only [List.getElem_cons_zero] at hy
    obtain ⟨z, hz, hQ⟩ := foldlM_inv (f := f) (P := P) l (c + 1) y hP (fun j hj x hx => by
      have := step (j + 1) (by simpa using hj) x (by rwa [show c + (j + 1) = c + 1 + j by omega])
      simpa [show c + (j + 1) + 1 = c + 1 + j + 1 by omega] using this)
    refine ⟨z, ?_, by simpa [show c + (l.length + 1) = c + 1 + l.length by omega] using hQ⟩
    rw [List.foldlM_cons, hy]
    exact hz

theorem rotate_spec {wide : Wide} {H : Hasher} (hm : ∀ i, H.columnMask.getLsbD i = decide (i < 2 * H.height)) {x : Page} {o : Nat} (ho : 0 < o)
    (hoh : o ≤ H.height) (hh : H.height ≤ 32) (ho64 : o < 32) {g : Nat → Bool} (hx : ∀ i, x.getLsbD i = (decide (i < 2 * H.height) && g i)) :
    ∃ y, rotate wide H x (2 * o) = some y ∧ ∀ i, y.getLsbD i = (decide (i < 2 * H.height) && g ((i + 2 * (H.height - o)) % (2 * H.height))) := by
  unfold rotate shl
  rw [if_pos (by omega)]
  have hs : sub64 (H.height * 2) (2 * o) = 2 * (H.height - o) := by unfold sub64; omega
  rw [hs]
  unfold shr
  rw [if_pos (by omega)]
  refine ⟨_, rfl, fun i => ?_⟩
  simp only [BitVec.getLsbD_and, BitVec.getLsbD_or, BitVec.getLsbD_shiftLeft, BitVec.getLsbD_ushiftRight, hm, hx]
  by_cases hi : i < 2 * H.height
  · by_cases hio : i < 2 * o
    · rw [Nat.mod_eq_of_lt (by omega)]
      rw [Nat.add_comm i]
      simp [hi, hio, show 2 * (H.height - o) + i < 2 * H.height by omega]
    · have : (i + 2 * (H.height - o)) % (2 * H.height) = i - 2 * o := by
        rw [show i + 2 * (H.height - o) = i - 2 * o + 2 * H.height by omega, Nat.add_mod_right, Nat.mod_eq_of_lt (by omega)]
      rw [this]
      simp [hi, hio, show i < 64 by omega, show i - 2 * o < 2 * H.height by omega, show ¬ 2 * (H.height - o) + i < 2 * H.height by omega]
  · simp [hi]

/-- The masks of columns are as constructed. -/
structure Columns (H : Hasher) : Prop where
  pos : 0 < H.height
  high : H.height ≤ 32
  mask : ∀ i, H.columnMask.getLsbD i = decide (i < 2 * H.height)

theorem col_bound {h c k : Nat} (hc : c < k) : 2 * h * c + 2 * h ≤ 2 * h * k := by
  calc 2 * h * c + 2 * h = 2 * h * (c + 1) := by rw [Nat.mul_add, Nat.mul_one]
    _ ≤ 2 * h * k := Nat.mul_le_mul_left _ hc

/-- Adding the rotated word of the next column. -/
theorem turned_step {h o c : Nat} {D : Datum} {old new y : Nat → Bool} (h1 : ∀ i, old i = (decide (i < 2 * h * c) && turned h o D i))
    (h2 : ∀ i, y i = (decide (i < 2 * h) && bit D (2 * h * c + (i + 2 * (h - o)) % (2 * h))))
    (h3 : ∀ i, new i = (old i || (decide (2 * h * c ≤ i) && y (i - 2 * h * c)))) (i : Nat) :
    new i = (decide (i < 2 * h * (c + 1)) && turned h o D i) := by
  rw [h3, h1, h2]
  have e : 2 * h * (c + 1) = 2 * h * c + 2 * h := by rw [Nat.mul_add, Nat.mul_one]
  rw [e]
  by_cases hi : i < 2 * h * c
  · simp [hi, Nat.not_le.mpr hi, show i < 2 * h * c + 2 * h by omega]
  · obtain ⟨j, rfl⟩ := Nat.exists_eq_add_of_le (Nat.not_lt.mp hi)
    by_cases hj : j < 2 * h
    · rw [turned_column hj]
      simp [hj]
    · simp [hj, hi]

theorem turned_zero {h k : Nat} (hh : 0 < h) {D : Datum} (hv : Valid (h * k) D) : Turned h k 0 D D := by
  refine ⟨rfl, fun i => ?_⟩
  unfold turned
  have hpos : 0 < 2 * h := by omega
  have : (i % (2 * h) + 2 * (h - 0)) % (2 * h) = i % (2 * h) := by
    rw [Nat.sub_zero, Nat.add_mod_right, Nat.mod_mod]
  rw [this, Nat.div_add_mod]
  by_cases hi : i < 2 * h * k
  · simp [hi]
  · rw [hv i (by rw [← Nat.mul_assoc]; omega)]
    simp

theorem rows1_turned {wide : Wide} {H : Hasher} (hf : Fits H) (hc : Columns H) (hs : H.slides = 1) {D : Datum} (hl : D.length = 1)
    (hv : Valid H.qubits D) (o : Nat) : ∃ E, rows1 wide H D o = some E ∧ Turned H.height H.width (o % H.height) D E := by
  have hlt : o % H.height < H.height := Nat.mod_lt _ hc.pos
  unfold rows1
  dsimp only
  by_cases h0 : o % H.height = 0
  · rw [if_pos h0, h0]
    exact ⟨D, rfl, turned_zero hc.pos hv⟩
  · rw [if_neg h0]
    have hq : 2 * H.height * H.width ≤ 64 := by
      have := hf.high
      rw [hs] at this
      unfold Hasher.qubits at this
      rw [Nat.mul_assoc]
      omega
    generalize o % H.height = r at *
    have b0 : ∀ j, (slide D 0).getLsbD j = bit D j := by
      intro j
      by_cases hj : j < 64
      · simpa using (bit_at D 0 hj).symm
      · rw [BitVec.getLsbD_of_ge _ _ (by omega), bit_oob (by omega)]
    obtain ⟨y, hy, hP⟩ := foldlM_inv (f := fun (out : Page) (c : Nat) =>
        (shr wide (slide D 0) (c * H.height * 2)).bind fun x => (rotate wide H (x &&& H.columnMask) (2 * r)).bind fun y =>
        (shl wide y (c * H.height * 2)).map fun z => out ||| z) (P := fun c (out : Page) =>
          ∀ i, out.getLsbD i = (decide (i < 2 * H.height * c) && turned H.height r D i)) (List.range H.width) 0 0 (by simp) (by
      intro c hc' x hx
      simp only [Nat.zero_add, List.length_range, List.getElem_range] at hc' hx ⊢
      have hb := col_bound (h := H.height) hc'
      have hpos := hc.pos
      have e : c * H.height * 2 = 2 * H.height * c := by rw [Nat.mul_comm c, Nat.mul_comm _ 2, Nat.mul_assoc]
      rw [e]
      unfold shr
      rw [if_pos (by omega), Option.bind_some]
      obtain ⟨y, hy, hbits⟩ := rotate_spec (wide := wide) hc.mask (x := ((slide D 0) >>> (2 * H.height * c)) &&& H.columnMask) (by omega)
        (Nat.le_of_lt hlt) hc.high (by have := hc.high; omega) (g := fun i => bit D (2 * H.height * c + i)) (fun i => by
          rw [BitVec.getLsbD_and, BitVec.getLsbD_ushiftRight, hc.mask, b0, Bool.and_comm])
      rw [hy, Option.bind_some]
      unfold shl
      rw [if_pos (by omega)]
      refine ⟨_, rfl, turned_step hx hbits fun i => ?_⟩
      rw [BitVec.getLsbD_or, BitVec.getLsbD_shiftLeft]
      by_cases hi : i < 64
      · by_cases hic : i < 2 * H.height * c
        · simp [hic, Nat.not_le.mpr hic]
        · simp [hi, hic, Nat.not_lt.mp hic]
      · rw [hbits (i - 2 * H.height * c)]
        simp [hi, show ¬ i - 2 * H.height * c < 2 * H.height by omega])
    rw [hy]
    refine ⟨_, rfl, by simp [hl], fun i => ?_⟩
    simp only [Nat.zero_add, List.length_range] at hP
    rw [← hP]
    by_cases hi : i < 64
    · simpa [slide] using bit_at [y] 0 hi
    · rw [bit_oob (by simp; omega), BitVec.getLsbD_of_ge _ _ (by omega)]

/-- One round of the loops over whole columns of a slide, that begins at bit `base`. -/
theorem column_step {wide : Wide} {H : Hasher} (hc : Columns H) {D : Datum} {x : Page} {base r c : Nat} (h0 : 0 < r) (hr : r < H.height)
    (hx : ∀ i, i < 64 → x.getLsbD i = bit D (base + i)) (h1 : base ≤ 2 * H.height * c) (h2 : 2 * H.height * c + 2 * H.height ≤ base + 64) (out : Page) :
    ∃ z, column wide H x (2 * H.height * c - base) r out = some z ∧ ∀ i, z.getLsbD i = (out.getLsbD i ||
      (decide (2 * H.height * c - base ≤ i ∧ i < 2 * H.height * c - base + 2 * H.height) &&
        bit D (2 * H.height * c + (i - (2 * H.height * c - base) + 2 * (H.height - r)) % (2 * H.height)))) := by
  have hpos := hc.pos
  unfold column
  unfold shr
  rw [if_pos (by omega), Option.bind_some]
  obtain ⟨y, hy, hbits⟩ := rotate_spec (wide := wide) hc.mask (x := (x >>> (2 * H.height * c - base)) &&& H.columnMask) h0
    (Nat.le_of_lt hr) hc.high (by have := hc.high; omega) (g := fun i => bit D (2 * H.height * c + i)) (fun i => by
      rw [BitVec.getLsbD_and, BitVec.getLsbD_ushiftRight, hc.mask, Bool.and_comm]
      by_cases hi : i < 2 * H.height
      · rw [hx _ (by omega), show base + (2 * H.height * c - base + i) = 2 * H.height * c + i by omega]
      · simp [hi])
  rw [hy, Option.bind_some]
  unfold shl
  rw [if_pos (by omega)]
  refine ⟨_, rfl, fun i => ?_⟩
  rw [BitVec.getLsbD_or, BitVec.getLsbD_shiftLeft, hbits]
  congr 1
  by_cases ha : i < 2 * H.height * c - base
  · simp [ha, Nat.not_le.mpr ha]
  · by_cases hb : i < 2 * H.height * c - base + 2 * H.height
    · simp [ha, hb, show i < 64 by omega, show 2 * H.height * c - base ≤ i by omega,
        show i - (2 * H.height * c - base) < 2 * H.height by omega]
    · simp [ha, hb, show ¬ i - (2 * H.height * c - base) < 2 * H.height by omega]

/-- What shifts by 64 bits give does not matter for this column height. -/
def WideOK (wide : Wide) (h : Nat) : Prop := 32 % h ≠ 0 ∨ ∃ f, wide = some f ∧ f 0 = 0

/-- The column that contains the boundary of two slides. -/
theorem boundary_spec {wide : Wide} {h : Nat} (hpos : 0 < h) (hh : h ≤ 32) (hw : WideOK wide h) :
    ∃ B, boundary wide h = some B ∧ B.wrap = 32 / h ∧
      (∀ D : Datum, ∃ m, B.evaluate wide D = some m ∧ ∀ i, m.getLsbD i = (decide (i < 2 * h) && bit D (2 * h * (32 / h) + i))) ∧
      ∀ (out : Page × Page) (y : Page), (∀ i, 2 * h ≤ i → y.getLsbD i = false) → ∃ z, B.splice wide out y = some z ∧
        ∀ i, i < 128 → bit [z.1, z.2] i = (bit [out.1, out.2] i || (decide (2 * h * (32 / h) ≤ i) && y.getLsbD (i - 2 * h * (32 / h)))) := by
  have hdiv := Nat.div_add_mod 32 h
  have hlt : 32 % h < h := Nat.mod_lt _ hpos
  have e64 : 2 * h * (32 / h) = 64 - 2 * (32 % h) := by rw [Nat.mul_assoc]; omega
  have p0 : ∀ (x y : Page) (i : Nat), i < 64 → bit [x, y] i = x.getLsbD i := by
    intro x y i hi
    simpa [slide] using bit_at [x, y] 0 hi
  have p1 : ∀ (x y : Page) (i : Nat), i < 64 → bit [x, y] (64 + i) = y.getLsbD i := by
    intro x y i hi
    simpa [slide] using bit_at [x, y] 1 hi
  have d0 : ∀ (D : Datum) (j : Nat), j < 64 → (slide D 0).getLsbD j = bit D j := by
    intro D j hj
    simpa using (bit_at D 0 hj).symm
  have d1 : ∀ (D : Datum) (j : Nat), j < 64 → (slide D 1).getLsbD j = bit D (64 + j) := by
    intro D j hj
    exact (bit_at D 1 hj).symm
  unfold boundary
  rw [if_neg (by omega), e64]
  by_cases hl : 0 < 32 % h
  · rw [if_pos hl]
    obtain ⟨m, hm, hmb⟩ := maskBits_eq wide (k := 2 * (32 - 32 % h)) (by omega) (by omega)
    obtain ⟨r, hr, hrb⟩ := maskBits_eq wide (k := (h - 32 % h) * 2) (by omega) (by omega)
    rw [hm, hr]
    generalize 32 % h = t at *
    refine ⟨_, rfl, rfl, fun D => ?_, fun out y hy => ?_⟩
    · unfold Boundary.evaluate
      dsimp only
      unfold shr shl
      rw [if_pos (by omega), if_pos (by omega)]
      refine ⟨_, rfl, fun i => ?_⟩
      simp only [BitVec.getLsbD_or, BitVec.getLsbD_ushiftRight, BitVec.getLsbD_and, BitVec.getLsbD_not, hmb, BitVec.getLsbD_shiftLeft, hrb]
      by_cases h1 : i < 2 * t
      · rw [d0 _ _ (by omega), show 64 - 2 * t + i = 2 * (32 - t) + i by omega]
        simp [h1, show i < 2 * h by omega, show 2 * (32 - t) + i < 64 by omega]
      · rw [BitVec.getLsbD_of_ge (slide D 0) _ (by omega)]
        by_cases h2 : i < 2 * h
        · rw [d1 _ _ (by omega), show 64 + (i - 2 * t) = 64 - 2 * t + i by omega]
          simp [h1, h2, show i < 64 by omega, show i - 2 * t < (h - t) * 2 by omega]
        · simp [h2, show ¬ i - 2 * t < (h - t) * 2 by omega]
    · unfold Boundary.splice
      dsimp only
      unfold shr shl
      rw [if_pos (by omega), if_pos (by omega)]
      refine ⟨_, rfl, fun i hi => ?_⟩
      dsimp only
      rcases Nat.lt_or_ge i 64 with h1 | h1
      · rw [p0 _ _ _ h1, p0 _ _ _ h1]
        simp only [BitVec.getLsbD_or, BitVec.getLsbD_and, BitVec.getLsbD_not, hmb, BitVec.getLsbD_shiftLeft]
        congr 1
        by_cases h2 : 64 - 2 * t ≤ i
        · simp [h1, h2, show ¬ i < 2 * (32 - t) by omega, show i - 2 * (32 - t) = i - (64 - 2 * t) by omega]
        · simp [h2, show i < 2 * (32 - t) by omega]
      · obtain ⟨j, rfl⟩ := Nat.exists_eq_add_of_le h1
        rw [p1 _ _ _ (by omega), p1 _ _ _ (by omega)]
        simp only [BitVec.getLsbD_or, BitVec.getLsbD_and, BitVec.getLsbD_ushiftRight, hrb]
        congr 1
        rw [show 64 + j - (64 - 2 * t) = 2 * t + j by omega]
        by_cases h2 : j < (h - t) * 2
        · simp [h2]; omega
        · rw [hy _ (by omega)]
          simp
  · rw [if_neg hl]
    have ht : 32 % h = 0 := by omega
    obtain ⟨r, hr, hrb⟩ := maskBits_eq wide (k := h * 2) (by omega) (by omega)
    rw [hr]
    obtain ⟨f, rfl, hf0⟩ : ∃ f, wide = some f ∧ f 0 = 0 := by
      rcases hw with hw | hw
      · exact absurd ht hw
      · exact hw
    refine ⟨_, rfl, rfl, fun D => ?_, fun out y hy => ?_⟩
    · unfold Boundary.evaluate
      dsimp only
      unfold shr shl
      rw [if_neg (by omega), if_pos (by omega)]
      refine ⟨_, rfl, fun i => ?_⟩
      have : slide D 0 &&& (0 : Page) = 0 := by simp
      rw [this]
      dsimp only
      rw [hf0, ht]
      simp only [BitVec.getLsbD_or, BitVec.getLsbD_and, BitVec.getLsbD_shiftLeft, hrb]
      by_cases h2 : i < 2 * h
      · rw [d1 _ _ (by omega)]
        simp [h2, show i < 64 by omega, show i < h * 2 by omega]
      · simp [h2, show ¬ i < h * 2 by omega]
    · unfold Boundary.splice
      dsimp only
      unfold shr shl
      rw [if_neg (by omega), if_pos (by omega)]
      refine ⟨_, rfl, fun i hi => ?_⟩
      dsimp only
      rw [ht]
      rcases Nat.lt_or_ge i 64 with h1 | h1
      · rw [p0 _ _ _ h1, p0 _ _ _ h1]
        simp [show ¬ 64 ≤ i by omega]
      · obtain ⟨j, rfl⟩ := Nat.exists_eq_add_of_le h1
        rw [p1 _ _ _ (by omega), p1 _ _ _ (by omega)]
        simp only [BitVec.getLsbD_or, BitVec.getLsbD_and, BitVec.getLsbD_ushiftRight, hrb]
        congr 1
        by_cases h2 : j < h * 2
        · simp [h2]
        · rw [hy (64 + j - (64 - 2 * 0)) (by omega)]
          simp [h2]

theorem turned_false {h o c : Nat} {D : Datum} {i : Nat} (hi : i / (2 * h) = c) (hh : 0 < h)
    (hz : ∀ j, 2 * h * c ≤ j → j < 2 * h * c + 2 * h → bit D j = false) : turned h o D i = false := by
  unfold turned
  rw [hi]
  have := Nat.mod_lt (i % (2 * h) + 2 * (h - o)) (show 2 * h > 0 by omega)
  exact hz _ (by omega) (by omega)

theorem rows2_turned {wide : Wide} {H : Hasher} (hf : Fits H) (hc : Columns H) (hs : H.slides = 2) {D : Datum} (hl : D.length = 2)
    (hv : Valid H.qubits D) (hw : WideOK wide H.height) (o : Nat) :
    ∃ E, rows2 wide H D o = some E ∧ Turned H.height H.width (o % H.height) D E := by
  have hlt : o % H.height < H.height := Nat.mod_lt _ hc.pos
  unfold rows2
  dsimp only
  by_cases h0 : o % H.height = 0
  · rw [if_pos h0, h0]
    exact ⟨D, rfl, turned_zero hc.pos hv⟩
  rw [if_neg h0]
  have hq : 2 * H.height * H.width ≤ 128 ∧ 64 < 2 * H.height * H.width := by
    have h1 := hf.high
    have h2 := hf.low
    rw [hs] at h1 h2
    unfold Hasher.qubits at h1 h2
    rw [Nat.mul_assoc]
    omega
  have hpos := hc.pos
  have hhigh := hc.high
  generalize o % H.height = r at *
  have d0 : ∀ j, j < 64 → (slide D 0).getLsbD j = bit D j := fun j hj => by simpa using (bit_at D 0 hj).symm
  have d1 : ∀ j, j < 64 → (slide D 1).getLsbD j = bit D (64 + j) := fun j hj => (bit_at D 1 hj).symm
  have p0 : ∀ (x y : Page) (i : Nat), i < 64 → bit [x, y] i = x.getLsbD i := by
    intro x y i hi
    simpa [slide] using bit_at [x, y] 0 hi
  have p1 : ∀ (x y : Page) (i : Nat), i < 64 → bit [x, y] (64 + i) = y.getLsbD i := by
    intro x y i hi
    simpa [slide] using bit_at [x, y] 1 hi
  obtain ⟨B, hB, hwrap, heval, hsplice⟩ := boundary_spec hpos hhigh hw
  rw [hB, Option.bind_some, hwrap]
  have hW : 2 * H.height * (32 / H.height) ≤ 64 ∧ 64 < 2 * H.height * (32 / H.height + 1) := by
    have := Nat.div_add_mod 32 H.height
    have := Nat.mod_lt 32 hpos
    rw [Nat.mul_add, Nat.mul_assoc]
    omega
  have hWk : 32 / H.height < H.width := by
    rcases Nat.lt_or_ge (32 / H.height) H.width with hn | hn
    · exact hn
    · have := Nat.mul_le_mul_left (2 * H.height) hn
      omega
  generalize 32 / H.height = W at *
  have em : ∀ c, c * H.height * 2 = 2 * H.height * c := fun c => by rw [Nat.mul_comm c, Nat.mul_comm _ 2, Nat.mul_assoc]
  -- The columns of the first slide.
  have left : ∃ l : Page, (if slide D 0 = 0 then some 0
      else (List.range W).foldlM (fun out c => column wide H (slide D 0) (c * H.height * 2) r out) (0 : Page)) = some l ∧
      ∀ i, l.getLsbD i = (decide (i < 2 * H.height * W) && turned H.height r D i) := by
    by_cases hz : slide D 0 = 0
    · rw [if_pos hz]
      refine ⟨0, rfl, fun i => ?_⟩
      by_cases hi : i < 2 * H.height * W
      · have hcol : i / (2 * H.height) < W := Nat.div_lt_of_lt_mul hi
        have := col_bound (h := H.height) hcol
        rw [turned_false rfl hpos (fun j _ h2 => by rw [← d0 j (by omega), hz]; simp)]
        simp
      · simp [hi]
    · rw [if_neg hz]
      obtain ⟨y, hy, hP⟩ := foldlM_inv (f := fun (out : Page) (c : Nat) => column wide H (slide D 0) (c * H.height * 2) r out)
        (P := fun c (out : Page) => ∀ i, out.getLsbD i = (decide (i < 2 * H.height * c) && turned H.height r D i)) (List.range W) 0 0 (by simp) (by
        intro c hc' x hx
        simp only [Nat.zero_add, List.length_range, List.getElem_range] at hc' hx ⊢
        have hb := col_bound (h := H.height) hc'
        obtain ⟨z, hz, hbits⟩ := column_step (wide := wide) hc (D := D) (x := slide D 0) (base := 0) (r := r) (c := c) (by omega) hlt
          (fun i hi => by rw [d0 i hi, Nat.zero_add]) (by omega) (by omega) x
        rw [em c]
        refine ⟨z, hz, turned_step hx (y := fun i => decide (i < 2 * H.height) && bit D (2 * H.height * c + (i + 2 * (H.height - r)) % (2 * H.height)))
          (fun _ => rfl) fun i => ?_⟩
        rw [hbits, Nat.sub_zero]
        congr 1
        rw [← Bool.and_assoc]
        congr 1
        simp only [← Bool.decide_and, decide_eq_decide]
        omega)
      refine ⟨y, hy, ?_⟩
      simpa using hP
  obtain ⟨l, hl', hlb⟩ := left
  rw [hl', Option.bind_some]
  obtain ⟨m, hm, hmb⟩ := heval D
  rw [hm, Option.bind_some]
  obtain ⟨m', hm', hmb'⟩ := rotate_spec (wide := wide) hc.mask (by omega) (Nat.le_of_lt hlt) hhigh (by omega) (o := r)
    (g := fun i => bit D (2 * H.height * W + i)) hmb
  rw [hm', Option.bind_some]
  obtain ⟨out, hout, hob⟩ := hsplice (l, 0) m' (fun i hi => by rw [hmb']; simp [Nat.not_lt.mpr hi])
  rw [hout, Option.bind_some]
  have mid : ∀ i, i < 128 → bit [out.1, out.2] i = (decide (i < 2 * H.height * (W + 1)) && turned H.height r D i) := by
    intro i hi
    refine turned_step (old := bit [l, 0]) (new := fun i => bit [l, 0] i || (decide (2 * H.height * W ≤ i) && m'.getLsbD (i - 2 * H.height * W)))
      (fun j => ?_) hmb' (fun j => rfl) i |> fun t => (hob i hi).trans t
    rcases Nat.lt_or_ge j 64 with h1 | h1
    · rw [p0 _ _ _ h1, hlb]
    · rw [show decide (j < 2 * H.height * W) = false by simp; omega]
      rcases Nat.lt_or_ge j 128 with h2 | h2
      · obtain ⟨k, rfl⟩ := Nat.exists_eq_add_of_le h1
        rw [p1 _ _ _ (by omega)]
        simp
      · rw [bit_oob (by simpa using h2)]
        simp
  -- The columns of the second slide.
  have right : ∃ q : Page, (if slide D 1 = 0 then some out.2
      else (List.range' (W + 1) (H.width - (W + 1))).foldlM
        (fun out c => column wide H (slide D 1) (sub64 (c * H.height * 2) 64) r out) out.2) = some q ∧
      ∀ i, i < 64 → q.getLsbD i = (decide (64 + i < 2 * H.height * H.width) && turned H.height r D (64 + i)) := by
    by_cases hz : slide D 1 = 0
    · rw [if_pos hz]
      refine ⟨_, rfl, fun i hi => ?_⟩
      rw [← p1 out.1 out.2 i hi, mid _ (by omega)]
      by_cases h1 : 64 + i < 2 * H.height * (W + 1)
      · have := Nat.mul_le_mul_left (2 * H.height) (show W + 1 ≤ H.width from hWk)
        simp [h1, show 64 + i < 2 * H.height * H.width by omega]
      · have hcol : W + 1 ≤ (64 + i) / (2 * H.height) := (Nat.le_div_iff_mul_le (by omega)).mpr (by rw [Nat.mul_comm]; omega)
        have := Nat.mul_le_mul_left (2 * H.height) hcol
        rw [turned_false rfl hpos (fun j h1 _ => by
          rcases Nat.lt_or_ge j 128 with h3 | h3
          · obtain ⟨t, rfl⟩ := Nat.exists_eq_add_of_le (show 64 ≤ j by omega)
            rw [← d1 t (by omega), hz]; simp
          · exact bit_oob (by rw [hl]; omega))]
        simp
    · rw [if_neg hz]
      obtain ⟨y, hy, hP⟩ := foldlM_inv (f := fun (out : Page) (c : Nat) => column wide H (slide D 1) (sub64 (c * H.height * 2) 64) r out)
        (P := fun c (out : Page) => ∀ i, i < 64 → out.getLsbD i = (decide (64 + i < 2 * H.height * c) && turned H.height r D (64 + i)))
        (List.range' (W + 1) (H.width - (W + 1))) (W + 1) out.2 (fun i hi => by rw [← p1 out.1 out.2 i hi, mid _ (by omega)]) (by
        intro c hc' x hx
        simp only [List.length_range', List.getElem_range', Nat.one_mul] at hc' hx ⊢
        have hb := col_bound (h := H.height) (show W + 1 + c < H.width by omega)
        have h64 := Nat.mul_le_mul_left (2 * H.height) (show W + 1 ≤ W + 1 + c by omega)
        generalize W + 1 + c = c at *
        obtain ⟨z, hz, hbits⟩ := column_step (wide := wide) hc (D := D) (x := slide D 1) (base := 64) (r := r) (c := c) (by omega) hlt
          d1 (by omega) (by omega) x
        have hsub : sub64 (c * H.height * 2) 64 = 2 * H.height * c - 64 := by rw [em c]; unfold sub64; omega
        rw [hsub]
        refine ⟨z, hz, fun i hi => ?_⟩
        refine Eq.trans ?_ (turned_step (old := fun j => decide (j < 2 * H.height * c) && turned H.height r D j) (fun _ => rfl)
          (y := fun i => decide (i < 2 * H.height) && bit D (2 * H.height * c + (i + 2 * (H.height - r)) % (2 * H.height)))
          (fun _ => rfl) (fun j => rfl) (64 + i))
        rw [hbits, hx i hi, show i - (2 * H.height * c - 64) = 64 + i - 2 * H.height * c by omega, ← Bool.and_assoc, ← Bool.decide_and]
        have : decide (2 * H.height * c - 64 ≤ i ∧ i < 2 * H.height * c - 64 + 2 * H.height) =
            decide (2 * H.height * c ≤ 64 + i ∧ 64 + i - 2 * H.height * c < 2 * H.height) := decide_eq_decide.mpr (by omega)
        rw [this])
      refine ⟨y, hy, ?_⟩
      rw [List.length_range', show W + 1 + (H.width - (W + 1)) = H.width by omega] at hP
      exact hP
  obtain ⟨q, hq', hqb⟩ := right
  rw [hq']
  refine ⟨_, rfl, by simp [hl], fun i => ?_⟩
  rcases Nat.lt_or_ge i 64 with h1 | h1
  · rw [p0 _ _ _ h1, ← p0 out.1 out.2 i h1, mid _ (by omega)]
    simp [show i < 2 * H.height * (W + 1) by omega, show i < 2 * H.height * H.width by omega]
  · rcases Nat.lt_or_ge i 128 with h2 | h2
    · obtain ⟨k, rfl⟩ := Nat.exists_eq_add_of_le h1
      rw [p1 _ _ _ (by omega), hqb _ (by omega)]
    · rw [bit_oob (by simpa using h2)]
      simp [show ¬ i < 2 * H.height * H.width by omega]

theorem slide_modify (D : Datum) (i j : Nat) (f : Page → Page) (hi : i < D.length) :
    slide (D.modify i f) j = if j = i then f (slide D i) else slide D j := by
  unfold slide
  rw [List.getD_eq_getElem?_getD, List.getElem?_modify]
  by_cases h : i = j
  · subst h
    simp [List.getD_eq_getElem?_getD, hi]
  · simp [h, Ne.symm h, List.getD_eq_getElem?_getD]

theorem slide_set (D : Datum) (i j : Nat) (x : Page) (hi : i < D.length) : slide (D.set i x) j = if j = i then x else slide D j := by
  unfold slide
  rw [List.getD_eq_getElem?_getD, List.getElem?_set]
  by_cases h : i = j
  · subst h
    simp [hi]
  · simp [h, Ne.symm h, List.getD_eq_getElem?_getD]

theorem getElem?_slide {D : Datum} {i : Nat} (h : i < D.length) : D[i]? = some (slide D i) := by
  unfold slide
  rw [List.getD_eq_getElem _ _ h, List.getElem?_eq_getElem h]

theorem columnN_step {wide : Wide} {H : Hasher} (hc : Columns H) {D out : Datum} {r c : Nat} (hl : out.length = D.length) (h0 : 0 < r) (hr : r ≤ H.height)
    (hr32 : r < 32) (hn : 2 * H.height * (c + 1) ≤ 64 * D.length)
    (hout : ∀ i, bit out i = (decide (i < 2 * H.height * c) && turned H.height r D i)) :
    ∃ z, columnN wide H D r out c = some z ∧ z.length = D.length ∧
      ∀ i, bit z i = (decide (i < 2 * H.height * (c + 1)) && turned H.height r D i) := by
  have hpos := hc.pos
  have hhigh := hc.high
  have e1 : (c + 1) * H.height = c * H.height + H.height := by rw [Nat.add_mul, Nat.one_mul]
  have e2 : 2 * H.height * c = 2 * (c * H.height) := by rw [Nat.mul_assoc, Nat.mul_comm c]
  have e3 : 2 * H.height * (c + 1) = 2 * (c * H.height) + 2 * H.height := by rw [Nat.mul_add, Nat.mul_one, e2]
  unfold columnN
  dsimp only
  rw [e1]
  rw [e3] at hn
  have step := fun (new y : Nat → Bool) h2 h3 => turned_step (h := H.height) (o := r) (c := c) (D := D) (old := bit out) (new := new) (y := y) hout h2 h3
  rw [e2] at step hout
  generalize c * H.height = s at *
  have hs := Nat.div_add_mod s 32
  have hsm : s % 32 < 32 := Nat.mod_lt _ (by decide)
  generalize hi : s / 32 = i at *
  generalize ha : s % 32 = a at *
  have hilt : i < D.length := by omega
  have di : ∀ j, j < 64 → (slide D i).getLsbD j = bit D (64 * i + j) := fun j hj => (bit_at D i hj).symm
  by_cases hb : 2 * ((s + H.height) % 32) ≤ 2 * a ∧ 2 * ((s + H.height) % 32) ≠ 0
  · rw [if_pos hb]
    have hba : (s + H.height) % 32 = a + H.height - 32 ∧ 32 < a + H.height := by omega
    rw [hba.1] at hb ⊢
    have hi1 : i + 1 < D.length := by omega
    have dj : ∀ j, j < 64 → (slide D (i + 1)).getLsbD j = bit D (64 * (i + 1) + j) := fun j hj => (bit_at D (i + 1) hj).symm
    rw [getElem?_slide hilt, getElem?_slide hi1, Option.bind_some, Option.bind_some]
    obtain ⟨m, hm, hmb⟩ := maskBits_eq wide (k := 2 * (a + H.height - 32)) (by omega) (by omega)
    rw [hm, Option.bind_some, show (H.height - 2 * (a + H.height - 32) / 2) * 2 = 64 - 2 * a by omega]
    unfold shl
    rw [if_pos (by omega), Option.bind_some]
    obtain ⟨y, hy, hyb⟩ := rotate_spec (wide := wide) hc.mask (o := r)
      (x := ((slide D i >>> (2 * a)) &&& H.columnMask) ||| ((slide D (i + 1) &&& m) <<< (64 - 2 * a))) h0 hr hhigh hr32
      (g := fun j => bit D (2 * s + j)) (fun j => by
        simp only [BitVec.getLsbD_or, BitVec.getLsbD_and, BitVec.getLsbD_ushiftRight, BitVec.getLsbD_shiftLeft, hc.mask, hmb]
        by_cases h1 : j < 64 - 2 * a
        · rw [di _ (by omega), show 64 * i + (2 * a + j) = 2 * s + j by omega]
          simp [h1, show j < 2 * H.height by omega]
        · rw [BitVec.getLsbD_of_ge (slide D i) _ (by omega)]
          by_cases h2 : j < 2 * H.height
          · rw [dj _ (by omega), show 64 * (i + 1) + (j - (64 - 2 * a)) = 2 * s + j by omega]
            simp [h1, h2, show j < 64 by omega]
            omega
          · simp [h2]
            omega)
    rw [hy, Option.bind_some]
    unfold shr
    rw [if_pos (by omega)]
    refine ⟨_, rfl, by simp [hl], step _ (fun j => y.getLsbD j) (fun j => by rw [hyb]) fun k => ?_⟩
    have hz : ∀ q, (slide ((out.modify i fun x => x ||| (y <<< (2 * a))).set (i + 1) (y >>> (64 - 2 * a))) q) =
        if q = i + 1 then y >>> (64 - 2 * a) else if q = i then slide out i ||| (y <<< (2 * a)) else slide out q := by
      intro q
      rw [slide_set _ _ _ _ (by simp; omega), slide_modify _ _ _ _ (by omega)]
    obtain ⟨q, b, hb64, rfl⟩ : ∃ q b, b < 64 ∧ k = 64 * q + b := ⟨k / 64, k % 64, Nat.mod_lt _ (by decide), (Nat.div_add_mod k 64).symm⟩
    rw [bit_at _ _ hb64, hz]
    by_cases hq1 : q = i + 1
    · subst hq1
      rw [if_pos rfl, BitVec.getLsbD_ushiftRight, hout, show 64 * (i + 1) + b - 2 * s = 64 - 2 * a + b by omega]
      simp [show ¬ 64 * (i + 1) + b < 2 * s by omega, show 2 * s ≤ 64 * (i + 1) + b by omega]
    · rw [if_neg hq1]
      by_cases hq : q = i
      · subst hq
        rw [if_pos rfl, BitVec.getLsbD_or, BitVec.getLsbD_shiftLeft, ← bit_at _ _ hb64]
        congr 1
        by_cases h1 : b < 2 * a
        · simp [h1, show ¬ 2 * s ≤ 64 * q + b by omega]
        · rw [show 64 * q + b - 2 * s = b - 2 * a by omega]
          simp [h1, hb64, show 2 * s ≤ 64 * q + b by omega]
      · rw [if_neg hq, ← bit_at _ _ hb64]
        by_cases h1 : 2 * s ≤ 64 * q + b
        · have hqi : i + 2 ≤ q := by omega
          rw [hyb]
          simp [show ¬ 64 * q + b - 2 * s < 2 * H.height by omega]
        · simp [h1]
  · rw [if_neg hb]
    have hba : a + H.height ≤ 32 := by omega
    rw [getElem?_slide hilt, Option.bind_some]
    obtain ⟨y, hy, hyb⟩ := rotate_spec (wide := wide) hc.mask (o := r) (x := (slide D i >>> (2 * a)) &&& H.columnMask) h0 hr hhigh hr32
      (g := fun j => bit D (2 * s + j)) (fun j => by
        simp only [BitVec.getLsbD_and, BitVec.getLsbD_ushiftRight, hc.mask]
        by_cases h2 : j < 2 * H.height
        · rw [di _ (by omega), show 64 * i + (2 * a + j) = 2 * s + j by omega]
          simp [h2]
        · simp [h2])
    rw [hy]
    refine ⟨_, rfl, by simp [hl], step _ (fun j => y.getLsbD j) (fun j => by rw [hyb]) fun k => ?_⟩
    obtain ⟨q, b, hb64, rfl⟩ : ∃ q b, b < 64 ∧ k = 64 * q + b := ⟨k / 64, k % 64, Nat.mod_lt _ (by decide), (Nat.div_add_mod k 64).symm⟩
    rw [bit_at _ _ hb64, slide_modify _ _ _ _ (by omega)]
    by_cases hq : q = i
    · subst hq
      rw [if_pos rfl, BitVec.getLsbD_or, BitVec.getLsbD_shiftLeft, ← bit_at _ _ hb64]
      congr 1
      by_cases h1 : b < 2 * a
      · simp [h1, show ¬ 2 * s ≤ 64 * q + b by omega]
      · rw [show 64 * q + b - 2 * s = b - 2 * a by omega]
        simp [h1, hb64, show 2 * s ≤ 64 * q + b by omega]
    · rw [if_neg hq, ← bit_at _ _ hb64]
      by_cases h1 : 2 * s ≤ 64 * q + b
      · rw [hyb]
        simp [show ¬ 64 * q + b - 2 * s < 2 * H.height by omega]
      · simp [h1]

theorem rowsN_turned {wide : Wide} {H : Hasher} (hf : Fits H) (hc : Columns H) {D : Datum} (hl : D.length = H.slides)
    (hv : Valid H.qubits D) {o : Nat} (ho : o % H.width ≤ H.height) (ho32 : o % H.width < 32) :
    ∃ E, rowsN wide H D o = some E ∧ Turned H.height H.width (o % H.width) D E := by
  unfold rowsN
  dsimp only
  by_cases h0 : o % H.width = 0
  · rw [if_pos h0, h0]
    exact ⟨D, rfl, turned_zero hc.pos hv⟩
  rw [if_neg h0]
  generalize o % H.width = r at *
  have hq := hf.high
  unfold Hasher.qubits at hq
  have hrep : ∀ i, bit (List.replicate H.slides (0 : Page)) i = false := by
    intro i
    unfold bit slide
    rw [List.getD_eq_getElem?_getD, List.getElem?_replicate]
    split <;> simp
  obtain ⟨y, hy, hP⟩ := foldlM_inv (f := columnN wide H D r) (P := fun c (out : Datum) => out.length = D.length ∧
      ∀ i, bit out i = (decide (i < 2 * H.height * c) && turned H.height r D i)) (List.range H.width) 0 (List.replicate H.slides 0)
    ⟨by simp [hl], fun i => by rw [hrep]; simp⟩ (by
    intro c hc' x hx
    simp only [Nat.zero_add, List.length_range, List.getElem_range] at hc' hx ⊢
    have hb := col_bound (h := H.height) hc'
    exact columnN_step hc hx.1 (by omega) ho ho32 (by
      have : 2 * H.height * H.width = 2 * (H.height * H.width) := Nat.mul_assoc _ _ _
      rw [Nat.mul_add, Nat.mul_one]
      omega) hx.2)
  rw [hy]
  refine ⟨y, rfl, hP.1, ?_⟩
  simpa using hP.2

end Moment.SiteHash
