import Verif.Proof.SiteFields
import Mathlib.Tactic.Ring

/-! # Shifts of hashes as translations of words, and least hashes -/

namespace Moment.SiteHash

open Moment.Translate
open Moment.Pauli (Normal)

/-! ## Coordinates -/

theorem mod_back {h : Nat} (hh : 0 < h) (a t : Nat) : ((a + t) % h + (h - t % h)) % h = a % h := by
  have e := Nat.div_add_mod t h
  have := Nat.mod_lt t hh
  rw [Nat.mod_add_mod, show a + t + (h - t % h) = a + h * (t / h) + h by omega, Nat.add_mod_right, Nat.add_mul_mod_self_left]

theorem mod_forth {h : Nat} (hh : 0 < h) (a t : Nat) : ((a + (h - t % h)) % h + t) % h = a % h := by
  have e := Nat.div_add_mod t h
  have := Nat.mod_lt t hh
  rw [Nat.mod_add_mod, show a + (h - t % h) + t = a + h * (t / h) + h by omega, Nat.add_mod_right, Nat.add_mul_mod_self_left]

/-- The site from which a translation brings a site. -/
def origin (h k row col r : Nat) : Nat := (r / h + (k - col % k)) % k * h + (r % h + (h - row % h)) % h

theorem site_mod {h : Nat} {a b : Nat} (hb : b < h) : (a * h + b) % h = b := by
  rw [Nat.mul_comm, Nat.mul_add_mod, Nat.mod_eq_of_lt hb]

theorem site_div {h : Nat} {a b : Nat} (hb : b < h) : (a * h + b) / h = a := by
  rw [Nat.mul_comm, Nat.mul_add_div (by omega), Nat.div_eq_of_lt hb, Nat.add_zero]

theorem site_lt {h k a b : Nat} (ha : a < k) (hb : b < h) : a * h + b < h * k := by
  have := Nat.mul_le_mul_left h ha
  rw [Nat.mul_succ, Nat.mul_comm h a] at this
  omega

theorem site_eq (h q : Nat) : q / h * h + q % h = q := by rw [Nat.mul_comm]; exact Nat.div_add_mod q h

theorem origin_lt {h k : Nat} (hh : 0 < h) (hk : 0 < k) (row col r : Nat) : origin h k row col r < h * k :=
  site_lt (Nat.mod_lt _ hk) (Nat.mod_lt _ hh)

theorem origin_step {h k : Nat} (hh : 0 < h) (hk : 0 < k) (row col : Nat) {r : Nat} (hr : r < h * k) : TorusStep h k row col (origin h k row col r) r := by
  refine ⟨origin_lt hh hk _ _ _, ?_, ?_⟩
  · unfold origin
    rw [site_mod (Nat.mod_lt _ hh), mod_forth hh, Nat.mod_mod]
  · unfold origin
    rw [site_div (Nat.mod_lt _ hh), mod_forth hk, Nat.mod_eq_of_lt (Nat.div_lt_of_lt_mul hr)]

theorem step_origin {h k : Nat} (hh : 0 < h) (hk : 0 < k) {row col q r : Nat} (hs : TorusStep h k row col q r) : r < h * k ∧ origin h k row col r = q := by
  obtain ⟨h1, h2, h3⟩ := hs
  refine ⟨?_, ?_⟩
  · rw [← site_eq h r, h2, h3]
    exact site_lt (Nat.mod_lt _ hk) (Nat.mod_lt _ hh)
  · unfold origin
    rw [h2, h3, mod_back hk, mod_back hh, Nat.mod_mod, Nat.mod_eq_of_lt (Nat.div_lt_of_lt_mul h1), site_eq]

theorem step_exists {h k : Nat} (hh : 0 < h) (hk : 0 < k) (row col : Nat) {q : Nat} (hq : q < h * k) : ∃ r, TorusStep h k row col q r :=
  ⟨(q / h + col) % k * h + (q % h + row) % h, hq, site_mod (Nat.mod_lt _ hh), site_div (Nat.mod_lt _ hh)⟩

theorem origin_congr {h k row row' col col' : Nat} (h1 : row % h = row' % h) (h2 : col % k = col' % k) (r : Nat) :
    origin h k row col r = origin h k row' col' r := by
  unfold origin
  rw [h1, h2]

/-- The words are translates of each other on a closed lattice. -/
def TorusClass (h k : Nat) (w v : List Nat) : Prop := ∃ row col, MovedBy (TorusStep h k row col) w v

theorem TorusClass.symm {h k : Nat} (hh : 0 < h) (hk : 0 < k) {w v : List Nat} (c : TorusClass h k w v) : TorusClass h k v w := by
  obtain ⟨row, col, m⟩ := c
  refine ⟨h - row % h, k - col % k, m.symm.mono fun r q s => ?_⟩
  obtain ⟨h1, rfl⟩ := step_origin hh hk s
  exact ⟨h1, by unfold origin; rw [site_mod (Nat.mod_lt _ hh)], by unfold origin; rw [site_div (Nat.mod_lt _ hh)]⟩

theorem TorusClass.trans {h k : Nat} {u w v : List Nat} (c : TorusClass h k u w) (d : TorusClass h k w v) : TorusClass h k u v := by
  obtain ⟨r1, c1, m⟩ := c
  obtain ⟨r2, c2, n⟩ := d
  refine ⟨r1 + r2, c1 + c2, (m.trans n).mono ?_⟩
  rintro a c ⟨b, ⟨h1, h2, h3⟩, ⟨-, h4, h5⟩⟩
  refine ⟨h1, ?_, ?_⟩
  · rw [h4, h2, Nat.mod_add_mod, Nat.add_assoc]
  · rw [h5, h3, Nat.mod_add_mod, Nat.add_assoc]

/-! ## Shifts -/

/-- The shift of a lattice by rows and columns. -/
def Shifted (h k row col : Nat) (D E : Datum) : Prop :=
  E.length = D.length ∧ ∀ r, fld E r = if r < h * k then fld D (origin h k row col r) else 0

theorem Shifted.valid {h k row col : Nat} {D E : Datum} (s : Shifted h k row col D E) : Valid (h * k) E :=
  valid_iff.mpr fun q hq => by rw [s.2, if_neg (Nat.not_lt.mpr hq)]

/-- The word of a shifted hash is the translated word. -/
theorem Shifted.moved {h k row col : Nat} (hh : 0 < h) (hk : 0 < k) {D E : Datum} (hv : Valid (h * k) D) (s : Shifted h k row col D E) :
    MovedBy (TorusStep h k row col) (unhash D) (unhash E) := by
  refine ⟨fun q p hq => ?_, fun r p hr => ?_⟩
  · obtain ⟨r, hr⟩ := step_exists hh hk row col (unhash_within hv q p hq)
    refine ⟨r, hr, ?_⟩
    obtain ⟨h1, h2⟩ := step_origin hh hk hr
    rw [has_unhash, s.2, if_pos h1, h2]
    exact (has_unhash D q p).mp hq
  · have hlt := unhash_within s.valid r p hr
    refine ⟨_, origin_step hh hk row col hlt, ?_⟩
    rw [has_unhash, s.2, if_pos hlt] at hr
    exact (has_unhash D _ p).mpr hr

theorem fld_rotated {n o : Nat} {D E : Datum} (h : Rotated n o D E) (q : Nat) : fld E q = if q < n then fld D ((q + (n - o)) % n) else 0 := by
  unfold fld
  rw [h.2, h.2]
  by_cases hq : q < n
  · rw [if_pos hq]
    have e : (2 * q + 2 * (n - o)) % (2 * n) = 2 * ((q + (n - o)) % n) := by rw [← Nat.mul_add, Nat.mul_mod_mul_left]
    have e' : (2 * q + 1 + 2 * (n - o)) % (2 * n) = 2 * ((q + (n - o)) % n) + 1 := by
      have hlt := Nat.mod_lt (q + (n - o)) (show n > 0 by omega)
      have hd := Nat.div_add_mod (q + (n - o)) n
      have hm : n * ((q + (n - o)) / n) * 2 = 2 * n * ((q + (n - o)) / n) := by ring
      rw [show 2 * q + 1 + 2 * (n - o) = 2 * ((q + (n - o)) % n) + 1 + 2 * n * ((q + (n - o)) / n) by omega, Nat.add_mul_mod_self_left,
        Nat.mod_eq_of_lt (by omega)]
    simp [e, e', show 2 * q < 2 * n by omega, show 2 * q + 1 < 2 * n by omega]
  · simp [hq, show ¬ 2 * q + 1 < 2 * n by omega]

theorem shifted_of_rotated_chain {n o : Nat} (hn : 0 < n) (ho : o ≤ n) {D E : Datum} (h : Rotated n o D E) (col : Nat) : Shifted n 1 o col D E := by
  refine ⟨h.1, fun r => ?_⟩
  rw [fld_rotated h, Nat.mul_one]
  by_cases hr : r < n
  · rw [if_pos hr, if_pos hr]
    unfold origin
    rw [Nat.mod_one, Nat.zero_mul, Nat.zero_add, Nat.mod_eq_of_lt hr]
    rcases Nat.lt_or_eq_of_le ho with h1 | h1
    · rw [Nat.mod_eq_of_lt h1]
    · subst h1
      rw [Nat.mod_self, Nat.sub_self, Nat.sub_zero, Nat.add_zero, Nat.add_mod_right]
  · rw [if_neg hr, if_neg hr]

theorem shifted_of_rotated_cols {h k c : Nat} (hh : 0 < h) (hc : c < k) {D E : Datum} (s : Rotated (h * k) (c * h) D E) : Shifted h k 0 c D E := by
  refine ⟨s.1, fun r => ?_⟩
  rw [fld_rotated s]
  by_cases hr : r < h * k
  · rw [if_pos hr, if_pos hr]
    congr 1
    unfold origin
    have hd := site_eq h r
    have hm := Nat.mod_lt r hh
    have hdk : r / h < k := Nat.div_lt_of_lt_mul hr
    rw [Nat.mod_eq_of_lt hc, Nat.zero_mod, Nat.sub_zero, Nat.add_mod_right, Nat.mod_mod]
    have e : h * k - c * h = (k - c) * h := by rw [Nat.sub_mul, Nat.mul_comm h k]
    rw [e]
    generalize hx : r / h = x at *
    generalize r % h = y at *
    rw [← hd]
    have e2 : x * h + y + (k - c) * h = (x + (k - c)) * h + y := by rw [Nat.add_mul]; omega
    rw [e2]
    have hdm := Nat.div_add_mod (x + (k - c)) k
    have e3 : (x + (k - c)) * h + y = (x + (k - c)) % k * h + y + h * k * ((x + (k - c)) / k) := by
      have : (x + (k - c)) * h = (x + (k - c)) % k * h + h * k * ((x + (k - c)) / k) := by
        conv_lhs => rw [← hdm]
        ring
      omega
    rw [e3, Nat.add_mul_mod_self_left, Nat.mod_eq_of_lt (site_lt (Nat.mod_lt _ (by omega)) hm)]
  · rw [if_neg hr, if_neg hr]

theorem shifted_of_turned {h k o : Nat} (hh : 0 < h) (ho : o ≤ h) {D E : Datum} (t : Turned h k o D E) {row : Nat} (hrow : row % h = o % h) :
    Shifted h k row 0 D E := by
  refine ⟨t.1, fun r => ?_⟩
  unfold fld
  rw [t.2, t.2, Nat.mul_assoc]
  by_cases hr : r < h * k
  · rw [if_pos hr]
    have hdk : r / h < k := Nat.div_lt_of_lt_mul hr
    have hm := Nat.mod_lt r hh
    have hd := site_eq h r
    have e0 : origin h k row 0 r = r / h * h + (r % h + (h - o)) % h := by
      unfold origin
      rw [Nat.zero_mod, Nat.sub_zero, Nat.add_mod_right, Nat.mod_eq_of_lt hdk, hrow]
      congr 1
      rcases Nat.lt_or_eq_of_le ho with h1 | h1
      · rw [Nat.mod_eq_of_lt h1]
      · subst h1
        simp
    have ediv : 2 * r / (2 * h) = r / h := Nat.mul_div_mul_left _ _ (by omega)
    have emod : 2 * r % (2 * h) = 2 * (r % h) := Nat.mul_mod_mul_left _ _ _
    have edm := Nat.div_add_mod (2 * r) (2 * h)
    rw [ediv, emod] at edm
    have ediv1 : (2 * r + 1) / (2 * h) = r / h := by
      rw [show 2 * r + 1 = 2 * h * (r / h) + (2 * (r % h) + 1) by omega, Nat.mul_add_div (by omega),
        Nat.div_eq_of_lt (show 2 * (r % h) + 1 < 2 * h by omega), Nat.add_zero]
    have emod1 : (2 * r + 1) % (2 * h) = 2 * (r % h) + 1 := by
      rw [show 2 * r + 1 = 2 * h * (r / h) + (2 * (r % h) + 1) by omega, Nat.mul_add_mod, Nat.mod_eq_of_lt (by omega)]
    have t0 : turned h o D (2 * r) = bit D (2 * origin h k row 0 r) := by
      unfold turned
      rw [ediv, emod, e0, ← Nat.mul_add, Nat.mul_mod_mul_left]
      congr 1
      ring
    have t1 : turned h o D (2 * r + 1) = bit D (2 * origin h k row 0 r + 1) := by
      unfold turned
      rw [ediv1, emod1, e0]
      have hlt := Nat.mod_lt (r % h + (h - o)) (show h > 0 by omega)
      have hd' := Nat.div_add_mod (r % h + (h - o)) h
      have hm' : h * ((r % h + (h - o)) / h) * 2 = 2 * h * ((r % h + (h - o)) / h) := by ring
      rw [show 2 * (r % h) + 1 + 2 * (h - o) = 2 * ((r % h + (h - o)) % h) + 1 + 2 * h * ((r % h + (h - o)) / h) by omega, Nat.add_mul_mod_self_left,
        Nat.mod_eq_of_lt (by omega)]
      congr 1
      ring
    rw [t0, t1]
    simp [show 2 * r < 2 * (h * k) by omega, show 2 * r + 1 < 2 * (h * k) by omega]
  · rw [if_neg hr]
    simp [show ¬ 2 * r < 2 * (h * k) by omega, show ¬ 2 * r + 1 < 2 * (h * k) by omega]

theorem Shifted.trans {h k col row : Nat} (hh : 0 < h) (hk : 0 < k) {D E F : Datum} (s : Shifted h k 0 col D E) (t : Shifted h k row 0 E F) :
    Shifted h k row col D F := by
  refine ⟨t.1.trans s.1, fun r => ?_⟩
  rw [t.2]
  by_cases hr : r < h * k
  · rw [if_pos hr, if_pos hr, s.2, if_pos (origin_lt hh hk _ _ _)]
    congr 1
    unfold origin
    have h1 := Nat.mod_lt (r % h + (h - row % h)) hh
    have hdk : r / h < k := Nat.div_lt_of_lt_mul hr
    rw [site_mod h1, site_div h1, Nat.zero_mod, Nat.zero_mod, Nat.sub_zero, Nat.sub_zero, Nat.add_mod_right, Nat.add_mod_right, Nat.mod_mod,
      Nat.mod_eq_of_lt hdk]
  · rw [if_neg hr, if_neg hr]

theorem Shifted.congr {h k row row' col col' : Nat} {D E : Datum} (s : Shifted h k row col D E) (h1 : row % h = row' % h) (h2 : col % k = col' % k) :
    Shifted h k row' col' D E := ⟨s.1, fun r => by rw [s.2, origin_congr h1 h2]⟩

/-- What hashers need in order to rotate columns: masks as constructed, no matter for wide shifts in the case of two slides, and no more rows than
columns beyond two slides. -/
structure Lattice (wide : Wide) (H : Hasher) : Prop where
  columns : Columns H
  two : H.slides = 2 → WideOK wide H.height
  more : H.slides ≠ 1 → H.slides ≠ 2 → H.height ≤ H.width ∧ H.height < 32

theorem colShift_shifted {wide : Wide} {H : Hasher} (hf : Fits H) {D : Datum} (hl : D.length = H.slides) (hv : Valid H.qubits D) (col : Nat) :
    ∃ E, colShift wide H D col = some E ∧ Shifted H.height H.width 0 col D E := by
  have hpos := hf.pos
  unfold Hasher.qubits at hpos
  have hh : 0 < H.height := Nat.pos_of_mul_pos_right hpos
  have hk : 0 < H.width := Nat.pos_of_mul_pos_left hpos
  have hlt := Nat.mod_lt col hk
  obtain ⟨E, hE, hr⟩ := cyclic_rotated (wide := wide) hf hl hv (o := col % H.width * H.height) (by
    unfold Hasher.qubits
    rw [Nat.mul_comm]
    exact Nat.mul_le_mul_left _ (Nat.le_of_lt hlt))
  exact ⟨E, hE, (shifted_of_rotated_cols hh hlt hr).congr rfl (Nat.mod_mod _ _)⟩

theorem rows_shifted {wide : Wide} {H : Hasher} (hf : Fits H) (hc : Lattice wide H) {D : Datum} (hl : D.length = H.slides) (hv : Valid H.qubits D)
    {row : Nat} (hrow : H.slides = 1 ∨ H.slides = 2 ∨ row ≤ H.height) : ∃ E, rows wide H D row = some E ∧ Shifted H.height H.width row 0 D E := by
  have hh := hc.columns.pos
  unfold rows
  by_cases h1 : H.slides = 1
  · rw [if_pos h1]
    obtain ⟨E, hE, ht⟩ := rows1_turned (wide := wide) hf hc.columns h1 (by rw [hl, h1]) hv row
    exact ⟨E, hE, shifted_of_turned hh (Nat.le_of_lt (Nat.mod_lt _ hh)) ht (Nat.mod_mod _ _).symm⟩
  · rw [if_neg h1]
    by_cases h2 : H.slides = 2
    · rw [if_pos h2]
      obtain ⟨E, hE, ht⟩ := rows2_turned hf hc.columns h2 (by rw [hl, h2]) hv (hc.two h2) row
      exact ⟨E, hE, shifted_of_turned hh (Nat.le_of_lt (Nat.mod_lt _ hh)) ht (Nat.mod_mod _ _).symm⟩
    · rw [if_neg h2]
      obtain ⟨hhw, h32⟩ := hc.more h1 h2
      have hrow : row ≤ H.height := by simpa [h1, h2] using hrow
      have e : row % H.width % H.height = row % H.height := by
        rcases Nat.lt_or_ge row H.width with h | h
        · rw [Nat.mod_eq_of_lt h]
        · have : row = H.width ∧ H.width = H.height := by omega
          rw [this.1, Nat.mod_self, this.2, Nat.mod_self, Nat.zero_mod]
      have hle : row % H.width ≤ H.height := Nat.le_trans (Nat.mod_le _ _) hrow
      obtain ⟨E, hE, ht⟩ := rowsN_turned (wide := wide) hf hc.columns hl hv (o := row) hle (by omega)
      exact ⟨E, hE, shifted_of_turned hh hle ht e.symm⟩

theorem latticeShift_shifted {wide : Wide} {H : Hasher} (hf : Fits H) (hc : Lattice wide H) {D : Datum} (hl : D.length = H.slides)
    (hv : Valid H.qubits D) {row : Nat} (hrow : H.slides = 1 ∨ H.slides = 2 ∨ row ≤ H.height) (col : Nat) :
    ∃ E, latticeShift wide H D row col = some E ∧ Shifted H.height H.width row col D E := by
  have hpos := hf.pos
  unfold Hasher.qubits at hpos
  have hh : 0 < H.height := Nat.pos_of_mul_pos_right hpos
  have hk : 0 < H.width := Nat.pos_of_mul_pos_left hpos
  obtain ⟨E, hE, s⟩ := colShift_shifted (wide := wide) hf hl hv col
  obtain ⟨F, hF, t⟩ := rows_shifted hf hc (s.1.trans hl) s.valid hrow
  exact ⟨F, by unfold latticeShift; rw [hE]; exact hF, s.trans hh hk t⟩

theorem cyclic_shifted {wide : Wide} {H : Hasher} (hf : Fits H) (hw : H.width = 1) {D : Datum} (hl : D.length = H.slides) (hv : Valid H.qubits D)
    {o : Nat} (ho : o ≤ H.qubits) (col : Nat) : ∃ E, cyclic wide H D o = some E ∧ Shifted H.height H.width o col D E := by
  obtain ⟨E, hE, hr⟩ := cyclic_rotated (wide := wide) hf hl hv ho
  have hpos := hf.pos
  refine ⟨E, hE, ?_⟩
  rw [hw]
  unfold Hasher.qubits at hr hpos ho
  rw [hw, Nat.mul_one] at hr hpos ho
  exact shifted_of_rotated_chain hpos ho hr col

/-- What hashers need in order to rotate chains and lattices. -/
def Ready (wide : Wide) (H : Hasher) : Prop := Fits H ∧ (H.width ≠ 1 → Lattice wide H)

theorem Ready.pos {wide : Wide} {H : Hasher} (hr : Ready wide H) : 0 < H.height ∧ 0 < H.width := by
  have hpos := hr.1.pos
  unfold Hasher.qubits at hpos
  exact ⟨Nat.pos_of_mul_pos_right hpos, Nat.pos_of_mul_pos_left hpos⟩

theorem toOrigin_shifted {wide : Wide} {H : Hasher} (hr : Ready wide H) {D : Datum} (hl : D.length = H.slides) (hv : Valid H.qubits D) {q : Nat}
    (hq : q < H.qubits) : ∃ E, toOrigin wide H D q = some E ∧ Shifted H.height H.width (H.height - q % H.height) (H.width - q / H.height) D E := by
  unfold toOrigin
  by_cases hw : H.width = 1
  · rw [if_pos hw]
    obtain ⟨E, hE, s⟩ := cyclic_shifted (wide := wide) hr.1 hw hl hv (o := H.qubits - q) (Nat.sub_le _ _) (H.width - q / H.height)
    have e : H.qubits = H.height := by unfold Hasher.qubits; rw [hw, Nat.mul_one]
    refine ⟨E, hE, ?_⟩
    rw [e] at s hq
    rwa [Nat.mod_eq_of_lt hq]
  · rw [if_neg hw]
    exact latticeShift_shifted hr.1 (hr.2 hw) hl hv (.inr (.inr (Nat.sub_le _ _))) _

/-! ## The order of hashes -/

/-- The number of the pages, the first the most significant. -/
def num : List Page → Nat
  | [] => 0
  | x :: l => x.toNat * 2 ^ (64 * l.length) + num l

theorem num_lt : ∀ l : List Page, num l < 2 ^ (64 * l.length)
  | [] => by simp [num]
  | x :: l => by
    have := num_lt l
    have hx := x.isLt
    simp only [num, List.length_cons]
    rw [show 64 * (l.length + 1) = 64 + 64 * l.length by omega, Nat.pow_add]
    generalize 2 ^ (64 * l.length) = B at *
    have : (x.toNat + 1) * B ≤ 2 ^ 64 * B := Nat.mul_le_mul_right _ hx
    rw [Nat.add_mul] at this
    omega

theorem lessRev_iff : ∀ (l m : List Page), l.length = m.length → (lessRev l m = true ↔ num l < num m)
  | [], [], _ => by simp [lessRev, num]
  | x :: l, y :: m, h => by
    have hl : l.length = m.length := by simpa using h
    have ih := lessRev_iff l m hl
    have h1 := num_lt l
    have h2 := num_lt m
    simp only [lessRev, num]
    rw [hl] at h1 ⊢
    generalize 2 ^ (64 * m.length) = B at *
    by_cases hxy : x < y
    · rw [if_pos hxy]
      have : (x.toNat + 1) * B ≤ y.toNat * B := Nat.mul_le_mul_right _ (BitVec.lt_def.mp hxy)
      rw [Nat.add_mul] at this
      simp only [true_iff]
      omega
    · rw [if_neg hxy]
      by_cases hyx : y < x
      · rw [if_pos hyx]
        have : (y.toNat + 1) * B ≤ x.toNat * B := Nat.mul_le_mul_right _ (BitVec.lt_def.mp hyx)
        rw [Nat.add_mul] at this
        simp only [Bool.false_eq_true, false_iff]
        omega
      · rw [if_neg hyx, ih]
        have : x.toNat = y.toNat := by
          rw [BitVec.lt_def] at hxy hyx
          omega
        rw [this]
        omega

theorem num_inj : ∀ (l m : List Page), l.length = m.length → num l = num m → l = m
  | [], [], _, _ => rfl
  | x :: l, y :: m, h, e => by
    have hl : l.length = m.length := by simpa using h
    have h1 := num_lt l
    have h2 := num_lt m
    simp only [num] at e
    rw [hl] at h1 e
    have hxy : x.toNat = y.toNat := by
      have a1 : (x.toNat * 2 ^ (64 * m.length) + num l) / 2 ^ (64 * m.length) = x.toNat := site_div h1
      have a2 : (y.toNat * 2 ^ (64 * m.length) + num m) / 2 ^ (64 * m.length) = y.toNat := site_div h2
      rw [← a1, ← a2, e]
    have : num l = num m := by
      rw [hxy] at e
      omega
    rw [BitVec.eq_of_toNat_eq hxy, num_inj l m hl this]

/-- Hashes are compared as numbers, whose last page is the most significant. -/
def value (D : Datum) : Nat := num D.reverse

theorem less_iff {D E : Datum} (h : D.length = E.length) : less D E = true ↔ value D < value E := lessRev_iff _ _ (by simpa using h)

theorem value_inj {D E : Datum} (h : D.length = E.length) (e : value D = value E) : D = E := by
  have := num_inj _ _ (by simpa using h) e
  simpa using this

/-! ## Least hashes -/

theorem candidates_some {wide : Wide} {H : Hasher} {D : Datum} {s : Nat} : ∀ (l : List Nat) (b : Datum), b.length = s →
    (∀ o ∈ l, ∃ c, toOrigin wide H D (o / 3) = some c ∧ c.length = s) →
    ∃ x, candidates wide H D l (some b) = some (some x) ∧ x.length = s ∧ (x = b ∨ ∃ o ∈ l, toOrigin wide H D (o / 3) = some x) ∧ value x ≤ value b ∧
      ∀ o ∈ l, ∀ c, toOrigin wide H D (o / 3) = some c → value x ≤ value c
  | [], b, hb, _ => ⟨b, rfl, hb, .inl rfl, Nat.le_refl _, by simp⟩
  | o :: l, b, hb, hl => by
    obtain ⟨c, hc, hcs⟩ := hl o (by simp)
    have hless := less_iff (hcs.trans hb.symm)
    simp only [candidates, hc, Option.bind_some]
    by_cases h : less c b = true
    · obtain ⟨x, h1, h2, h3, h4, h5⟩ := candidates_some l c hcs fun y hy => hl y (by simp [hy])
      rw [if_pos h]
      have := hless.mp h
      refine ⟨x, h1, h2, .inr ?_, by omega, ?_⟩
      · rcases h3 with rfl | ⟨y, hy, e⟩
        · exact ⟨o, by simp, hc⟩
        · exact ⟨y, by simp [hy], e⟩
      · intro y hy d hd
        rcases List.mem_cons.mp hy with rfl | hy
        · rw [hc] at hd
          cases hd
          exact h4
        · exact h5 y hy d hd
    · obtain ⟨x, h1, h2, h3, h4, h5⟩ := candidates_some l b hb fun y hy => hl y (by simp [hy])
      rw [if_neg h]
      rw [hless] at h
      refine ⟨x, h1, h2, ?_, h4, ?_⟩
      · rcases h3 with rfl | ⟨y, hy, e⟩
        · exact .inl rfl
        · exact .inr ⟨y, by simp [hy], e⟩
      · intro y hy d hd
        rcases List.mem_cons.mp hy with rfl | hy
        · rw [hc] at hd
          cases hd
          omega
        · exact h5 y hy d hd

/-- The words in the class of a word that have a letter at the origin. -/
def Candidate (H : Hasher) (w u : List Nat) : Prop :=
  Normal u ∧ Within H.qubits u ∧ TorusClass H.height H.width w u ∧ ∃ p, Has u 0 p

theorem canonicalHash_spec {wide : Wide} {H : Hasher} (hr : Ready wide H) {w : List Nat} (hw : Normal w) (hb : Within H.qubits w) (hne : w ≠ []) :
    ∃ u, canonicalHash wide H w = some (hash H.slides u, hash H.slides w) ∧ Candidate H w u ∧
      ∀ v, Candidate H w v → value (hash H.slides u) ≤ value (hash H.slides v) := by
  obtain ⟨hh, hk⟩ := hr.pos
  have hb32 : Within (32 * H.slides) w := fun q p h => Nat.lt_of_lt_of_le (hb q p h) hr.1.high
  have hval : Valid H.qubits (hash H.slides w) := hash_valid hw hr.1.high hb
  -- The shift for a letter of the word gives a candidate.
  have cand : ∀ o ∈ w, ∃ u, toOrigin wide H (hash H.slides w) (o / 3) = some (hash H.slides u) ∧ Candidate H w u ∧
      MovedBy (TorusStep H.height H.width (H.height - o / 3 % H.height) (H.width - o / 3 / H.height)) w u := by
    intro o ho
    have hlt := hb.mem o ho
    obtain ⟨E, hE, s⟩ := toOrigin_shifted hr length_hash hval hlt
    have hm := s.moved hh hk hval
    rw [unhash_hash hw hb32] at hm
    have e : hash H.slides (unhash E) = E := by
      have := hash_unhash E
      rwa [s.1, length_hash] at this
    refine ⟨unhash E, by rw [e]; exact hE, ⟨unhash_normal E, unhash_within s.valid, ⟨_, _, hm⟩, ?_⟩, hm⟩
    obtain ⟨r, ⟨-, h1, h2⟩, hr⟩ := hm.1 _ _ (has_mem.mp ho)
    have hr0 : r = 0 := by
      rw [← site_eq H.height r, h1, h2]
      have e1 : o / 3 % H.height + (H.height - o / 3 % H.height) = H.height := by have := Nat.mod_lt (o / 3) hh; omega
      have e2 : o / 3 / H.height + (H.width - o / 3 / H.height) = H.width := by
        have : o / 3 / H.height < H.width := Nat.div_lt_of_lt_mul hlt
        omega
      rw [e1, e2, Nat.mod_self, Nat.mod_self, Nat.zero_mul]
    rw [hr0] at hr
    exact ⟨_, hr⟩
  -- All candidates are such shifts.
  have all : ∀ v, Candidate H w v → ∃ o ∈ w, toOrigin wide H (hash H.slides w) (o / 3) = some (hash H.slides v) := by
    rintro v ⟨hv, hvb, ⟨row, col, hm⟩, p, hp⟩
    obtain ⟨q, hst, hq⟩ := hm.2 0 p hp
    have hst' := hst
    obtain ⟨hqlt, h1, h2⟩ := hst
    refine ⟨3 * q + p, hq.2, ?_⟩
    obtain ⟨u, hu, ⟨hun, -, -, -⟩, hmu⟩ := cand _ hq.2
    rw [hu]
    rw [show (3 * q + p) / 3 = q by have := hq.1; omega] at hmu
    have hlt := Nat.mod_lt q hh
    have hdk : q / H.height < H.width := Nat.div_lt_of_lt_mul hqlt
    have shift : ∀ a b, TorusStep H.height H.width row col a b ↔ TorusStep H.height H.width (H.height - q % H.height) (H.width - q / H.height) a b := by
      intro a b
      rw [Nat.zero_mod] at h1
      rw [Nat.zero_div] at h2
      have e1 : ∀ x, (x + row) % H.height = (x + (H.height - q % H.height)) % H.height := by
        intro x
        have : (x + (H.height - q % H.height)) % H.height = (x + (H.height - q % H.height) + (q % H.height + row)) % H.height := by
          rw [Nat.add_mod _ (q % H.height + row), ← h1, Nat.add_zero, Nat.mod_mod]
        rw [this, show x + (H.height - q % H.height) + (q % H.height + row) = x + row + H.height by omega, Nat.add_mod_right]
      have e2 : ∀ x, (x + col) % H.width = (x + (H.width - q / H.height)) % H.width := by
        intro x
        have : (x + (H.width - q / H.height)) % H.width = (x + (H.width - q / H.height) + (q / H.height + col)) % H.width := by
          rw [Nat.add_mod _ (q / H.height + col), ← h2, Nat.add_zero, Nat.mod_mod]
        rw [this, show x + (H.width - q / H.height) + (q / H.height + col) = x + col + H.width by omega, Nat.add_mod_right]
      unfold TorusStep
      rw [e1, e2]
    have : u = v := by
      refine normal_ext hun hv fun r p' => ?_
      constructor
      · intro h
        obtain ⟨a, hs, ha⟩ := hmu.2 r p' h
        obtain ⟨b, hs', hb⟩ := hm.1 a p' ha
        have : b = r := by
          have x1 := (shift a b).mp hs'
          rw [← site_eq H.height b, ← site_eq H.height r, x1.2.1, x1.2.2, hs.2.1, hs.2.2]
        rwa [this] at hb
      · intro h
        obtain ⟨a, hs, ha⟩ := hm.2 r p' h
        obtain ⟨b, hs', hb⟩ := hmu.1 a p' ha
        have : b = r := by
          have x1 := (shift a r).mp hs
          rw [← site_eq H.height b, ← site_eq H.height r, x1.2.1, x1.2.2, hs'.2.1, hs'.2.2]
        rwa [this] at hb
    rw [this]
  cases hc : w with
  | nil => exact absurd hc hne
  | cons o l =>
    rw [hc] at cand all
    obtain ⟨c, hcc, hcand, -⟩ := cand o (by simp)
    obtain ⟨x, h1, h2, h3, h4, h5⟩ := candidates_some (wide := wide) (H := H) (D := hash H.slides (o :: l)) (s := H.slides) l (hash H.slides c) length_hash
      (fun y hy => by
        obtain ⟨u, hu, -⟩ := cand y (by simp [hy])
        exact ⟨_, hu, length_hash⟩)
    obtain ⟨u, hu, hcu⟩ : ∃ u, x = hash H.slides u ∧ Candidate H (o :: l) u := by
      rcases h3 with rfl | ⟨y, hy, e⟩
      · exact ⟨c, rfl, hcand⟩
      · obtain ⟨u, hu, hcu, -⟩ := cand y (by simp [hy])
        rw [hu] at e
        cases e
        exact ⟨u, rfl, hcu⟩
    refine ⟨u, ?_, hcu, fun v hv => ?_⟩
    · unfold canonicalHash
      rw [if_neg (by simp)]
      simp only [candidates, hcc, Option.bind_some, h1, Option.map_some]
      rw [hu]
    · rw [← hu]
      obtain ⟨y, hy, e⟩ := all v hv
      rcases List.mem_cons.mp hy with rfl | hy
      · rw [hcc, Option.some.injEq] at e
        rw [← e]
        exact h4
      · exact h5 y hy _ e

/-! ## Construction -/

/-- The number of slides that the constructor of the simplifier chooses. -/
def slidesFor (n : Nat) : Nat := if n / 32 + (if n % 32 ≠ 0 then 1 else 0) = 0 then 1 else n / 32 + (if n % 32 ≠ 0 then 1 else 0)

theorem slidesFor_bounds {n : Nat} (hn : 0 < n) : 32 * (slidesFor n - 1) < n ∧ n ≤ 32 * slidesFor n ∧ 0 < slidesFor n := by
  unfold slidesFor
  split <;> split <;> omega

theorem wrapping_make {wide : Wide} {h k : Nat} (hn : h * k ≤ 256) : wrapping wide h k = (Hasher.make wide (slidesFor (h * k)) h k).map some := by
  unfold wrapping
  rw [if_neg (by omega)]
  rfl

theorem make_fits {wide : Wide} {h k : Nat} (hn : 0 < h * k) {H : Hasher} (hH : Hasher.make wide (slidesFor (h * k)) h k = some H) :
    Fits H ∧ H.height = h ∧ H.width = k ∧ H.slides = slidesFor (h * k) ∧ maskBits wide (h * 2) = some H.columnMask := by
  have hl : lastCount (h * k) = (h * k - 1) % 32 + 1 := by unfold lastCount; rw [if_neg (by omega)]
  obtain ⟨m, hm, hmb⟩ := maskBits_eq wide (k := lastCount (h * k) * 2) (by omega) (by omega)
  unfold Hasher.make at hH
  rw [hm, Option.bind_some] at hH
  obtain ⟨c, hc, rfl⟩ := Option.map_eq_some_iff.mp hH
  obtain ⟨h1, h2, h3⟩ := slidesFor_bounds hn
  refine ⟨⟨hn, h1, h2, fun i hi => ?_⟩, rfl, rfl, rfl, hc⟩
  refine (hmb i).trans (decide_eq_decide.mpr ?_)
  dsimp only [Hasher.qubits]
  rw [hl]
  omega

/-- The sizes that the hashers treat as they should: all chains; and lattices of at most 32 rows, whose columns are cut by the boundary of the slides in
the case of two slides (unless wide shifts keep zero), and that have no more rows than columns in the case of more slides. -/
def Good (wide : Wide) (h k : Nat) : Prop := k = 1 ∨ (h ≤ 32 ∧ (32 < h * k → h * k ≤ 64 → WideOK wide h) ∧ (64 < h * k → h ≤ k))

theorem wrapping_ready {wide : Wide} {h k : Nat} (hn : 0 < h * k) (hn256 : h * k ≤ 256) (hg : Good wide h k) {H : Hasher}
    (hH : wrapping wide h k = some (some H)) : Ready wide H ∧ H.height = h ∧ H.width = k ∧ H.slides = slidesFor (h * k) := by
  rw [wrapping_make hn256] at hH
  obtain ⟨H', hH', e⟩ := Option.map_eq_some_iff.mp hH
  cases e
  obtain ⟨hf, hh, hk, hs, hc⟩ := make_fits hn hH'
  refine ⟨⟨hf, fun hw => ?_⟩, hh, hk, hs⟩
  rw [hk] at hw
  rcases hg with hg | ⟨h32, hg2, hg3⟩
  · exact absurd hg hw
  · have hpos : 0 < h := Nat.pos_of_mul_pos_right hn
    obtain ⟨m, hm, hmb⟩ := maskBits_eq wide (k := h * 2) (by omega) (by omega)
    rw [hm] at hc
    cases hc
    obtain ⟨b1, b2, b3⟩ := slidesFor_bounds hn
    refine ⟨⟨by omega, by omega, fun i => by rw [hmb, hh, Nat.mul_comm]⟩, fun h2 => ?_, fun h1 h2 => ?_⟩
    · rw [hs] at h2
      rw [hh]
      exact hg2 (by omega) (by omega)
    · rw [hs] at h1 h2
      rw [hh, hk]
      have hle := hg3 (by omega)
      refine ⟨hle, ?_⟩
      have := Nat.mul_le_mul_left h hle
      rcases Nat.lt_or_ge h 32 with h' | h'
      · exact h'
      · have := Nat.mul_le_mul h' h'
        omega

theorem wrapping_some {wide : Wide} {h k : Nat} (hn : 0 < h * k) (hn256 : h * k ≤ 256) (hh : h ≤ 32 ∨ wide ≠ none) :
    ∃ H, wrapping wide h k = some (some H) := by
  rw [wrapping_make hn256]
  unfold Hasher.make
  have hl : lastCount (h * k) = (h * k - 1) % 32 + 1 := by unfold lastCount; rw [if_neg (by omega)]
  obtain ⟨m, hm, -⟩ := maskBits_eq wide (k := lastCount (h * k) * 2) (by omega) (by omega)
  have hpos : 0 < h := Nat.pos_of_mul_pos_right hn
  rw [hm]
  rcases Nat.lt_or_ge 32 h with h32 | h32
  · obtain ⟨f, rfl⟩ : ∃ f, wide = some f := by
      cases wide with
      | none => rcases hh with hh | hh
                · omega
                · exact absurd rfl hh
      | some f => exact ⟨f, rfl⟩
    unfold maskBits shl
    rw [if_neg (by omega), if_neg (by omega)]
    exact ⟨_, rfl⟩
  · obtain ⟨c, hc, -⟩ := maskBits_eq wide (k := h * 2) (by omega) (by omega)
    rw [hc]
    exact ⟨_, rfl⟩

/-- The simplified word of a nonempty word is the candidate with the least hash. -/
theorem canonical_spec {wide : Wide} {H : Hasher} (hr : Ready wide H) {w : List Nat} (hw : Normal w) (hb : Within H.qubits w) (hne : w ≠ []) :
    ∃ u, canonical wide H w = some u ∧ isCanonical wide H w = some (decide (u = w)) ∧ Candidate H w u ∧
      ∀ v, Candidate H w v → value (hash H.slides u) ≤ value (hash H.slides v) := by
  obtain ⟨u, hu, hc, hmin⟩ := canonicalHash_spec hr hw hb hne
  have hw32 : Within (32 * H.slides) w := fun q p h => Nat.lt_of_lt_of_le (hb q p h) hr.1.high
  have hu32 : Within (32 * H.slides) u := fun q p h => Nat.lt_of_lt_of_le (hc.2.1 q p h) hr.1.high
  have hinj : hash H.slides u = hash H.slides w ↔ u = w := by
    constructor
    · intro e
      rw [← unhash_hash hc.1 hu32, e, unhash_hash hw hw32]
    · rintro rfl
      rfl
  refine ⟨u, ?_, ?_, hc, hmin⟩
  · unfold canonical
    rw [hu, Option.map_some]
    dsimp only
    split
    · next e => rw [hinj.mp e]
    · rw [unhash_hash hc.1 hu32]
  · unfold isCanonical
    rw [hu, Option.map_some]
    dsimp only
    rw [beq_eq_decide, Option.some.injEq, decide_eq_decide]
    exact hinj

theorem canonical_nil (wide : Wide) (H : Hasher) : canonical wide H [] = some [] ∧ isCanonical wide H [] = some true := by
  simp [canonical, isCanonical, canonicalHash]

theorem Candidate.unique {H : Hasher} {s : Nat} (hs : H.qubits ≤ 32 * s) {w v u u' : List Nat} (hu : Candidate H w u) (hu' : Candidate H v u')
    (h : value (hash s u) = value (hash s u')) : u = u' := by
  have hu32 : Within (32 * s) u := fun q p h => Nat.lt_of_lt_of_le (hu.2.1 q p h) hs
  have hu32' : Within (32 * s) u' := fun q p h => Nat.lt_of_lt_of_le (hu'.2.1 q p h) hs
  have e := value_inj (length_hash.trans length_hash.symm) h
  rw [← unhash_hash hu.1 hu32, e, unhash_hash hu'.1 hu32']

end Moment.SiteHash
