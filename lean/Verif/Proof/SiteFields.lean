import Verif.Proof.SiteRows
import Verif.Proof.Translate

/-! # Letters of site hashes: hashes of words, and words of hashes -/

namespace Moment.SiteHash

open Moment.Translate
open Moment.Pauli (Normal)

/-- The two bits of a qubit. -/
def fld (D : Datum) (q : Nat) : Nat := (bit D (2 * q)).toNat + 2 * (bit D (2 * q + 1)).toNat

/-- The two bits of a qubit of a page. -/
def pfld (x : Page) (j : Nat) : Nat := (x.getLsbD (2 * j)).toNat + 2 * (x.getLsbD (2 * j + 1)).toNat

theorem fld_at (D : Datum) (a : Nat) {b : Nat} (hb : b < 32) : fld D (32 * a + b) = pfld (slide D a) b := by
  unfold fld pfld
  rw [show 2 * (32 * a + b) = 64 * a + 2 * b by omega, bit_at _ _ (by omega), Nat.add_assoc, bit_at _ _ (by omega)]

theorem fld_le (D : Datum) (q : Nat) : fld D q ≤ 3 := by
  unfold fld
  have := Bool.toNat_le (bit D (2 * q))
  have := Bool.toNat_le (bit D (2 * q + 1))
  omega

theorem datum_ext_fld {D E : Datum} (hl : D.length = E.length) (h : ∀ q, fld D q = fld E q) : D = E := by
  refine datum_ext hl fun k => ?_
  have := h (k / 2)
  unfold fld at this
  have h1 : bit D (2 * (k / 2)) = bit E (2 * (k / 2)) ∧ bit D (2 * (k / 2) + 1) = bit E (2 * (k / 2) + 1) := by
    revert this
    cases bit D (2 * (k / 2)) <;> cases bit E (2 * (k / 2)) <;> cases bit D (2 * (k / 2) + 1) <;> cases bit E (2 * (k / 2) + 1) <;> simp
  rcases Nat.mod_two_eq_zero_or_one k with hk | hk
  · rw [show k = 2 * (k / 2) by omega]
    exact h1.1
  · rw [show k = 2 * (k / 2) + 1 by omega]
    exact h1.2

theorem fld_eq_zero {D : Datum} {q : Nat} : fld D q = 0 ↔ bit D (2 * q) = false ∧ bit D (2 * q + 1) = false := by
  unfold fld
  cases bit D (2 * q) <;> cases bit D (2 * q + 1) <;> simp

theorem pfld_eq_zero {x : Page} {j : Nat} : pfld x j = 0 ↔ x.getLsbD (2 * j) = false ∧ x.getLsbD (2 * j + 1) = false := by
  unfold pfld
  cases x.getLsbD (2 * j) <;> cases x.getLsbD (2 * j + 1) <;> simp

theorem fld_oob {D : Datum} {q : Nat} (h : 32 * D.length ≤ q) : fld D q = 0 := fld_eq_zero.mpr ⟨bit_oob (by omega), bit_oob (by omega)⟩

theorem valid_iff {n : Nat} {D : Datum} : Valid n D ↔ ∀ q, n ≤ q → fld D q = 0 := by
  constructor
  · exact fun h q hq => fld_eq_zero.mpr ⟨h _ (by omega), h _ (by omega)⟩
  · intro h k hk
    obtain ⟨h1, h2⟩ := fld_eq_zero.mp (h (k / 2) (by omega))
    rcases Nat.mod_two_eq_zero_or_one k with hk | hk
    · rwa [show 2 * (k / 2) = k by omega] at h1
    · rwa [show 2 * (k / 2) + 1 = k by omega] at h2

/-! ## Hashes of words -/

theorem ofNat_bits {v i : Nat} (hv : v ≤ 3) : (BitVec.ofNat 64 v).getLsbD i = (decide (i < 2) && v.testBit i) := by
  rw [BitVec.getLsbD_ofNat]
  by_cases hi : i < 2
  · simp [hi, show i < 64 by omega]
  · have : v.testBit i = false := Nat.testBit_lt_two_pow (Nat.lt_of_lt_of_le (show v < 2 ^ 2 by omega) (Nat.pow_le_pow_right (by decide) (by omega)))
    simp [this]

theorem pfld_add {x : Page} {a v : Nat} (ha : a < 32) (hv : v ≤ 3) (hx : pfld x a = 0) (j : Nat) (hj : j < 32) :
    pfld (x + (BitVec.ofNat 64 v <<< (a * 2))) j = if j = a then v else pfld x j := by
  obtain ⟨h1, h2⟩ := pfld_eq_zero.mp hx
  have hb : ∀ i, i < 64 → (BitVec.ofNat 64 v <<< (a * 2)).getLsbD i = (decide (i / 2 = a) && v.testBit (i % 2)) := by
    intro i hi
    rw [BitVec.getLsbD_shiftLeft, ofNat_bits hv]
    by_cases hia : i / 2 = a
    · rw [show i - a * 2 = i % 2 by omega]
      simp [hi, hia, Nat.mod_lt]
      omega
    · by_cases h3 : i < a * 2
      · simp [h3, hia]
      · simp [hia, show ¬ i - a * 2 < 2 by omega]
  rw [page_add_or (fun i hi => by
    rw [hb i hi]
    by_cases hia : i / 2 = a
    · rcases Nat.mod_two_eq_zero_or_one i with hk | hk
      · rw [show i = 2 * a by omega, h1]; simp
      · rw [show i = 2 * a + 1 by omega, h2]; simp
    · simp [hia])]
  unfold pfld
  rw [BitVec.getLsbD_or, BitVec.getLsbD_or, hb _ (by omega), hb _ (by omega), show 2 * j / 2 = j by omega, show (2 * j + 1) / 2 = j by omega,
    show 2 * j % 2 = 0 by omega, show (2 * j + 1) % 2 = 1 by omega]
  by_cases hja : j = a
  · subst hja
    rw [h1, h2, if_pos rfl]
    have : v = 0 ∨ v = 1 ∨ v = 2 ∨ v = 3 := by omega
    rcases this with rfl | rfl | rfl | rfl <;> simp <;> decide
  · simp [hja]

theorem length_hashStep (D : Datum) (o : Nat) : (hashStep D o).length = D.length := by simp [hashStep]

theorem fld_hashStep {D : Datum} {o : Nat} (ho : o / 3 < 32 * D.length) (h0 : fld D (o / 3) = 0) (q : Nat) :
    fld (hashStep D o) q = if q = o / 3 then o % 3 + 1 else fld D q := by
  obtain ⟨a, b, hb, e⟩ : ∃ a b, b < 32 ∧ o / 3 = 32 * a + b := ⟨o / 3 / 32, o / 3 % 32, by omega, by omega⟩
  obtain ⟨c, d, hd, rfl⟩ : ∃ c d, d < 32 ∧ q = 32 * c + d := ⟨q / 32, q % 32, by omega, by omega⟩
  rw [e, fld_at _ _ hb] at h0
  unfold hashStep
  rw [fld_at _ _ hd, fld_at _ _ hd, e, show (32 * a + b) / 32 = a by omega, show (32 * a + b) % 32 = b by omega, slide_modify _ _ _ _ (by omega)]
  by_cases hc : c = a
  · subst hc
    rw [if_pos rfl, pfld_add hb (by omega) h0 d hd]
    by_cases hdb : d = b
    · simp [hdb]
    · rw [if_neg hdb, if_neg (by omega)]
  · rw [if_neg hc, if_neg (by omega)]

theorem fld_foldl : ∀ (w : List Nat) (D : Datum), Normal w → (∀ o ∈ w, o / 3 < 32 * D.length) → (∀ o ∈ w, fld D (o / 3) = 0) →
    (w.foldl hashStep D).length = D.length ∧ (∀ o ∈ w, fld (w.foldl hashStep D) (o / 3) = o % 3 + 1) ∧
    ∀ q, (∀ o ∈ w, o / 3 ≠ q) → fld (w.foldl hashStep D) q = fld D q
  | [], D, _, _, _ => ⟨rfl, by simp, fun q _ => rfl⟩
  | o :: w, D, hw, hb, hz => by
    obtain ⟨hlt, hw⟩ := List.pairwise_cons.mp hw
    have hs := fld_hashStep (hb o (by simp)) (hz o (by simp))
    obtain ⟨h1, h2, h3⟩ := fld_foldl w (hashStep D o) hw (fun x hx => by rw [length_hashStep]; exact hb x (by simp [hx])) (fun x hx => by
      rw [hs, if_neg (by have := hlt x hx; omega)]
      exact hz x (by simp [hx]))
    refine ⟨by rw [List.foldl_cons, h1, length_hashStep], fun x hx => ?_, fun q hq => ?_⟩
    · rw [List.foldl_cons]
      rcases List.mem_cons.mp hx with rfl | hx
      · rw [h3 _ (fun y hy => by have := hlt y hy; omega), hs, if_pos rfl]
      · exact h2 x hx
    · rw [List.foldl_cons, h3 q (fun x hx => hq x (by simp [hx])), hs, if_neg (hq o (by simp)).symm]

theorem bit_replicate (s i : Nat) : bit (List.replicate s (0 : Page)) i = false := by
  unfold bit slide
  rw [List.getD_eq_getElem?_getD, List.getElem?_replicate]
  split <;> simp

theorem fld_replicate (s q : Nat) : fld (List.replicate s (0 : Page)) q = 0 := fld_eq_zero.mpr ⟨bit_replicate _ _, bit_replicate _ _⟩

/-- All letters are at the first `n` qubits. -/
def Within (n : Nat) (w : List Nat) : Prop := ∀ q p, Has w q p → q < n

theorem Within.mem {n : Nat} {w : List Nat} (h : Within n w) : ∀ o ∈ w, o / 3 < n := fun o ho => h _ _ (has_mem.mp ho)

theorem length_hash {s : Nat} {w : List Nat} : (hash s w).length = s := by
  unfold hash
  have : ∀ (w : List Nat) (D : Datum), (w.foldl hashStep D).length = D.length := by
    intro w
    induction w with
    | nil => intro D; rfl
    | cons o w ih => intro D; rw [List.foldl_cons, ih, length_hashStep]
  rw [this]
  simp

theorem fld_hash {s : Nat} {w : List Nat} (hw : Normal w) (hb : Within (32 * s) w) (q p : Nat) : Has w q p ↔ p < 3 ∧ fld (hash s w) q = p + 1 := by
  obtain ⟨-, h2, h3⟩ := fld_foldl w (List.replicate s 0) hw (by simpa using hb.mem) (fun o _ => fld_replicate _ _)
  unfold hash
  constructor
  · rintro ⟨hp, h⟩
    have := h2 _ h
    rw [show (3 * q + p) / 3 = q by omega, show (3 * q + p) % 3 = p by omega] at this
    exact ⟨hp, this⟩
  · rintro ⟨hp, h⟩
    by_cases hq : ∃ o ∈ w, o / 3 = q
    · obtain ⟨o, ho, rfl⟩ := hq
      rw [h2 o ho] at h
      exact ⟨hp, by rwa [show 3 * (o / 3) + p = o by omega]⟩
    · rw [h3 q (fun o ho e => hq ⟨o, ho, e⟩), fld_replicate] at h
      omega

/-! ## Words of hashes -/

theorem ctz_spec {x : Page} (hx : x ≠ 0) : ctz x < 64 ∧ x.getLsbD (ctz x) = true ∧ ∀ j, j < ctz x → x.getLsbD j = false := by
  unfold ctz
  cases h : (List.range 64).find? fun i => x.getLsbD i with
  | none =>
    exfalso
    apply hx
    refine BitVec.eq_of_getLsbD_eq fun i hi => ?_
    have := List.find?_eq_none.mp h i (by simpa using hi)
    simpa using this
  | some t =>
    rw [List.find?_range_eq_some] at h
    obtain ⟨h1, h2, h3⟩ := h
    refine ⟨by simpa using h2, h1, fun j hj => ?_⟩
    simpa using h3 j hj

theorem pfld_shift (x : Page) (d j : Nat) : pfld (x >>> (d * 2)) j = pfld x (d + j) := by
  unfold pfld
  rw [BitVec.getLsbD_ushiftRight, BitVec.getLsbD_ushiftRight, show d * 2 + 2 * j = 2 * (d + j) by omega, show d * 2 + (2 * j + 1) = 2 * (d + j) + 1 by omega]

theorem and3 (x : Page) : (x &&& 3).toNat = pfld x 0 := by
  have : (x &&& 3).toNat = x.toNat % 4 := by
    rw [BitVec.toNat_and]
    exact Nat.and_two_pow_sub_one_eq_mod x.toNat 2
  rw [this]
  unfold pfld
  rw [← BitVec.testBit_toNat, ← BitVec.testBit_toNat, Nat.mul_zero, Nat.zero_add]
  generalize x.toNat = n
  rw [← Nat.mod_add_div n 4]
  have h : n % 4 = 0 ∨ n % 4 = 1 ∨ n % 4 = 2 ∨ n % 4 = 3 := by omega
  have t : ∀ r i, r < 4 → i < 2 → (r + 4 * (n / 4)).testBit i = r.testBit i := by
    intro r i hr hi
    rw [Nat.add_comm, show (4 : Nat) = 2 ^ 2 from rfl, Nat.testBit_two_pow_mul_add _ hr]
    simp [hi]
  rw [t _ _ (by omega) (by omega), t _ _ (by omega) (by omega), Nat.add_mul_mod_self_left, Nat.mod_mod]
  rcases h with h | h | h | h <;> rw [h] <;> decide

theorem unhashPage_spec : ∀ (fuel q : Nat) (x : Page), (∀ j, fuel ≤ j → pfld x j = 0) → Normal (unhashPage fuel q x) ∧
    ∀ o, o ∈ unhashPage fuel q x ↔ q ≤ o / 3 ∧ pfld x (o / 3 - q) = o % 3 + 1
  | 0, q, x, h => ⟨List.Pairwise.nil, fun o => by simp [unhashPage, h _ (Nat.zero_le _)]⟩
  | fuel + 1, q, x, h => by
    by_cases hx : x = 0
    · subst hx
      simp [unhashPage, Normal, pfld]
    · obtain ⟨ht, hb, hlow⟩ := ctz_spec hx
      have hd : pfld x (ctz x / 2) ≠ 0 := by
        intro hz
        obtain ⟨h1, h2⟩ := pfld_eq_zero.mp hz
        rcases Nat.mod_two_eq_zero_or_one (ctz x) with hk | hk
        · rw [show 2 * (ctz x / 2) = ctz x by omega, hb] at h1
          exact absurd h1 (by simp)
        · rw [show 2 * (ctz x / 2) + 1 = ctz x by omega, hb] at h2
          exact absurd h2 (by simp)
      have hlow' : ∀ j, j < ctz x / 2 → pfld x j = 0 := fun j hj => pfld_eq_zero.mpr ⟨hlow _ (by omega), hlow _ (by omega)⟩
      have e : unhashPage (fuel + 1) q x = ((q + ctz x / 2) * 3 + (pfld x (ctz x / 2) - 1)) ::
          unhashPage fuel (q + ctz x / 2 + 1) (x >>> ((ctz x / 2 + 1) * 2)) := by
        simp only [unhashPage, if_neg hx]
        rw [and3, pfld_shift, Nat.add_zero, ← BitVec.shiftRight_add, show ctz x / 2 * 2 + 2 = (ctz x / 2 + 1) * 2 by omega]
      rw [e]
      generalize ctz x / 2 = d at *
      have hp3 : pfld x d ≤ 3 := by
        unfold pfld
        have := Bool.toNat_le (x.getLsbD (2 * d))
        have := Bool.toNat_le (x.getLsbD (2 * d + 1))
        omega
      obtain ⟨h1, h2⟩ := unhashPage_spec fuel (q + d + 1) (x >>> ((d + 1) * 2)) (fun j hj => by rw [pfld_shift]; exact h _ (by omega))
      refine ⟨List.pairwise_cons.mpr ⟨fun o ho => ?_, h1⟩, fun o => ?_⟩
      · have := ((h2 o).mp ho).1
        omega
      · rw [List.mem_cons, h2, pfld_shift]
        constructor
        · rintro (rfl | ⟨h3, h4⟩)
          · have hdiv : ((q + d) * 3 + (pfld x d - 1)) / 3 = q + d := by omega
            rw [hdiv, show q + d - q = d by omega]
            omega
          · rw [show d + 1 + (o / 3 - (q + d + 1)) = o / 3 - q by omega] at h4
            exact ⟨by omega, h4⟩
        · rintro ⟨h3, h4⟩
          rcases Nat.lt_trichotomy (o / 3 - q) d with hlt | heq | hgt
          · rw [hlow' _ hlt] at h4
            omega
          · left
            rw [heq] at h4
            omega
          · right
            rw [show d + 1 + (o / 3 - (q + d + 1)) = o / 3 - q by omega]
            exact ⟨by omega, h4⟩

theorem pfld_page (x : Page) (j : Nat) (hj : 32 ≤ j) : pfld x j = 0 :=
  pfld_eq_zero.mpr ⟨BitVec.getLsbD_of_ge _ _ (by omega), BitVec.getLsbD_of_ge _ _ (by omega)⟩

theorem mem_unhash (D : Datum) (o : Nat) : o ∈ unhash D ↔ fld D (o / 3) = o % 3 + 1 := by
  unfold unhash
  simp only [List.mem_flatten, List.mem_mapIdx]
  constructor
  · rintro ⟨l, ⟨i, hi, rfl⟩, ho⟩
    obtain ⟨h1, h2⟩ := ((unhashPage_spec 32 (i * 32) D[i] (pfld_page _)).2 o).mp ho
    have hlt : o / 3 - i * 32 < 32 := by
      rcases Nat.lt_or_ge (o / 3 - i * 32) 32 with h | h
      · exact h
      · rw [pfld_page _ _ h] at h2
        omega
    rw [show o / 3 = 32 * i + (o / 3 - i * 32) by omega, fld_at _ _ hlt, ← h2]
    unfold slide
    rw [List.getD_eq_getElem _ _ hi]
  · intro h
    have hlt : o / 3 / 32 < D.length := by
      rcases Nat.lt_or_ge (o / 3) (32 * D.length) with h' | h'
      · omega
      · rw [fld_oob h'] at h
        omega
    refine ⟨_, ⟨o / 3 / 32, hlt, rfl⟩, ((unhashPage_spec 32 _ _ (pfld_page _)).2 o).mpr ⟨by omega, ?_⟩⟩
    rw [show o / 3 = 32 * (o / 3 / 32) + o / 3 % 32 by omega, fld_at _ _ (by omega)] at h
    unfold slide at h
    rw [List.getD_eq_getElem _ _ hlt] at h
    rw [← h]
    congr 1
    omega

theorem unhash_normal (D : Datum) : Normal (unhash D) := by
  unfold unhash Normal
  rw [List.pairwise_flatten]
  refine ⟨?_, ?_⟩
  · intro l hl
    obtain ⟨i, hi, rfl⟩ := List.mem_mapIdx.mp hl
    exact (unhashPage_spec 32 _ _ (pfld_page _)).1
  · rw [List.pairwise_iff_getElem]
    intro i j hi hj hij a ha b hb
    simp only [List.length_mapIdx] at hi hj
    rw [List.getElem_mapIdx] at ha hb
    obtain ⟨h1, h2⟩ := ((unhashPage_spec 32 _ _ (pfld_page _)).2 a).mp ha
    obtain ⟨h3, -⟩ := ((unhashPage_spec 32 _ _ (pfld_page _)).2 b).mp hb
    have : a / 3 - i * 32 < 32 := by
      rcases Nat.lt_or_ge (a / 3 - i * 32) 32 with h | h
      · exact h
      · rw [pfld_page _ _ h] at h2
        omega
    omega

theorem has_unhash (D : Datum) (q p : Nat) : Has (unhash D) q p ↔ p < 3 ∧ fld D q = p + 1 := by
  unfold Has
  constructor
  · rintro ⟨hp, h⟩
    rw [mem_unhash, show (3 * q + p) / 3 = q by omega, show (3 * q + p) % 3 = p by omega] at h
    exact ⟨hp, h⟩
  · rintro ⟨hp, h⟩
    refine ⟨hp, ?_⟩
    rw [mem_unhash, show (3 * q + p) / 3 = q by omega, show (3 * q + p) % 3 = p by omega]
    exact h

theorem unhash_hash {s : Nat} {w : List Nat} (hw : Normal w) (hb : Within (32 * s) w) : unhash (hash s w) = w :=
  normal_ext (unhash_normal _) hw fun q p => by rw [has_unhash, fld_hash hw hb]

theorem unhash_within {n : Nat} {D : Datum} (h : Valid n D) : Within n (unhash D) := by
  intro q p hq
  rcases Nat.lt_or_ge q n with h' | h'
  · exact h'
  · have := ((has_unhash D q p).mp hq).2
    rw [valid_iff.mp h q h'] at this
    omega

theorem hash_unhash (D : Datum) : hash D.length (unhash D) = D := by
  have hb : Within (32 * D.length) (unhash D) := unhash_within (valid_iff.mpr fun q hq => fld_oob hq)
  refine datum_ext_fld length_hash fun q => ?_
  have key : ∀ p, p < 3 → (fld D q = p + 1 ↔ fld (hash D.length (unhash D)) q = p + 1) := by
    intro p hp
    have h1 := has_unhash D q p
    have h2 := fld_hash (unhash_normal D) hb q p
    rw [h1] at h2
    simpa [hp] using h2
  have h0 := key 0 (by omega)
  have h1 := key 1 (by omega)
  have h2 := key 2 (by omega)
  have := fld_le D q
  have := fld_le (hash D.length (unhash D)) q
  omega

theorem hash_valid {n s : Nat} {w : List Nat} (hw : Normal w) (hn : n ≤ 32 * s) (hb : Within n w) : Valid n (hash s w) := by
  refine valid_iff.mpr fun q hq => ?_
  have hb' : Within (32 * s) w := fun q p h => Nat.lt_of_lt_of_le (hb q p h) hn
  have := fld_le (hash s w) q
  by_cases h0 : fld (hash s w) q = 0
  · exact h0
  · have := hb q (fld (hash s w) q - 1) ((fld_hash hw hb' q _).mpr ⟨by omega, by omega⟩)
    omega

end Moment.SiteHash
