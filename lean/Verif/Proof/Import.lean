import Mathlib.Tactic.Ring
import Mathlib.Tactic.Linarith
import Mathlib.Tactic.NormNum
import Verif.Spec.Import
import Verif.Proof.SymbolBasis

/-! # Importing matrices: constraints on symbols -/

namespace Moment.Import

open Classical Moment.Symbols
open Moment.Poly (Mono)

/-- The values agree with the bit sets. -/
def Sem (size : Nat) (b : Bits) (v : Nat → ℂ) : Prop :=
  ∀ id < size, (b.im id = false → (v id).im = 0) ∧ (b.re id = false → (v id).re = 0)

theorem sem_noIm {size b v id} (h : id < size) : Sem size (b.noIm id) v ↔ Sem size b v ∧ (v id).im = 0 := by
  constructor
  · intro hs
    refine ⟨fun k hk => ⟨fun hb => ?_, (hs k hk).2⟩, (hs id h).1 (by simp [Bits.noIm])⟩
    exact (hs k hk).1 (by simp [Bits.noIm, hb])
  · rintro ⟨hs, h0⟩ k hk
    refine ⟨fun hb => ?_, (hs k hk).2⟩
    by_cases hk' : k = id
    · rw [hk']; exact h0
    · exact (hs k hk).1 (by simpa [Bits.noIm, hk'] using hb)

theorem sem_noRe {size b v id} (h : id < size) : Sem size (b.noRe id) v ↔ Sem size b v ∧ (v id).re = 0 := by
  constructor
  · intro hs
    refine ⟨fun k hk => ⟨(hs k hk).1, fun hb => ?_⟩, (hs id h).2 (by simp [Bits.noRe])⟩
    exact (hs k hk).2 (by simp [Bits.noRe, hb])
  · rintro ⟨hs, h0⟩ k hk
    refine ⟨(hs k hk).1, fun hb => ?_⟩
    by_cases hk' : k = id
    · rw [hk']; exact h0
    · exact (hs k hk).2 (by simpa [Bits.noRe, hk'] using hb)

/-- A monomial that may occur: zero, or with a real factor other than zero. -/
def Good (m : Mono) : Prop := m.id ≠ 0 → m.factor.im = 0 ∧ m.factor ≠ 0

theorem value_zero {v : Nat → ℂ} (hv : v 0 = 0) {m : Mono} (h : m.id = 0) : value v m = 0 := by
  unfold value
  rw [h, hv]; simp

/-- Facts about a pair that passed the test, apart from zeros. -/
theorem pair_factor {u l : Mono} (hu : Good u) (hl : Good l) (hm : ¬ mismatch u l) (h0 : u.id ≠ 0) :
    ∃ x y : ℝ, u.factor = x ∧ l.factor = y ∧ x ≠ 0 ∧ (y = x ∨ y = -x) ∧ l.id = u.id := by
  unfold mismatch at hm
  push Not at hm
  obtain ⟨h1, h2⟩ := hm
  obtain ⟨a1, a2⟩ := hu h0
  obtain ⟨b1, b2⟩ := hl (h1 ▸ h0)
  have ex : u.factor = (u.factor.re : ℂ) := Complex.ext rfl (by simp [a1])
  have ey : l.factor = (l.factor.re : ℂ) := Complex.ext rfl (by simp [b1])
  refine ⟨u.factor.re, l.factor.re, ex, ey, ?_, ?_, h1.symm⟩
  · intro h
    apply a2
    rw [ex, h]; rfl
  · rw [Complex.normSq_apply, Complex.normSq_apply, a1, b1] at h2
    have : (l.factor.re - u.factor.re) * (l.factor.re + u.factor.re) = 0 := by nlinarith
    rcases mul_eq_zero.mp this with h | h
    · left; linarith
    · right; linarith

theorem symPair_sem {size v} (hv : v 0 = 0) {u l : Mono} (hu : Good u) (hl : Good l) (hlt : u.id < size) {b b'}
    (h : symPair u l b = some b') : Sem size b' v ↔ Sem size b v ∧ value v u = value v l := by
  unfold symPair at h
  split at h
  · simp at h
  · rename_i hm
    by_cases h0 : u.id = 0
    · have hl0 : l.id = 0 := by
        unfold mismatch at hm
        push Not at hm
        exact hm.1 ▸ h0
      have e : value v u = value v l := by rw [value_zero hv h0, value_zero hv hl0]
      have hre : (v u.id).re = 0 := by rw [h0, hv]; rfl
      have him : (v u.id).im = 0 := by rw [h0, hv]; rfl
      split at h <;> split at h <;> simp only [Option.some.injEq] at h <;> subst h <;>
        simp [sem_noIm hlt, sem_noRe hlt, e, hre, him]
    · obtain ⟨x, y, hx, hy, hx0, hxy, hid⟩ := pair_factor hu hl hm h0
      have hxx : (x : ℂ) = ((-x : ℝ) : ℂ) → False := by
        intro h
        have := Complex.ofReal_injective h
        exact hx0 (by linarith)
      unfold value
      rw [hx, hy] at h ⊢
      rw [hid]
      split at h
      · rename_i hc
        rw [← hc]
        split at h <;> simp only [Option.some.injEq] at h <;> subst h
        · rename_i hf
          rw [hf]; simp
        · rename_i hf
          have hyx : y = -x := by
            rcases hxy with h | h
            · exact absurd (by rw [h]) hf
            · exact h
          rw [sem_noIm hlt, sem_noRe hlt, hyx, and_assoc]
          refine and_congr_right fun _ => ?_
          cases u.conj <;> simp only [Complex.ext_iff, Complex.mul_re, Complex.mul_im, Complex.ofReal_re, Complex.ofReal_im,
              Complex.conj_re, Complex.conj_im, if_true, if_false, Bool.false_eq_true]
          · constructor
            · rintro ⟨h1, h2⟩; rw [h1, h2]; simp
            · rintro ⟨h1, h2⟩
              exact ⟨(mul_eq_zero.mp (by linarith : x * (v u.id).re = 0)).resolve_left hx0,
                (mul_eq_zero.mp (by linarith : x * (v u.id).im = 0)).resolve_left hx0⟩
          · constructor
            · rintro ⟨h1, h2⟩; rw [h1, h2]; simp
            · rintro ⟨h1, h2⟩
              exact ⟨(mul_eq_zero.mp (by linarith : x * (v u.id).re = 0)).resolve_left hx0,
                (mul_eq_zero.mp (by linarith : x * (v u.id).im = 0)).resolve_left hx0⟩
      · rename_i hc
        have hlc : l.conj = !u.conj := by
          cases hu' : u.conj <;> cases hl' : l.conj <;> simp [hu', hl'] at hc ⊢
        rw [hlc]
        split at h <;> simp only [Option.some.injEq] at h <;> subst h
        · rename_i hf
          have hyx : y = x := (Complex.ofReal_injective hf).symm
          rw [sem_noIm hlt, hyx]
          refine and_congr_right fun _ => ?_
          cases u.conj <;> simp only [Complex.ext_iff, Complex.mul_re, Complex.mul_im, Complex.ofReal_re, Complex.ofReal_im,
              Complex.conj_re, Complex.conj_im, if_true, if_false, Bool.false_eq_true, Bool.not_false, Bool.not_true]
          · constructor
            · intro h1; rw [h1]; simp
            · rintro ⟨h1, h2⟩
              exact (mul_eq_zero.mp (by linarith : x * (v u.id).im = 0)).resolve_left hx0
          · constructor
            · intro h1; rw [h1]; simp
            · rintro ⟨h1, h2⟩
              exact (mul_eq_zero.mp (by linarith : x * (v u.id).im = 0)).resolve_left hx0
        · rename_i hf
          have hyx : y = -x := by
            rcases hxy with h | h
            · exact absurd (by rw [h]) hf
            · exact h
          rw [sem_noRe hlt, hyx]
          refine and_congr_right fun _ => ?_
          cases u.conj <;> simp only [Complex.ext_iff, Complex.mul_re, Complex.mul_im, Complex.ofReal_re, Complex.ofReal_im,
              Complex.conj_re, Complex.conj_im, if_true, if_false, Bool.false_eq_true, Bool.not_false, Bool.not_true]
          · constructor
            · intro h1; rw [h1]; simp
            · rintro ⟨h1, h2⟩
              exact (mul_eq_zero.mp (by linarith : x * (v u.id).re = 0)).resolve_left hx0
          · constructor
            · intro h1; rw [h1]; simp
            · rintro ⟨h1, h2⟩
              exact (mul_eq_zero.mp (by linarith : x * (v u.id).re = 0)).resolve_left hx0

/-- Conjugating the lower element turns the Hermitian condition into the symmetric one. -/
theorem hermPair_eq (u l : Mono) (b : Bits) : hermPair u l b = symPair u { l with conj := !l.conj } b := by
  unfold hermPair symPair mismatch
  dsimp only
  split
  · rfl
  · have : (¬ (u.conj ≠ l.conj)) ↔ ¬ (u.conj = !l.conj) := by
      cases u.conj <;> cases l.conj <;> simp
    by_cases hc : u.conj = !l.conj
    · rw [if_neg (fun h => this.mp h hc), if_pos hc]
    · rw [if_pos (this.mpr hc), if_neg hc]

theorem value_flip {v : Nat → ℂ} (hv : v 0 = 0) {l : Mono} (hl : Good l) :
    value v { l with conj := !l.conj } = starRingEnd ℂ (value v l) := by
  by_cases h0 : l.id = 0
  · rw [value_zero hv h0, value_zero hv (m := { l with conj := !l.conj }) h0]; simp
  · obtain ⟨h1, -⟩ := hl h0
    have ex : l.factor = (l.factor.re : ℂ) := Complex.ext rfl (by simp [h1])
    unfold value
    dsimp only
    rw [ex]
    cases l.conj <;> simp

theorem hermPair_sem {size v} (hv : v 0 = 0) {u l : Mono} (hu : Good u) (hl : Good l) (hlt : u.id < size) {b b'}
    (h : hermPair u l b = some b') : Sem size b' v ↔ Sem size b v ∧ value v u = starRingEnd ℂ (value v l) := by
  rw [hermPair_eq] at h
  rw [symPair_sem hv hu (l := { l with conj := !l.conj }) hl hlt h, value_flip hv hl]

theorem rowLoop_sem {size v} {f : Mono → Mono → Bits → Option Bits} {R : Mono → Mono → Prop} {M : Nat → Nat → Mono} {i : Nat}
    {N : Nat} (hf : ∀ k < N, ∀ {b b'}, f (M i k) (M k i) b = some b' → (Sem size b' v ↔ Sem size b v ∧ R (M i k) (M k i))) :
    ∀ (m j : Nat) {b b'}, j + m ≤ N → rowLoop f M i j m b = some b' →
      (Sem size b' v ↔ Sem size b v ∧ ∀ k, j ≤ k → k < j + m → R (M i k) (M k i))
  | 0, j, b, b', _, h => by
    simp only [rowLoop, Option.some.injEq] at h
    subst h
    constructor
    · exact fun h => ⟨h, fun k h1 h2 => by omega⟩
    · exact fun h => h.1
  | m + 1, j, b, b', hN, h => by
    simp only [rowLoop, Option.bind_eq_some_iff] at h
    obtain ⟨b1, h1, h2⟩ := h
    rw [rowLoop_sem hf m (j + 1) (by omega) h2, hf j (by omega) h1, and_assoc]
    refine and_congr_right fun _ => ?_
    constructor
    · rintro ⟨h3, h4⟩ k hk hk'
      rcases Nat.eq_or_lt_of_le hk with rfl | hk
      · exact h3
      · exact h4 k hk (by omega)
    · exact fun h => ⟨h j le_rfl (by omega), fun k hk hk' => h k (by omega) (by omega)⟩

theorem symLoop_sem {size v} (hv : v 0 = 0) {n : Nat} {M : Nat → Nat → Mono} (hg : ∀ i < n, ∀ j < n, Good (M i j))
    (hs : ∀ i < n, ∀ j < n, (M i j).id < size) :
    ∀ (m i : Nat) {b b'}, i + m = n → symLoop M i m b = some b' →
      (Sem size b' v ↔ Sem size b v ∧ ∀ a c, i ≤ a → a < c → c < n → value v (M a c) = value v (M c a))
  | 0, i, b, b', hn, h => by
    simp only [symLoop, Option.some.injEq] at h
    subst h
    exact ⟨fun h => ⟨h, fun a c h1 h2 h3 => by omega⟩, fun h => h.1⟩
  | m + 1, i, b, b', hn, h => by
    simp only [symLoop, Option.bind_eq_some_iff] at h
    obtain ⟨b1, h1, h2⟩ := h
    have hrow := rowLoop_sem (size := size) (v := v) (f := symPair) (R := fun u l => value v u = value v l) (M := M) (i := i) (N := n)
      (fun k hk b b' h => symPair_sem hv (hg i (by omega) k hk) (hg k hk i (by omega)) (hs i (by omega) k hk) h) m (i + 1)
      (by omega) h1
    rw [symLoop_sem hv hg hs m (i + 1) (by omega) h2, hrow, and_assoc]
    refine and_congr_right fun _ => ?_
    constructor
    · rintro ⟨h3, h4⟩ a c ha hac hc
      rcases Nat.eq_or_lt_of_le ha with rfl | ha
      · exact h3 c (by omega) (by omega)
      · exact h4 a c ha hac hc
    · exact fun h => ⟨fun k hk hk' => h i k le_rfl (by omega) (by omega), fun a c ha => h a c (by omega)⟩

theorem hermLoop_sem {size v} (hv : v 0 = 0) {n : Nat} {M : Nat → Nat → Mono} (hg : ∀ i < n, ∀ j < n, Good (M i j))
    (hs : ∀ i < n, ∀ j < n, (M i j).id < size) :
    ∀ (m i : Nat) {b b'}, i + m = n → hermLoop M i m b = some b' →
      (Sem size b' v ↔ Sem size b v ∧ (∀ a c, i ≤ a → a < c → c < n → value v (M a c) = starRingEnd ℂ (value v (M c a))) ∧
        ∀ a, i ≤ a → a < n → (v (M a a).id).im = 0)
  | 0, i, b, b', hn, h => by
    simp only [hermLoop, Option.some.injEq] at h
    subst h
    exact ⟨fun h => ⟨h, fun a c h1 h2 h3 => by omega, fun a h1 h2 => by omega⟩, fun h => h.1⟩
  | m + 1, i, b, b', hn, h => by
    simp only [hermLoop, Option.bind_eq_some_iff] at h
    obtain ⟨b1, h1, h2⟩ := h
    have hrow := rowLoop_sem (size := size) (v := v) (f := hermPair) (R := fun u l => value v u = starRingEnd ℂ (value v l))
      (M := M) (i := i) (N := n)
      (fun k hk b b' h => hermPair_sem hv (hg i (by omega) k hk) (hg k hk i (by omega)) (hs i (by omega) k hk) h) m (i + 1)
      (by omega) h1
    rw [hermLoop_sem hv hg hs m (i + 1) (by omega) h2, hrow, sem_noIm (hs i (by omega) i (by omega))]
    constructor
    · rintro ⟨⟨⟨h0, hd⟩, h3⟩, h4, h5⟩
      refine ⟨h0, fun a c ha hac hc => ?_, fun a ha ha' => ?_⟩
      · rcases Nat.eq_or_lt_of_le ha with rfl | ha
        · exact h3 c (by omega) (by omega)
        · exact h4 a c ha hac hc
      · rcases Nat.eq_or_lt_of_le ha with rfl | ha
        · exact hd
        · exact h5 a ha ha'
    · rintro ⟨h0, h3, h4⟩
      exact ⟨⟨⟨h0, h4 i le_rfl (by omega)⟩, fun k hk hk' => h3 i k le_rfl (by omega) (by omega)⟩,
        fun a c ha => h3 a c (by omega), fun a ha => h4 a (by omega)⟩

/-- A diagonal element is real exactly if its symbol is. -/
theorem real_iff {v : Nat → ℂ} (hv : v 0 = 0) {m : Mono} (hm : Good m) : (value v m).im = 0 ↔ (v m.id).im = 0 := by
  by_cases h0 : m.id = 0
  · rw [value_zero hv h0, h0, hv]
  · obtain ⟨h1, h2⟩ := hm h0
    have hre : m.factor.re ≠ 0 := fun h => h2 (Complex.ext h h1)
    unfold value
    rw [Complex.mul_im, h1]
    cases m.conj <;> simp [hre]

theorem mem_elems {n : Nat} {M : Nat → Nat → Mono} {x : Mono} : x ∈ elems n M ↔ ∃ i < n, ∃ j < n, x = M i j := by
  simp only [elems, List.mem_flatMap, List.mem_range, List.mem_map]
  constructor
  · rintro ⟨i, hi, j, hj, rfl⟩; exact ⟨i, hi, j, hj, rfl⟩
  · rintro ⟨i, hi, j, hj, rfl⟩; exact ⟨i, hi, j, hj, rfl⟩

theorem noIm_all {size v} : ∀ (l : List Mono) {b}, (∀ x ∈ l, x.id < size) →
    (Sem size (l.foldl (fun b x => b.noIm x.id) b) v ↔ Sem size b v ∧ ∀ x ∈ l, (v x.id).im = 0)
  | [], b, _ => by simp
  | x :: l, b, h => by
    rw [List.foldl_cons, noIm_all l (fun y hy => h y (by simp [hy])), sem_noIm (h x (by simp)), and_assoc]
    simp

theorem le_maxFold : ∀ (l : List Mono) (m : Nat), m ≤ l.foldl (fun m x => if x.id > m then x.id else m) m ∧
    ∀ x ∈ l, x.id ≤ l.foldl (fun m x => if x.id > m then x.id else m) m
  | [], m => by simp
  | x :: l, m => by
    obtain ⟨h1, h2⟩ := le_maxFold l (if x.id > m then x.id else m)
    simp only [List.foldl_cons, List.mem_cons, forall_eq_or_imp]
    have h3 : m ≤ (if x.id > m then x.id else m) ∧ x.id ≤ (if x.id > m then x.id else m) := by split <;> omega
    exact ⟨by omega, by omega, h2⟩

theorem maxId_spec (t : Table) (n : Nat) (M : Nat → Nat → Mono) :
    t.syms.length - 1 ≤ maxId t n M ∧ ∀ i < n, ∀ j < n, (M i j).id < maxId t n M + 1 := by
  obtain ⟨h1, h2⟩ := le_maxFold (elems n M) (t.syms.length - 1)
  refine ⟨h1, fun i hi j hj => ?_⟩
  have := h2 (M i j) (mem_elems.mpr ⟨i, hi, j, hj, rfl⟩)
  unfold maxId
  omega

/-! ## The table -/

/-- Values agree with the marks in a list of symbols. -/
def RespectsL (l : List Sym) (v : Nat → ℂ) : Prop :=
  ∀ s ∈ l, (s.herm = true → (v s.id).im = 0) ∧ (s.anti = true → (v s.id).re = 0)

theorem respectsL_cons {s : Sym} {l v} : RespectsL (s :: l) v ↔
    ((s.herm = true → (v s.id).im = 0) ∧ (s.anti = true → (v s.id).re = 0)) ∧ RespectsL l v := by
  simp [RespectsL]

theorem flagLoop_sem {v : Nat → ℂ} (hv : v 0 = 0) (re im : Nat → Bool) : ∀ (l : List Sym) (ch : Bool),
    (flagLoop re im l ch).2.2 = none →
    (RespectsL (flagLoop re im l ch).1 v ↔
      RespectsL l v ∧ ∀ s ∈ l, (im s.id = false → (v s.id).im = 0) ∧ (re s.id = false → (v s.id).re = 0))
  | [], ch, _ => by simp [flagLoop, RespectsL]
  | s :: l, ch, h => by
    unfold flagLoop at h ⊢
    split at h
    · rename_i hid
      rw [if_pos hid]
      dsimp only at h ⊢
      rw [respectsL_cons, flagLoop_sem hv re im l _ h, respectsL_cons]
      simp [hid, hv]
    · rename_i hid
      rw [if_neg hid]
      split at h
      · rename_i hre
        rw [if_pos hre]
        split at h
        · rename_i him
          rw [if_pos him]
          dsimp only at h ⊢
          rw [respectsL_cons, flagLoop_sem hv re im l _ h, respectsL_cons]
          simp [hre, him, and_assoc]
        · rename_i him
          rw [if_neg him]
          dsimp only at h ⊢
          split at h
          · simp at h
          · rename_i ha
            rw [if_neg ha]
            dsimp only at h ⊢
            rw [respectsL_cons, flagLoop_sem hv re im l _ h, respectsL_cons]
            simp [hre, him, ha]
            tauto
      · rename_i hre
        rw [if_neg hre]
        split at h
        · rename_i him
          rw [if_pos him]
          dsimp only at h ⊢
          split at h
          · simp at h
          · rename_i ha
            rw [if_neg ha]
            dsimp only at h ⊢
            rw [respectsL_cons, flagLoop_sem hv re im l _ h, respectsL_cons]
            simp [hre, him, ha]
            tauto
        · simp at h

theorem flagLoop_zero (re im : Nat → Bool) : ∀ (l : List Sym) (ch : Bool) (id : Nat),
    (flagLoop re im l ch).2.2 = some id → id ≠ 0 ∧ ∃ s ∈ l, s.id = id ∧ ∀ v : Nat → ℂ, RespectsL l v →
      (im s.id = false → (v s.id).im = 0) → (re s.id = false → (v s.id).re = 0) → v id = 0
  | [], ch, id, h => by simp [flagLoop] at h
  | s :: l, ch, id, h => by
    have next : ∀ ch', (flagLoop re im l ch').2.2 = some id → id ≠ 0 ∧ ∃ s' ∈ s :: l, s'.id = id ∧ ∀ v : Nat → ℂ, RespectsL (s :: l) v →
        (im s'.id = false → (v s'.id).im = 0) → (re s'.id = false → (v s'.id).re = 0) → v id = 0 := by
      intro ch' h'
      obtain ⟨h0, s', hs', e, hz⟩ := flagLoop_zero re im l ch' id h'
      exact ⟨h0, s', by simp [hs'], e, fun v hv => hz v (respectsL_cons.mp hv).2⟩
    unfold flagLoop at h
    split at h
    · exact next _ h
    · rename_i hid
      split at h
      · rename_i hre
        split at h
        · exact next _ h
        · rename_i him
          dsimp only at h
          split at h
          · rename_i ha
            simp only [Option.some.injEq] at h
            subst h
            refine ⟨hid, s, by simp, rfl, fun v hv h1 h2 => Complex.ext ?_ ?_⟩
            · exact (respectsL_cons.mp hv).1.2 ha
            · exact h1 (by simpa using him)
          · exact next _ h
      · rename_i hre
        split at h
        · dsimp only at h
          split at h
          · rename_i ha
            simp only [Option.some.injEq] at h
            subst h
            refine ⟨hid, s, by simp, rfl, fun v hv h1 h2 => Complex.ext ?_ ?_⟩
            · exact h2 (by simpa using hre)
            · exact (respectsL_cons.mp hv).1.1 ha
          · exact next _ h
        · rename_i him
          simp only [Option.some.injEq] at h
          subst h
          exact ⟨hid, s, by simp, rfl, fun v hv h1 h2 => Complex.ext (h2 (by simpa using hre)) (h1 (by simpa using him))⟩

theorem respects_renum {v : Nat → ℂ} : ∀ (l : List Sym) (b : Basis), RespectsL (renumLoop l b).1 v ↔ RespectsL l v
  | [], b => by simp [renumLoop]
  | s :: l, b => by
    simp only [renumLoop]
    rw [respectsL_cons, respects_renum l, respectsL_cons]

theorem respects_createMany {v : Nat → ℂ} : ∀ (n : Nat) (t : Table),
    RespectsL (t.createMany true true n).syms v ↔ RespectsL t.syms v
  | 0, t => Iff.rfl
  | n + 1, t => by
    rw [Table.createMany, respects_createMany n]
    simp only [Table.create, RespectsL, List.mem_append, List.mem_singleton]
    constructor
    · exact fun h s hs => h s (Or.inl hs)
    · rintro h s (hs | rfl)
      · exact h s hs
      · simp

theorem createMany_length : ∀ (n : Nat) (t : Table), (t.createMany true true n).syms.length = t.syms.length + n
  | 0, t => rfl
  | n + 1, t => by
    rw [Table.createMany, createMany_length n]
    simp [Table.create]
    omega

theorem grown_length {t : Table} {n : Nat} (h : t.syms.length ≤ n) : (t.grown n).syms.length = n := by
  unfold Table.grown
  split
  · rw [createMany_length]; omega
  · omega

theorem respects_grown {t : Table} {n : Nat} {v : Nat → ℂ} : RespectsL (t.grown n).syms v ↔ Respects t v := by
  unfold Table.grown
  split
  · exact respects_createMany _ _
  · exact Iff.rfl

theorem forall_syms {t : Table} (h : TInv t) {P : Nat → Prop} : (∀ s ∈ t.syms, P s.id) ↔ ∀ id < t.syms.length, P id := by
  have : (∀ s ∈ t.syms, P s.id) ↔ ∀ id ∈ t.syms.map Sym.id, P id := by simp
  rw [this, h.ids]
  simp

end Moment.Import
