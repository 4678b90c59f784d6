import Verif.Proof.Basis

/-! # Basis vectors: the way back, and matrices of many polynomials -/

namespace Moment.BasisVec

open Moment.Symbols (Sym Table Offsets Sound point flags)
open Moment.Poly (Mono Canonical Paired value Order)

/-! ## Indices and symbols -/

theorem real_sym {t : Table} (ht : Offsets t) {k i : Nat} (h : t.basis.real[k]? = some i) :
    ∃ s, t.syms[i]? = some s ∧ s.id = i ∧ s.re = some k := by
  have hi := ht.reAll i (List.mem_of_getElem? h)
  refine ⟨t.syms[i], List.getElem?_eq_getElem hi, ?_⟩
  have hid := Symbols.getElem?_id ht (List.getElem?_eq_getElem hi)
  exact ⟨hid, (ht.re _ (List.getElem_mem hi) k).mpr (by rw [hid]; exact h)⟩

theorem imag_sym {t : Table} (ht : Offsets t) {k i : Nat} (h : t.basis.imag[k]? = some i) :
    ∃ s, t.syms[i]? = some s ∧ s.id = i ∧ s.im = some k := by
  have hi := ht.imAll i (List.mem_of_getElem? h)
  refine ⟨t.syms[i], List.getElem?_eq_getElem hi, ?_⟩
  have hid := Symbols.getElem?_id ht (List.getElem?_eq_getElem hi)
  exact ⟨hid, (ht.im _ (List.getElem_mem hi) k).mpr (by rw [hid]; exact h)⟩

theorem real_inj {t : Table} (ht : Offsets t) {k k' i : Nat} (h : t.basis.real[k]? = some i) (h' : t.basis.real[k']? = some i) : k = k' := by
  obtain ⟨s, h1, h2, h3⟩ := real_sym ht h
  obtain ⟨s', h1', h2', h3'⟩ := real_sym ht h'
  rw [h1, Option.some.injEq] at h1'
  subst h1'
  rw [h3, Option.some.injEq] at h3'
  exact h3'

theorem imag_inj {t : Table} (ht : Offsets t) {k k' i : Nat} (h : t.basis.imag[k]? = some i) (h' : t.basis.imag[k']? = some i) : k = k' := by
  obtain ⟨s, h1, h2, h3⟩ := imag_sym ht h
  obtain ⟨s', h1', h2', h3'⟩ := imag_sym ht h'
  rw [h1, Option.some.injEq] at h1'
  subst h1'
  rw [h3, Option.some.injEq] at h3'
  exact h3'

/-! ## The map of values -/

/-- What the map of values stands for. -/
noncomputable def zSum (A B : Nat → ℂ) (z : List (Nat × ℂ × ℂ)) : ℂ := (z.map fun e => e.2.1 * A e.1 + e.2.2 * B e.1).sum

theorem emplace_perm {K : Type} (k : Nat) (x : K) : ∀ {z : List (Nat × K)}, (∀ e ∈ z, e.1 ≠ k) → (emplace k x z).Perm ((k, x) :: z)
  | [], _ => List.Perm.refl _
  | (j, y) :: l, h => by
    unfold emplace
    split
    · exact List.Perm.refl _
    · rw [if_neg (fun e => h (j, y) (by simp) e.symm)]
      exact ((emplace_perm k x fun e he => h e (by simp [he])).cons _).trans (List.Perm.swap _ _ _)

theorem keys_emplace {K : Type} {k : Nat} {x : K} {z : List (Nat × K)} (hz : (z.map Prod.fst).Nodup) (h : ∀ e ∈ z, e.1 ≠ k) :
    ((emplace k x z).map Prod.fst).Nodup := by
  rw [((emplace_perm k x h).map Prod.fst).nodup_iff, List.map_cons, List.nodup_cons]
  refine ⟨fun hm => ?_, hz⟩
  obtain ⟨e, he, e1⟩ := List.mem_map.mp hm
  exact h e he e1

theorem zSum_perm {A B : Nat → ℂ} {z z' : List (Nat × ℂ × ℂ)} (h : z.Perm z') : zSum A B z = zSum A B z' := (h.map _).sum_eq

theorem zipRe_spec {t : Table} (ht : Offsets t) (A B : Nat → ℂ) : ∀ (l : List (Nat × ℂ)) (z : List (Nat × ℂ × ℂ)),
    l.Pairwise (fun x y => x.1 < y.1) → (∀ e ∈ l, e.1 < t.basis.real.length) → (z.map Prod.fst).Nodup →
    (∀ e ∈ l, ∀ i, t.basis.real[e.1]? = some i → ∀ e' ∈ z, e'.1 ≠ i) → (∀ e ∈ z, e.2.2 = 0 ∧ e.1 < t.syms.length) →
    ∃ z', zipRe t l z = some z' ∧ (z'.map Prod.fst).Nodup ∧ (∀ e ∈ z', e.2.2 = 0 ∧ e.1 < t.syms.length) ∧
      zSum A B z' = zSum A B z + (l.map fun e => e.2 * A (t.basis.real.getD e.1 0)).sum
  | [], z, _, _, h1, _, h2 => ⟨z, rfl, h1, h2, by simp⟩
  | (k, x) :: l, z, hl, hr, h1, h3, h2 => by
    have hk := hr (k, x) (by simp)
    have he : t.basis.real[k]? = some t.basis.real[k] := List.getElem?_eq_getElem hk
    obtain ⟨s, hs, hid, -⟩ := real_sym ht he
    have habs := h3 (k, x) (by simp) _ he
    obtain ⟨hl1, hl2⟩ := List.pairwise_cons.mp hl
    have hp := emplace_perm (K := ℂ × ℂ) s.id (x, 0) (z := z) (by rw [hid]; exact habs)
    obtain ⟨z', e1, e2, e3, e4⟩ := zipRe_spec ht A B l (emplace s.id (x, 0) z) hl2 (fun e he => hr e (by simp [he]))
      (keys_emplace h1 (by rw [hid]; exact habs))
      (by
        intro e hel i hi e' he' e''
        rcases List.mem_cons.mp (hp.mem_iff.mp he') with rfl | he'
        · dsimp only at e''
          rw [hid] at e''
          rw [← e''] at hi
          have := real_inj ht he hi
          exact absurd (hl1 e hel) (by rw [← this]; exact lt_irrefl _)
        · exact h3 e (by simp [hel]) i hi e' he' e'')
      (by
        intro e he
        rcases List.mem_cons.mp (hp.mem_iff.mp he) with rfl | he
        · exact ⟨rfl, by dsimp only; rw [hid]; exact ht.reAll _ (List.getElem_mem hk)⟩
        · exact h2 e he)
    refine ⟨z', ?_, e2, e3, ?_⟩
    · unfold zipRe
      rw [he, Option.bind_some, hs, Option.bind_some, e1]
    · rw [e4, zSum_perm hp, List.map_cons, List.sum_cons]
      have : t.basis.real.getD k 0 = t.basis.real[k] := by simp [List.getD_eq_getElem?_getD, he]
      simp only [zSum, List.map_cons, List.sum_cons, zero_mul, add_zero, this, hid]
      ring

theorem lookup_isSome {K : Type} {z : List (Nat × K)} {k : Nat} : (z.lookup k).isSome = true ↔ ∃ e ∈ z, e.1 = k := by
  induction z with
  | nil => simp
  | cons e z ih =>
    rw [List.lookup_cons]
    by_cases h : k = e.1
    · simp [h]
    · have hb : (k == e.1) = false := by simpa using h
      rw [hb]
      simp only [List.mem_cons, exists_eq_or_imp]
      rw [← ih]
      simp [Ne.symm h]

theorem zSum_update {A B : Nat → ℂ} (i : Nat) (y : ℂ) : ∀ (z : List (Nat × ℂ × ℂ)), (z.map Prod.fst).Nodup → (∀ e ∈ z, e.1 = i → e.2.2 = 0) →
    zSum A B (z.map fun e => if e.1 = i then (e.1, e.2.1, y) else e) = zSum A B z + if (∃ e ∈ z, e.1 = i) then y * B i else 0
  | [], _, _ => by simp [zSum]
  | e :: z, h, h0 => by
    rw [List.map_cons, List.nodup_cons] at h
    have ih := zSum_update (A := A) (B := B) i y z h.2 (fun x hx => h0 x (by simp [hx]))
    simp only [zSum, List.map_cons, List.sum_cons, List.map_map] at ih ⊢
    by_cases he : e.1 = i
    · have hno : ¬ ∃ e' ∈ z, e'.1 = i := by
        rintro ⟨e', he', e1⟩
        exact h.1 (List.mem_map.mpr ⟨e', he', by rw [e1, he]⟩)
      rw [if_neg hno] at ih
      rw [ih, if_pos he, if_pos (⟨e, by simp, he⟩ : ∃ e' ∈ e :: z, e'.1 = i)]
      simp only [he, h0 e (by simp) he]
      ring
    · rw [ih, if_neg he]
      have : (∃ e' ∈ e :: z, e'.1 = i) ↔ ∃ e' ∈ z, e'.1 = i := by simp [he]
      simp only [this]
      ring

theorem zipIm_spec {t : Table} (ht : Offsets t) (A B : Nat → ℂ) : ∀ (l : List (Nat × ℂ)) (z : List (Nat × ℂ × ℂ)),
    l.Pairwise (fun x y => x.1 < y.1) → (∀ e ∈ l, e.1 < t.basis.imag.length) → (z.map Prod.fst).Nodup →
    (∀ e ∈ l, ∀ i, t.basis.imag[e.1]? = some i → ∀ e' ∈ z, e'.1 = i → e'.2.2 = 0) → (∀ e ∈ z, e.1 < t.syms.length) →
    ∃ z', zipIm t l z = some z' ∧ (z'.map Prod.fst).Nodup ∧ (∀ e ∈ z', e.1 < t.syms.length) ∧
      zSum A B z' = zSum A B z + (l.map fun e => e.2 * B (t.basis.imag.getD e.1 0)).sum
  | [], z, _, _, h1, _, h2 => ⟨z, rfl, h1, h2, by simp⟩
  | (k, y) :: l, z, hl, hr, h1, h3, h2 => by
    have hk := hr (k, y) (by simp)
    have he : t.basis.imag[k]? = some t.basis.imag[k] := List.getElem?_eq_getElem hk
    obtain ⟨s, hs, hid, -⟩ := imag_sym ht he
    have hzero := h3 (k, y) (by simp) _ he
    obtain ⟨hl1, hl2⟩ := List.pairwise_cons.mp hl
    have hg : t.basis.imag.getD k 0 = t.basis.imag[k] := by simp [List.getD_eq_getElem?_getD, he]
    have other : ∀ e ∈ l, ∀ i, t.basis.imag[e.1]? = some i → i ≠ s.id := by
      intro e hel i hi e1
      rw [e1, hid] at hi
      have := imag_inj ht he hi
      exact absurd (hl1 e hel) (by rw [← this]; exact lt_irrefl _)
    unfold zipIm
    rw [he, Option.bind_some, hs, Option.bind_some]
    by_cases hf : (z.lookup s.id).isSome = true
    · rw [if_pos hf]
      rw [lookup_isSome] at hf
      obtain ⟨z', e1, e2, e3, e4⟩ := zipIm_spec ht A B l (z.map fun e => if e.1 = s.id then (e.1, e.2.1, y) else e) hl2
        (fun e he => hr e (by simp [he]))
        (by
          rw [List.map_map, show (Prod.fst ∘ fun e : Nat × ℂ × ℂ => if e.1 = s.id then (e.1, e.2.1, y) else e) = Prod.fst from by
            funext e; simp only [Function.comp]; split <;> rfl]
          exact h1)
        (by
          intro e hel i hi e' he' e1
          obtain ⟨e0, h0, rfl⟩ := List.mem_map.mp he'
          have hne := other e hel i hi
          split at e1
          · rename_i hs'
            exact absurd (e1.symm.trans hs') hne
          · rename_i hs'
            rw [if_neg hs']
            exact h3 e (by simp [hel]) i hi e0 h0 e1)
        (by
          intro e he
          obtain ⟨e0, h0, rfl⟩ := List.mem_map.mp he
          split
          · exact h2 e0 h0
          · exact h2 e0 h0)
      refine ⟨z', e1, e2, e3, ?_⟩
      rw [e4, zSum_update s.id y z h1 (by rw [hid]; exact hzero), if_pos hf, List.map_cons, List.sum_cons]
      dsimp only
      rw [hg, hid]
      ring
    · rw [if_neg hf]
      rw [lookup_isSome] at hf
      have habs : ∀ e ∈ z, e.1 ≠ s.id := fun e he e1 => hf ⟨e, he, e1⟩
      have hp := emplace_perm (K := ℂ × ℂ) s.id (0, y) habs
      obtain ⟨z', e1, e2, e3, e4⟩ := zipIm_spec ht A B l (emplace s.id (0, y) z) hl2 (fun e he => hr e (by simp [he]))
        (keys_emplace h1 habs)
        (by
          intro e hel i hi e' he' e1
          rcases List.mem_cons.mp (hp.mem_iff.mp he') with rfl | he'
          · exact absurd e1.symm (other e hel i hi)
          · exact h3 e (by simp [hel]) i hi e' he' e1)
        (by
          intro e he
          rcases List.mem_cons.mp (hp.mem_iff.mp he) with rfl | he
          · dsimp only; rw [hid]; exact ht.imAll _ (List.getElem_mem hk)
          · exact h2 e he)
      refine ⟨z', e1, e2, e3, ?_⟩
      rw [e4, zSum_perm hp, List.map_cons, List.sum_cons]
      simp only [zSum, List.map_cons, List.sum_cons, zero_mul, zero_add, hg, hid]
      ring

theorem emit_value {t : Table} (ht : Sound t) {s : Sym} {id : Nat} (hs : t.syms[id]? = some s) (x y : ℂ) (a b : Nat → ℝ) :
    value (point t a b) (emit s id x y) = x * ((point t a b id).re : ℝ) + y * (Complex.I * ((point t a b id).im : ℝ)) := by
  have hp : point t a b id = s.at a b := by simp only [point, hs]
  obtain ⟨p1, p2⟩ := ht.parts s (List.mem_of_getElem? hs)
  have hv : point t a b id = ((point t a b id).re : ℝ) + Complex.I * ((point t a b id).im : ℝ) := by
    rw [mul_comm]; exact (Complex.re_add_im _).symm
  unfold emit
  split
  · rename_i h
    have h0 : (point t a b id).im = 0 := by rw [hp]; simp [Sym.at, p1.mp h]
    simp only [Poly.value, List.map_cons, List.map_nil, List.sum_cons, List.sum_nil, Mono.value, Bool.false_eq_true, if_false, add_zero]
    conv_lhs => rw [hv]
    rw [h0]
    simp
  · split
    · rename_i h
      have h0 : (point t a b id).re = 0 := by rw [hp]; simp [Sym.at, p2.mp h]
      simp only [Poly.value, List.map_cons, List.map_nil, List.sum_cons, List.sum_nil, Mono.value, Bool.false_eq_true, if_false, add_zero]
      conv_lhs => rw [hv]
      rw [h0]
      simp
    · rw [Poly.value_append]
      have e1 : value (point t a b) (if (1 / 2) * (x + y) = 0 then [] else [⟨id, false, (1 / 2) * (x + y)⟩]) = (1 / 2) * (x + y) * point t a b id := by
        split
        · rename_i h; rw [h]; simp [Poly.value]
        · simp [Poly.value, Mono.value]
      have e2 : value (point t a b) (if (1 / 2) * (x - y) = 0 then [] else [⟨id, true, (1 / 2) * (x - y)⟩]) =
          (1 / 2) * (x - y) * (starRingEnd ℂ) (point t a b id) := by
        split
        · rename_i h; rw [h]; simp [Poly.value]
        · simp [Poly.value, Mono.value]
      rw [e1, e2]
      have hc : (starRingEnd ℂ) (point t a b id) = ((point t a b id).re : ℝ) - Complex.I * ((point t a b id).im : ℝ) := by
        apply Complex.ext <;> simp
      rw [hc]
      conv_lhs => rw [hv]
      simp only [Complex.ofReal_re, Complex.ofReal_im, Complex.add_re, Complex.add_im, Complex.mul_re, Complex.mul_im, Complex.I_re, Complex.I_im]
      push_cast
      ring

theorem point_real {t : Table} (ht : Offsets t) {k : Nat} (h : k < t.basis.real.length) (a b : Nat → ℝ) :
    (point t a b (t.basis.real.getD k 0)).re = a k := by
  have he : t.basis.real[k]? = some t.basis.real[k] := List.getElem?_eq_getElem h
  obtain ⟨s, hs, hid, hre⟩ := real_sym ht he
  have hg : t.basis.real.getD k 0 = t.basis.real[k] := by simp [List.getD_eq_getElem?_getD, he]
  rw [hg]
  simp only [point, hs, Sym.at, hre, Option.elim_some]

theorem point_imag {t : Table} (ht : Offsets t) {k : Nat} (h : k < t.basis.imag.length) (a b : Nat → ℝ) :
    (point t a b (t.basis.imag.getD k 0)).im = b k := by
  have he : t.basis.imag[k]? = some t.basis.imag[k] := List.getElem?_eq_getElem h
  obtain ⟨s, hs, hid, him⟩ := imag_sym ht he
  have hg : t.basis.imag.getD k 0 = t.basis.imag[k] := by simp [List.getD_eq_getElem?_getD, he]
  rw [hg]
  simp only [point, hs, Sym.at, him, Option.elim_some]

theorem emit_ids {s : Sym} {id : Nat} {x y : ℂ} {m : Mono} (h : m ∈ emit s id x y) : m.id = id := by
  unfold emit at h
  split at h
  · rw [List.mem_singleton.mp h]
  · split at h
    · rw [List.mem_singleton.mp h]
    · rcases List.mem_append.mp h with h | h
      · split at h
        · simp at h
        · rw [List.mem_singleton.mp h]
      · split at h
        · simp at h
        · rw [List.mem_singleton.mp h]

/-- The polynomial made from two vectors. -/
theorem toPoly_spec {t : Table} (ht : Sound t) (o : Order) (ho : Function.Injective o.rank) {re im : List (Nat × ℂ)}
    (hre : Proper t.basis.real.length re) (him : Proper t.basis.imag.length im) :
    ∃ q, toPoly t (flags t) o re im = some q ∧ Canonical (flags t) o q ∧ (∀ m ∈ q, m.id < t.syms.length) ∧
      ∀ a b : Nat → ℝ, value (point t a b) q = dot re (fun k => (a k : ℂ)) + Complex.I * dot im (fun k => (b k : ℂ)) := by
  have hoff := ht.offsets
  obtain ⟨z, z1, z2, z3, -⟩ := zipRe_spec hoff 0 0 re [] hre.1 hre.2 (by simp) (by simp) (by simp)
  obtain ⟨w, w1, w2, w3, -⟩ := zipIm_spec hoff 0 0 im z him.1 him.2 z2 (fun e _ i _ e' he' _ => (z3 e' he').1) (fun e he => (z3 e he).2)
  have hsome : (w.mapM fun e => (t.syms[e.1]?).map fun s => emit s e.1 e.2.1 e.2.2).isSome = true := by
    rw [mapM_isSome]
    intro e he
    simp [w3 e he]
  obtain ⟨l, hl⟩ := Option.isSome_iff_exists.mp hsome
  have hl' := mapM_some.mp hl
  refine ⟨Poly.make (flags t) o l.flatten, ?_, Poly.make_canonical _ o ho _, ?_, ?_⟩
  · unfold toPoly
    simp only [z1, Option.bind_eq_bind, Option.bind_some, w1, hl]
  · intro m hm
    obtain ⟨y, hy, e1⟩ := Poly.make_ids hm
    rw [← e1]
    clear hl hm w1 w2 w3 hsome
    induction hl' with
    | nil => simp at hy
    | cons hq _ ih =>
      rw [List.flatten_cons] at hy
      rcases List.mem_append.mp hy with hy | hy
      · simp only [Option.map_eq_some_iff] at hq
        obtain ⟨s, hs, rfl⟩ := hq
        rw [emit_ids hy]
        exact (List.getElem?_eq_some_iff.mp hs).1
      · exact ih hy
  · intro a b
    rw [Poly.make_value (Symbols.respects_point ht a b)]
    obtain ⟨z', z1', -, -, z4⟩ := zipRe_spec hoff (fun i => ((point t a b i).re : ℂ)) (fun i => Complex.I * ((point t a b i).im : ℝ)) re [] hre.1 hre.2
      (by simp) (by simp) (by simp)
    obtain rfl : z' = z := by rw [z1, Option.some.injEq] at z1'; exact z1'.symm
    obtain ⟨w', w1', -, -, w4⟩ := zipIm_spec hoff (fun i => ((point t a b i).re : ℂ)) (fun i => Complex.I * ((point t a b i).im : ℝ)) im z' him.1 him.2 z2
      (fun e _ i _ e' he' _ => (z3 e' he').1) (fun e he => (z3 e he).2)
    obtain rfl : w' = w := by rw [w1, Option.some.injEq] at w1'; exact w1'.symm
    have hsum : value (point t a b) l.flatten = zSum (fun i => ((point t a b i).re : ℂ)) (fun i => Complex.I * ((point t a b i).im : ℝ)) w' := by
      clear hl w1 w2 w3 w4 w1' hsome
      induction hl' with
      | nil => simp [Poly.value, zSum]
      | cons hq _ ih =>
        simp only [Option.map_eq_some_iff] at hq
        obtain ⟨s, hs, rfl⟩ := hq
        rw [List.flatten_cons, Poly.value_append, ih, emit_value ht hs]
        simp only [zSum, List.map_cons, List.sum_cons]
    rw [hsum, w4, z4]
    have e0 : zSum (fun i => ((point t a b i).re : ℂ)) (fun i => Complex.I * ((point t a b i).im : ℝ)) [] = 0 := by simp [zSum]
    rw [e0, zero_add]
    congr 1
    · unfold dot
      congr 1
      refine List.map_congr_left fun e he => ?_
      rw [point_real hoff (hre.2 e he)]
    · unfold dot
      rw [← List.sum_map_mul_left]
      congr 1
      refine List.map_congr_left fun e he => ?_
      rw [point_imag hoff (him.2 e he)]
      ring

end Moment.BasisVec
