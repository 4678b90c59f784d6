import Verif.Proof.BasisRewrite
import Verif.Props.C23_MomentRules

/-! # C25, C67, C68: polynomials, masks and rulebooks in the real basis -/

namespace Moment.C25

open Moment.Symbols Moment.BasisVec
open Moment.Poly (Mono Canonical value Order byId)
open Moment.C21 (byId_injective)

/-- A table with one further symbol, which has both parts. -/
def demo : Symbols.Table := (Table.new.create true true).1

theorem demo_reached : Reached demo :=
  ⟨⟨id, fun _ => (false, false), false, id, fun _ => false⟩, [.create true true], fun _ => rfl, by simp [Op.Parts], rfl⟩

theorem demo_syms : demo.syms[0]? = some Sym.zero ∧ demo.syms[1]? = some Sym.one ∧
    demo.syms[2]? = some { id := 2, seq := none, conj := none, herm := false, anti := false, re := some 1, im := some 0 } := ⟨rfl, rfl, rfl⟩

/-- X + 2i X* - i -/
noncomputable def poly : List Mono := [⟨1, false, -Complex.I⟩, ⟨2, false, 1⟩, ⟨2, true, 2 * Complex.I⟩]

theorem poly_canonical : Canonical (flags demo) byId poly := by
  refine ⟨by simp [poly, byId], by simp [poly], ?_⟩
  intro m hm hc
  simp only [poly, List.mem_cons, List.not_mem_nil, or_false] at hm
  rcases hm with rfl | rfl | rfl
  · simp at hc
  · simp at hc
  · exact ⟨rfl, rfl⟩

theorem poly_ids : ∀ m ∈ poly, m.id < demo.syms.length := by
  intro m hm
  simp only [poly, List.mem_cons, List.not_mem_nil, or_false] at hm
  rcases hm with rfl | rfl | rfl <;> decide

/-- **C25.** A conversion throws exactly when the polynomial has a symbol that the table does not know. -/
theorem C25_throws (t : Symbols.Table) (p : List Mono) :
    ((complexVec t p).isSome = true ↔ ∀ m ∈ p, m.id < t.syms.length) ∧ ((BasisVec.realPart t p).isSome = true ↔ ∀ m ∈ p, m.id < t.syms.length) ∧
    ((imagPart t p).isSome = true ↔ ∀ m ∈ p, m.id < t.syms.length) := by
  unfold complexVec BasisVec.realPart imagPart
  rw [Option.isSome_map, Option.isSome_map, Option.isSome_map, terms_isSome]
  exact ⟨Iff.rfl, Iff.rfl, Iff.rfl⟩

/-- **C25.** The complex basis vectors are proper sparse vectors, and their linear combination of the unknowns is the value of the polynomial. -/
theorem C25_complex (t : Symbols.Table) (ht : Reached t) (o : Order) (p : List Mono) (hp : Canonical (flags t) o p) (hr : ∀ m ∈ p, m.id < t.syms.length) :
    ∃ r, complexVec t p = some r ∧ Proper t.basis.real.length r.1 ∧ Proper t.basis.imag.length r.2 ∧
      ∀ a b : Nat → ℝ, dot r.1 (fun k => (a k : ℂ)) + dot r.2 (fun k => (b k : ℂ)) = value (point t a b) p := by
  obtain ⟨r, h⟩ := Option.isSome_iff_exists.mp ((C25_throws t p).1.mpr hr)
  obtain ⟨h1, h2⟩ := complexVec_proper ht.sound.offsets hp h
  exact ⟨r, h, h1, h2, complexVec_dot ht.sound.offsets (Poly.canonical_paired hp) h⟩

example : Reached demo ∧ Canonical (flags demo) byId poly ∧ ∀ m ∈ poly, m.id < demo.syms.length := ⟨demo_reached, poly_canonical, poly_ids⟩

/-- **C25.** The vectors of the real part give the real part of the value. -/
theorem C25_real (t : Symbols.Table) (ht : Reached t) (o : Order) (p : List Mono) (hp : Canonical (flags t) o p) (hr : ∀ m ∈ p, m.id < t.syms.length) :
    ∃ r, BasisVec.realPart t p = some r ∧ Proper t.basis.real.length r.1 ∧ Proper t.basis.imag.length r.2 ∧
      ∀ a b : Nat → ℝ, dot r.1 a + dot r.2 b = (value (point t a b) p).re := by
  obtain ⟨r, h⟩ := Option.isSome_iff_exists.mp ((C25_throws t p).2.1.mpr hr)
  refine ⟨r, h, ?_⟩
  have hd := realPart_dot ht.sound.offsets (Poly.canonical_paired hp) h
  unfold BasisVec.realPart at h
  simp only [Option.map_eq_some_iff] at h
  obtain ⟨l, hl, rfl⟩ := h
  obtain ⟨h1, h2⟩ := distinct_terms ht.sound.offsets hp hl
  exact ⟨fill_proper _ _ h1, fill_proper _ _ h2, hd⟩

example : Reached demo ∧ Canonical (flags demo) byId poly ∧ ∀ m ∈ poly, m.id < demo.syms.length := ⟨demo_reached, poly_canonical, poly_ids⟩

/-- **C25, part.** The vectors of the imaginary part give the imaginary part of the value when all coefficients are real. Missing: other
coefficients, see `C25_refuted_imaginary`. -/
theorem C25_imaginary_partial (t : Symbols.Table) (ht : Reached t) (o : Order) (p : List Mono) (hp : Canonical (flags t) o p)
    (hr : ∀ m ∈ p, m.id < t.syms.length) (hreal : ∀ m ∈ p, m.factor.im = 0) :
    ∃ r, imagPart t p = some r ∧ Proper t.basis.real.length r.1 ∧ Proper t.basis.imag.length r.2 ∧
      ∀ a b : Nat → ℝ, dot r.1 a + dot r.2 b = (value (point t a b) p).im := by
  obtain ⟨r, h⟩ := Option.isSome_iff_exists.mp ((C25_throws t p).2.2.mpr hr)
  refine ⟨r, h, ?_⟩
  have hd := imagPart_dot ht.sound.offsets (Poly.canonical_paired hp) hreal h
  unfold imagPart at h
  simp only [Option.map_eq_some_iff] at h
  obtain ⟨l, hl, rfl⟩ := h
  obtain ⟨h1, h2⟩ := distinct_terms ht.sound.offsets hp hl
  exact ⟨fill_proper _ _ h1, fill_proper _ _ h2, hd⟩

example : Canonical (flags demo) byId [⟨1, false, 3⟩, ⟨2, false, 1⟩, ⟨2, true, -2⟩] ∧
    ∀ m ∈ ([⟨1, false, 3⟩, ⟨2, false, 1⟩, ⟨2, true, -2⟩] : List Mono), m.factor.im = 0 := by
  refine ⟨⟨by simp [byId], by simp, ?_⟩, by simp⟩
  intro m hm hc
  simp only [List.mem_cons, List.not_mem_nil, or_false] at hm
  rcases hm with rfl | rfl | rfl
  · simp at hc
  · simp at hc
  · exact ⟨rfl, rfl⟩

/-- **C25 fails for the imaginary part.** The polynomial `i` has imaginary part 1, but the vectors give 0: the coefficient of the real part is stored. -/
theorem C25_refuted_imaginary : ∃ r, imagPart demo [⟨1, false, Complex.I⟩] = some r ∧
    (∀ a b : Nat → ℝ, dot r.1 a + dot r.2 b = 0) ∧ ∃ a b : Nat → ℝ, (value (point demo a b) [⟨1, false, Complex.I⟩]).im = 1 := by
  refine ⟨_, rfl, ?_, ?_⟩
  · intro a b
    simp [pairs, demo_syms.2.1, fill, Sym.one, Sym.ofSeq, bzAx, azAx, insertAt, dot]
  · refine ⟨fun _ => 1, fun _ => 0, ?_⟩
    simp [Poly.value, Mono.value, point, demo_syms.2.1, Sym.one, Sym.ofSeq, Sym.at]

/-- **C25.** Many polynomials at once: the matrices are as `setFromSortedTriplets` wants them, and column `c` is the vector of polynomial `c`. -/
theorem C25_columns (t : Symbols.Table) (ht : Reached t) (o : Order) (ps : List (List Mono)) (hp : ∀ p ∈ ps, Canonical (flags t) o p)
    (hr : ∀ p ∈ ps, ∀ m ∈ p, m.id < t.syms.length) : ∃ r, monolith t ps 0 = some r ∧
      SortedTriplets t.basis.real.length ps.length r.1 ∧ SortedTriplets t.basis.imag.length ps.length r.2 ∧
      ∀ (c : Nat) (p : List Mono), ps[c]? = some p → ∀ a b : Nat → ℝ,
        colDot r.1 c (fun k => (a k : ℂ)) + colDot r.2 c (fun k => (b k : ℂ)) = value (point t a b) p := by
  obtain ⟨r, h, ⟨h1, h2⟩, ⟨h3, h4⟩, h5⟩ := monolith_spec ht.sound.offsets ps 0 hp hr
  refine ⟨r, h, ⟨h1, fun e he => ?_⟩, ⟨h3, fun e he => ?_⟩, fun c p hc a b => ?_⟩
  · have := h2 e he; omega
  · have := h4 e he; omega
  · have := h5 c p hc a b
    rwa [Nat.zero_add] at this

example : ∀ p ∈ [poly, poly], Canonical (flags demo) byId p := by simpa using poly_canonical

/-- **C25.** Back from proper vectors: the polynomial is in canonical form, knows only symbols of the table, and its value is the linear combination of
the unknowns with the second vector counted as coefficients of `i b`. -/
theorem C25_back (t : Symbols.Table) (ht : Reached t) (o : Order) (ho : Function.Injective o.rank) (re im : List (Nat × ℂ))
    (hre : Proper t.basis.real.length re) (him : Proper t.basis.imag.length im) :
    ∃ q, toPoly t (flags t) o re im = some q ∧ Canonical (flags t) o q ∧ (∀ m ∈ q, m.id < t.syms.length) ∧
      ∀ a b : Nat → ℝ, value (point t a b) q = dot re (fun k => (a k : ℂ)) + Complex.I * dot im (fun k => (b k : ℂ)) :=
  toPoly_spec ht.sound o ho hre him

example : Proper demo.basis.real.length [(0, (3 : ℂ)), (1, Complex.I)] ∧ Proper demo.basis.imag.length [(0, (2 : ℂ))] :=
  ⟨⟨by simp, by simp [demo, Table.new, Table.create, Basis.push]⟩, by simp, by simp [demo, Table.new, Table.create, Basis.push]⟩

/-- **C25, part.** There and back gives the polynomial when the second vector is multiplied by `-i` in between. Missing: without this factor, see
`C25_refuted_round_trip`. -/
theorem C25_round_trip_partial (t : Symbols.Table) (ht : Reached t) (o : Order) (ho : Function.Injective o.rank) (p : List Mono)
    (hp : Canonical (flags t) o p) (hr : ∀ m ∈ p, m.id < t.syms.length) :
    ∃ r, complexVec t p = some r ∧ toPoly t (flags t) o r.1 (r.2.map fun e => (e.1, -Complex.I * e.2)) = some p :=
  round_poly ht.sound ho hp hr

example : Reached demo ∧ Function.Injective byId.rank ∧ Canonical (flags demo) byId poly := ⟨demo_reached, byId_injective, poly_canonical⟩

/-- **C25, part.** From vectors to the polynomial and back gives the first vector, and `i` times the second. -/
theorem C25_vectors_round_trip_partial (t : Symbols.Table) (ht : Reached t) (o : Order) (ho : Function.Injective o.rank) (re im : List (Nat × ℂ))
    (hre : Proper t.basis.real.length re) (him : Proper t.basis.imag.length im) (hre0 : ∀ e ∈ re, e.2 ≠ 0) (him0 : ∀ e ∈ im, e.2 ≠ 0) :
    ∃ q, toPoly t (flags t) o re im = some q ∧ complexVec t q = some (re, im.map fun e => (e.1, Complex.I * e.2)) :=
  round_vec ht.sound ho hre him hre0 him0

example : Proper demo.basis.imag.length [(0, (2 : ℂ))] ∧ ∀ e ∈ [(0, (2 : ℂ))], e.2 ≠ 0 :=
  ⟨⟨by simp, by simp [demo, Table.new, Table.create, Basis.push]⟩, by simp⟩

theorem complexVec_symbol : complexVec demo [⟨2, false, 1⟩] = some ([(1, 1)], [(0, Complex.I)]) := by
  have h1 : zAx 1 0 = 1 := by rw [zAx_eq]; simp
  have h2 : zBx 1 0 = Complex.I := by rw [zBx_eq]; simp
  simp [complexVec, terms, pairs, demo_syms.2.2, fill, h1, h2, insertAt]

/-- **C25 fails for the round trip.** The symbol X = a + i b comes back as a polynomial with value a - b. -/
theorem C25_refuted_round_trip : ∃ r q, complexVec demo [⟨2, false, 1⟩] = some r ∧ toPoly demo (flags demo) byId r.1 r.2 = some q ∧
    q ≠ [⟨2, false, 1⟩] ∧ ∀ a b : Nat → ℝ, value (point demo a b) q = ((a 1 - b 0 : ℝ) : ℂ) := by
  obtain ⟨q, h1, -, -, h2⟩ := C25_back demo demo_reached byId byId_injective [(1, 1)] [(0, Complex.I)]
    ⟨by simp, by simp [demo, Table.new, Table.create, Basis.push]⟩ ⟨by simp, by simp [demo, Table.new, Table.create, Basis.push]⟩
  have hv : ∀ a b : Nat → ℝ, value (point demo a b) q = ((a 1 - b 0 : ℝ) : ℂ) := by
    intro a b
    rw [h2]
    simp only [dot, List.map_cons, List.map_nil, List.sum_cons, List.sum_nil, add_zero, one_mul]
    rw [← mul_assoc, Complex.I_mul_I]
    push_cast; ring
  refine ⟨_, q, complexVec_symbol, h1, ?_, hv⟩
  intro he
  have h := hv (fun _ => 0) (fun _ => 1)
  rw [he] at h
  have := congrArg Complex.im h
  simp [Poly.value, Mono.value, point, demo_syms.2.2, Sym.at] at this

/-- **C25 fails for `ComplexBasisVector(real part, imaginary part)`.** For the polynomial `1` it gives the coefficient `i` instead of 1. -/
theorem C25_refuted_of_parts : ∃ r i c, BasisVec.realPart demo [⟨1, false, 1⟩] = some r ∧ imagPart demo [⟨1, false, 1⟩] = some i ∧
    complexVec demo [⟨1, false, 1⟩] = some c ∧ coef c.1 0 = 1 ∧ (ofParts r i).1 0 = Complex.I := by
  have h1 : zAx 1 0 = 1 := by rw [zAx_eq]; simp
  have h2 : azAx 1 0 = 1 := by simp [azAx]
  have h3 : bzAx 1 0 = 0 := by simp [bzAx]
  refine ⟨([(0, 1)], []), ([], []), ([(0, 1)], []), ?_, ?_, ?_, ?_, ?_⟩
  · simp [BasisVec.realPart, terms, pairs, demo_syms.2.1, fill, Sym.one, Sym.ofSeq, h2, insertAt]
  · simp [imagPart, terms, pairs, demo_syms.2.1, fill, Sym.one, Sym.ofSeq, h3]
  · simp [complexVec, terms, pairs, demo_syms.2.1, fill, Sym.one, Sym.ofSeq, h1, insertAt]
  · simp [coef]
  · simp [ofParts, coef]

end Moment.C25

namespace Moment.C67

open Moment.Symbols Moment.BasisVec Moment.C25
open Moment.Poly (Mono Canonical value Order byId)

/-- **C67.** The mask of a polynomial has exactly the basis elements that its value depends on, and is not written out of range. -/
theorem C67_mask (t : Symbols.Table) (ht : Reached t) (o : Order) (p : List Mono) (hp : Canonical (flags t) o p) (hr : ∀ m ∈ p, m.id < t.syms.length) :
    ∃ R I, maskBits t p = some (R, I) ∧ (∀ k, (k ∈ R ↔ DependsRe t p k) ∧ (k ∈ I ↔ DependsIm t p k)) ∧
      (∀ k ∈ R, k < t.basis.real.length) ∧ ∀ k ∈ I, k < t.basis.imag.length :=
  mask_depends ht.sound hp hr

example : Reached demo ∧ Canonical (flags demo) byId poly ∧ ∀ m ∈ poly, m.id < demo.syms.length := ⟨demo_reached, poly_canonical, poly_ids⟩

/-- **C67, part.** The same for a single monomial, apart from the two elements with index 0. Missing: these, see `C67_refuted_monomial`. -/
theorem C67_monomial_partial (t : Symbols.Table) (ht : Reached t) (m : Mono) (hid : m.id < t.syms.length) :
    ∃ R I, maskBitsMono t m = some (R, I) ∧ ∀ k, 0 < k → (k ∈ R ↔ DependsRe t [m] k) ∧ (k ∈ I ↔ DependsIm t [m] k) := by
  unfold maskBitsMono
  have hs : t.syms[m.id]? = some t.syms[m.id] := List.getElem?_eq_getElem hid
  have hm := List.mem_of_getElem? hs
  by_cases h0 : m.id = 0 ∨ m.factor = 0
  · rw [if_pos h0]
    have hv : ∀ a b : Nat → ℝ, value (point t a b) [m] = 0 := by
      intro a b
      rcases h0 with h | h
      · have hz : point t a b m.id = 0 := by rw [h]; exact (respects_point ht.sound a b).zero
        simp [Poly.value, Mono.value, hz]
      · simp [Poly.value, Mono.value, h]
    exact ⟨[], [], rfl, fun k _ => ⟨by simp [DependsRe, hv], by simp [DependsIm, hv]⟩⟩
  · rw [if_neg h0, hs, Option.map_some]
    push Not at h0
    refine ⟨_, _, rfl, fun k hk => ?_⟩
    generalize t.syms[m.id] = s at hs hm
    have hv : ∀ a b : Nat → ℝ, value (point t a b) [m] = m.factor * if m.conj then (starRingEnd ℂ) (s.at a b) else s.at a b := by
      intro a b
      simp [Poly.value, Mono.value, point, hs]
    have hne : ∀ a b a' b' : Nat → ℝ, value (point t a' b') [m] ≠ value (point t a b) [m] ↔ s.at a' b' ≠ s.at a b := by
      intro a b a' b'
      rw [hv, hv, not_iff_not]
      rw [mul_right_inj' h0.2]
      cases m.conj
      · simp
      · simp only [if_true]
        exact (starRingEnd ℂ).injective.eq_iff
    constructor
    · simp only [List.mem_filter, Option.mem_toList, decide_eq_true_eq, DependsRe, hne]
      constructor
      · rintro ⟨h, -⟩
        refine ⟨fun _ => 0, fun _ => 0, fun j => if j = k then 1 else 0, fun j hj => by simp [hj], ?_⟩
        intro e
        have := congrArg Complex.re e
        simp [Sym.at, h] at this
      · rintro ⟨a, b, a', h1, h2⟩
        refine ⟨?_, hk⟩
        by_contra hc
        apply h2
        cases hre : s.re with
        | none => simp [Sym.at, hre]
        | some j => simp [Sym.at, hre, h1 j (fun e => hc (e ▸ hre))]
    · simp only [List.mem_filter, Option.mem_toList, decide_eq_true_eq, DependsIm, hne]
      constructor
      · rintro ⟨h, -⟩
        refine ⟨fun _ => 0, fun _ => 0, fun j => if j = k then 1 else 0, fun j hj => by simp [hj], ?_⟩
        intro e
        have := congrArg Complex.im e
        simp [Sym.at, h] at this
      · rintro ⟨a, b, b', h1, h2⟩
        refine ⟨?_, hk⟩
        by_contra hc
        apply h2
        cases him : s.im with
        | none => simp [Sym.at, him]
        | some j => simp [Sym.at, him, h1 j (fun e => hc (e ▸ him))]

example : Reached demo ∧ (⟨2, true, Complex.I⟩ : Mono).id < demo.syms.length := ⟨demo_reached, by decide⟩

/-- **C67 fails for a single monomial.** The identity depends on the first element of the basis, but no bit is set; and the first symbol with an
imaginary part does not set its bit. -/
theorem C67_refuted_monomial : maskBitsMono demo ⟨1, false, 1⟩ = some ([], []) ∧ DependsRe demo [⟨1, false, 1⟩] 0 ∧
    maskBitsMono demo ⟨2, false, 1⟩ = some ([1], []) ∧ DependsIm demo [⟨2, false, 1⟩] 0 := by
  refine ⟨?_, ?_, ?_, ?_⟩
  · simp [maskBitsMono, demo_syms.2.1, Sym.one, Sym.ofSeq]
  · refine ⟨fun _ => 0, fun _ => 0, fun j => if j = 0 then 1 else 0, fun j hj => by simp [hj], ?_⟩
    simp [Poly.value, Mono.value, point, demo_syms.2.1, Sym.one, Sym.ofSeq, Sym.at, Complex.ext_iff]
  · simp [maskBitsMono, demo_syms.2.2]
  · refine ⟨fun _ => 0, fun _ => 0, fun j => if j = 0 then 1 else 0, fun j hj => by simp [hj], ?_⟩
    simp [Poly.value, Mono.value, point, demo_syms.2.2, Sym.at, Complex.ext_iff]

end Moment.C67

namespace Moment.C68

open Moment.Symbols Moment.BasisVec Moment.C25
open Moment.Poly (Mono Canonical value Order MRule Book Solves Holds Assignment byId)

/-- Every interreduced list of well-formed rules is the completion of its own equations. -/
theorem book_of_inv {t : Poly.Table} (ht : t.Good) {o : Order} (ho : o.Good) {b : List MRule} (h : Poly.Inv t o b) : Book t o b := by
  have hraw : ∀ p ∈ b.map (MRule.asPolynomial o), Canonical t o p := by
    intro p hp
    obtain ⟨r, hr, rfl⟩ := List.mem_map.mp hp
    exact Poly.asPolynomial_canonical ho.injective (h.ok r hr)
  have hz : ∀ v, Poly.Zero v (b.map (MRule.asPolynomial o)) ↔ ∀ r ∈ b, Holds v r := by
    intro v
    simp only [Poly.Zero, List.mem_map, forall_exists_index, and_imp, forall_apply_eq_imp_iff₂]
    exact forall₂_congr fun r hr => Poly.asPolynomial_zero ho.injective (h.ok r hr).lhs v
  have hsol : ∀ v, Solves t b v ↔ Solves t [] v ∧ Poly.Zero v (b.map (MRule.asPolynomial o)) := by
    intro v
    rw [hz]
    exact ⟨fun x => ⟨⟨x.1, by simp⟩, x.2⟩, fun x => ⟨x.1.1, x.2⟩⟩
  rcases C56.C56_complete t ht o ho [] .empty _ hraw with ⟨-, hn⟩ | ⟨b', k, h1, h2, -, -⟩
  · exact absurd ((hsol _).mp (h.subst_solves (Poly.zero_assignment ht))) (hn _)
  · have hb' : Book t o b' := .complete .empty hraw h1
    have : b = b' := Poly.inv_unique ht ho h (C56.book_inv ht ho hb') fun v => (hsol v).trans (h2 v).symm
    rw [this]
    exact hb'

/-- A table with two further symbols X, Y that have both parts. -/
def two : Symbols.Table := (demo.create true true).1

theorem two_reached : Reached two :=
  ⟨⟨id, fun _ => (false, false), false, id, fun _ => false⟩, [.create true true, .create true true], fun _ => rfl, by simp [Op.Parts], rfl⟩

theorem two_syms : two.syms[1]? = some Sym.one ∧
    two.syms[2]? = some { id := 2, seq := none, conj := none, herm := false, anti := false, re := some 1, im := some 0 } ∧
    two.syms[3]? = some { id := 3, seq := none, conj := none, herm := false, anti := false, re := some 2, im := some 1 } := ⟨rfl, rfl, rfl⟩

/-- A direction that is neither real nor imaginary. -/
noncomputable def dir : ℂ := ⟨3 / 5, 4 / 5⟩

theorem dir_unit : dir * (starRingEnd ℂ) dir = 1 := by
  apply Complex.ext
  · simp [dir]; norm_num
  · simp [dir]; norm_num

theorem dir_ne : dir ≠ 0 := fun h => by have := dir_unit; rw [h] at this; simp at this

/-- The rules "the component of X along `dir` is 0" and "Y is the other component of X", which say that X = Y has no component along `dir`. -/
noncomputable def skew : List MRule := [⟨2, Poly.freePart 2 dir, true, dir⟩, ⟨3, Poly.freePart 2 dir, false, 0⟩]

theorem skew_inv : Poly.Inv (flags two) byId skew := by
  have h1 : Canonical (flags two) byId (Poly.freePart 2 dir) := Poly.freePart_canonical (by decide) rfl rfl dir_ne
  have okX : (⟨2, Poly.freePart 2 dir, true, dir⟩ : MRule).OK (flags two) byId := by
    refine ⟨by decide, ?_, ?_, by simp, fun h => ?_, fun h => ?_, fun _ => ⟨rfl, rfl, ?_, dir_unit, Or.inr ?_, ?_⟩⟩
    · simpa [MRule.core, Poly.freePart] using (⟨by simp, by simp, by simp⟩ : Canonical (flags two) byId [])
    · simp [Poly.Below, MRule.core, Poly.freePart]
    · exact absurd h (by decide)
    · exact absurd h (by decide)
    · simp [MRule.core, Poly.freePart]
    · simp [dir]
    · simp [MRule.core, Poly.freePart]
  have okY : (⟨3, Poly.freePart 2 dir, false, 0⟩ : MRule).OK (flags two) byId := by
    refine ⟨by decide, by simpa [MRule.core] using h1, ?_, by simp, fun h => ?_, fun h => ?_, by simp⟩
    · simp [Poly.Below, MRule.core, Poly.freePart, byId]
    · exact absurd h (by decide)
    · exact absurd h (by decide)
  refine ⟨by simp [Poly.Ordered, skew, byId], by simpa [skew] using ⟨okX, okY⟩, ?_⟩
  have m1 : Poly.Meets ⟨2, Poly.freePart 2 dir, true, dir⟩ (Poly.freePart 2 dir) := by
    simp [Poly.Meets, Poly.freePart, Poly.coeff_cons]
  have m2 : Poly.Meets ⟨3, Poly.freePart 2 dir, false, 0⟩ (Poly.freePart 2 dir) := by
    simp [Poly.Meets, Poly.freePart, Poly.coeff_cons]
  simpa [skew] using ⟨m1, m2⟩

theorem skew_book : Book (flags two) byId skew := book_of_inv (good_flags two_reached.sound) C23.byId_good skew_inv

theorem skew_ids : (∀ r ∈ skew, r.lhs < two.syms.length) ∧ ∀ r ∈ skew, ∀ m ∈ r.rhs, m.id < two.syms.length := by
  have : two.syms.length = 4 := rfl
  constructor
  · simp [skew, this]
  · simp [skew, this, Poly.freePart]

/-- **C68.** The rewrite matrix leaves exactly those values of the unknowns unchanged that satisfy all rules, and the homogeneous matrix sends exactly
these to zero; neither conversion throws when the table knows the symbols of the rules. -/
theorem C68_matrix (t : Symbols.Table) (ht : Reached t) (o : Order) (ho : o.Good) (b : List MRule) (hb : Book (flags t) o b)
    (hl : ∀ r ∈ b, r.lhs < t.syms.length) (hid : ∀ r ∈ b, ∀ m ∈ r.rhs, m.id < t.syms.length) : ∃ M N,
      rulebookMatrix t .rewrite b = some M ∧ rulebookMatrix t .homogeneous b = some N ∧
      ∀ x y : Nat → ℝ, point t x y 1 = 1 →
        (Solves (flags t) b (point t x y) ↔
          ∀ i, i < t.basis.real.length + t.basis.imag.length → apply M (joined t.basis.real.length x y) i = joined t.basis.real.length x y i) ∧
        (Solves (flags t) b (point t x y) ↔
          ∀ i, i < t.basis.real.length + t.basis.imag.length → apply N (joined t.basis.real.length x y) i = 0) := by
  have hinv := C56.book_inv (good_flags ht.sound) ho hb
  have hd : b.Pairwise fun r s => r.lhs ≠ s.lhs := hinv.ordered.imp fun h e => by rw [e] at h; exact lt_irrefl _ h
  obtain ⟨M, h1, h2⟩ := rulebookMatrix_spec ht.sound b hinv.ok hd hl hid .rewrite
  obtain ⟨N, h3, h4⟩ := rulebookMatrix_spec ht.sound b hinv.ok hd hl hid .homogeneous
  refine ⟨M, N, h1, h3, fun x y hxy => ?_⟩
  have ha : Assignment (flags t) (point t x y) := ⟨respects_point ht.sound x y, hxy⟩
  have hs : Solves (flags t) b (point t x y) ↔ ∀ r ∈ b, Holds (point t x y) r := ⟨fun h => h.2, fun h => ⟨ha, h⟩⟩
  rw [hs]
  exact ⟨h2 x y ha, h4 x y ha⟩

example : Reached two ∧ byId.Good ∧ Book (flags two) byId skew ∧ (∀ r ∈ skew, r.lhs < two.syms.length) ∧
    ∀ r ∈ skew, ∀ m ∈ r.rhs, m.id < two.syms.length := ⟨two_reached, C23.byId_good, skew_book, skew_ids⟩

/-- **C68, part.** If every rule fixes a whole symbol, its real part or its imaginary part, then the rewrite matrix turns any values of the unknowns
into values that satisfy all rules. Missing: rules in other directions, see `C68_refuted_rewrite`. -/
theorem C68_rewrite_partial (t : Symbols.Table) (ht : Reached t) (o : Order) (ho : o.Good) (b : List MRule) (hb : Book (flags t) o b)
    (hst : ∀ r ∈ b, r.Straight) (hl : ∀ r ∈ b, r.lhs < t.syms.length) (hid : ∀ r ∈ b, ∀ m ∈ r.rhs, m.id < t.syms.length) :
    ∃ M, rulebookMatrix t .rewrite b = some M ∧ ∀ x y : Nat → ℝ, point t x y 1 = 1 →
      Solves (flags t) b (point t (fun k => apply M (joined t.basis.real.length x y) k)
        (fun k => apply M (joined t.basis.real.length x y) (t.basis.real.length + k))) := by
  obtain ⟨M, N, h1, -, -⟩ := C68_matrix t ht o ho b hb hl hid
  exact ⟨M, h1, fun x y hxy => rewrite_solves ht.sound b (C56.book_inv (good_flags ht.sound) ho hb) hst hl hid h1 x y hxy⟩

/-- The rule X → real part of X, that is "the imaginary part of X is 0". -/
noncomputable def straight : List MRule := [⟨2, Poly.freePart 2 Complex.I, true, Complex.I⟩]

example : Book (flags two) byId straight ∧ ∀ r ∈ straight, r.Straight := by
  refine ⟨book_of_inv (good_flags two_reached.sound) C23.byId_good ⟨by simp [Poly.Ordered, straight], ?_, ?_⟩, by simp [straight, MRule.Straight]⟩
  · simp only [straight, List.mem_singleton, forall_eq]
    refine ⟨by decide, ?_, ?_, by simp, fun h => ?_, fun h => ?_, fun _ => ⟨rfl, rfl, ?_, by simp, Or.inr ?_, ?_⟩⟩
    · simpa [MRule.core, Poly.freePart] using (⟨by simp, by simp, by simp⟩ : Canonical (flags two) byId [])
    · simp [Poly.Below, MRule.core, Poly.freePart]
    · exact absurd h (by decide)
    · exact absurd h (by decide)
    · simp [MRule.core, Poly.freePart]
    · simp
    · simp [MRule.core, Poly.freePart]
  · simp [straight, Poly.Meets, Poly.freePart, Poly.coeff_cons]

/-- **C68 fails for rewriting with other directions.** With X = 1, Y = 0 the rewrite matrix of `skew` gives X a new value, but puts Y to the old
other component of X, not to the new one: the result does not satisfy the rules. -/
theorem C68_refuted_rewrite : ∃ M, rulebookMatrix two .rewrite skew = some M ∧ ∃ x y : Nat → ℝ, point two x y 1 = 1 ∧
    ¬ Solves (flags two) skew (point two (fun k => apply M (joined two.basis.real.length x y) k)
      (fun k => apply M (joined two.basis.real.length x y) (two.basis.real.length + k))) := by
  obtain ⟨M, N, h1, -, -⟩ := C68_matrix two two_reached byId C23.byId_good skew skew_book skew_ids.1 skew_ids.2
  refine ⟨M, h1, fun k => if k < 2 then 1 else 0, fun _ => 0, ?_, ?_⟩
  · simp [point, two_syms.1, Sym.one, Sym.ofSeq, Sym.at, Complex.ext_iff]
  · intro hs
    have hn : two.basis.real.length = 3 := rfl
    have hm : two.basis.imag.length = 2 := rfl
    have d1 : dir.im ≠ 0 := by simp [dir]
    have d2 : dir.re ≠ 0 := by simp [dir]
    have d3 : ¬ |dir.im| ≤ |dir.re| := by
      rw [abs_of_pos (by simp [dir]), abs_of_pos (by simp [dir])]
      simp [dir]
      norm_num
    have g1 : azAx (1 / 2) (-dir * dir * (1 / 2)) = 16 / 25 := by simp [azAx, dir]; norm_num
    have hT : tripletRow two (Poly.freePart 2 dir) (some 2) (some 1) = some
        (putTriplet (some 2) (some 1) (azAx (1 / 2) (-dir * dir * (1 / 2))) ++ putTriplet (some 4) (some 1) (bzAx (1 / 2) (-dir * dir * (1 / 2))) ++
          putTriplet (some 2) (some 3) (azBx (1 / 2) (-dir * dir * (1 / 2))) ++
          putTriplet (some 4) (some 3) (bzBx (1 / 2) (-dir * dir * (1 / 2)))) := by
      simp [tripletRow, terms, pairs, Poly.freePart, two_syms.2.1, hn]
    have hX : tripletRow two [] (some 3) none = some [] := by simp [tripletRow, terms, pairs]
    have hM : apply M (joined 3 (fun k => if k < 2 then 1 else 0) fun _ => 0) 1 = 1 ∧
        apply M (joined 3 (fun k => if k < 2 then 1 else 0) fun _ => 0) 2 = 16 / 25 := by
      simp only [rulebookMatrix, ruleRows, skew, ruleRow, two_syms.2.1, two_syms.2.2, Option.bind_some, if_true, if_neg d1, if_neg d2, if_neg d3,
        Bool.false_eq_true, if_false, hn, hm] at h1
      have hc : Poly.scale ((1 / dir.im : ℝ) : ℂ) (Poly.scale ((starRingEnd ℂ) dir) (Poly.freePart 2 dir).dropLast.dropLast) = [] := by
        simp [Poly.freePart, Poly.scale]
      rw [hc, hX, hT] at h1
      simp only [Option.map_some, Option.bind_eq_bind, Option.bind_some, Option.some.injEq, Option.toList_some, List.nil_append, List.append_nil] at h1
      rw [← h1]
      have r3 : List.range 3 = [0, 1, 2] := rfl
      have r2 : List.range 2 = [0, 1] := rfl
      rw [r3, r2]
      simp only [apply_append, apply_put, g1]
      simp [apply, joined]
    have hX2 := hs.2 _ (List.mem_cons_self ..)
    have hY2 := hs.2 _ (List.mem_cons_of_mem _ (List.mem_cons_self ..))
    unfold Holds at hX2 hY2
    have hxy := hX2.trans hY2.symm
    have := congrArg Complex.re hxy
    simp only [point, two_syms.2.1, two_syms.2.2, Sym.at, Option.elim_some, hn] at this
    rw [hM.1, hM.2] at this
    norm_num at this

end Moment.C68
