import Verif.Proof.FactorRules
import Verif.Props.C104_ExtendedMatrix

/-! # C106: products of symbols and rules for products in inflation scenarios -/

set_option linter.unusedSectionVars false

namespace Moment.C106
open Moment Moment.Inflation Moment.Inflation.Extend Moment.Inflation.Expand
open Moment.Poly (Mono MRule value Solves Assignment Canonical ofMono findRule reduceBook byId)
open Moment.C104 (Reach reach_good OfMoments)

theorem byId_ok : byId.Good := C23.byId_good

section
variable {W : Type} [DecidableEq W] {sc : Scenario W} {D : W → Prop} {zero one : W} {E : Type} {mono : Nat → E} {t : Table W}
  {sort : List (List Mono) → List (List Mono)}

/-! ## Products of symbols -/

/-- C106. The product of two symbols, where there is a result, is a symbol with the product of their values. -/
theorem C106_product (law : Lawful sc D zero one) (h : Reach sc D zero one mono t) {M : Type} [CommMonoidWithZero M] {v : Nat → M}
    (hv : Extend.Respects t v) {a b k : Nat} (hk : times t a b = .ok k) : v k = v a * v b := times_value (reach_good law h) hv hk

/-- C106. The product of two symbols is found exactly if there is a symbol with the factors of both, and then it has these factors; otherwise the symbol is
reported as unknown. -/
theorem C106_product_found (law : Lawful sc D zero one) (h : Reach sc D zero one mono t) (hs : Settled t) {a b : Nat} (ha : 1 < a) (hb : 1 < b)
    {la lb : List Nat} (hla : FactorsOf t a la) (hlb : FactorsOf t b lb) (h0 : 0 ∉ la ++ lb) :
    (∃ k l, times t a b = .ok k ∧ FactorsOf t k l ∧ l.Perm (la ++ lb)) ∨
    (times t a b = .error .unknownSymbol ∧ ¬ ∃ k l, FactorsOf t k l ∧ l.Perm (la ++ lb)) := by
  have hg := reach_good law h
  have he := times_eq hg hs ha hb hla hlb
  cases hf : t.find (stableSort id (la ++ lb)) with
  | some k =>
    rw [hf] at he
    exact Or.inl ⟨k, _, he, find_factors hg hf, stableSort_perm id _⟩
  | none =>
    rw [hf] at he
    refine Or.inr ⟨he, ?_⟩
    rintro ⟨k, l, hk, hp⟩
    obtain ⟨la', lb', h1, h2, h3⟩ := missing_absent hg hs (a := a) (b := b)
      ⟨by obtain ⟨e, he, -⟩ := hla; exact (List.getElem?_eq_some_iff.mp he).1, by obtain ⟨e, he, -⟩ := hlb; exact (List.getElem?_eq_some_iff.mp he).1, he⟩
    obtain ⟨e1, a1, rfl⟩ := hla
    obtain ⟨e2, a2, rfl⟩ := h1
    obtain ⟨e3, a3, rfl⟩ := hlb
    obtain ⟨e4, a4, rfl⟩ := h2
    rw [a1] at a2; cases a2
    rw [a3] at a4; cases a4
    exact h3 k l hk (fun hl => h0 (hp.mem_iff.mp hl)) hp

/-- C106. The product of two polynomials, where there is a result, is a polynomial in canonical form with the product of their values, and each of its
symbols is the product of a symbol of each. -/
theorem C106_polynomial (law : Lawful sc D zero one) (h : Reach sc D zero one mono t) {p q r : List Mono} (hr : timesPoly t byId p q = .ok r) :
    (∀ v, Factored t v → value v r = value v p * value v q) ∧ (Canonical flags byId p → Canonical flags byId r) ∧
    ∀ x ∈ r, ∃ m ∈ p, ∃ n ∈ q, ∀ v, Factored t v → v x.id = v m.id * v n.id := by
  have hg := reach_good law h
  exact ⟨fun v hv => timesPoly_value hg hv hr, fun hp => timesPoly_canonical byId_ok.injective hp hr, fun x hx => timesPoly_terms hg hr hx⟩

/-- C106. Multiplication of polynomials with symbols of the table fails only with `unknown_symbol`, and only if a product of two symbols is not there. -/
theorem C106_polynomial_fails (law : Lawful sc D zero one) (h : Reach sc D zero one mono t) (hs : Settled t) {p q : List Mono}
    (hp : Canonical flags byId p) (hq : Canonical flags byId q) (kp : ∀ m ∈ p, m.id < t.syms.length) (kq : ∀ m ∈ q, m.id < t.syms.length) {e : Stop}
    (he : timesPoly t byId p q = .error e) : e = .unknownSymbol ∧ ∃ a b, Absent t a b := by
  have hg := reach_good law h
  rw [← hg.sync] at kp kq
  obtain ⟨h1, a, b, h2⟩ := timesPoly_stops hp hq kp kq he
  exact ⟨h1, a, b, missing_absent hg hs h2⟩

/-! ## Expansion of rulebooks -/

theorem new_canonical (law : Lawful sc D zero one) (hg : Good sc D zero one t) {b : Book} (hb : b.Proper byId) {first : Nat} {new : List (List Mono)}
    (h : rulesFor t byId b.rules (t.entries.drop first) = .ok new) : ∀ p ∈ new, Canonical flags byId p := by
  intro p hp
  obtain ⟨e, he, h1⟩ := (rulesFor_mem h).mp hp
  obtain ⟨i, hi⟩ := List.mem_iff_getElem?.mp (List.mem_of_mem_drop he)
  exact ruleFor_canonical law hg byId_ok.injective (C56.book_inv flags_good byId_ok hb.made).ok hi h1

theorem new_zero (hg : Good sc D zero one t) {b : Book} {first : Nat} {new : List (List Mono)}
    (h : rulesFor t byId b.rules (t.entries.drop first) = .ok new) {v : Nat → ℂ} (hv : Factored t v) (hs : Solves flags b.rules v) : Poly.Zero v new := by
  intro p hp
  obtain ⟨e, he, h1⟩ := (rulesFor_mem h).mp hp
  obtain ⟨i, hi⟩ := List.mem_iff_getElem?.mp (List.mem_of_mem_drop he)
  exact ruleFor_value hg byId_ok.injective hi h1 hv hs

/-- The cases of an expansion. -/
theorem expand_cases (law : Lawful sc D zero one) (hg : Good sc D zero one t) (hsort : ∀ l, (sort l).Perm l) {b : Book} (hb : b.Proper byId) (first : Nat) :
    (b.safe = false ∧ expand t byId sort b first = .done b 0) ∨
    (b.safe = true ∧ b.rules = [] ∧ expand t byId sort b first = .done { b with expansion := true } 0) ∨
    (b.safe = true ∧ t.entries.length < first ∧ expand t byId sort b first = .stopped { b with expansion := true } .undefined) ∨
    (∃ s, first ≤ t.entries.length ∧ rulesFor t byId b.rules (t.entries.drop first) = .error s ∧
      expand t byId sort b first = .stopped { b with expansion := true } s) ∨
    (b.safe = true ∧ b.rules ≠ [] ∧ ∃ new, first ≤ t.entries.length ∧ rulesFor t byId b.rules (t.entries.drop first) = .ok new ∧
      ((expand t byId sort b first = .contradiction ∧ ∀ v, ¬ (b.Holds v ∧ Poly.Zero v new)) ∨
        ∃ b' c, expand t byId sort b first = .done b' c ∧ (∀ v, b'.Holds v ↔ b.Holds v ∧ Poly.Zero v new) ∧ b'.Proper byId ∧ b'.raw = [] ∧
          b'.expansion = false ∧ b'.used = b.used ∧ b'.safe = b.safe ∧ c = (b'.rules.length : Int) - b.rules.length - b.rules.length ∧
          ∀ n, b.Known n → (∀ p ∈ new, ∀ m ∈ p, m.id < n) → b'.Known n)) := by
  unfold expand
  by_cases hsafe : b.safe = true
  · rw [if_neg (by simp [hsafe])]
    dsimp only
    by_cases hr : b.rules = []
    · exact Or.inr (Or.inl ⟨hsafe, hr, by rw [if_pos (by simp [hr])]⟩)
    · rw [if_neg (by simpa using hr)]
      by_cases hf : t.entries.length < first
      · exact Or.inr (Or.inr (Or.inl ⟨hsafe, hf, by rw [if_pos hf]⟩))
      · rw [if_neg hf]
        cases hn : rulesFor t byId b.rules (t.entries.drop first) with
        | error s => exact Or.inr (Or.inr (Or.inr (Or.inl ⟨s, by omega, rfl, rfl⟩)))
        | ok new =>
          refine Or.inr (Or.inr (Or.inr (Or.inr ⟨hsafe, hr, new, by omega, rfl, ?_⟩)))
          have hc := new_canonical law hg hb hn
          have hb' : Book.Proper byId { b with expansion := true } := ⟨hb.made, hb.raw⟩
          rcases finish_spec byId_ok hsort hb' rfl hc with h | ⟨b', c, h1, h2, h3, h4, h5, h6, h7, h8⟩
          · exact Or.inl h
          · refine Or.inr ⟨b', c, h1, h2, h3, h4, h5, h6, h7, h8, fun n hk hkn => ?_⟩
            exact finish_known byId_ok rfl hsort hb' rfl hc h1 ⟨hk.lhs, hk.rhs, hk.raw⟩ hkn
  · exact Or.inl ⟨by simpa using hsafe, by simp [hsafe]⟩

/-- C106. An expansion that ends without exception keeps the equations of the rulebook, and adds none for values that multiply as the factors do. -/
theorem C106_sound (law : Lawful sc D zero one) (h : Reach sc D zero one mono t) (hsort : ∀ l, (sort l).Perm l) {b : Book} (hb : b.Proper byId) {first : Nat}
    {b' : Book} {c : Int} (he : expand t byId sort b first = .done b' c) :
    b'.Proper byId ∧ b'.used = b.used ∧ b'.safe = b.safe ∧ (∀ v, b'.Holds v → b.Holds v) ∧ ∀ v, Factored t v → (b'.Holds v ↔ b.Holds v) := by
  have hg := reach_good law h
  rcases expand_cases law hg hsort hb first with ⟨-, h1⟩ | ⟨-, -, h1⟩ | ⟨-, -, h1⟩ | ⟨s, -, -, h1⟩ | ⟨-, -, new, -, hn, ⟨h1, -⟩ | ⟨b1, c1, h1, h2, h3, h4, h5, h6, h7, -⟩⟩
  · rw [he] at h1; cases h1
    exact ⟨hb, rfl, rfl, fun _ h => h, fun _ _ => Iff.rfl⟩
  · rw [he] at h1; cases h1
    exact ⟨⟨hb.made, hb.raw⟩, rfl, rfl, fun _ h => h, fun _ _ => Iff.rfl⟩
  · rw [he] at h1; cases h1
  · rw [he] at h1; cases h1
  · rw [he] at h1; cases h1
  · rw [he] at h1; cases h1
    refine ⟨h3, h6, h7, fun v hv => ((h2 v).mp hv).1, fun v hv => ⟨fun hh => ((h2 v).mp hh).1, fun hh => (h2 v).mpr ⟨hh, ?_⟩⟩⟩
    exact new_zero hg hn hv hh.1

/-- C106. A contradiction is reported only if no values that multiply as the factors do satisfy the rulebook. -/
theorem C106_contradiction (law : Lawful sc D zero one) (h : Reach sc D zero one mono t) (hsort : ∀ l, (sort l).Perm l) {b : Book} (hb : b.Proper byId)
    {first : Nat} (he : expand t byId sort b first = .contradiction) : ∀ v, Factored t v → ¬ b.Holds v := by
  have hg := reach_good law h
  rcases expand_cases law hg hsort hb first with ⟨-, h1⟩ | ⟨-, -, h1⟩ | ⟨-, -, h1⟩ | ⟨s, -, -, h1⟩ | ⟨-, -, new, -, hn, ⟨h1, h2⟩ | ⟨b1, c1, h1, -⟩⟩
  any_goals (rw [he] at h1; cases h1)
  exact fun v hv hh => h2 v ⟨hh, new_zero hg hn hv hh.1⟩

/-- C106. With a rulebook and a first symbol within the table, an expansion ends, with a rulebook within the table, a contradiction, or the exception
`unknown_symbol`; in the last case a product is not in the table, and the rules are as before. -/
theorem C106_outcome (law : Lawful sc D zero one) (h : Reach sc D zero one mono t) (hs : Settled t) (hsort : ∀ l, (sort l).Perm l) {b : Book}
    (hb : b.Proper byId) (hk : b.Known t.syms.length) {first : Nat} (hf : first ≤ t.syms.length) :
    (∃ b' c, expand t byId sort b first = .done b' c ∧ b'.Known t.syms.length) ∨ expand t byId sort b first = .contradiction ∨
    (expand t byId sort b first = .stopped { b with expansion := true } .unknownSymbol ∧ ∃ a b, Absent t a b) := by
  have hg := reach_good law h
  rw [← hg.sync] at hk hf ⊢
  rcases expand_cases law hg hsort hb first with ⟨-, h1⟩ | ⟨-, -, h1⟩ | ⟨-, h2, h1⟩ | ⟨s, -, h2, h1⟩ | ⟨-, -, new, -, hn, ⟨h1, -⟩ | ⟨b1, c1, h1, -, -, -, -, -, -, -, h2⟩⟩
  · exact Or.inl ⟨_, _, h1, hk⟩
  · exact Or.inl ⟨_, _, h1, ⟨hk.lhs, hk.rhs, hk.raw⟩⟩
  · omega
  · obtain ⟨e, he, h3⟩ := rulesFor_error h2
    obtain ⟨i, hi⟩ := List.mem_iff_getElem?.mp (List.mem_of_mem_drop he)
    obtain ⟨rfl, a, b, h4⟩ := ruleFor_stops hg byId_ok.injective (C56.book_inv flags_good byId_ok hb.made).ok hk.rhs hi h3
    exact Or.inr (Or.inr ⟨h1, a, b, missing_absent hg hs h4⟩)
  · exact Or.inr (Or.inl h1)
  · refine Or.inl ⟨_, _, h1, h2 _ hk fun p hp => ?_⟩
    obtain ⟨e, he, h3⟩ := (rulesFor_mem hn).mp hp
    obtain ⟨i, hi⟩ := List.mem_iff_getElem?.mp (List.mem_of_mem_drop he)
    exact ruleFor_known hg hk.rhs hi h3

/-- C106. After an expansion each symbol that is a product, from the first symbol on, with a factor that has a rule, is replaced by the product of what its
factors are replaced by: the product is written with symbols of the table, each of which is a product of symbols of the replacements. -/
theorem C106_complete (law : Lawful sc D zero one) (h : Reach sc D zero one mono t) (hsort : ∀ l, (sort l).Perm l) {b : Book} (hb : b.Proper byId) {first : Nat}
    {b' : Book} {c : Int} (he : expand t byId sort b first = .done b' c) (hsafe : b.safe = true) {i : Nat} (hi : first ≤ i) {ks : List Nat}
    (hks : FactorsOf t i ks) (hlen : 1 < ks.length) {r : MRule} (hr : r ∈ b.rules) (hrk : r.lhs ∈ ks) :
    ∃ qs P, List.Forall₂ (Replaces b.rules) ks qs ∧ Canonical flags byId P ∧ (∀ m ∈ P, ProductOf t qs m.id) ∧
      (∀ v, Factored t v → value v P = (qs.map (value v)).prod) ∧ (∀ v, b'.Holds v → v i = value v P) ∧
      reduceBook flags byId b'.rules [⟨i, false, 1⟩] = reduceBook flags byId b'.rules P := by
  have hg := reach_good law h
  have hne : b.rules ≠ [] := List.ne_nil_of_mem hr
  rcases expand_cases law hg hsort hb first with ⟨h1, -⟩ | ⟨-, h1, -⟩ | ⟨-, -, h1⟩ | ⟨s, -, -, h1⟩ | ⟨-, -, new, -, hn, ⟨h1, -⟩ | ⟨b1, c1, h1, h2, h3, h4, -⟩⟩
  · rw [hsafe] at h1; cases h1
  · exact absurd h1 hne
  · rw [he] at h1; cases h1
  · rw [he] at h1; cases h1
  · rw [he] at h1; cases h1
  rw [he] at h1
  cases h1
  obtain ⟨e, hie, rfl⟩ := hks
  have hil := (List.getElem?_eq_some_iff.mp hie).1
  have hed : e ∈ t.entries.drop first := by
    rw [List.mem_iff_getElem?]
    exact ⟨i - first, by rw [List.getElem?_drop, show first + (i - first) = i by omega]; exact hie⟩
  obtain ⟨xs, hxs, rfl⟩ := rulesFor_spec hn
  obtain ⟨j, hj⟩ := List.mem_iff_getElem?.mp hed
  obtain ⟨x, hx⟩ : ∃ x, xs[j]? = some x := by
    have := (List.getElem?_eq_some_iff.mp hj).1
    rw [hxs.length_eq] at this
    exact ⟨_, List.getElem?_eq_getElem this⟩
  have hrule : ruleFor t byId b.rules e = .ok x := by
    obtain ⟨h5, h6⟩ := List.getElem?_eq_some_iff.mp hj
    obtain ⟨h7, h8⟩ := List.getElem?_eq_some_iff.mp hx
    rw [← h6, ← h8]
    exact (List.forall₂_iff_get.mp hxs).2 j h5 h7
  have hids := hg.ids i e hie
  rcases ruleFor_some hrule with ⟨-, h5 | h5⟩ | ⟨k, l, p, h5, h6, h7, h8⟩
  · have := hg.count i e hie
    simp only [Entry.fundamental, decide_eq_true_eq] at h5
    omega
  · exact absurd rfl (h5 _ hrk r hr)
  have hok := (C56.book_inv flags_good byId_ok hb.made).ok
  have hp1 := multiplyAll_canonical byId_ok.injective (replacement_canonical hok k) h7
  have hi1 : 1 < i := (not_fundamental law hg hie h5).1
  have hsolve : ∀ v, b'.Holds v → v i = value v p := by
    intro v hv
    have := ((h2 v).mp hv).2 _ (List.mem_flatMap.mpr ⟨x, List.mem_of_getElem? hx, by rw [h8]; simp; rfl⟩)
    rw [Poly.append_eq, Poly.mergeAdd_value v byId_ok.injective, hids] at this
    simp [Mono.value] at this
    linear_combination -this
  refine ⟨e.symbols.map (replacement b.rules), p, ?_, hp1, ?_, ?_, hsolve, ?_⟩
  · rw [List.forall₂_map_right_iff, List.forall₂_same]
    exact fun k _ => replacement_replaces _ k
  · have := multiplyAll_terms hg (qs := [replacement b.rules k]) (p := replacement b.rules k) (fun m hm => ?_) h7
    · rw [h6]; exact this
    · exact ⟨[m.id], .cons ⟨m, hm, rfl⟩ .nil, fun v _ => by simp⟩
  · intro v hv
    rw [multiplyAll_replaced hg hv h7, h6]
    simp [Function.comp_def]
  · refine (C57.C57_normal_form flags flags_good byId byId_ok _ h3.made _ _ ⟨by simp, by simp; omega, by simp⟩ hp1).mpr fun v hv => ?_
    rw [← hsolve v ⟨hv, by rw [h4]; simp [Poly.Zero]⟩]
    simp [Mono.value]

/-! ### Numbers -/

theorem number_of {c : ℂ} {v : Nat → ℂ} (h0 : v 0 = 0) (h1 : v 1 = 1) : value v (ofMono ⟨1, false, c⟩) = c := by
  rw [Poly.ofMono_value v h0]; simp [Mono.value, h1]

theorem timesPoly_number {c d : ℂ} : timesPoly t byId (ofMono ⟨1, false, d⟩) (ofMono ⟨1, false, c⟩) = .ok (ofMono ⟨1, false, d * c⟩) := by
  by_cases hc : c = 0
  · simp [timesPoly, ofMono, hc]
  · by_cases hd : d = 0
    · simp [timesPoly, ofMono, hc, hd, Poly.scale]
    · simp only [timesPoly, ofMono, hc, hd, Poly.scale, ne_eq, one_ne_zero, not_false_eq_true, and_self, if_true, mul_eq_zero, or_self, List.map_cons, List.map_nil,
        if_false]
      split
      · rename_i h; simp_all
      · simp_all [mul_comm]

theorem multiplyAll_number {b : List MRule} {c : Nat → ℂ} : ∀ {l : List Nat} {d : ℂ}, (∀ k ∈ l, replacement b k = ofMono ⟨1, false, c k⟩) →
    multiplyAll t byId b (ofMono ⟨1, false, d⟩) l = .ok (ofMono ⟨1, false, d * (l.map c).prod⟩)
  | [], d, _ => by simp [multiplyAll]
  | k :: l, d, h => by
    rw [multiplyAll]
    split
    · rename_i hd
      have : d = 0 := by
        by_contra hne
        simp [ofMono, hne] at hd
      subst this
      simp
    · rw [h k (by simp), timesPoly_number]
      show multiplyAll t byId b _ l = _
      rw [multiplyAll_number fun k hk => h k (by simp [hk])]
      simp [mul_assoc]

/-- C106. In particular, if the rulebook gives numbers to all factors of a symbol, expansion gives the symbol the product of the numbers. -/
theorem C106_numbers (law : Lawful sc D zero one) (h : Reach sc D zero one mono t) (hsort : ∀ l, (sort l).Perm l) {b : Book} (hb : b.Proper byId) {first : Nat}
    {b' : Book} {c : Int} (he : expand t byId sort b first = .done b' c) (hsafe : b.safe = true) {i : Nat} (hi : first ≤ i) {ks : List Nat}
    (hks : FactorsOf t i ks) (hlen : 1 < ks.length) {x : Nat → ℂ} (hx : ∀ k ∈ ks, ∃ r ∈ b.rules, r.lhs = k ∧ r.rhs = ofMono ⟨1, false, x k⟩) :
    reduceBook flags byId b'.rules [⟨i, false, 1⟩] = ofMono ⟨1, false, (ks.map x).prod⟩ ∧ ∀ v, b'.Holds v → v i = (ks.map x).prod := by
  have hg := reach_good law h
  have hinv := C56.book_inv flags_good byId_ok hb.made
  have hrep : ∀ k ∈ ks, replacement b.rules k = ofMono ⟨1, false, x k⟩ := by
    intro k hk
    obtain ⟨r, h1, rfl, h2⟩ := hx k hk
    unfold replacement
    rw [Poly.findRule_mem hinv.ordered h1]
    exact h2
  have hne : b.rules ≠ [] := by
    obtain ⟨k, hk⟩ := List.exists_mem_of_length_pos (show 0 < ks.length by omega)
    obtain ⟨r, h1, -⟩ := hx k hk
    exact List.ne_nil_of_mem h1
  rcases expand_cases law hg hsort hb first with ⟨h1, -⟩ | ⟨-, h1, -⟩ | ⟨-, -, h1⟩ | ⟨s, -, -, h1⟩ | ⟨-, -, new, -, hn, ⟨h1, -⟩ | ⟨b1, c1, h1, h2, h3, h4, -⟩⟩
  · rw [hsafe] at h1; cases h1
  · exact absurd h1 hne
  · rw [he] at h1; cases h1
  · rw [he] at h1; cases h1
  · rw [he] at h1; cases h1
  rw [he] at h1
  cases h1
  obtain ⟨e, hie, rfl⟩ := hks
  have hed : e ∈ t.entries.drop first := by
    rw [List.mem_iff_getElem?]
    exact ⟨i - first, by rw [List.getElem?_drop, show first + (i - first) = i by omega]; exact hie⟩
  have hids := hg.ids i e hie
  have hfun : e.fundamental = false := by
    have := hg.count i e hie
    simp only [Entry.fundamental, decide_eq_false_iff_not]
    omega
  have hi1 : 1 < i := (not_fundamental law hg hie hfun).1
  have hrule : ruleFor t byId b.rules e = .ok (some (Poly.append byId (ofMono ⟨1, false, (e.symbols.map x).prod⟩) [⟨e.id, false, -1⟩])) := by
    unfold ruleFor
    rw [hfun, if_neg (by simp)]
    cases hsym : e.symbols with
    | nil => rw [hsym] at hlen; simp at hlen
    | cons k l =>
      dsimp only
      rw [hsym] at hrep hx
      rw [if_neg]
      · rw [hrep k (by simp), multiplyAll_number fun k hk => hrep k (by simp [hk])]
        simp [Except.map]
      · obtain ⟨r, h5, h6, -⟩ := hx k (by simp)
        have := Poly.findRule_mem hinv.ordered h5
        rw [h6] at this
        simp [this]
  have hsolve : ∀ v, b'.Holds v → v i = (e.symbols.map x).prod := by
    intro v hv
    have := ((h2 v).mp hv).2 _ ((rulesFor_mem hn).mpr ⟨e, hed, hrule⟩)
    rw [Poly.append_eq, Poly.mergeAdd_value v byId_ok.injective, hids, number_of hv.1.1.1.zero hv.1.1.2] at this
    simp [Mono.value] at this
    linear_combination -this
  refine ⟨?_, hsolve⟩
  have hinv' := C56.book_inv flags_good byId_ok h3.made
  refine Poly.canonical_unique flags_good byId_ok.injective (Poly.reduceBook_canonical byId_ok.injective _ ⟨by simp, by simp; omega, by simp⟩)
    (ofMono_canonical (by omega) _) fun v hv h5 => ?_
  rw [Poly.reduceBook_value _ hv, number_of hv.zero h5, ← hsolve _ ⟨hinv'.subst_solves ⟨hv, h5⟩, by rw [h4]; simp [Poly.Zero]⟩]
  simp [Mono.value]

/-! ### What is returned -/

/-- The number returned by an expansion of a rulebook with rules is not the growth: the number of old rules is subtracted twice. -/
theorem C106_refuted_count (law : Lawful sc D zero one) (h : Reach sc D zero one mono t) (hsort : ∀ l, (sort l).Perm l) {b : Book} (hb : b.Proper byId)
    {first : Nat} {b' : Book} {c : Int} (he : expand t byId sort b first = .done b' c) (hsafe : b.safe = true) (hne : b.rules ≠ []) :
    c = (b'.rules.length : Int) - 2 * b.rules.length ∧ c ≠ (b'.rules.length : Int) - b.rules.length := by
  have hpos := List.length_pos_iff.mpr hne
  rcases expand_cases law (reach_good law h) hsort hb first with ⟨h1, -⟩ | ⟨-, h1, -⟩ | ⟨-, -, h1⟩ | ⟨s, -, -, h1⟩ | ⟨-, -, new, -, hn, ⟨h1, -⟩ | ⟨b1, c1, h1, -, -, -, -, -, -, h2, -⟩⟩
  · rw [hsafe] at h1; cases h1
  · exact absurd h1 hne
  · rw [he] at h1; cases h1
  · rw [he] at h1; cases h1
  · rw [he] at h1; cases h1
  rw [he] at h1
  cases h1
  omega

/-- Expansion mode is not switched off for a rulebook without rules, or when an exception is thrown: afterwards rules can be added although the rulebook is in
use. -/
theorem C106_refuted_guard (first : Nat) {b : Book} (hsafe : b.safe = true) (hused : b.used = true) (hexp : b.expansion = false) (l : List (List Mono)) :
    b.add l = .error .alreadyInUse ∧
    (b.rules = [] → ∃ b', expand t byId sort b first = .done b' 0 ∧ b'.used = true ∧ ∃ b'', b'.add l = .ok b'') ∧
    ∀ b' s, expand t byId sort b first = .stopped b' s → b'.used = true ∧ ∃ b'', b'.add l = .ok b'' := by
  refine ⟨by simp [Book.add, hexp, hused], fun hr => ?_, fun b' s h => ?_⟩
  · refine ⟨{ b with expansion := true }, by simp [expand, hsafe, hr], hused, _, by simp only [Book.add]; rfl⟩
  · have key : b'.expansion = true ∧ b'.used = true := by
      unfold expand at h
      rw [if_neg (by simp [hsafe])] at h
      dsimp only at h
      split at h
      · cases h
      · split at h
        · cases h; exact ⟨rfl, hused⟩
        · split at h
          · cases h; exact ⟨rfl, hused⟩
          · unfold Book.finish at h
            split at h
            · cases h; exact ⟨rfl, hused⟩
            · rename_i heq
              simp only [Book.add, Bool.not_true, Bool.false_and, Bool.false_eq_true, if_false, Except.ok.injEq] at heq
              subst heq
              split at h
              · cases h
              · split at h
                · cases h
                · cases h
                · cases h; exact ⟨rfl, hused⟩
    exact ⟨key.2, _, by simp only [Book.add, key.1]; rfl⟩

/-- **C106, mergers.** A rulebook in use is neither merged into another one nor, unless expansion mode is on, changed by a merger; and rulebooks with rules that
wait for completion are not merged. Nothing else is refused but rulebooks that contradict each other. -/
theorem C106_merge {b other : Book} : mergeBook t byId sort b other = .refused ↔ (b.used = true ∧ b.expansion = false) ∨ other.used = true ∨ b.raw ≠ [] ∨ other.raw ≠ [] ∨
    ∃ r, Poly.combineAndComplete flags byId b.rules other.rules sort = some (r, false) := by
  unfold mergeBook
  by_cases h1 : (!b.expansion && b.used) || other.used
  · rw [if_pos h1]
    simp only [Bool.or_eq_true, Bool.and_eq_true, Bool.not_eq_true'] at h1
    tauto
  · rw [if_neg h1]
    simp only [Bool.or_eq_true, Bool.and_eq_true, Bool.not_eq_true'] at h1
    by_cases h2 : !b.raw.isEmpty || !other.raw.isEmpty
    · rw [if_pos h2]
      simp only [Bool.or_eq_true, Bool.not_eq_true', List.isEmpty_eq_false_iff] at h2
      tauto
    · rw [if_neg h2]
      simp only [Bool.or_eq_true, Bool.not_eq_true', List.isEmpty_eq_false_iff, ne_eq, not_or, not_not] at h2
      cases hc : Poly.combineAndComplete flags byId b.rules other.rules sort with
      | none =>
        simp only [reduceCtorEq, exists_false, or_false, false_iff]
        tauto
      | some r =>
        obtain ⟨r, good⟩ := r
        cases good with
        | false => simp
        | true =>
          have : ∀ x : Expansion, (match x with | .done b' _ => Merging.merged b' true | .stopped b' _ => .merged b' false | .contradiction => .contradiction) ≠ .refused := by
            intro x; cases x <;> simp
          constructor
          · intro h
            exact absurd h (this _)
          · rintro (⟨h3, h4⟩ | h3 | h3 | h3 | ⟨r', h3⟩)
            · exact absurd (Or.inl ⟨h4, h3⟩) h1
            · exact absurd (Or.inr h3) h1
            · exact absurd h2.1 h3
            · exact absurd h2.2 h3
            · cases h3

/-- A rulebook that was used is not changed by a merger. -/
example (b : Book) : mergeBook t byId sort { b with used := true, expansion := false } b = .refused := C106_merge.mpr (Or.inl ⟨rfl, rfl⟩)

/-! ## Histories -/

/-- The rulebooks of a system and what they were given: rulebooks are added and merged in, new words are registered, moment matrices are extended. Calls may
end with exceptions, other than a contradiction in an expansion. -/
inductive History (sc : Scenario W) (D : W → Prop) (zero one : W) (mono : Nat → E) (sort : List (List Mono) → List (List Mono)) :
    Table W → List (List Book × Book) → Prop
  | new {t : Table W} : Table.new sc zero one = .ok t → History sc D zero one mono sort t []
  | add {t : Table W} {l : List (List Book × Book)} {b b' : Book} : History sc D zero one mono sort t l → b.Proper byId →
      addBook t byId sort (l.map (·.2)) b = (l.map (·.2) ++ [b'], true) → History sc D zero one mono sort t (l ++ [([b], b')])
  | merge {t : Table W} {l m : List (List Book × Book)} {g : List Book} {b other b' : Book} {ok : Bool} : History sc D zero one mono sort t (l ++ (g, b) :: m) →
      other.Proper byId → mergeBook t byId sort b other = .merged b' ok → History sc D zero one mono sort t (l ++ (g ++ [other], b') :: m)
  | grow {t t' : Table W} {l : List (List Book × Book)} {ws : List W} {books : List Book} {ok : Bool} : History sc D zero one mono sort t l → ws.Nodup →
      (∀ w ∈ ws, D w ∧ some w ∉ t.syms) → ({ t with syms := t.syms ++ ws.map some }).refresh sc = .ok t' →
      refreshAll t' byId sort t.syms.length (l.map (·.2)) = some (books, ok) → History sc D zero one mono sort t' ((l.map (·.1)).zip books)
  | extend {t t' : Table W} {l : List (List Book × Book)} {src : Source W E} {gens : List W} {scalars : List Int} {m : Mat E} :
      History sc D zero one mono sort t l → OfMoments sc t src gens → extend sc mono t src scalars = .ok (t', m) → History sc D zero one mono sort t' l

/-- The rulebook says the same as the rulebooks given, for values that multiply as the factors do. -/
def Says (t : Table W) (x : List Book × Book) : Prop := x.2.Proper byId ∧ ∀ v, Factored t v → (x.2.Holds v ↔ ∀ g ∈ x.1, g.Holds v)

theorem history_reach {l : List (List Book × Book)} (h : History sc D zero one mono sort t l) : Reach sc D zero one mono t := by
  induction h with
  | new h => exact .new h
  | add _ _ _ ih => exact ih
  | merge _ _ _ ih => exact ih
  | grow _ h1 h2 h3 _ ih => exact .grow ih h1 h2 h3
  | extend _ h1 h2 ih => exact .extend ih h1 h2

theorem factored_grown {t t' : Table W} (h : t.entries <+: t'.entries) {v : Nat → ℂ} (hv : Factored t' v) : Factored t v :=
  ⟨hv.1, hv.2.at_zero, hv.2.at_one, fun i e he => hv.2.product i e (by
    obtain ⟨r, hr⟩ := h
    rw [← hr, List.getElem?_append_left (List.getElem?_eq_some_iff.mp he).1]
    exact he)⟩

/-- After an exception other than a contradiction the equations are as before, too. -/
theorem expand_says (law : Lawful sc D zero one) (h : Reach sc D zero one mono t) (hsort : ∀ l, (sort l).Perm l) {b b' : Book} (hb : b.Proper byId) {first : Nat}
    (he : (∃ c, expand t byId sort b first = .done b' c) ∨ ∃ s, expand t byId sort b first = .stopped b' s) :
    b'.Proper byId ∧ ∀ v, Factored t v → (b'.Holds v ↔ b.Holds v) := by
  rcases he with ⟨c, he⟩ | ⟨s, he⟩
  · obtain ⟨h1, -, -, -, h2⟩ := C106_sound law h hsort hb he
    exact ⟨h1, h2⟩
  · rcases expand_cases law (reach_good law h) hsort hb first with ⟨-, h1⟩ | ⟨-, -, h1⟩ | ⟨-, -, h1⟩ | ⟨s, -, -, h1⟩ | ⟨-, -, new, -, hn, ⟨h1, -⟩ | ⟨b1, c1, h1, -⟩⟩
    · rw [he] at h1; cases h1
    · rw [he] at h1; cases h1
    · rw [he] at h1; cases h1; exact ⟨⟨hb.made, hb.raw⟩, fun v _ => Iff.rfl⟩
    · rw [he] at h1; cases h1; exact ⟨⟨hb.made, hb.raw⟩, fun v _ => Iff.rfl⟩
    · rw [he] at h1; cases h1
    · rw [he] at h1; cases h1

theorem refresh_says (law : Lawful sc D zero one) (h : Reach sc D zero one mono t) (hsort : ∀ l, (sort l).Perm l) {first : Nat} :
    ∀ {l : List (List Book × Book)} {books : List Book} {ok : Bool}, (∀ x ∈ l, Says t x) → refreshAll t byId sort first (l.map (·.2)) = some (books, ok) →
      books.length = l.length ∧ ∀ x ∈ (l.map (·.1)).zip books, Says t x
  | [], books, ok, _, he => by
    simp only [List.map_nil, refreshAll, Option.some.injEq, Prod.mk.injEq] at he
    rw [← he.1]
    simp
  | x :: l, books, ok, hl, he => by
    have hx := hl x (by simp)
    rw [List.map_cons, refreshAll] at he
    cases hexp : expand t byId sort x.2 first with
    | done b' c =>
      rw [hexp] at he
      obtain ⟨r, hr, h1⟩ := Option.map_eq_some_iff.mp he
      cases h1
      obtain ⟨h2, h3⟩ := refresh_says law h hsort (books := r.1) (ok := r.2) (fun y hy => hl y (by simp [hy])) hr
      obtain ⟨h4, h5⟩ := expand_says law h hsort hx.1 (Or.inl ⟨c, hexp⟩)
      refine ⟨by simp [h2], fun y hy => ?_⟩
      rw [List.map_cons, List.zip_cons_cons, List.mem_cons] at hy
      rcases hy with rfl | hy
      · exact ⟨h4, fun v hv => (h5 v hv).trans (hx.2 v hv)⟩
      · exact h3 y hy
    | stopped b' s =>
      rw [hexp] at he
      cases he
      obtain ⟨h4, h5⟩ := expand_says law h hsort hx.1 (Or.inr ⟨s, hexp⟩)
      refine ⟨by simp, fun y hy => ?_⟩
      rw [List.map_cons, List.zip_cons_cons, List.mem_cons] at hy
      rcases hy with rfl | hy
      · exact ⟨h4, fun v hv => (h5 v hv).trans (hx.2 v hv)⟩
      · have : (l.map (·.1)).zip (l.map (·.2)) = l := by
          rw [List.zip_map']; exact List.map_id l
        rw [this] at hy
        exact hl y (by simp [hy])
    | contradiction => rw [hexp] at he; cases he

/-- C106. Whatever is done with a system: every rulebook says, for values that multiply as the factors do, the same as the rulebooks given for it. -/
theorem C106_history (law : Lawful sc D zero one) (hsort : ∀ l, (sort l).Perm l) {l : List (List Book × Book)} (h : History sc D zero one mono sort t l) :
    ∀ x ∈ l, Says t x := by
  induction h with
  | new _ => simp
  | @add t l b b' h0 hb he ih =>
    intro x hx
    rcases List.mem_append.mp hx with hx | hx
    · exact ih x hx
    · simp only [List.mem_singleton] at hx
      subst hx
      unfold addBook at he
      cases hexp : expand t byId sort b 0 with
      | done b1 c =>
        rw [hexp] at he
        simp only [Prod.mk.injEq, List.append_cancel_left_eq, List.cons.injEq, and_true] at he
        subst he
        obtain ⟨h1, h2⟩ := expand_says law (history_reach h0) hsort hb (Or.inl ⟨c, hexp⟩)
        exact ⟨h1, fun v hv => by simpa using h2 v hv⟩
      | stopped _ _ => rw [hexp] at he; simp at he
      | contradiction => rw [hexp] at he; simp at he
  | @merge t l m g b other b' ok h0 ho he ih =>
    intro x hx
    rcases List.mem_append.mp hx with hx | hx
    · exact ih x (by simp [hx])
    · rcases List.mem_cons.mp hx with rfl | hx
      · obtain ⟨hb, hs⟩ := ih (g, b) (by simp)
        unfold mergeBook at he
        split at he
        · cases he
        · split at he
          · cases he
          · rename_i hraw
            simp only [Bool.or_eq_true, Bool.not_eq_true', List.isEmpty_eq_false_iff, ne_eq, not_or, not_not] at hraw
            cases hc : Poly.combineAndComplete flags byId b.rules other.rules sort with
            | none => rw [hc] at he; cases he
            | some r =>
              obtain ⟨r, good⟩ := r
              rw [hc] at he
              cases good with
              | false => cases he
              | true =>
                dsimp only at he
                have hmade : Poly.Book flags byId r := .combine hb.made ho.made hsort hc
                have hb1 : Book.Proper byId { b with rules := r } := ⟨hmade, hb.raw⟩
                have hsol : ∀ v, Solves flags r v ↔ Solves flags b.rules v ∧ Solves flags other.rules v := by
                  rcases C56.C56_combine flags flags_good byId byId_ok _ _ hb.made ho.made sort hsort with ⟨h1, -⟩ | ⟨r', h1, h2⟩
                  · rw [hc] at h1; cases h1
                  · rw [hc] at h1; cases h1; exact h2
                have key : (∃ c, expand t byId sort { b with rules := r } 0 = .done b' c) ∨ ∃ s, expand t byId sort { b with rules := r } 0 = .stopped b' s := by
                  cases hexp : expand t byId sort { b with rules := r } 0 with
                  | done b1 c => rw [hexp] at he; cases he; exact Or.inl ⟨c, rfl⟩
                  | stopped b1 s => rw [hexp] at he; cases he; exact Or.inr ⟨s, rfl⟩
                  | contradiction => rw [hexp] at he; cases he
                obtain ⟨h1, h2⟩ := expand_says law (history_reach h0) hsort hb1 key
                refine ⟨h1, fun v hv => (h2 v hv).trans ?_⟩
                simp only [List.mem_append, List.mem_singleton, or_imp, forall_and, forall_eq]
                rw [← hs v hv]
                unfold Book.Holds
                rw [hsol, hraw.1, hraw.2]
                simp [Poly.Zero]
      · exact ih x (by simp [hx])
  | @grow t t' l ws books ok h0 h1 h2 h3 h4 ih =>
    have hr := history_reach h0
    obtain ⟨t1, g1, g2, g3, -⟩ := grow_spec law (reach_good law hr) h1 h2
    rw [h3] at g1
    cases g1
    exact (refresh_says law (.grow hr h1 h2 h3) hsort (fun x hx => ⟨(ih x hx).1, fun v hv => (ih x hx).2 v (factored_grown g3.entries hv)⟩) h4).2
  | @extend t t' l src gens scalars m h0 h1 h2 ih =>
    have := (C104.extend_ok law (reach_good law (history_reach h0)) h1 h2).2.2.1
    exact fun x hx => ⟨(ih x hx).1, fun v hv => (ih x hx).2 v (factored_grown this.grown.entries hv)⟩

/-- C106. Adding a rulebook with an exception leaves the rulebooks as they were; a merger that is refused as well. -/
theorem C106_unchanged (books books' : List Book) (b : Book) (h : addBook t byId sort books b = (books', false)) : books' = books := by
  unfold addBook at h
  split at h <;> simp at h
  exact h.symm

end

/-! ## A scenario with three parties: symbols 2, 3, 4 for A, B, C and 5, 6, 7 for AB, AC, BC -/

open Moment.C104 (three threeCtx threePlain second second_reach three_lawful third third_ok third_reach level1_ofMoments first first_reach words1)

abbrev W3 := Option (List Nat)

theorem second_settled : Settled second := by
  have key : ∀ i, (hi : i < second.entries.length) → second.entries[i].fundamental = true → second.entries[i].symbols = [i] := by decide +kernel
  intro i e he hf
  obtain ⟨hi, rfl⟩ := List.getElem?_eq_some_iff.mp he
  exact key i hi hf

theorem second_entries : second.entries.map (fun e => (e.id, e.fundamental, e.symbols)) = [(0, true, [0]), (1, true, [1]), (2, true, [2]), (3, true, [3]),
    (4, true, [4]), (5, false, [2, 3]), (6, false, [2, 4]), (7, false, [3, 4])] := by decide +kernel

/-- Values from real numbers. -/
noncomputable def vals (f : Nat → ℝ) (i : Nat) : ℂ := if i = 0 then 0 else if i = 1 then 1 else (f i : ℝ)

theorem vals_assignment (f : Nat → ℝ) : Assignment flags (vals f) := by
  refine ⟨⟨by simp [vals], fun i _ => ?_, fun i hi => ?_⟩, by simp [vals]⟩
  · unfold vals
    split
    · simp
    · split <;> simp
  · have : i = 0 := by simpa [flags] using hi
    subst this
    simp [vals]

/-- A rulebook with given equations. -/
theorem given {raw : List (List Mono)} (hraw : ∀ p ∈ raw, Canonical flags byId p) {v : Nat → ℂ} (hv : Assignment flags v) (hz : Poly.Zero v raw) :
    ∃ b, Poly.Book flags byId b ∧ ∀ v, Solves flags b v ↔ Assignment flags v ∧ Poly.Zero v raw := by
  rcases C56.C56_complete flags flags_good byId byId_ok [] .empty raw hraw with ⟨-, h⟩ | ⟨b, k, h1, h2, -⟩
  · exact absurd ⟨⟨hv, by simp⟩, hz⟩ (h v)
  · exact ⟨b, .complete .empty hraw h1, fun v => by rw [h2]; simp [Solves]⟩

/-- The equation that the symbol `i` has the value `c`. -/
def equation (i : Nat) (c : ℂ) : List Mono := [⟨1, false, -c⟩, ⟨i, false, 1⟩]

theorem equation_canonical {i : Nat} (hi : 1 < i) {c : ℂ} (hc : c ≠ 0) : Canonical flags byId (equation i c) :=
  ⟨by simp [equation, byId]; omega, by simp [equation, hc]; omega, by simp [equation]⟩

theorem equation_value {i : Nat} {c : ℂ} {v : Nat → ℂ} (h1 : v 1 = 1) : value v (equation i c) = 0 ↔ v i = c := by
  simp [equation, Mono.value, h1]
  constructor
  · intro h; linear_combination h
  · intro h; linear_combination h

/-- What the new rules say, for a rulebook with the rule 2 → 1/2 and without rules for 3 and 4. -/
theorem rule_two {b : List MRule} (h2 : replacement b 2 = [⟨1, false, 1 / 2⟩]) (hf : (findRule b 2).isSome = true) {k : Nat} (hk : 1 < k)
    (hn : findRule b k = none) {t : Table W3} {e : Entry W3} (h3 : e.fundamental = false) (h4 : e.symbols = [2, k]) :
    ∃ p, ruleFor t byId b e = .ok (some p) ∧ ∀ v, Assignment flags v → value v p = 1 / 2 * v k - v e.id := by
  have hr : replacement b k = [⟨k, false, 1⟩] := by
    unfold replacement
    rw [hn]
    simp [ofMono]; omega
  have ht : times t 1 k = .ok k := by
    unfold times tryMultiply2
    rw [if_neg (by omega), if_neg (by omega), if_pos rfl]
  have hm : timesPoly t byId [⟨1, false, 1 / 2⟩] [⟨k, false, 1⟩] = .ok (Poly.make flags byId [⟨k, false, 1 / 2⟩]) := by
    have : timesAll t [⟨k, false, 1⟩] [⟨1, false, 1 / 2⟩] = .ok [⟨k, false, 1 / 2⟩] := by
      simp [timesAll, timesRow, timesMono, ht, Except.map, bind, Except.bind]
    simp only [timesPoly]
    rw [if_neg (by omega), this]
    rfl
  refine ⟨Poly.append byId (Poly.make flags byId [⟨k, false, 1 / 2⟩]) [⟨e.id, false, -1⟩], ?_, fun v hv => ?_⟩
  · unfold ruleFor
    rw [if_neg (by simp [h3]), h4]
    dsimp only
    obtain ⟨r, hr'⟩ := Option.isSome_iff_exists.mp hf
    rw [if_neg (by simp [hr']), h2]
    rw [multiplyAll, if_neg (by simp), hr, hm]
    rfl
  · rw [Poly.append_eq, Poly.mergeAdd_value v byId_ok.injective, Poly.make_value hv.1]
    simp [Mono.value]
    ring

/-- Expansion for symbols A, B, C, AB, AC, BC, with the rule A → 1/2 and without rules for B and C. -/
theorem expand_two {sort : List (List Mono) → List (List Mono)} (hsort : ∀ l, (sort l).Perm l) {b : List MRule} (hb : Poly.Book flags byId b) (hA : ∀ v, Solves flags b v → v 2 = 1 / 2)
    (hB : findRule b 3 = none) (hC : findRule b 4 = none) (hv : ∃ v, Solves flags b v ∧ v 5 = 1 / 2 * v 3 ∧ v 6 = 1 / 2 * v 4) :
    ∃ b' c, expand second byId sort ⟨b, [], false, true, false⟩ 0 = .done b' c ∧ b'.Proper byId ∧
      ∀ v, b'.Holds v ↔ Solves flags b v ∧ v 5 = 1 / 2 * v 3 ∧ v 6 = 1 / 2 * v 4 := by
  have hg := reach_good three_lawful second_reach
  have h2 : replacement b 2 = [⟨1, false, 1 / 2⟩] := by
    rw [replacement_number byId_ok hb hA]; simp [ofMono]
  have hf : (findRule b 2).isSome = true := by
    cases hn : findRule b 2 with
    | some r => rfl
    | none => unfold replacement at h2; rw [hn] at h2; simp [ofMono] at h2
  have hcases : ∀ e ∈ second.entries, (e.fundamental = true) ∨ (e.id = 5 ∧ e.fundamental = false ∧ e.symbols = [2, 3]) ∨
      (e.id = 6 ∧ e.fundamental = false ∧ e.symbols = [2, 4]) ∨ (e.id = 7 ∧ e.fundamental = false ∧ e.symbols = [3, 4]) := by
    intro e he
    have := List.mem_map_of_mem (f := fun e : Entry W3 => (e.id, e.fundamental, e.symbols)) he
    rw [second_entries] at this
    simp only [List.mem_cons, Prod.mk.injEq, List.not_mem_nil, or_false] at this
    tauto
  have hat : ∀ x ∈ [(5, false, [2, 3]), (6, false, [2, 4])], ∃ e ∈ second.entries, (e.id, e.fundamental, e.symbols) = x := by
    intro x hx
    have : x ∈ second.entries.map (fun e => (e.id, e.fundamental, e.symbols)) := by
      rw [second_entries]
      simp only [List.mem_cons, List.not_mem_nil, or_false] at hx ⊢
      tauto
    obtain ⟨e, h1, h2⟩ := List.mem_map.mp this
    exact ⟨e, h1, h2⟩
  have hBC : ∀ e : Entry W3, e.fundamental = false → e.symbols = [3, 4] → ruleFor second byId b e = .ok none := by
    intro e h3 h4
    unfold ruleFor
    rw [if_neg (by simp [h3]), h4]
    dsimp only
    rw [if_pos (by simp [hB, hC])]
  have hfun : ∀ e : Entry W3, e.fundamental = true → ruleFor second byId b e = .ok none := by
    intro e h3
    unfold ruleFor
    rw [if_pos h3]
  have hpr : Book.Proper byId ⟨b, [], false, true, false⟩ := ⟨hb, by simp⟩
  have hmem : ∀ new, rulesFor second byId b (second.entries.drop 0) = .ok new → ∀ v, Assignment flags v →
      (Poly.Zero v new ↔ v 5 = 1 / 2 * v 3 ∧ v 6 = 1 / 2 * v 4) := by
    intro new hn v hv
    constructor
    · intro hz
      constructor
      · obtain ⟨e, he, h5⟩ := hat (5, false, [2, 3]) (by simp)
        simp only [Prod.mk.injEq] at h5
        obtain ⟨p, hp, hpv⟩ := rule_two h2 hf (by omega) hB (t := second) h5.2.1 h5.2.2
        have := hz p ((rulesFor_mem hn).mpr ⟨e, he, hp⟩)
        rw [hpv v hv, h5.1] at this
        linear_combination -this
      · obtain ⟨e, he, h5⟩ := hat (6, false, [2, 4]) (by simp)
        simp only [Prod.mk.injEq] at h5
        obtain ⟨p, hp, hpv⟩ := rule_two h2 hf (by omega) hC (t := second) h5.2.1 h5.2.2
        have := hz p ((rulesFor_mem hn).mpr ⟨e, he, hp⟩)
        rw [hpv v hv, h5.1] at this
        linear_combination -this
    · rintro ⟨h5, h6⟩ p hp
      obtain ⟨e, he, h7⟩ := (rulesFor_mem hn).mp hp
      rcases hcases e he with h8 | ⟨h8, h9, h10⟩ | ⟨h8, h9, h10⟩ | ⟨h8, h9, h10⟩
      · rw [hfun e h8] at h7; cases h7
      · obtain ⟨q, hq, hqv⟩ := rule_two h2 hf (by omega) hB (t := second) h9 h10
        rw [hq] at h7; cases h7
        rw [hqv v hv, h8, h5]; ring
      · obtain ⟨q, hq, hqv⟩ := rule_two h2 hf (by omega) hC (t := second) h9 h10
        rw [hq] at h7; cases h7
        rw [hqv v hv, h8, h6]; ring
      · rw [hBC e h9 h10] at h7; cases h7
  rcases expand_cases three_lawful hg hsort hpr 0 with ⟨h1, -⟩ | ⟨-, h1, -⟩ | ⟨-, h1, -⟩ | ⟨s, -, h1, -⟩ | ⟨-, -, new, -, hn, ⟨-, h1⟩ | ⟨b1, c1, h1, h3, h4, -⟩⟩
  · cases h1
  · simp only at h1
    rw [h1] at hf
    simp [findRule] at hf
  · omega
  · obtain ⟨e, he, h5⟩ := rulesFor_error h1
    rcases hcases e he with h8 | ⟨h8, h9, h10⟩ | ⟨h8, h9, h10⟩ | ⟨h8, h9, h10⟩
    · rw [hfun e h8] at h5; cases h5
    · obtain ⟨q, hq, -⟩ := rule_two h2 hf (by omega) hB (t := second) h9 h10
      rw [hq] at h5; cases h5
    · obtain ⟨q, hq, -⟩ := rule_two h2 hf (by omega) hC (t := second) h9 h10
      rw [hq] at h5; cases h5
    · rw [hBC e h9 h10] at h5; cases h5
  · obtain ⟨v, hv, h5⟩ := hv
    exact absurd ⟨⟨hv, by simp [Poly.Zero]⟩, (hmem new hn v hv.1).mpr h5⟩ (h1 v)
  · refine ⟨b1, c1, h1, h4, fun v => ?_⟩
    rw [h3]
    unfold Book.Holds
    constructor
    · rintro ⟨⟨h5, -⟩, h6⟩
      exact ⟨h5, (hmem new hn v h5.1).mp h6⟩
    · rintro ⟨h5, h6⟩
      exact ⟨⟨h5, by simp [Poly.Zero]⟩, (hmem new hn v h5.1).mpr h6⟩

theorem vals_update {f : Nat → ℝ} {k : Nat} (hk : 1 < k) (x : ℝ) : Function.update (vals f) k (x : ℂ) = vals (Function.update f k x) := by
  funext i
  by_cases hi : i = k
  · subst hi
    have h0 : i ≠ 0 := by omega
    have h1 : i ≠ 1 := by omega
    simp [vals, h0, h1]
  · rw [Function.update_of_ne hi]
    simp [vals, Function.update_of_ne hi]

/-- The rulebook A → 1/2. -/
theorem half_book : ∃ b, Poly.Book flags byId b ∧ (∀ v, Solves flags b v ↔ Assignment flags v ∧ v 2 = 1 / 2) ∧ findRule b 3 = none ∧ findRule b 4 = none := by
  have hz : ∀ v, Assignment flags v → (Poly.Zero v [equation 2 (1 / 2)] ↔ v 2 = 1 / 2) := fun v hv => by
    simp only [Poly.Zero, List.mem_singleton, forall_eq, equation_value hv.2]
  obtain ⟨b, h1, h2⟩ := given (raw := [equation 2 (1 / 2)]) (v := vals fun _ => 1 / 2) (by simp only [List.mem_singleton, forall_eq]; exact equation_canonical (by omega) (by norm_num))
    (vals_assignment _) ((hz _ (vals_assignment _)).mpr (by simp [vals]))
  have h3 : ∀ v, Solves flags b v ↔ Assignment flags v ∧ v 2 = 1 / 2 := fun v => by
    rw [h2]
    constructor
    · rintro ⟨h, h'⟩; exact ⟨h, (hz v h).mp h'⟩
    · rintro ⟨h, h'⟩; exact ⟨h, (hz v h).mpr h'⟩
  have hfree : ∀ k, 1 < k → k ≠ 2 → findRule b k = none := fun k hk hk2 => by
    refine no_rule byId_ok h1 (v := vals fun _ => 1 / 2) ?_ ?_ <;>
    · rw [vals_update hk, h3]
      exact ⟨vals_assignment _, by simp [vals, Function.update_of_ne (Ne.symm hk2)]⟩
  exact ⟨b, h1, h3, hfree 3 (by omega) (by omega), hfree 4 (by omega) (by omega)⟩

/-- The rulebook A → 1/2, AB → 1/4. -/
theorem quarter_book : ∃ b, Poly.Book flags byId b ∧ (∀ v, Solves flags b v ↔ Assignment flags v ∧ v 2 = 1 / 2 ∧ v 5 = 1 / 4) ∧ findRule b 3 = none ∧
    findRule b 4 = none := by
  have hz : ∀ v, Assignment flags v → (Poly.Zero v [equation 2 (1 / 2), equation 5 (1 / 4)] ↔ v 2 = 1 / 2 ∧ v 5 = 1 / 4) := fun v hv => by
    simp only [Poly.Zero, List.mem_cons, List.not_mem_nil, or_false, forall_eq_or_imp, forall_eq, equation_value hv.2]
  obtain ⟨b, h1, h2⟩ := given (raw := [equation 2 (1 / 2), equation 5 (1 / 4)]) (v := vals fun i => if i = 2 then 1 / 2 else 1 / 4)
    (by simp only [List.mem_cons, List.not_mem_nil, or_false, forall_eq_or_imp, forall_eq]
        exact ⟨equation_canonical (by omega) (by norm_num), equation_canonical (by omega) (by norm_num)⟩)
    (vals_assignment _) ((hz _ (vals_assignment _)).mpr (by simp [vals]))
  have h3 : ∀ v, Solves flags b v ↔ Assignment flags v ∧ v 2 = 1 / 2 ∧ v 5 = 1 / 4 := fun v => by
    rw [h2]
    constructor
    · rintro ⟨h, h'⟩; exact ⟨h, (hz v h).mp h'⟩
    · rintro ⟨h, h'⟩; exact ⟨h, (hz v h).mpr h'⟩
  have hfree : ∀ k, 1 < k → k ≠ 2 → k ≠ 5 → findRule b k = none := fun k hk hk2 hk5 => by
    refine no_rule byId_ok h1 (v := vals fun i => if i = 2 then 1 / 2 else 1 / 4) ?_ ?_ <;>
    · rw [vals_update hk, h3]
      exact ⟨vals_assignment _, by simp [vals, Function.update_of_ne (Ne.symm hk2)], by simp [vals, Function.update_of_ne (Ne.symm hk5)]⟩
  exact ⟨b, h1, h3, hfree 3 (by omega) (by omega) (by omega), hfree 4 (by omega) (by omega) (by omega)⟩

/-- Expansion does not go on until nothing changes: from A = 1/2 and AB = 1/4 follows B = 1/2, but BC is not replaced by C/2. -/
theorem C106_refuted_closed {sort : List (List Mono) → List (List Mono)} (hsort : ∀ l, (sort l).Perm l) : ∃ b b' c, Book.Proper byId b ∧ expand second byId sort b 0 = .done b' c ∧ FactorsOf second 7 [3, 4] ∧
    (∀ v, b'.Holds v → v 3 = 1 / 2) ∧ ∃ v, b'.Holds v ∧ v 7 ≠ v 3 * v 4 := by
  obtain ⟨b, h1, h2, h3, h4⟩ := quarter_book
  have hA : ∀ v, Solves flags b v → v 2 = 1 / 2 := fun v hv => ((h2 v).mp hv).2.1
  have hw : Solves flags b (vals fun i => if i = 2 ∨ i = 3 ∨ i = 4 then 1 / 2 else if i = 7 then 0 else 1 / 4) := by
    rw [h2]
    exact ⟨vals_assignment _, by simp [vals], by simp [vals]⟩
  obtain ⟨b', c, h5, h6, h7⟩ := expand_two hsort h1 hA h3 h4 ⟨_, hw, by simp [vals]; norm_num, by simp [vals]; norm_num⟩
  refine ⟨_, b', c, ⟨h1, by simp⟩, h5, (C104.factorsOf_iff).mpr (by decide +kernel), fun v hv => ?_, _, (h7 _).mpr ⟨hw, by simp [vals]; norm_num, by simp [vals]; norm_num⟩, ?_⟩
  · obtain ⟨h8, h9, -⟩ := (h7 v).mp hv
    have := ((h2 v).mp h8).2.2
    rw [this] at h9
    linear_combination -2 * h9
  · simp [vals]

theorem second_history {sort : List (List Mono) → List (List Mono)} : History threePlain (IsWord threeCtx) none (some []) (id : Nat → Nat) sort second [] := by
  have h := second_reach
  refine .grow (l := []) (.new (C104.ok_of _ (by decide +kernel))) (ws := words1) (by decide +kernel) ?_ (C104.ok_of _ (by decide +kernel)) rfl
  intro w hw
  simp only [words1, List.mem_cons, List.not_mem_nil, or_false] at hw
  rcases hw with rfl | rfl | rfl | rfl | rfl | rfl <;> exact ⟨C104.words_isWord (by decide +kernel), by decide +kernel⟩

/-- Symbols that come from extending a moment matrix are not expanded in the rulebooks that are there: A is 1/2 and AAB is not B/4. -/
theorem C106_refuted_extension {sort : List (List Mono) → List (List Mono)} (hsort : ∀ l, (sort l).Perm l) :
    ∃ t b b', History threePlain (IsWord threeCtx) none (some []) (id : Nat → Nat) sort t [([b], b')] ∧ b.safe = true ∧ FactorsOf t 8 [2, 2, 3] ∧
      (∀ v, b'.Holds v → v 2 = 1 / 2) ∧ ∃ v, b'.Holds v ∧ v 8 ≠ v 2 * v 2 * v 3 := by
  obtain ⟨b, h1, h2, h3, h4⟩ := half_book
  have hA : ∀ v, Solves flags b v → v 2 = 1 / 2 := fun v hv => ((h2 v).mp hv).2
  have hw : Solves flags b (vals fun i => if i = 5 ∨ i = 6 then 1 / 4 else if i = 8 then 0 else 1 / 2) := by
    rw [h2]
    exact ⟨vals_assignment _, by simp [vals]⟩
  obtain ⟨b', c, h5, h6, h7⟩ := expand_two hsort h1 hA h3 h4 ⟨_, hw, by simp [vals]; norm_num, by simp [vals]; norm_num⟩
  refine ⟨third.1, _, b', .extend (.add second_history (b := ⟨b, [], false, true, false⟩) ⟨h1, by simp⟩ ?_) level1_ofMoments third_ok, rfl,
    (C104.factorsOf_iff).mpr (by decide +kernel), fun v hv => hA v ((h7 v).mp hv).1, _, (h7 _).mpr ⟨hw, by simp [vals]; norm_num, by simp [vals]; norm_num⟩, ?_⟩
  · unfold addBook
    rw [h5]
  · simp [vals]

/-- `C106_product`, `C106_product_found`, `C106_polynomial`: in the table of three parties A times B is AB, and A times AB is not there. -/
example : Settled second ∧ times second 2 3 = .ok 5 ∧ times second 2 5 = .error .unknownSymbol ∧ FactorsOf second 2 [2] ∧ FactorsOf second 5 [2, 3] :=
  ⟨second_settled, by decide +kernel, by decide +kernel, (C104.factorsOf_iff).mpr (by decide +kernel), (C104.factorsOf_iff).mpr (by decide +kernel)⟩

example : Absent second 2 5 := missing_absent (reach_good three_lawful second_reach) second_settled ⟨by decide +kernel, by decide +kernel, by decide +kernel⟩

/-- `C106_polynomial_fails`: A times A is not there. -/
example : timesPoly second byId [⟨2, false, 1⟩] [⟨2, false, 1⟩] = .error .unknownSymbol := by
  have : times second 2 2 = .error .unknownSymbol := by decide +kernel
  simp [timesPoly, timesAll, timesRow, timesMono, this, Except.map, bind, Except.bind]

/-- `C106_sound`, `C106_complete`, `C106_outcome`, `C106_refuted_count`: the rulebook A → 1/2 is expanded; AB has a factor with a rule. -/
example {sort : List (List Mono) → List (List Mono)} (hsort : ∀ l, (sort l).Perm l) : ∃ b b' c, Book.Proper byId b ∧ b.safe = true ∧ expand second byId sort b 0 = .done b' c ∧
    FactorsOf second 5 [2, 3] ∧ (∃ r ∈ b.rules, r.lhs ∈ [2, 3]) ∧ b.Known second.syms.length ∧ ∃ v, b'.Holds v ∧ v 3 = 1 := by
  obtain ⟨b, h1, h2, h3, h4⟩ := half_book
  have hA : ∀ v, Solves flags b v → v 2 = 1 / 2 := fun v hv => ((h2 v).mp hv).2
  have hw : Solves flags b (vals fun i => if i = 3 ∨ i = 4 then 1 else 1 / 2) := by
    rw [h2]
    exact ⟨vals_assignment _, by simp [vals]⟩
  obtain ⟨b', c, h5, h6, h7⟩ := expand_two hsort h1 hA h3 h4 ⟨_, hw, by simp [vals], by simp [vals]⟩
  have hlen : second.syms.length = 8 := by decide +kernel
  have inv := C56.book_inv flags_good byId_ok h1
  have hlhs : ∀ r ∈ b, r.lhs < second.syms.length := by
    intro r hr
    by_contra hn
    have hk : 1 < r.lhs := (inv.ok r hr).lhs
    refine Poly.findRule_none.mp (no_rule byId_ok h1 (k := r.lhs) (v := vals fun _ => 1 / 2) ?_ ?_) r hr rfl <;>
    · rw [vals_update hk, h2]
      exact ⟨vals_assignment _, by simp [vals, Function.update_of_ne (show 2 ≠ r.lhs by omega)]⟩
  refine ⟨_, b', c, ⟨h1, by simp⟩, rfl, h5, (C104.factorsOf_iff).mpr (by decide +kernel), ?_, ⟨hlhs, fun r hr m hm => ?_, by simp⟩, _, (h7 _).mpr ⟨hw, by simp [vals], by simp [vals]⟩, by simp [vals]⟩
  · have h8 := replacement_number byId_ok h1 hA
    unfold replacement at h8
    split at h8
    · rename_i r hr
      obtain ⟨h9, h10⟩ := Poly.findRule_some hr
      exact ⟨r, h9, by simp [h10]⟩
    · simp [ofMono] at h8
  · exact lt_trans (rhs_below (inv.ok r hr) m hm) (hlhs r hr)

end Moment.C106
