import Verif.Model.PolyInput
import Verif.Props.C71_RawPoly
import Verif.Props.C113_SymbolText
import Verif.Props.C125_RuleInput
import Verif.Proof.PauliMatrix
import Verif.Proof.PauliRep

/-! # C126: polynomials that are given by and returned to the user

What arrays say is defined here without reference to the code. -/

namespace Moment.C126
open Moment.PolyInput
open Moment.RuleInput (Out cast16)
open Moment.C125 (bind_ok each_ok ofOption_ok cast16_id mapM_some)
open Moment.Poly (Mono)
open Moment.Symbols (Env Table)
open Moment.SymbolText (Text Doubles)
open Moment.SymbolText.Spec (Means)
open Moment.C113 (Letters Standard)
open Moment.SymbolMatrix (Host Setting Ready Moments Agrees)
open Moment.RawPoly (Raw Over total)
open Moment.C71 (SimpKeeps)

/-! ## What the user says -/

/-- The number of a symbol. -/
inductive NatSays (s : Streams) : Value → Nat → Prop
  | int (n : Nat) : NatSays s (.ints [(n : Int)]) n
  | bool (b : Bool) : NatSays s (.bools [b]) (if b then 1 else 0)
  | double (n : Nat) : n < 2 ^ 64 → NatSays s (.doubles [(n : ℝ)]) n
  | text (t : Text) (n : Nat) : s.nat t = some n → NatSays s (.strings [some t]) n

/-- A coefficient. -/
inductive NumSays : Value → ℂ → Prop
  | int (x : Int) : NumSays (.ints [x]) x
  | bool (b : Bool) : NumSays (.bools [b]) (if b then 1 else 0)
  | double (x : ℝ) : NumSays (.doubles [x]) x
  | complex (z : ℂ) : NumSays (.complexes [z]) z

/-- Whether the symbol is conjugated: numbers that are not zero mean yes. -/
inductive BoolSays (s : Streams) : Value → Bool → Prop
  | bool (b : Bool) : BoolSays s (.bools [b]) b
  | no : BoolSays s (.ints [0]) false
  | yes (x : Int) : 0 < x → BoolSays s (.ints [x]) true
  | noDouble : BoolSays s (.doubles [0]) false
  | yesDouble (x : ℝ) : 0 < x → BoolSays s (.doubles [x]) true
  | textNo (t : Text) : s.nat t = some 0 → BoolSays s (.strings [some t]) false
  | textYes (t : Text) : s.nat t = some 1 → BoolSays s (.strings [some t]) true

/-- A term: symbol, coefficient (else one), whether conjugated (else not). -/
inductive TermSays (s : Streams) : Value → Mono → Prop
  | one {i : Value} {n : Nat} : NatSays s i n → TermSays s (.cell [i]) ⟨n, false, 1⟩
  | two {i f : Value} {n : Nat} {z : ℂ} : NatSays s i n → NumSays f z → TermSays s (.cell [i, f]) ⟨n, false, z⟩
  | three {i f c : Value} {n : Nat} {z : ℂ} {b : Bool} : NatSays s i n → NumSays f z → BoolSays s c b → TermSays s (.cell [i, f, c]) ⟨n, b, z⟩

/-- A term as text; a missing text says nothing. -/
inductive TextSays (round : ℚ → Option ℚ) : Option Text → Mono → Prop
  | missing : TextSays round none ⟨0, false, 0⟩
  | text {t : Text} {n : Nat} {q : ℚ} {c : Bool} : Means round t n q c → TextSays round (some t) ⟨n, c, (q : ℂ)⟩

/-- A polynomial. -/
inductive Says (s : Streams) (round : ℚ → Option ℚ) : Value → List Mono → Prop
  | cells {l : List Value} {m : List Mono} : List.Forall₂ (TermSays s) l m → Says s round (.cell l) m
  | texts {l : List (Option Text)} {m : List Mono} : List.Forall₂ (TextSays round) l m → Says s round (.strings l) m

/-- Texts are short and have decimal numbers. -/
def Short : Value → Prop
  | .strings l => ∀ t, some t ∈ l → ¬ Letters t ∧ t.length ≤ 32
  | _ => True

/-- Numbers of symbols that are floating point numbers are integers. -/
def Whole : Value → Prop
  | .cell l => ∀ v ∈ l, ∀ i r x, v = .cell (i :: r) → i = .doubles [x] → ∃ n : Nat, x = n
  | _ => True

/-! ## Numbers -/

theorem one_ok {α : Type} {l : List α} {a : α} : one l = .ok a ↔ l = [a] := by
  unfold one
  split <;> simp_all

theorem towardsZero_nat (n : Nat) : towardsZero (n : ℝ) = n := by
  unfold towardsZero
  rw [if_pos (Nat.cast_nonneg n)]
  simp

theorem readNat_says {s : Streams} {v : Value} {n : Nat} (h : NatSays s v n) : readNat s v = .ok n := by
  cases h with
  | int n => simp [readNat, one, Out.bind]
  | bool b => cases b <;> simp [readNat, one, Out.bind]
  | double n hn =>
    have : towardsZero (n : ℝ) < 2 ^ 64 := by rw [towardsZero_nat]; exact_mod_cast hn
    have h0 : ¬ ((n : ℝ) < 0) := not_lt.mpr (Nat.cast_nonneg n)
    simp only [readNat, one, Out.bind]
    rw [if_neg h0, if_pos this, towardsZero_nat, Int.toNat_natCast]
  | text t n ht => simp [readNat, one, Out.bind, ht, Out.ofOption]

theorem natSays_of {s : Streams} {v : Value} {n : Nat} (h : readNat s v = .ok n) (hw : ∀ x, v = .doubles [x] → ∃ n : Nat, x = n) : NatSays s v n := by
  cases v with
  | ints l =>
    obtain ⟨x, h1, h2⟩ := bind_ok.mp h
    rw [one_ok] at h1
    subst h1
    split at h2
    · cases h2
    · rename_i hx
      cases h2
      obtain ⟨k, rfl⟩ := Int.eq_ofNat_of_zero_le (not_lt.mp hx)
      exact .int k
  | bools l =>
    obtain ⟨x, h1, h2⟩ := bind_ok.mp h
    rw [one_ok] at h1
    subst h1
    cases h2
    have := NatSays.bool (s := s) x
    cases x <;> exact this
  | doubles l =>
    obtain ⟨x, h1, h2⟩ := bind_ok.mp h
    rw [one_ok] at h1
    subst h1
    obtain ⟨k, rfl⟩ := hw x rfl
    rw [if_neg (not_lt.mpr (Nat.cast_nonneg k)), towardsZero_nat] at h2
    split at h2
    · rename_i hk
      cases h2
      exact .double k (by exact_mod_cast hk)
    · cases h2
  | complexes l => cases h
  | strings l =>
    obtain ⟨x, h1, h2⟩ := bind_ok.mp h
    rw [one_ok] at h1
    subst h1
    rw [ofOption_ok] at h2
    obtain ⟨t, rfl, h3⟩ := Option.bind_eq_some_iff.mp h2
    exact .text t n h3
  | cell l => cases h

theorem readComplex_iff {v : Value} {z : ℂ} : readComplex v = .ok z ↔ NumSays v z := by
  constructor
  · intro h
    cases v with
    | ints l =>
      obtain ⟨x, h1, h2⟩ := bind_ok.mp h
      rw [one_ok] at h1
      subst h1
      cases h2
      exact .int x
    | bools l =>
      obtain ⟨x, h1, h2⟩ := bind_ok.mp h
      rw [one_ok] at h1
      subst h1
      cases h2
      exact .bool x
    | doubles l =>
      obtain ⟨x, h1, h2⟩ := bind_ok.mp h
      rw [one_ok] at h1
      subst h1
      cases h2
      exact .double x
    | complexes l =>
      rw [readComplex, one_ok] at h
      subst h
      exact .complex z
    | strings l => cases h
    | cell l => cases h
  · intro h
    cases h <;> simp [readComplex, one, Out.bind]

theorem readBool_iff {s : Streams} {v : Value} {b : Bool} : readBool s v = .ok b ↔ BoolSays s v b := by
  constructor
  · intro h
    cases v with
    | ints l =>
      obtain ⟨x, h1, h2⟩ := bind_ok.mp h
      rw [one_ok] at h1
      subst h1
      split at h2
      · cases h2
      · rename_i hx
        cases h2
        rcases (not_lt.mp hx).eq_or_lt with h0 | h0
        · subst h0
          simpa using BoolSays.no
        · rw [decide_eq_true (by omega)]
          exact .yes x h0
    | bools l =>
      rw [readBool, one_ok] at h
      subst h
      exact .bool b
    | doubles l =>
      obtain ⟨x, h1, h2⟩ := bind_ok.mp h
      rw [one_ok] at h1
      subst h1
      split at h2
      · cases h2
      · rename_i hx
        cases h2
        rcases (not_lt.mp hx).eq_or_lt with h0 | h0
        · subst h0
          simpa using BoolSays.noDouble
        · rw [decide_eq_true h0.ne']
          exact .yesDouble x h0
    | complexes l => cases h
    | strings l =>
      obtain ⟨x, h1, h2⟩ := bind_ok.mp h
      rw [one_ok] at h1
      subst h1
      obtain ⟨n, h3, h4⟩ := bind_ok.mp h2
      rw [ofOption_ok] at h3
      obtain ⟨t, rfl, h3⟩ := Option.bind_eq_some_iff.mp h3
      split at h4
      · rename_i hn
        cases h4
        obtain rfl | rfl : n = 0 ∨ n = 1 := by omega
        · exact .textNo t h3
        · exact .textYes t h3
      · cases h4
    | cell l => cases h
  · intro h
    cases h with
    | bool b => rfl
    | no => simp [readBool, one, Out.bind]
    | yes x hx => simp [readBool, one, Out.bind, not_lt.mpr hx.le, hx.ne']
    | noDouble => simp [readBool, one, Out.bind]
    | yesDouble x hx => simp [readBool, one, Out.bind, not_lt.mpr hx.le, hx.ne']
    | textNo t ht => simp [readBool, one, Out.bind, ht, Out.ofOption]
    | textYes t ht => simp [readBool, one, Out.bind, ht, Out.ofOption]

/-! ## Terms -/

theorem readTerm_says {s : Streams} {e : List Value} {m : Mono} (h : TermSays s (.cell e) m) : readTerm s e = .ok m := by
  cases h with
  | one hi => simp [readTerm, readNat_says hi, Out.bind]
  | two hi hf => simp [readTerm, readNat_says hi, readComplex_iff.mpr hf, Out.bind]
  | three hi hf hc => simp [readTerm, readNat_says hi, readComplex_iff.mpr hf, readBool_iff.mpr hc, Out.bind]

theorem termSays_of {s : Streams} {e : List Value} {m : Mono} (h : readTerm s e = .ok m) (hw : ∀ i r x, e = i :: r → i = .doubles [x] → ∃ n : Nat, x = n) :
    TermSays s (.cell e) m := by
  unfold readTerm at h
  split at h
  · obtain ⟨n, h1, h2⟩ := bind_ok.mp h
    cases h2
    exact .one (natSays_of h1 fun x => hw _ _ x rfl)
  · obtain ⟨n, h1, h2⟩ := bind_ok.mp h
    obtain ⟨z, h3, h4⟩ := bind_ok.mp h2
    cases h4
    exact .two (natSays_of h1 fun x => hw _ _ x rfl) (readComplex_iff.mp h3)
  · obtain ⟨n, h1, h2⟩ := bind_ok.mp h
    obtain ⟨z, h3, h4⟩ := bind_ok.mp h2
    obtain ⟨b, h5, h6⟩ := bind_ok.mp h4
    cases h6
    exact .three (natSays_of h1 fun x => hw _ _ x rfl) (readComplex_iff.mp h3) (readBool_iff.mp h5)
  · cases h

theorem readText_iff {D : Doubles} (hD : Standard D) {t : Option Text} (ht : ∀ u, t = some u → ¬ Letters u ∧ u.length ≤ 32) {m : Mono} :
    readText D t = .ok m ↔ TextSays D.round t m := by
  cases t with
  | none =>
    simp only [readText, Out.ok.injEq]
    constructor
    · rintro rfl
      exact .missing
    · rintro ⟨⟩
      rfl
  | some t =>
    obtain ⟨h1, h2⟩ := ht t rfl
    constructor
    · intro h
      rw [readText] at h
      split at h
      · cases h
      · cases h
      · rename_i i q c hp
        cases h
        obtain ⟨k, rfl⟩ := Int.eq_ofNat_of_zero_le (C113.C113_number hp).1
        exact .text ((C113.C113_reads hD h1 h2 _ _ _).mp hp)
      · cases h
    · intro h
      cases h with
      | text hm =>
        rw [readText, (C113.C113_reads hD h1 h2 _ _ _).mpr hm]
        rfl

theorem readTerms_says {s : Streams} {D : Doubles} (hD : Standard D) {v : Value} {l : List Mono} (hs : Short v) (h : Says s D.round v l) : readTerms s D v = .ok l := by
  cases h with
  | cells h =>
    rw [readTerms, each_ok]
    refine h.imp fun v m hm => ?_
    cases hv : v with
    | cell e =>
      subst hv
      exact readTerm_says hm
    | _ => subst hv; cases hm
  | texts h =>
    rw [readTerms, each_ok]
    rename_i l
    have key : ∀ {l : List (Option Text)} {m : List Mono}, (∀ t, some t ∈ l → ¬ Letters t ∧ t.length ≤ 32) → List.Forall₂ (TextSays D.round) l m →
        List.Forall₂ (fun a b => readText D a = .ok b) l m := by
      intro l m hl hf
      induction hf with
      | nil => exact .nil
      | cons a b ih =>
        refine .cons ((readText_iff hD fun u e => hl u (by simp [e])).mpr a) (ih fun t ht => hl t (List.mem_cons_of_mem _ ht))
    exact key hs h

theorem says_of {s : Streams} {D : Doubles} (hD : Standard D) {v : Value} {l : List Mono} (hs : Short v) (hw : Whole v) (h : readTerms s D v = .ok l) : Says s D.round v l := by
  cases v with
  | cell es =>
    rw [readTerms, each_ok] at h
    refine .cells ?_
    have key : ∀ {es : List Value} {l : List Mono}, Whole (.cell es) →
        List.Forall₂ (fun a b => (match a with | .cell e => readTerm s e | _ => Out.refused) = Out.ok b) es l → List.Forall₂ (TermSays s) es l := by
      intro es l hw hf
      induction hf with
      | nil => exact .nil
      | @cons a b es l h1 h2 ih =>
        refine .cons ?_ (ih fun v hv => hw v (List.mem_cons_of_mem _ hv))
        cases a with
        | cell e => exact termSays_of h1 fun i r x e1 e2 => hw _ List.mem_cons_self i r x (by rw [e1]) e2
        | _ => cases h1
    exact key hw h
  | strings ts =>
    rw [readTerms, each_ok] at h
    refine .texts ?_
    have key : ∀ {l : List (Option Text)} {m : List Mono}, (∀ t, some t ∈ l → ¬ Letters t ∧ t.length ≤ 32) →
        List.Forall₂ (fun a b => readText D a = .ok b) l m → List.Forall₂ (TextSays D.round) l m := by
      intro l m hl hf
      induction hf with
      | nil => exact .nil
      | cons a b ih =>
        refine .cons ((readText_iff hD fun u e => hl u (by simp [e])).mp a) (ih fun t ht => hl t (List.mem_cons_of_mem _ ht))
    exact key hs h
  | _ => cases h

/-! ## Polynomials in symbols -/

/-- **C126, reading.** Cell arrays and arrays of texts that say a sum of terms are accepted if and only if all symbols are known, as the canonical polynomial
with the value of the sum. -/
theorem C126_read {s : Streams} {D : Doubles} (hD : Standard D) {t : Table} {o : Poly.Order} (ho : Function.Injective o.rank) {x : Value} {l : List Mono}
    (hx : Short x) (h : Says s D.round x l) :
    ((∀ m ∈ l, m.id < t.syms.length) → ∃ p, importPolynomial s D t o x = .ok p ∧ Poly.Canonical (MatrixBasis.polyTable t) o p ∧
      (∀ m ∈ p, m.id < t.syms.length) ∧ ∀ v, Poly.Respects (MatrixBasis.polyTable t) v → Poly.value v p = (l.map fun m => m.factor * if m.conj then (starRingEnd ℂ) (v m.id) else v m.id).sum) ∧
    ((∃ m ∈ l, t.syms.length ≤ m.id) → importPolynomial s D t o x = .refused) := by
  have e : importPolynomial s D t o x = toPolynomial t o l := by
    rw [importPolynomial, readTerms_says hD hx h]
    rfl
  rw [e]
  constructor
  · intro hk
    refine ⟨_, if_pos hk, Poly.make_canonical _ o ho l, fun m hm => ?_, fun v hv => (Poly.make_value hv o l).trans rfl⟩
    obtain ⟨y, hy, g⟩ := Poly.make_ids hm
    rw [← g]
    exact hk y hy
  · rintro ⟨m, hm, hl⟩
    exact if_neg fun hk => absurd (hk m hm) (not_lt.mpr hl)

/-- **C126, only those.** What is accepted says a sum of terms, if numbers of symbols are integers; texts are supposed to be short and to have decimal numbers.
Missing: symbols that are fractions, see `C126_refuted_fraction`. -/
theorem C126_only_partial {s : Streams} {D : Doubles} (hD : Standard D) {t : Table} {o : Poly.Order} {x : Value} (hx : Short x) (hw : Whole x) {p : List Mono}
    (h : importPolynomial s D t o x = .ok p) : ∃ l, Says s D.round x l ∧ (∀ m ∈ l, m.id < t.syms.length) ∧ p = Poly.make (MatrixBasis.polyTable t) o l := by
  obtain ⟨l, h1, h2⟩ := bind_ok.mp h
  refine ⟨l, says_of hD hx hw h1, ?_⟩
  unfold toPolynomial at h2
  split at h2
  · cases h2
    exact ⟨by assumption, rfl⟩
  · cases h2

/-- **C126 refuted, fractions.** The symbol `2.5` is read as symbol 2, and so on for all numbers. -/
theorem C126_refuted_fraction (s : Streams) (D : Doubles) (t : Table) (o : Poly.Order) {n : Nat} (hn : n < t.syms.length) (h64 : n < 2 ^ 64) {x : ℝ} (h0 : (n : ℝ) ≤ x) (h1 : x < n + 1) :
    importPolynomial s D t o (.cell [.cell [.doubles [x]]]) = .ok (Poly.make (MatrixBasis.polyTable t) o [⟨n, false, 1⟩]) := by
  have hx : 0 ≤ x := (Nat.cast_nonneg n).trans h0
  have e : towardsZero x = n := by
    unfold towardsZero
    rw [if_pos hx, Int.floor_eq_iff]
    exact ⟨by exact_mod_cast h0, by exact_mod_cast h1⟩
  have h2 : towardsZero x < 2 ^ 64 := by rw [e]; exact_mod_cast h64
  have h3 : readNat s (.doubles [x]) = .ok n := by
    simp only [readNat, one, Out.bind]
    rw [if_neg (not_lt.mpr hx), if_pos h2, e, Int.toNat_natCast]
  simp only [importPolynomial, readTerms, Out.each, readTerm, h3, Out.bind, toPolynomial]
  rw [if_pos (by simpa using hn)]

/-- Two and a half is not the number of a symbol. -/
theorem fraction_says_nothing (s : Streams) (round : ℚ → Option ℚ) (l : List Mono) : ¬ Says s round (.cell [.cell [.doubles [5 / 2]]]) l := by
  rintro (h | _)
  cases h with
  | cons h _ =>
    cases h with
    | one h =>
      generalize e : Value.doubles [5 / 2] = w at h
      cases h with
      | double k _ =>
        rename_i n _
        simp only [Value.doubles.injEq, List.cons.injEq, and_true] at e
        have : (5 : ℝ) = (2 * n : Nat) := by push_cast; linarith
        have : 5 = 2 * n := by exact_mod_cast this
        omega
      | _ => cases e

/-! ## Polynomials that are returned -/

theorem readTerm_export {s : Streams} (m : Mono) :
    readTerm s ([.ints [(m.id : Int)], if Tolerance.real m.factor 1 then .doubles [m.factor.re] else .complexes [m.factor]] ++ if m.conj then [.bools [true]] else []) =
      .ok ⟨m.id, m.conj, if Tolerance.real m.factor 1 then (m.factor.re : ℂ) else m.factor⟩ := by
  have h0 : readNat s (.ints [(m.id : Int)]) = .ok m.id := readNat_says (.int m.id)
  by_cases h1 : Tolerance.real m.factor 1 = true <;> by_cases h2 : m.conj = true <;>
    simp [h0, h1, h2, readTerm, readComplex, readBool, one, Out.bind]

/-- What is read for a returned polynomial. -/
noncomputable def rounded (p : List Mono) : List Mono := p.map fun m => ⟨m.id, m.conj, if Tolerance.real m.factor 1 then (m.factor.re : ℂ) else m.factor⟩

theorem readTerms_export (s : Streams) (D : Doubles) (p : List Mono) : readTerms s D (exportPolynomial p) = .ok (rounded p) := by
  rw [exportPolynomial, readTerms, each_ok, rounded, List.forall₂_map_left_iff, List.forall₂_map_right_iff, List.forall₂_same]
  intro m _
  exact readTerm_export m

/-- **C126, round trip.** A polynomial that is returned as a cell array and given again is the same, if no coefficient has an imaginary part that is within
tolerance of zero but not zero. Missing: those, see `C126_close` and `C126_refuted_exact`. -/
theorem C126_round_partial (s : Streams) (D : Doubles) {t : Table} {o : Poly.Order} (ho : Function.Injective o.rank) {p : List Mono}
    (hp : Poly.Canonical (MatrixBasis.polyTable t) o p) (hk : ∀ m ∈ p, m.id < t.syms.length) (hr : ∀ m ∈ p, |m.factor.im| ≤ Tolerance.eps → m.factor.im = 0) :
    importPolynomial s D t o (exportPolynomial p) = .ok p := by
  have e : rounded p = p := by
    unfold rounded
    conv_rhs => rw [← List.map_id p]
    refine List.map_congr_left fun m hm => ?_
    rcases m with ⟨i, c, f⟩
    simp only [id_eq, Mono.mk.injEq, true_and]
    split
    · rename_i h
      simp only [Tolerance.real, Tolerance.tiny, one_mul, decide_eq_true_eq] at h
      have := hr _ hm h
      exact Complex.ext rfl (by simpa using this.symm)
    · rfl
  rw [importPolynomial, readTerms_export, e, Out.bind, toPolynomial, if_pos hk, Poly.make_self ho hp]

/-- **C126, close.** In any case it is read, as a polynomial with almost the same value. -/
theorem C126_close (s : Streams) (D : Doubles) {t : Table} (o : Poly.Order) {p : List Mono} (hk : ∀ m ∈ p, m.id < t.syms.length) :
    ∃ q, importPolynomial s D t o (exportPolynomial p) = .ok q ∧
      ∀ v, Poly.Respects (MatrixBasis.polyTable t) v → ‖Poly.value v q - Poly.value v p‖ ≤ 1 / 2 ^ 52 * (p.map fun m => ‖v m.id‖).sum := by
  have hk' : ∀ m ∈ rounded p, m.id < t.syms.length := by
    intro m hm
    obtain ⟨x, hx, rfl⟩ := List.mem_map.mp hm
    exact hk x hx
  refine ⟨Poly.make (MatrixBasis.polyTable t) o (rounded p), ?_, fun v hv => ?_⟩
  · rw [importPolynomial, readTerms_export, Out.bind, toPolynomial, if_pos hk']
  · rw [Poly.make_value hv]
    clear hk hk'
    induction p with
    | nil => simp [rounded, Poly.value]
    | cons m p ih =>
      have e1 : Poly.value v (rounded (m :: p)) = Poly.Mono.value v ⟨m.id, m.conj, if Tolerance.real m.factor 1 then (m.factor.re : ℂ) else m.factor⟩ + Poly.value v (rounded p) := by
        simp [rounded, Poly.value]
      rw [e1, Poly.value_cons, List.map_cons, List.sum_cons, mul_add, add_sub_add_comm]
      refine (norm_add_le _ _).trans (add_le_add ?_ ih)
      have hn : ‖if m.conj = true then (starRingEnd ℂ) (v m.id) else v m.id‖ = ‖v m.id‖ := by
        split
        · exact RCLike.norm_conj _
        · rfl
      simp only [Poly.Mono.value]
      rw [← sub_mul, norm_mul, hn]
      refine mul_le_mul_of_nonneg_right ?_ (norm_nonneg _)
      split
      · rename_i h
        simp only [Tolerance.real, Tolerance.tiny, one_mul, decide_eq_true_eq, Tolerance.eps] at h
        have : (m.factor.re : ℂ) - m.factor = -(m.factor.im * Complex.I) := by
          apply Complex.ext <;> simp
        rw [this, norm_neg, norm_mul, Complex.norm_I, mul_one, Complex.norm_real, Real.norm_eq_abs]
        exact h
      · simp

/-- **C126 refuted, exactness.** A coefficient with a small imaginary part loses it. -/
theorem C126_refuted_exact (s : Streams) (D : Doubles) (o : Poly.Order) (ho : Function.Injective o.rank) :
    ∃ p, Poly.Canonical (MatrixBasis.polyTable Table.new) o p ∧ (∀ m ∈ p, m.id < Table.new.syms.length) ∧ importPolynomial s D Table.new o (exportPolynomial p) ≠ .ok p := by
  have hc : ∀ z : ℂ, z ≠ 0 → Poly.Canonical (MatrixBasis.polyTable Table.new) o [⟨1, false, z⟩] := fun z hz => ⟨List.pairwise_singleton _ _, by simp [hz], by simp⟩
  have h1 : (⟨1, Tolerance.eps⟩ : ℂ) ≠ 0 := fun h => by simpa using congrArg Complex.re h
  have hk : ∀ z : ℂ, ∀ m ∈ [(⟨1, false, z⟩ : Mono)], m.id < Table.new.syms.length := by
    intro z m hm
    simp only [List.mem_singleton] at hm
    subst hm
    show 1 < Table.new.syms.length
    decide
  refine ⟨[⟨1, false, ⟨1, Tolerance.eps⟩⟩], hc _ h1, hk _, ?_⟩
  have hr : Tolerance.real ⟨1, Tolerance.eps⟩ 1 = true := by
    simp [Tolerance.real, Tolerance.tiny, Tolerance.eps]
  have e : rounded [⟨1, false, ⟨1, Tolerance.eps⟩⟩] = [⟨1, false, 1⟩] := by
    simp [rounded, hr]
  rw [importPolynomial, readTerms_export, e, Out.bind, toPolynomial, if_pos (hk 1), Poly.make_self ho (hc 1 one_ne_zero)]
  intro h
  simp only [Out.ok.injEq, List.cons.injEq, Mono.mk.injEq, and_true, true_and] at h
  have := congrArg Complex.im h
  simp only [Complex.one_im, Tolerance.eps] at this
  norm_num at this

/-! ## Polynomials in words -/

/-- A word of operators, numbered from 1. -/
inductive WordSays : Value → List Nat → Prop
  | ints {w : List Nat} : (∀ k ∈ w, k < 32767) → WordSays (.ints (w.map fun (k : Nat) => (k : Int) + 1)) w
  | doubles {w : List Nat} : (∀ k ∈ w, k < 32767) → WordSays (.doubles (w.map fun (k : Nat) => (k : ℝ) + 1)) w

/-- A word and its coefficient, or else one. -/
inductive ItemSays : Value → List Nat × ℂ → Prop
  | one {x : Value} {w : List Nat} : WordSays x w → ItemSays (.cell [x]) (w, 1)
  | two {x f : Value} {w : List Nat} {z : ℂ} : WordSays x w → NumSays f z → ItemSays (.cell [x, f]) (w, z)

theorem fromOne_says {w : List Nat} : fromOne (w.map fun (k : Nat) => (k : Int) + 1) = .ok w := by
  unfold fromOne
  rw [if_pos (by
    intro x hx
    obtain ⟨k, -, rfl⟩ := List.mem_map.mp hx
    omega)]
  rw [List.map_map]
  congr 1
  conv_rhs => rw [← List.map_id w]
  refine List.map_congr_left fun k _ => ?_
  show ((k : Int) + 1 - 1).toNat = k
  omega

theorem readOps_says {s : Streams} {x : Value} {w : List Nat} (h : WordSays x w) : (readOps s x).bind fromOne = .ok w := by
  cases h with
  | ints h =>
    have : (w.map fun (k : Nat) => (k : Int) + 1).map cast16 = w.map fun (k : Nat) => (k : Int) + 1 := by
      conv_rhs => rw [← List.map_id (w.map fun (k : Nat) => (k : Int) + 1)]
      refine List.map_congr_left fun x hx => ?_
      rw [id_eq]
      obtain ⟨k, hk, e⟩ := List.mem_map.mp hx
      have h1 : k + 1 ≤ 32767 := h k hk
      refine cast16_id ⟨?_, ?_⟩
      · rw [← e]; omega
      · rw [← e]; omega
    simp only [readOps, Out.bind, this, fromOne_says]
  | @doubles w h =>
    have : Out.each castReal (w.map fun (k : Nat) => (k : ℝ) + 1) = .ok (w.map fun (k : Nat) => (k : Int) + 1) := by
      rw [each_ok, List.forall₂_map_left_iff, List.forall₂_map_right_iff, List.forall₂_same]
      intro k hk
      have h1 := h k hk
      have h2 : towardsZero ((k : ℝ) + 1) = (k : Int) + 1 := by
        rw [← Nat.cast_succ, towardsZero_nat, Nat.cast_succ]
      unfold castReal
      rw [h2, if_pos ⟨by omega, by omega⟩]
    simp only [readOps, this, Out.bind, fromOne_says]

/-- **C126, words.** Cell arrays of words with coefficients are read as what they say, and refused in contexts that do not have all of the operators. -/
theorem C126_words {s : Streams} {num : Nat} {resolve : List Nat → HSeq} {x : List Value} {l : List (List Nat × ℂ)} (h : List.Forall₂ ItemSays x l) :
    (stage s (.cell x)).bind (supply num resolve) = if ∀ e ∈ l, ∀ k ∈ e.1, k < num then .ok (l.map fun e => (resolve e.1, e.2)) else .refused := by
  have e : stage s (.cell x) = .ok l := by
    rw [stage, each_ok]
    refine h.imp fun v m hm => ?_
    cases hm with
    | one hw =>
      rw [stageTerm, readOps_says hw]
      rfl
    | two hw hf =>
      rw [stageTerm, readOps_says hw, readComplex_iff.mpr hf]
      rfl
  rw [e]
  rfl

/-- Numbers of operators are integers and fit in 16 bits. -/
def PlainWord : Value → Prop
  | .ints l => ∀ x ∈ l, -32768 ≤ x ∧ x ≤ 32767
  | .doubles l => ∀ q ∈ l, ∃ x : Int, q = x ∧ -32768 ≤ x ∧ x ≤ 32767
  | .bools _ => False
  | .strings _ => False
  | _ => True

theorem fromOne_ok {l : List Int} {w : List Nat} (h : fromOne l = .ok w) (hl : ∀ x ∈ l, x ≤ 32767) : l = w.map (fun (k : Nat) => (k : Int) + 1) ∧ ∀ k ∈ w, k < 32767 := by
  unfold fromOne at h
  split at h
  · rename_i h1
    cases h
    constructor
    · rw [List.map_map]
      conv_lhs => rw [← List.map_id l]
      refine List.map_congr_left fun x hx => ?_
      have := h1 x hx
      show x = ((x - 1).toNat : Int) + 1
      omega
    · intro k hk
      obtain ⟨x, hx, rfl⟩ := List.mem_map.mp hk
      have h2 := h1 x hx
      have h3 := hl x hx
      omega
  · cases h

theorem towardsZero_int (x : Int) : towardsZero (x : ℝ) = x := by
  unfold towardsZero
  split <;> simp

theorem wordSays_of {s : Streams} {x : Value} {w : List Nat} (hx : PlainWord x) (h : (readOps s x).bind fromOne = .ok w) : WordSays x w := by
  cases x with
  | ints l =>
    have e : l.map cast16 = l := by
      conv_rhs => rw [← List.map_id l]
      refine List.map_congr_left fun x hx' => ?_
      rw [id_eq]
      exact cast16_id (hx x hx')
    rw [readOps, e, Out.bind] at h
    obtain ⟨h1, h2⟩ := fromOne_ok h fun x hx' => (hx x hx').2
    rw [h1]
    exact .ints h2
  | doubles l =>
    obtain ⟨m, h1, h2⟩ := bind_ok.mp h
    rw [readOps, each_ok] at h1
    have key : ∀ {l : List ℝ} {m : List Int}, (∀ q ∈ l, ∃ x : Int, q = x ∧ -32768 ≤ x ∧ x ≤ 32767) → List.Forall₂ (fun a b => castReal a = .ok b) l m →
        l = m.map (fun (x : Int) => (x : ℝ)) ∧ ∀ x ∈ m, x ≤ 32767 := by
      intro l m hl hf
      induction hf with
      | nil => simp
      | @cons a b l m h1 h2 ih =>
        obtain ⟨x, rfl, hx1⟩ := hl a List.mem_cons_self
        rw [castReal, towardsZero_int, if_pos hx1] at h1
        cases h1
        obtain ⟨g1, g2⟩ := ih fun q hq => hl q (List.mem_cons_of_mem _ hq)
        exact ⟨by rw [List.map_cons, ← g1], List.forall_mem_cons.mpr ⟨hx1.2, g2⟩⟩
    obtain ⟨g1, g2⟩ := key hx h1
    obtain ⟨h3, h4⟩ := fromOne_ok h2 g2
    rw [g1, h3, List.map_map, show ((fun (x : Int) => (x : ℝ)) ∘ fun (k : Nat) => (k : Int) + 1) = fun (k : Nat) => (k : ℝ) + 1 from by funext k; simp]
    exact .doubles h4
  | bools _ => exact absurd hx id
  | strings _ => exact absurd hx id
  | complexes _ => cases h
  | cell _ => cases h

/-- **C126, only those words.** What is accepted says words with coefficients, if numbers of operators are integers that fit in 16 bits. Numbers below one are
thus refused. Missing: other numbers, which wrap around or are cut off just as in C125. -/
theorem C126_words_only_partial {s : Streams} {x : List Value} (hx : ∀ v ∈ x, ∀ w r, v = .cell (w :: r) → PlainWord w) {l : List (List Nat × ℂ)}
    (h : stage s (.cell x) = .ok l) : List.Forall₂ ItemSays x l := by
  rw [stage, each_ok] at h
  induction h with
  | nil => exact .nil
  | @cons a b x l h1 h2 ih =>
    refine .cons ?_ (ih fun v hv => hx v (List.mem_cons_of_mem _ hv))
    unfold stageTerm at h1
    split at h1
    · obtain ⟨w, h3, h4⟩ := bind_ok.mp h1
      cases h4
      exact .one (wordSays_of (hx _ List.mem_cons_self _ _ rfl) h3)
    · obtain ⟨w, h3, h4⟩ := bind_ok.mp h1
      obtain ⟨z, h5, h6⟩ := bind_ok.mp h4
      cases h6
      exact .two (wordSays_of (hx _ List.mem_cons_self _ _ rfl) h3) (readComplex_iff.mp h5)
    · cases h1

/-- **C126, words back.** Words and coefficients that are returned, and given again together, are the same polynomial, if the context makes the same words of
their operators. -/
theorem C126_words_back {s : Streams} {num : Nat} {resolve : List Nat → HSeq} {r : Raw} (hk : ∀ e ∈ r, ∀ k ∈ e.1.ops, k < num ∧ k < 32767)
    (hr : ∀ e ∈ r, resolve e.1.ops = e.1) : (stage s (exportWords r)).bind (supply num resolve) = .ok r := by
  have h : List.Forall₂ ItemSays (r.map fun e => .cell [.ints (e.1.ops.map fun (k : Nat) => (k : Int) + 1), .complexes [e.2]]) (r.map fun e => (e.1.ops, e.2)) := by
    rw [List.forall₂_map_left_iff, List.forall₂_map_right_iff, List.forall₂_same]
    exact fun e he => .two (.ints fun k hk' => (hk e he k hk').2) (.complex _)
  rw [exportWords, C126_words h, if_pos, List.map_map]
  · congr 1
    conv_rhs => rw [← List.map_id r]
    refine List.map_congr_left fun e he => ?_
    exact Prod.ext (hr e he) rfl
  · intro e he k hk'
    obtain ⟨x, hx, rfl⟩ := List.mem_map.mp he
    exact (hk x hx k hk').1

theorem found_iff {c : Env} {t : Table} {o : Poly.Order} {r : Raw} {p : List Mono} : found c t o r = .ok p ↔ RawPoly.construct c t o r = some p := by
  rw [found, bind_ok, RawPoly.construct, Option.map_eq_some_iff]
  refine exists_congr fun l => and_congr ?_ (by simp)
  rw [each_ok, RawPoly.storage, mapM_some]
  exact ⟨fun h => h.imp fun _ _ g => ofOption_ok.mp g, fun h => h.imp fun _ _ g => ofOption_ok.mpr g⟩

/-- **C126, known words.** If the words do not have signs, the polynomial is found if and only if all words have symbols, it is canonical, and its value is the sum of the moments
of the words times the coefficients. Missing: words with signs, see `C126_refuted_sign`. -/
theorem C126_found_partial {h : Host} {W : HSeq → Prop} (hS : Setting h W) {t : Table} (ht : Ready h W t) {o : Poly.Order} (ho : Function.Injective o.rank) {r : Raw} (hr : Over W r) :
    ((∃ p, found h.env t o r = .ok p) ↔ ∀ e ∈ r, (t.lookup h.env e.1).1.isSome) ∧
    ∀ p, found h.env t o r = .ok p → Poly.Canonical (MatrixBasis.polyTable t) o p ∧ ∀ L v, Moments h.env W L → SimpKeeps h W L → Agrees t L v → Poly.value v p = (r.map fun e => e.2 * L e.1).sum := by
  obtain ⟨h1, h2⟩ := C71.C71_construct hS ht o hr
  refine ⟨?_, fun p hp => ⟨?_, fun L v hL hs hv => (h2 p (found_iff.mp hp) L v hL hs hv).trans rfl⟩⟩
  swap
  · obtain ⟨l, -, e⟩ := bind_ok.mp hp
    cases e
    exact Poly.make_canonical _ o ho l
  rw [← h1, Option.isSome_iff_exists]
  exact exists_congr fun p => found_iff

theorem merge_value {h : Host} {W : HSeq → Prop} {t : Table} {w : HSeq} (hw : W w) (hp : w.sign = .pos) (hn : (t.lookup h.env w).1 = none) {m}
    (hm : t.mergeSeq h.env w = some m) {t' : Table} (hg : m.1.syms <+: t'.syms) {L : HSeq → ℂ} {v : Nat → ℂ} (hs : SimpKeeps h W L) (hv : Agrees t' L v) (f : ℂ) :
    Poly.Mono.value v ⟨m.2.1, false, f⟩ = f * L w ∧ m.2.1 < m.1.syms.length := by
  have hw' : ({ w with sign := .pos } : HSeq) = w := by rw [← hp]
  have hf : t.hashes.lookup (if h.env.aliases then h.env.simp w else w).hash = none := by
    unfold Table.lookup at hn
    split at hn
    · cases hn
    · rename_i h0
      by_cases ha : h.env.aliases = true
      · rw [if_pos ha] at hn ⊢
        by_cases he : (h.env.simp w).hash = w.hash
        · rw [he]
          simpa [Table.find] using h0
        · simp only [bne_iff_ne, ne_eq, he, not_false_eq_true, if_true] at hn
          simpa [Table.find] using hn
      · rw [if_neg ha]
        simpa [Table.find] using h0
  have hL : L (if h.env.aliases then h.env.simp w else w) = L w ∧ (if h.env.aliases then h.env.simp w else w).sign = .pos := by
    split
    · exact ⟨(hs (by assumption) w hw hp).2.2, (hs (by assumption) w hw hp).2.1⟩
    · exact ⟨rfl, hp⟩
  unfold Table.mergeSeq at hm
  simp only [hw'] at hm
  generalize ha : (if h.env.aliases = true then h.env.simp w else w) = a at hm hf hL
  unfold Table.mergeSym at hm
  simp only [Symbols.Sym.ofPair, hf, Option.some.injEq] at hm
  subst hm
  refine ⟨?_, by simp⟩
  simp only [Poly.Mono.value]
  rw [if_neg (by simp)]
  congr 1
  rw [← hL.1]
  have hg' := SymbolMatrix.get_prefix hg (List.getElem?_concat_length (l := t.syms))
  refine hv.word _ _ a hg' ?_
  rw [← hL.2]

theorem registerTerms_spec {h : Host} {W : HSeq → Prop} (hS : Setting h W) : ∀ {r : Raw} {t : Table}, Ready h W t → Over W r →
    (h.env.aliases = true → ∀ e ∈ r, W (h.env.simp e.1)) →
    ∃ t' l, registerTerms h.env t r = some (t', l) ∧ Ready h W t' ∧ t.syms <+: t'.syms ∧
      ∀ L v, Moments h.env W L → SimpKeeps h W L → Agrees t' L v → Poly.value v l = total L r
  | [], t, ht, _, _ => ⟨t, [], rfl, ht, List.prefix_rfl, fun _ _ _ _ _ => rfl⟩
  | e :: r, t, ht, hr, hal => by
    have he := hr e List.mem_cons_self
    have hr' : Over W r := fun x hx => hr x (List.mem_cons_of_mem _ hx)
    have hal' : h.env.aliases = true → ∀ e ∈ r, W (h.env.simp e.1) := fun ha x hx => hal ha x (List.mem_cons_of_mem _ hx)
    unfold registerTerms
    cases hk : (t.lookup h.env e.1).1 with
    | some k =>
      obtain ⟨t', l, h1, h2, h3, h4⟩ := registerTerms_spec hS ht hr' hal'
      refine ⟨t', ⟨k.1, k.2, e.2⟩ :: l, by simp [h1], h2, h3, fun L v hL hs hv => ?_⟩
      rw [Poly.value_cons, RawPoly.total_cons, h4 L v hL hs hv, C71.lookup_value hS (ht.fit hS) hL hs (SymbolMatrix.agrees_mono h3 hv) he.1 he.2 hk, smul_eq_mul]
    | none =>
      obtain ⟨m, m1, m2, m3, m4⟩ := C71.lookup_after hS ht he.2 (by
        split
        · exact hal (by assumption) e List.mem_cons_self
        · exact he.1)
      obtain ⟨t', l, h1, h2, h3, h4⟩ := registerTerms_spec hS m2 hr' hal'
      refine ⟨t', ⟨m.2.1, false, e.2⟩ :: l, by simp [m1, h1], h2, m3.trans h3, fun L v hL hs hv => ?_⟩
      rw [Poly.value_cons, RawPoly.total_cons, h4 L v hL hs hv, (merge_value he.1 he.2 hk m1 h3 hs hv e.2).1, smul_eq_mul]

/-- **C126, new words.** With registration, polynomials in words without signs are always accepted; symbols that exist stay as they are; the polynomial is canonical, and the value is the sum
of the moments of the words times the coefficients. -/
theorem C126_registered_partial {h : Host} {W : HSeq → Prop} (hS : Setting h W) {t : Table} (ht : Ready h W t) {o : Poly.Order} (ho : Function.Injective o.rank) {r : Raw} (hr : Over W r)
    (hal : h.env.aliases = true → ∀ e ∈ r, W (h.env.simp e.1)) :
    ∃ t' p, registered h.env t o r = some (t', p) ∧ Ready h W t' ∧ t.syms <+: t'.syms ∧ Poly.Canonical (MatrixBasis.polyTable t') o p ∧
      ∀ L v, Moments h.env W L → SimpKeeps h W L → Agrees t' L v → Poly.value v p = (r.map fun e => e.2 * L e.1).sum := by
  obtain ⟨t', l, h1, h2, h3, h4⟩ := registerTerms_spec hS ht hr hal
  refine ⟨t', _, by simp only [registered, h1, Option.map_some], h2, h3, Poly.make_canonical _ o ho l, fun L v hL hs hv => ?_⟩
  rw [Poly.make_value hv.flags, h4 L v hL hs hv]
  rfl

/-! ## Words with signs -/

theorem room_lt {n : Nat} (hn : PauliMatrix.Room n) (h0 : 0 < n) : n * 3 + 3 < 2 ^ 64 := by
  rcases Nat.lt_or_ge n 2 with h | h
  · obtain rfl : n = 1 := by omega
    norm_num
  · have h1 : (n * 3) ^ n ≤ ∑ k ∈ Finset.range (n + 1), (n * 3) ^ k := Finset.single_le_sum (f := fun k => (n * 3) ^ k) (fun _ _ => Nat.zero_le _) (Finset.mem_range.mpr (Nat.lt_succ_self n))
    have h2 : (n * 3) ^ 2 ≤ (n * 3) ^ n := Nat.pow_le_pow_right (by omega) h
    have h3 := h2.trans_lt (h1.trans_lt hn.words)
    clear h1 h2
    have h4 : n * 3 < 2 ^ 32 := by
      by_contra h5
      have := Nat.pow_le_pow_left (not_lt.mp h5) 2
      rw [← pow_mul] at this
      exact absurd h3 (not_lt.mpr this)
    have h5 : 2 ^ 32 + 3 < 2 ^ 64 := by norm_num
    omega

theorem hash_ne {n : Nat} {w : List Nat} (hn : n * 3 + 3 < 2 ^ 64) (h : w = [0, 1] ∨ w = [2]) : hashWord (UInt64.ofNat (n * 3)) w ≠ 0 := by
  intro e
  have h1 := hashWord_toNat (n * 3) (by omega) w
  have h4 : 0 < enc (n * 3) w ∧ 1 + enc (n * 3) w < 2 ^ 64 := by
    rcases h with rfl | rfl
    · show 0 < (0 * (n * 3) + (0 + 1)) * (n * 3) + (1 + 1) ∧ 1 + ((0 * (n * 3) + (0 + 1)) * (n * 3) + (1 + 1)) < _
      omega
    · show 0 < 0 * (n * 3) + (2 + 1) ∧ 1 + (0 * (n * 3) + (2 + 1)) < _
      omega
  rw [e, Nat.mod_eq_of_lt h4.2] at h1
  have h3 : (0 : UInt64).toNat = 0 := rfl
  omega

/-- What the context makes of a word that is not stored on the heap. -/
theorem resolve {n : Nat} {w u : List Nat} {g : Sign} (h1 : Pauli.simplify w .pos = (u, g)) (h2 : hashWord (UInt64.ofNat (n * 3)) w ≠ 0) :
    HSeq.construct (Pauli.ctx n) false w .pos = PauliMatrix.seq n u g := by
  have h3 : (Pauli.ctx n).simplify w .pos = some (u, g) := congrArg some h1
  have h4 : ∀ s : HSeq, s.hash ≠ 0 → HSeq.ctxHash (Pauli.ctx n) s = hashWord (UInt64.ofNat (n * 3)) s.ops := by
    intro s hs
    unfold HSeq.ctxHash
    rw [if_neg (by simpa [HSeq.isZero] using hs)]
    rfl
  unfold HSeq.construct HSeq.toCanonical
  dsimp only
  rw [h3]
  dsimp only
  rw [h4 _ h2]
  rfl

/-- The word that the context makes of `X Y`. -/
theorem resolve_xy {n : Nat} (hn : n * 3 + 3 < 2 ^ 64) : HSeq.construct (Pauli.ctx n) false [0, 1] .pos = PauliMatrix.seq n [2] .imag :=
  resolve (by decide) (hash_ne hn (.inl rfl))

theorem resolve_z {n : Nat} (hn : n * 3 + 3 < 2 ^ 64) : HSeq.construct (Pauli.ctx n) false [2] .pos = PauliMatrix.seq n [2] .pos :=
  resolve (by decide) (hash_ne hn (.inr rfl))

/-- **C126 refuted, signs.** For Pauli operators, the polynomial `X Y` is read as the polynomial `Z`, although it is `i Z`: for each number of qubits, whatever
the table, with and without registration. There is a state where the moments are different. -/
theorem C126_refuted_sign {n : Nat} (hn : PauliMatrix.Room n) (h0 : 0 < n) (s : Streams) (t : Table) (o : Poly.Order) :
    ∃ a b : Raw, (stage s (.cell [.cell [.ints [1, 2]]])).bind (supply (n * 3) fun w => HSeq.construct (Pauli.ctx n) false w .pos) = .ok a ∧
      (stage s (.cell [.cell [.ints [3]]])).bind (supply (n * 3) fun w => HSeq.construct (Pauli.ctx n) false w .pos) = .ok b ∧
      found (PauliMatrix.env n .none) t o a = found (PauliMatrix.env n .none) t o b ∧
      registered (PauliMatrix.env n .none) t o a = registered (PauliMatrix.env n .none) t o b ∧
      (a.map fun e => e.2 * PauliMatrix.ground n (PauliMatrix.operator (PauliMatrix.letter n) e.1)).sum ≠
        (b.map fun e => e.2 * PauliMatrix.ground n (PauliMatrix.operator (PauliMatrix.letter n) e.1)).sum ∧
      PauliMatrix.letter n 0 * PauliMatrix.letter n 1 = PauliMatrix.operator (PauliMatrix.letter n) (PauliMatrix.seq n [2] .imag) := by
  have w1 : WordSays (.ints [1, 2]) [0, 1] := .ints (w := [0, 1]) (by decide)
  have w2 : WordSays (.ints [3]) [2] := .ints (w := [2]) (by decide)
  have hz : PauliMatrix.Letters n [2] := ⟨List.pairwise_singleton _ _, by simp; omega⟩
  refine ⟨[(PauliMatrix.seq n [2] .imag, 1)], [(PauliMatrix.seq n [2] .pos, 1)], ?_, ?_, ?_, ?_, ?_, ?_⟩
  · rw [C126_words (.cons (.one w1) .nil), if_pos (by simp; omega)]
    exact congrArg (fun w => Out.ok [(w, (1 : ℂ))]) (resolve_xy (room_lt hn h0))
  · rw [C126_words (.cons (.one w2) .nil), if_pos (by simp; omega)]
    exact congrArg (fun w => Out.ok [(w, (1 : ℂ))]) (resolve_z (room_lt hn h0))
  · rfl
  · rfl
  · have e := PauliMatrix.ground_word hz
    simp only [PauliMatrix.operator, PauliMatrix.seq, map_smul, List.map_cons, List.map_nil, List.sum_cons, List.sum_nil, add_zero, one_mul, e, Rewrite.phase]
    simp [Complex.ext_iff]
  · have := (PauliMatrix.represents n).xy 0 h0
    simpa [PauliMatrix.operator, PauliMatrix.seq, Rewrite.phase, Rewrite.evalWord] using this

/-! ## Examples -/

/-- The polynomial `2i Z` on one qubit. -/
example : ∃ r : Raw, r ≠ [] ∧ (∀ e ∈ r, ∀ k ∈ e.1.ops, k < 3 ∧ k < 32767) ∧ ∀ e ∈ r, HSeq.construct (Pauli.ctx 1) false e.1.ops .pos = e.1 := by
  refine ⟨[(PauliMatrix.seq 1 [2] .pos, 2 * Complex.I)], by simp, by simp [PauliMatrix.seq], fun e he => ?_⟩
  simp only [List.mem_singleton] at he
  subst he
  exact resolve_z (by norm_num)

/-- The polynomial `2 #1 + i #0*`, twice. -/
example : ∃ x l, Says ⟨fun _ => none, fun _ => none⟩ some x l ∧ Short x ∧ Whole x ∧ (∀ m ∈ l, m.id < Table.new.syms.length) ∧ l.length = 2 := by
  refine ⟨.cell [.cell [.ints [1], .doubles [2]], .cell [.doubles [0], .complexes [Complex.I], .bools [true]]], [⟨1, false, ((2 : ℝ) : ℂ)⟩, ⟨0, true, Complex.I⟩],
    .cells (.cons (.two (.int 1) (.double 2)) (.cons (.three ?_ (.complex _) (.bool true)) .nil)), trivial, ?_, by simp; decide, rfl⟩
  · simpa using NatSays.double (s := ⟨fun _ => none, fun _ => none⟩) 0 (by norm_num)
  · intro v hv i r x e1 e2
    simp only [List.mem_cons, List.not_mem_nil, or_false] at hv
    rcases hv with rfl | rfl
    · cases e1
      cases e2
    · cases e1
      cases e2
      exact ⟨0, by simp⟩

/-- A word that is plain. -/
example : ∀ v ∈ [Value.cell [.ints [1, 3], .doubles [2]]], ∀ w r, v = .cell (w :: r) → PlainWord w := by
  intro v hv w r e
  simp only [List.mem_singleton] at hv
  subst hv
  cases e
  simp [PlainWord]

/-- A word, and hypotheses of the refutation. -/
example : (∃ x l, List.Forall₂ ItemSays x l ∧ l ≠ [] ∧ ∀ e ∈ l, ∀ k ∈ e.1, k < 3) ∧ PauliMatrix.Room 1 ∧ Over (PauliMatrix.IsSeq 1) [(PauliMatrix.seq 1 [2] .pos, 3)] := by
  have hn : PauliMatrix.Room 1 := ⟨by norm_num, by norm_num [Finset.sum_range_succ]⟩
  refine ⟨⟨[.cell [.ints [1, 3], .doubles [2]]], [([0, 2], ((2 : ℝ) : ℂ))], .cons (.two (.ints (w := [0, 2]) (by decide)) (.double 2)) .nil, by simp, by simp⟩, hn, ?_⟩
  intro e he
  simp only [List.mem_singleton] at he
  subst he
  exact ⟨.inr (hn.isWord ⟨List.pairwise_singleton _ _, by simp⟩ _), rfl⟩

end Moment.C126
