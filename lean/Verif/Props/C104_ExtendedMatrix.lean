import Verif.Proof.ExtendedValues
import Verif.Proof.FactorContext
import Mathlib.Data.Real.Basic

/-! # C104: factor tables of inflation scenarios, and moment matrices extended by scalars -/

set_option linter.unusedSectionVars false

namespace Moment.C104
open Moment Moment.Inflation Moment.Inflation.Extend

section
variable {W : Type} [DecidableEq W] {sc : Scenario W} {D : W → Prop} {zero one : W} {E : Type} {mono : Nat → E}

/-- The source of an extension is the Hermitian moment matrix of the words `gens`, and these are among the symbols. -/
structure OfMoments (sc : Scenario W) (t : Table W) (src : Source W E) (gens : List W) : Prop where
  words : src.generators = some gens
  hermitian : src.hermitian = true
  dim : gens.length = src.mat.dim
  registered : Registered sc t gens

/-- The tables that one can get to: begin with zero and one, add symbols with new words and refresh the factor table, extend moment matrices. -/
inductive Reach (sc : Scenario W) (D : W → Prop) (zero one : W) (mono : Nat → E) : Table W → Prop
  | new {t : Table W} : Table.new sc zero one = .ok t → Reach sc D zero one mono t
  | grow {t t' : Table W} {ws : List W} : Reach sc D zero one mono t → ws.Nodup → (∀ w ∈ ws, D w ∧ some w ∉ t.syms) →
      ({ t with syms := t.syms ++ ws.map some }).refresh sc = .ok t' → Reach sc D zero one mono t'
  | extend {t t' : Table W} {src : Source W E} {gens : List W} {scalars : List Int} {m : Mat E} : Reach sc D zero one mono t →
      OfMoments sc t src gens → extend sc mono t src scalars = .ok (t', m) → Reach sc D zero one mono t'

theorem range_iff {t : Table W} {scalars : List Int} : (scalars.any fun s => decide (s ≥ t.syms.length) || decide (s < 0)) = true ↔
    ¬ ∀ s ∈ scalars, 0 ≤ s ∧ s < t.syms.length := by
  simp only [List.any_eq_true, Bool.or_eq_true, decide_eq_true_eq, not_forall]
  constructor
  · rintro ⟨s, hs, h⟩
    exact ⟨s, hs, by omega⟩
  · rintro ⟨s, hs, h⟩
    exact ⟨s, hs, by omega⟩

theorem toNat_lt {t : Table W} {scalars : List Int} (hin : ∀ s ∈ scalars, 0 ≤ s ∧ s < t.syms.length) : ∀ k ∈ scalars.map Int.toNat, k < t.syms.length := by
  intro k hk
  obtain ⟨s, hs, rfl⟩ := List.mem_map.mp hk
  have := hin s hs
  omega

theorem extend_single {t : Table W} {src : Source W E} {gens : List W} (hs : OfMoments sc t src gens) (scalars : List Int) :
    extend sc mono t src scalars = single sc mono t gens src.mat scalars := by
  rw [extend, hs.words]
  dsimp only
  rw [hs.hermitian]
  rfl

/-- What should come of an extension. -/
def Extended (sc : Scenario W) (D : W → Prop) (zero one : W) (mono : Nat → E) (t : Table W) (src : Source W E) (gens : List W) (scalars : List Int)
    (t' : Table W) (m : Mat E) : Prop :=
  (∀ s ∈ scalars, 0 ≤ s ∧ s < t.syms.length) ∧ Good sc D zero one t' ∧ Ext t t' ∧
    ∃ gs ls, List.Forall₂ (Sourced sc t) gens gs ∧ List.Forall₂ (FactorsOf t) (scalars.map Int.toNat) ls ∧ Result mono t' src.mat m gs ls ∧
      t'.entries.length ≤ t.entries.length + atMost gens.length scalars.length

theorem extend_ok (law : Lawful sc D zero one) {t : Table W} (h : Good sc D zero one t) {src : Source W E} {gens : List W} (hs : OfMoments sc t src gens)
    {scalars : List Int} {t' : Table W} {m : Mat E} (he : extend sc mono t src scalars = .ok (t', m)) :
    Extended sc D zero one mono t src gens scalars t' m := by
  rw [extend_single hs] at he
  by_cases hin : ∀ s ∈ scalars, 0 ≤ s ∧ s < t.syms.length
  · obtain ⟨gs, hg⟩ := sourced h hs.registered
    obtain ⟨ls, hl⟩ := factored h (toNat_lt hin)
    rcases single_spec' (mono := mono) law h hs.dim hin hg hl with ⟨u, m', h1, h2, h3, h4, h5⟩ | ⟨h1, -⟩
    · rw [he] at h1
      cases h1
      exact ⟨hin, h2, h3, gs, ls, hg, hl, h4, h5⟩
    · rw [he] at h1
      cases h1
  · rw [single, if_pos (range_iff.mpr hin)] at he
    cases he

theorem reach_good (law : Lawful sc D zero one) {t : Table W} (h : Reach sc D zero one mono t) : Good sc D zero one t := by
  induction h with
  | new h =>
    obtain ⟨t', h1, h2⟩ := new_spec law
    rw [h] at h1
    cases h1
    exact h2
  | grow _ h1 h2 h3 ih =>
    obtain ⟨t', g1, g2, -⟩ := grow_spec law ih h1 h2
    rw [h3] at g1
    cases g1
    exact g2
  | extend _ h1 h2 ih => exact (extend_ok law ih h1 h2).2.1

/-! ## Factor tables -/

/-- C104. Making the table and adding words always succeeds. -/
theorem C104_refresh (law : Lawful sc D zero one) : (∃ t, Table.new sc zero one = .ok t) ∧ ∀ t, Reach sc D zero one mono t → ∀ ws : List W, ws.Nodup →
    (∀ w ∈ ws, D w ∧ some w ∉ t.syms) → ∃ t', ({ t with syms := t.syms ++ ws.map some }).refresh sc = .ok t' ∧
      (∃ r, t'.syms = t.syms ++ ws.map some ++ r) ∧ t.entries <+: t'.entries := by
  refine ⟨?_, ?_⟩
  · obtain ⟨t, h, -⟩ := new_spec law
    exact ⟨t, h⟩
  · intro t h ws h1 h2
    have hg := reach_good law h
    obtain ⟨t', g1, g2, g3, ⟨r, hr⟩, -⟩ := grow_spec law hg h1 h2
    exact ⟨t', g1, ⟨r, hr.symm⟩, g3.entries⟩

theorem table_of (law : Lawful sc D zero one) {t : Table W} (hg : Good sc D zero one t) (i : Nat) :
    (i < t.syms.length ↔ ∃ e, t.entries[i]? = some e) ∧ ∀ e, t.entries[i]? = some e → e.id = i ∧ e.symbols ≠ [] ∧
      (∀ k ∈ e.symbols, FactorsOf t k [k] ∧ ∃ w, t.syms[k]? = some (some w) ∧ Basic sc w) ∧
      (∀ w, t.syms[i]? = some (some w) → ∃ ks, e.symbols.Perm ks ∧ List.Forall₂ (fun f k => t.syms[k]? = some (some (sc.canonical f))) (sc.factorize w) ks) ∧
      ∃ k, t.find e.symbols = some k ∧ FactorsOf t k e.symbols := by
  refine ⟨?_, ?_⟩
  · rw [← hg.sync]
    constructor
    · intro hi
      exact ⟨_, List.getElem?_eq_getElem hi⟩
    · rintro ⟨e, he⟩
      exact (List.getElem?_eq_some_iff.mp he).1
  · intro e he
    refine ⟨hg.ids i e he, proper_ne (hg.proper i e he), ?_, fun w hw => hg.faithful i e w he hw, ?_⟩
    · intro k hk
      have hf := hg.fund i e he k hk
      obtain ⟨w, hw, hb⟩ := hf
      obtain ⟨e', he'⟩ := entry_at hg hw
      exact ⟨⟨e', he', fund_symbols hg ⟨w, hw, hb⟩ he'⟩, w, hw, hb⟩
    · obtain ⟨k, hk⟩ := hg.kept i e he
      exact ⟨k, hk, find_factors hg hk⟩

variable {M : Type} [CommMonoidWithZero M]

/-- C104. In every reachable table each symbol has an entry with its id; all its factors are symbols of words that do not factorize, each is its own only
factor; the factors of a symbol with a word are the canonical forms of the factors of the word, with multiplicity; looking for the factors of a symbol
finds a symbol with these factors. -/
theorem C104_table (law : Lawful sc D zero one) {t : Table W} (h : Reach sc D zero one mono t) (i : Nat) :
    (i < t.syms.length ↔ ∃ e, t.entries[i]? = some e) ∧ ∀ e, t.entries[i]? = some e → e.id = i ∧ e.symbols ≠ [] ∧
      (∀ k ∈ e.symbols, FactorsOf t k [k] ∧ ∃ w, t.syms[k]? = some (some w) ∧ Basic sc w) ∧
      (∀ w, t.syms[i]? = some (some w) → ∃ ks, e.symbols.Perm ks ∧ List.Forall₂ (fun f k => t.syms[k]? = some (some (sc.canonical f))) (sc.factorize w) ks) ∧
      ∃ k, t.find e.symbols = some k ∧ FactorsOf t k e.symbols :=
  table_of law (reach_good law h) i

theorem moments_of (law : Lawful sc D zero one) {t : Table W} (hg : Good sc D zero one t) {μ : W → M} (hμ : Moments sc D zero one μ) :
    ∃ v : Nat → M, Respects t v ∧ (∀ (i : Nat) w, t.syms[i]? = some (some w) → v i = μ w) ∧
      ∀ v', Respects t v' → (∀ (i : Nat) w, t.syms[i]? = some (some w) → v' i = μ w) → ∀ i, i < t.syms.length → v' i = v i := by
  let f : Nat → M := fun k => match t.syms[k]? with
    | some (some w) => μ w
    | _ => 0
  have hf : ∀ (k : Nat) w, t.syms[k]? = some (some w) → f k = μ w := by
    intro k w hk
    show (match t.syms[k]? with | some (some w) => μ w | _ => 0) = μ w
    rw [hk]
  have hv : ∀ (i : Nat) w, t.syms[i]? = some (some w) → spread t f i = μ w := by
    intro i w hw
    obtain ⟨e, he⟩ := entry_at hg hw
    obtain ⟨ks, h1, h2⟩ := hg.faithful i e w he hw
    have hD := hg.words i w hw
    rw [spread, he, hμ.product w hD]
    dsimp only
    rw [(h1.map f).prod_eq]
    congr 1
    have key : ∀ (fs : List W) (ks : List Nat), (∀ x ∈ fs, x ∈ sc.factorize w) →
        List.Forall₂ (fun f k => t.syms[k]? = some (some (sc.canonical f))) fs ks → ks.map f = fs.map μ := by
      intro fs ks hm hfk
      induction hfk with
      | nil => rfl
      | @cons x k fs ks hx _ ih =>
        rw [List.map_cons, List.map_cons, hf k _ hx, hμ.relabelled w hD x (hm x List.mem_cons_self), ih fun y hy => hm y (List.mem_cons_of_mem _ hy)]
    exact key _ _ (fun _ hx => hx) h2
  refine ⟨spread t f, spread_respects law hg f ((hf 0 _ hg.zero_at).trans hμ.at_zero) ((hf 1 _ hg.one_at).trans hμ.at_one), hv, ?_⟩
  intro v' hr hw i hi
  obtain ⟨e, he⟩ := entry_at hg (List.getElem?_eq_getElem hi)
  rw [hr.product i e he, spread, he]
  dsimp only
  congr 1
  refine List.map_congr_left fun k hk => ?_
  obtain ⟨w, hkw, -⟩ := hg.fund i e he k hk
  rw [hw k w hkw, hf k w hkw]

/-- C104. Values of words that are possible in the scenario give exactly one assignment of values to the symbols of a reachable table in which each
symbol has the value of its word and the product of the values of its factors. -/
theorem C104_moments (law : Lawful sc D zero one) {t : Table W} (h : Reach sc D zero one mono t) {μ : W → M} (hμ : Moments sc D zero one μ) :
    ∃ v : Nat → M, Respects t v ∧ (∀ (i : Nat) w, t.syms[i]? = some (some w) → v i = μ w) ∧
      ∀ v', Respects t v' → (∀ (i : Nat) w, t.syms[i]? = some (some w) → v' i = μ w) → ∀ i, i < t.syms.length → v' i = v i :=
  moments_of law (reach_good law h) hμ

/-! ## Extended matrices -/

/-- C104. What a call gives. A matrix that is not a Hermitian moment matrix, and a scalar that is not a symbol, give exceptions; otherwise there is a
result, unless there are two scalars or more and the storage of the factor table has no room for all the new symbols. -/
theorem C104_outcome_partial (law : Lawful sc D zero one) {t : Table W} (h : Reach sc D zero one mono t) (src : Source W E) (scalars : List Int) :
    (src.generators = none ∨ src.hermitian = false → extend sc mono t src scalars = .error .invalidArgument) ∧
    ∀ gens, OfMoments sc t src gens →
      ((∃ s ∈ scalars, s < 0 ∨ t.syms.length ≤ s) → extend sc mono t src scalars = .error .logicError) ∧
      ((∀ s ∈ scalars, 0 ≤ s ∧ s < t.syms.length) → scalars.length ≤ 1 ∨ t.entries.length + atMost gens.length scalars.length ≤ t.cap →
        ∃ t' m, extend sc mono t src scalars = .ok (t', m)) := by
  refine ⟨?_, fun gens hs => ⟨?_, ?_⟩⟩
  · rintro (hn | hn)
    · rw [extend, hn]
    · rw [extend]
      cases src.generators with
      | none => rfl
      | some g => dsimp only; rw [hn]; rfl
  · rintro ⟨s, hs', hr⟩
    rw [extend_single hs, single, if_pos (range_iff.mpr fun hc => by have := hc s hs'; omega)]
  · intro hin hroom
    have hg := reach_good law h
    obtain ⟨gs, hgs⟩ := sourced hg hs.registered
    obtain ⟨ls, hl⟩ := factored hg (toNat_lt hin)
    rw [extend_single hs]
    rcases single_spec' (mono := mono) law hg hs.dim hin hgs hl with ⟨u, m', h1, -⟩ | ⟨-, h2, h3⟩
    · exact ⟨u, m', h1⟩
    · omega

theorem values_of (law : Lawful sc D zero one) {t : Table W} (hg : Good sc D zero one t) {src : Source W E} {gens : List W}
    (hs : OfMoments sc t src gens) {scalars : List Int} {t' : Table W} {m : Mat E} (he : Extended sc D zero one mono t src gens scalars t' m)
    {v : Nat → M} (hv : Respects t' v) {val : E → M} (hval : ∀ k, val (mono k) = v k) :
    m.dim = src.mat.dim + scalars.length ∧ (∀ i j, i < src.mat.dim → j < src.mat.dim → m.at_ i j = src.mat.at_ i j) ∧
    (∀ (i : Nat) g (k : Nat), gens[i]? = some g → t.syms[k]? = some (some (sc.canonical g)) → ∀ (j : Nat) s, scalars[j]? = some s →
      val (m.at_ i (src.mat.dim + j)) = v k * v s.toNat ∧ m.at_ (src.mat.dim + j) i = m.at_ i (src.mat.dim + j)) ∧
    ∀ (i j : Nat) a b, scalars[i]? = some a → scalars[j]? = some b →
      val (m.at_ (src.mat.dim + i) (src.mat.dim + j)) = v a.toNat * v b.toNat ∧
      m.at_ (src.mat.dim + j) (src.mat.dim + i) = m.at_ (src.mat.dim + i) (src.mat.dim + j) := by
  obtain ⟨hin, hg', hx, gs, ls, h1, h2, h3, -⟩ := he
  have hlen := h2.length_eq
  rw [List.length_map] at hlen
  have hscal : ∀ (j : Nat) s, scalars[j]? = some s → ∃ l, ls[j]? = some l ∧ FactorsOf t s.toNat l := by
    intro j s hj
    have hjl := (List.getElem?_eq_some_iff.mp hj)
    have hj' : j < ls.length := by rw [← hlen]; exact hjl.1
    refine ⟨ls[j], List.getElem?_eq_getElem hj', ?_⟩
    have := (List.forall₂_iff_get.mp h2).2 j (by rw [List.length_map]; exact hjl.1) hj'
    simp only [List.get_eq_getElem, List.getElem_map, hjl.2] at this
    exact this
  have hvs : ∀ {k : Nat} {l : List Nat}, FactorsOf t k l → (l.map v).prod = v k := fun hk => (respects_factors hv (factors_grown hx.grown hk)).symm
  refine ⟨by rw [h3.dim, hlen], h3.corner, ?_, ?_⟩
  · intro i g k hi hk j s hj
    obtain ⟨l, hl, hlf⟩ := hscal j s hj
    have hil := List.getElem?_eq_some_iff.mp hi
    have hi' : i < gs.length := by rw [← h1.length_eq]; exact hil.1
    have hsrc := (List.forall₂_iff_get.mp h1).2 i hil.1 hi'
    simp only [List.get_eq_getElem, hil.2] at hsrc
    obtain ⟨k', hk', hkf⟩ := hsrc
    rw [place_apart hg.apart hk] at hk'
    cases hk'
    have hh := h3.side i _ (List.getElem?_eq_getElem hi') j l hl
    have := holds_value hg' hv hval (factors_labels hg hkf).1 (factors_labels hg hlf).1 hh
    rw [hvs hkf, hvs hlf] at this
    obtain ⟨k2, -, e1, e2⟩ := hh
    exact ⟨this.1, e2.trans e1.symm⟩
  · intro i j a b hi hj
    obtain ⟨la, hla, hfa⟩ := hscal i a hi
    obtain ⟨lb, hlb, hfb⟩ := hscal j b hj
    rcases Nat.le_total i j with hij | hij
    · have hh := h3.block i j la lb hij hla hlb
      have := holds_value hg' hv hval (factors_labels hg hfa).1 (factors_labels hg hfb).1 hh
      rw [hvs hfa, hvs hfb] at this
      obtain ⟨k2, -, e1, e2⟩ := hh
      exact ⟨this.1, e2.trans e1.symm⟩
    · have hh := h3.block j i lb la hij hlb hla
      have := holds_value hg' hv hval (factors_labels hg hfb).1 (factors_labels hg hfa).1 hh
      rw [hvs hfa, hvs hfb, mul_comm] at this
      obtain ⟨k2, -, e1, e2⟩ := hh
      exact ⟨this.2, e1.trans e2.symm⟩

/-- C104. The values of an extended matrix. For values of the symbols that respect the factors: the upper-left block is the source, the entry for a word
and a scalar is the product of their values, the entry for two scalars is the product of their values, and the new entries are symmetric. -/
theorem C104_values (law : Lawful sc D zero one) {t : Table W} (h : Reach sc D zero one mono t) {src : Source W E} {gens : List W}
    (hs : OfMoments sc t src gens) {scalars : List Int} {t' : Table W} {m : Mat E} (he : extend sc mono t src scalars = .ok (t', m))
    {v : Nat → M} (hv : Respects t' v) {val : E → M} (hval : ∀ k, val (mono k) = v k) :
    m.dim = src.mat.dim + scalars.length ∧ (∀ i j, i < src.mat.dim → j < src.mat.dim → m.at_ i j = src.mat.at_ i j) ∧
    (∀ (i : Nat) g (k : Nat), gens[i]? = some g → t.syms[k]? = some (some (sc.canonical g)) → ∀ (j : Nat) s, scalars[j]? = some s →
      val (m.at_ i (src.mat.dim + j)) = v k * v s.toNat ∧ m.at_ (src.mat.dim + j) i = m.at_ i (src.mat.dim + j)) ∧
    ∀ (i j : Nat) a b, scalars[i]? = some a → scalars[j]? = some b →
      val (m.at_ (src.mat.dim + i) (src.mat.dim + j)) = v a.toNat * v b.toNat ∧
      m.at_ (src.mat.dim + j) (src.mat.dim + i) = m.at_ (src.mat.dim + i) (src.mat.dim + j) :=
  values_of law (reach_good law h) hs (extend_ok law (reach_good law h) hs he) hv hval

theorem conservative_of (law : Lawful sc D zero one) {t : Table W} (hg : Good sc D zero one t) {src : Source W E} {gens : List W}
    (hs : OfMoments sc t src gens) {scalars : List Int} {t' : Table W} {m : Mat E} (he : Extended sc D zero one mono t src gens scalars t' m) :
    t.syms <+: t'.syms ∧ t.entries <+: t'.entries ∧ t'.syms.length ≤ t.syms.length + atMost gens.length scalars.length ∧
    (∀ v : Nat → M, Respects t' v → Respects t v) ∧
    ∀ v : Nat → M, Respects t v → ∃ v', Respects t' v' ∧ (∀ i, i < t.syms.length → v' i = v i) ∧
      ∀ v'', Respects t' v'' → (∀ i, i < t.syms.length → v'' i = v i) → ∀ i, i < t'.syms.length → v'' i = v' i := by
  obtain ⟨hin, hg', hx, gs, ls, h1, h2, h3, hlen⟩ := he
  have hold : ∀ (i : Nat) e, t'.entries[i]? = some e → ∀ k ∈ e.symbols, k < t.syms.length := by
    intro i e hie k hk
    obtain ⟨w, hw, -⟩ := hg'.fund i e hie k hk
    by_contra hc
    have := hx.fresh k (by omega) (List.getElem?_eq_some_iff.mp hw).1
    rw [hw] at this
    cases this
  refine ⟨hx.grown.syms, hx.grown.entries, by rw [← hg.sync, ← hg'.sync]; exact hlen, fun v hv => respects_grown hx.grown hv, fun v hv => ?_⟩
  have hkeep : ∀ i, i < t.syms.length → spread t' v i = v i := by
    intro i hi
    obtain ⟨e, hie⟩ := entry_at hg (List.getElem?_eq_getElem hi)
    rw [spread, get_prefix hx.grown.entries hie]
    exact (hv.product i e hie).symm
  refine ⟨spread t' v, spread_respects law hg' v hv.at_zero hv.at_one, hkeep, ?_⟩
  intro v'' hr hw i hi
  obtain ⟨e, hie⟩ := entry_at hg' (List.getElem?_eq_getElem hi)
  rw [hr.product i e hie, spread, hie]
  dsimp only
  congr 1
  exact List.map_congr_left fun k hk => hw k (hold i e hie k hk)

/-- C104. An extension only adds symbols, and does not constrain the old ones: values that respect the factors before the extension can be extended to the
new symbols in exactly one way. -/
theorem C104_conservative (law : Lawful sc D zero one) {t : Table W} (h : Reach sc D zero one mono t) {src : Source W E} {gens : List W}
    (hs : OfMoments sc t src gens) {scalars : List Int} {t' : Table W} {m : Mat E} (he : extend sc mono t src scalars = .ok (t', m)) :
    t.syms <+: t'.syms ∧ t.entries <+: t'.entries ∧ t'.syms.length ≤ t.syms.length + atMost gens.length scalars.length ∧
    (∀ v : Nat → M, Respects t' v → Respects t v) ∧
    ∀ v : Nat → M, Respects t v → ∃ v', Respects t' v' ∧ (∀ i, i < t.syms.length → v' i = v i) ∧
      ∀ v'', Respects t' v'' → (∀ i, i < t.syms.length → v'' i = v i) → ∀ i, i < t'.syms.length → v'' i = v' i :=
  conservative_of law (reach_good law h) hs (extend_ok law (reach_good law h) hs he)

theorem again_of (law : Lawful sc D zero one) {t : Table W} (hg : Good sc D zero one t) {src : Source W E} {gens : List W}
    (hs : OfMoments sc t src gens) {scalars : List Int} {t' : Table W} {m : Mat E} (he : Extended sc D zero one mono t src gens scalars t' m) :
    ∃ m', extend sc mono t' src scalars = .ok (t', m') ∧ m'.dim = m.dim ∧ ∀ i j, i < m.dim → j < m.dim → m'.at_ i j = m.at_ i j := by
  obtain ⟨hin, hg', hx, gs, ls, h1, h2, h3, -⟩ := he
  have hs' : OfMoments sc t' src gens := ⟨hs.words, hs.hermitian, hs.dim, fun g hgg => hx.grown.syms.subset (hs.registered g hgg)⟩
  have hin' : ∀ s ∈ scalars, 0 ≤ s ∧ s < t'.syms.length := fun s hm =>
    ⟨(hin s hm).1, lt_of_lt_of_le (hin s hm).2 (by exact_mod_cast prefix_le hx.grown.syms)⟩
  have h1' : List.Forall₂ (Sourced sc t') gens gs := h1.imp fun _ _ hh => hh.grow hg'.apart hx.grown
  have h2' : List.Forall₂ (FactorsOf t') (scalars.map Int.toNat) ls := h2.imp fun _ _ hh => factors_grown hx.grown hh
  obtain ⟨m', he'⟩ := single_known (mono := mono) (src := src.mat) hin' h1' h2'
    (fun g hgm l hlm => by
      obtain ⟨i, hi⟩ := List.mem_iff_getElem?.mp hgm
      obtain ⟨j, hj⟩ := List.mem_iff_getElem?.mp hlm
      obtain ⟨k, hk, -⟩ := h3.side i g hi j l hj
      exact ⟨k, hk⟩)
    (fun i j a b hij hi hj => by
      obtain ⟨k, hk, -⟩ := h3.block i j a b hij hi hj
      exact ⟨k, hk⟩)
  have hr : Result mono t' src.mat m' gs ls := by
    rcases single_spec' (mono := mono) law hg' hs.dim hin' h1' h2' with ⟨u, m2, k1, -, -, k4, -⟩ | ⟨k1, -⟩
    · rw [he'] at k1
      cases k1
      exact k4
    · rw [he'] at k1
      cases k1
  refine ⟨m', by rw [extend_single hs']; exact he', by rw [hr.dim, h3.dim], ?_⟩
  have hd : m.dim = src.mat.dim + ls.length := h3.dim
  have hgl : gs.length = src.mat.dim := by rw [← h1.length_eq, hs.dim]
  have same : ∀ {i j : Nat} {a b : List Nat}, Holds mono t' m' i j a b → Holds mono t' m i j a b → m'.at_ i j = m.at_ i j ∧ m'.at_ j i = m.at_ j i := by
    rintro i j a b ⟨k, k1, k2, k3⟩ ⟨k', k1', k2', k3'⟩
    rw [k1'] at k1
    cases k1
    exact ⟨k2.trans k2'.symm, k3.trans k3'.symm⟩
  have side : ∀ i j, i < src.mat.dim → src.mat.dim ≤ j → j < m.dim → m'.at_ i j = m.at_ i j ∧ m'.at_ j i = m.at_ j i := by
    intro i j hi hj hj'
    have e1 := List.getElem?_eq_getElem (show i < gs.length by omega)
    have e2 := List.getElem?_eq_getElem (show j - src.mat.dim < ls.length by omega)
    have := same (hr.side i _ e1 _ _ e2) (h3.side i _ e1 _ _ e2)
    rwa [show src.mat.dim + (j - src.mat.dim) = j by omega] at this
  have blk : ∀ i j, src.mat.dim ≤ i → i ≤ j → j < m.dim → m'.at_ i j = m.at_ i j ∧ m'.at_ j i = m.at_ j i := by
    intro i j hi hij hj'
    have e1 := List.getElem?_eq_getElem (show i - src.mat.dim < ls.length by omega)
    have e2 := List.getElem?_eq_getElem (show j - src.mat.dim < ls.length by omega)
    have := same (hr.block _ _ _ _ (by omega) e1 e2) (h3.block _ _ _ _ (by omega) e1 e2)
    rwa [show src.mat.dim + (j - src.mat.dim) = j by omega, show src.mat.dim + (i - src.mat.dim) = i by omega] at this
  intro i j hi hj
  rcases Nat.lt_or_ge i src.mat.dim with h4 | h4 <;> rcases Nat.lt_or_ge j src.mat.dim with h5 | h5
  · rw [hr.corner i j h4 h5, h3.corner i j h4 h5]
  · exact (side i j h4 h5 hj).1
  · exact (side j i h5 h4 hi).2
  · rcases Nat.le_total i j with h6 | h6
    · exact (blk i j h4 h6 hj).1
    · exact (blk j i h5 h6 hi).2

/-- C104. The same extension again finds all its symbols: the tables stay as they are, and the new entries are the same. -/
theorem C104_again (law : Lawful sc D zero one) {t : Table W} (h : Reach sc D zero one mono t) {src : Source W E} {gens : List W}
    (hs : OfMoments sc t src gens) {scalars : List Int} {t' : Table W} {m : Mat E} (he : extend sc mono t src scalars = .ok (t', m)) :
    ∃ m', extend sc mono t' src scalars = .ok (t', m') ∧ m'.dim = m.dim ∧ ∀ i j, i < m.dim → j < m.dim → m'.at_ i j = m.at_ i j :=
  again_of law (reach_good law h) hs (extend_ok law (reach_good law h) hs he)

theorem distinct_of (law : Lawful sc D zero one) {t : Table W} (hg : Good sc D zero one t) (hmono : Function.Injective mono) {src : Source W E}
    {gens : List W} (hs : OfMoments sc t src gens) {scalars : List Int} {t' : Table W} {m : Mat E} (he : Extended sc D zero one mono t src gens scalars t' m)
    (hi : Injective t) : Injective t' ∧
    ∀ (i j : Nat) (k l : Nat) (g g' : W) (a b : List Nat) (x y : Nat) (s s' : Int), gens[i]? = some g → gens[j]? = some g' → scalars[k]? = some s →
      scalars[l]? = some s' → t.syms[x]? = some (some (sc.canonical g)) → t.syms[y]? = some (some (sc.canonical g')) → FactorsOf t x a → FactorsOf t y b →
      ∀ c d, FactorsOf t s.toNat c → FactorsOf t s'.toNat d →
      (m.at_ i (src.mat.dim + k) = m.at_ j (src.mat.dim + l) ↔ combineFactors a c = combineFactors b d) := by
  obtain ⟨hin, hg', hx, gs, ls, h1, h2, h3, -⟩ := he
  have fac : ∀ {k : Nat} {p q : List Nat}, FactorsOf t k p → FactorsOf t k q → p = q := by
    rintro k p q ⟨e, e1, rfl⟩ ⟨e', e1', rfl⟩
    rw [e1] at e1'
    cases e1'
    rfl
  have hside : ∀ (i k : Nat) g s x a c, gens[i]? = some g → scalars[k]? = some s → t.syms[x]? = some (some (sc.canonical g)) → FactorsOf t x a →
      FactorsOf t s.toNat c → ∃ z, t'.find (combineFactors a c) = some z ∧ m.at_ i (src.mat.dim + k) = mono z := by
    intro i k g s x a c hi hk hx' ha hc
    have hil := List.getElem?_eq_some_iff.mp hi
    have hi' : i < gs.length := by rw [← h1.length_eq]; exact hil.1
    have hsrc := (List.forall₂_iff_get.mp h1).2 i hil.1 hi'
    simp only [List.get_eq_getElem, hil.2] at hsrc
    obtain ⟨k', hk', hkf⟩ := hsrc
    rw [place_apart hg.apart hx'] at hk'
    cases hk'
    have hkl := List.getElem?_eq_some_iff.mp hk
    have hk' : k < ls.length := by rw [← h2.length_eq, List.length_map]; exact hkl.1
    have hs2 := (List.forall₂_iff_get.mp h2).2 k (by rw [List.length_map]; exact hkl.1) hk'
    simp only [List.get_eq_getElem, List.getElem_map, hkl.2] at hs2
    obtain ⟨z, e1, e2, -⟩ := h3.side i _ (List.getElem?_eq_getElem hi') k _ (List.getElem?_eq_getElem hk')
    rw [fac hkf ha, fac hs2 hc] at e1
    exact ⟨z, e1, e2⟩
  refine ⟨hx.inj hi, ?_⟩
  intro i j k l g g' a b x y s s' hi1 hj1 hk1 hl1 hx1 hy1 ha1 hb1 c d hc1 hd1
  obtain ⟨z, e1, e2⟩ := hside i k g s x a c hi1 hk1 hx1 ha1 hc1
  obtain ⟨z', e1', e2'⟩ := hside j l g' s' y b d hj1 hl1 hy1 hb1 hd1
  rw [e2, e2']
  constructor
  · intro heq
    have := hmono heq
    subst this
    obtain ⟨e, f1, f2⟩ := find_factors hg' e1
    obtain ⟨e', f1', f2'⟩ := find_factors hg' e1'
    rw [f1] at f1'
    cases f1'
    exact f2.symm.trans f2'
  · intro heq
    rw [heq, e1'] at e1
    cases e1
    rfl

/-- C104. Equal products are found: if no two symbols had the same factors, then this stays so; two new entries are the same symbol exactly if their lists
of factors are the same. -/
theorem C104_distinct (law : Lawful sc D zero one) {t : Table W} (h : Reach sc D zero one mono t) (hmono : Function.Injective mono) {src : Source W E}
    {gens : List W} (hs : OfMoments sc t src gens) {scalars : List Int} {t' : Table W} {m : Mat E} (he : extend sc mono t src scalars = .ok (t', m))
    (hi : Injective t) : Injective t' ∧
    ∀ (i j : Nat) (k l : Nat) (g g' : W) (a b : List Nat) (x y : Nat) (s s' : Int), gens[i]? = some g → gens[j]? = some g' → scalars[k]? = some s →
      scalars[l]? = some s' → t.syms[x]? = some (some (sc.canonical g)) → t.syms[y]? = some (some (sc.canonical g')) → FactorsOf t x a → FactorsOf t y b →
      ∀ c d, FactorsOf t s.toNat c → FactorsOf t s'.toNat d →
      (m.at_ i (src.mat.dim + k) = m.at_ j (src.mat.dim + l) ↔ combineFactors a c = combineFactors b d) :=
  distinct_of law (reach_good law h) hmono hs (extend_ok law (reach_good law h) hs he) hi

/-! ## Positivity -/

/-- The quadratic form of the matrix is nowhere negative. -/
def Positive (d : Nat) (a : Nat → Nat → ℝ) : Prop := ∀ x : Nat → ℝ, 0 ≤ ∑ i ∈ Finset.range d, ∑ j ∈ Finset.range d, x i * a i j * x j

theorem form_extended {d p : Nat} (hd : 0 < d) {a e : Nat → Nat → ℝ} {s : Nat → ℝ} (h00 : a 0 0 = 1) (hc : ∀ i j, i < d → j < d → e i j = a i j)
    (h1 : ∀ i j, i < d → j < p → e i (d + j) = a 0 i * s j) (h2 : ∀ i j, i < d → j < p → e (d + j) i = a i 0 * s j)
    (h3 : ∀ i j, i < p → j < p → e (d + i) (d + j) = s i * s j) (x : Nat → ℝ) :
    ∑ i ∈ Finset.range (d + p), ∑ j ∈ Finset.range (d + p), x i * e i j * x j =
      ∑ i ∈ Finset.range d, ∑ j ∈ Finset.range d, (x i + if i = 0 then ∑ k ∈ Finset.range p, s k * x (d + k) else 0) * a i j *
        (x j + if j = 0 then ∑ k ∈ Finset.range p, s k * x (d + k) else 0) := by
  set S := ∑ k ∈ Finset.range p, s k * x (d + k) with hS
  have hl : ∑ i ∈ Finset.range (d + p), ∑ j ∈ Finset.range (d + p), x i * e i j * x j =
      (∑ i ∈ Finset.range d, ∑ j ∈ Finset.range d, x i * a i j * x j) + (∑ i ∈ Finset.range d, x i * a 0 i) * S + (∑ i ∈ Finset.range d, a i 0 * x i) * S + S * S := by
    rw [Finset.sum_range_add]
    have e1 : ∑ i ∈ Finset.range d, ∑ j ∈ Finset.range (d + p), x i * e i j * x j =
        (∑ i ∈ Finset.range d, ∑ j ∈ Finset.range d, x i * a i j * x j) + (∑ i ∈ Finset.range d, x i * a 0 i) * S := by
      rw [Finset.sum_mul, ← Finset.sum_add_distrib]
      refine Finset.sum_congr rfl fun i hi => ?_
      have hi := Finset.mem_range.mp hi
      rw [Finset.sum_range_add]
      congr 1
      · exact Finset.sum_congr rfl fun j hj => by rw [hc i j hi (Finset.mem_range.mp hj)]
      · rw [hS, Finset.mul_sum]
        exact Finset.sum_congr rfl fun j hj => by rw [h1 i j hi (Finset.mem_range.mp hj)]; ring
    have e2 : ∑ i ∈ Finset.range p, ∑ j ∈ Finset.range (d + p), x (d + i) * e (d + i) j * x j = (∑ i ∈ Finset.range d, a i 0 * x i) * S + S * S := by
      have : ∀ i ∈ Finset.range p, ∑ j ∈ Finset.range (d + p), x (d + i) * e (d + i) j * x j = s i * x (d + i) * ((∑ i ∈ Finset.range d, a i 0 * x i) + S) := by
        intro i hi
        have hi := Finset.mem_range.mp hi
        rw [Finset.sum_range_add, mul_add]
        congr 1
        · rw [Finset.mul_sum]
          exact Finset.sum_congr rfl fun j hj => by rw [h2 j i (Finset.mem_range.mp hj) hi]; ring
        · rw [hS, Finset.mul_sum]
          exact Finset.sum_congr rfl fun j hj => by rw [h3 i j hi (Finset.mem_range.mp hj)]; ring
      rw [Finset.sum_congr rfl this, ← Finset.sum_mul, ← hS]
      ring
    rw [e1, e2]
    ring
  have hr : ∑ i ∈ Finset.range d, ∑ j ∈ Finset.range d, (x i + if i = 0 then S else 0) * a i j * (x j + if j = 0 then S else 0) =
      (∑ i ∈ Finset.range d, ∑ j ∈ Finset.range d, x i * a i j * x j) + (∑ i ∈ Finset.range d, a i 0 * x i) * S + (∑ i ∈ Finset.range d, x i * a 0 i) * S + S * S := by
    have e1 : ∀ i ∈ Finset.range d, ∑ j ∈ Finset.range d, (x i + if i = 0 then S else 0) * a i j * (x j + if j = 0 then S else 0) =
        (∑ j ∈ Finset.range d, x i * a i j * x j) + x i * a i 0 * S + ((if i = 0 then S else 0) * ∑ j ∈ Finset.range d, a i j * x j) +
          (if i = 0 then S else 0) * a i 0 * S := by
      intro i _
      have e3 : ∑ j ∈ Finset.range d, (x i + if i = 0 then S else 0) * a i j * (if j = 0 then S else 0) = (x i + if i = 0 then S else 0) * a i 0 * S := by
        rw [Finset.sum_eq_single 0]
        · simp
        · intro j _ hj; simp [hj]
        · intro hn; exact absurd (Finset.mem_range.mpr hd) hn
      have e4 : ∑ j ∈ Finset.range d, (x i + if i = 0 then S else 0) * a i j * (x j + if j = 0 then S else 0) =
          (∑ j ∈ Finset.range d, (x i + if i = 0 then S else 0) * a i j * x j) + ∑ j ∈ Finset.range d, (x i + if i = 0 then S else 0) * a i j * (if j = 0 then S else 0) := by
        rw [← Finset.sum_add_distrib]
        exact Finset.sum_congr rfl fun j _ => by ring
      have e5 : ∑ j ∈ Finset.range d, (x i + if i = 0 then S else 0) * a i j * x j =
          (∑ j ∈ Finset.range d, x i * a i j * x j) + (if i = 0 then S else 0) * ∑ j ∈ Finset.range d, a i j * x j := by
        rw [Finset.mul_sum, ← Finset.sum_add_distrib]
        exact Finset.sum_congr rfl fun j _ => by ring
      rw [e4, e3, e5]
      ring
    rw [Finset.sum_congr rfl e1, Finset.sum_add_distrib, Finset.sum_add_distrib, Finset.sum_add_distrib]
    have e6 : ∑ i ∈ Finset.range d, (if i = 0 then S else 0) * ∑ j ∈ Finset.range d, a i j * x j = S * ∑ j ∈ Finset.range d, a 0 j * x j := by
      rw [Finset.sum_eq_single 0]
      · simp
      · intro j _ hj; simp [hj]
      · intro hn; exact absurd (Finset.mem_range.mpr hd) hn
    have e7 : ∑ i ∈ Finset.range d, (if i = 0 then S else 0) * a i 0 * S = S * S := by
      rw [Finset.sum_eq_single 0]
      · simp [h00]
      · intro j _ hj; simp [hj]
      · intro hn; exact absurd (Finset.mem_range.mpr hd) hn
    have e8 : ∑ i ∈ Finset.range d, x i * a i 0 * S = (∑ i ∈ Finset.range d, a i 0 * x i) * S := by
      rw [Finset.sum_mul]
      exact Finset.sum_congr rfl fun j _ => by ring
    have e9 : S * ∑ j ∈ Finset.range d, a 0 j * x j = (∑ i ∈ Finset.range d, x i * a 0 i) * S := by
      rw [mul_comm]
      congr 1
      exact Finset.sum_congr rfl fun j _ => by ring
    rw [e6, e7, e8, e9]
  rw [hl, hr]
  ring

theorem positive_of (law : Lawful sc D zero one) {t : Table W} (hg : Good sc D zero one t) {src : Source W E} {gens : List W}
    (hs : OfMoments sc t src gens) {scalars : List Int} {t' : Table W} {m : Mat E} (he : Extended sc D zero one mono t src gens scalars t' m)
    {v : Nat → ℝ} (hv : Respects t' v) {val : E → ℝ} (hval : ∀ k, val (mono k) = v k) (hone : gens[0]? = some one)
    (hrow : ∀ (i : Nat) g (k : Nat), gens[i]? = some g → t.syms[k]? = some (some (sc.canonical g)) → val (src.mat.at_ 0 i) = v k ∧ val (src.mat.at_ i 0) = v k) :
    Positive m.dim (fun i j => val (m.at_ i j)) ↔ Positive src.mat.dim (fun i j => val (src.mat.at_ i j)) := by
  have hin := he.1
  obtain ⟨h1, h2, h3, h4⟩ := values_of law hg hs he hv hval
  have hd : 0 < src.mat.dim := by rw [← hs.dim]; exact (List.getElem?_eq_some_iff.mp hone).1
  have hsym : ∀ i, i < src.mat.dim → ∃ (g : W) (k : Nat), gens[i]? = some g ∧ t.syms[k]? = some (some (sc.canonical g)) := by
    intro i hi
    rw [← hs.dim] at hi
    obtain ⟨k, hk⟩ := List.mem_iff_getElem?.mp (hs.registered gens[i] (List.getElem_mem hi))
    exact ⟨gens[i], k, List.getElem?_eq_getElem hi, hk⟩
  have h00 : val (src.mat.at_ 0 0) = 1 := by
    rw [(hrow 0 one 1 hone (by rw [law.one_basic.2]; exact hg.one_at)).1, hv.at_one]
  let s : Nat → ℝ := fun j => match scalars[j]? with
    | some x => v x.toNat
    | none => 0
  have hs' : ∀ (j : Nat) (hj : j < scalars.length), s j = v (scalars[j]).toNat := by
    intro j hj
    show (match scalars[j]? with | some x => v x.toNat | none => 0) = _
    rw [List.getElem?_eq_getElem hj]
  have key := form_extended (p := scalars.length) hd (a := fun i j => val (src.mat.at_ i j)) (e := fun i j => val (m.at_ i j)) (s := s) h00
    (fun i j hi hj => by rw [h2 i j hi hj])
    (fun i j hi hj => by
      obtain ⟨g, k, hg1, hk⟩ := hsym i hi
      rw [(h3 i g k hg1 hk j _ (List.getElem?_eq_getElem hj)).1, (hrow i g k hg1 hk).1, hs' j hj])
    (fun i j hi hj => by
      obtain ⟨g, k, hg1, hk⟩ := hsym i hi
      have := h3 i g k hg1 hk j _ (List.getElem?_eq_getElem hj)
      rw [this.2, this.1, (hrow i g k hg1 hk).2, hs' j hj])
    (fun i j hi hj => by
      rw [(h4 i j _ _ (List.getElem?_eq_getElem hi) (List.getElem?_eq_getElem hj)).1, hs' i hi, hs' j hj])
  rw [h1]
  constructor
  · intro hp x
    have := hp (fun i => if i < src.mat.dim then x i else 0)
    rw [key] at this
    refine this.trans_eq ?_
    have hS : ∑ k ∈ Finset.range scalars.length, s k * (if src.mat.dim + k < src.mat.dim then x (src.mat.dim + k) else 0) = 0 := by
      refine Finset.sum_eq_zero fun k _ => ?_
      rw [if_neg (by omega), mul_zero]
    rw [hS]
    refine Finset.sum_congr rfl fun i hi => Finset.sum_congr rfl fun j hj => ?_
    rw [if_pos (Finset.mem_range.mp hi), if_pos (Finset.mem_range.mp hj)]
    simp
  · intro hp x
    rw [key]
    exact hp _

/-- C104. If the first word of the moment matrix is one, and its first row and column are its words, then for real values that respect the factors the
extended matrix is positive exactly if the moment matrix is: for possible values the extension costs nothing. -/
theorem C104_positive (law : Lawful sc D zero one) {t : Table W} (h : Reach sc D zero one mono t) {src : Source W E} {gens : List W}
    (hs : OfMoments sc t src gens) {scalars : List Int} {t' : Table W} {m : Mat E} (he : extend sc mono t src scalars = .ok (t', m))
    {v : Nat → ℝ} (hv : Respects t' v) {val : E → ℝ} (hval : ∀ k, val (mono k) = v k) (hone : gens[0]? = some one)
    (hrow : ∀ (i : Nat) g (k : Nat), gens[i]? = some g → t.syms[k]? = some (some (sc.canonical g)) → val (src.mat.at_ 0 i) = v k ∧ val (src.mat.at_ i 0) = v k) :
    Positive m.dim (fun i j => val (m.at_ i j)) ↔ Positive src.mat.dim (fun i j => val (src.mat.at_ i j)) :=
  positive_of law (reach_good law h) hs (extend_ok law (reach_good law h) hs he) hv hval hone hrow

end

/-! ## Indices -/

/-- What a storage of indices holds, as a function. -/
inductive Stored : Index.Node Int → (Nat → List Int → Option Int) → Prop
  | empty : Stored (none, .nil) fun _ _ => none
  | insert {t : Index.Node Int} {f : Nat → List Int → Option Int} (level : Nat) (l : List Int) (offset : Int) : Stored t f →
      Stored (indexInsert t level l offset).1 fun level' l' => if level' = level ∧ l' = l then some ((f level l).getD offset) else f level' l'

theorem stored_spec {t : Index.Node Int} {f : Nat → List Int → Option Int} (h : Stored t f) :
    C36.Ordered t.2 ∧ ∀ (level : Nat) l, Index.find t ((level : Int) :: l) = f level l := by
  induction h with
  | empty => exact ⟨trivial, fun level l => C36.find_empty _⟩
  | @insert t f level l offset _ ih =>
    obtain ⟨h1, h2⟩ := ih
    have hchild : C36.Ordered ((t.2.child level).getD (none, .nil)).2 := by
      cases hc : t.2.child level with
      | none => trivial
      | some n => exact C36.child_ordered h1 hc
    have hfind : ∀ q, Index.find ((t.2.child level).getD (none, .nil)) q = f level q := by
      intro q
      rw [← h2, C36.find_cons]
      cases t.2.child (level : Int) with
      | none => rw [Option.getD_none, C36.find_empty]; rfl
      | some n => rfl
    obtain ⟨a1, a2, -⟩ := C36.addIfNew_spec offset l ((t.2.child level).getD (none, .nil)) false hchild (by simp)
    refine ⟨(C36.update_ordered h1 _ _ fun _ _ => a1).1, ?_⟩
    intro level' l'
    show Index.find (t.1, t.2.update level fun _ => _) _ = _
    rw [C36.find_cons]
    dsimp only
    rw [C36.child_update h1]
    by_cases hl : level' = level
    · subst hl
      rw [if_pos rfl]
      simp only [Option.bind_some, true_and]
      rw [a2 l', hfind, hfind]
    · rw [if_neg (by exact_mod_cast hl), if_neg (fun hh => hl hh.1), ← h2, C36.find_cons]

/-- C104. The storage of the indices of extended matrices: after all histories, an index of level and scalars is found exactly if it has been inserted,
with the position of its first insertion; inserting says which position it has, and whether it is new. -/
theorem C104_indices {t : Index.Node Int} {f : Nat → List Int → Option Int} (h : Stored t f) (level : Nat) (l : List Int) (offset : Int) :
    indexFind t level l = (f level l).getD (-1) ∧ indexContains t level l = (f level l).isSome ∧
    (indexInsert t level l offset).2.1 = (f level l).getD offset ∧ ((indexInsert t level l offset).2.2 = true ↔ f level l = none) := by
  obtain ⟨h1, h2⟩ := stored_spec h
  have hn : f level l = (Index.findNode t [(level : Int)]).bind fun n => Index.find n l := by
    rw [← h2, ← C36.find_findNode]
    rfl
  have hchild : C36.Ordered ((t.2.child level).getD (none, .nil)).2 := by
    cases hc : t.2.child level with
    | none => trivial
    | some n => exact C36.child_ordered h1 hc
  have hfind : Index.find ((t.2.child level).getD (none, .nil)) l = f level l := by
    rw [← h2, C36.find_cons]
    cases t.2.child (level : Int) with
    | none => rw [Option.getD_none, C36.find_empty]; rfl
    | some n => rfl
  obtain ⟨-, -, a3, a4⟩ := C36.addIfNew_spec offset l ((t.2.child level).getD (none, .nil)) false hchild (by simp)
  rw [hfind] at a3 a4
  refine ⟨?_, ?_, a3, a4⟩
  · rw [indexFind, hn]
    cases Index.findNode t [(level : Int)] <;> rfl
  · rw [indexContains, hn]
    cases Index.findNode t [(level : Int)] <;> rfl

/-! ## Inflation scenarios -/

/-- C104. All this applies to every inflation context, with zero and the simplified words of operators as words. -/
theorem C104_inflation {n : Causal} {c : Ctx} (hc : C12.ContextOf n c) (grow : Nat → Nat) : Lawful (ofContext c grow) (IsWord c) none (some []) := lawful hc grow

/-- C104. In an inflation context: if independent words multiply and the copies of the sources are exchangeable, then the symbols have values that respect
the factors, and each symbol has the value of its word. -/
theorem C104_inflation_moments {n : Causal} {c : Ctx} (hc : C12.ContextOf n c) {grow : Nat → Nat} {E : Type} {mono : Nat → E} {M : Type} [CommMonoidWithZero M]
    {p : List Op → M} (hp : Possible n c.infl p) {t : Table (Option (List Nat))} (h : Reach (ofContext c grow) (IsWord c) none (some []) mono t) :
    ∃ v : Nat → M, Respects t v ∧ ∀ (i : Nat) w u, t.syms[i]? = some (some (some w)) → C12.Names n c u w → v i = p u := by
  classical
  let μ : Option (List Nat) → M := fun w => match w with
    | none => 0
    | some w => if hu : ∃ u, C12.Names n c u w then p hu.choose else 0
  have hμ : ∀ u w, C12.Names n c u w → μ (some w) = p u := by
    intro u w hu
    have hex : ∃ u, C12.Names n c u w := ⟨u, hu⟩
    show (if hu : ∃ u, C12.Names n c u w then p hu.choose else 0) = p u
    rw [dif_pos hex]
    obtain ⟨a1, a2⟩ := C12.names_iff.mp hu
    obtain ⟨b1, b2⟩ := C12.names_iff.mp hex.choose_spec
    rw [map_enc_inj ⟨hc⟩ b1 a1 (b2.symm.trans a2)]
  obtain ⟨v, h1, h2, -⟩ := C104_moments (lawful hc grow) h (possible_moments hc grow hp rfl hμ)
  exact ⟨v, h1, fun i w u hi hu => by rw [h2 i _ hi, hμ u w hu]⟩

/-! ## What is wrong, and examples -/

/-- Three binary observables that do not share sources. -/
def three : Causal := ⟨[2, 2, 2], []⟩

/-- Its context without inflation: operators 0, 1, 2. -/
def threeCtx : Ctx := ⟨⟨[⟨2, [0], true⟩, ⟨2, [1], true⟩, ⟨2, [2], true⟩], 0⟩, 1⟩

theorem three_context : C12.ContextOf three threeCtx := by unfold C12.ContextOf; decide +kernel

/-- The factor table of this context, with a storage that doubles when it is full, to compute with: without copies all words are canonical. -/
def threePlain : Scenario (Option (List Nat)) := ⟨factorizeOf threeCtx, id, (2 * ·)⟩

theorem three_plain : ofContext threeCtx (2 * ·) = threePlain := by
  have : canonicalOf threeCtx = id := by
    funext w
    cases w with
    | none => rfl
    | some w => exact canonicalOf_eq ⟨0, fun f _ => rfl⟩
  rw [ofContext, this]
  rfl

theorem ok_of {α β : Type} {x : Except β α} (d : α) (h : x.toOption.isSome = true) : x = .ok (x.toOption.getD d) := by
  cases x with
  | error e => cases h
  | ok a => rfl

abbrev T : Type := Table (Option (List Nat))
def blank : T := ⟨[], [], (none, .nil), 0, 0⟩

/-- The table of the context, and the table after the moment matrix of level 1: symbols 2 to 7 are A, B, C, AB, AC, BC. -/
def first : T := (Table.new threePlain none (some [])).toOption.getD blank
def words1 : List (Option (List Nat)) := [some [0], some [1], some [2], some [0, 1], some [0, 2], some [1, 2]]
def second : T := (({ first with syms := first.syms ++ words1.map some }).refresh threePlain).toOption.getD blank

theorem first_reach : Reach threePlain (IsWord threeCtx) none (some []) (id : Nat → Nat) first :=
  .new (ok_of blank (by decide +kernel))

theorem words_isWord {w : List Nat} (h : (∀ m ∈ w, m < operatorCount threeCtx) ∧ simplify threeCtx w = .word w) : IsWord threeCtx (some w) := h

theorem second_reach : Reach threePlain (IsWord threeCtx) none (some []) (id : Nat → Nat) second := by
  refine .grow first_reach (ws := words1) (by decide +kernel) ?_ (ok_of blank (by decide +kernel))
  intro w hw
  refine ⟨?_, ?_⟩
  · simp only [words1, List.mem_cons, List.not_mem_nil, or_false] at hw
    rcases hw with rfl | rfl | rfl | rfl | rfl | rfl <;> exact words_isWord (by decide +kernel)
  · revert w
    decide +kernel

/-- The moment matrix of level 1, and the moment matrix of level 0. -/
def level1 : Source (Option (List Nat)) Nat := ⟨some [some [], some [0], some [1], some [2]], true,
  ⟨4, fun i j => (([[1, 2, 3, 4], [2, 2, 5, 6], [3, 5, 3, 7], [4, 6, 7, 4]][i]?.getD [])[j]?).getD 0⟩⟩
def level0 : Source (Option (List Nat)) Nat := ⟨some [some []], true, ⟨1, fun _ _ => 1⟩⟩

theorem level1_ofMoments : OfMoments threePlain second level1 [some [], some [0], some [1], some [2]] :=
  ⟨rfl, rfl, rfl, by unfold Registered; decide +kernel⟩
theorem level0_ofMoments : OfMoments threePlain second level0 [some []] := ⟨rfl, rfl, rfl, by unfold Registered; decide +kernel⟩

/-- The matrix of level 1, extended by the scalar AB. -/
def third : T × Mat Nat := (extend threePlain id second level1 [5]).toOption.getD (blank, ⟨0, fun _ _ => 0⟩)

theorem third_ok : extend threePlain id second level1 [5] = .ok third := ok_of _ (by decide +kernel)
theorem third_reach : Reach threePlain (IsWord threeCtx) none (some []) (id : Nat → Nat) third.1 := .extend second_reach level1_ofMoments third_ok

theorem three_lawful : Lawful threePlain (IsWord threeCtx) none (some []) := by
  rw [← three_plain]
  exact C104_inflation three_context (2 * ·)

/-- C104, refuted for two scalars or more: the reference to the factors of the scalar of a row is used after the storage of the table may have moved. Here
the table of the matrix of level 1 has eight symbols and a storage for eight, and the matrix of level 0 is extended by A and B: the square of A is new, it
moves the storage, and the next entry reads factors that are gone. -/
theorem C104_refuted_dangling : ∃ (n : Causal) (c : Ctx), C12.ContextOf n c ∧ ∃ t, Reach (ofContext c (2 * ·)) (IsWord c) none (some []) (id : Nat → Nat) t ∧
    ∃ (src : Source (Option (List Nat)) Nat) (gens : List (Option (List Nat))) (scalars : List Int), OfMoments (ofContext c (2 * ·)) t src gens ∧
      (∀ s ∈ scalars, 0 ≤ s ∧ s < t.syms.length) ∧ extend (ofContext c (2 * ·)) id t src scalars = .error .undefined := by
  refine ⟨three, threeCtx, three_context, ?_⟩
  rw [three_plain]
  refine ⟨second, second_reach, level0, [some []], [2, 3], level0_ofMoments, by decide +kernel, ?_⟩
  · have : (match extend threePlain id second level0 [2, 3] with | .error .undefined => true | _ => false) = true := by decide +kernel
    revert this
    split
    · intro _; assumption
    · intro h; cases h

/-- C104, refuted for the scalar zero: an extension by the symbol 0 makes new symbols that have the value zero for all values, instead of writing the
symbol 0. -/
theorem C104_refuted_zero : ∃ (n : Causal) (c : Ctx), C12.ContextOf n c ∧ ∃ t, Reach (ofContext c (2 * ·)) (IsWord c) none (some []) (id : Nat → Nat) t ∧
    ∃ (src : Source (Option (List Nat)) Nat) (gens : List (Option (List Nat))) (t' : T) (m : Mat Nat), OfMoments (ofContext c (2 * ·)) t src gens ∧
      extend (ofContext c (2 * ·)) id t src [0] = .ok (t', m) ∧ t'.syms.length = t.syms.length + 5 ∧
      ∀ i, i < 4 → m.at_ i 4 ≠ 0 ∧ ∀ v : Nat → ℝ, Respects t' v → v (m.at_ i 4) = 0 := by
  have hx : extend threePlain id second level1 [0] = .ok ((extend threePlain id second level1 [0]).toOption.getD (blank, ⟨0, fun _ _ => 0⟩)) :=
    ok_of _ (by decide +kernel)
  refine ⟨three, threeCtx, three_context, ?_⟩
  rw [three_plain]
  refine ⟨second, second_reach, level1, _, _, _, level1_ofMoments, hx, by decide +kernel, ?_⟩
  intro i hi
  refine ⟨?_, ?_⟩
  · revert i
    decide +kernel
  · intro v hv
    obtain ⟨-, -, h3, -⟩ := C104_values three_lawful second_reach level1_ofMoments hx hv (val := v) fun _ => rfl
    have hreg : ∀ i, i < 4 → ∃ (g : Option (List Nat)) (k : Nat), [some [], some [0], some [1], some [2]][i]? = some g ∧ second.syms[k]? = some (some (threePlain.canonical g)) := by
      intro i hi
      have h4 : i = 0 ∨ i = 1 ∨ i = 2 ∨ i = 3 := by omega
      rcases h4 with rfl | rfl | rfl | rfl
      · exact ⟨some [], 1, rfl, by decide +kernel⟩
      · exact ⟨some [0], 2, rfl, by decide +kernel⟩
      · exact ⟨some [1], 3, rfl, by decide +kernel⟩
      · exact ⟨some [2], 4, rfl, by decide +kernel⟩
    obtain ⟨g, k, hg, hk⟩ := hreg i hi
    have := (h3 i g k hg hk 0 0 rfl).1
    rw [show (0 : Int).toNat = 0 from rfl, hv.at_zero, mul_zero] at this
    exact this

theorem factorsOf_iff {W : Type} {t : Table W} {k : Nat} {l : List Nat} : FactorsOf t k l ↔ (t.entries[k]?).map (·.symbols) = some l := by
  rw [FactorsOf, Option.map_eq_some_iff]

/-- C104, refuted for words that come later: after an extension has made a symbol for the product of AB and C, a larger moment matrix adds the word ABC as
another symbol with the same factors. So a product can have two symbols, and nothing says that they are equal. -/
theorem C104_refuted_twice : ∃ (n : Causal) (c : Ctx), C12.ContextOf n c ∧ ∃ t, Reach (ofContext c (2 * ·)) (IsWord c) none (some []) (id : Nat → Nat) t ∧
    ∃ (i j : Nat) (l : List Nat), i ≠ j ∧ FactorsOf t i l ∧ FactorsOf t j l ∧ t.syms[i]? = some none ∧ t.syms[j]? = some (some (some [0, 1, 2])) := by
  have hx : ({ third.1 with syms := third.1.syms ++ [some [0, 1, 2]].map some }).refresh threePlain =
      .ok ((({ third.1 with syms := third.1.syms ++ [some [0, 1, 2]].map some }).refresh threePlain).toOption.getD blank) := ok_of _ (by decide +kernel)
  refine ⟨three, threeCtx, three_context, ?_⟩
  rw [three_plain]
  refine ⟨_, Reach.grow third_reach (by decide +kernel) ?_ hx, 10, 12, [2, 3, 4], by decide,
    factorsOf_iff.mpr (by decide +kernel), factorsOf_iff.mpr (by decide +kernel), by decide +kernel, by decide +kernel⟩
  intro w hw
  simp only [List.mem_singleton] at hw
  subst hw
  exact ⟨words_isWord (by decide +kernel), by decide +kernel⟩

/-- All theorems: a table with words of one and two operators, and with products that an extension has added. -/
example : Reach threePlain (IsWord threeCtx) none (some []) (id : Nat → Nat) third.1 := third_reach
example : Lawful threePlain (IsWord threeCtx) none (some []) := three_lawful
example : third.1.entries.map (·.symbols) = [[0], [1], [2], [3], [4], [2, 3], [2, 4], [3, 4], [2, 2, 3], [2, 3, 3], [2, 3, 4], [2, 2, 3, 3]] := by decide +kernel
example : (List.range 5).map (fun i => (List.range 5).map (third.2.at_ i)) =
    [[1, 2, 3, 4, 5], [2, 2, 5, 6, 8], [3, 5, 3, 7, 9], [4, 6, 7, 4, 10], [5, 8, 9, 10, 11]] := by decide +kernel

/-- Possible values: each operator has the expectation 1/2, and all are independent. -/
theorem half_possible : Possible three 1 (fun u : List Op => (1 / 2 : ℝ) ^ u.length) :=
  ⟨by simp, fun u v h => by simp only [h.length_eq], fun u v _ => by simp only [List.length_append, pow_add], fun σ u _ _ => by simp only [List.length_map]⟩

/-- `C104_values`, `C104_positive`: there are values that respect the factors, and the first row of the matrix of level 1 are its words. -/
example : ∃ v : Nat → ℝ, Respects third.1 v ∧ v 2 = 1 / 2 ∧ v 5 = 1 / 4 := by
  have h := third_reach
  rw [← three_plain] at h
  obtain ⟨v, h1, h2⟩ := C104_inflation_moments three_context half_possible h
  refine ⟨v, h1, ?_, ?_⟩
  · rw [h2 2 [0] [⟨0, [], 0⟩] (by decide +kernel) (C12.names_iff.mpr ⟨?_, by decide +kernel⟩)]
    · norm_num
    · intro a ha
      simp only [List.mem_singleton] at ha
      subst ha
      exact ⟨2, rfl, by decide, by simp, by decide⟩
  · rw [h2 5 [0, 1] [⟨0, [], 0⟩, ⟨1, [], 0⟩] (by decide +kernel) (C12.names_iff.mpr ⟨?_, by decide +kernel⟩)]
    · norm_num
    · intro a ha
      simp only [List.mem_cons, List.not_mem_nil, or_false] at ha
      rcases ha with rfl | rfl
      · exact ⟨2, rfl, by decide, by simp, by decide⟩
      · exact ⟨2, rfl, by decide, by simp, by decide⟩

example : ∀ i, i < 4 → ∃ k, second.syms[k]? = ([some [], some [0], some [1], some [2]].map some)[i]? ∧ level1.mat.at_ 0 i = k ∧ level1.mat.at_ i 0 = k := by
  intro i hi
  have h4 : i = 0 ∨ i = 1 ∨ i = 2 ∨ i = 3 := by omega
  rcases h4 with rfl | rfl | rfl | rfl
  · exact ⟨1, by decide +kernel⟩
  · exact ⟨2, by decide +kernel⟩
  · exact ⟨3, by decide +kernel⟩
  · exact ⟨4, by decide +kernel⟩

/-- `C104_distinct`: no two symbols of the matrix of level 1 have the same factors. -/
example : Injective second := by
  intro i j l hi hj
  rw [factorsOf_iff] at hi hj
  have key : (second.entries.map (·.symbols)).Nodup := by decide +kernel
  rw [← List.getElem?_map] at hi hj
  have hil := (List.getElem?_eq_some_iff.mp hi).1
  have hjl := (List.getElem?_eq_some_iff.mp hj).1
  by_contra hne
  rcases Nat.lt_or_gt_of_ne hne with h | h
  · exact List.nodup_iff_getElem?_ne_getElem?.mp key i j h hjl (hi.trans hj.symm)
  · exact List.nodup_iff_getElem?_ne_getElem?.mp key j i h hil (hj.trans hi.symm)

/-- `C104_indices`: two insertions. -/
example : ∃ t f, Stored t f ∧ f 1 [5, 6] = some 3 ∧ f 1 [5] = none := by
  refine ⟨_, _, .insert 2 [5] 4 (.insert 1 [5, 6] 3 .empty), by decide, by decide⟩

end Moment.C104
