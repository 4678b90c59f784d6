import Verif.Model.LocalitySystem
import Verif.Proof.MatrixSystemContract
import Verif.Proof.PolyOrder
import Verif.Props.C71_RawPoly
import Verif.Props.C72_MatrixSum
import Verif.Props.C98_Npa

/-! # Tables of locality scenarios: the words of their symbols -/

namespace Moment.LocalitySystem
open Moment.Symbols (Sym Table Env)
open Moment.SymbolMatrix Moment.OperatorMatrix Moment.Locality
open Moment.C98 (stored stored_same stored_seq stored_sign stored_inj conj_stored op_stored Word Middle)
open Moment.Poly (Mono)

/-- A symbol as locality systems make them: zero, or one for a word of operators and its reverse. -/
def Kept (s : Scenario) (L : Nat) (e : Sym) : Prop := (e.seq = some HSeq.zero ∧ e.herm = true) ∨ ∃ u, Word s L u ∧ e.seq = some (stored s u) ∧
  (e.herm = true → SameOperator (some u.reverse) (some u)) ∧ (e.anti = true → SameOperator (some u) none) ∧
  (e.herm = false → e.conj = some (stored s u.reverse))

/-- Tables of locality systems. -/
structure Sound (s : Scenario) (L : Nat) (t : Table) : Prop where
  ready : Ready (host s) (IsSeq s L) t
  kept : ∀ e ∈ t.syms, Kept s L e

theorem word_reverse {s : Scenario} {L : Nat} {u : List Op} (h : Word s L u) : Word s L u.reverse :=
  ⟨fun a ha => h.1 a (List.mem_reverse.mp ha), by simpa using h.2⟩

theorem stored_pos (s : Scenario) (u : List Op) : ({ stored s u with sign := .pos } : HSeq) = stored s u := by
  rw [← stored_sign s u]

theorem kept_zero (s : Scenario) (L : Nat) : Kept s L Sym.zero := Or.inl ⟨rfl, rfl⟩

theorem kept_one (s : Scenario) (L : Nat) : Kept s L Sym.one :=
  Or.inr ⟨[], ⟨by simp, Nat.zero_le _⟩, by rfl, fun _ => .refl _, fun h => by simp [Sym.one] at h, fun h => by simp [Sym.one] at h⟩

theorem kept_pair {s : Scenario} {L : Nat} (h : Room s L) {u : List Op} (hu : Word s L u) : Kept s L (Sym.ofPair (stored s u) (stored s u.reverse)) := by
  have e : (stored s u.reverse).sign.mul (stored s u).sign = .pos := by rw [stored_sign, stored_sign]; rfl
  refine Or.inr ⟨u, hu, ?_, fun hh => ?_, fun hh => ?_, fun _ => ?_⟩
  · simp only [Sym.ofPair, stored_pos]
  · simp only [Sym.ofPair, beq_iff_eq] at hh
    exact stored_inj h (word_reverse hu) hu (compare_one hh).1.symm
  · simp only [Sym.ofPair, beq_iff_eq] at hh
    have := (compare_neg hh rfl).2
    simp only [e] at this
    cases this
  · simp only [Sym.ofPair, e, stored_pos]

theorem kept_seq {s : Scenario} {L : Nat} (h : Room s L) {u : List Op} (hu : Word s L u) (he : (stored s u).hash = (stored s u.reverse).hash) :
    Kept s L (Sym.ofSeq (stored s u)) :=
  Or.inr ⟨u, hu, rfl, fun _ => stored_inj h (word_reverse hu) hu he.symm, fun h => by simp [Sym.ofSeq] at h, fun h => by simp [Sym.ofSeq] at h⟩

theorem kept_scan {s : Scenario} {L : Nat} (h : Room s L) : ∀ (l : List (HSeq × HSeq)) (known : List UInt64),
    (∀ p ∈ l, ∃ u, Word s L u ∧ p = (stored s u, stored s u.reverse)) → ∀ e ∈ scan l known, Kept s L e
  | [], _, _, e, he => by simp [scan] at he
  | (a, b) :: l, known, hp, e, he => by
    obtain ⟨u, hu, hab⟩ := hp _ List.mem_cons_self
    simp only [Prod.mk.injEq] at hab
    obtain ⟨rfl, rfl⟩ := hab
    have ih := fun k => kept_scan h l k fun p hp' => hp p (List.mem_cons_of_mem _ hp')
    unfold scan at he
    dsimp only at he
    split at he
    · exact ih _ e he
    · split at he
      · rename_i hc
        rcases List.mem_cons.mp he with rfl | he
        · exact kept_seq h hu (compare_one (by simpa using hc)).1
        · exact ih _ e he
      · rcases List.mem_cons.mp he with rfl | he
        · split
          · exact kept_pair h hu
          · have := kept_pair h (word_reverse hu)
            rwa [List.reverse_reverse] at this
        · exact ih _ e he

theorem kept_mergeSym {s : Scenario} {L : Nat} {c : Env} {t t' : Table} {e : Sym} {id : Nat} {b : Bool} (ht : ∀ e ∈ t.syms, Kept s L e) (he : Kept s L e)
    (h : t.mergeSym c e = some (t', id, b)) : ∀ e ∈ t'.syms, Kept s L e := by
  unfold Table.mergeSym at h
  split at h
  · simp at h
  · split at h
    · simp only [Option.map_eq_some_iff, Prod.mk.injEq] at h
      obtain ⟨_, -, rfl, -⟩ := h
      exact ht
    · simp only [Option.some.injEq, Prod.mk.injEq] at h
      obtain ⟨rfl, -⟩ := h
      intro s hs
      rcases List.mem_append.mp hs with hs | hs
      · exact ht s hs
      · rw [List.mem_singleton.mp hs]
        exact he

theorem kept_mergeAll {s : Scenario} {L : Nat} {c : Env} : ∀ (l : List Sym) {t t' : Table} {ids : List Nat} {n : Nat}, (∀ e ∈ t.syms, Kept s L e) →
    (∀ e ∈ l, Kept s L e) → t.mergeAll c l = some (t', ids, n) → ∀ e ∈ t'.syms, Kept s L e
  | [], t, t', ids, n, ht, _, h => by
    simp only [Table.mergeAll, Option.some.injEq, Prod.mk.injEq] at h
    rw [← h.1]; exact ht
  | e :: l, t, t', ids, n, ht, hl, h => by
    simp only [Table.mergeAll, Option.bind_eq_bind, Option.bind_eq_some_iff, Option.some.injEq, Prod.mk.injEq] at h
    obtain ⟨⟨t1, i1, b1⟩, h1, ⟨t2, i2, n2⟩, h2, h3, -⟩ := h
    dsimp only at h2 h3
    subst h3
    exact kept_mergeAll l (kept_mergeSym ht (hl e (by simp)) h1) (fun x hx => hl x (by simp [hx])) h2

theorem Sound.new (s : Scenario) (L : Nat) : Sound s L Table.new := by
  refine ⟨.new, fun e he => ?_⟩
  simp only [Table.new, List.mem_cons, List.not_mem_nil, or_false] at he
  rcases he with rfl | rfl
  · exact kept_zero s L
  · exact kept_one s L

/-- The creation of a matrix. -/
theorem Sound.matrix {s : Scenario} {L : Nat} (h : Room s L) {t : Table} (ht : Sound s L t) {m : List Op} (hm : ∀ a ∈ m, Exists s a)
    {f : HSeq → HSeq → HSeq} (hf : Middle s m f) {us : List (List Op)} (hw : ∀ u ∈ us, (∀ a ∈ u, Exists s a) ∧ 2 * u.length + m.length ≤ L) {t' : Table}
    {M : Option MonoMat} (hc : createMatrix (host s) t f (us.map (stored s)) = some (t', M)) : Sound s L t' := by
  obtain ⟨good, -, mem, hu⟩ := C98.used_words h hm hf hw
  refine ⟨.matrix ht.ready hu hc, ?_⟩
  obtain ⟨ids, n, hmerge⟩ := create_merge (host s) hc
  refine kept_mergeAll _ ht.kept (fun e he => ?_) hmerge
  unfold identify at he
  rcases List.mem_cons.mp he with rfl | he
  · exact kept_zero s L
  rcases List.mem_cons.mp he with rfl | he
  · exact kept_one s L
  rw [show (host s).canNonHerm = true from rfl, if_pos rfl] at he
  refine kept_scan h _ _ (fun p hp => ?_) e he
  obtain ⟨x, hx, rfl⟩ := List.mem_map.mp hp
  obtain ⟨a, ha, b, hb, rfl⟩ := mem x (mem_visited hu.square hx)
  have hg := good a ha b hb
  have hcj : (host s).env.conj (stored s (a.reverse ++ (m ++ b))) = stored s (a.reverse ++ (m ++ b)).reverse := conj_stored h hg
  split
  · exact ⟨_, word_reverse hg, by rw [hcj, List.reverse_reverse]⟩
  · exact ⟨_, hg, by rw [hcj]⟩

/-- A new word. -/
theorem Sound.seq {s : Scenario} {L : Nat} (h : Room s L) {t : Table} (ht : Sound s L t) {u : List Op} (hu : Word s L u) {r}
    (hm : t.mergeSeq (env s) (stored s u) = some r) (hr : Ready (host s) (IsSeq s L) r.1) : Sound s L r.1 := by
  refine ⟨hr, ?_⟩
  unfold Table.mergeSeq at hm
  simp only [stored_pos, show (env s).aliases = false from rfl, Bool.false_eq_true, if_false] at hm
  rw [conj_stored h hu] at hm
  exact kept_mergeSym (id := r.2.1) (b := r.2.2) ht.kept (kept_pair h hu) hm

/-- All words of a list. -/
theorem Sound.fill {s : Scenario} {L : Nat} (h : Room s L) {t : Table} (ht : Sound s L t) {us : List (List Op)} (hu : ∀ u ∈ us, Word s L u) :
    ∃ t' k, t.fill (env s) (us.map (stored s)) = some (t', k) ∧ Sound s L t' ∧ t.syms <+: t'.syms := by
  have hlegal : Symbols.Op.Legal (host s).env (IsSeq s L) (.fill (us.map (stored s))) := by
    intro w hw
    obtain ⟨u, hx, rfl⟩ := List.mem_map.mp hw
    exact stored_seq (hu u hx)
  have hplain : PlainOp (host s).env (.fill (us.map (stored s))) := by
    intro w hw _
    obtain ⟨u, hx, rfl⟩ := List.mem_map.mp hw
    exact stored_sign s u
  have hkept : ∀ e ∈ (Symbols.fillMap (env s) (us.map (stored s)) []).map Prod.snd, Kept s L e := by
    intro e he
    obtain ⟨x, hx, rfl⟩ := List.mem_map.mp he
    rcases (Symbols.fillMap_spec (env s) (us.map (stored s)) []).1 x hx with hx | ⟨w, hw, hx, -⟩
    · simp at hx
    · obtain ⟨u, hu', rfl⟩ := List.mem_map.mp hw
      unfold Symbols.fillEntry at hx
      simp only [show (env s).aliases = false from rfl, Bool.false_and, Bool.false_eq_true, if_false] at hx
      rw [conj_stored h (hu u hu')] at hx
      split at hx
      · rw [← Option.some.inj hx]
        exact kept_seq h (hu u hu') (by assumption)
      · split at hx
        · rw [← Option.some.inj hx]
          exact kept_pair h (hu u hu')
        · simp at hx
  have hex : ∃ r, t.fill (env s) (us.map (stored s)) = some r := by
    obtain ⟨t', k, e, -⟩ := Symbols.fill_keys (words s L h) (ht.ready.fit (setting s L h)).inv hlegal
    exact ⟨_, e⟩
  obtain ⟨⟨t', k⟩, hr⟩ := hex
  have hr' := hr
  unfold Table.fill at hr'
  obtain ⟨⟨t1, ids, n⟩, hm, e⟩ := Option.map_eq_some_iff.mp hr'
  simp only [Prod.mk.injEq] at e
  obtain ⟨rfl, rfl⟩ := e
  exact ⟨t1, n, hr, ⟨.step ht.ready hlegal hplain (r := none) (by simp [Symbols.step, host, hr]), kept_mergeAll _ ht.kept hkept hm⟩, mergeAll_prefix _ hm⟩

/-! ## Values -/

theorem stored_zero {s : Scenario} {L : Nat} (h : Room s L) {u : List Op} (hu : Word s L u) (h0 : (stored s u).hash = 0) : stored s u = HSeq.zero := by
  unfold stored at h0 ⊢
  cases hn : nf u with
  | none => rfl
  | some v =>
    rw [hn] at h0
    exact absurd h0 (h.ne (normal_iff.mpr ⟨v, fun a ha => hu.1 a (nf_mem hn a ha), rfl, nf_idem hn⟩ : Normal s _).lt (by simpa using (nf_length hn).trans hu.2))

section
variable {A : Type} [Ring A] [Algebra ℂ A] [StarRing A] [StarModule ℂ A]

theorem Sound.values {s : Scenario} {L : Nat} (h : Room s L) {t : Table} (ht : Sound s L t) {P : Op → A} {φ : A →ₗ[ℂ] ℂ} (hP : Represents P)
    (hs : ∀ a, star (P a) = P a) (hφ : ∀ a, φ (star a) = (starRingEnd ℂ) (φ a)) : ∃ v, Agrees t (moment s P φ) v := by
  have hL := moments h hP hs hφ
  refine agrees_of_natural (setting s L h) hL ht.ready fun e he => ?_
  rcases ht.kept e he with ⟨h1, -⟩ | ⟨u, hu, h1, h2, h3, -⟩
  · exact ⟨_, h1, fun _ => by simp [moment, HSeq.zero], fun _ => by simp [moment, HSeq.zero]⟩
  · refine ⟨_, h1, fun hh => ?_, fun hh => ?_⟩
    · rw [← hL.conj _ (stored_seq hu), conj_stored h hu, stored_same (h2 hh)]
    · have : stored s u = HSeq.zero := by
        unfold stored
        rw [(nf_zero_iff u).mpr (h3 hh)]
      simp [this, moment, HSeq.zero]

/-- The element of the algebra that a polynomial stands for. -/
noncomputable def polyOp (s : Scenario) (t : Table) {A : Type} [Ring A] [Algebra ℂ A] (P : Op → A) (p : List Mono) : A :=
  (p.map fun m => m.factor • op s P ((termWord t m).getD HSeq.zero)).sum

/-- The words of terms. -/
theorem Sound.term {s : Scenario} {L : Nat} (h : Room s L) {t : Table} (ht : Sound s L t) {m : Mono} (hm : m.id < t.syms.length) :
    ∃ w, termWord t m = some w ∧ (∀ u, Word s L u → ∀ e, t.syms[m.id]? = some e → e.seq = some (stored s u) → w = stored s u ∨ w = stored s u.reverse) ∧
      ∀ (P : Op → A) (φ : A →ₗ[ℂ] ℂ) v, Represents P → (∀ a, star (P a) = P a) → (∀ a, φ (star a) = (starRingEnd ℂ) (φ a)) →
        Agrees t (moment s P φ) v → m.value v = m.factor * φ (op s P w) := by
  have he : t.syms[m.id]? = some t.syms[m.id] := List.getElem?_eq_getElem hm
  generalize t.syms[m.id] = e at he
  have hk := ht.kept e (List.mem_of_getElem? he)
  have herm : ∀ (P : Op → A) (φ : A →ₗ[ℂ] ℂ) v, Agrees t (moment s P φ) v → e.herm = true → (starRingEnd ℂ) (v m.id) = v m.id := by
    intro P φ v hv hh
    exact agree_herm hv he hh
  have plain : ∀ (P : Op → A) (φ : A →ₗ[ℂ] ℂ) v q, Agrees t (moment s P φ) v → e.seq = some q → v m.id = φ (op s P q) := by
    intro P φ v q hv hq
    rw [hv.word _ _ _ he hq, moment_op]
  by_cases hc : m.conj = true ∧ e.herm = false
  · rcases hk with ⟨-, h2⟩ | ⟨u, hu, h1, -, -, h4⟩
    · rw [hc.2] at h2; cases h2
    · refine ⟨stored s u.reverse, by simp [termWord, he, hc.1, hc.2, h4 hc.2], fun u' hu' e' he' hq => ?_, fun P φ v hP hs hφ hv => ?_⟩
      · rw [he, Option.some.injEq] at he'
        subst he'
        rw [h1, Option.some.injEq] at hq
        have hsame := (stored_inj h hu hu' (by rw [hq])).reverse
        exact Or.inr (stored_same hsame)
      · have e1 := (moments h hP hs hφ).conj _ (stored_seq hu)
        rw [conj_stored h hu, moment_op, moment_op] at e1
        unfold Poly.Mono.value
        rw [if_pos hc.1, plain P φ v _ hv h1, e1]
  · have hw : ∃ q, e.seq = some q := by
      rcases hk with ⟨h1, -⟩ | ⟨u, -, h1, -⟩
      · exact ⟨_, h1⟩
      · exact ⟨_, h1⟩
    obtain ⟨q, hq⟩ := hw
    refine ⟨q, ?_, fun u hu e' he' hq' => ?_, fun P φ v hP hs hφ hv => ?_⟩
    · unfold termWord
      rw [he, Option.bind_some]
      by_cases h1 : m.conj = true
      · have h2 : e.herm = true := by by_contra h3; exact hc ⟨h1, by simpa using h3⟩
        simp [h1, h2, hq]
      · simp [h1, hq]
    · rw [he, Option.some.injEq] at he'
      subst he'
      rw [hq, Option.some.injEq] at hq'
      exact Or.inl hq'
    · unfold Poly.Mono.value
      rw [← plain P φ v q hv hq]
      by_cases h1 : m.conj = true
      · have h2 : e.herm = true := by by_contra h3; exact hc ⟨h1, by simpa using h3⟩
        rw [if_pos h1, herm P φ v hv h2]
      · rw [if_neg h1]

theorem Sound.poly {s : Scenario} {L : Nat} (h : Room s L) {t : Table} (ht : Sound s L t) {P : Op → A} {φ : A →ₗ[ℂ] ℂ} {v : Nat → ℂ} (hP : Represents P)
    (hs : ∀ a, star (P a) = P a) (hφ : ∀ a, φ (star a) = (starRingEnd ℂ) (φ a)) (hv : Agrees t (moment s P φ) v) :
    ∀ {p : List Mono}, (∀ m ∈ p, m.id < t.syms.length) → Poly.value v p = φ (polyOp s t P p)
  | [], _ => by simp [polyOp, Poly.value]
  | m :: p, hp => by
    obtain ⟨w, h1, -, h2⟩ := ht.term (A := A) h (hp m List.mem_cons_self)
    have ih := Sound.poly h ht hP hs hφ hv (p := p) fun x hx => hp x (List.mem_cons_of_mem _ hx)
    rw [Poly.value_cons, ih, h2 P φ v hP hs hφ hv]
    simp [polyOp, h1]

/-- Functionals that respect the star operation tell elements apart. -/
theorem separate {x y : A} (h : ∀ φ : A →ₗ[ℂ] ℂ, (∀ a, φ (star a) = (starRingEnd ℂ) (φ a)) → φ x = φ y) : x = y := by
  rw [← sub_eq_zero, ← Module.forall_dual_apply_eq_zero_iff ℂ (x - y)]
  intro ψ
  let ψ' : A →ₗ[ℂ] ℂ := { toFun := fun a => (starRingEnd ℂ) (ψ (star a)), map_add' := by simp, map_smul' := by simp }
  have e1 := h (ψ + ψ') fun a => by simp [ψ', add_comm]
  have e2 := h (Complex.I • (ψ - ψ')) fun a => by simp [ψ']; ring
  have e3 : ψ x - ψ y = -(ψ' x - ψ' y) := by
    simp only [LinearMap.add_apply] at e1
    linear_combination e1
  have e4 : ψ x - ψ y = ψ' x - ψ' y := by
    simp only [LinearMap.smul_apply, LinearMap.sub_apply, smul_eq_mul] at e2
    have := mul_left_cancel₀ Complex.I_ne_zero e2
    linear_combination this
  rw [map_sub]
  linear_combination (e3 + e4) / 2

end

/-! ## Lists of words -/

/-- The words of a level, as products of operators. -/
noncomputable def rows (s : Scenario) (n : Nat) : List (List Op) := (generate s n).map fun w => w.map (opOf s)

theorem rows_spec {s : Scenario} {L n : Nat} (h : Room s L) (hn : n ≤ L) : level s n = (rows s n).map (stored s) ∧
    (∀ u ∈ rows s n, (∀ a ∈ u, Exists s a) ∧ u.length ≤ n) ∧
    ∀ (i : Nat) x a, (generate s n)[i]? = some x → C10.Names s a x → (rows s n)[i]? = some a := by
  have hgen := (C10.C11_complete s n).2
  have hnorm : ∀ w ∈ generate s n, ∃ u, (∀ a ∈ u, Exists s a) ∧ w = u.map (Locality.enc s) ∧ nf u = some u := fun w hw => normal_iff.mp ((hgen w).mp hw).2
  have hback : ∀ u : List Op, (∀ a ∈ u, Exists s a) → (u.map (Locality.enc s)).map (opOf s) = u := by
    intro u hu
    rw [List.map_map]
    conv_rhs => rw [← List.map_id u]
    exact List.map_congr_left fun a ha => opOf_enc (hu a ha)
  refine ⟨?_, ?_, ?_⟩
  · unfold level rows
    rw [List.map_map]
    apply List.map_congr_left
    intro w hw
    obtain ⟨u, hu, rfl, hn'⟩ := hnorm w hw
    have hl : u.length ≤ n := by simpa using ((hgen _).mp hw).1
    rw [Function.comp, hback u hu, sequence_normal h ((hgen _).mp hw).2 (by rw [List.length_map]; omega)]
    unfold stored
    rw [hn']
  · intro u hu
    obtain ⟨w, hw, rfl⟩ := List.mem_map.mp hu
    obtain ⟨u, hx, rfl, -⟩ := hnorm w hw
    have hl : u.length ≤ n := by simpa using ((hgen _).mp hw).1
    rw [hback u hx]
    exact ⟨hx, hl⟩
  · intro i x a hi ha
    obtain ⟨h1, rfl⟩ := C10.names_iff.mp ha
    rw [rows, List.getElem?_map, hi, Option.map_some, hback a h1]

theorem level_length (s : Scenario) (n : Nat) : (level s n).length = (generate s n).length := List.length_map _

/-! ## What matrices show -/

/-- An element of every algebra with the operators of the scenario. -/
abbrev Element := (A : Type) → [Ring A] → [Algebra ℂ A] → (Op → A) → A

/-- The matrix has a row and a column for each word of the level, and the entries are the moments of `u† X v`, in every algebra and for every functional. -/
structure Shows (s : Scenario) (n : Nat) (t : Table) (M : Matrix) (X : Element) : Prop where
  dim : M.part.dim = (generate s n).length
  known : MatrixSum.Good t M.part
  value : ∀ (A : Type) [Ring A] [Algebra ℂ A] [StarRing A] [StarModule ℂ A] (P : Op → A) (φ : A →ₗ[ℂ] ℂ) (v : Nat → ℂ), Represents P →
    (∀ a, star (P a) = P a) → (∀ a, φ (star a) = (starRingEnd ℂ) (φ a)) → Agrees t (moment s P φ) v →
    ∀ i j x y a b, (generate s n)[i]? = some x → (generate s n)[j]? = some y → C10.Names s a x → C10.Names s b y →
      MatrixSum.entryAt v M.part i j = φ (star (a.map P).prod * X A P * (b.map P).prod)

theorem Shows.stays {s : Scenario} {n : Nat} {t t' : Table} {M : Matrix} {X Y : Element} (hM : Shows s n t M X) (h : t.syms <+: t'.syms)
    (hXY : ∀ (A : Type) [Ring A] [Algebra ℂ A] [StarRing A] [StarModule ℂ A] (P : Op → A), Represents P → (∀ a, star (P a) = P a) → X A P = Y A P) :
    Shows s n t' M Y := by
  refine ⟨hM.dim, ?_, fun A _ _ _ _ P φ v hP hs hφ hv => ?_⟩
  · have := hM.known
    cases M with
    | mono M => exact ⟨this.1, fun m hm => (this.2 m hm).trans_le h.length_le⟩
    | poly S => exact ⟨this.1, fun p hp m hm => (this.2 p hp m hm).trans_le h.length_le⟩
  · rw [← hXY A P hP hs]
    exact hM.value A P φ v hP hs hφ (agrees_mono h hv)

/-- Moment matrices and localizing matrices. -/
theorem shows_create {s : Scenario} {L n : Nat} (h : Room s L) {t : Table} (ht : Sound s L t) {m : List Op} (hm : ∀ a ∈ m, Exists s a)
    (hn : 2 * n + m.length ≤ L) {f : HSeq → HSeq → HSeq} (hf : Middle s m f) :
    ∃ t' M, createMatrix (host s) t f (level s n) = some (t', some M) ∧ Sound s L t' ∧ t.syms <+: t'.syms ∧
      Shows s n t' (.mono M) (fun _ _ _ P => (m.map P).prod) ∧ (SameOperator (some m.reverse) (some m) → M.sym.hermitian = true) := by
  obtain ⟨hl, hr, hat⟩ := rows_spec (n := n) h (by omega)
  have hw : ∀ u ∈ rows s n, (∀ a ∈ u, Exists s a) ∧ 2 * u.length + m.length ≤ L := fun u hu => ⟨(hr u hu).1, by have := (hr u hu).2; omega⟩
  obtain ⟨t', M, h1, h2, h3, -, ⟨h4, -⟩, -, h5⟩ := C98.matrix_spec h hm hf hw ht.ready
  obtain ⟨-, -, -, hu⟩ := C98.used_words h hm hf hw
  obtain ⟨t1, M1, g1, g2⟩ := create_spec (setting s L h) (ht.ready.fit (setting s L h)) 1 hu
  have e : some (t1, some M1) = some (t', some M) := g1.symm.trans h1
  simp only [Option.some.injEq, Prod.mk.injEq] at e
  obtain ⟨rfl, rfl⟩ := e
  rw [hl]
  refine ⟨t1, M1, h1, ht.matrix h hm hf hw h1, h4.syms, ⟨?_, ⟨g2.stands.square, g2.stands.known⟩, ?_⟩, h3⟩
  · exact h2.trans (List.length_map _)
  · intro A _ _ _ _ P φ v hP hs hφ hv i j x y a b hi hj ha hb
    exact (h5 A P φ v hP hs hφ hv).1 i j a b (hat i x a hi ha) (hat j y b hj hb)

end Moment.LocalitySystem
