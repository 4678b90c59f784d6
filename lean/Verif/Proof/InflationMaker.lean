import Verif.Proof.InflationSystem
import Verif.Props.C72_MatrixSum

/-! # What the functions of inflation systems promise -/

namespace Moment.InflationSystem
open Moment.Symbols (Sym Table Env)
open Moment.SymbolMatrix Moment.OperatorMatrix Moment.Inflation
open Moment.Poly (Mono)
open Moment.RawPoly (Raw total)
open Moment.LocalitySystem (Matrix termWord separate)
open Moment.MatrixSystem (Index Maker Terms Fulfils Contract Ordered Same)

variable {n : Causal} {c : Inflation.Ctx} {L : Nat}

/-! ## Elements of algebras -/

/-- The element of an algebra that a sequence stands for. -/
noncomputable def op (n : Causal) (c : Inflation.Ctx) {A : Type} [Ring A] [Algebra ℂ A] (P : Op → A) (w : HSeq) : A :=
  if w.hash = 0 then 0 else Rewrite.phase w.sign • (w.ops.map fun m => P (opOf n c m)).prod

theorem moment_op {A : Type} [Ring A] [Algebra ℂ A] (P : Op → A) (φ : A →ₗ[ℂ] ℂ) (w : HSeq) : moment n c P φ w = φ (op n c P w) := by
  unfold moment op
  split <;> simp

theorem op_stored (hb : Built n c) (h : Room c L) {u : List Op} (hu : Word n c L u) {A : Type} [Ring A] [Algebra ℂ A] {P : Op → A} (hP : Represents n P) :
    op n c P (stored n c u) = (u.map P).prod := by
  rw [← sub_eq_zero, ← Module.forall_dual_apply_eq_zero_iff ℂ]
  intro φ
  have := moment_stored hb h hP φ hu
  rw [moment_op] at this
  rw [map_sub, this, sub_self]

/-- The element of the algebra that a polynomial stands for. -/
noncomputable def polyOp (n : Causal) (c : Inflation.Ctx) (t : Table) {A : Type} [Ring A] [Algebra ℂ A] (P : Op → A) (p : List Mono) : A :=
  (p.map fun m => m.factor • op n c P ((termWord t m).getD HSeq.zero)).sum

/-- The word of the symbol of a term. -/
def Short (n : Causal) (c : Inflation.Ctx) (K : Nat) (t : Table) (m : Mono) : Prop := ∃ e u, t.syms[m.id]? = some e ∧ e.seq = some (stored n c u) ∧ Word n c K u

theorem Short.stays {K : Nat} {t t' : Table} {m : Mono} (h : Short n c K t m) (ht : t.syms <+: t'.syms) : Short n c K t' m := by
  obtain ⟨e, u, h1, h2⟩ := h
  exact ⟨e, u, get_prefix ht h1, h2⟩

theorem Short.lt {K : Nat} {t : Table} {m : Mono} (h : Short n c K t m) : m.id < t.syms.length := by
  obtain ⟨e, u, h1, -⟩ := h
  exact (List.getElem?_eq_some_iff.mp h1).1

theorem termWord_stays {t t' : Table} (h : t.syms <+: t'.syms) {m : Mono} (hm : m.id < t.syms.length) : termWord t' m = termWord t m := by
  unfold termWord
  rw [get_prefix h (List.getElem?_eq_getElem hm), List.getElem?_eq_getElem hm]

theorem polyOp_stays {t t' : Table} (h : t.syms <+: t'.syms) {A : Type} [Ring A] [Algebra ℂ A] (P : Op → A) {p : List Mono}
    (hp : ∀ m ∈ p, m.id < t.syms.length) : polyOp n c t' P p = polyOp n c t P p := by
  unfold polyOp
  congr 1
  exact List.map_congr_left fun m hm => by rw [termWord_stays h (hp m hm)]

theorem Sound.term {t : Table} (ht : Sound n c L t) {m : Mono} {e : Sym} (he : t.syms[m.id]? = some e) : ∃ w, e.seq = some w ∧ termWord t m = some w := by
  obtain ⟨h1, h2⟩ := ht.kept e (List.mem_of_getElem? he)
  have hw : ∃ w, e.seq = some w := by
    rcases h2 with h2 | ⟨w, -, h2, -⟩
    · exact ⟨_, h2⟩
    · exact ⟨_, h2⟩
  obtain ⟨w, hw⟩ := hw
  refine ⟨w, hw, ?_⟩
  unfold termWord
  rw [he, Option.bind_some, h1, hw]
  simp

theorem Sound.short {K : Nat} {t : Table} (ht : Sound n c L t) {m : Mono} (hm : Short n c K t m) : ∃ u, Word n c K u ∧ termWord t m = some (stored n c u) := by
  obtain ⟨e, u, he, hs, hu⟩ := hm
  obtain ⟨w, h1, h2⟩ := ht.term he
  rw [hs, Option.some.injEq] at h1
  exact ⟨u, hu, h1 ▸ h2⟩

section
variable {A : Type} [Ring A] [Algebra ℂ A] [StarRing A] [StarModule ℂ A]

theorem Sound.values (hb : Built n c) (h : Room c L) {t : Table} (ht : Sound n c L t) {P : Op → A} {φ : A →ₗ[ℂ] ℂ} (hP : Represents n P)
    (hs : ∀ a, star (P a) = P a) (hφ : ∀ a, φ (star a) = (starRingEnd ℂ) (φ a)) : ∃ v, Agrees t (moment n c P φ) v := by
  have hL := moments hb h hP hs hφ
  refine agrees_of_natural (setting hb h) hL.1 ht.ready fun e he => ?_
  obtain ⟨h1, h2⟩ := ht.kept e he
  rcases h2 with h2 | ⟨w, hw, h2, h3⟩
  · exact ⟨_, h2, fun _ => by simp [moment, HSeq.zero], fun _ => by simp [moment, HSeq.zero]⟩
  · refine ⟨w, h2, fun _ => hL.2 w (hw.seq hb) hw.sign, fun ha => ?_⟩
    rw [h3] at ha
    cases ha

theorem Sound.poly {t : Table} (ht : Sound n c L t) {P : Op → A} {φ : A →ₗ[ℂ] ℂ} {v : Nat → ℂ} (hv : Agrees t (moment n c P φ) v) :
    ∀ {p : List Mono}, (∀ m ∈ p, m.id < t.syms.length) → Poly.value v p = φ (polyOp n c t P p)
  | [], _ => by simp [polyOp, Poly.value]
  | m :: p, hp => by
    have hm := hp m List.mem_cons_self
    have he : t.syms[m.id]? = some t.syms[m.id] := List.getElem?_eq_getElem hm
    generalize t.syms[m.id] = e at he
    obtain ⟨w, h1, h2⟩ := ht.term he
    have ih := Sound.poly ht hv (p := p) fun x hx => hp x (List.mem_cons_of_mem _ hx)
    have hmv : m.value v = m.factor * φ (op n c P w) := by
      unfold Poly.Mono.value
      rw [← moment_op, ← hv.word _ _ _ he h1]
      split
      · rw [agree_herm hv he (ht.kept e (List.mem_of_getElem? he)).1]
      · rfl
    rw [Poly.value_cons, ih, hmv]
    simp [polyOp, h2]

end

/-! ## Registered words -/

theorem register_sound (hb : Built n c) (h : Room c L) (hy : canHaveAliases c = false) {K : Nat} (hK : K ≤ L) : ∀ {q : Raw} {t : Table}, Sound n c L t →
    (∀ e ∈ q, ∃ u, Word n c K u ∧ e.1 = stored n c u) →
    ∃ t' l, RawPoly.registerStorage (env c) t q = some (t', l) ∧ Sound n c L t' ∧ t.syms <+: t'.syms ∧ ∀ m ∈ l, Short n c K t' m
  | [], t, ht, _ => ⟨t, [], rfl, ht, List.prefix_rfl, by simp⟩
  | e :: q, t, ht, hq => by
    obtain ⟨u, hu, he⟩ := hq e List.mem_cons_self
    have hq' := fun x hx => hq x (List.mem_cons_of_mem _ hx)
    have huL : Word n c L u := ⟨hu.1, hu.2.trans hK⟩
    have hcan : Canon n c L (stored n c u) := ⟨u, huL, rfl, by unfold shown; rw [show (env c).aliases = false from hy]; rfl⟩
    unfold RawPoly.registerStorage
    cases hk : (t.lookup (env c) e.1).1 with
    | some k =>
      obtain ⟨t', l, h1, h2, h3, h4⟩ := register_sound hb h hy hK ht hq'
      refine ⟨t', ⟨k.1, k.2, e.2⟩ :: l, by simp [h1], h2, h3, List.forall_mem_cons.mpr ⟨?_, h4⟩⟩
      rw [he, lookup_canon hcan] at hk
      obtain ⟨x, x1, x2⟩ := ht.holds hb h huL hk
      exact Short.stays (m := ⟨k.1, k.2, e.2⟩) ⟨x, u, x1, x2, hu⟩ h3
    | none =>
      obtain ⟨m, m1, m2, m3, m4⟩ := C71.lookup_after (setting hb h) ht.ready (w := e.1) (by rw [he]; exact stored_sign u) (by
        rw [show (host c).env.aliases = false from hy, if_neg (by simp), he]
        exact stored_seq hb huL)
      obtain ⟨k, hk'⟩ := Option.isSome_iff_exists.mp m4
      have ms : Sound n c L m.1 := ht.seq hb h huL hy (he ▸ m1) m2
      obtain ⟨t', l, h1, h2, h3, h4⟩ := register_sound hb h hy hK ms hq'
      refine ⟨t', ⟨k.1, k.2, e.2⟩ :: l, ?_, h2, m3.trans h3, List.forall_mem_cons.mpr ⟨?_, h4⟩⟩
      · rw [show t.mergeSeq (env c) e.1 = some m from m1, Option.bind_some, show (m.1.lookup (env c) e.1).1 = some k from hk', Option.bind_some, h1]
        rfl
      · rw [he, show (host c).env = env c from rfl, lookup_canon hcan] at hk'
        obtain ⟨x, x1, x2⟩ := ms.holds hb h huL hk'
        exact Short.stays (m := ⟨k.1, k.2, e.2⟩) ⟨x, u, x1, x2, hu⟩ h3

/-- The polynomial that is registered for a raw polynomial stands for the same element. -/
theorem register_op (hb : Built n c) (h : Room c L) (hy : canHaveAliases c = false) {K : Nat} (hK : K ≤ L) {q : Raw} {t : Table} (ht : Sound n c L t)
    (hq : ∀ e ∈ q, ∃ u, Word n c K u ∧ e.1 = stored n c u) :
    ∃ t' l, RawPoly.registerStorage (env c) t q = some (t', l) ∧ Sound n c L t' ∧
      t.syms <+: t'.syms ∧ (∀ m ∈ Poly.make (MatrixBasis.polyTable t') byId l, Short n c K t' m) ∧
      ∀ (A : Type) [Ring A] [Algebra ℂ A] [StarRing A] [StarModule ℂ A] (P : Op → A), Represents n P → (∀ a, star (P a) = P a) →
        polyOp n c t' P (Poly.make (MatrixBasis.polyTable t') byId l) = total (op n c P) q := by
  obtain ⟨t', l, h1, h2, h3, h4⟩ := register_sound hb h hy hK ht hq
  obtain ⟨t1, l1, g1, -, -, -, g2⟩ := C71.registerStorage_spec (setting hb h) (r := q) ht.ready (fun e he => by
    obtain ⟨u, hu, e'⟩ := hq e he
    exact ⟨e' ▸ stored_seq hb ⟨hu.1, hu.2.trans hK⟩, e' ▸ stored_sign u⟩) (fun ha => by rw [show (host c).env.aliases = false from hy] at ha; cases ha)
  have e : some (t1, l1) = some (t', l) := g1.symm.trans h1
  simp only [Option.some.injEq, Prod.mk.injEq] at e
  obtain ⟨rfl, rfl⟩ := e
  have hp : ∀ m ∈ Poly.make (MatrixBasis.polyTable t1) byId l1, Short n c K t1 m := by
    intro m hm
    obtain ⟨y, hy, e⟩ := Poly.make_ids hm
    obtain ⟨x, u, a, b⟩ := h4 y hy
    exact ⟨x, u, e ▸ a, b⟩
  refine ⟨t1, l1, h1, h2, h3, hp, fun A _ _ _ _ P hP hs => ?_⟩
  refine separate fun φ hφ => ?_
  obtain ⟨v, hv⟩ := h2.values hb h hP hs hφ
  have a1 := h2.poly hv (fun m hm => (hp m hm).lt)
  rw [← a1, Poly.make_value hv.flags, g2 _ v (moments hb h hP hs hφ).1 (fun ha => by rw [show (host c).env.aliases = false from hy] at ha; cases ha) hv]
  clear a1 hv g1 g2 h1 hp hq
  induction q with
  | nil => simp
  | cons x q ih => rw [RawPoly.total_cons, RawPoly.total_cons, ih, map_add, map_smul, moment_op]

/-! ## Lists of words -/

/-- The words of a level, as products of operators. -/
noncomputable def rows (n : Causal) (c : Inflation.Ctx) (k : Nat) : List (List Op) := (generate c k).map fun w => w.map (opOf n c)

theorem rows_spec (hb : Built n c) (h : Room c L) {k : Nat} (hk : k ≤ L) : level c k = (rows n c k).map (stored n c) ∧
    (∀ u ∈ rows n c k, (∀ a ∈ u, Exists n c.infl a) ∧ u.length ≤ k) ∧ [] ∈ rows n c k ∧
    ∀ (i : Nat) x a, (generate c k)[i]? = some x → C12.Names n c a x → (rows n c k)[i]? = some a := by
  have hgen := (C12.C51_complete hb.1 k).2
  have hnorm : ∀ w ∈ generate c k, ∃ u, (∀ a ∈ u, Exists n c.infl a) ∧ w = u.map (Inflation.enc c) ∧ nf n c u = some u :=
    fun w hw => (normal_iff hb).mp ((hgen w).mp hw).2
  have hback : ∀ u : List Op, (∀ a ∈ u, Exists n c.infl a) → (u.map (Inflation.enc c)).map (opOf n c) = u := by
    intro u hu
    rw [List.map_map]
    conv_rhs => rw [← List.map_id u]
    exact List.map_congr_left fun a ha => opOf_enc hb (hu a ha)
  refine ⟨?_, ?_, ?_, ?_⟩
  · unfold level rows
    rw [List.map_map]
    apply List.map_congr_left
    intro w hw
    obtain ⟨u, hu, rfl, -⟩ := hnorm w hw
    have hl : u.length ≤ k := by simpa using ((hgen _).mp hw).1
    rw [Function.comp, hback u hu]
    exact construct_stored hb h ⟨hu, by omega⟩ _
  · intro u hu
    obtain ⟨w, hw, rfl⟩ := List.mem_map.mp hu
    obtain ⟨u, hx, rfl, -⟩ := hnorm w hw
    have hl : u.length ≤ k := by simpa using ((hgen _).mp hw).1
    rw [hback u hx]
    exact ⟨hx, hl⟩
  · refine List.mem_map.mpr ⟨[], (hgen _).mpr ⟨Nat.zero_le _, (normal_iff hb).mpr ⟨[], by simp, rfl, by rfl⟩⟩, rfl⟩
  · intro i x a hi ha
    obtain ⟨h1, rfl⟩ := C12.names_iff.mp ha
    rw [rows, List.getElem?_map, hi, Option.map_some, hback a h1]

theorem level_length (c : Inflation.Ctx) (k : Nat) : (level c k).length = (generate c k).length := List.length_map _

/-! ## What matrices show -/

/-- An element of every algebra with the operators of the scenario. -/
abbrev Element := (A : Type) → [Ring A] → [Algebra ℂ A] → (Op → A) → A

/-- The matrix has a row and a column for each word of the level, and the entries are the moments of `u† X v`, in every algebra and for every functional that does
not see which copies of the sources are which. -/
structure Shows (n : Causal) (c : Inflation.Ctx) (k : Nat) (t : Table) (M : Matrix) (X : Element) : Prop where
  dim : M.part.dim = (generate c k).length
  known : MatrixSum.Good t M.part
  value : ∀ (A : Type) [Ring A] [Algebra ℂ A] [StarRing A] [StarModule ℂ A] (P : Op → A) (φ : A →ₗ[ℂ] ℂ) (v : Nat → ℂ), Represents n P →
    (∀ a, star (P a) = P a) → (∀ a, φ (star a) = (starRingEnd ℂ) (φ a)) → Exchangeable n c.infl P φ → Agrees t (moment n c P φ) v →
    ∀ i j x y a b, (generate c k)[i]? = some x → (generate c k)[j]? = some y → C12.Names n c a x → C12.Names n c b y →
      MatrixSum.entryAt v M.part i j = φ (star (a.map P).prod * X A P * (b.map P).prod)

theorem Shows.stays {k : Nat} {t t' : Table} {M : Matrix} {X Y : Element} (hM : Shows n c k t M X) (h : t.syms <+: t'.syms)
    (hXY : ∀ (A : Type) [Ring A] [Algebra ℂ A] [StarRing A] [StarModule ℂ A] (P : Op → A), Represents n P → (∀ a, star (P a) = P a) → X A P = Y A P) :
    Shows n c k t' M Y := by
  refine ⟨hM.dim, ?_, fun A _ _ _ _ P φ v hP hs hφ hx hv => ?_⟩
  · have := hM.known
    cases M with
    | mono M => exact ⟨this.1, fun m hm => (this.2 m hm).trans_le h.length_le⟩
    | poly S => exact ⟨this.1, fun p hp m hm => (this.2 p hp m hm).trans_le h.length_le⟩
  · rw [← hXY A P hP hs]
    exact hM.value A P φ v hP hs hφ hx (agrees_mono h hv)

/-- The canonical moment of the word has a symbol. -/
def HasSymbol (c : Inflation.Ctx) (t : Table) (w : HSeq) : Prop := ∃ e ∈ t.syms, e.seq = some (shown c w)

theorem HasSymbol.stays {t t' : Table} {w : HSeq} (h : HasSymbol c t w) (ht : t.syms <+: t'.syms) : HasSymbol c t' w := by
  obtain ⟨e, h1, h2⟩ := h
  exact ⟨e, ht.subset h1, h2⟩

theorem HasSymbol.lookup (hb : Built n c) (h : Room c L) {t : Table} (ht : Sound n c L t) {w : HSeq} (hw : HasSymbol c t w) : (t.lookup (env c) w).1.isSome := by
  obtain ⟨e, h1, h2⟩ := hw
  obtain ⟨i, hi⟩ := List.mem_iff_getElem?.mp h1
  have hf := ht.found hb h hi h2
  unfold shown at hf
  unfold Table.lookup
  cases hx : t.find w.hash with
  | some r => rfl
  | none =>
    split at hf
    · rename_i ha
      rw [ha]
      simp only [if_true]
      split
      · rw [hf]; rfl
      · rename_i hne
        simp only [bne_iff_ne, ne_eq, not_not] at hne
        rw [← hne, hf] at hx
        cases hx
    · rw [hx] at hf; cases hf

/-- Moment matrices and localizing matrices. -/
theorem shows_create (hb : Built n c) (h : Room c L) {t : Table} (ht : Sound n c L t) {k : Nat} {m : List Op} (hm : ∀ a ∈ m, Exists n c.infl a)
    (hn : 2 * k + m.length ≤ L) {f : HSeq → HSeq → HSeq} (hf : C114.Middle n c m f) :
    ∃ t' M, createMatrix (host c) t f (level c k) = some (t', some M) ∧ Sound n c L t' ∧ t.syms <+: t'.syms ∧
      Shows n c k t' (.mono M) (fun _ _ _ P => (m.map P).prod) ∧ M.sym.hermitian = true ∧ HasSymbol c t' (stored n c m) := by
  obtain ⟨hl, hr, hnil, hat⟩ := rows_spec (k := k) hb h (by omega)
  have hw : ∀ u ∈ rows n c k, (∀ a ∈ u, Exists n c.infl a) ∧ 2 * u.length + m.length ≤ L := fun u hu => ⟨(hr u hu).1, by have := (hr u hu).2; omega⟩
  obtain ⟨t', M, h1, h2, h3, -, ⟨h4, h6⟩, h5⟩ := C114.matrix_spec hb h hm hf hw ht.ready
  obtain ⟨-, -, hu⟩ := C114.used_words hb h hm hf hw
  obtain ⟨t1, M1, g1, g2⟩ := create_spec (setting hb h) (ht.ready.fit (setting hb h)) 1 hu
  have e : some (t1, some M1) = some (t', some M) := g1.symm.trans h1
  simp only [Option.some.injEq, Prod.mk.injEq] at e
  obtain ⟨rfl, rfl⟩ := e
  have hs := ht.matrix hb h hm hf hw h1
  rw [hl]
  refine ⟨t1, M1, h1, hs, h4.syms, ⟨?_, ⟨g2.stands.square, g2.stands.known⟩, ?_⟩, h3, ?_⟩
  · exact h2.trans (List.length_map _)
  · intro A _ _ _ _ P φ v hP hs hφ hx hv i j x y a b hi hj ha hb'
    have ia := hat i x a hi ha
    have ib := hat j y b hj hb'
    refine (h5 _ v (moments hb h hP hs hφ).1 (fun u hu => moment_shown hb h hP hx hu) hv i j a b ia ib).trans ?_
    rw [moment_stored hb h hP φ (C114.word_in hm hw a (List.mem_of_getElem? ia) b (List.mem_of_getElem? ib)), star_prod hP hs]
    simp only [List.map_append, List.prod_append, mul_assoc]
  · have := h6 [] hnil [] hnil
    rw [List.nil_append, List.append_nil] at this
    obtain ⟨i, hi⟩ := Option.isSome_iff_exists.mp this
    obtain ⟨v, hv, ev, -⟩ := canon_shown hb h (u := m) ⟨hm, by omega⟩
    rw [ev] at hi
    obtain ⟨e, he, hse⟩ := hs.holds hb h hv (k := (i.natAbs, decide (i < 0))) (by unfold Table.find; rw [hi]; rfl)
    exact ⟨e, List.mem_of_getElem? he, by rw [hse, ev]⟩

/-! ## Promises -/

/-- States of inflation systems; with `strict`, the factor table has an entry for every symbol. -/
structure Ok (n : Causal) (c : Inflation.Ctx) (L : Nat) (strict : Prop) (S : State) : Prop where
  sound : Sound n c L S.table
  factored : Factored n c L S
  complete : strict → Complete S

/-- Symbols and entries of the factor table stay. -/
def Later (S S' : State) : Prop := S.table.syms <+: S'.table.syms ∧ S.factors <+: S'.factors

theorem ok_new {strict : Prop} : Ok n c L strict ⟨Table.new, [[0], [1]]⟩ := by
  refine ⟨.new, ⟨Nat.le_refl _, fun i l hl => ?_⟩, fun _ => rfl⟩
  match i with
  | 0 =>
    simp only [List.getElem?_cons_zero, Option.some.injEq] at hl
    subst hl
    exact ⟨.inl ⟨⟨_, rfl, rfl⟩, rfl⟩, by simp⟩
  | 1 =>
    simp only [List.getElem?_cons_succ, List.getElem?_cons_zero, Option.some.injEq] at hl
    subst hl
    obtain ⟨u, hu, e, hs⟩ := canon_one (n := n) (c := c) (L := L)
    refine ⟨.inr ⟨[[]], [1], ⟨_, rfl, rfl⟩, ⟨by simp, by simp⟩, by simp, ?_, List.Perm.refl _, .cons ⟨_, rfl, ?_⟩ .nil⟩, by simp⟩
    · intro g hg
      rw [List.mem_singleton.mp hg]
      intro p q hpq hp
      have := hpq.length_eq
      simp only [List.length_append, List.length_nil, Nat.add_eq_zero_iff, List.length_eq_zero_iff] at this
      exact absurd this.1 hp
    · rw [stored_nil, hs]
      rfl
  | i + 2 => simp at hl

theorem Ok.grow {strict : Prop} (hb : Built n c) (h : Room c L) {S : State} (hS : Ok n c L strict S) {t : Table} (ht : Sound n c L t) (hp : S.table.syms <+: t.syms) :
    ∃ S', S.grow c t = some S' ∧ Ok n c L strict S' ∧ Later S S' ∧ t.syms <+: S'.table.syms := by
  obtain ⟨S', h1, h2, h3, h4, h5, h6⟩ := grow_spec hb h hS.factored ht hp
  exact ⟨S', h1, ⟨h2, h5, fun hs => h6 (hS.complete hs)⟩, ⟨hp.trans h3, h4⟩, h3⟩

theorem make_spec {strict : Prop} (hb : Built n c) (h : Room c L) {S : State} (hS : Ok n c L strict S) {k : Nat} {m : List Op} (hm : ∀ a ∈ m, Exists n c.infl a)
    (hn : 2 * k + m.length ≤ L) {f : HSeq → HSeq → HSeq} (hf : C114.Middle n c m f) :
    ∃ S' M, make c S f k = some (S', some M) ∧ Ok n c L strict S' ∧ Later S S' ∧
      Shows n c k S'.table M (fun _ _ _ P => (m.map P).prod) ∧ M.hermitian = true ∧ HasSymbol c S'.table (stored n c m) := by
  obtain ⟨t', M, h1, h2, h3, h4, h5, h6⟩ := shows_create hb h hS.sound hm hn hf
  obtain ⟨S', g1, g2, g3, g4⟩ := hS.grow hb h h2 h3
  refine ⟨S', .mono M, ?_, g2, g3, h4.stays g4 fun _ _ _ _ _ _ _ _ => rfl, h5, h6.stays g4⟩
  unfold make
  rw [h1, Option.bind_some]
  dsimp only
  rw [g1]
  rfl

/-- What is allowed: levels and words short enough for the hashes to be unique. Matrices for substituted symbols are left out; with `strict`, so are
polynomials in operators where there are no aliases. -/
def Legal {B : Type} (n : Causal) (c : Inflation.Ctx) (L : Nat) (strict : Prop) (S : State) : MatrixSystem.Op HSeq (List Mono) Raw B → Prop
  | .request (.moment k) => 2 * k ≤ L
  | .request (.localizing k w) => 2 * k ≤ L ∧ ∃ u, Word n c (L - 2 * k) u ∧ w = stored n c u
  | .request (.poly k p) => 2 * k ≤ L ∧ ∀ m ∈ p, Short n c (L - 2 * k) S.table m
  | .request (.subst _ _) => False
  | .raw k q => 2 * k ≤ L ∧ (∀ e ∈ q, ∃ u, Word n c (L - 2 * k) u ∧ e.1 = stored n c u) ∧ (strict → canHaveAliases c = true)
  | .dictionary k => k ≤ L
  | _ => True

/-- What a matrix shows, for each index. -/
def Right (n : Causal) (c : Inflation.Ctx) (t : Table) : Index HSeq (List Mono) → Matrix → Prop
  | .moment k, M => Shows n c k t M (fun _ _ _ _ => 1) ∧ M.hermitian = true
  | .localizing k w, M => Shows n c k t M (fun _ _ _ P => op n c P w) ∧ M.hermitian = true ∧ HasSymbol c t w
  | .poly k p, M => (∀ m ∈ p, m.id < t.syms.length) ∧ Shows n c k t M (fun _ _ _ P => polyOp n c t P p)
  | .subst _ _, _ => True

/-- The terms of the contract. -/
def terms (B : Type) (n : Causal) (c : Inflation.Ctx) (L : Nat) (strict : Prop) : Terms State HSeq (List Mono) Raw B Matrix where
  ok := Ok n c L strict
  le := Later
  legal := Legal n c L strict
  good S := Right n c S.table
  goodRaw S k q M := Shows n c k S.table M (fun _ _ _ P => total (op n c P) q)
  safe := True

theorem sum_shows {k : Nat} {t : Table} {A : Type} [Ring A] [Algebra ℂ A] [StarRing A] [StarModule ℂ A] {P : Op → A} {φ : A →ₗ[ℂ] ℂ} {v : Nat → ℂ}
    (hP : Represents n P) (hs : ∀ a, star (P a) = P a) (hφ : ∀ a, φ (star a) = (starRingEnd ℂ) (φ a)) (hx : Exchangeable n c.infl P φ)
    (hv : Agrees t (moment n c P φ) v) {i j : Nat}
    {x y : List Nat} {a b : List Op} (hi : (generate c k)[i]? = some x) (hj : (generate c k)[j]? = some y) (ha : C12.Names n c a x) (hb : C12.Names n c b y) :
    ∀ (q : Raw) (l : List Matrix), List.Forall₂ (fun (M : Matrix) (e : HSeq × ℂ) => Shows n c k t M (fun _ _ _ P => op n c P e.1)) l q →
      (((l.zip (q.map Prod.snd)).map fun x => (x.1.part, x.2)).map fun q => q.2 * MatrixSum.entryAt v q.1 i j).sum =
        φ (star (a.map P).prod * total (op n c P) q * (b.map P).prod)
  | [], [], _ => by simp [total]
  | e :: q, M :: l, .cons hM hl => by
    have ih := sum_shows hP hs hφ hx hv hi hj ha hb q l hl
    have := hM.value A P φ v hP hs hφ hx hv i j x y a b hi hj ha hb
    simp only [List.map_cons, List.zip_cons_cons, List.sum_cons, ih, this]
    rw [RawPoly.total_cons, mul_add, add_mul, map_add, mul_smul_comm, smul_mul_assoc, map_smul, smul_eq_mul]

theorem sum_spec {k : Nat} {S : State} {l : List Matrix} {q : Raw}
    (hl : List.Forall₂ (fun (M : Matrix) (e : HSeq × ℂ) => Shows n c k S.table M (fun _ _ _ P => op n c P e.1)) l q) :
    ∃ M, sum c S k l (q.map Prod.snd) = some (S, some M) ∧ Shows n c k S.table M (fun _ _ _ P => total (op n c P) q) := by
  have each : ∀ M ∈ l, M.part.dim = (generate c k).length ∧ MatrixSum.Good S.table M.part := by
    intro M hM
    obtain ⟨i, hi⟩ := List.mem_iff_getElem?.mp hM
    obtain ⟨hlt, hg⟩ := List.getElem?_eq_some_iff.mp hi
    have := (List.forall₂_iff_get.mp hl).2 i hlt (hl.length_eq ▸ hlt)
    rw [show l.get ⟨i, hlt⟩ = M by simpa using hg] at this
    exact ⟨this.dim, this.known⟩
  have hd : (l.head?).elim (level c k).length (fun M => M.part.dim) = (generate c k).length := by
    cases l with
    | nil => exact level_length c k
    | cons M l => exact (each M List.mem_cons_self).1
  obtain ⟨R, s1, s2, -, s3, s4⟩ := C72.C72_composite (t := S.table) byId
    (c := ⟨(l.head?).elim (level c k).length fun M => M.part.dim, (l.zip (q.map Prod.snd)).map fun x => (x.1.part, x.2)⟩) (by
    intro p hp
    obtain ⟨x, hx, rfl⟩ := List.mem_map.mp hp
    obtain ⟨a, b⟩ := each x.1 (List.of_mem_zip hx).1
    exact ⟨b, a.trans hd.symm⟩)
  refine ⟨.poly R, by simp only [sum, s1]; rfl, s2.trans hd, s3, fun A _ _ _ _ P φ v hP hs hφ hx hv i j x y a b hi hj ha hb => ?_⟩
  rw [← sum_shows hP hs hφ hx hv hi hj ha hb q l hl]
  exact s4 v hv.flags i j (hd ▸ (List.getElem?_eq_some_iff.mp hi).1) (hd ▸ (List.getElem?_eq_some_iff.mp hj).1)

theorem byId_rank : Function.Injective byId.rank := Function.injective_id

section
variable {B : Type} {skip : State → Nat → Bool} {substitute : State → B → Matrix → Option (State × Option Matrix)} {merge : B → B → B × Bool} {strict : Prop}

theorem ordered : Ordered (maker c skip substitute merge) where
  refl p := ((PolyOrder.less_eq byId_rank p p).mpr rfl).1
  trans p q r h1 h2 h3 h4 := by
    obtain rfl := (PolyOrder.less_eq byId_rank p q).mp ⟨h1, h2⟩
    exact ⟨h3, h4⟩

/-- The words of a polynomial in symbols, with their factors. -/
noncomputable def rawOf (t : Table) (p : List Mono) : Raw := p.map fun m => ((termWord t m).getD HSeq.zero, m.factor)

theorem total_rawOf (t : Table) {A : Type} [Ring A] [Algebra ℂ A] (P : Op → A) (p : List Mono) : total (op n c P) (rawOf t p) = polyOp n c t P p := by
  unfold total polyOp rawOf
  rw [List.map_map]
  rfl

theorem contract (hb : Built n c) (h : Room c L) : Contract (maker c skip substitute merge) (terms B n c L strict) where
  refl _ := ⟨List.prefix_rfl, List.prefix_rfl⟩
  trans _ _ _ h1 h2 := ⟨h1.1.trans h2.1, h1.2.trans h2.2⟩
  legal S S' x ht hx := by
    rcases x with (_ | _ | _ | _) | _ | _ | _ | _ | _
    case request.poly n p => exact ⟨hx.1, fun m hm => (hx.2 m hm).stays ht.1⟩
    all_goals exact hx
  stays S S' i M ht hM := by
    cases i with
    | moment n => exact ⟨hM.1.stays ht.1 fun _ _ _ _ _ _ _ _ => rfl, hM.2⟩
    | localizing n w => exact ⟨hM.1.stays ht.1 fun _ _ _ _ _ _ _ _ => rfl, hM.2.1, hM.2.2.stays ht.1⟩
    | poly n p =>
      refine ⟨fun m hm => (hM.1 m hm).trans_le ht.1.length_le, hM.2.stays ht.1 fun A _ _ _ _ P _ _ => ?_⟩
      rw [polyOp_stays ht.1 P hM.1]
    | subst a b => trivial
  same S i j M ht hs hi hj hM := by
    cases i <;> cases j <;> try exact hs.elim
    case moment.moment n n' => obtain rfl := hs; exact hM
    case localizing.localizing n w n' w' =>
      obtain ⟨rfl, hh⟩ := hs
      obtain ⟨hn, u, hu, rfl⟩ := hi
      obtain ⟨-, u', hu', rfl⟩ := hj
      have e := stored_hash hb h ⟨hu.1, hu.2.trans (Nat.sub_le _ _)⟩ ⟨hu'.1, hu'.2.trans (Nat.sub_le _ _)⟩ hh
      rw [← e]
      exact hM
    case poly.poly n p n' p' =>
      obtain ⟨rfl, h1, h2⟩ := hs
      obtain rfl := (PolyOrder.less_eq byId_rank p p').mp ⟨h1, h2⟩
      exact hM
    case subst.subst => trivial
  moment S k ht hl := by
    obtain ⟨S', M, h1, h2, h3, h4, h5, -⟩ := make_spec hb h ht (m := []) (k := k) (by simp) (by have hl : 2 * k ≤ L := hl; simpa using hl)
      (f := momentFn (host c)) (.inl ⟨rfl, rfl⟩)
    refine ⟨S', some M, h1, h2, h3, fun _ => rfl, fun m e => ?_⟩
    rw [Option.some.injEq] at e
    subst e
    exact ⟨h4.stays List.prefix_rfl fun _ _ _ _ _ _ _ _ => rfl, h5⟩
  localizing S k w ht hl := by
    obtain ⟨hn, u, hu, rfl⟩ := hl
    have hl := hu.2
    have huL : Word n c L u := ⟨hu.1, by omega⟩
    obtain ⟨S', M, h1, h2, h3, h4, h5, h6⟩ := make_spec hb h ht (m := u) (k := k) hu.1 (by omega) (f := localizingFn (host c) (stored n c u)) (.inr rfl)
    refine ⟨S', some M, h1, h2, h3, fun _ => rfl, fun m e => ?_⟩
    rw [Option.some.injEq] at e
    subst e
    exact ⟨h4.stays List.prefix_rfl fun A _ _ _ _ P hP _ => (op_stored hb h huL hP).symm, h5, h6⟩
  word S k p i ht hl hi := by
    obtain ⟨hn, hp⟩ := hl
    have hi' : i < p.length := hi
    have hm := hp _ (List.getElem_mem hi')
    obtain ⟨u, hu, hw⟩ := ht.sound.short hm
    refine ⟨stored n c u, ?_, ⟨hn, u, hu, rfl⟩, fun S' htt => ?_⟩
    · simp [maker, List.getElem?_eq_getElem hi', hw]
    · simp [maker, List.getElem?_eq_getElem hi', termWord_stays htt.1 hm.lt, hw]
  compose S k p l ht hl hlen hg := by
    obtain ⟨hn, hp⟩ := hl
    have hlen : l.length = p.length := hlen
    have hall : List.Forall₂ (fun (M : Matrix) (e : HSeq × ℂ) => Shows n c k S.table M (fun _ _ _ P => op n c P e.1)) l (rawOf S.table p) := by
      refine List.forall₂_iff_get.mpr ⟨by simp [rawOf, hlen], fun i h1 h2 => ?_⟩
      have hi : i < p.length := hlen ▸ h1
      obtain ⟨u, hu, hw⟩ := ht.sound.short (hp _ (List.getElem_mem hi))
      have := (hg i (stored n c u) l[i] (by simp [maker, List.getElem?_eq_getElem hi, hw]) (List.getElem?_eq_getElem h1)).1
      simpa [rawOf, hw] using this
    obtain ⟨M, g1, g2⟩ := sum_spec hall
    have hf : (rawOf S.table p).map Prod.snd = p.map Mono.factor := by
      unfold rawOf
      rw [List.map_map]
      rfl
    rw [hf] at g1
    refine ⟨S, some M, g1, ht, ⟨List.prefix_rfl, List.prefix_rfl⟩, fun _ => rfl, fun m e => ?_⟩
    rw [Option.some.injEq] at e
    subst e
    exact ⟨fun m hm => (hp m hm).lt, g2.stays List.prefix_rfl fun A _ _ _ _ P _ _ => total_rawOf _ P p⟩
  register ha S k q ht hl := by
    obtain ⟨hn, hq, hst⟩ := hl
    have hy : canHaveAliases c = false := ha
    obtain ⟨t', l, h1, h2, h3, h4, h5⟩ := register_op hb h hy (Nat.sub_le L (2 * k)) ht.sound hq
    have hno : ¬ strict := fun hs => by
      have := hst hs
      rw [hy] at this
      cases this
    refine ⟨⟨t', S.factors⟩, Poly.make (MatrixBasis.polyTable t') byId l, by simp only [maker, h1]; rfl, ⟨h2, ⟨?_, ?_⟩, fun hs => absurd hs hno⟩, ⟨h3, List.prefix_rfl⟩,
      ⟨hn, h4⟩, fun S'' M htt hM => ?_⟩
    · exact ht.factored.short.trans h3.length_le
    · exact fun i l hl => ⟨(ht.factored.right i l hl).1.stays h3, (ht.factored.right i l hl).2⟩
    · refine hM.2.stays List.prefix_rfl fun A _ _ _ _ P hP hs => ?_
      rw [← h5 A P hP hs, polyOp_stays htt.1 P fun m hm => (h4 m hm).lt]
  rawWords _ S k q ht hl w hw := by
    obtain ⟨hn, hq, -⟩ := hl
    obtain ⟨e, he, rfl⟩ := List.mem_map.mp hw
    exact ⟨hn, hq e he⟩
  composeRaw ha S k q l ht hl hlen hg := by
    have hlen : l.length = q.length := by simpa [maker] using hlen
    have hgood : ∀ (i : Nat) (h1 : i < l.length) (h2 : i < q.length), Right n c S.table (.localizing k q[i].1) l[i] := fun i h1 h2 =>
      hg i q[i].1 l[i] (by simp [maker, List.getElem?_eq_getElem h2]) (List.getElem?_eq_getElem h1)
    obtain ⟨M, g1, g2⟩ := sum_spec (n := n) (S := S) (k := k) (l := l) (q := q) (c := c) (List.forall₂_iff_get.mpr ⟨hlen, fun i h1 h2 => (hgood i h1 h2).1⟩)
    obtain ⟨-, hq, -⟩ := hl
    have hc : (RawPoly.construct (env c) S.table byId q).isSome := by
      refine (C71.C71_construct (setting hb h) ht.sound.ready byId (fun e he => ?_)).1.mpr fun e he => ?_
      · obtain ⟨u, hu, e'⟩ := hq e he
        exact ⟨e' ▸ stored_seq hb ⟨hu.1, hu.2.trans (Nat.sub_le _ _)⟩, e' ▸ stored_sign u⟩
      · obtain ⟨i, hi⟩ := List.mem_iff_getElem?.mp he
        obtain ⟨h2, hi⟩ := List.getElem?_eq_some_iff.mp hi
        have := (hgood i (hlen ▸ h2) h2).2.2
        rw [hi] at this
        exact this.lookup hb h ht.sound
    refine ⟨S, some M, ?_, ht, ⟨List.prefix_rfl, List.prefix_rfl⟩, fun _ => rfl, fun m e => ?_⟩
    · obtain ⟨p, hp⟩ := Option.isSome_iff_exists.mp hc
      simp only [maker, sumRaw, hp]
      exact g1
    · rw [Option.some.injEq] at e
      subst e
      exact g2
  substitute t a b r m _ hl := hl.elim
  fill S k ht hl := by
    have hn : k ≤ L := hl
    obtain ⟨hr1, hr2, -⟩ := rows_spec (k := k) hb h hn
    simp only [maker]
    split
    · exact ⟨S, _, rfl, ht, List.prefix_rfl, List.prefix_rfl⟩
    · obtain ⟨t', j, h1, h2, h3⟩ := ht.sound.fill hb h (us := rows n c k) fun u hu => ⟨(hr2 u hu).1, (hr2 u hu).2.trans hn⟩
      obtain ⟨S', g1, g2, g3, -⟩ := ht.grow hb h h2 h3
      rw [hr1, h1, Option.bind_some]
      dsimp only
      rw [g1]
      exact ⟨S', _, rfl, g2, g3⟩

end

end Moment.InflationSystem
