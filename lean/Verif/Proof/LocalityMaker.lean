import Verif.Proof.LocalitySystem

/-! # What the functions of locality systems promise -/

namespace Moment.LocalitySystem
open Moment.Symbols (Sym Table Env)
open Moment.SymbolMatrix Moment.OperatorMatrix Moment.Locality
open Moment.C98 (stored stored_same stored_seq stored_sign stored_inj conj_stored op_stored Word Middle)
open Moment.Poly (Mono)
open Moment.RawPoly (Raw total)
open Moment.MatrixSystem (Index Maker Terms Fulfils Contract Ordered Same)

/-! ## Registered words -/

theorem lookup_seq {s : Scenario} {L K : Nat} (h : Room s L) (hK : K ≤ L) {t : Table} (ht : Sound s L t) {u : List Op} (hu : Word s K u) {k : Nat × Bool}
    (hk : (t.lookup (env s) (stored s u)).1 = some k) : ∃ e u', t.syms[k.1]? = some e ∧ e.seq = some (stored s u') ∧ Word s K u' := by
  have hf : t.find (stored s u).hash = some k := by
    unfold Table.lookup at hk
    cases hf : t.find (stored s u).hash with
    | some r => simpa [hf] using hk
    | none => simp [hf, env] at hk
  unfold Table.find at hf
  obtain ⟨i, hi, rfl⟩ := Option.map_eq_some_iff.mp hf
  obtain ⟨q, cq, h1, -, h2, h3⟩ := (ht.ready.fit (setting s L h)).inv.sound _ i hi
  rw [Table.keys, List.getElem?_map, Option.map_eq_some_iff] at h1
  obtain ⟨e, he, hkey⟩ := h1
  have hseq : e.seq = some q := by
    simp only [Sym.key, Prod.mk.injEq] at hkey
    exact hkey.2.1
  have huL : Word s L u := ⟨hu.1, hu.2.trans hK⟩
  refine ⟨e, ?_⟩
  rcases ht.kept e (List.mem_of_getElem? he) with ⟨z, -⟩ | ⟨x, hx, hxs, -⟩
  · rw [hseq, Option.some.injEq] at z
    subst z
    by_cases hp : 0 ≤ i
    · exact ⟨u, he, by rw [hseq, stored_zero h huL (h2 hp).symm], hu⟩
    · obtain ⟨a, b⟩ := h3 (by omega)
      rw [show (host s).env.conj HSeq.zero = _ from conj_zero rfl] at a
      exact absurd a b
  · rw [hseq, Option.some.injEq] at hxs
    subst hxs
    by_cases hp : 0 ≤ i
    · exact ⟨u, he, by rw [hseq, stored_same (stored_inj h hx huL (h2 hp))], hu⟩
    · obtain ⟨a, -⟩ := h3 (by omega)
      rw [show (host s).env.conj (stored s x) = _ from conj_stored h hx] at a
      have := (stored_inj h (word_reverse hx) huL a).reverse
      simp only [Option.map_some, List.reverse_reverse] at this
      exact ⟨u.reverse, he, by rw [hseq, stored_same this], word_reverse hu⟩

/-- The symbol of the term has a short word. -/
def Short (s : Scenario) (K : Nat) (t : Table) (m : Mono) : Prop := ∃ e u, t.syms[m.id]? = some e ∧ e.seq = some (stored s u) ∧ Word s K u

theorem Short.stays {s : Scenario} {K : Nat} {t t' : Table} {m : Mono} (h : Short s K t m) (ht : t.syms <+: t'.syms) : Short s K t' m := by
  obtain ⟨e, u, h1, h2, h3⟩ := h
  exact ⟨e, u, get_prefix ht h1, h2, h3⟩

theorem register_sound {s : Scenario} {L K : Nat} (h : Room s L) (hK : K ≤ L) : ∀ {q : Raw} {t : Table}, Sound s L t →
    (∀ e ∈ q, ∃ u, Word s K u ∧ e.1 = stored s u) →
    ∃ t' l, RawPoly.registerStorage (env s) t q = some (t', l) ∧ Sound s L t' ∧ t.syms <+: t'.syms ∧ ∀ m ∈ l, Short s K t' m
  | [], t, ht, _ => ⟨t, [], rfl, ht, List.prefix_rfl, by simp⟩
  | e :: q, t, ht, hq => by
    obtain ⟨u, hu, he⟩ := hq e List.mem_cons_self
    have hq' := fun x hx => hq x (List.mem_cons_of_mem _ hx)
    have huL : Word s L u := ⟨hu.1, hu.2.trans hK⟩
    unfold RawPoly.registerStorage
    cases hk : (t.lookup (env s) e.1).1 with
    | some k =>
      obtain ⟨t', l, h1, h2, h3, h4⟩ := register_sound h hK ht hq'
      refine ⟨t', ⟨k.1, k.2, e.2⟩ :: l, by simp [h1], h2, h3, List.forall_mem_cons.mpr ⟨?_, h4⟩⟩
      rw [he] at hk
      exact Short.stays (m := ⟨k.1, k.2, e.2⟩) (lookup_seq h hK ht hu hk) h3
    | none =>
      obtain ⟨m, m1, m2, m3, m4⟩ := C71.lookup_after (setting s L h) ht.ready (w := e.1) (by rw [he]; exact stored_sign s u) (by
        rw [show (host s).env.aliases = false from rfl, if_neg (by simp), he]
        exact stored_seq huL)
      obtain ⟨k, hk'⟩ := Option.isSome_iff_exists.mp m4
      have ms : Sound s L m.1 := ht.seq h huL (he ▸ m1) m2
      obtain ⟨t', l, h1, h2, h3, h4⟩ := register_sound h hK ms hq'
      refine ⟨t', ⟨k.1, k.2, e.2⟩ :: l, ?_, h2, m3.trans h3, List.forall_mem_cons.mpr ⟨?_, h4⟩⟩
      · rw [show t.mergeSeq (env s) e.1 = some m from m1, Option.bind_some, show (m.1.lookup (env s) e.1).1 = some k from hk', Option.bind_some, h1]
        rfl
      · rw [he] at hk'
        exact Short.stays (m := ⟨k.1, k.2, e.2⟩) (lookup_seq h hK ms hu hk') h3

/-! ## Polynomials -/

theorem termWord_stays {t t' : Table} (h : t.syms <+: t'.syms) {m : Mono} (hm : m.id < t.syms.length) : termWord t' m = termWord t m := by
  unfold termWord
  rw [get_prefix h (List.getElem?_eq_getElem hm), List.getElem?_eq_getElem hm]

theorem polyOp_stays {s : Scenario} {t t' : Table} (h : t.syms <+: t'.syms) {A : Type} [Ring A] [Algebra ℂ A] (P : Op → A) {p : List Mono}
    (hp : ∀ m ∈ p, m.id < t.syms.length) : polyOp s t' P p = polyOp s t P p := by
  unfold polyOp
  congr 1
  exact List.map_congr_left fun m hm => by rw [termWord_stays h (hp m hm)]

theorem Short.lt {s : Scenario} {K : Nat} {t : Table} {m : Mono} (h : Short s K t m) : m.id < t.syms.length := by
  obtain ⟨e, u, h1, -⟩ := h
  exact (List.getElem?_eq_some_iff.mp h1).1

/-- The word of a term is short. -/
theorem Sound.short {s : Scenario} {L K : Nat} (h : Room s L) (hK : K ≤ L) {t : Table} (ht : Sound s L t) {m : Mono} (hm : Short s K t m) :
    ∃ u, Word s K u ∧ termWord t m = some (stored s u) := by
  obtain ⟨w, h1, h2, -⟩ := ht.term (A := ℂ) h hm.lt
  obtain ⟨e, u, he, hs, hu⟩ := hm
  rcases h2 u ⟨hu.1, hu.2.trans hK⟩ e he hs with rfl | rfl
  · exact ⟨u, hu, h1⟩
  · exact ⟨u.reverse, word_reverse hu, h1⟩

/-- The polynomial that is registered for a raw polynomial stands for the same element. -/
theorem register_op {s : Scenario} {L K : Nat} (h : Room s L) (hK : K ≤ L) {q : Raw} {t : Table} (ht : Sound s L t)
    (hq : ∀ e ∈ q, ∃ u, Word s K u ∧ e.1 = stored s u) (o : Table → Poly.Order) :
    ∃ t' p, ((RawPoly.registerStorage (env s) t q).map fun x => (x.1, Poly.make (MatrixBasis.polyTable x.1) (o x.1) x.2)) = some (t', p) ∧ Sound s L t' ∧
      t.syms <+: t'.syms ∧ (∀ m ∈ p, Short s K t' m) ∧
      ∀ (A : Type) [Ring A] [Algebra ℂ A] [StarRing A] [StarModule ℂ A] (P : Op → A), Represents P → (∀ a, star (P a) = P a) →
        polyOp s t' P p = total (op s P) q := by
  obtain ⟨t', l, h1, h2, h3, h4⟩ := register_sound h hK ht hq
  obtain ⟨t1, l1, g1, -, -, -, g2⟩ := C71.registerStorage_spec (setting s L h) (r := q) ht.ready (fun e he => by
    obtain ⟨u, hu, e'⟩ := hq e he
    exact ⟨e' ▸ stored_seq ⟨hu.1, hu.2.trans hK⟩, e' ▸ stored_sign s u⟩) (fun ha => by simp [host, env] at ha)
  have e : some (t1, l1) = some (t', l) := g1.symm.trans h1
  simp only [Option.some.injEq, Prod.mk.injEq] at e
  obtain ⟨rfl, rfl⟩ := e
  have hp : ∀ m ∈ Poly.make (MatrixBasis.polyTable t1) (o t1) l1, Short s K t1 m := by
    intro m hm
    obtain ⟨y, hy, e⟩ := Poly.make_ids hm
    obtain ⟨x, u, a, b⟩ := h4 y hy
    exact ⟨x, u, e ▸ a, b⟩
  refine ⟨t1, _, by rw [h1]; rfl, h2, h3, hp, fun A _ _ _ _ P hP hs => ?_⟩
  refine separate fun φ hφ => ?_
  obtain ⟨v, hv⟩ := h2.values h hP hs hφ
  have a1 := h2.poly h hP hs hφ hv (fun m hm => (hp m hm).lt)
  rw [← a1, Poly.make_value hv.flags, g2 _ v (moments h hP hs hφ) (fun ha => by simp [host, env] at ha) hv]
  clear a1 hv g1 g2 h1 hp hq
  induction q with
  | nil => simp
  | cons x q ih => rw [RawPoly.total_cons, RawPoly.total_cons, ih, map_add, map_smul, moment_op]

/-! ## Promises -/

/-- What is allowed: levels and words short enough for the hashes to be unique. Matrices for substituted symbols are left out. -/
def Legal {B : Type} (s : Scenario) (L : Nat) (t : Table) : MatrixSystem.Op HSeq (List Mono) Raw B → Prop
  | .request (.moment n) => 2 * n ≤ L
  | .request (.localizing n w) => 2 * n ≤ L ∧ ∃ u, Word s (L - 2 * n) u ∧ w = stored s u
  | .request (.poly n p) => 2 * n ≤ L ∧ ∀ m ∈ p, Short s (L - 2 * n) t m
  | .request (.subst _ _) => False
  | .raw n q => 2 * n ≤ L ∧ ∀ e ∈ q, ∃ u, Word s (L - 2 * n) u ∧ e.1 = stored s u
  | .dictionary n => n ≤ L
  | _ => True

/-- What a matrix shows, for each index. -/
def Right (s : Scenario) (t : Table) : Index HSeq (List Mono) → Matrix → Prop
  | .moment n, M => Shows s n t M (fun _ _ _ _ => 1) ∧ M.hermitian = true
  | .localizing n w, M => Shows s n t M (fun _ _ _ P => op s P w) ∧ ((env s).conj w = w → M.hermitian = true)
  | .poly n p, M => (∀ m ∈ p, m.id < t.syms.length) ∧ Shows s n t M (fun _ _ _ P => polyOp s t P p)
  | .subst _ _, _ => True

/-- The terms of the contract. -/
def terms (B : Type) (s : Scenario) (L : Nat) : Terms Table HSeq (List Mono) Raw B Matrix where
  ok := Sound s L
  le t t' := t.syms <+: t'.syms
  legal := Legal s L
  good := Right s
  goodRaw t n q M := Shows s n t M (fun _ _ _ P => total (op s P) q)
  safe := True

theorem sum_shows {s : Scenario} {n : Nat} {t : Table} {A : Type} [Ring A] [Algebra ℂ A] [StarRing A] [StarModule ℂ A] {P : Op → A} {φ : A →ₗ[ℂ] ℂ} {v : Nat → ℂ}
    (hP : Represents P) (hs : ∀ a, star (P a) = P a) (hφ : ∀ a, φ (star a) = (starRingEnd ℂ) (φ a)) (hv : Agrees t (moment s P φ) v) {i j : Nat}
    {x y : List Nat} {a b : List Op} (hi : (generate s n)[i]? = some x) (hj : (generate s n)[j]? = some y) (ha : C10.Names s a x) (hb : C10.Names s b y) :
    ∀ (p : List Mono) (l : List Matrix), l.length = p.length → (∀ m ∈ p, (termWord t m).isSome) →
      (∀ (k : Nat) w M, (p[k]?).bind (termWord t) = some w → l[k]? = some M → Shows s n t M (fun _ _ _ P => op s P w)) →
      (((l.zip p).map fun x => (x.1.part, x.2.factor)).map fun q => q.2 * MatrixSum.entryAt v q.1 i j).sum =
        φ (star (a.map P).prod * polyOp s t P p * (b.map P).prod)
  | [], [], _, _, _ => by simp [polyOp]
  | m :: p, M :: l, hl, hw, hg => by
    have ih := sum_shows hP hs hφ hv hi hj ha hb p l (by simpa using hl) (fun m hm => hw m (List.mem_cons_of_mem _ hm)) fun k w M h1 h2 =>
      hg (k + 1) w M (by simpa using h1) (by simpa using h2)
    obtain ⟨w, hw'⟩ := Option.isSome_iff_exists.mp (hw m List.mem_cons_self)
    have := (hg 0 w M (by simpa using hw') rfl).value A P φ v hP hs hφ hv i j x y a b hi hj ha hb
    simp only [List.zip_cons_cons, List.map_cons, List.sum_cons, ih, this]
    rw [show polyOp s t P (m :: p) = m.factor • op s P w + polyOp s t P p by simp [polyOp, hw'], mul_add, add_mul, map_add, mul_smul_comm, smul_mul_assoc,
      map_smul, smul_eq_mul]
  | [], _ :: _, hl, _, _ => by simp at hl
  | _ :: _, [], hl, _, _ => by simp at hl

theorem ordered {B : Type} {s : Scenario} {ord : Table → Poly.Order} {rank : Poly.Order} (hr : Function.Injective rank.rank) {skip : Table → Nat → Bool}
    {substitute : Table → B → Matrix → Option (Table × Option Matrix)} {merge : B → B → B × Bool} :
    Ordered (maker s ord rank skip substitute merge) where
  refl p := ((PolyOrder.less_eq hr p p).mpr rfl).1
  trans p q r h1 h2 h3 h4 := by
    obtain rfl := (PolyOrder.less_eq hr p q).mp ⟨h1, h2⟩
    exact ⟨h3, h4⟩

theorem contract {B : Type} {s : Scenario} {L : Nat} (h : Room s L) {ord : Table → Poly.Order} {rank : Poly.Order} (hr : Function.Injective rank.rank)
    {skip : Table → Nat → Bool} {substitute : Table → B → Matrix → Option (Table × Option Matrix)} {merge : B → B → B × Bool} :
    Contract (maker s ord rank skip substitute merge) (terms B s L) where
  refl _ := List.prefix_rfl
  trans _ _ _ := List.IsPrefix.trans
  legal t t' x ht hx := by
    rcases x with (_ | _ | _ | _) | _ | _ | _ | _ | _
    case request.poly n p => exact ⟨hx.1, fun m hm => (hx.2 m hm).stays ht⟩
    all_goals exact hx
  stays t t' i M ht hM := by
    cases i with
    | moment n => exact ⟨hM.1.stays ht fun _ _ _ _ _ _ _ _ => rfl, hM.2⟩
    | localizing n w => exact ⟨hM.1.stays ht fun _ _ _ _ _ _ _ _ => rfl, hM.2⟩
    | poly n p =>
      refine ⟨fun m hm => (hM.1 m hm).trans_le ht.length_le, hM.2.stays ht fun A _ _ _ _ P _ _ => ?_⟩
      rw [polyOp_stays ht P hM.1]
    | subst a b => trivial
  same t i j M ht hs hi hj hM := by
    cases i <;> cases j <;> try exact hs.elim
    case moment.moment n n' => obtain rfl := hs; exact hM
    case localizing.localizing n w n' w' =>
      obtain ⟨rfl, hh⟩ := hs
      obtain ⟨hn, u, hu, rfl⟩ := hi
      obtain ⟨-, u', hu', rfl⟩ := hj
      have e := stored_same (s := s) (stored_inj h ⟨hu.1, hu.2.trans (Nat.sub_le _ _)⟩ ⟨hu'.1, hu'.2.trans (Nat.sub_le _ _)⟩ hh)
      rw [← e]
      exact hM
    case poly.poly n p n' p' =>
      obtain ⟨rfl, h1, h2⟩ := hs
      obtain rfl := (PolyOrder.less_eq hr p p').mp ⟨h1, h2⟩
      exact hM
    case subst.subst => trivial
  moment t n ht hl := by
    obtain ⟨t', M, h1, h2, h3, h4, h5⟩ := shows_create h ht (m := []) (n := n) (by simp) (by have hl : 2 * n ≤ L := hl; simpa using hl) (f := momentFn (host s)) (.inl ⟨rfl, rfl⟩)
    refine ⟨t', some (.mono M), by simp only [maker, h1]; rfl, h2, h3, fun _ => rfl, fun m e => ?_⟩
    rw [Option.some.injEq] at e
    subst e
    exact ⟨h4.stays List.prefix_rfl fun _ _ _ _ _ _ _ _ => rfl, h5 (.refl _)⟩
  localizing t n w ht hl := by
    obtain ⟨hn, u, hu, rfl⟩ := hl
    have hl := hu.2
    have huL : Word s L u := ⟨hu.1, by omega⟩
    obtain ⟨t', M, h1, h2, h3, h4, h5⟩ := shows_create h ht (m := u) (n := n) hu.1 (by omega) (f := localizingFn (host s) (stored s u)) (.inr rfl)
    refine ⟨t', some (.mono M), by simp only [maker, h1]; rfl, h2, h3, fun _ => rfl, fun m e => ?_⟩
    rw [Option.some.injEq] at e
    subst e
    refine ⟨h4.stays List.prefix_rfl fun A _ _ _ _ P hP _ => (op_stored h huL hP).symm, fun hc => h5 ?_⟩
    rw [conj_stored h huL] at hc
    exact stored_inj h (word_reverse huL) huL (by rw [hc])
  word t n p k ht hl hk := by
    obtain ⟨hn, hp⟩ := hl
    have hk' : k < p.length := hk
    have hm := hp _ (List.getElem_mem hk')
    obtain ⟨u, hu, hw⟩ := ht.short h (Nat.sub_le _ _) hm
    refine ⟨stored s u, ?_, ⟨hn, u, hu, rfl⟩, fun t' htt => ?_⟩
    · simp [maker, List.getElem?_eq_getElem hk', hw]
    · simp [maker, List.getElem?_eq_getElem hk', termWord_stays htt hm.lt, hw]
  compose t n p l ht hl hlen hg := by
    obtain ⟨hn, hp⟩ := hl
    have hlen : l.length = p.length := hlen
    have hg : ∀ (k : Nat) w M, (p[k]?).bind (termWord t) = some w → l[k]? = some M → Shows s n t M (fun _ _ _ P => op s P w) :=
      fun k w M h1 h2 => (hg k w M h1 h2).1
    have hw : ∀ m ∈ p, (termWord t m).isSome := fun m hm => by
      obtain ⟨u, -, hw⟩ := ht.short h (Nat.sub_le _ _) (hp m hm)
      rw [hw]; rfl
    have each : ∀ M ∈ l, M.part.dim = (generate s n).length ∧ MatrixSum.Good t M.part := by
      intro M hM
      obtain ⟨k, hk⟩ := List.mem_iff_getElem?.mp hM
      have hk' : k < p.length := hlen ▸ (List.getElem?_eq_some_iff.mp hk).1
      obtain ⟨w, hw'⟩ := Option.isSome_iff_exists.mp (hw _ (List.getElem_mem hk'))
      have := hg k w M (by rw [List.getElem?_eq_getElem hk', Option.bind_some, hw']) hk
      exact ⟨this.dim, this.known⟩
    have hd : (l.head?).elim (level s n).length (fun M => M.part.dim) = (generate s n).length := by
      cases l with
      | nil => exact level_length s n
      | cons M l => exact (each M List.mem_cons_self).1
    obtain ⟨S, s1, s2, -, s3, s4⟩ := C72.C72_composite (t := t) (ord t) (c := ⟨(l.head?).elim (level s n).length fun M => M.part.dim, (l.zip p).map fun x => (x.1.part, x.2.factor)⟩) (by
      intro q hq
      obtain ⟨x, hx, rfl⟩ := List.mem_map.mp hq
      obtain ⟨a, b⟩ := each x.1 (List.of_mem_zip hx).1
      exact ⟨b, a.trans hd.symm⟩)
    refine ⟨t, some (.poly S), by simp only [maker, compose, s1]; rfl, ht, List.prefix_rfl, fun _ => rfl, fun m e => ?_⟩
    rw [Option.some.injEq] at e
    subst e
    refine ⟨fun m hm => (hp m hm).lt, s2.trans hd, s3, fun A _ _ _ _ P φ v hP hs hφ hv i j x y a b hi hj ha hb => ?_⟩
    rw [← sum_shows hP hs hφ hv hi hj ha hb p l hlen hw hg]
    exact s4 v hv.flags i j (hd ▸ (List.getElem?_eq_some_iff.mp hi).1) (hd ▸ (List.getElem?_eq_some_iff.mp hj).1)
  register _ t n q ht hl := by
    obtain ⟨hn, hq⟩ := hl
    obtain ⟨t', p, h1, h2, h3, h4, h5⟩ := register_op h (Nat.sub_le _ _) ht hq ord
    refine ⟨t', p, h1, h2, h3, ⟨hn, h4⟩, fun t'' M htt hM => ?_⟩
    refine hM.2.stays List.prefix_rfl fun A _ _ _ _ P hP hs => ?_
    rw [← h5 A P hP hs, polyOp_stays htt P fun m hm => (h4 m hm).lt]
  rawWords ha := by simp [maker] at ha
  composeRaw ha := by simp [maker] at ha
  substitute t a b r m _ hl := hl.elim
  fill t n ht hl := by
    have hn : n ≤ L := hl
    obtain ⟨hr1, hr2, -⟩ := rows_spec (n := n) h hn
    simp only [maker]
    split
    · exact ⟨t, _, rfl, ht, List.prefix_rfl⟩
    · obtain ⟨t', k, h1, h2, h3⟩ := ht.fill h (us := rows s n) fun u hu => ⟨(hr2 u hu).1, (hr2 u hu).2.trans hn⟩
      rw [hr1, h1]
      exact ⟨t', _, rfl, h2, h3⟩

end Moment.LocalitySystem
