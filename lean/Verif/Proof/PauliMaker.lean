import Verif.Proof.PauliInstance
import Verif.Proof.LocalitySystem
import Verif.Proof.PauliAlive

/-! # What the functions of Pauli systems promise -/

namespace Moment.PauliInstance
open Moment.Symbols (Sym Table Env)
open Moment.SymbolMatrix Moment.OperatorMatrix Moment.PauliMatrix
open Moment.MatrixBasis (Mat)
open Moment.Poly (Mono)
open Moment.RawPoly (Raw)
open Moment.LocalitySystem (Matrix termWord)
open Moment.PauliSystem (Key Op whole Terms Contract Fulfils Serves Spelt Alike POrdered)

theorem Shows.stays {s : Scene} {k : PauliSystem.Kind} {m : Nat × Nat} {t t' : Table} {M : Matrix} {x z : Element} {ws : List HSeq} (hM : Shows s k m t M x ws)
    (h : t.syms <+: t'.syms)
    (hxz : ∀ (A : Type) [Ring A] [Algebra ℂ A] [StarRing A] [StarModule ℂ A] (ρ : Nat → A), Represents s.qubits ρ → x A ρ = z A ρ) :
    Shows s k m t' M z ws := by
  refine ⟨hM.listed, hM.dim, ?_, fun A _ _ _ _ ρ φ v hρ hφ hv => ?_⟩
  · have := hM.known
    cases M with
    | mono M => exact ⟨this.1, fun m hm => (this.2 m hm).trans_le h.length_le⟩
    | poly S => exact ⟨this.1, fun p hp m hm => (this.2 p hp m hm).trans_le h.length_le⟩
  · rw [← hxz A ρ hρ]
    exact hM.value A ρ φ v hρ hφ (agrees_mono h hv)

/-! ## Lists of words -/

/-- The list of words is defined: it is an exception, or a list of words with positive signs, with the identity among them. -/
def Listed (s : Scene) (m : Nat × Nat) : Prop := ∃ r, s.words m = some r ∧ ∀ ws, r = some ws → PauliMatrix.Plain s.qubits ws ∧ HSeq.identity .pos ∈ ws

/-! ## Words in the middle of the identity -/

theorem seq_of {n : Nat} {w : HSeq} (hw : Pos n w) : seq n w.ops .pos = w := by
  conv => rhs; rw [IsWord.eq hw.1, hw.2]

theorem one_mul_word {n : Nat} {w : HSeq} (hw : Pos n w) : Pauli.multiply n (HSeq.identity .pos) w = w := by
  rw [multiply_eq (pos_one n).1 hw.1]
  have e1 : prod (HSeq.identity .pos).ops w.ops = w.ops := by simp [prod, HSeq.identity, Pauli.mergeLoop]
  have e2 : rel (HSeq.identity .pos).ops w.ops = 1 := by simp [rel, HSeq.identity, Pauli.mergeLoop]
  rw [e1, e2, hw.2]
  exact seq_of hw

theorem mul_one_word {n : Nat} {w : HSeq} (hw : Pos n w) : Pauli.multiply n w (HSeq.identity .pos) = w := by
  rw [multiply_swap (pos_one n).1 hw.1]
  have e1 : prod (HSeq.identity .pos).ops w.ops = w.ops := by simp [prod, HSeq.identity, Pauli.mergeLoop]
  have e2 : rel (HSeq.identity .pos).ops w.ops = 1 := by simp [rel, HSeq.identity, Pauli.mergeLoop]
  rw [e1, e2, hw.2]
  exact seq_of hw

theorem fn_one {n : Nat} {w : HSeq} (hw : Pos n w) {k : PauliSystem.Kind} (hk : k ≠ .commutator) :
    (kindOf k w).fn n (HSeq.identity .pos) (HSeq.identity .pos) = w := by
  cases k with
  | commutator => exact absurd rfl hk
  | localizing =>
    show Pauli.multiply n (HSeq.identity .pos) (Pauli.multiply n w (HSeq.identity .pos)) = w
    rw [mul_one_word hw, one_mul_word hw]
  | anticommutator =>
    show Pauli.anticommutator n (Pauli.multiply n (HSeq.identity .pos) (HSeq.identity .pos)) w = w
    rw [one_mul_word (pos_one n), anticommutator_eq (pos_one n).1 hw.1, one_mul_word hw, if_neg]
    have e2 : rel (HSeq.identity .pos).ops w.ops = 1 := by simp [rel, HSeq.identity, Pauli.mergeLoop]
    rw [e2]
    decide

/-- The word, or the one that stands for it up to symmetry, has a symbol. -/
def HasSymbol (s : Scene) (t : Table) (w : HSeq) : Prop := ∃ e ∈ t.syms, e.seq = some (settle s.qubits s.symmetry w)

theorem HasSymbol.stays {s : Scene} {t t' : Table} {w : HSeq} (h : HasSymbol s t w) (ht : t.syms <+: t'.syms) : HasSymbol s t' w := by
  obtain ⟨e, h1, h2⟩ := h
  exact ⟨e, ht.subset h1, h2⟩

theorem settle_pos {s : Scene} (hn : Room s.qubits) (hf : Fit s.qubits s.symmetry) {w : HSeq} (hw : Pos s.qubits w) : Pos s.qubits (settle s.qubits s.symmetry w) :=
  ⟨settle_isWord hn hf hw.1, by rw [settle_word hw.1]; exact hw.2⟩

theorem HasSymbol.lookup {s : Scene} {t : Table} (ht : Sound s.qubits s.symmetry t) {w : HSeq} (h : HasSymbol s t w) :
    (t.lookup (env s.qubits s.symmetry) w).1.isSome := by
  obtain ⟨e, h1, h2⟩ := h
  obtain ⟨i, hi⟩ := List.mem_iff_getElem?.mp h1
  have hf := ht.found hi h2
  unfold settle at hf
  unfold Table.lookup
  cases hx : t.find w.hash with
  | some r => rfl
  | none =>
    split at hf
    · rename_i ha
      rw [show (env s.qubits s.symmetry).aliases = true from ha]
      simp only [if_true]
      split
      · rw [show t.find ((env s.qubits s.symmetry).simp w).hash = _ from hf]; rfl
      · rename_i hne
        simp only [bne_iff_ne, ne_eq, not_not] at hne
        rw [← hne, show t.find ((env s.qubits s.symmetry).simp w).hash = _ from hf] at hx
        cases hx
    · rw [hx] at hf; cases hf

/-! ## Matrices of words -/

/-- The element that belongs to a generator. -/
noncomputable def middle : PauliMatrix.Kind → Element
  | .moment => fun _ _ _ _ => 1
  | .localizing w => wordOp w
  | .commutator w => wordOp w
  | .anticommutator w => wordOp w

/-- The kind of a generator. -/
def sort : PauliMatrix.Kind → PauliSystem.Kind
  | .moment => .localizing
  | .localizing _ => .localizing
  | .commutator _ => .commutator
  | .anticommutator _ => .anticommutator

theorem make_spec {s : Scene} (hn : Room s.qubits) (hf : Fit s.qubits s.symmetry) {m : Nat × Nat} (hl : Listed s m) {t : Table}
    (ht : Sound s.qubits s.symmetry t) {k : PauliMatrix.Kind} (hk : k.Fits s.qubits) :
    ∃ t' r, s.make t k m = some (t', r) ∧ Sound s.qubits s.symmetry t' ∧ t.syms <+: t'.syms ∧ (s.words m ≠ some none → r.isSome) ∧
      ∀ M, r = some M → (∃ ws, Shows s (sort k) m t' M (middle k) ws) ∧ (k.shouldBeHermitian = true → M.hermitian = true) ∧
        ((t'.hashes.lookup (settle s.qubits s.symmetry (k.fn s.qubits (HSeq.identity .pos) (HSeq.identity .pos))).hash).isSome) := by
  obtain ⟨r, h1, h2⟩ := hl
  unfold Scene.make
  rw [h1, Option.bind_some]
  cases r with
  | none => exact ⟨t, none, rfl, ht, List.prefix_rfl, fun h => absurd rfl h, fun M h => by cases h⟩
  | some ws =>
    obtain ⟨hw, hone⟩ := h2 ws rfl
    obtain ⟨t', M, g1, -, g2, g3, g5, -, g4⟩ := C103.made_ready hn hf hk hw ht.ready
    have hu := usable hn hf hk hw (y := s.symmetry)
    obtain ⟨t1, M1, k1, k2⟩ := create_spec (setting s.qubits s.symmetry) (ht.ready.fit (setting s.qubits s.symmetry)) k.prefactor hu
    have e : some (t1, some M1) = some (t', some M) := k1.symm.trans g1
    simp only [Option.some.injEq, Prod.mk.injEq] at e
    obtain ⟨rfl, rfl⟩ := e
    refine ⟨t1, some (.mono M1), by simp only [g1]; rfl, ht.matrix hu g1, g2.syms, fun _ => rfl, fun N hN => ?_⟩
    rw [Option.some.injEq] at hN
    subst hN
    refine ⟨⟨ws, h1, g3, ⟨k2.stands.square, k2.stands.known⟩, fun A _ _ _ _ ρ φ v hρ hφ hv i j a b hi hj => ?_⟩, fun hh => ?_, g5 _ hone _ hone⟩
    · have wa := hw a (List.mem_of_getElem? hi)
      have wb := hw b (List.mem_of_getElem? hj)
      refine (g4 _ v (moment_moments hn s.symmetry hρ hφ.star) hv i j a b hi hj).trans ?_
      rw [moment_settle hn hf hφ (fn_proper hn hk wa.1 wb.1), fn_value hn hk hρ φ wa.1 wb.1]
      cases k <;> simp [Kind.target, target, sort, middle, wordOp]
    · exact (C103.flag_ready hn hf hk hw ht.ready g1).1 hh

/-! ## Sums -/

theorem rawOp_cons (x : HSeq × ℂ) (q : List (HSeq × ℂ)) {A : Type} [Ring A] [Algebra ℂ A] (ρ : Nat → A) :
    rawOp (x :: q) A ρ = x.2 • operator ρ x.1 + rawOp q A ρ := by simp [rawOp]

theorem target_add {A : Type} [Ring A] [Algebra ℂ A] (k : PauliSystem.Kind) (c : ℂ) (x z a b : A) : target k (c • x + z) a b = c • target k x a b + target k z a b := by
  cases k <;> simp only [target, mul_add, add_mul, mul_smul_comm, smul_mul_assoc, smul_sub, smul_add]
  · abel
  · abel

theorem target_zero {A : Type} [Ring A] (k : PauliSystem.Kind) (a b : A) : target k 0 a b = 0 := by cases k <;> simp [target]

/-- Matrices for words, with factors. -/
def Shown (s : Scene) (k : PauliSystem.Kind) (m : Nat × Nat) (t : Table) (l : List Matrix) (q : List (HSeq × ℂ)) : Prop :=
  List.Forall₂ (fun M x => ∃ ws, Shows s k m t M (wordOp x.1) ws) l q

theorem Shown.value {s : Scene} {k : PauliSystem.Kind} {m : Nat × Nat} {t : Table} {A : Type} [Ring A] [Algebra ℂ A] [StarRing A] [StarModule ℂ A] {ρ : Nat → A}
    {φ : A →ₗ[ℂ] ℂ} {v : Nat → ℂ} (hρ : Represents s.qubits ρ) (hφ : Invariant s.qubits s.symmetry ρ φ) (hv : Agrees t (moment ρ φ) v) {ws : List HSeq}
    (hw : s.words m = some (some ws)) {i j : Nat} {a b : HSeq} (hi : ws[i]? = some a) (hj : ws[j]? = some b) {l : List Matrix} {q : List (HSeq × ℂ)}
    (h : Shown s k m t l q) :
    (((l.zip (q.map Prod.snd)).map fun x => (x.1.part, x.2)).map fun q => q.2 * MatrixSum.entryAt v q.1 i j).sum =
      φ (target k (rawOp q A ρ) (operator ρ a) (operator ρ b)) := by
  induction h with
  | nil => simp [rawOp, target_zero]
  | cons h1 _ ih =>
    obtain ⟨ws', hs⟩ := h1
    have e := hs.listed
    rw [hw, Option.some.injEq, Option.some.injEq] at e
    subst e
    rw [rawOp_cons, target_add, map_add, map_smul, smul_eq_mul, ← ih]
    simp only [List.map_cons, List.zip_cons_cons, List.sum_cons]
    rw [hs.value A ρ φ v hρ hφ hv i j a b hi hj]
    rfl

theorem dimension_spec {s : Scene} {k : PauliSystem.Kind} {m : Nat × Nat} {t : Table} (hl : Listed s m) {l : List Matrix} {q : List (HSeq × ℂ)}
    (h : Shown s k m t l q) : (l = [] ∧ s.words m = some none ∧ s.dimension m l = some none) ∨
      ∃ ws, s.words m = some (some ws) ∧ s.dimension m l = some (some ws.length) := by
  cases h with
  | nil =>
    obtain ⟨r, h1, -⟩ := hl
    unfold Scene.dimension
    rw [h1]
    cases r with
    | none => exact .inl ⟨rfl, rfl, rfl⟩
    | some ws => exact .inr ⟨ws, rfl, rfl⟩
  | cons h1 _ =>
    obtain ⟨ws, hs⟩ := h1
    exact .inr ⟨ws, hs.listed, by simp only [Scene.dimension, hs.dim]⟩

theorem sum_spec {s : Scene} {k : PauliSystem.Kind} {m : Nat × Nat} {t : Table} (hl : Listed s m) {l : List Matrix} {q : List (HSeq × ℂ)}
    (h : Shown s k m t l q) : ∃ r, s.sum t m l (q.map Prod.snd) = some (t, r) ∧ (s.words m ≠ some none → r.isSome) ∧
      ∀ M, r = some M → ∃ ws, Shows s k m t M (rawOp q) ws := by
  unfold Scene.sum
  rcases dimension_spec hl h with ⟨-, h0, hd⟩ | ⟨ws, h0, hd⟩
  · rw [hd]
    exact ⟨none, rfl, fun hne => absurd h0 hne, fun M hM => by cases hM⟩
  · rw [hd]
    obtain ⟨S, s1, s2, -, s3, s4⟩ := C72.C72_composite (t := t) byId (c := ⟨ws.length, (l.zip (q.map Prod.snd)).map fun x => (x.1.part, x.2)⟩) (by
      intro p hp
      obtain ⟨x, hx, rfl⟩ := List.mem_map.mp hp
      obtain ⟨i, hi⟩ := List.mem_iff_getElem?.mp (List.of_mem_zip hx).1
      have hi' : i < q.length := h.length_eq ▸ (List.getElem?_eq_some_iff.mp hi).1
      have hlt := (List.getElem?_eq_some_iff.mp hi).1
      obtain ⟨ws', hs⟩ := (List.forall₂_iff_get.mp h).2 i hlt hi'
      have e := hs.listed
      rw [h0, Option.some.injEq, Option.some.injEq] at e
      subst e
      have hg : l.get ⟨i, hlt⟩ = x.1 := by simpa using (List.getElem?_eq_some_iff.mp hi).2
      rw [hg] at hs
      exact ⟨hs.known, hs.dim⟩)
    refine ⟨some (.poly S), by simp only [Option.bind_some, s1]; rfl, fun _ => rfl, fun M hM => ?_⟩
    rw [Option.some.injEq] at hM
    subst hM
    refine ⟨ws, h0, s2, s3, fun A _ _ _ _ ρ φ v hρ hφ hv i j a b hi hj => ?_⟩
    rw [← Shown.value hρ hφ hv h0 hi hj h]
    exact s4 v hv.flags i j (List.getElem?_eq_some_iff.mp hi).1 (List.getElem?_eq_some_iff.mp hj).1

theorem sumRaw_spec {s : Scene} {k : PauliSystem.Kind} {m : Nat × Nat} {t : Table} (hl : Listed s m) {l : List Matrix} {q : List (HSeq × ℂ)}
    (h : Shown s k m t l q) : ∃ r, s.sumRaw t m q l = some (t, r) ∧ ∀ M, r = some M → ∃ ws, Shows s k m t M (rawOp q) ws := by
  unfold Scene.sumRaw
  split
  · rcases dimension_spec hl h with ⟨-, -, hd⟩ | ⟨ws, -, hd⟩ <;> rw [hd] <;> exact ⟨none, rfl, fun M hM => by cases hM⟩
  · obtain ⟨r, h1, -, h2⟩ := sum_spec hl h
    exact ⟨r, h1, h2⟩

/-! ## Registration -/

theorem registered {s : Scene} (hn : Room s.qubits) (hy : s.symmetry.aliases = false) {q : Raw} {t : Table} (ht : Sound s.qubits s.symmetry t)
    (hq : ∀ e ∈ q, Pos s.qubits e.1) :
    ∃ t' p, ((RawPoly.registerStorage (env s.qubits s.symmetry) t q).map fun x => (x.1, Poly.make (MatrixBasis.polyTable x.1) byId x.2)) = some (t', p) ∧
      Sound s.qubits s.symmetry t' ∧ t.syms <+: t'.syms ∧ (∀ m ∈ p, Known s.qubits t' m) ∧
      ∀ (A : Type) [Ring A] [Algebra ℂ A] [StarRing A] [StarModule ℂ A] (ρ : Nat → A), Represents s.qubits ρ → polyOp t' p A ρ = rawOp q A ρ := by
  obtain ⟨t', l, h1, h2, h3, h4⟩ := register_sound hn hy ht hq
  have hl : ∀ m ∈ l, Known s.qubits t' m := by
    intro m hm
    obtain ⟨i, hi⟩ := List.mem_iff_getElem?.mp hm
    have hlt := (List.getElem?_eq_some_iff.mp hi).1
    obtain ⟨-, x, hx, hs⟩ := (List.forall₂_iff_get.mp h4).2 i (h4.length_eq ▸ hlt) hlt
    have hg : l.get ⟨i, hlt⟩ = m := by simpa using (List.getElem?_eq_some_iff.mp hi).2
    rw [hg] at hx
    exact ⟨x, _, hx, hs, hq _ (List.get_mem _ _)⟩
  have hp : ∀ m ∈ Poly.make (MatrixBasis.polyTable t') byId l, Known s.qubits t' m := by
    intro m hm
    obtain ⟨y, hy, e⟩ := Poly.make_ids hm
    obtain ⟨x, u, a, b⟩ := hl y hy
    exact ⟨x, u, e ▸ a, b⟩
  refine ⟨t', _, by rw [h1]; rfl, h2, h3, hp, fun A _ _ _ _ ρ hρ => ?_⟩
  refine LocalitySystem.separate fun φ hφ => ?_
  have hi : Invariant s.qubits s.symmetry ρ φ := by
    refine ⟨hφ, fun w v _ _ hc => ?_⟩
    have : s.symmetry = .none := by
      generalize s.symmetry = y at hy
      cases y <;> simp_all [Symmetry.aliases]
    rw [this] at hc
    rw [show w = v from hc]
  obtain ⟨v, hv⟩ := h2.values hn hρ hi
  rw [← h2.poly hv hp, Poly.make_value hv.flags, h2.poly hv hl]
  congr 1
  clear hl hp h1 hq
  induction h4 with
  | nil => rfl
  | @cons e m q l h5 _ ih =>
    rw [rawOp_cons, ← ih]
    obtain ⟨hfac, x, hx, hs⟩ := h5
    have herm : x.herm = true := by
      rcases h2.kept x (List.mem_of_getElem? hx) with ⟨-, h⟩ | ⟨_, _, _, h, -⟩ <;> exact h
    have : termWord t' m = some e.1 := by
      unfold termWord
      rw [hx, Option.bind_some, herm, hs]
      simp
    simp [polyOp, this, hfac]

/-! ## Promises -/

/-- What requests are allowed: lists of words that are defined, words with positive signs, symbols whose words have positive signs. Matrices for substituted
symbols are left out. -/
def Allowed (s : Scene) (t : Table) : Key HSeq (List Mono) → Prop
  | .plain _ => False
  | .moment m => Listed s m
  | .mono _ m w => Listed s m ∧ Pos s.qubits w
  | .poly _ m p => Listed s m ∧ ∀ x ∈ p, Known s.qubits t x

/-- What is allowed. -/
def Legal {B : Type} (s : Scene) (t : Table) : Op HSeq (List Mono) Raw B → Prop
  | .request i => Allowed s t (whole i)
  | .rawPlain n q => Listed s (n, 0) ∧ ∀ e ∈ q, Pos s.qubits e.1
  | .raw _ m q => Listed s m ∧ ∀ e ∈ q, Pos s.qubits e.1
  | .dictionary n => Listed s (n, 0)
  | _ => True

/-- What a matrix shows, for each index with neighbours. -/
def Right (s : Scene) (t : Table) : Key HSeq (List Mono) → Matrix → Prop
  | .plain _, _ => True
  | .moment m, M => (∃ ws, Shows s .localizing m t M (fun _ _ _ _ => 1) ws) ∧ M.hermitian = true
  | .mono k m w, M => Pos s.qubits w ∧ (∃ ws, Shows s k m t M (wordOp w) ws) ∧ (k ≠ .commutator → M.hermitian = true ∧ HasSymbol s t w)
  | .poly k m p, M => (∀ x ∈ p, Known s.qubits t x) ∧ ∃ ws, Shows s k m t M (polyOp t p) ws

/-- The terms of the contract. -/
def terms (B : Type) (s : Scene) : Terms Table HSeq (List Mono) Raw B Matrix where
  ok := Sound s.qubits s.symmetry
  le t t' := t.syms <+: t'.syms
  legal := Legal s
  good t i := Right s t (whole i)
  goodRaw t k m q M := ∃ ws, Shows s k m t M (rawOp q) ws
  safe := True

variable {B : Type} {s : Scene} {skip : Table → Nat → Bool} {substitute : Table → B → Matrix → Option (Table × Option Matrix)} {merge : B → B → B × Bool}

theorem byId_injective : Function.Injective byId.rank := Function.injective_id

theorem ordered : POrdered (s.maker skip substitute merge) where
  refl p := ((PolyOrder.less_eq byId_injective p p).mpr rfl).1
  trans p q r h1 h2 h3 h4 := by
    obtain rfl := (PolyOrder.less_eq byId_injective p q).mp ⟨h1, h2⟩
    exact ⟨h3, h4⟩

theorem right_of_alike (hn : Room s.qubits) {t : Table} {k : PauliSystem.Kind} {m : Nat × Nat} {w : HSeq} (hw : Pos s.qubits w) {j : Key HSeq (List Mono)}
    (hj : Alike (s.maker skip substitute merge) j (.mono k m w)) {M : Matrix} (hM : Right s t (whole j) M) : ∃ ws, Shows s k m t M (wordOp w) ws := by
  unfold Alike at hj
  generalize whole j = j at hj hM
  rcases j with _ | _ | ⟨k', m', w'⟩ | _
  · cases ‹MatrixSystem.Index HSeq (List Mono)› <;> exact hj.elim
  · exact hj.elim
  · obtain ⟨rfl, rfl, hh⟩ := hj
    rw [← Pos.inj hn hM.1 hw hh]
    exact hM.2.1
  · exact hj.elim

theorem shown_of_serves (hn : Room s.qubits) {t : Table} {k : PauliSystem.Kind} {m : Nat × Nat} {l : List Matrix} {q : List (HSeq × ℂ)}
    (hq : ∀ e ∈ q, Pos s.qubits e.1) (h : Serves (s.maker skip substitute merge) (terms B s) t k m l (q.map Prod.fst)) : Shown s k m t l q := by
  refine List.forall₂_iff_get.mpr ⟨by simpa using h.1, fun i h1 h2 => ?_⟩
  obtain ⟨j, j1, j2⟩ := h.2 i (l.get ⟨i, h1⟩) (q.get ⟨i, h2⟩).1 (by simp) (by simp [h2])
  exact right_of_alike hn (hq _ (List.get_mem _ _)) j1 j2

/-- The words of a polynomial with their factors. -/
noncomputable def spell (t : Table) (p : List Mono) : List (HSeq × ℂ) := p.map fun m => ((termWord t m).getD HSeq.zero, m.factor)

theorem rawOp_spell (t : Table) (p : List Mono) {A : Type} [Ring A] [Algebra ℂ A] (ρ : Nat → A) : rawOp (spell t p) A ρ = polyOp t p A ρ := by
  simp [rawOp, spell, polyOp, Function.comp_def]

theorem spell_pos {t : Table} (ht : Sound s.qubits s.symmetry t) {p : List Mono} (hp : ∀ m ∈ p, Known s.qubits t m) : ∀ e ∈ spell t p, Pos s.qubits e.1 := by
  intro e he
  obtain ⟨m, hm, rfl⟩ := List.mem_map.mp he
  obtain ⟨w, h1, h2, -⟩ := ht.term (hp m hm)
  rw [h1]
  exact h2

theorem spelt_words {t : Table} {p : List Mono} {ws : List HSeq}
    (h : Spelt (s.maker skip substitute merge) (terms B s) t p ws) : ws = (spell t p).map Prod.fst := by
  obtain ⟨hlen, h⟩ := h
  have hlen : ws.length = p.length := hlen
  refine List.ext_getElem? fun i => ?_
  by_cases hi : i < p.length
  · have hi' : i < ws.length := hlen ▸ hi
    obtain ⟨t', -, h2, h3⟩ := h i ws[i] (List.getElem?_eq_getElem hi')
    have h3 : (p[i]?).bind (termWord t') = some ws[i] := h3
    rw [List.getElem?_eq_getElem hi, Option.bind_some] at h3
    have hlt : p[i].id < t'.syms.length := by
      unfold termWord at h3
      obtain ⟨e, he, -⟩ := Option.bind_eq_some_iff.mp h3
      exact (List.getElem?_eq_some_iff.mp he).1
    rw [List.getElem?_eq_getElem hi', spell, List.map_map, List.getElem?_map, List.getElem?_eq_getElem hi]
    simp [termWord_stays h2 hlt, h3]
  · rw [List.getElem?_eq_none (by omega), List.getElem?_eq_none (by simp [spell]; omega)]

theorem composed (hn : Room s.qubits) {t : Table} (ht : Sound s.qubits s.symmetry t) {k : PauliSystem.Kind} {m : Nat × Nat} {p : List Mono} {l : List Matrix}
    {ws : List HSeq} (hl : Listed s m) (hp : ∀ x ∈ p, Known s.qubits t x) (h1 : Spelt (s.maker skip substitute merge) (terms B s) t p ws)
    (h2 : Serves (s.maker skip substitute merge) (terms B s) t k m l ws) :
    ∃ r, s.sum t m l (p.map Mono.factor) = some (t, r) ∧ (s.words m ≠ some none → r.isSome) ∧ ∀ M, r = some M → Right s t (.poly k m p) M := by
  rw [spelt_words h1] at h2
  obtain ⟨r, g1, g2, g3⟩ := sum_spec hl (shown_of_serves hn (spell_pos ht hp) h2)
  refine ⟨r, ?_, g2, fun M hM => ⟨hp, ?_⟩⟩
  · rw [← g1]
    congr 1
    simp [spell, Function.comp_def]
  · obtain ⟨ws, hs⟩ := g3 M hM
    exact ⟨ws, hs.stays List.prefix_rfl fun A _ _ _ _ ρ _ => rawOp_spell t p ρ⟩

/-- A result with its promises. -/
theorem fulfils {t : Table} {x : Option (Table × Option Matrix)} {good : Table → Matrix → Prop}
    (h : ∃ t' r, x = some (t', r) ∧ Sound s.qubits s.symmetry t' ∧ t.syms <+: t'.syms ∧ ∀ M, r = some M → good t' M) : Fulfils (terms B s) t x good := by
  obtain ⟨t', r, rfl, h2, h3, h4⟩ := h
  refine ⟨fun _ => rfl, fun t1 r1 e => ?_⟩
  simp only [Option.some.injEq, Prod.mk.injEq] at e
  obtain ⟨rfl, rfl⟩ := e
  exact ⟨h2, h3, h4⟩

theorem mono_spec (hn : Room s.qubits) (hf : Fit s.qubits s.symmetry) {t : Table} (ht : Sound s.qubits s.symmetry t) {k : PauliSystem.Kind} {m : Nat × Nat} {w : HSeq}
    (hl : Listed s m) (hw : Pos s.qubits w) : ∃ t' r, s.make t (kindOf k w) m = some (t', r) ∧ Sound s.qubits s.symmetry t' ∧ t.syms <+: t'.syms ∧
      (s.words m ≠ some none → r.isSome) ∧ ∀ M, r = some M → Right s t' (.mono k m w) M := by
  obtain ⟨t', r, h1, h2, h3, h4, h5⟩ := make_spec hn hf hl ht (k := kindOf k w) (by cases k <;> exact hw.1)
  refine ⟨t', r, h1, h2, h3, h4, fun M hM => ?_⟩
  obtain ⟨⟨ws, g1⟩, g2, g3⟩ := h5 M hM
  refine ⟨hw, ⟨ws, ?_⟩, fun hk => ⟨g2 ?_, ?_⟩⟩
  · cases k <;> exact g1
  rotate_left
  · rw [fn_one hw hk] at g3
    obtain ⟨i, hi⟩ := Option.isSome_iff_exists.mp g3
    obtain ⟨e, he, hs⟩ := h2.holds hn (settle_pos hn hf hw) (k := (i.natAbs, decide (i < 0))) (by unfold Table.find; rw [hi]; rfl)
    exact ⟨e, List.mem_of_getElem? he, hs⟩
  · cases k with
    | commutator => exact absurd rfl hk
    | localizing => simp only [kindOf, Kind.shouldBeHermitian, hw.2]; rfl
    | anticommutator => simp only [kindOf, Kind.shouldBeHermitian, hw.2]; rfl

theorem contract (hn : Room s.qubits) (hf : Fit s.qubits s.symmetry) : Contract (s.maker skip substitute merge) (terms B s) where
  refl _ := List.prefix_rfl
  trans _ _ _ := List.IsPrefix.trans
  legal t t' x ht hx := by
    cases x with
    | request i =>
      have hx : Allowed s t (whole i) := hx
      show Allowed s t' (whole i)
      generalize whole i = i at hx
      cases i with
      | poly k m p => exact ⟨hx.1, fun x h => (hx.2 x h).stays ht⟩
      | _ => exact hx
    | _ => exact hx
  plain t i h := by
    show Allowed s t (whole (whole i))
    rw [PauliSystem.whole_whole]
    exact h
  plainRaw t n q h := h
  stays t t' i M ht hM := by
    have hM : Right s t (whole i) M := hM
    show Right s t' (whole i) M
    generalize whole i = i at hM
    cases i with
    | plain i => trivial
    | moment m =>
      obtain ⟨⟨ws, h1⟩, h2⟩ := hM
      exact ⟨⟨ws, h1.stays ht fun _ _ _ _ _ _ _ => rfl⟩, h2⟩
    | mono k m w =>
      obtain ⟨h0, ⟨ws, h1⟩, h2⟩ := hM
      exact ⟨h0, ⟨ws, h1.stays ht fun _ _ _ _ _ _ _ => rfl⟩, fun hk => ⟨(h2 hk).1, (h2 hk).2.stays ht⟩⟩
    | poly k m p =>
      obtain ⟨h0, ws, h1⟩ := hM
      exact ⟨fun x h => (h0 x h).stays ht, ws, h1.stays ht fun A _ _ _ _ ρ _ => (polyOp_stays ht ρ fun x h => (h0 x h).lt).symm⟩
  moment t m ht hl := by
    obtain ⟨t', r, h1, h2, h3, -, h5⟩ := make_spec hn hf (show Listed s m from hl) ht (k := .moment) trivial
    refine fulfils ⟨t', r, h1, h2, h3, fun M hM => ?_⟩
    obtain ⟨g1, g2, -⟩ := h5 M hM
    exact ⟨g1, g2 rfl⟩
  mono t k m w ht hl := by
    obtain ⟨t', r, h1, h2, h3, -, h5⟩ := mono_spec hn hf ht (k := k) (show Listed s m from hl.1) (show Pos s.qubits w from hl.2)
    exact fulfils ⟨t', r, h1, h2, h3, h5⟩
  word t k m p x ht hl hx := by
    have hx' : x < p.length := hx
    obtain ⟨w, h1, h2, -⟩ := ht.term (hl.2 _ (List.getElem_mem hx'))
    have e : (s.maker skip substitute merge).word t p x = some w := by
      show (p[x]?).bind (termWord t) = some w
      rw [List.getElem?_eq_getElem hx', Option.bind_some, h1]
    rw [e]
    refine ⟨fun _ => rfl, fun w' hw' => ?_⟩
    rw [Option.some.injEq] at hw'
    subst hw'
    exact ⟨hl.1, h2⟩
  compose t k m p l ws ht hl h1 h2 := by
    obtain ⟨r, g1, -, g2⟩ := composed hn ht hl.1 hl.2 h1 h2
    exact fulfils ⟨t, r, g1, ht, List.prefix_rfl, g2⟩
  composePlain t n p l ws ht hl h1 h2 := by
    obtain ⟨r, g1, -, g2⟩ := composed hn ht hl.1 hl.2 h1 h2
    exact fulfils ⟨t, r, g1, ht, List.prefix_rfl, g2⟩
  register ha t k m q ht hl := by
    obtain ⟨t', p, h1, h2, h3, h4, h5⟩ := registered hn ha ht hl.2
    have h1 : (s.maker skip substitute merge).register t q = some (t', p) := h1
    rw [h1]
    refine ⟨fun _ => rfl, fun t1 p1 e => ?_⟩
    simp only [Option.some.injEq, Prod.mk.injEq] at e
    obtain ⟨rfl, rfl⟩ := e
    refine ⟨h2, h3, ⟨hl.1, h4⟩, fun t'' M htt hM => ?_⟩
    obtain ⟨-, ws, hM⟩ := hM
    refine ⟨ws, hM.stays List.prefix_rfl fun A _ _ _ _ ρ hρ => ?_⟩
    rw [← h5 A ρ hρ, polyOp_stays htt ρ fun m hm => (h4 m hm).lt]
  rawWords _ t k m q ht hl w hw := by
    obtain ⟨e, he, rfl⟩ := List.mem_map.mp (show w ∈ q.map Prod.fst from hw)
    exact ⟨hl.1, hl.2 e he⟩
  composeRaw _ t k m q l ht hl h := by
    obtain ⟨r, g1, g2⟩ := sumRaw_spec hl.1 (shown_of_serves hn hl.2 h)
    exact fulfils ⟨t, r, g1, ht, List.prefix_rfl, g2⟩
  composeRawPlain _ t n q l ht hl h := by
    obtain ⟨r, g1, g2⟩ := sumRaw_spec hl.1 (shown_of_serves hn hl.2 h)
    exact fulfils ⟨t, r, g1, ht, List.prefix_rfl, g2⟩
  substitute t a b r m _ hl := hl.elim
  fill t n ht hl := by
    obtain ⟨r, h1, h2⟩ := (show Listed s (n, 0) from hl)
    have e : (s.maker skip substitute merge).fill t n = if skip t n then some (t, some false) else (s.words (n, 0)).bind fun
      | none => some (t, none)
      | some ws => (t.fill (env s.qubits s.symmetry) ws).map fun r => (r.1, some (r.2 != 0)) := rfl
    rw [e, h1]
    split
    · refine ⟨fun _ => rfl, fun t' r' e => ?_⟩
      simp only [Option.some.injEq, Prod.mk.injEq] at e
      rw [← e.1]
      exact ⟨ht, List.prefix_rfl⟩
    · cases r with
      | none =>
        refine ⟨fun _ => rfl, fun t' r' e => ?_⟩
        simp only [Option.bind_some, Option.some.injEq, Prod.mk.injEq] at e
        rw [← e.1]
        exact ⟨ht, List.prefix_rfl⟩
      | some ws =>
        obtain ⟨t1, j, g1, g2, g3⟩ := ht.fill (h2 ws rfl).1
        simp only [Option.bind_some, g1, Option.map_some]
        refine ⟨fun _ => rfl, fun t' r' e => ?_⟩
        simp only [Option.some.injEq, Prod.mk.injEq] at e
        rw [← e.1]
        exact ⟨g2, g3⟩

/-! ## When there are no exceptions -/

/-- There is a list of words. -/
def Fine (s : Scene) (m : Nat × Nat) : Prop := s.words m ≠ some none

/-- There is a list of words, and matrices are not commutators if there are symmetries. -/
def FineRaw (s : Scene) (k : PauliSystem.Kind) (m : Nat × Nat) : Prop := Fine s m ∧ (s.symmetry.aliases = true → k ≠ .commutator)

theorem construct_some {t : Table} {q : Raw} (hq : ∀ e ∈ q, ((t.lookup (env s.qubits s.symmetry) e.1).1).isSome) :
    ∃ p, RawPoly.construct (env s.qubits s.symmetry) t byId q = some p := by
  suffices h : ∃ l, RawPoly.storage (env s.qubits s.symmetry) t q = some l by
    obtain ⟨l, h⟩ := h
    exact ⟨_, by rw [RawPoly.construct, h]; rfl⟩
  unfold RawPoly.storage
  induction q with
  | nil => exact ⟨[], rfl⟩
  | cons e q ih =>
    obtain ⟨l, hl⟩ := ih fun x hx => hq x (List.mem_cons_of_mem _ hx)
    obtain ⟨k, hk⟩ := Option.isSome_iff_exists.mp (hq e List.mem_cons_self)
    exact ⟨_, by rw [List.mapM_cons, hk, hl]; rfl⟩

theorem right_symbol {t : Table} (hn : Room s.qubits) {k : PauliSystem.Kind} (hk : k ≠ .commutator) {m : Nat × Nat} {w : HSeq} (hw : Pos s.qubits w)
    {j : Key HSeq (List Mono)} (hj : Alike (s.maker skip substitute merge) j (.mono k m w)) {M : Matrix} (hM : Right s t (whole j) M) : HasSymbol s t w := by
  unfold Alike at hj
  generalize whole j = j at hj hM
  rcases j with _ | _ | ⟨k', m', w'⟩ | _
  · cases ‹MatrixSystem.Index HSeq (List Mono)› <;> exact hj.elim
  · exact hj.elim
  · obtain ⟨rfl, rfl, hh⟩ := hj
    rw [← Pos.inj hn hM.1 hw hh]
    exact (hM.2.2 hk).2
  · exact hj.elim

theorem composeRaw_some (hn : Room s.qubits) {t : Table} (ht : Sound s.qubits s.symmetry t) {k : PauliSystem.Kind} {m : Nat × Nat} {q : Raw} {l : List Matrix}
    (hl : Listed s m) (hq : ∀ e ∈ q, Pos s.qubits e.1) (hm : Fine s m) (hk : k ≠ .commutator)
    (h : Serves (s.maker skip substitute merge) (terms B s) t k m l (q.map Prod.fst)) {t' : Table} {r : Option Matrix} (hr : s.sumRaw t m q l = some (t', r)) :
    r.isSome := by
  have hs : ∀ e ∈ q, ((t.lookup (env s.qubits s.symmetry) e.1).1).isSome := by
    intro e he
    obtain ⟨i, hi⟩ := List.mem_iff_getElem?.mp he
    have hlt := (List.getElem?_eq_some_iff.mp hi).1
    have hlt' : i < l.length := by rw [h.1]; simpa using hlt
    obtain ⟨j, j1, j2⟩ := h.2 i l[i] e.1 (List.getElem?_eq_getElem hlt') (by rw [List.getElem?_map, hi]; rfl)
    exact (right_symbol hn hk (hq e he) j1 j2).lookup ht
  obtain ⟨p, hp⟩ := construct_some hs
  unfold Scene.sumRaw at hr
  rw [hp] at hr
  obtain ⟨r', h1, h2, -⟩ := sum_spec hl (shown_of_serves hn hq h)
  dsimp only at hr
  rw [h1] at hr
  cases hr
  exact h2 hm

theorem lively (hn : Room s.qubits) (hf : Fit s.qubits s.symmetry) : PauliSystem.Lively (s.maker skip substitute merge) (terms B s) (Fine s) (FineRaw s) where
  moment t m t' r ht hl hm e := by
    obtain ⟨t1, r1, h1, -, -, h4, -⟩ := make_spec hn hf (show Listed s m from hl) ht (k := .moment) trivial
    have e : s.make t .moment m = some (t', r) := e
    rw [h1] at e
    cases e
    exact h4 hm
  mono t k m w t' r ht hl hm e := by
    obtain ⟨t1, r1, h1, -, -, h4, -⟩ := mono_spec hn hf ht (k := k) (show Listed s m from hl.1) (show Pos s.qubits w from hl.2)
    have e : s.make t (kindOf k w) m = some (t', r) := e
    rw [h1] at e
    cases e
    exact h4 hm
  compose t k m p l ws t' r ht hl hm h1 h2 e := by
    obtain ⟨r1, g1, g2, -⟩ := composed hn ht hl.1 hl.2 h1 h2
    have e : s.sum t m l (p.map Mono.factor) = some (t', r) := e
    rw [g1] at e
    cases e
    exact g2 hm
  composePlain t n p l ws t' r ht hl hm h1 h2 e := by
    obtain ⟨r1, g1, g2, -⟩ := composed hn ht hl.1 hl.2 h1 h2
    have e : s.sum t (n, 0) l (p.map Mono.factor) = some (t', r) := e
    rw [g1] at e
    cases e
    exact g2 hm
  raw _ _ h := h.1
  composeRaw ha t k m q l t' r ht hl hm h e := composeRaw_some hn ht hl.1 hl.2 hm.1 (hm.2 ha) h e
  composeRawPlain ha t n q l t' r ht hl hm h e := composeRaw_some hn ht hl.1 hl.2 hm.1 (by simp) h e

end Moment.PauliInstance
