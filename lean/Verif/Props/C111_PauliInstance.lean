import Verif.Proof.PauliMaker
import Verif.Props.C80_ChainWords
import Verif.Props.C81_LatticeWords
import Verif.Props.C109_PauliSystem
import Verif.Props.C70_SymbolMatrix

/-! # C111: matrix systems of particular Pauli scenarios

The promises of C109 kept by the functions of a Pauli scenario: everything that `PauliMatrixSystem` is asked for, at any time, is a matrix of moments of products,
commutators or anticommutators of Pauli words. -/

namespace Moment.C111
open Moment.Symbols (Table)
open Moment.SymbolMatrix Moment.PauliInstance Moment.PauliSystem
open Moment.PauliMatrix (Room Fit Letters Represents Invariant operator moment seq letters_within)
open Moment.LocalitySystem (Matrix termWord)
open Moment.Pauli (Normal)
open Moment.SiteHash (Within)
open Moment.Poly (Mono)
open Moment.RawPoly (Raw)
open scoped ComplexOrder Matrix

/-! ## Contexts -/

/-- What constructors of contexts make sure of: hashes of words are unique (C02), lattices have rows, and the hasher of a closed chain or lattice is for its
qubits (C77). -/
structure Proper (s : Scene) : Prop where
  room : Room s.qubits
  rows : s.layout.lattice = true → 0 < s.layout.height
  hasher : s.layout.symmetric = true → s.layout.wrap = true → SiteHash.Ready s.wide s.hasher ∧ s.hasher.qubits = s.qubits

theorem Proper.fit {s : Scene} (h : Proper s) : Fit s.qubits s.symmetry := by
  unfold Scene.symmetry
  cases h1 : s.layout.symmetric with
  | false => trivial
  | true =>
    cases h2 : s.layout.wrap with
    | true => exact h.hasher h1 h2
    | false =>
      cases h3 : s.layout.lattice with
      | true => exact ⟨h.rows h3, s.layout.width, rfl⟩
      | false => trivial

/-- Levels and neighbours for which there is a list of words: all levels without restriction; all of chains; for lattices nearest neighbours up to level two, and up
to level four if the lattice is open. -/
def Usable (s : Scene) (m : Nat × Nat) : Prop :=
  m.2 = 0 ∨ s.layout.lattice = false ∨ s.layout.lattice = true ∧ 0 < s.layout.width ∧ m.2 = 1 ∧ (m.1 ≤ 2 ∨ s.layout.wrap = false ∧ m.1 ≤ 4)

theorem listed_of {s : Scene} (hn : Room s.qubits) {m : Nat × Nat} {l : List Fill.Entry} (hg : Fill.generate s.wide s.hasher s.layout m.1 m.2 = some (some l))
    (hl : ∀ w g, (w, g) ∈ l → g = .pos ∧ Normal w ∧ Within s.qubits w) (h1 : ([], .pos) ∈ l) : Listed s m ∧ Fine s m := by
  have e : s.words m = some (some (l.map s.sequence)) := by
    unfold Scene.words
    rw [hg]
    rfl
  refine ⟨⟨_, e, fun ws he => ?_⟩, fun h => by rw [e] at h; cases h⟩
  cases he
  refine ⟨fun w hw => ?_, List.mem_map.mpr ⟨_, h1, ?_⟩⟩
  · obtain ⟨⟨u, g⟩, hu, rfl⟩ := List.mem_map.mp hw
    obtain ⟨rfl, g1, g2⟩ := hl u g hu
    exact ⟨hn.isWord ((letters_within g1).mpr g2) _, rfl⟩
  · rfl

theorem pair_within {wrap : Bool} {h k : Nat} {w : List Nat} (hp : C81.Pair wrap h k w) : Normal w ∧ Within (h * k) w := by
  rcases hp with rfl | ⟨q, hq, hon⟩ | ⟨a, b, hab, hon⟩
  · exact ⟨List.Pairwise.nil, fun q p h => by simp [Translate.Has] at h⟩
  · exact ⟨hon.1, (C79.on_within hon).mp (by simpa using hq)⟩
  · exact ⟨hon.1, (C79.on_within hon).mp (by simpa using ⟨hab.1, hab.2.1⟩)⟩

theorem placed_within {h k : Nat} {f : List (Nat × Nat)} {w : List Nat} (hp : Fill.Placed h k f w) : Normal w ∧ Within (h * k) w := by
  obtain ⟨h1, row, col, h2, h3⟩ := hp
  refine ⟨h1, fun q p hqp => ?_⟩
  obtain ⟨x, hx, -, e2⟩ := (h3 q).mp ⟨p, hqp⟩
  have := (h2 x hx)
  exact Nat.lt_mul_of_div_lt (e2 ▸ this.2 :) (by omega) |>.trans_eq (Nat.mul_comm _ _ ▸ rfl)

theorem Usable.listed {s : Scene} (h : Proper s) {m : Nat × Nat} (hm : Usable s m) : Listed s m ∧ Fine s m := by
  obtain ⟨level, N⟩ := m
  by_cases hN : N = 0
  · subst hN
    refine listed_of h.room (l := Fill.allWords s.qubits level) (by simp [Fill.generate, Scene.qubits]) (fun w g hw => ?_) ?_
    · obtain ⟨h1, h2, h3, -⟩ := ((C79.C79_all s.qubits level).1 w g).mp hw
      exact ⟨h1, h2, h3⟩
    · obtain ⟨l, hl⟩ := (C79.C79_graded s.qubits level).1
      rw [hl]
      exact List.mem_cons_self
  have nil : Normal [] ∧ Within s.qubits [] := ⟨List.Pairwise.nil, fun q p h => by simp [Translate.Has] at h⟩
  rcases hm with hm | hm | ⟨hl, hk, hm, hlv⟩
  · exact absurd hm hN
  · cases hw : s.layout.wrap with
    | false =>
      obtain ⟨l, h1, -, h2⟩ := C80.C80_open s.wide s.hasher hm hw (level := level) (Nat.pos_of_ne_zero hN)
      refine listed_of h.room h1 (fun w g hwl => ?_) ((h2 [] .pos).mpr ⟨rfl, nil.1, nil.2, by simp, .nil⟩)
      obtain ⟨g1, g2, g3, -⟩ := (h2 w g).mp hwl
      exact ⟨g1, g2, g3⟩
    | true =>
      obtain ⟨l, h1, -, h2⟩ := C80.C80_ring_partial s.wide s.hasher hm hw (level := level) (Nat.pos_of_ne_zero hN)
      refine listed_of h.room h1 (fun w g hwl => ?_) ((h2 [] .pos).mpr ⟨rfl, nil.1, nil.2, by simp, ?_⟩)
      · obtain ⟨g1, g2, g3, -⟩ := (h2 w g).mp hwl
        exact ⟨g1, g2, g3⟩
      · exact ⟨[], 0, nil.1, nil.2, .nil, fun q p h => by simp [Translate.Has] at h, fun q p h => by simp [Translate.Has] at h⟩
  · dsimp only at hm hlv
    subst hm
    have hh := h.rows hl
    rcases hlv with hlv | ⟨hw, hlv⟩
    · obtain ⟨l, h1, -, h2⟩ := C81.C81_pairs s.wide s.hasher hl hh hk hlv
      refine listed_of h.room h1 (fun w g hwl => ?_) ((h2 [] .pos).mpr ⟨rfl, by simp, .inl rfl⟩)
      obtain ⟨g1, -, g2⟩ := (h2 w g).mp hwl
      exact ⟨g1, pair_within g2⟩
    · obtain ⟨l, h1, h2, -⟩ := C81.C81_open_partial s.wide s.hasher hl hw hh hk hlv
      refine listed_of h.room h1 (fun w g hwl => ?_) ((h2 [] .pos).mpr ⟨rfl, by simp, .inl (.inl rfl)⟩)
      obtain ⟨g1, -, g2 | g2⟩ := (h2 w g).mp hwl
      · exact ⟨g1, pair_within g2⟩
      · refine ⟨g1, ?_⟩
        rcases g2 with g2 | g2 | g2 | g2 | g2 | g2 <;> exact placed_within g2

/-- What is rejected by an exception (C81). -/
theorem rejected {s : Scene} {m : Nat × Nat} (h : Fill.generate s.wide s.hasher s.layout m.1 m.2 = some none) : Listed s m ∧ s.words m = some none := by
  have e : s.words m = some none := by
    unfold Scene.words
    rw [h]
    rfl
  exact ⟨⟨_, e, fun ws he => by cases he⟩, e⟩

section
variable {B : Type} {s : Scene} {skip : Table → Nat → Bool} {substitute : Table → B → Matrix → Option (Table × Option Matrix)} {merge : B → B → B × Bool}
  {S : PSystem Table HSeq (List Mono) B Matrix} {l : List (Op HSeq (List Mono) Raw B)}

/-- The sequence made of a word of Pauli letters. -/
abbrev made (s : Scene) (u : List Nat) : HSeq := s.sequence (u, .pos)

theorem made_pos (h : Proper s) {u : List Nat} (hu : Letters s.qubits u) : Pos s.qubits (made s u) := ⟨h.room.isWord hu _, rfl⟩

theorem operator_made {u : List Nat} {A : Type} [Ring A] [Algebra ℂ A] (ρ : Nat → A) : operator ρ (made s u) = Rewrite.evalWord ρ u := C103.operator_pos rfl

/-- A matrix that is right for an index is right for all that are alike. -/
theorem same (hn : Room s.qubits) {t : Table} {i j : Key HSeq (List Mono)} (hi : Allowed s t (whole i)) (hj : Alike (s.maker skip substitute merge) j i) {M : Matrix}
    (hM : Right s t (whole j) M) : Right s t (whole i) M := by
  unfold Alike at hj
  generalize whole i = i at *
  generalize whole j = j at *
  rcases i with _ | n | ⟨k, n, w⟩ | ⟨k, n, p⟩
  · exact hi.elim
  · rcases j with _ | n' | _ | _
    · cases ‹MatrixSystem.Index HSeq (List Mono)› <;> exact hj.elim
    · obtain rfl : n' = n := hj
      exact hM
    · exact hj.elim
    · exact hj.elim
  · rcases j with _ | _ | ⟨k', n', w'⟩ | _
    · cases ‹MatrixSystem.Index HSeq (List Mono)› <;> exact hj.elim
    · exact hj.elim
    · obtain ⟨rfl, rfl, hh⟩ := hj
      rw [← Pos.inj hn hM.1 hi.2 hh]
      exact hM
    · exact hj.elim
  · rcases j with _ | _ | _ | ⟨k', n', p'⟩
    · cases ‹MatrixSystem.Index HSeq (List Mono)› <;> exact hj.elim
    · exact hj.elim
    · exact hj.elim
    · obtain ⟨rfl, rfl, h1, h2⟩ := hj
      obtain rfl := (PolyOrder.less_eq byId_injective p' p).mp ⟨h1, h2⟩
      exact hM

/-- Requests give right matrices. -/
theorem gives (h : Proper s) (hl : Runs (s.maker skip substitute merge) (terms B s) (PSystem.new Table.new) l S) (hd : ∀ i, .delete i ∉ l)
    {i : Key HSeq (List Mono)} {m : Nat × Nat} (hi : i.near = some m) (hm : Usable s m) (ha : Allowed s S.base.table (whole i)) :
    ∃ S' o M, S.request (s.maker skip substitute merge) i = some (S', some (o, M)) ∧ S.base.table.syms <+: S'.base.table.syms ∧ Right s S'.base.table (whole i) M := by
  have hc := contract (B := B) (s := s) (skip := skip) (substitute := substitute) (merge := merge) h.room h.fit
  obtain ⟨h1, -⟩ := C109.C109_complete ordered hc (lively h.room h.fit) trivial (Sound.new s.qubits s.symmetry) hl hd
  obtain ⟨S', o, M, j, e, j1, j2⟩ := h1 i m hi (hm.listed h).2 ha
  obtain ⟨-, -, h2⟩ := C109.C109_contract ordered hc (Sound.new s.qubits s.symmetry) hl (x := .request i) ha
  obtain ⟨-, hle, -⟩ := h2 S' (some (o, M)) e
  exact ⟨S', o, M, e, hle, same h.room (hc.legal _ _ (.request i) hle ha) j1 j2⟩

/-- **C111, matrices of words.** However the system was used before, without deletions: moment matrices, localizing matrices, and matrices of commutators and
anticommutators have as entries the moments of `a b`, `a z b`, `[a b, z]` and `{a b, z}` for the words `a`, `b` of the level and neighbours, in all algebras with the
Pauli relations, for all functionals with the symmetry of the scenario. All but commutator matrices are flagged as Hermitian. -/
theorem C111_words (h : Proper s) (hl : Runs (s.maker skip substitute merge) (terms B s) (PSystem.new Table.new) l S) (hd : ∀ i, .delete i ∉ l)
    {m : Nat × Nat} (hm : Usable s m) :
    (∃ S' o M ws, S.request (s.maker skip substitute merge) (.moment m) = some (S', some (o, M)) ∧
      Shows s .localizing m S'.base.table M (fun _ _ _ _ => 1) ws ∧ M.hermitian = true) ∧
    ∀ k u, Letters s.qubits u → ∃ S' o M ws, S.request (s.maker skip substitute merge) (.mono k m (made s u)) = some (S', some (o, M)) ∧
      Shows s k m S'.base.table M (fun _ _ _ ρ => Rewrite.evalWord ρ u) ws ∧ (k ≠ .commutator → M.hermitian = true) := by
  refine ⟨?_, fun k u hu => ?_⟩
  · obtain ⟨S', o, M, e, -, ⟨ws, g1⟩, g2⟩ := gives h hl hd (i := .moment m) rfl hm (hm.listed h).1
    exact ⟨S', o, M, ws, e, g1, g2⟩
  · obtain ⟨S', o, M, e, -, -, ⟨ws, g1⟩, g2⟩ := gives h hl hd (i := .mono k m (made s u)) rfl hm ⟨(hm.listed h).1, made_pos h hu⟩
    exact ⟨S', o, M, ws, e, g1.stays List.prefix_rfl fun A _ _ _ _ ρ _ => operator_made ρ, fun hk => (g2 hk).1⟩

/-- **C111, matrices for polynomials.** The same for polynomials in words, where `z` is the polynomial; but in contexts with symmetries this is only stated for
localizing matrices and anticommutators. -/
theorem C111_raw_partial (h : Proper s) (hl : Runs (s.maker skip substitute merge) (terms B s) (PSystem.new Table.new) l S) (hd : ∀ i, .delete i ∉ l)
    {m : Nat × Nat} (hm : Usable s m) {q : List (List Nat × ℂ)} (hq : ∀ e ∈ q, Letters s.qubits e.1) :
    (∀ k, (s.symmetry.aliases = true → k ≠ .commutator) →
      ∃ S' o M ws, S.exec (s.maker skip substitute merge) (.raw k m (q.map fun e => (made s e.1, e.2))) = some (S', some (o, M)) ∧
        Shows s k m S'.base.table M (fun _ _ _ ρ => (q.map fun e => e.2 • Rewrite.evalWord ρ e.1).sum) ws) ∧
    (m.2 = 0 → ∃ S' o M ws, S.exec (s.maker skip substitute merge) (.rawPlain m.1 (q.map fun e => (made s e.1, e.2))) = some (S', some (o, M)) ∧
        Shows s .localizing m S'.base.table M (fun _ _ _ ρ => (q.map fun e => e.2 • Rewrite.evalWord ρ e.1).sum) ws) := by
  have hc := contract (B := B) (s := s) (skip := skip) (substitute := substitute) (merge := merge) h.room h.fit
  obtain ⟨-, h2⟩ := C109.C109_complete ordered hc (lively h.room h.fit) trivial (Sound.new s.qubits s.symmetry) hl hd
  have hp : ∀ e ∈ q.map fun e => (made s e.1, e.2), Pos s.qubits e.1 := fun e he => by
    obtain ⟨x, hx, rfl⟩ := List.mem_map.mp he
    exact made_pos h (hq x hx)
  have hz : ∀ (A : Type) [Ring A] [Algebra ℂ A] (ρ : Nat → A), rawOp (q.map fun e => (made s e.1, e.2)) A ρ = (q.map fun e => e.2 • Rewrite.evalWord ρ e.1).sum := by
    intro A _ _ ρ
    simp only [rawOp, List.map_map, Function.comp_def, operator_made]
  refine ⟨fun k hk => ?_, fun h0 => ?_⟩
  · obtain ⟨S', o, M, e, ws, g⟩ := h2 (.raw k m _) k m _ rfl ⟨(hm.listed h).2, hk⟩ ⟨(hm.listed h).1, hp⟩
    exact ⟨S', o, M, ws, e, g.stays List.prefix_rfl fun A _ _ _ _ ρ _ => hz A ρ⟩
  · obtain ⟨n, N⟩ := m
    dsimp only at h0
    subst h0
    obtain ⟨S', o, M, e, ws, g⟩ := h2 (.rawPlain n _) .localizing (n, 0) _ rfl ⟨(hm.listed h).2, by simp⟩ ⟨(hm.listed h).1, hp⟩
    exact ⟨S', o, M, ws, e, g.stays List.prefix_rfl fun A _ _ _ _ ρ _ => hz A ρ⟩

/-- **C111, polynomials in symbols.** The same for polynomials in symbols that the table has, where a symbol stands for its word. -/
theorem C111_polynomial (h : Proper s) (hl : Runs (s.maker skip substitute merge) (terms B s) (PSystem.new Table.new) l S) (hd : ∀ i, .delete i ∉ l)
    {m : Nat × Nat} (hm : Usable s m) (k : Kind) {p : List Mono} (hp : ∀ x ∈ p, Known s.qubits S.base.table x) :
    (∃ S' o M ws, S.request (s.maker skip substitute merge) (.poly k m p) = some (S', some (o, M)) ∧ Shows s k m S'.base.table M (polyOp S.base.table p) ws) ∧
    ∀ (A : Type) [Ring A] [Algebra ℂ A] [StarRing A] [StarModule ℂ A] (ρ : Nat → A) (φ : A →ₗ[ℂ] ℂ) (v : Nat → ℂ), Agrees S.base.table (moment ρ φ) v →
      Poly.value v p = φ (polyOp S.base.table p A ρ) := by
  obtain ⟨S', o, M, e, hle, -, ws, g⟩ := gives h hl hd (i := .poly k m p) rfl hm ⟨(hm.listed h).1, hp⟩
  have hc := contract (B := B) (s := s) (skip := skip) (substitute := substitute) (merge := merge) h.room h.fit
  obtain ⟨i1, -, -⟩ := runs_spec ordered hc hl (new_inv _ (Sound.new s.qubits s.symmetry))
  exact ⟨⟨S', o, M, ws, e, g.stays List.prefix_rfl fun A _ _ _ _ ρ _ => polyOp_stays hle ρ fun x hx => (hp x hx).lt⟩,
    fun A _ _ _ _ ρ φ v hv => i1.ok.poly hv hp⟩

/-- **C111, all matrices together.** At any time, deletions or not, there are values of the symbols that agree with the moments, and with the same values all
matrices in the system are right. -/
theorem C111_together (h : Proper s) (hl : Runs (s.maker skip substitute merge) (terms B s) (PSystem.new Table.new) l S) :
    (∀ (A : Type) [Ring A] [Algebra ℂ A] [StarRing A] [StarModule ℂ A] (ρ : Nat → A) (φ : A →ₗ[ℂ] ℂ), Represents s.qubits ρ → Invariant s.qubits s.symmetry ρ φ →
      ∃ v, Agrees S.base.table (moment ρ φ) v) ∧
    ∀ (i : Key HSeq (List Mono)) (o : Nat) M, Allowed s S.base.table (whole i) → S.find (s.maker skip substitute merge) i = o →
      S.base.matrices[o]? = some (some M) → Right s S.base.table (whole i) M := by
  have hc := contract (B := B) (s := s) (skip := skip) (substitute := substitute) (merge := merge) h.room h.fit
  obtain ⟨i1, -, -⟩ := runs_spec ordered hc hl (new_inv _ (Sound.new s.qubits s.symmetry))
  refine ⟨fun A _ _ _ _ ρ φ hρ hφ => i1.ok.values h.room hρ hφ, fun i o M ha hf hm => ?_⟩
  obtain ⟨j, j1, j2⟩ := i1.right i o M hf hm
  exact same h.room ha j1 j2

/-- Allowed operations have results, so that there are runs of all kinds. -/
theorem C111_runs (h : Proper s) (hl : Runs (s.maker skip substitute merge) (terms B s) (PSystem.new Table.new) l S)
    {x : Op HSeq (List Mono) Raw B} (hx : Legal s S.base.table x) (ha : x ≠ .delete S.base.matrices.length) :
    ∃ S', Runs (s.maker skip substitute merge) (terms B s) (PSystem.new Table.new) (l ++ [x]) S' := by
  have hc := contract (B := B) (s := s) (skip := skip) (substitute := substitute) (merge := merge) h.room h.fit
  obtain ⟨h1, -⟩ := C109.C109_contract ordered hc (Sound.new s.qubits s.symmetry) hl (x := x) hx
  obtain ⟨⟨S', r⟩, e⟩ := Option.isSome_iff_exists.mp (h1 trivial ha)
  exact ⟨S', .step hl hx e⟩

end

/-- **C111, positive matrices.** If the functional is positive on `a† z a` for all `a`, then moment matrices and localizing matrices are positive semidefinite. -/
theorem C111_positive {s : Scene} (h : Proper s) {m : Nat × Nat} (hm : Usable s m) {t : Table} {M : Matrix} {z : Element} {ws : List HSeq} (hM : Shows s .localizing m t M z ws)
    {A : Type} [Ring A] [Algebra ℂ A] [StarRing A] [StarModule ℂ A] {ρ : Nat → A} {φ : A →ₗ[ℂ] ℂ} {v : Nat → ℂ} (hρ : Represents s.qubits ρ)
    (hφ : Invariant s.qubits s.symmetry ρ φ) (hv : Agrees t (moment ρ φ) v) (hpos : ∀ a, 0 ≤ φ (star a * z A ρ * a)) :
    (Matrix.of fun i j : Fin M.part.dim => MatrixSum.entryAt v M.part i j).PosSemidef := by
  obtain ⟨r, h1, h2⟩ := (hm.listed h).1
  rw [hM.listed, Option.some.injEq] at h1
  obtain ⟨hw, -⟩ := h2 ws h1.symm
  have lt : ∀ i : Fin M.part.dim, (i : Nat) < ws.length := fun i => hM.dim ▸ i.2
  have e : (Matrix.of fun i j : Fin M.part.dim => MatrixSum.entryAt v M.part i j) =
      Matrix.of fun i j : Fin M.part.dim => φ (star (Rewrite.evalWord ρ (ws[(i : Nat)]'(lt i)).ops) * z A ρ * Rewrite.evalWord ρ (ws[(j : Nat)]'(lt j)).ops) := by
    ext i j
    rw [Matrix.of_apply, Matrix.of_apply, hM.value A ρ φ v hρ hφ hv i j _ _ (List.getElem?_eq_getElem (lt i)) (List.getElem?_eq_getElem (lt j))]
    have wi := hw _ (List.getElem_mem (lt i))
    have wj := hw _ (List.getElem_mem (lt j))
    rw [PauliMatrix.word_star hρ (PauliMatrix.IsWord.letters wi.1), C103.operator_pos wi.2, C103.operator_pos wj.2]
    rfl
  rw [e]
  exact C82.gram_posSemidef φ _ hpos _

/-! ## Examples -/

/-- Three qubits in an open chain, with translations as symmetries. The hasher is not used. -/
def three : Scene := ⟨⟨false, 3, 1, false, true⟩, none, ⟨3, 1, 1, 0, 0⟩⟩

theorem three_proper : Proper three := ⟨C103.room_three, fun h => Bool.noConfusion h, fun _ h => Bool.noConfusion h⟩

/-- Its system. -/
noncomputable abbrev system : PMaker Table HSeq (List Mono) Raw Unit Matrix :=
  three.maker (fun _ _ => false) (fun _ _ _ => none) (fun _ _ => ((), true))

theorem three_usable (level N : Nat) : Usable three (level, N) := .inr (.inl rfl)

/-- The letters of qubit 0. -/
theorem three_letter (a : Nat) (ha : a < 3) : Letters 3 [a] := ⟨List.pairwise_singleton _ _, by simp; omega⟩

/-- `1 + Z` is twice a projector. -/
theorem one_plus_z (a : _root_.Matrix (PauliMatrix.Basis 3) (PauliMatrix.Basis 3) ℂ) : 0 ≤ PauliMatrix.ground 3 (star a * (1 + PauliMatrix.letter 3 2) * a) := by
  have hz := (PauliMatrix.represents 3).square 2 (by omega)
  have hs := (PauliMatrix.represents 3).star 2 (by omega)
  generalize PauliMatrix.letter 3 2 = z at *
  have e2 : star a * (1 + z) * a = (1 / 2 : ℂ) • (star ((1 + z) * a) * ((1 + z) * a)) := by
    rw [star_mul, star_add, star_one, hs]
    have : (1 + z) * (1 + z) = (2 : ℂ) • (1 + z) := by
      rw [mul_add, add_mul, add_mul, hz, two_smul]; simp; abel
    rw [show star a * (1 + z) * ((1 + z) * a) = star a * ((1 + z) * (1 + z)) * a by noncomm_ring, this, mul_smul_comm, smul_mul_assoc, smul_smul]
    norm_num
  rw [e2, map_smul]
  have half : (0 : ℂ) ≤ 1 / 2 := by
    rw [show (1 / 2 : ℂ) = ((1 / 2 : ℝ) : ℂ) by norm_num]
    exact Complex.zero_le_real.mpr (by norm_num)
  exact mul_nonneg half (PauliMatrix.ground_pos _)

/-- Some requests. -/
def requests : List (Op HSeq (List Mono) Raw Unit) := [.request (.moment (2, 1)), .request (.mono .commutator (1, 0) (made three [0]))]

theorem requests_run : ∃ S, Runs system (terms Unit three) (PSystem.new Table.new) requests S := by
  obtain ⟨S₁, r1⟩ := C111_runs (B := Unit) (skip := fun _ _ => false) (substitute := fun _ _ _ => none) (merge := fun _ _ => ((), true)) three_proper
    (.refl _) (x := .request (.moment (2, 1))) ((three_usable 2 1).listed three_proper).1 (by simp)
  exact C111_runs three_proper r1 (x := .request (.mono .commutator (1, 0) (made three [0])))
    ⟨((three_usable 1 0).listed three_proper).1, made_pos three_proper (three_letter 0 (by omega))⟩ (by simp)

/-- The polynomial `1 + Z`. -/
noncomputable def onePlusZ : List (List Nat × ℂ) := [([], 1), ([2], 1)]

theorem onePlusZ_letters : ∀ e ∈ onePlusZ, Letters three.qubits e.1 := by
  intro e he
  simp only [onePlusZ, List.mem_cons, List.not_mem_nil, or_false] at he
  rcases he with rfl | rfl
  · exact ⟨List.Pairwise.nil, by simp⟩
  · exact three_letter 2 (by omega)

/-- A moment matrix of nearest neighbours, commutators with X of the first qubit, and then the localizing matrix of `1 + Z` of the first qubit: in the state in
which all qubits are 0 it is positive. -/
example : ∃ S S' o M v, Runs system (terms Unit three) (PSystem.new Table.new) requests S ∧
    S.exec system (.raw .localizing (1, 1) (onePlusZ.map fun e => (made three e.1, e.2))) = some (S', some (o, M)) ∧
    Agrees S'.base.table (moment (PauliMatrix.letter 3) (PauliMatrix.ground 3)) v ∧
    (Matrix.of fun i j : Fin M.part.dim => MatrixSum.entryAt v M.part i j).PosSemidef := by
  obtain ⟨S, r2⟩ := requests_run
  obtain ⟨S', o, M, ws, e, g⟩ := (C111_raw_partial three_proper r2 (by simp [requests]) (three_usable 1 1) onePlusZ_letters).1 .localizing (by simp)
  have hx : (terms Unit three).legal S.base.table (.raw .localizing (1, 1) (onePlusZ.map fun e => (made three e.1, e.2))) := by
    refine ⟨((three_usable 1 1).listed three_proper).1, fun e he => ?_⟩
    obtain ⟨x, hx, rfl⟩ := List.mem_map.mp he
    exact made_pos three_proper (onePlusZ_letters x hx)
  have r3 : Runs system (terms Unit three) (PSystem.new Table.new) (requests ++ [_]) S' := Runs.step r2 hx e
  obtain ⟨v, hv⟩ := (C111_together three_proper r3).1 _ _ _ (PauliMatrix.represents 3) (PauliMatrix.ground_invariant 3 _)
  refine ⟨S, S', o, M, v, r2, e, hv, C111_positive three_proper (three_usable 1 1) g (PauliMatrix.represents 3) (PauliMatrix.ground_invariant 3 _) hv fun a => ?_⟩
  have e1 : (onePlusZ.map fun e : List Nat × ℂ => e.2 • Rewrite.evalWord (PauliMatrix.letter 3) e.1).sum = 1 + PauliMatrix.letter 3 2 := by
    simp [Rewrite.evalWord, onePlusZ]
  rw [e1]
  exact one_plus_z a

/-! ## What is not so -/

/-- Making the commutator of the identity with X does not enter X in the table. -/
theorem commutator_table {t : Table} {r : Option SymbolMatrix.MonoMat}
    (h : PauliMatrix.create 3 .chain Table.new (.commutator (seq 3 [0] .pos)) [HSeq.identity .pos] = some (t, r)) : t = Table.new := by
  have e1 : OperatorMatrix.singleAliased (PauliMatrix.host 3 .chain) ((PauliMatrix.Kind.commutator (seq 3 [0] .pos)).fn 3)
      (OperatorMatrix.rowWords (PauliMatrix.host 3 .chain) [HSeq.identity .pos]) [HSeq.identity .pos] = (⟨1, [HSeq.zero]⟩, some ⟨1, [HSeq.zero]⟩) := by
    rfl
  unfold PauliMatrix.create at h
  rw [e1] at h
  unfold SymbolMatrix.create convert at h
  simp only [Option.getD_some] at h
  have hv : ∀ b, visited b ⟨1, [HSeq.zero]⟩ = [HSeq.zero] := fun b => by cases b <;> simp [visited, C70.visitLower_one]
  have hm : Table.new.mergeAll (PauliMatrix.host 3 .chain).env [Symbols.Sym.zero, Symbols.Sym.one] = some (Table.new, [0, 1], 0) := by rfl
  have hi : ∀ b, identify (PauliMatrix.host 3 .chain) b ⟨1, [HSeq.zero]⟩ = [Symbols.Sym.zero, Symbols.Sym.one] := fun b => by
    unfold identify
    rw [hv]
    rfl
  rw [hi, hm] at h
  simp only [Option.map_some, Option.bind_some] at h
  split at h
  · cases h; rfl
  · obtain ⟨M, -, e⟩ := Option.map_eq_some_iff.mp h
    cases e; rfl

/-- C111 refuted for commutators of polynomials: in contexts with translational symmetry, a request for the matrix of commutators of `1 X` throws, though there is a
matrix of commutators of X, and though both would be right if the words had symbols. The matrices of commutators do not enter X in the table. -/
theorem C111_refuted_commutator :
    (∃ S' o M, (PSystem.new Table.new).request system (.mono .commutator (0, 0) (made three [0])) = some (S', some (o, M))) ∧
    (∃ S' o M, (PSystem.new Table.new).exec system (.raw .anticommutator (0, 0) [(made three [0], 1)]) = some (S', some (o, M))) ∧
    ∃ S', (PSystem.new Table.new).exec system (.raw .commutator (0, 0) [(made three [0], 1)]) = some (S', none) := by
  have hd : ∀ i, Op.delete i ∉ ([] : List (Op HSeq (List Mono) Raw Unit)) := by simp
  have r0 : Runs system (terms Unit three) (PSystem.new Table.new) [] (PSystem.new Table.new) := .refl _
  obtain ⟨S', o, M, ws, e, -⟩ := (C111_words three_proper r0 hd (three_usable 0 0)).2 .commutator [0] (three_letter 0 (by omega))
  obtain ⟨S'', o', M', ws', e', -⟩ := (C111_raw_partial three_proper r0 hd (three_usable 0 0) (q := [([0], 1)]) (by
    intro x hx
    rw [List.mem_singleton.mp hx]
    exact three_letter 0 (by omega))).1 .anticommutator (by simp)
  refine ⟨⟨S', o, M, e⟩, ⟨S'', o', M', e'⟩, ?_⟩
  have ht : S'.base.table = Table.new := by
    unfold PSystem.request PSystem.create at e
    dsimp only at e
    rw [if_neg (by decide)] at e
    obtain ⟨q, q1, q2⟩ := Option.bind_eq_some_iff.mp e
    obtain ⟨x, x1, rfl⟩ := Option.map_eq_some_iff.mp q1
    have hx : x.1 = Table.new := by
      have x1 : three.make Table.new (kindOf .commutator (made three [0])) (0, 0) = some x := x1
      unfold Scene.make at x1
      have hw : three.words (0, 0) = some (some [HSeq.identity .pos]) := rfl
      rw [hw, Option.bind_some] at x1
      obtain ⟨y, y1, rfl⟩ := Option.map_eq_some_iff.mp x1
      exact commutator_table (r := y.2) y1
    obtain ⟨t1, v⟩ := x
    obtain rfl : t1 = Table.new := hx
    cases v with
    | none => cases q2
    | some m =>
      have q2 : (if (((PSystem.new Table.new : PSystem Table HSeq (List Mono) Unit Matrix).made (Table.new, some m)).1.contains system (.mono .commutator (0, 0) (made three [0])))
        then none else ((((PSystem.new Table.new : PSystem Table HSeq (List Mono) Unit Matrix).made (Table.new, some m)).1.insert system
          (.mono .commutator (0, 0) (made three [0])) 0).notify system (.mono .commutator (0, 0) (made three [0])) 0).map fun S' => (S', some (0, m))) = some (S', some (o, M)) := q2
      split at q2
      · cases q2
      · obtain ⟨S2, n1, n2⟩ := Option.map_eq_some_iff.mp q2
        cases n1
        cases n2
        rfl
  have hw : (PSystem.new Table.new).rawParts system .commutator (0, 0) false [made three [0]] = some (S', some [M]) := by
    unfold PSystem.rawParts
    rw [show (PSystem.new Table.new).createMono system .commutator (0, 0) false (made three [0]) = some (S', some (o, M)) from e]
    rfl
  refine ⟨S', ?_⟩
  show PSystem.makeRaw system .commutator (0, 0) false [(made three [0], 1)] (PSystem.new Table.new) = _
  unfold PSystem.makeRaw
  rw [if_pos (show system.aliases = true from rfl), show system.rawWords [(made three [0], 1)] = [made three [0]] from rfl, hw]
  have hl : (Table.new.lookup (PauliMatrix.env 3 .chain) (made three [0])).1 = none := by decide +kernel
  have hs : three.sumRaw S'.base.table (0, 0) [(made three [0], 1)] [M] = some (S'.base.table, none) := by
    have hcon : RawPoly.construct (PauliMatrix.env three.qubits three.symmetry) S'.base.table byId [(made three [0], 1)] = none := by
      rw [ht]
      show Option.map _ (RawPoly.storage (PauliMatrix.env 3 .chain) Table.new [(made three [0], 1)]) = none
      unfold RawPoly.storage
      rw [List.mapM_cons, hl]
      rfl
    unfold Scene.sumRaw
    rw [hcon]
    rfl
  show (Option.map S'.made (three.sumRaw S'.base.table (0, 0) [(made three [0], 1)] [M])) = _
  rw [hs]
  rfl

/-- C111 refuted for signs: after a matrix was made for `Z` of the first qubit, a request for `i Z` gives that same matrix, in all contexts; and it is not right for
`i Z`. Words are compared by their hashes, which leave out signs. -/
theorem C111_refuted_sign {B : Type} {s : Scene} {skip : Table → Nat → Bool} {substitute : Table → B → Matrix → Option (Table × Option Matrix)} {merge : B → B → B × Bool}
    (h : Proper s) (h0 : 0 < s.qubits) {m : Nat × Nat} (hm : Usable s m) :
    ∃ S o M, (PSystem.new Table.new).request (s.maker skip substitute merge) (.mono .localizing m (made s [2])) = some (S, some (o, M)) ∧
      S.request (s.maker skip substitute merge) (.mono .localizing m (s.sequence ([2], .imag))) = some (S, some (o, M)) ∧
      ∀ ws, ¬ Shows s .localizing m S.base.table M (wordOp (s.sequence ([2], .imag))) ws := by
  have hd : ∀ i, Op.delete i ∉ ([] : List (Op HSeq (List Mono) Raw B)) := by simp
  have r0 : Runs (s.maker skip substitute merge) (terms B s) (PSystem.new Table.new) [] (PSystem.new Table.new) := .refl _
  have hz : Letters s.qubits [2] := ⟨List.pairwise_singleton _ _, by simp; omega⟩
  obtain ⟨S, o, M, ws, e, g, -⟩ := (C111_words h r0 hd hm).2 .localizing [2] hz
  refine ⟨S, o, M, e, ?_, fun ws' g' => ?_⟩
  · exact C109.C109_again ordered ⟨Table.new, [], .refl _⟩ e (R := Raw) (.refl _) (by simp) ⟨rfl, rfl, rfl⟩
  · have hw : ws' = ws := by
      have := g'.listed.symm.trans g.listed
      simpa using this
    subst hw
    obtain ⟨r, l1, l2⟩ := (hm.listed h).1
    rw [g.listed, Option.some.injEq] at l1
    obtain ⟨i, hi⟩ := List.mem_iff_getElem?.mp (l2 ws' l1.symm).2
    have r1 := Runs.step r0 (x := .request (.mono .localizing m (made s [2]))) ⟨(hm.listed h).1, made_pos h hz⟩ e
    obtain ⟨v, hv⟩ := (C111_together h r1).1 _ _ _ (PauliMatrix.represents s.qubits) (PauliMatrix.ground_invariant s.qubits _)
    have v1 := g.value _ _ _ v (PauliMatrix.represents s.qubits) (PauliMatrix.ground_invariant s.qubits _) hv i i _ _ hi hi
    have v2 := g'.value _ _ _ v (PauliMatrix.represents s.qubits) (PauliMatrix.ground_invariant s.qubits _) hv i i _ _ hi hi
    have o1 : operator (PauliMatrix.letter s.qubits) (HSeq.identity .pos) = 1 := by
      rw [C103.operator_pos rfl]
      simp [HSeq.identity, Rewrite.evalWord]
    have o2 : wordOp (s.sequence ([2], .imag)) _ (PauliMatrix.letter s.qubits) = Complex.I • Rewrite.evalWord (PauliMatrix.letter s.qubits) [2] := rfl
    rw [v1, o1] at v2
    simp only [target, o2, one_mul, mul_one, map_smul, PauliMatrix.ground_word hz] at v2
    simp [Complex.ext_iff] at v2

example : Proper three ∧ 0 < three.qubits ∧ Usable three (1, 2) := ⟨three_proper, by decide, three_usable 1 2⟩

end Moment.C111
