import Verif.Props.C70_SymbolMatrix

/-! # C50: multiplication of a matrix of symbols by words, monomials and polynomials -/

namespace Moment.C50
open Moment.Symbols Moment.SymbolMatrix
open Moment.Poly (Mono)
open Moment.MatrixBasis (Mat)

/-- The result of a multiplication: table and matrix, such that the value of each entry is `g` times the moment of the product of `s` and the word that
was at its place. -/
structure Product (h : Host) (W : HSeq → Prop) (pre : Bool) (s : HSeq) (g : ℂ) (ops : Mat HSeq) (t t' : Table) (M : MonoMat) : Prop where
  ready : Ready h W t'
  dim : M.sym.mat.dim = ops.dim
  square : M.sym.mat.Square
  prefactor : M.prefactor = g
  own : M.ops = some ⟨ops.dim, ops.data.map (product h pre s)⟩
  kept : ∀ (id : Nat) (x : Sym), t.syms[id]? = some x → t'.syms[id]? = some x
  value : ∀ L v, Moments h.env W L → KeepsMoments h L → Agrees t' L v → ∀ i j, i < ops.dim → j < ops.dim →
    valueAt v M.sym.mat i j = g * L (product h pre s (word ops i j))

/-- Multiplication by a word (not zero) with a factor. -/
theorem C50_word {h : Host} {W : HSeq → Prop} (hS : Setting h W) {t : Table} (ht : Ready h W t) (pre : Bool) (s : HSeq) (hs : s.isZero = false) (f : ℂ)
    {A : MonoMat} {ops : Mat HSeq} (hA : A.ops = some ops) (hu : UsableProduct h W pre s ops) :
    ∃ t' M, rawMono h t pre s f A = some (t', some M) ∧ Product h W pre s (A.prefactor * f) ops t t' M := by
  obtain ⟨t', M, h1, h2, h3, h4, h5, h6, h7, h8, h9, h10⟩ := create_times hS (ht.fit hS) hu (A.prefactor * f)
  exact ⟨t', M, by simp [rawMono, hs, hA, h1], Ready.matrix ht h9 h1, h4, h5, h7, h8, fun id x hx => get_prefix h3 hx, h10⟩

/-- The words of the sample matrix, multiplied by the letter 1 from the left, are words. -/
theorem usable_sample (pre : Bool) : UsableProduct (C70.freeHost 2) (C27.FreeWord 2 5) pre (C70.letters 2 [1]) C70.sample := by
  refine ⟨rfl, ?_, ?_⟩
  · intro w hw
    right
    revert w
    cases pre <;> (unfold C02.IsWord; decide +kernel)
  · intro _ w hw _
    revert w
    cases pre <;> decide +kernel

theorem setting_sample : Setting (C70.freeHost 2) (C27.FreeWord 2 5) := C70.setting_free 2 5 (by norm_num) (by decide)

theorem usable_sample' : Usable (C70.freeHost 2) (C27.FreeWord 2 5) C70.sample := by
  refine ⟨rfl, ?_, ?_⟩
  · intro w hw
    right
    revert w
    unfold C02.IsWord
    decide +kernel
  · intro _ w hw _
    revert w
    decide +kernel

/-- The matrix of 16 words, made with prefactor 3, times 2·b: at (3,2) there is 6·b·bab. -/
example : ∃ t A t' M, create (C70.freeHost 2) Table.new C70.sample none 3 = some (t, some A) ∧
    rawMono (C70.freeHost 2) t true (C70.letters 2 [1]) 2 A = some (t', some M) ∧
    ∀ L v, Moments (C70.freeHost 2).env (C27.FreeWord 2 5) L → Agrees t' L v → valueAt v M.sym.mat 3 2 = 6 * L (C70.letters 2 [1, 1, 0, 1]) := by
  obtain ⟨t, A, h1, h2⟩ := create_spec setting_sample (Ready.new.fit setting_sample) 3 (ops := C70.sample) (al := none) usable_sample'
  obtain ⟨t', M, h3, h4⟩ := C50_word setting_sample (Ready.matrix (al := none) Ready.new usable_sample' h1) true (C70.letters 2 [1]) (by decide +kernel) 2 h2.own
    (usable_sample true)
  refine ⟨t, A, t', M, h1, h3, fun L v hL hv => ?_⟩
  rw [h4.value L v hL (by intro h; exact absurd h (by decide)) hv 3 2 (by decide) (by decide), h2.prefactor]
  have : product (C70.freeHost 2) true (C70.letters 2 [1]) (word C70.sample 3 2) = C70.letters 2 [1, 1, 0, 1] := by decide +kernel
  rw [this]
  norm_num

theorem zeroMatrix_spec {h : Host} {W : HSeq → Prop} (hS : Setting h W) {t : Table} (ht : Ready h W t) (n : Nat) :
    ∃ M, zeroMatrix h t n = some M ∧ M.sym.mat.dim = n ∧ M.sym.mat.Square ∧
      ∀ v : Nat → ℂ, Poly.Respects (MatrixBasis.polyTable t) v → ∀ i j, valueAt v M.sym.mat i j = 0 := by
  have h0 := fit_pos (ht.fit hS)
  obtain ⟨B, b1, b2, b3, -, -, b4⟩ := makeMono_agree h0
    (isHerm h.env ((if h.env.aliases then some (⟨n, List.replicate (n * n) HSeq.zero⟩ : Mat HSeq) else none).getD ⟨n, List.replicate (n * n) HSeq.zero⟩))
    (S := ⟨n, List.replicate (n * n) ⟨0, false, 0⟩⟩)
    (by simp [MatrixBasis.Mat.Square]) (by intro m hm; rw [(List.mem_replicate.mp hm).2]; exact h0)
  refine ⟨⟨_, _, B, 1⟩, by simp only [zeroMatrix, fromOps, b1, Option.map_some]; rfl, b2, b3, fun v hv i j => ?_⟩
  rw [b4 v hv]
  unfold valueAt MatrixBasis.Mat.get?
  simp only [List.getElem?_replicate]
  split <;> simp [Poly.Mono.value]

/-- Multiplication by zero: by the zero word, the zero symbol, or the zero polynomial. The table stays as it is and all values are zero. -/
theorem C50_zero {h : Host} {W : HSeq → Prop} (hS : Setting h W) {t : Table} (ht : Ready h W t) (pre : Bool) (A : MonoMat) :
    ∃ M : MonoMat, M.sym.mat.dim = A.sym.mat.dim ∧ M.sym.mat.Square ∧
      (∀ v : Nat → ℂ, Poly.Respects (MatrixBasis.polyTable t) v → ∀ i j, valueAt v M.sym.mat i j = 0) ∧
      (∀ s f, s.isZero = true → rawMono h t pre s f A = some (t, some M)) ∧
      (∀ m : Mono, m.id = 0 → timesMono h t pre m A = some (t, some M)) ∧
      ∀ o, timesPoly h t o pre [] A = some (t, some (.mono M)) := by
  obtain ⟨M, h1, h2, h3, h4⟩ := zeroMatrix_spec hS ht A.sym.mat.dim
  exact ⟨M, h2, h3, h4, fun s f hs => by simp [rawMono, hs, h1], fun m hm => by simp [timesMono, hm, h1], fun o => by simp [timesPoly, h1]⟩

example : Ready (C70.freeHost 2) (C27.FreeWord 2 5) Table.new := Ready.new

/-- Multiplication by one gives a matrix with the same values, flags and prefactor, if there is a matrix of operators (see `C50_refuted_clone`). -/
theorem C50_one_partial {h : Host} {W : HSeq → Prop} (hS : Setting h W) {t : Table} (ht : Ready h W t) (pre conj : Bool) {A : MonoMat} {ops : Mat HSeq}
    (hA : A.ops = some ops) (hsq : A.sym.mat.Square) (hk : ∀ m ∈ A.sym.mat.data, m.id < t.syms.length) :
    ∃ M, timesMono h t pre ⟨1, conj, 1⟩ A = some (t, some M) ∧ M.ops = A.ops ∧ M.prefactor = A.prefactor ∧ M.sym.mat.dim = A.sym.mat.dim ∧
      M.sym.hermitian = A.sym.hermitian ∧ M.sym.complexCoefs = A.sym.complexCoefs ∧ M.sym.complexBasis = A.sym.complexBasis ∧
      ∀ v : Nat → ℂ, Poly.Respects (MatrixBasis.polyTable t) v → ∀ i j, valueAt v M.sym.mat i j = valueAt v A.sym.mat i j := by
  obtain ⟨B, b1, b2, b3, b4, b5, b6⟩ := makeMono_agree (fit_pos (ht.fit hS))
    (isHerm h.env ((if h.env.aliases then A.aliased else none).getD ops)) hsq hk
  refine ⟨⟨some ops, if h.env.aliases then A.aliased else none, { A.sym with mat := B.mat }, A.prefactor⟩, ?_, hA.symm, rfl, b2, rfl, rfl, rfl, b6⟩
  simp [timesMono, clone, hA, fromOps, b1]

/-- A matrix that was created has the properties asked for. -/
example : ∃ t A, create (C70.freeHost 2) Table.new C70.sample none 3 = some (t, some A) ∧ A.ops = some C70.sample ∧ A.sym.mat.Square ∧
    ∀ m ∈ A.sym.mat.data, m.id < t.syms.length := by
  obtain ⟨t, A, h1, h2⟩ := create_spec setting_sample (Ready.new.fit setting_sample) 3 (ops := C70.sample) (al := none) usable_sample'
  exact ⟨t, A, h1, h2.own, h2.stands.square, h2.stands.known⟩

/-- The word of a symbol other than 0 is not zero. -/
theorem word_nonzero {h : Host} {W : HSeq → Prop} (hS : Setting h W) {t : Table} (ht : Ready h W t) {id : Nat} {s : Sym} {q : HSeq}
    (hs : t.syms[id]? = some s) (hq : s.seq = some q) (h0 : id ≠ 0) : q.isZero = false := by
  have hi := (ht.fit hS).inv
  have e : t.keys[id]? = some (id, some q, s.conj) := by
    have h1 : t.keys[id]? = some (s.id, some q, s.conj) := by simp [Table.keys, hs, Sym.key, hq]
    have h2 : s.id = id := hi.ids _ _ h1
    rw [h1, h2]
  have h1 := (hi.full _ _ _ e).2.1
  have h2 := (hi.full _ _ _ hi.zero).2.1
  simp only [HSeq.isZero, beq_eq_false_iff_ne]
  intro h3
  rw [h3] at h1
  have : HSeq.zero.hash = 0 := rfl
  rw [this, h1] at h2
  simp only [Option.some.injEq] at h2
  exact h0 (by exact_mod_cast h2)

/-- Multiplication by a monomial of a Hermitian symbol multiplies by the word of the symbol. Missing: other symbols, for which the code exchanges the word
and its conjugate (`C50_monomial_exchanged`, `C50_refuted_monomial`). -/
theorem C50_monomial_partial {h : Host} {W : HSeq → Prop} (hS : Setting h W) {t : Table} (ht : Ready h W t) (pre : Bool) {m : Mono} {s : Sym} {w : HSeq}
    (hs : t.syms[m.id]? = some s) (hh : s.herm = true) (hd : Denotes t m w) (h0 : m.id ≠ 0) (h1 : ¬ (m.id = 1 ∧ m.factor = 1))
    {A : MonoMat} {ops : Mat HSeq} (hA : A.ops = some ops) (hu : UsableProduct h W pre w ops) :
    ∃ t' M, timesMono h t pre m A = some (t', some M) ∧ Product h W pre w (A.prefactor * m.factor) ops t t' M := by
  obtain ⟨s', e, q, hq, hw⟩ := hd
  rw [hs] at e
  obtain rfl := Option.some.inj e
  have hqw : q = w := by
    split at hw
    · simpa [hh] using hw
    · exact hw
  subst hqw
  obtain ⟨t', M, h2, h3⟩ := C50_word hS ht pre q (word_nonzero hS ht hs hq h0) m.factor hA hu
  refine ⟨t', M, ?_, h3⟩
  simp only [timesMono, h0, if_false, h1, hA, hs, Option.bind_some]
  split <;> simp [seqConj, hh, hq, h2]

/-- The identity with a factor. -/
example : ∃ t' M, timesMono (C70.freeHost 2) Table.new true ⟨1, false, 2⟩ ⟨some C70.sample, none, ⟨⟨0, []⟩, true, false, false⟩, 3⟩ = some (t', some M) ∧
    Product (C70.freeHost 2) (C27.FreeWord 2 5) true (HSeq.identity .pos) (3 * 2) C70.sample Table.new t' M := by
  refine C50_monomial_partial setting_sample Ready.new true (m := ⟨1, false, 2⟩) (s := Sym.one) rfl rfl ⟨Sym.one, rfl, _, rfl, rfl⟩ (by simp)
    (by norm_num) rfl ⟨rfl, ?_, ?_⟩
  · intro w hw
    right
    revert w
    unfold C02.IsWord
    decide +kernel
  · intro _ w hw _
    revert w
    decide +kernel

/-- For a symbol that is not Hermitian the code multiplies by the conjugate word if the monomial is not conjugated, and by the word if it is. -/
theorem C50_monomial_exchanged {h : Host} {W : HSeq → Prop} (hS : Setting h W) {t : Table} (ht : Ready h W t) (pre : Bool) {m : Mono} {s : Sym}
    {q w : HSeq} (hs : t.syms[m.id]? = some s) (hh : s.herm = false) (hq : s.seq = some q) (hw : s.conj = some w) (hz : w.isZero = false)
    (h0 : m.id ≠ 0) (h1 : m.id ≠ 1) {A : MonoMat} {ops : Mat HSeq} (hA : A.ops = some ops)
    (hu : UsableProduct h W pre (if m.conj then q else w) ops) :
    ∃ t' M, timesMono h t pre m A = some (t', some M) ∧ Product h W pre (if m.conj then q else w) (A.prefactor * m.factor) ops t t' M := by
  have hz' : (if m.conj then q else w).isZero = false := by
    split
    · exact word_nonzero hS ht hs hq h0
    · exact hz
  obtain ⟨t', M, h2, h3⟩ := C50_word hS ht pre _ hz' m.factor hA hu
  refine ⟨t', M, ?_, h3⟩
  simp only [timesMono, h0, if_false, h1, false_and, hA, hs, Option.bind_some]
  split
  · rename_i hc
    rw [if_pos hc] at h2
    rw [hq, Option.bind_some, h2]
  · rename_i hc
    rw [if_neg hc] at h2
    rw [seqConj, hh, if_neg (by simp), hw, Option.bind_some, h2]

theorem rawPoly_spec {t : Table} : ∀ {p : List Mono} {ws : List HSeq}, List.Forall₂ (Denotes t) p ws →
    rawPoly t p = some (some (List.zipWith (fun w m => rawElem w m.factor) ws p))
  | _, _, .nil => rfl
  | m :: p, w :: ws, .cons ⟨s, hs, q, hq, hw⟩ hl => by
    have ih := rawPoly_spec hl
    unfold rawPoly
    simp only [hs, hq, ih, List.zipWith_cons_cons]
    split at hw
    · rename_i hc
      split at hw
      · rename_i hh
        simp [hc, seqConj, hh, hq, hw]
      · rename_i hh
        simp [hc, seqConj, hh, hw]
    · rename_i hc
      simp [hc, hw]

/-- Multiplication by a polynomial of at least two terms: the value of each entry is the sum of the products with the operators the monomials stand
for. `LinearIn` says that phases can be taken out of products, as is done with the phases of the words. -/
theorem C50_polynomial {h : Host} {W : HSeq → Prop} (hS : Setting h W) {t : Table} (ht : Ready h W t) (o : Poly.Order) (pre : Bool)
    {m1 m2 : Mono} {p : List Mono} {ws : List HSeq} (hd : List.Forall₂ (Denotes t) (m1 :: m2 :: p) ws) {A : MonoMat} {ops : Mat HSeq}
    (hA : A.ops = some ops) (hu : ∀ w ∈ ws, UsableProduct h W pre { w with sign := .pos } ops) :
    ∃ t' P, timesPoly h t o pre (m1 :: m2 :: p) A = some (t', some (.poly P)) ∧ Ready h W t' ∧ P.mat.dim = ops.dim ∧ P.mat.Square ∧
      (∀ (id : Nat) (x : Sym), t.syms[id]? = some x → t'.syms[id]? = some x) ∧
      ∀ L v, Moments h.env W L → KeepsMoments h L → (∀ w ∈ ws, LinearIn h pre L w ops) → Agrees t' L v → ∀ i j, i < ops.dim → j < ops.dim →
        polyAt v P.mat i j =
          (List.zipWith (fun m w => A.prefactor * m.factor * L (product h pre w (word ops i j))) (m1 :: m2 :: p) ws).sum := by
  have hraw := rawPoly_spec hd
  obtain ⟨w1, l1, d1, hd1, rfl⟩ := List.forall₂_cons_left_iff.mp hd
  obtain ⟨w2, l2, d2, hd2, rfl⟩ := List.forall₂_cons_left_iff.mp hd1
  have husable : ∀ x ∈ List.zipWith (fun (w : HSeq) (m : Mono) => rawElem w m.factor) (w1 :: w2 :: l2) (m1 :: m2 :: p), UsableProduct h W pre x.1 ops := by
    intro x hx
    obtain ⟨k, hk, rfl⟩ := List.getElem_of_mem hx
    rw [List.getElem_zipWith]
    exact hu _ (List.getElem_mem _)
  obtain ⟨t', Ms, c1, c2, c3, c4, c5⟩ := createAll_spec hS (pre := pre) (A := ops) A.prefactor _ (ht.fit hS) ht husable
  obtain ⟨P, s1, s2, s3, s4, s5⟩ := synthesize_spec o c5
  obtain ⟨B, m1', m2'⟩ := makePoly_known s4
  refine ⟨t', B, ?_, c3, by rw [m2', s2], by rw [m2']; exact s3, fun id x hx => get_prefix c4 hx, ?_⟩
  · simp only [timesPoly, hraw, Option.bind_some, List.zipWith_cons_cons, rawTimes, hA]
    simp only [List.zipWith_cons_cons] at c1
    simp only [c1, Option.bind_some, s1, m1', Option.map_some]
  · intro L v hL hk hlin hv i j hi hj
    rw [m2', s5 L v hL hk hv i j hi hj]
    have hsq := usable_square (hu w1 List.mem_cons_self)
    have hmem := (get_some hsq hi hj).2
    have hz : ∀ (a : List HSeq) (b : List Mono), (∀ w ∈ a, LinearIn h pre L w ops) →
        List.map (fun x : HSeq × ℂ => A.prefactor * x.2 * L (product h pre x.1 (word ops i j))) (List.zipWith (fun w m => rawElem w m.factor) a b) =
          List.zipWith (fun m w => A.prefactor * m.factor * L (product h pre w (word ops i j))) b a := by
      intro a
      induction a with
      | nil => intro b _; cases b <;> simp
      | cons w a ih =>
        intro b hb
        cases b with
        | nil => simp
        | cons m b =>
          simp only [List.zipWith_cons_cons, List.map_cons]
          rw [ih b fun w hw => hb w (List.mem_cons_of_mem _ hw)]
          simp only [rawElem]
          rw [hb w List.mem_cons_self _ hmem, scalar_phase]
          simp only [List.cons.injEq, and_true]
          ring
    exact congrArg List.sum (hz (w1 :: w2 :: l2) (m1 :: m2 :: p) hlin)

/-- The table after the words ab and ba were registered. -/
def table : Table := ⟨[Sym.zero, Sym.one, ⟨2, some (C70.letters 2 [0, 1]), some (C70.letters 2 [1, 0]), false, false, some 1, some 0⟩],
  [((C70.letters 2 [1, 0]).hash, -2), ((C70.letters 2 [0, 1]).hash, 2), (1, 1), (0, 0)], ⟨[1, 2], [2], [none, some 0], [some 1]⟩⟩

theorem ready_table : Ready (C70.freeHost 2) (C27.FreeWord 2 5) table := by
  refine Ready.step Ready.new (o := .pair (C70.letters 2 [0, 1])) (r := some 2) ?_ trivial (by decide +kernel)
  exact Or.inr ⟨rfl, by simp [C70.letters, C02.IsWord], by simp [C70.letters]⟩

/-- The identity matrix of one row times 5·ab + 7·(ab)*. -/
example : ∃ t' P, timesPoly (C70.freeHost 2) table Poly.byId true [⟨2, false, 5⟩, ⟨2, true, 7⟩]
      ⟨some ⟨1, [HSeq.identity .pos]⟩, none, ⟨⟨1, [⟨1, false, 1⟩]⟩, true, false, false⟩, 1⟩ = some (t', some (.poly P)) ∧
    ∀ L v, Moments (C70.freeHost 2).env (C27.FreeWord 2 5) L → Agrees t' L v →
      polyAt v P.mat 0 0 = 5 * L (C70.letters 2 [0, 1]) + 7 * L (C70.letters 2 [1, 0]) := by
  have hd : List.Forall₂ (Denotes table) [⟨2, false, 5⟩, ⟨2, true, 7⟩] [C70.letters 2 [0, 1], C70.letters 2 [1, 0]] :=
    .cons ⟨_, rfl, _, rfl, rfl⟩ (.cons ⟨_, rfl, _, rfl, rfl⟩ .nil)
  have hu : ∀ w ∈ [C70.letters 2 [0, 1], C70.letters 2 [1, 0]],
      UsableProduct (C70.freeHost 2) (C27.FreeWord 2 5) true { w with sign := .pos } ⟨1, [HSeq.identity .pos]⟩ := by
    intro w hw
    refine ⟨rfl, ?_, ?_⟩
    · intro x hx
      right
      revert w x
      unfold C02.IsWord
      decide +kernel
    · intro _ x hx _
      revert w x
      decide +kernel
  obtain ⟨t', P, h1, -, -, -, -, h2⟩ := C50_polynomial setting_sample ready_table Poly.byId true hd
    (A := ⟨some ⟨1, [HSeq.identity .pos]⟩, none, ⟨⟨1, [⟨1, false, 1⟩]⟩, true, false, false⟩, 1⟩) rfl hu
  refine ⟨t', P, h1, fun L v hL hv => ?_⟩
  rw [h2 L v hL (by intro h; exact absurd h (by decide)) ?_ hv 0 0 (by decide) (by decide)]
  rotate_left
  · intro w hw x _
    simp only [List.mem_cons, List.not_mem_nil, or_false] at hw
    rcases hw with rfl | rfl <;> simp [C70.letters, Rewrite.phase]
  have e1 : product (C70.freeHost 2) true (C70.letters 2 [0, 1]) (word ⟨1, [HSeq.identity .pos]⟩ 0 0) = C70.letters 2 [0, 1] := by decide +kernel
  have e2 : product (C70.freeHost 2) true (C70.letters 2 [1, 0]) (word ⟨1, [HSeq.identity .pos]⟩ 0 0) = C70.letters 2 [1, 0] := by decide +kernel
  simp [e1, e2]

/-! ## Refutations -/

/-- The identity matrix of one row. -/
noncomputable def unit : MonoMat := ⟨some ⟨1, [HSeq.identity .pos]⟩, none, ⟨⟨1, [⟨1, false, 1⟩]⟩, true, false, false⟩, 1⟩

/-- The identity matrix times the symbol of ab is the conjugate of that symbol, that is ba. -/
theorem C50_refuted_monomial : ∃ M, timesMono (C70.freeHost 2) table true ⟨2, false, 1⟩ unit = some (table, some M) ∧
    M.sym.mat = ⟨1, [⟨2, true, 1⟩]⟩ ∧ M.ops = some ⟨1, [C70.letters 2 [1, 0]]⟩ ∧ Denotes table ⟨2, false, 1⟩ (C70.letters 2 [0, 1]) := by
  refine ⟨⟨some ⟨1, [C70.letters 2 [1, 0]]⟩, none, ⟨⟨1, [⟨2, true, 1⟩]⟩, false, false, true⟩, 1⟩, ?_, rfl, rfl, ⟨_, rfl, _, rfl, rfl⟩⟩
  have h1 : create (C70.freeHost 2) table ⟨1, [C70.letters 2 [1, 0]]⟩ none 1 =
      some (table, some ⟨some ⟨1, [C70.letters 2 [1, 0]]⟩, none, ⟨⟨1, [⟨2, true, 1⟩]⟩, false, false, true⟩, 1⟩) := by
    refine C70.create_one (b := false) rfl (by decide +kernel) (ids := [0, 1, 2]) (n := 0) (by decide +kernel)
      (e := (⟨2, true, 1⟩, ⟨2, some (C70.letters 2 [0, 1]), some (C70.letters 2 [1, 0]), false, false, some 1, some 0⟩)) ?_ ?_
    · have h4 : table.find (C70.letters 2 [1, 0]).hash = some (2, true) := by decide +kernel
      simp only [entry, h4, Option.bind_some]
      simp [table, scalar, C70.letters]
    · simp [table, MatrixBasis.makeMono, MatrixBasis.plainMono, MatrixBasis.dropZero]
  have h2 : timesWord (C70.freeHost 2) true (C70.letters 2 [1, 0]) ⟨1, [HSeq.identity .pos]⟩ = ⟨1, [C70.letters 2 [1, 0]]⟩ := by
    simp only [timesWord, List.map_cons, List.map_nil, if_true, MatrixBasis.Mat.mk.injEq, true_and, List.cons.injEq, and_true]
    decide +kernel
  have h3 : simplified (C70.freeHost 2) ⟨1, [C70.letters 2 [1, 0]]⟩ = none := rfl
  have h4 : table.syms[2]? = some ⟨2, some (C70.letters 2 [0, 1]), some (C70.letters 2 [1, 0]), false, false, some 1, some 0⟩ := rfl
  have h5 : (C70.letters 2 [1, 0]).isZero = false := by decide +kernel
  simp [timesMono, unit, h4, seqConj, rawMono, h5, h2, h3, h1]

/-- Multiplication by one reads a null pointer if the matrix has no matrix of operators, for instance because it was imported or made by substitution.
Multiplication by two throws an exception for the same matrix. -/
theorem C50_refuted_clone (h : Host) (t : Table) (pre : Bool) (A : MonoMat) (hA : A.ops = none) :
    timesMono h t pre ⟨1, false, 1⟩ A = none ∧ timesMono h t pre ⟨1, false, 2⟩ A = some (t, none) := by
  constructor
  · simp [timesMono, clone, hA]
  · simp [timesMono, hA]

/-- The algebra of two letters with the rule aa = 0. -/
def nilHost : Host where
  env := { C27.freeEnv 2 with conj := HSeq.conjugate { radix := 2, simplify := fun w g => if [0, 0] <:+: w then none else some (w, g) } false }
  mul := HSeq.multiply { radix := 2, simplify := fun w g => if [0, 0] <:+: w then none else some (w, g) } false
  canNonHerm := true

/-- The table with a, b, and ba. -/
def nilTable : Table := ⟨[Sym.zero, Sym.one, ⟨2, some (C70.letters 2 [0]), none, true, false, some 1, none⟩,
    ⟨3, some (C70.letters 2 [1]), none, true, false, some 2, none⟩,
    ⟨4, some (C70.letters 2 [0, 1]), some (C70.letters 2 [1, 0]), false, false, some 3, some 0⟩],
  [((C70.letters 2 [1, 0]).hash, -4), ((C70.letters 2 [0, 1]).hash, 4), ((C70.letters 2 [1]).hash, 3), ((C70.letters 2 [0]).hash, 2), (1, 1), (0, 0)],
  ⟨[1, 2, 3, 4], [4], [none, none, none, some 0], [some 3]⟩⟩

example : run nilHost.env Table.new [.herm (C70.letters 2 [0]), .herm (C70.letters 2 [1]), .pair (C70.letters 2 [0, 1])] = some nilTable := by decide +kernel

/-- If one of two products is zero, the polynomial in the result contains the symbol 0 with factor one, so that it is not in canonical form: the matrix
with entry a, times a + b. -/
theorem C50_refuted_canonical : ∃ P, timesPoly nilHost nilTable Poly.byId true [⟨2, false, 1⟩, ⟨3, false, 1⟩]
      ⟨some ⟨1, [C70.letters 2 [0]]⟩, none, ⟨⟨1, [⟨2, false, 1⟩]⟩, true, false, false⟩, 1⟩ = some (nilTable, some (.poly P)) ∧
    P.mat = ⟨1, [[⟨0, false, 1⟩, ⟨4, true, 1⟩]]⟩ ∧ ¬ Poly.Canonical (MatrixBasis.polyTable nilTable) Poly.byId [⟨0, false, 1⟩, ⟨4, true, 1⟩] := by
  have c1 : create nilHost nilTable ⟨1, [HSeq.zero]⟩ none 1 =
      some (nilTable, some ⟨some ⟨1, [HSeq.zero]⟩, none, ⟨⟨1, [⟨0, false, 1⟩]⟩, true, false, false⟩, 1⟩) := by
    refine C70.create_one (b := true) rfl (by decide +kernel) (ids := [0, 1]) (n := 0) (by decide +kernel) (e := (⟨0, false, 1⟩, Sym.zero)) ?_ ?_
    · have h4 : nilTable.find HSeq.zero.hash = some (0, false) := by decide +kernel
      simp only [entry, h4, Option.bind_some]
      simp [nilTable, scalar, HSeq.zero, Sym.zero]
    · simp [nilTable, MatrixBasis.makeMono, MatrixBasis.plainMono, MatrixBasis.dropZero, Sym.zero, Sym.ofSeq]
  have c2 : create nilHost nilTable ⟨1, [C70.letters 2 [1, 0]]⟩ none 1 =
      some (nilTable, some ⟨some ⟨1, [C70.letters 2 [1, 0]]⟩, none, ⟨⟨1, [⟨4, true, 1⟩]⟩, false, false, true⟩, 1⟩) := by
    refine C70.create_one (b := false) rfl (by decide +kernel) (ids := [0, 1, 4]) (n := 0) (by decide +kernel)
      (e := (⟨4, true, 1⟩, ⟨4, some (C70.letters 2 [0, 1]), some (C70.letters 2 [1, 0]), false, false, some 3, some 0⟩)) ?_ ?_
    · have h4 : nilTable.find (C70.letters 2 [1, 0]).hash = some (4, true) := by decide +kernel
      simp only [entry, h4, Option.bind_some]
      simp [nilTable, scalar, C70.letters]
    · simp [nilTable, MatrixBasis.makeMono, MatrixBasis.plainMono, MatrixBasis.dropZero]
  have t1 : timesWord nilHost true (C70.letters 2 [0]) ⟨1, [C70.letters 2 [0]]⟩ = ⟨1, [HSeq.zero]⟩ := by
    simp only [timesWord, List.map_cons, List.map_nil, if_true, MatrixBasis.Mat.mk.injEq, true_and, List.cons.injEq, and_true]
    decide +kernel
  have t2 : timesWord nilHost true (C70.letters 2 [1]) ⟨1, [C70.letters 2 [0]]⟩ = ⟨1, [C70.letters 2 [1, 0]]⟩ := by
    simp only [timesWord, List.map_cons, List.map_nil, if_true, MatrixBasis.Mat.mk.injEq, true_and, List.cons.injEq, and_true]
    decide +kernel
  have s0 : ∀ A, simplified nilHost A = none := fun _ => rfl
  have y2 : nilTable.syms[2]? = some ⟨2, some (C70.letters 2 [0]), none, true, false, some 1, none⟩ := rfl
  have y3 : nilTable.syms[3]? = some ⟨3, some (C70.letters 2 [1]), none, true, false, some 2, none⟩ := rfl
  obtain ⟨B, b1, b2⟩ := makePoly_known (t := nilTable) (A := ⟨1, [[⟨0, false, 1⟩, ⟨4, true, 1⟩]]⟩) (by
    intro p hp m hm
    obtain rfl := List.mem_singleton.mp hp
    simp only [List.mem_cons, List.not_mem_nil, or_false] at hm
    rcases hm with rfl | rfl <;> simp [nilTable])
  refine ⟨B, ?_, b2, fun hc => (hc.nonzero ⟨0, false, 1⟩ (by simp)).2 rfl⟩
  have hsum : Poly.sumMM Poly.byId ⟨0, false, 1⟩ ⟨4, true, 1⟩ = [⟨0, false, 1⟩, ⟨4, true, 1⟩] := by
    simp [Poly.sumMM, Poly.Order.less, Poly.Order.key, Poly.byId]
  have r0 : rawElem (C70.letters 2 [0]) 1 = (C70.letters 2 [0], 1) := by simp [rawElem, C70.letters, scalar]
  have r1 : rawElem (C70.letters 2 [1]) 1 = (C70.letters 2 [1], 1) := by simp [rawElem, C70.letters, scalar]
  simp only [timesPoly, rawPoly, r0, r1, y2, y3, Option.bind_some, if_false, Bool.false_eq_true, Option.map_some, rawTimes, createAll, t1, t2, s0, mul_one, c1,
      c2, synthesize, List.zipWith_cons_cons, List.zipWith_nil_left, hsum, b1]

end Moment.C50
