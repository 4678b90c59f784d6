import Verif.Proof.MatrixBasis

/-! # Proofs about basis matrices: the writes and the values -/

namespace Moment.MatrixBasis

open Moment.Symbols (Sym Table Sound point)
open Moment.Poly (Mono)

theorem mapM_some {α β : Type} {f : α → Option β} (g : α → β) : ∀ {l : List α}, (∀ x ∈ l, f x = some (g x)) → l.mapM f = some (l.map g)
  | [], _ => rfl
  | x :: l, h => by
    rw [List.mapM_cons, h x List.mem_cons_self, mapM_some g fun y hy => h y (List.mem_cons_of_mem _ hy)]
    rfl

/-- The symbol of a monomial. -/
def symOf (t : Table) (m : Mono) : Sym := (t.syms[m.id]?).getD Sym.zero

theorem symOf_eq {t : Table} {m : Mono} (h : m.id < t.syms.length) : t.syms[m.id]? = some (symOf t m) := by
  unfold symOf
  rw [List.getElem?_eq_getElem h]
  rfl

theorem symOf_mem {t : Table} {m : Mono} (h : m.id < t.syms.length) : symOf t m ∈ t.syms := List.mem_of_getElem? (symOf_eq h)

/-- The part of the value that comes from real parts. -/
noncomputable def reTerm (t : Table) (a : Nat → ℝ) (m : Mono) : ℂ := (symOf t m).re.elim 0 fun k => (a k : ℂ) * m.factor

/-- The part of the value that comes from imaginary parts. -/
noncomputable def imTerm (t : Table) (b : Nat → ℝ) (m : Mono) : ℂ :=
  (symOf t m).im.elim 0 fun k => (b k : ℂ) * ((if m.conj then -Complex.I else Complex.I) * m.factor)

theorem value_term {t : Table} {m : Mono} (h : m.id < t.syms.length) (a b : Nat → ℝ) :
    m.value (point t a b) = reTerm t a m + imTerm t b m := by
  unfold Mono.value reTerm imTerm
  have e : point t a b m.id = (symOf t m).at a b := by
    unfold point
    rw [symOf_eq h]
  rw [e]
  unfold Sym.at
  rcases hr : (symOf t m).re with - | k <;> rcases hi : (symOf t m).im with - | l <;> cases m.conj <;>
    simp [Complex.ext_iff] <;> (try constructor) <;> ring

/-- What an entry gives to a place. -/
noncomputable def pick (sym : Bool) (r c i j : Nat) (X : ℂ) : ℂ :=
  if r = i ∧ c = j then X else if sym = true ∧ c = i ∧ r = j then (starRingEnd ℂ) X else 0

theorem pick_add (sym : Bool) (r c i j : Nat) (X Y : ℂ) : pick sym r c i j (X + Y) = pick sym r c i j X + pick sym r c i j Y := by
  unfold pick
  split
  · rfl
  · split <;> simp

theorem pick_zero (sym : Bool) (r c i j : Nat) : pick sym r c i j 0 = 0 := by
  unfold pick
  split
  · rfl
  · split <;> simp

theorem pick_sum (sym : Bool) (r c i j : Nat) (f : Mono → ℂ) (l : List Mono) :
    (l.map fun m => pick sym r c i j (f m)).sum = pick sym r c i j (l.map f).sum := by
  induction l with
  | nil => simp [pick_zero]
  | cons m l ih => rw [List.map_cons, List.sum_cons, ih, List.map_cons, List.sum_cons, pick_add]

theorem dot_pair (x : Nat → ℝ) (k r c i j : Nat) (sym : Bool) (X : ℂ) :
    dotW ((k, r, c, X) :: if sym = true ∧ r ≠ c then [(k, c, r, (starRingEnd ℂ) X)] else []) x i j = pick sym r c i j ((x k : ℂ) * X) := by
  unfold pick
  by_cases h1 : r = i ∧ c = j
  · rw [if_pos h1]
    obtain ⟨rfl, rfl⟩ := h1
    by_cases h2 : sym = true ∧ r ≠ c
    · rw [if_pos h2]
      have : ¬ (c = r ∧ r = c) := fun q => h2.2 q.2
      simp [dotW, this]
    · rw [if_neg h2]
      simp [dotW]
  · rw [if_neg h1]
    by_cases h2 : sym = true ∧ c = i ∧ r = j
    · obtain ⟨h0, rfl, rfl⟩ := h2
      have hne : r ≠ c := fun q => h1 ⟨q, q.symm⟩
      rw [if_pos ⟨h0, hne⟩, if_pos ⟨h0, rfl, rfl⟩]
      have : ¬ (r = c ∧ c = r) := fun q => hne q.1
      simp [dotW, this]
    · rw [if_neg h2]
      by_cases h3 : sym = true ∧ r ≠ c
      · rw [if_pos h3]
        have : ¬ (c = i ∧ r = j) := fun q => h2 ⟨h3.1, q⟩
        simp [dotW, h1, this]
      · rw [if_neg h3]
        simp [dotW, h1]

theorem dot_re {K : Type} (t : Table) (cx : ℂ → K) (up : K → ℂ) (sym : Bool) (m : Mono) (h1 : up (cx m.factor) = m.factor)
    (h2 : up (cx ((starRingEnd ℂ) m.factor)) = (starRingEnd ℂ) m.factor) (a : Nat → ℝ) (r c i j : Nat) :
    dotW (lift up (reWrites cx sym (symOf t m) m r c)) a i j = pick sym r c i j (reTerm t a m) := by
  unfold reWrites reTerm
  rcases (symOf t m).re with - | k
  · simp [lift, dotW, pick_zero]
  · dsimp only [Option.elim]
    rw [← dot_pair]
    congr 1
    by_cases h : sym = true ∧ r ≠ c
    · rw [if_pos h, if_pos h]
      simp [lift, h1, h2]
    · rw [if_neg h, if_neg h]
      simp [lift, h1]

theorem dot_im (t : Table) (sym : Bool) (m : Mono) (b : Nat → ℝ) (r c i j : Nat) :
    dotW (imWrites sym (symOf t m) m r c) b i j = pick sym r c i j (imTerm t b m) := by
  unfold imWrites imTerm
  rcases (symOf t m).im with - | k
  · simp [dotW, pick_zero]
  · dsimp only [Option.elim]
    rw [← dot_pair]
    congr 1
    cases m.conj <;> simp

theorem lift_append {K : Type} (up : K → ℂ) (W V : List (Write K)) : lift up (W ++ V) = lift up W ++ lift up V := List.map_append

theorem lift_flatten {K : Type} (up : K → ℂ) (L : List (List (Write K))) : lift up L.flatten = (L.map (lift up)).flatten := List.map_flatten

/-! ## All writes -/

/-- The writes when all symbols are known. -/
def allWrites {K : Type} (t : Table) (f : Sym → Mono → Nat → Nat → List (Write K)) (es : List ((Nat × Nat) × List Mono)) : List (Write K) :=
  (es.map fun e => (e.2.map fun m => f (symOf t m) m e.1.1 e.1.2).flatten).flatten

theorem writes_eq {K : Type} {t : Table} (f : Sym → Mono → Nat → Nat → List (Write K)) {es : List ((Nat × Nat) × List Mono)}
    (h : ∀ e ∈ es, Known t e.2) : writes t f es = some (allWrites t f es) := by
  unfold writes allWrites
  rw [mapM_some fun e : (Nat × Nat) × List Mono => (e.2.map fun m => f (symOf t m) m e.1.1 e.1.2).flatten]
  · rfl
  · intro e he
    rw [mapM_some fun m => f (symOf t m) m e.1.1 e.1.2]
    · rfl
    · intro m hm
      rw [symOf_eq (h e he m hm)]
      rfl

theorem dot_all_re {K : Type} (t : Table) (cx : ℂ → K) (up : K → ℂ) (sym : Bool) (es : List ((Nat × Nat) × List Mono))
    (hup : ∀ e ∈ es, ∀ m ∈ e.2, up (cx m.factor) = m.factor ∧ up (cx ((starRingEnd ℂ) m.factor)) = (starRingEnd ℂ) m.factor)
    (a : Nat → ℝ) (i j : Nat) : dotW (lift up (allWrites t (reWrites cx sym) es)) a i j =
      (es.map fun e => pick sym e.1.1 e.1.2 i j (e.2.map (reTerm t a)).sum).sum := by
  unfold allWrites
  rw [lift_flatten, dotW_flatten, List.map_map, List.map_map]
  congr 1
  apply List.map_congr_left
  intro e he
  simp only [Function.comp]
  rw [lift_flatten, dotW_flatten, List.map_map, List.map_map, ← pick_sum]
  congr 1
  apply List.map_congr_left
  intro m hm
  simp only [Function.comp]
  exact dot_re t cx up sym m (hup e he m hm).1 (hup e he m hm).2 a _ _ _ _

theorem dot_all_im (t : Table) (sym : Bool) (es : List ((Nat × Nat) × List Mono)) (b : Nat → ℝ) (i j : Nat) :
    dotW (allWrites t (imWrites sym) es) b i j = (es.map fun e => pick sym e.1.1 e.1.2 i j (e.2.map (imTerm t b)).sum).sum := by
  unfold allWrites
  rw [dotW_flatten, List.map_map]
  congr 1
  apply List.map_congr_left
  intro e he
  simp only [Function.comp]
  rw [dotW_flatten, List.map_map, ← pick_sum]
  congr 1
  apply List.map_congr_left
  intro m hm
  exact dot_im t sym m b _ _ _ _

theorem mem_allWrites {K : Type} {t : Table} {f : Sym → Mono → Nat → Nat → List (Write K)} {es : List ((Nat × Nat) × List Mono)} {w : Write K} :
    w ∈ allWrites t f es ↔ ∃ e ∈ es, ∃ m ∈ e.2, w ∈ f (symOf t m) m e.1.1 e.1.2 := by
  unfold allWrites
  simp only [List.mem_flatten, List.mem_map]
  constructor
  · rintro ⟨_, ⟨e, he, rfl⟩, hw⟩
    obtain ⟨_, hl, hw⟩ := List.mem_flatten.mp hw
    obtain ⟨m, hm, rfl⟩ := List.mem_map.mp hl
    exact ⟨e, he, m, hm, hw⟩
  · rintro ⟨e, he, m, hm, hw⟩
    exact ⟨_, ⟨e, he, rfl⟩, List.mem_flatten.mpr ⟨_, List.mem_map.mpr ⟨m, hm, rfl⟩, hw⟩⟩

theorem mem_reWrites {K : Type} {cx : ℂ → K} {sym : Bool} {s : Sym} {m : Mono} {i j : Nat} {w : Write K} (h : w ∈ reWrites cx sym s m i j) :
    s.re = some w.1 ∧ ((w.2.1 = i ∧ w.2.2.1 = j) ∨ (sym = true ∧ i ≠ j ∧ w.2.1 = j ∧ w.2.2.1 = i)) := by
  unfold reWrites at h
  rcases hr : s.re with - | k
  · rw [hr] at h; simp at h
  · rw [hr] at h
    simp only [List.mem_cons] at h
    rcases h with rfl | h
    · simp
    · split at h
      · rename_i hc
        rw [List.mem_singleton.mp h]
        simp only [true_and]
        exact Or.inr ⟨hc.1, hc.2, by simp⟩
      · simp at h

theorem mem_imWrites {sym : Bool} {s : Sym} {m : Mono} {i j : Nat} {w : Write ℂ} (h : w ∈ imWrites sym s m i j) :
    s.im = some w.1 ∧ ((w.2.1 = i ∧ w.2.2.1 = j) ∨ (sym = true ∧ i ≠ j ∧ w.2.1 = j ∧ w.2.2.1 = i)) := by
  unfold imWrites at h
  rcases hr : s.im with - | k
  · rw [hr] at h; simp at h
  · rw [hr] at h
    simp only [List.mem_cons] at h
    rcases h with rfl | h
    · simp
    · split at h
      · rename_i hc
        rw [List.mem_singleton.mp h]
        simp only [true_and]
        exact Or.inr ⟨hc.1, hc.2, by simp⟩
      · simp at h

/-! ## Visited entries -/

/-- A list of places that covers the matrix. -/
structure Visits (sym : Bool) (n : Nat) (visit : List ((Nat × Nat) × Nat)) : Prop where
  off : ∀ v ∈ visit, v.1.1 < n ∧ v.1.2 < n ∧ v.2 = v.1.1 + v.1.2 * n
  apart : visit.Pairwise fun v w => v.1 ≠ w.1 ∧ (sym = true → v.1 ≠ (w.1.2, w.1.1))
  cover : ∀ i j, i < n → j < n → (∃ v ∈ visit, v.1 = (i, j)) ∨ (sym = true ∧ ∃ v ∈ visit, v.1 = (j, i))

/-- The terms of an entry. -/
def ent {α : Type} (terms : α → List Mono) (A : Mat α) (i j : Nat) : List Mono := (A.get? i j).elim [] terms

theorem ent_get {α : Type} {terms : α → List Mono} {A : Mat α} (hA : A.Square) {i j : Nat} (hi : i < A.dim) (hj : j < A.dim) :
    ∃ x ∈ A.data, A.get? i j = some x ∧ ent terms A i j = terms x := by
  have hlt : i + j * A.dim < A.data.length := hA ▸ Triangle.off_lt hi hj
  refine ⟨A.data[i + j * A.dim], List.getElem_mem hlt, List.getElem?_eq_getElem hlt, ?_⟩
  unfold ent Mat.get?
  rw [List.getElem?_eq_getElem hlt]
  rfl

theorem entries_eq {α : Type} {terms : α → List Mono} {A : Mat α} (hA : A.Square) {visit : List ((Nat × Nat) × Nat)}
    (h : ∀ v ∈ visit, v.1.1 < A.dim ∧ v.1.2 < A.dim ∧ v.2 = v.1.1 + v.1.2 * A.dim) :
    entries terms A visit = some (visit.map fun v => (v.1, ent terms A v.1.1 v.1.2)) := by
  unfold entries
  apply mapM_some
  intro v hv
  obtain ⟨h1, h2, h3⟩ := h v hv
  obtain ⟨x, -, hx, e⟩ := ent_get (terms := terms) hA h1 h2
  rw [h3]
  unfold Mat.get? at hx
  rw [hx, e]
  rfl

theorem pick_direct (sym : Bool) (i j : Nat) (X : ℂ) : pick sym i j i j X = X := if_pos ⟨rfl, rfl⟩

theorem pick_mirror {i j : Nat} (h : i ≠ j) (X : ℂ) : pick true j i i j X = (starRingEnd ℂ) X := by
  unfold pick
  rw [if_neg fun q => h q.2, if_pos ⟨rfl, rfl, rfl⟩]

theorem pick_none {sym : Bool} {r c i j : Nat} (h : ¬ (r = i ∧ c = j)) (h' : ¬ (sym = true ∧ c = i ∧ r = j)) (X : ℂ) : pick sym r c i j X = 0 := by
  unfold pick
  rw [if_neg h, if_neg h']

theorem sum_visit {sym : Bool} (f : Nat → Nat → ℂ) (i j : Nat) : ∀ (visit : List ((Nat × Nat) × Nat)),
    visit.Pairwise (fun v w => v.1 ≠ w.1 ∧ (sym = true → v.1 ≠ (w.1.2, w.1.1))) →
    ∀ v ∈ visit, (v.1 = (i, j) ∨ (sym = true ∧ v.1 = (j, i))) →
    (visit.map fun v => pick sym v.1.1 v.1.2 i j (f v.1.1 v.1.2)).sum = pick sym v.1.1 v.1.2 i j (f v.1.1 v.1.2)
  | [], _, v, hv, _ => by simp at hv
  | w :: l, hp, v, hv, hit => by
    obtain ⟨h1, h2⟩ := List.pairwise_cons.mp hp
    rw [List.map_cons, List.sum_cons]
    rcases List.mem_cons.mp hv with rfl | hv
    · rw [List.sum_eq_zero, add_zero]
      intro x hx
      obtain ⟨u, hu, rfl⟩ := List.mem_map.mp hx
      obtain ⟨q1, q2⟩ := h1 u hu
      apply pick_none
      · rintro ⟨e1, e2⟩
        rcases hit with hit | ⟨hs, hit⟩
        · exact q1 (by rw [hit, ← e1, ← e2])
        · exact q2 hs (by rw [hit, ← e1, ← e2])
      · rintro ⟨hs, e1, e2⟩
        rcases hit with hit | ⟨hs, hit⟩
        · exact q2 hs (by rw [hit, ← e1, ← e2])
        · exact q1 (by rw [hit, ← e1, ← e2])
    · rw [sum_visit f i j l h2 v hv hit, pick_none, zero_add]
      · rintro ⟨e1, e2⟩
        obtain ⟨q1, q2⟩ := h1 v hv
        rcases hit with hit | ⟨hs, hit⟩
        · exact q1 (by rw [hit, ← e1, ← e2])
        · exact q2 hs (by rw [hit, ← e1, ← e2])
      · rintro ⟨hs, e1, e2⟩
        obtain ⟨q1, q2⟩ := h1 v hv
        rcases hit with hit | ⟨-, hit⟩
        · exact q2 hs (by rw [hit, ← e1, ← e2])
        · exact q1 (by rw [hit, ← e1, ← e2])

/-- All the facts about the writes. -/
structure Plan {α K : Type} (t : Table) (terms : α → List Mono) (cx : ℂ → K) (up : K → ℂ) (A : Mat α) (sym complex : Bool)
    (visit : List ((Nat × Nat) × Nat)) (es : List ((Nat × Nat) × List Mono)) (WR : List (Write K)) (WI : List (Write ℂ)) : Prop where
  entries : entries terms A visit = some es
  re : writes t (reWrites cx sym) es = some WR
  im : (if complex then writes t (imWrites sym) es else some []) = some WI
  rangeR : ∀ w ∈ WR, InRange t.basis.real.length A.dim w
  rangeI : ∀ w ∈ WI, InRange t.basis.imag.length A.dim w
  value : ∀ a b i j, i < A.dim → j < A.dim → ((∃ v ∈ visit, v.1 = (i, j)) →
      dotW (lift up WR) a i j + dotW WI b i j = Poly.value (point t a b) (ent terms A i j)) ∧
    (¬ (∃ v ∈ visit, v.1 = (i, j)) → dotW (lift up WR) a i j + dotW WI b i j = (starRingEnd ℂ) (Poly.value (point t a b) (ent terms A j i)))

theorem plan_exists {α K : Type} {t : Table} (ht : Sound t) {terms : α → List Mono} {cx : ℂ → K} {up : K → ℂ} {A : Mat α} (hA : A.Square)
    (hk : ∀ x ∈ A.data, Known t (terms x))
    (hup : ∀ x ∈ A.data, ∀ m ∈ terms x, up (cx m.factor) = m.factor ∧ up (cx ((starRingEnd ℂ) m.factor)) = (starRingEnd ℂ) m.factor)
    {sym complex : Bool} (hc : complex = false → ∀ x ∈ A.data, ∀ b, ((terms x).map (imTerm t b)).sum = 0)
    {visit : List ((Nat × Nat) × Nat)} (hv : Visits sym A.dim visit) :
    Plan t terms cx up A sym complex visit (visit.map fun v => (v.1, ent terms A v.1.1 v.1.2))
      (allWrites t (reWrites cx sym) (visit.map fun v => (v.1, ent terms A v.1.1 v.1.2)))
      (if complex then allWrites t (imWrites sym) (visit.map fun v => (v.1, ent terms A v.1.1 v.1.2)) else []) := by
  set es := visit.map fun v => (v.1, ent terms A v.1.1 v.1.2) with hes
  have hent : ∀ i j, i < A.dim → j < A.dim → ∃ x ∈ A.data, ent terms A i j = terms x := by
    intro i j hi hj
    obtain ⟨x, hx, -, e⟩ := ent_get (terms := terms) hA hi hj
    exact ⟨x, hx, e⟩
  have hse : ∀ e ∈ es, e.1.1 < A.dim ∧ e.1.2 < A.dim ∧ ∃ x ∈ A.data, e.2 = terms x := by
    intro e he
    obtain ⟨v, hv', rfl⟩ := List.mem_map.mp he
    obtain ⟨h1, h2, -⟩ := hv.off v hv'
    exact ⟨h1, h2, hent _ _ h1 h2⟩
  have hkn : ∀ e ∈ es, Known t e.2 := by
    intro e he
    obtain ⟨-, -, x, hx, e'⟩ := hse e he
    rw [e']
    exact hk x hx
  have hoff := ht.offsets
  refine ⟨entries_eq hA hv.off, writes_eq _ hkn, ?_, ?_, ?_, ?_⟩
  · cases complex
    · rfl
    · exact writes_eq _ hkn
  · intro w hw
    obtain ⟨e, he, m, hm, hw⟩ := mem_allWrites.mp hw
    obtain ⟨h1, h2⟩ := mem_reWrites hw
    obtain ⟨g1, g2, -⟩ := hse e he
    refine ⟨?_, ?_⟩
    · have := (hoff.re _ (symOf_mem (hkn e he m hm)) _).mp h1
      exact (List.getElem?_eq_some_iff.mp this).1
    · rcases h2 with ⟨h, h'⟩ | ⟨-, -, h, h'⟩ <;> rw [h, h'] <;> exact ⟨by assumption, by assumption⟩
  · intro w hw
    cases complex
    · simp at hw
    · obtain ⟨e, he, m, hm, hw⟩ := mem_allWrites.mp hw
      obtain ⟨h1, h2⟩ := mem_imWrites hw
      obtain ⟨g1, g2, -⟩ := hse e he
      refine ⟨?_, ?_⟩
      · have := (hoff.im _ (symOf_mem (hkn e he m hm)) _).mp h1
        exact (List.getElem?_eq_some_iff.mp this).1
      · rcases h2 with ⟨h, h'⟩ | ⟨-, -, h, h'⟩ <;> rw [h, h'] <;> exact ⟨by assumption, by assumption⟩
  · intro a b i j hi hj
    have key : dotW (lift up (allWrites t (reWrites cx sym) es)) a i j + dotW (if complex then allWrites t (imWrites sym) es else []) b i j =
        (visit.map fun v => pick sym v.1.1 v.1.2 i j (Poly.value (point t a b) (ent terms A v.1.1 v.1.2))).sum := by
      rw [dot_all_re t cx up sym es (fun e he m hm => by
        obtain ⟨-, -, x, hx, e'⟩ := hse e he
        exact hup x hx m (e' ▸ hm)) a i j]
      have eI : dotW (if complex then allWrites t (imWrites sym) es else []) b i j =
          (es.map fun e => pick sym e.1.1 e.1.2 i j (e.2.map (imTerm t b)).sum).sum := by
        cases complex with
        | true => exact dot_all_im t sym es b i j
        | false =>
          rw [List.sum_eq_zero]
          · simp [dotW]
          · intro y hy
            obtain ⟨e, he, rfl⟩ := List.mem_map.mp hy
            obtain ⟨-, -, x, hx, e'⟩ := hse e he
            rw [e', hc rfl x hx b, pick_zero]
      rw [eI, ← List.sum_map_add, hes, List.map_map]
      congr 1
      apply List.map_congr_left
      intro v hv'
      simp only [Function.comp]
      rw [← pick_add, ← List.sum_map_add]
      congr 1
      unfold Poly.value
      congr 1
      apply List.map_congr_left
      intro m hm
      exact (value_term (hkn _ (List.mem_map.mpr ⟨v, hv', rfl⟩) m hm) a b).symm
    rw [key]
    constructor
    · rintro ⟨v, hv', e⟩
      rw [sum_visit (fun r c => Poly.value (point t a b) (ent terms A r c)) i j visit hv.apart v hv' (Or.inl e), e]
      exact pick_direct _ _ _ _
    · intro hno
      rcases hv.cover i j hi hj with h | ⟨hs, v, hv', e⟩
      · exact absurd h hno
      · rw [sum_visit (fun r c => Poly.value (point t a b) (ent terms A r c)) i j visit hv.apart v hv' (Or.inr ⟨hs, e⟩), e, hs]
        exact pick_mirror (fun q => hno ⟨v, hv', by rw [e]; exact Prod.ext q.symm q⟩) _

/-! ## The three ways to visit the entries -/

theorem visitUpper_eq (n : Nat) : visitUpper n = Triangle.all true true n := by
  unfold visitUpper Locality.collect
  have h := Triangle.run_first true true n
  rw [dif_pos ⟨_, h⟩]
  exact Yields.unique (Exists.choose_spec (⟨_, h⟩ : ∃ l, Yields _ _ _ _ l)) h

theorem visits_upper (n : Nat) : Visits true n (visitUpper n) := by
  rw [visitUpper_eq]
  have hm := Triangle.mem_all true true n
  have hs := Triangle.all_sorted true true n
  refine ⟨?_, ?_, ?_⟩
  · rintro ⟨⟨r, c⟩, o⟩ hv
    have := (hm r c o).mp hv
    simp only [Triangle.lo, Triangle.hi] at this
    simp only
    omega
  · refine List.Pairwise.imp_of_mem ?_ hs
    rintro ⟨⟨r, c⟩, o⟩ ⟨⟨r', c'⟩, o'⟩ h1 h2 hlt
    have g1 := (hm r c o).mp h1
    have g2 := (hm r' c' o').mp h2
    simp only [Triangle.lo, Triangle.hi] at g1 g2 hlt
    refine ⟨?_, fun _ => ?_⟩
    · intro h
      simp only [Prod.mk.injEq] at h
      obtain ⟨rfl, rfl⟩ := h
      omega
    · intro h
      simp only [Prod.mk.injEq] at h
      obtain ⟨rfl, rfl⟩ := h
      have : r = c := by simp at g1 g2; omega
      subst this
      omega
  · intro i j hi hj
    rcases Nat.le_total i j with h | h
    · exact Or.inl ⟨((i, j), i + j * n), (hm _ _ _).mpr (by simp [Triangle.lo, Triangle.hi]; omega), rfl⟩
    · exact Or.inr ⟨rfl, ((j, i), j + i * n), (hm _ _ _).mpr (by simp [Triangle.lo, Triangle.hi]; omega), rfl⟩

theorem visits_poly (sym : Bool) (n : Nat) : Visits sym n (visitPoly sym n) := by
  have hm : ∀ r c o, ((r, c), o) ∈ visitPoly sym n ↔ r < n ∧ c < n ∧ (sym = true → c ≤ r) ∧ o = r + c * n := by
    intro r c o
    unfold visitPoly
    simp only [List.mem_flatMap, List.mem_range, List.mem_map, List.mem_range'_1, Prod.mk.injEq]
    constructor
    · rintro ⟨c', hc, r', hr, ⟨rfl, rfl⟩, rfl⟩
      cases sym <;> simp at hr ⊢ <;> omega
    · rintro ⟨h1, h2, h3, rfl⟩
      refine ⟨c, h2, r, ?_, ⟨rfl, rfl⟩, by omega⟩
      cases sym <;> simp at h3 ⊢ <;> omega
  refine ⟨?_, ?_, ?_⟩
  · rintro ⟨⟨r, c⟩, o⟩ hv
    obtain ⟨h1, h2, -, h3⟩ := (hm r c o).mp hv
    exact ⟨h1, h2, h3⟩
  · have hd : (visitPoly sym n).Pairwise fun v w => v.1 ≠ w.1 := by
      unfold visitPoly
      rw [List.pairwise_flatMap]
      refine ⟨?_, ?_⟩
      · intro c _
        rw [List.pairwise_map]
        refine List.Pairwise.imp ?_ List.nodup_range'
        intro r r' h e
        exact h (Prod.mk.inj e).1
      · refine List.Pairwise.imp ?_ List.nodup_range
        intro c c' h x hx y hy e
        obtain ⟨r, -, rfl⟩ := List.mem_map.mp hx
        obtain ⟨r', -, rfl⟩ := List.mem_map.mp hy
        exact h (Prod.mk.inj e).2
    refine List.Pairwise.imp_of_mem ?_ hd
    rintro ⟨⟨r, c⟩, o⟩ ⟨⟨r', c'⟩, o'⟩ h1 h2 hne
    refine ⟨hne, fun hs h => ?_⟩
    have g1 := (hm r c o).mp h1
    have g2 := (hm r' c' o').mp h2
    simp only [Prod.mk.injEq] at h
    obtain ⟨rfl, rfl⟩ := h
    have q1 := g1.2.2.1 hs
    have q2 := g2.2.2.1 hs
    have : r = c := by omega
    subst this
    exact hne rfl
  · intro i j hi hj
    cases sym with
    | false => exact Or.inl ⟨((i, j), i + j * n), (hm _ _ _).mpr ⟨hi, hj, by simp, rfl⟩, rfl⟩
    | true =>
      rcases Nat.le_total j i with h | h
      · exact Or.inl ⟨((i, j), i + j * n), (hm _ _ _).mpr ⟨hi, hj, fun _ => h, rfl⟩, rfl⟩
      · exact Or.inr ⟨rfl, ((j, i), j + i * n), (hm _ _ _).mpr ⟨hj, hi, fun _ => h, rfl⟩, rfl⟩

theorem columns_get (n m : Nat) : ∀ (l : List Nat) (i : Nat), (l.flatMap fun c => (List.range n).map fun r => (r, c))[i]? = none ∨
    ∃ r c q, l[q]? = some c ∧ r < n ∧ i = r + q * n ∧ (l.flatMap fun c => (List.range n).map fun r => (r, c))[i]? = some (r, c)
  | [], i => by simp
  | c :: l, i => by
    rw [List.flatMap_cons]
    by_cases h : i < n
    · refine Or.inr ⟨i, c, 0, rfl, h, by omega, ?_⟩
      rw [List.getElem?_append_left (by simpa using h)]
      simp [h]
    · rw [List.getElem?_append_right (by simpa using h)]
      simp only [List.length_map, List.length_range]
      rcases columns_get n m l (i - n) with h' | ⟨r, c', q, h1, h2, h3, h4⟩
      · exact Or.inl h'
      · exact Or.inr ⟨r, c', q + 1, by simpa using h1, h2, by rw [Nat.add_mul]; omega, h4⟩

theorem visitAll_eq (n : Nat) : visitAll n = visitPoly false n := by
  have h : visitPoly false n = ((List.range n).flatMap fun c => (List.range n).map fun r => (r, c)).map fun x => (x, x.2 * n + x.1) := by
    unfold visitPoly
    rw [List.map_flatMap]
    simp [List.range_eq_range']
    rfl
  rw [h]
  unfold visitAll
  apply List.ext_getElem?
  intro i
  rw [List.getElem?_zipIdx, List.getElem?_map]
  rcases columns_get n 0 (List.range n) i with e | ⟨r, c, q, h1, h2, h3, h4⟩
  · rw [e]; rfl
  · rw [h4]
    have : q = c := by
      obtain ⟨_, e⟩ := List.getElem?_eq_some_iff.mp h1
      simpa using e
    subst this
    simp
    omega

theorem visits_all (n : Nat) : Visits false n (visitAll n) := visitAll_eq n ▸ visits_poly false n

end Moment.MatrixBasis
