import Verif.Model.MatrixSystem
import Mathlib.Data.List.Infix

/-! # Index storage and matrices of matrix systems -/

namespace Moment.MatrixSystem

variable {T W P R B M : Type}

/-- Indices that the system takes to be the same: levels and hashes of words agree; for polynomials neither is less. -/
def Same (mk : Maker T W P R B M) : Index W P → Index W P → Prop
  | .moment n, .moment n' => n = n'
  | .localizing n w, .localizing n' w' => n = n' ∧ mk.hash w = mk.hash w'
  | .poly n p, .poly n' p' => n = n' ∧ mk.less p p' = false ∧ mk.less p' p = false
  | .subst a b, .subst a' b' => a = a' ∧ b = b'
  | _, _ => False

/-- The comparison of polynomials is one that `std::map` can use: not being less either way is an equivalence. -/
structure Ordered (mk : Maker T W P R B M) : Prop where
  refl : ∀ p, mk.less p p = false
  trans : ∀ p q r, mk.less p q = false → mk.less q p = false → mk.less q r = false → mk.less r q = false → mk.less p r = false ∧ mk.less r p = false

theorem lessLocalizing_iff {hash : W → UInt64} {a b : Nat × W} :
    (lessLocalizing hash a b = false ∧ lessLocalizing hash b a = false) ↔ a.1 = b.1 ∧ hash a.2 = hash b.2 := by
  unfold lessLocalizing
  constructor
  · rintro ⟨h1, h2⟩
    split at h1
    · simp at h1
    split at h1
    · rename_i h h'; rw [if_pos h'] at h2; simp at h2
    rename_i x y
    have e : a.1 = b.1 := by omega
    simp only [e, lt_irrefl, if_false, decide_eq_false_iff_not] at h1 h2
    refine ⟨e, ?_⟩
    rw [UInt64.lt_iff_toNat_lt] at h1 h2
    exact UInt64.toNat_inj.mp (by omega)
  · rintro ⟨h1, h2⟩
    simp [h1, h2]

theorem lessPoly_iff {less : P → P → Bool} {a b : Nat × P} :
    (lessPoly less a b = false ∧ lessPoly less b a = false) ↔ a.1 = b.1 ∧ less a.2 b.2 = false ∧ less b.2 a.2 = false := by
  unfold lessPoly
  constructor
  · rintro ⟨h1, h2⟩
    split at h1
    · simp at h1
    split at h1
    · rename_i h h'; rw [if_pos h'] at h2; simp at h2
    have e : a.1 = b.1 := by omega
    simp only [e, lt_irrefl, if_false] at h2
    exact ⟨e, h1, h2⟩
  · rintro ⟨h1, h2, h3⟩
    simp [h1, h2, h3]

theorem lessPair_iff {a b : Int × Int} : (lessPair a b = false ∧ lessPair b a = false) ↔ a = b := by
  unfold lessPair
  constructor
  · rintro ⟨h1, h2⟩
    simp only [Bool.or_eq_false_iff, decide_eq_false_iff_not, Bool.and_eq_false_iff, beq_eq_false_iff_ne] at h1 h2
    have e : a.1 = b.1 := by omega
    have e2 : a.2 = b.2 := by rcases h1.2 with x | x <;> rcases h2.2 with y | y <;> omega
    exact Prod.ext e e2
  · rintro rfl
    simp

/-! ## Storage -/

theorem vectorFind_eq (v : List Int) (i : Nat) : vectorFind v i = v.getD i (-1) := by
  unfold vectorFind
  split
  · rename_i h
    rw [List.getD_eq_getElem?_getD, List.getElem?_eq_none h, Option.getD_none]
  · rfl

theorem vectorContains_eq (v : List Int) (i : Nat) : vectorContains v i = (vectorFind v i != -1) := by
  unfold vectorContains vectorFind
  split <;> simp

theorem vectorFind_insert {v : List Int} {i : Nat} {o : Int} (h : vectorFind v i = -1) (j : Nat) :
    vectorFind (vectorInsert v i o).1 j = if i = j then o else vectorFind v j := by
  rw [vectorFind_eq] at h ⊢
  rw [vectorFind_eq]
  unfold vectorInsert
  simp only [List.getD_eq_getElem?_getD] at h ⊢
  split
  · rename_i hl
    dsimp only
    by_cases hij : i = j
    · subst hij
      rw [if_pos rfl, List.getElem?_append_right (by simp; omega)]
      simp only [List.length_append, List.length_replicate]
      rw [show i - (v.length + (i - v.length)) = 0 by omega]
      simp
    · rw [if_neg hij]
      by_cases hj : j < i
      · rw [List.getElem?_append_left (by simp; omega)]
        by_cases hv : j < v.length
        · rw [List.getElem?_append_left hv]
        · rw [List.getElem?_append_right (by omega), List.getElem?_eq_none (l := v) (by omega), List.getElem?_replicate]
          split <;> rfl
      · rw [List.getElem?_eq_none (by simp; omega), List.getElem?_eq_none (l := v) (by omega)]
  · rename_i hl
    rw [if_neg (by simpa using h)]
    dsimp only
    by_cases hij : i = j
    · subst hij
      rw [if_pos rfl, List.getElem?_set_self (by omega), Option.getD_some]
    · rw [if_neg hij, List.getElem?_set_ne hij]

theorem vectorInsert_mem {v : List Int} {i : Nat} {o x : Int} (h : x ∈ (vectorInsert v i o).1) : x ∈ v ∨ x = -1 ∨ x = o := by
  unfold vectorInsert at h
  split at h
  · dsimp only at h
    simp only [List.mem_append, List.mem_replicate, List.mem_singleton] at h
    tauto
  · split at h
    · exact .inl h
    · rcases List.mem_or_eq_of_mem_set h with h | h
      · exact .inl h
      · exact .inr (.inr h)

/-- What `find` gives: -1, or the offset of a key that is not distinguished from the one looked for. -/
theorem mapFind_cases {K : Type} (less : K → K → Bool) (l : List (K × Int)) (k : K) :
    ((∀ e ∈ l, ¬ (less e.1 k = false ∧ less k e.1 = false)) ∧ mapFind less l k = -1) ∨
      ∃ e ∈ l, (less e.1 k = false ∧ less k e.1 = false) ∧ mapFind less l k = e.2 := by
  unfold mapFind
  cases h : l.find? fun e => !less e.1 k && !less k e.1 with
  | none =>
    left
    refine ⟨fun e he => ?_, rfl⟩
    have := List.find?_eq_none.mp h e he
    simpa using this
  | some e =>
    right
    refine ⟨e, List.mem_of_find?_eq_some h, ?_, rfl⟩
    have := List.find?_some h
    simpa using this

theorem mapFind_insert {K : Type} {less : K → K → Bool} (hr : ∀ a, less a a = false)
    (ht : ∀ a b c, (less a b = false ∧ less b a = false) → (less b c = false ∧ less c b = false) → less a c = false ∧ less c a = false)
    {l : List (K × Int)} (hv : ∀ e ∈ l, 0 ≤ e.2) {k : K} (h : mapFind less l k < 0) (o : Int) (j : K) [Decidable (less k j = false ∧ less j k = false)] :
    mapFind less (mapInsert less l k o).1 j = if less k j = false ∧ less j k = false then o else mapFind less l j := by
  have hn : l.find? (fun e => !less e.1 k && !less k e.1) = none := by
    unfold mapFind at h
    cases e : l.find? fun e => !less e.1 k && !less k e.1 with
    | none => rfl
    | some e' =>
      rw [e] at h
      have := hv _ (List.mem_of_find?_eq_some e)
      dsimp only at h
      omega
  have hno : ∀ e ∈ l, ¬ (less e.1 k = false ∧ less k e.1 = false) := by
    intro e he
    simpa using List.find?_eq_none.mp hn e he
  unfold mapInsert
  rw [hn]
  dsimp only
  unfold mapFind
  rw [List.find?_append]
  by_cases hs : less k j = false ∧ less j k = false
  · rw [if_pos hs]
    have : l.find? (fun e => !less e.1 j && !less j e.1) = none := by
      refine List.find?_eq_none.mpr fun e he => ?_
      have hx : ¬ (less e.1 j = false ∧ less j e.1 = false) := fun hx => hno e he (ht _ _ _ hx ⟨hs.2, hs.1⟩)
      simpa using hx
    rw [this]
    simp [List.find?, hs.1, hs.2]
  · rw [if_neg hs]
    cases e : l.find? fun e => !less e.1 j && !less j e.1 with
    | some e' => rfl
    | none =>
      have : [(k, o)].find? (fun e => !less e.1 j && !less j e.1) = none := by
        refine List.find?_eq_none.mpr fun e he => ?_
        simp only [List.mem_singleton] at he
        subst he
        simpa using hs
      rw [this]
      rfl

theorem mapInsert_mem {K : Type} {less : K → K → Bool} {l : List (K × Int)} {k : K} {o : Int} {e : K × Int} (h : e ∈ (mapInsert less l k o).1) : e ∈ l ∨ e = (k, o) := by
  unfold mapInsert at h
  split at h
  · exact .inl h
  · simpa using h

/-! ## The system -/

/-- What holds of systems at all times. -/
structure Inv (mk : Maker T W P R B M) (S : System T W P B M) : Prop where
  moments : ∀ x ∈ S.moments, -1 ≤ x
  localizing : ∀ e ∈ S.localizing, 0 ≤ e.2
  polys : ∀ e ∈ S.polys, 0 ≤ e.2
  substituted : ∀ e ∈ S.substituted, 0 ≤ e.2
  range : ∀ i, S.find mk i < S.matrices.length
  inj : ∀ i j, 0 ≤ S.find mk i → S.find mk i = S.find mk j → Same mk i j

theorem inv_new (mk : Maker T W P R B M) (t : T) : Inv mk (System.new t) := by
  have : ∀ i, (System.new t : System T W P B M).find mk i = -1 := by
    intro i
    cases i <;> rfl
  refine ⟨by simp [System.new], by simp [System.new], by simp [System.new], by simp [System.new], fun i => ?_, fun i j h => ?_⟩
  · rw [this]; simp [System.new]
  · rw [this] at h; omega

theorem same_refl {mk : Maker T W P R B M} (ho : Ordered mk) (i : Index W P) : Same mk i i := by
  cases i <;> simp [Same, ho.refl]

theorem Same.symm {mk : Maker T W P R B M} {i j : Index W P} (h : Same mk i j) : Same mk j i := by
  cases i <;> cases j <;> simp only [Same] at h ⊢
  · exact h.symm
  · exact ⟨h.1.symm, h.2.symm⟩
  · exact ⟨h.1.symm, h.2.2, h.2.1⟩
  · exact ⟨h.1.symm, h.2.symm⟩

theorem Same.trans {mk : Maker T W P R B M} (ho : Ordered mk) {i j k : Index W P} (h : Same mk i j) (h' : Same mk j k) : Same mk i k := by
  cases i <;> cases j <;> simp only [Same] at h <;> cases k <;> simp only [Same] at h' ⊢
  · exact h.trans h'
  · exact ⟨h.1.trans h'.1, h.2.trans h'.2⟩
  · exact ⟨h.1.trans h'.1, ho.trans _ _ _ h.2.1 h.2.2 h'.2.1 h'.2.2⟩
  · exact ⟨h.1.trans h'.1, h.2.trans h'.2⟩

theorem Inv.neg {mk : Maker T W P R B M} {S : System T W P B M} (h : Inv mk S) {i : Index W P} (hi : S.find mk i < 0) : S.find mk i = -1 := by
  cases i with
  | moment n =>
    simp only [System.find] at hi ⊢
    rw [vectorFind_eq, List.getD_eq_getElem?_getD] at hi ⊢
    cases e : S.moments[n]? with
    | none => rfl
    | some x =>
      rw [e, Option.getD_some] at hi
      have := h.moments x (List.mem_of_getElem? e)
      simp only [Option.getD_some]
      omega
  | localizing n w =>
    rcases mapFind_cases (lessLocalizing mk.hash) S.localizing (n, w) with x | ⟨e, he, -, x⟩
    · exact x.2
    · simp only [System.find] at hi
      have := h.localizing e he
      omega
  | poly n p =>
    rcases mapFind_cases (lessPoly mk.less) S.polys (n, p) with x | ⟨e, he, -, x⟩
    · exact x.2
    · simp only [System.find] at hi
      have := h.polys e he
      omega
  | subst a b =>
    rcases mapFind_cases lessPair S.substituted (a, b) with x | ⟨e, he, -, x⟩
    · exact x.2
    · simp only [System.find] at hi
      have := h.substituted e he
      omega

/-- A new index is found from then on, and nothing else changes. -/
theorem Inv.find_insert {mk : Maker T W P R B M} (ho : Ordered mk) {S : System T W P B M} (h : Inv mk S) {i : Index W P} (hi : S.find mk i < 0) (o : Int)
    (j : Index W P) : (Same mk i j → (S.insert mk i o).find mk j = o) ∧ (¬ Same mk i j → (S.insert mk i o).find mk j = S.find mk j) := by
  classical
  cases i with
  | moment n =>
    cases j with
    | moment n' =>
      simp only [System.find, System.insert, Same]
      rw [vectorFind_insert (by simpa [System.find] using h.neg hi)]
      exact ⟨fun e => if_pos e, fun e => if_neg e⟩
    | _ => exact ⟨fun e => e.elim, fun _ => rfl⟩
  | localizing n w =>
    cases j with
    | localizing n' w' =>
      simp only [System.find, System.insert, Same]
      rw [mapFind_insert (fun a => (lessLocalizing_iff.mpr ⟨rfl, rfl⟩).1) (fun a b c x y => lessLocalizing_iff.mpr (by
        obtain ⟨x1, x2⟩ := lessLocalizing_iff.mp x
        obtain ⟨y1, y2⟩ := lessLocalizing_iff.mp y
        exact ⟨x1.trans y1, x2.trans y2⟩)) h.localizing hi]
      exact ⟨fun e => if_pos (lessLocalizing_iff.mpr e), fun e => if_neg fun x => e (lessLocalizing_iff.mp x)⟩
    | _ => exact ⟨fun e => e.elim, fun _ => rfl⟩
  | poly n p =>
    cases j with
    | poly n' p' =>
      simp only [System.find, System.insert, Same]
      rw [mapFind_insert (fun a => (lessPoly_iff.mpr ⟨rfl, ho.refl _, ho.refl _⟩).1) (fun a b c x y => lessPoly_iff.mpr (by
        obtain ⟨x1, x2, x3⟩ := lessPoly_iff.mp x
        obtain ⟨y1, y2, y3⟩ := lessPoly_iff.mp y
        exact ⟨x1.trans y1, ho.trans _ _ _ x2 x3 y2 y3⟩)) h.polys hi]
      exact ⟨fun e => if_pos (lessPoly_iff.mpr e), fun e => if_neg fun x => e (lessPoly_iff.mp x)⟩
    | _ => exact ⟨fun e => e.elim, fun _ => rfl⟩
  | subst a b =>
    cases j with
    | subst a' b' =>
      simp only [System.find, System.insert, Same]
      rw [mapFind_insert (fun a => (lessPair_iff.mpr rfl).1) (fun a b c x y => lessPair_iff.mpr ((lessPair_iff.mp x).trans (lessPair_iff.mp y))) h.substituted hi]
      refine ⟨fun e => if_pos (lessPair_iff.mpr (Prod.ext e.1 e.2)), fun e => if_neg fun x => e ?_⟩
      have := lessPair_iff.mp x
      simp only [Prod.mk.injEq] at this
      exact this
    | _ => exact ⟨fun e => e.elim, fun _ => rfl⟩

/-- Indices that are the same are found at the same place. -/
theorem Inv.find_same {mk : Maker T W P R B M} (ho : Ordered mk) {S : System T W P B M} (h : Inv mk S) {i j : Index W P} (hs : Same mk i j) (hi : 0 ≤ S.find mk i) :
    S.find mk j = S.find mk i := by
  by_contra hne
  by_cases hj : 0 ≤ S.find mk j
  · cases i with
    | moment n => cases j <;> simp only [Same] at hs; subst hs; exact hne rfl
    | localizing n w =>
      cases j <;> simp only [Same] at hs
      obtain ⟨rfl, hh⟩ := hs
      apply hne
      simp only [System.find, mapFind, lessLocalizing, hh]
    | subst a b => cases j <;> simp only [Same] at hs; obtain ⟨rfl, rfl⟩ := hs; exact hne rfl
    | poly n p =>
      cases j <;> simp only [Same] at hs
      rename_i n' p'
      obtain ⟨rfl, hh⟩ := hs
      apply hne
      have : ∀ e : (Nat × P) × Int, (lessPoly mk.less e.1 (n, p') = false ∧ lessPoly mk.less (n, p') e.1 = false) ↔
          (lessPoly mk.less e.1 (n, p) = false ∧ lessPoly mk.less (n, p) e.1 = false) := by
        intro e
        rw [lessPoly_iff, lessPoly_iff]
        exact ⟨fun x => ⟨x.1, ho.trans _ _ _ x.2.1 x.2.2 hh.2 hh.1⟩, fun x => ⟨x.1, ho.trans _ _ _ x.2.1 x.2.2 hh.1 hh.2⟩⟩
      have e2 : (fun e : (Nat × P) × Int => !lessPoly mk.less e.1 (n, p') && !lessPoly mk.less (n, p') e.1) =
          fun e => !lessPoly mk.less e.1 (n, p) && !lessPoly mk.less (n, p) e.1 := by
        funext e
        rw [Bool.eq_iff_iff]
        simpa using this e
      simp only [System.find, mapFind, e2]
  · have hj' : S.find mk j < 0 := by omega
    cases i with
    | moment n => cases j <;> simp only [Same] at hs; subst hs; exact hne rfl
    | localizing n w =>
      cases j <;> simp only [Same] at hs
      obtain ⟨rfl, hh⟩ := hs
      apply hne
      simp only [System.find, mapFind, lessLocalizing, hh]
    | subst a b => cases j <;> simp only [Same] at hs; obtain ⟨rfl, rfl⟩ := hs; exact hne rfl
    | poly n p =>
      cases j <;> simp only [Same] at hs
      rename_i n' p'
      obtain ⟨rfl, hh⟩ := hs
      simp only [System.find] at hi hj'
      rcases mapFind_cases (lessPoly mk.less) S.polys (n, p) with x | ⟨e, he, x, -⟩
      · omega
      rcases mapFind_cases (lessPoly mk.less) S.polys (n, p') with y | ⟨e', he', -, y⟩
      · refine y.1 e he (lessPoly_iff.mpr ?_)
        obtain ⟨x1, x2, x3⟩ := lessPoly_iff.mp x
        exact ⟨x1, ho.trans _ _ _ x2 x3 hh.1 hh.2⟩
      · have := h.polys e' he'
        omega

/-- The indices of a system, without matrices, symbols and rulebooks. -/
def SameIndices (S S' : System T W P B M) : Prop :=
  S'.moments = S.moments ∧ S'.localizing = S.localizing ∧ S'.polys = S.polys ∧ S'.substituted = S.substituted

theorem SameIndices.find {S S' : System T W P B M} (h : SameIndices S S') (mk : Maker T W P R B M) (i : Index W P) : S'.find mk i = S.find mk i := by
  obtain ⟨h1, h2, h3, h4⟩ := h
  cases i <;> simp [System.find, h1, h2, h3, h4]

theorem Inv.same {mk : Maker T W P R B M} {S S' : System T W P B M} (h : Inv mk S) (hs : SameIndices S S') (hl : S.matrices.length ≤ S'.matrices.length) : Inv mk S' := by
  have hf := hs.find mk
  obtain ⟨h1, h2, h3, h4⟩ := hs
  refine ⟨h1 ▸ h.moments, h2 ▸ h.localizing, h3 ▸ h.polys, h4 ▸ h.substituted, fun i => ?_, fun i j => ?_⟩
  · rw [hf]; have := h.range i; omega
  · rw [hf, hf]; exact h.inj i j

/-- Entering an index for a matrix that has none keeps all this. -/
theorem Inv.insert {mk : Maker T W P R B M} (ho : Ordered mk) {S : System T W P B M} (h : Inv mk S) {i : Index W P} (hi : S.find mk i < 0) {o : Nat}
    (hl : o < S.matrices.length) (hn : ∀ j, S.find mk j ≠ o) : Inv mk (S.insert mk i o) := by
  have hf := h.find_insert ho hi (o : Int)
  have hm : (S.insert mk i o).matrices = S.matrices := by cases i <;> rfl
  refine ⟨?_, ?_, ?_, ?_, fun j => ?_, fun j k h1 h2 => ?_⟩
  · intro x hx
    cases i with
    | moment n => rcases vectorInsert_mem hx with y | y | y
                  · exact h.moments x y
                  · omega
                  · omega
    | _ => exact h.moments x hx
  · intro e he
    cases i with
    | localizing n w => rcases mapInsert_mem he with y | y
                        · exact h.localizing e y
                        · rw [y]; simp
    | _ => exact h.localizing e he
  · intro e he
    cases i with
    | poly n w => rcases mapInsert_mem he with y | y
                  · exact h.polys e y
                  · rw [y]; simp
    | _ => exact h.polys e he
  · intro e he
    cases i with
    | subst n w => rcases mapInsert_mem he with y | y
                   · exact h.substituted e y
                   · rw [y]; simp
    | _ => exact h.substituted e he
  · rw [hm]
    by_cases hs : Same mk i j
    · rw [(hf j).1 hs]; omega
    · rw [(hf j).2 hs]; exact h.range j
  · by_cases hj : Same mk i j
    · by_cases hk : Same mk i k
      · exact hj.symm.trans ho hk
      · rw [(hf j).1 hj, (hf k).2 hk] at h2
        exact absurd h2.symm (hn k)
    · rw [(hf j).2 hj] at h1 h2
      by_cases hk : Same mk i k
      · rw [(hf k).1 hk] at h2
        exact absurd h2 (hn j)
      · rw [(hf k).2 hk] at h2
        exact h.inj j k h1 h2

/-- What operations other than deletions do: matrices stay where they are, and indices that were known lead to the same matrices; others lead to new ones. -/
structure Grows (mk : Maker T W P R B M) (S S' : System T W P B M) : Prop where
  inv : Inv mk S'
  matrices : S.matrices <+: S'.matrices
  old : ∀ i, 0 ≤ S.find mk i → S'.find mk i = S.find mk i
  new : ∀ i, S.find mk i < 0 → 0 ≤ S'.find mk i → (S.matrices.length : Int) ≤ S'.find mk i

theorem Grows.refl {mk : Maker T W P R B M} {S : System T W P B M} (h : Inv mk S) : Grows mk S S :=
  ⟨h, List.prefix_rfl, fun _ _ => rfl, fun _ a b => by omega⟩

theorem Grows.trans {mk : Maker T W P R B M} {S S' S'' : System T W P B M} (h : Grows mk S S') (h' : Grows mk S' S'') : Grows mk S S'' := by
  refine ⟨h'.inv, h.matrices.trans h'.matrices, fun i hi => ?_, fun i hi hi' => ?_⟩
  · have := h.old i hi
    rw [h'.old i (by omega), this]
  · by_cases hx : 0 ≤ S'.find mk i
    · have := h.new i hi hx
      rw [h'.old i hx]
      exact this
    · have := h'.new i (by omega) hi'
      have := h.matrices.length_le
      omega

theorem grows_same {mk : Maker T W P R B M} {S S' : System T W P B M} (h : Inv mk S) (hs : SameIndices S S') (hm : S.matrices <+: S'.matrices) : Grows mk S S' :=
  ⟨h.same hs hm.length_le, hm, fun i _ => hs.find mk i, fun i a b => by rw [hs.find mk i] at b; omega⟩

theorem made_same (S : System T W P B M) (r : T × Option M) : SameIndices S (S.made r).1 ∧ S.matrices <+: (S.made r).1.matrices := by
  unfold System.made
  split
  · exact ⟨⟨rfl, rfl, rfl, rfl⟩, List.prefix_rfl⟩
  · exact ⟨⟨rfl, rfl, rfl, rfl⟩, List.prefix_append _ _⟩

/-- What a factory does: the system grows, and the matrix is new: its number is not that of an index, and it is there. -/
def Makes (mk : Maker T W P R B M) (S : System T W P B M) (r : System T W P B M × Option (Nat × M)) : Prop :=
  Grows mk S r.1 ∧ ∀ o m, r.2 = some (o, m) → S.matrices.length ≤ o ∧ r.1.matrices[o]? = some (some m) ∧ ∀ j, r.1.find mk j ≠ o

theorem made_makes {mk : Maker T W P R B M} {S : System T W P B M} (h : Inv mk S) (r : T × Option M) : Makes mk S (S.made r) := by
  refine ⟨grows_same h (made_same S r).1 (made_same S r).2, fun o m ho => ?_⟩
  have hf := (made_same S r).1.find mk
  have : o = S.matrices.length ∧ r.2 = some m := by
    unfold System.made at ho
    split at ho <;> simp at ho
    rename_i m' e
    exact ⟨ho.1.symm, by rw [e, ho.2]⟩
  obtain ⟨rfl, e⟩ := this
  refine ⟨le_rfl, ?_, fun j => ?_⟩
  · simp [System.made, e, System.push]
  · rw [hf]
    have := h.range j
    omega

theorem get_some {S : System T W P B M} {o : Nat} {m : M} (h : S.matrices[o]? = some (some m)) : S.get (o : Int) = some m := by
  unfold System.get
  have := (List.getElem?_eq_some_iff.mp h).1
  rw [if_neg (by omega)]
  simp [h]

theorem get_iff {S : System T W P B M} {i : Int} {m : M} (h : S.get i = some m) : 0 ≤ i ∧ S.matrices[i.toNat]? = some (some m) := by
  unfold System.get at h
  split at h
  · simp at h
  · refine ⟨by omega, ?_⟩
    cases e : S.matrices[i.toNat]? with
    | none => simp [e] at h
    | some x => simp only [e, Option.join_some] at h; rw [h]

/-- What a request does: the system grows; if there is a matrix, then its index is known afterwards. -/
def Gives (mk : Maker T W P R B M) (S : System T W P B M) (i : Index W P) (r : System T W P B M × Option (Nat × M)) : Prop :=
  Grows mk S r.1 ∧ (0 ≤ S.find mk i → r.1 = S) ∧ ∀ o m, r.2 = some (o, m) → r.1.find mk i = o ∧ r.1.matrices[o]? = some (some m)

theorem create_gives {mk : Maker T W P R B M} (ho : Ordered mk) {make : System T W P B M → Reply T W P B M} {S : System T W P B M} (h : Inv mk S) {i : Index W P}
    (hm : ∀ r, make S = some r → Makes mk S r ∧ (r.2.isSome → r.1.find mk i < 0)) {r : System T W P B M × Option (Nat × M)} (hr : S.create mk make i = some r) :
    Gives mk S i r := by
  unfold System.create at hr
  dsimp only at hr
  split at hr
  · rename_i hi
    simp only [Option.some.injEq] at hr
    subst hr
    refine ⟨.refl h, fun _ => rfl, fun o m e => ?_⟩
    cases hg : S.get (S.find mk i) with
    | none => simp [hg] at e
    | some m' =>
      simp only [hg, Option.map_some, Option.some.injEq, Prod.mk.injEq] at e
      obtain ⟨rfl, rfl⟩ := e
      exact ⟨by simp only; omega, (get_iff hg).2⟩
  · rename_i hi
    cases hx : make S with
    | none => simp [hx] at hr
    | some q =>
      obtain ⟨⟨g1, g2⟩, g3⟩ := hm q hx
      rw [hx, Option.map_some, Option.some.injEq] at hr
      obtain ⟨S', v⟩ := q
      cases v with
      | none =>
        dsimp only at hr
        subst hr
        exact ⟨g1, fun x => absurd x hi, fun o m e => by simp at e⟩
      | some km =>
        obtain ⟨k, m⟩ := km
        dsimp only at hr g1 g2 g3
        obtain ⟨a, b, c⟩ := g2 k m rfl
        have hneg := g3 rfl
        have hl := (List.getElem?_eq_some_iff.mp b).1
        have hf := g1.inv.find_insert ho hneg (k : Int)
        have hmat : (S'.insert mk i k).matrices = S'.matrices := by cases i <;> rfl
        subst hr
        refine ⟨⟨g1.inv.insert ho hneg hl c, by rw [hmat]; exact g1.matrices, fun j hj => ?_, fun j hj hj' => ?_⟩, fun x => absurd x hi, fun o m' e => ?_⟩
        · by_cases hs : Same mk i j
          · have := g1.old j hj
            have := g1.inv.find_same ho hs.symm (by omega)
            omega
          · rw [(hf j).2 hs, g1.old j hj]
        · dsimp only at hj' ⊢
          by_cases hs : Same mk i j
          · rw [(hf j).1 hs]; omega
          · rw [(hf j).2 hs] at hj' ⊢
            exact g1.new j hj hj'
        · simp only [Option.some.injEq, Prod.mk.injEq] at e
          obtain ⟨rfl, rfl⟩ := e
          exact ⟨(hf i).1 (same_refl ho i), by rw [hmat]; exact b⟩

theorem made_find {mk : Maker T W P R B M} {S : System T W P B M} (r : T × Option M) (i : Index W P) : (S.made r).1.find mk i = S.find mk i := (made_same S r).1.find mk i

theorem createLocalizing_gives {mk : Maker T W P R B M} (ho : Ordered mk) {S : System T W P B M} (h : Inv mk S) {n : Nat} {w : W}
    {r : System T W P B M × Option (Nat × M)} (hr : S.createLocalizing mk n w = some r) : Gives mk S (.localizing n w) r := by
  by_cases hi : 0 ≤ S.find mk (.localizing n w)
  · unfold System.createLocalizing System.create at hr
    dsimp only at hr
    rw [if_pos hi] at hr
    exact create_gives ho (make := fun _ => none) h (fun r hr => by simp at hr) (by unfold System.create; dsimp only; rw [if_pos hi]; exact hr)
  · refine create_gives ho h (fun q hq => ?_) hr
    cases hx : mk.localizing S.table n w with
    | none => simp [hx] at hq
    | some y =>
      rw [hx, Option.map_some, Option.some.injEq] at hq
      subst hq
      exact ⟨made_makes h y, fun _ => by rw [made_find]; omega⟩

/-- Localizing matrices are entered in their own index only. -/
def KeepsOthers (S S' : System T W P B M) : Prop :=
  S'.moments = S.moments ∧ S'.polys = S.polys ∧ S'.substituted = S.substituted ∧ S'.books = S.books

theorem KeepsOthers.refl (S : System T W P B M) : KeepsOthers S S := ⟨rfl, rfl, rfl, rfl⟩

theorem KeepsOthers.trans {S S' S'' : System T W P B M} (h : KeepsOthers S S') (h' : KeepsOthers S' S'') : KeepsOthers S S'' :=
  ⟨h'.1.trans h.1, h'.2.1.trans h.2.1, h'.2.2.1.trans h.2.2.1, h'.2.2.2.trans h.2.2.2⟩

theorem made_keeps (S : System T W P B M) (r : T × Option M) : KeepsOthers S (S.made r).1 := by
  unfold System.made
  split <;> exact ⟨rfl, rfl, rfl, rfl⟩

theorem createLocalizing_keeps {mk : Maker T W P R B M} {S : System T W P B M} {n : Nat} {w : W} {r : System T W P B M × Option (Nat × M)}
    (hr : S.createLocalizing mk n w = some r) : KeepsOthers S r.1 := by
  unfold System.createLocalizing System.create at hr
  dsimp only at hr
  split at hr
  · simp only [Option.some.injEq] at hr
    subst hr
    exact .refl S
  · cases hx : mk.localizing S.table n w with
    | none => simp [hx] at hr
    | some y =>
      simp only [hx, Option.map_some, Option.some.injEq] at hr
      subst hr
      have := made_keeps S y
      split
      · exact this
      · exact this.trans ⟨rfl, rfl, rfl, rfl⟩

theorem parts_spec {mk : Maker T W P R B M} (ho : Ordered mk) (n : Nat) (p : P) : ∀ (k : Nat) {S : System T W P B M}, Inv mk S →
    ∀ {q : System T W P B M × Option (List M)}, S.parts mk n p k = some q → Grows mk S q.1 ∧ KeepsOthers S q.1
  | 0, S, h, q, hq => by
    simp only [System.parts, Option.some.injEq] at hq
    subst hq
    exact ⟨.refl h, .refl S⟩
  | k + 1, S, h, q, hq => by
    rw [System.parts] at hq
    cases hw : mk.word S.table p (mk.size p - (k + 1)) with
    | none => simp [hw] at hq
    | some w =>
      rw [hw, Option.bind_some] at hq
      cases hr : S.createLocalizing mk n w with
      | none => simp [hr] at hq
      | some r =>
        rw [hr, Option.bind_some] at hq
        have g := (createLocalizing_gives ho h hr).1
        have e := createLocalizing_keeps hr
        obtain ⟨S', v⟩ := r
        cases v with
        | none =>
          simp only [Option.some.injEq] at hq
          subst hq
          exact ⟨g, e⟩
        | some om =>
          dsimp only at hq g e
          cases hp : S'.parts mk n p k with
          | none => simp [hp] at hq
          | some q' =>
            rw [hp, Option.map_some, Option.some.injEq] at hq
            subst hq
            obtain ⟨a, b⟩ := parts_spec ho n p k g.inv hp
            exact ⟨g.trans a, e.trans b⟩

theorem rawParts_spec {mk : Maker T W P R B M} (ho : Ordered mk) (n : Nat) : ∀ (ws : List W) {S : System T W P B M}, Inv mk S →
    ∀ {q : System T W P B M × Option (List M)}, S.rawParts mk n ws = some q → Grows mk S q.1 ∧ KeepsOthers S q.1
  | [], S, h, q, hq => by
    simp only [System.rawParts, Option.some.injEq] at hq
    subst hq
    exact ⟨.refl h, .refl S⟩
  | w :: ws, S, h, q, hq => by
    rw [System.rawParts] at hq
    cases hr : S.createLocalizing mk n w with
    | none => simp [hr] at hq
    | some r =>
      rw [hr, Option.bind_some] at hq
      have g := (createLocalizing_gives ho h hr).1
      have e := createLocalizing_keeps hr
      obtain ⟨S', v⟩ := r
      cases v with
      | none =>
        simp only [Option.some.injEq] at hq
        subst hq
        exact ⟨g, e⟩
      | some om =>
        dsimp only at hq g e
        cases hp : S'.rawParts mk n ws with
        | none => simp [hp] at hq
        | some q' =>
          rw [hp, Option.map_some, Option.some.injEq] at hq
          subst hq
          obtain ⟨a, b⟩ := rawParts_spec ho n ws g.inv hp
          exact ⟨g.trans a, e.trans b⟩

theorem Makes.after {mk : Maker T W P R B M} {S S' : System T W P B M} (h : Grows mk S S') {r : System T W P B M × Option (Nat × M)} (hm : Makes mk S' r) : Makes mk S r :=
  ⟨h.trans hm.1, fun o m e => by
    obtain ⟨a, b⟩ := hm.2 o m e
    exact ⟨h.matrices.length_le.trans a, b⟩⟩

theorem makePoly_makes {mk : Maker T W P R B M} (ho : Ordered mk) {S : System T W P B M} (h : Inv mk S) {n : Nat} {p : P} {r : System T W P B M × Option (Nat × M)}
    (hr : S.makePoly mk n p = some r) : Makes mk S r ∧ KeepsOthers S r.1 := by
  unfold System.makePoly at hr
  cases hq : S.parts mk n p (mk.size p) with
  | none => simp [hq] at hr
  | some q =>
    rw [hq, Option.bind_some] at hr
    obtain ⟨g, e⟩ := parts_spec ho n p _ h hq
    obtain ⟨S', v⟩ := q
    cases v with
    | none =>
      simp only [Option.some.injEq] at hr
      subst hr
      exact ⟨⟨g, fun o m e => by simp at e⟩, e⟩
    | some l =>
      dsimp only at hr g e
      cases hc : mk.compose S'.table n p l with
      | none => simp [hc] at hr
      | some x =>
        rw [hc, Option.map_some, Option.some.injEq] at hr
        subst hr
        exact ⟨(made_makes g.inv x).after g, e.trans (made_keeps S' x)⟩

/-- All factories make matrices. -/
theorem make_makes {mk : Maker T W P R B M} (ho : Ordered mk) {S : System T W P B M} (h : Inv mk S) {i : Index W P} (hi : S.find mk i < 0)
    {r : System T W P B M × Option (Nat × M)} (hr : S.make mk i = some r) : Makes mk S r ∧ (r.2.isSome → r.1.find mk i < 0) := by
  cases i with
  | moment n =>
    simp only [System.make, Option.map_eq_some_iff] at hr
    obtain ⟨x, -, rfl⟩ := hr
    exact ⟨made_makes h x, fun _ => by rw [made_find]; exact hi⟩
  | localizing n w =>
    simp only [System.make, Option.map_eq_some_iff] at hr
    obtain ⟨x, -, rfl⟩ := hr
    exact ⟨made_makes h x, fun _ => by rw [made_find]; exact hi⟩
  | poly n p =>
    obtain ⟨a, b⟩ := makePoly_makes ho h hr
    refine ⟨a, fun _ => ?_⟩
    simp only [System.find] at hi ⊢
    rw [b.2.1]
    exact hi
  | subst a b =>
    simp only [System.make, System.makeSubst] at hr
    split at hr
    · simp only [Option.map_eq_some_iff] at hr
      obtain ⟨x, -, rfl⟩ := hr
      exact ⟨made_makes h x, fun _ => by rw [made_find]; exact hi⟩
    · simp only [Option.some.injEq] at hr
      subst hr
      exact ⟨⟨.refl h, fun o m e => by simp at e⟩, fun e => by simp at e⟩

theorem request_gives {mk : Maker T W P R B M} (ho : Ordered mk) {S : System T W P B M} (h : Inv mk S) {i : Index W P}
    {r : System T W P B M × Option (Nat × M)} (hr : S.request mk i = some r) : Gives mk S i r := by
  unfold System.request at hr
  by_cases hi : 0 ≤ S.find mk i
  · refine create_gives ho (make := fun _ => none) h (fun r hr => by simp at hr) ?_
    unfold System.create at hr ⊢
    dsimp only at hr ⊢
    rw [if_pos hi] at hr ⊢
    exact hr
  · exact create_gives ho h (fun q hq => make_makes ho h (by omega) hq) hr

theorem makeRaw_makes {mk : Maker T W P R B M} (ho : Ordered mk) {S : System T W P B M} (h : Inv mk S) {n : Nat} {q : R} {r : System T W P B M × Option (Nat × M)}
    (hr : S.makeRaw mk n q = some r) : Makes mk S r := by
  unfold System.makeRaw at hr
  split at hr
  · cases hq : S.rawParts mk n (mk.rawWords q) with
    | none => simp [hq] at hr
    | some x =>
      rw [hq, Option.bind_some] at hr
      obtain ⟨g, -⟩ := rawParts_spec ho n _ h hq
      obtain ⟨S', v⟩ := x
      cases v with
      | none =>
        simp only [Option.some.injEq] at hr
        subst hr
        exact ⟨g, fun o m e => by simp at e⟩
      | some l =>
        dsimp only at hr g
        cases hc : mk.composeRaw S'.table n q l with
        | none => simp [hc] at hr
        | some y =>
          rw [hc, Option.map_some, Option.some.injEq] at hr
          subst hr
          exact (made_makes g.inv y).after g
  · cases hq : mk.register S.table q with
    | none => simp [hq] at hr
    | some x =>
      rw [hq, Option.bind_some] at hr
      have g : Grows mk S { S with table := x.1 } := grows_same h ⟨rfl, rfl, rfl, rfl⟩ List.prefix_rfl
      exact (makePoly_makes ho g.inv hr).1.after g

/-- What an operation other than a deletion does. -/
theorem exec_grows {mk : Maker T W P R B M} (ho : Ordered mk) {S S' : System T W P B M} (h : Inv mk S) {x : Op W P R B} {r : Out M} (hx : S.exec mk x = some (S', r))
    (hd : ∀ i, x ≠ .delete i) : Grows mk S S' := by
  cases x with
  | request i =>
    simp only [System.exec, Option.map_eq_some_iff] at hx
    obtain ⟨y, hy, e⟩ := hx
    have := (request_gives ho h hy).1
    simp only [ofReply, Prod.mk.injEq] at e
    rw [← e.1]
    exact this
  | raw n q =>
    simp only [System.exec, Option.map_eq_some_iff] at hx
    obtain ⟨y, hy, e⟩ := hx
    have := (makeRaw_makes ho h hy).1
    simp only [ofReply, Prod.mk.injEq] at e
    rw [← e.1]
    exact this
  | delete i => exact absurd rfl (hd i)
  | addBook b =>
    simp only [System.exec, Option.some.injEq, Prod.mk.injEq] at hx
    rw [← hx.1]
    exact grows_same h ⟨rfl, rfl, rfl, rfl⟩ List.prefix_rfl
  | mergeBook i b =>
    simp only [System.exec] at hx
    split at hx <;> simp only [Option.some.injEq, Prod.mk.injEq] at hx <;> rw [← hx.1]
    · exact .refl h
    · exact grows_same h ⟨rfl, rfl, rfl, rfl⟩ List.prefix_rfl
  | dictionary n =>
    simp only [System.exec, Option.map_eq_some_iff, Prod.mk.injEq] at hx
    obtain ⟨y, hy, e, -⟩ := hx
    rw [← e]
    exact grows_same h ⟨rfl, rfl, rfl, rfl⟩ List.prefix_rfl

/-- What a deletion does. -/
theorem delete_spec {S S' : System T W P B M} {i : Int} {b : Bool} (h : S.delete i = some (S', b)) :
    SameIndices S S' ∧ S'.table = S.table ∧ S'.books = S.books ∧ S'.matrices.length = S.matrices.length ∧
      (b = true → 0 ≤ i ∧ (∃ m, S.matrices[i.toNat]? = some (some m)) ∧ S'.matrices = S.matrices.set i.toNat none) ∧ (b = false → S' = S) := by
  unfold System.delete at h
  split at h
  · simp only [Option.some.injEq, Prod.mk.injEq] at h
    obtain ⟨rfl, rfl⟩ := h
    exact ⟨⟨rfl, rfl, rfl, rfl⟩, rfl, rfl, rfl, fun e => by simp at e, fun _ => rfl⟩
  · rename_i hi
    split at h
    · simp at h
    · simp only [Option.some.injEq, Prod.mk.injEq] at h
      obtain ⟨rfl, rfl⟩ := h
      exact ⟨⟨rfl, rfl, rfl, rfl⟩, rfl, rfl, rfl, fun e => by simp at e, fun _ => rfl⟩
    · rename_i m hm
      simp only [Option.some.injEq, Prod.mk.injEq] at h
      obtain ⟨rfl, rfl⟩ := h
      exact ⟨⟨rfl, rfl, rfl, rfl⟩, rfl, rfl, by simp, fun _ => ⟨by omega, ⟨m, hm⟩, rfl⟩, fun e => by simp at e⟩

theorem exec_inv {mk : Maker T W P R B M} (ho : Ordered mk) {S S' : System T W P B M} (h : Inv mk S) {x : Op W P R B} {r : Out M} (hx : S.exec mk x = some (S', r)) :
    Inv mk S' ∧ S.matrices.length ≤ S'.matrices.length ∧ (∀ i, 0 ≤ S.find mk i → S'.find mk i = S.find mk i) ∧
      (∀ i, S.find mk i < 0 → 0 ≤ S'.find mk i → (S.matrices.length : Int) ≤ S'.find mk i) ∧
      ∀ (o : Nat) v, S.matrices[o]? = some v → x ≠ .delete o → S'.matrices[o]? = some v := by
  by_cases hd : ∃ i, x = .delete i
  · obtain ⟨i, rfl⟩ := hd
    simp only [System.exec, Option.map_eq_some_iff, Prod.mk.injEq] at hx
    obtain ⟨⟨S'', b⟩, hy, rfl, -⟩ := hx
    obtain ⟨h1, -, -, h2, h3, h4⟩ := delete_spec hy
    dsimp only
    refine ⟨h.same h1 h2.ge, h2.ge, fun j _ => h1.find mk j, fun j a b => by rw [h1.find mk j] at b; omega, fun o v e hne => ?_⟩
    cases b with
    | false => rw [h4 rfl]; exact e
    | true =>
      obtain ⟨a, -, c⟩ := h3 rfl
      rw [c, List.getElem?_set_ne]
      · exact e
      · rintro rfl
        exact hne (by rw [Int.toNat_of_nonneg a])
  · have g := exec_grows ho h hx fun i e => hd ⟨i, e⟩
    refine ⟨g.inv, g.matrices.length_le, g.old, g.new, fun o v e _ => ?_⟩
    obtain ⟨l, hl⟩ := g.matrices
    rw [← hl, List.getElem?_append_left (List.getElem?_eq_some_iff.mp e).1]
    exact e

theorem Steps.spec {mk : Maker T W P R B M} (ho : Ordered mk) {S S' : System T W P B M} {l : List (Op W P R B)} (hs : Steps mk S l S') (h : Inv mk S) :
    Inv mk S' ∧ S.matrices.length ≤ S'.matrices.length ∧ (∀ i, 0 ≤ S.find mk i → S'.find mk i = S.find mk i) ∧
      (∀ i, S.find mk i < 0 → 0 ≤ S'.find mk i → (S.matrices.length : Int) ≤ S'.find mk i) ∧
      ∀ (o : Nat) v, S.matrices[o]? = some v → .delete o ∉ l → S'.matrices[o]? = some v := by
  induction hs with
  | refl => exact ⟨h, le_rfl, fun _ _ => rfl, fun i a b => by omega, fun _ _ e _ => e⟩
  | @step S₁ _ _ _ _ _ hx ih =>
    obtain ⟨a, b, c, d, e⟩ := ih
    obtain ⟨a', b', c', d', e'⟩ := exec_inv ho a hx
    refine ⟨a', b.trans b', fun i hi => ?_, fun i hi hi' => ?_, fun o v hv hn => ?_⟩
    · have := c i hi
      rw [c' i (by omega), this]
    · by_cases hm : 0 ≤ S₁.find mk i
      · rw [c' i hm]
        exact d i hi hm
      · have := d' i (by omega) hi'
        omega
    · simp only [List.mem_append, List.mem_singleton, not_or] at hn
      exact e' o v (e o v hv hn.1) fun x => hn.2 x.symm

end Moment.MatrixSystem
