import Verif.Proof.SymmetryMapper

/-! # All calls of `create_representation` give representations -/

namespace Moment.SymRep

theorem at_set {α : Type} {l : List (Option α)} {n k : Nat} {x : α} (hn : 1 ≤ n) (hk : 1 ≤ k) (hl : n ≤ l.length) :
    at? (l.set (n - 1) (some x)) k = if k = n then some x else at? l k := by
  unfold at?
  rw [List.getElem?_set]
  by_cases h : k = n
  · subst h
    rw [if_pos rfl, if_pos (by omega), if_pos rfl]; rfl
  · rw [if_neg (by omega), if_neg h]

theorem at_grow {α : Type} (l : List (Option α)) (n k : Nat) : at? (grow l n) k = at? l k := by
  unfold at? grow
  by_cases h : k - 1 < l.length
  · rw [List.getElem?_append_left h]
  · rw [List.getElem?_append_right (by omega), List.getElem?_eq_none (l := l) (by omega), List.getElem?_replicate]
    split <;> rfl

theorem grow_length {α : Type} (l : List (Option α)) (n : Nat) : (grow l n).length = max l.length n := by
  unfold grow
  rw [List.length_append, List.length_replicate]; omega

theorem last_join {α : Type} (l : List (Option α)) : l.getLast?.join = at? l l.length := by
  unfold at?
  rw [List.getLast?_eq_getElem?]

variable {R : Type} [Ring R] [Algebra ℝ R] {c : Ctx} {ev : HSeq → R} {N size : Nat} {φ : Nat → (R →ₐ[ℝ] R)}

/-- The mapper was made from those of the parents. -/
def Made (c : Ctx) (n : Nat) (m : Mapper) : Prop :=
  Fits c n m ∧ (2 ≤ n → ∃ A B, Fits c (parents n).1 A ∧ Fits c (parents n).2 B ∧ Mapper.make c A B n = some m)

def MapsOk (c : Ctx) (ms : List (Option Mapper)) : Prop := ∀ n m, 1 ≤ n → at? ms n = some m → Made c n m

/-- A representation for each element of the group. -/
def RepOk (c : Ctx) (ev : HSeq → R) (size : Nat) (φ : Nat → (R →ₐ[ℝ] R)) (n : Nat) (r : List Entries) : Prop :=
  r.length = size ∧ ∀ i A, r[i]? = some A → Represents ev (φ i) (c.words n) A

def RepsOk (c : Ctx) (ev : HSeq → R) (size : Nat) (φ : Nat → (R →ₐ[ℝ] R)) (rs : List (Option (List Entries))) : Prop :=
  ∀ n r, 1 ≤ n → at? rs n = some r → RepOk c ev size φ n r

theorem makeMappers_ok (hf : Faithful c ev N) (hN64 : N < 2 ^ 64) : ∀ (ns : List Nat) (ms : List (Option Mapper)), (∀ n ∈ ns, 2 ≤ n ∧ n ≤ N ∧ n ≤ ms.length) →
    ns.Pairwise (· < ·) → (∀ n ∈ ns, ((at? ms (parents n).1).isSome ∨ (parents n).1 ∈ ns) ∧ ((at? ms (parents n).2).isSome ∨ (parents n).2 ∈ ns)) →
    MapsOk c ms → ∃ ms', makeMappers c ns ms = some ms' ∧ ms'.length = ms.length ∧ MapsOk c ms' ∧ (∀ k, 1 ≤ k → (at? ms k).isSome → (at? ms' k).isSome) ∧
      ∀ n ∈ ns, (at? ms' n).isSome := by
  intro ns
  induction ns with
  | nil => exact fun ms _ _ _ h => ⟨ms, rfl, rfl, h, fun _ _ h => h, by simp⟩
  | cons n ns ih =>
    intro ms hb hs hp hok
    obtain ⟨h2, hnN, hnl⟩ := hb n (by simp)
    obtain ⟨hlt, hs'⟩ := List.pairwise_cons.mp hs
    have hps := parents_spec h2 (by omega)
    have hpn : ∀ p, p < n → p ∉ n :: ns := by
      intro p hpl h
      rcases List.mem_cons.mp h with h | h
      · omega
      · have := hlt p h; omega
    rw [makeMappers]
    cases hm : at? ms n with
    | some m0 =>
      dsimp only
      obtain ⟨ms', g1, g2, g3, g4, g5⟩ := ih ms (fun k hk => hb k (List.mem_cons_of_mem _ hk)) hs' (by
        intro k hk
        have := hp k (List.mem_cons_of_mem _ hk)
        refine ⟨this.1.elim .inl fun h => ?_, this.2.elim .inl fun h => ?_⟩
        · rcases List.mem_cons.mp h with h | h
          · left; rw [h, hm]; rfl
          · exact .inr h
        · rcases List.mem_cons.mp h with h | h
          · left; rw [h, hm]; rfl
          · exact .inr h) hok
      refine ⟨ms', g1, g2, g3, g4, ?_⟩
      intro k hk
      rcases List.mem_cons.mp hk with rfl | hk
      · exact g4 k (by omega) (by rw [hm]; rfl)
      · exact g5 k hk
    | none =>
      dsimp only
      have hp1 : (at? ms (parents n).1).isSome := (hp n (by simp)).1.elim id fun h => absurd h (hpn _ (by omega))
      have hp2 : (at? ms (parents n).2).isSome := (hp n (by simp)).2.elim id fun h => absurd h (hpn _ (by omega))
      obtain ⟨A, hA⟩ := Option.isSome_iff_exists.mp hp1
      obtain ⟨B, hB⟩ := Option.isSome_iff_exists.mp hp2
      have fA := (hok _ A (by omega) hA).1
      have fB := (hok _ B (by omega) hB).1
      obtain ⟨rm, hrm⟩ := remap_exists hf (a := (parents n).1) (b := (parents n).2) (by omega)
      have hmk : ∃ m, Mapper.make c A B n = some m := by
        unfold Mapper.make
        rw [fA.target, fB.target]
        rw [hps.1] at hrm
        rw [hrm]
        exact ⟨_, rfl⟩
      obtain ⟨m, hmk⟩ := hmk
      have fm : Fits c n m := by
        unfold Mapper.make at hmk
        obtain ⟨_, _, rfl⟩ := Option.map_eq_some_iff.mp hmk
        exact ⟨rfl, rfl⟩
      obtain ⟨ms', g1, g2, g3, g4, g5⟩ := ih (ms.set (n - 1) (some m)) (fun k hk => by rw [List.length_set]; exact hb k (List.mem_cons_of_mem _ hk)) hs' (by
        intro k hk
        have hk2 := hb k (List.mem_cons_of_mem _ hk)
        have hps' := parents_spec hk2.1 (by omega)
        have := hp k (List.mem_cons_of_mem _ hk)
        rw [at_set (by omega) (by omega) hnl, at_set (by omega) (by omega) hnl]
        refine ⟨?_, ?_⟩
        · by_cases h : (parents k).1 = n
          · left; rw [if_pos h]; rfl
          · rw [if_neg h]
            exact this.1.elim .inl fun h' => .inr ((List.mem_cons.mp h').resolve_left h)
        · by_cases h : (parents k).2 = n
          · left; rw [if_pos h]; rfl
          · rw [if_neg h]
            exact this.2.elim .inl fun h' => .inr ((List.mem_cons.mp h').resolve_left h)) (by
        intro k m' hk hm'
        rw [at_set (by omega) hk hnl] at hm'
        by_cases h : k = n
        · rw [if_pos h] at hm'
          have := Option.some.inj hm'
          subst this
          subst h
          exact ⟨fm, fun _ => ⟨A, B, fA, fB, hmk⟩⟩
        · rw [if_neg h] at hm'
          exact hok k m' hk hm')
      refine ⟨ms', by rw [hA, hB]; simp only [Option.bind_eq_bind, Option.bind_some, hmk, g1], by rw [g2, List.length_set], g3, ?_, ?_⟩
      · intro k hk hs
        refine g4 k hk ?_
        rw [at_set (by omega) hk hnl]
        split
        · rfl
        · exact hs
      · intro k hk
        rcases List.mem_cons.mp hk with rfl | hk
        · refine g4 k (by omega) ?_
          rw [at_set (by omega) (by omega) hnl, if_pos rfl]; rfl
        · exact g5 k hk

theorem buildReps_ok (hf : Faithful c ev N) (hN64 : N < 2 ^ 64) {ms : List (Option Mapper)} (hms : MapsOk c ms) : ∀ (ns : List Nat) (rs : List (Option (List Entries))),
    (∀ n ∈ ns, 2 ≤ n ∧ n ≤ N ∧ n ≤ rs.length ∧ (at? ms n).isSome) →
    ns.Pairwise (· < ·) → (∀ n ∈ ns, ((at? rs (parents n).1).isSome ∨ (parents n).1 ∈ ns) ∧ ((at? rs (parents n).2).isSome ∨ (parents n).2 ∈ ns)) →
    RepsOk c ev size φ rs → ∃ rs', buildReps ms size ns rs = some rs' ∧ rs'.length = rs.length ∧ RepsOk c ev size φ rs' ∧
      (∀ k, 1 ≤ k → (at? rs k).isSome → (at? rs' k).isSome) ∧ ∀ n ∈ ns, (at? rs' n).isSome := by
  intro ns
  induction ns with
  | nil => exact fun rs _ _ _ h => ⟨rs, rfl, rfl, h, fun _ _ h => h, by simp⟩
  | cons n ns ih =>
    intro rs hb hs hp hok
    obtain ⟨h2, hnN, hnl, hnm⟩ := hb n (by simp)
    obtain ⟨hlt, hs'⟩ := List.pairwise_cons.mp hs
    have hps := parents_spec h2 (by omega)
    have hpn : ∀ p, p < n → p ∉ n :: ns := by
      intro p hpl h
      rcases List.mem_cons.mp h with h | h
      · omega
      · have := hlt p h; omega
    have hp1 : (at? rs (parents n).1).isSome := (hp n (by simp)).1.elim id fun h => absurd h (hpn _ (by omega))
    have hp2 : (at? rs (parents n).2).isSome := (hp n (by simp)).2.elim id fun h => absurd h (hpn _ (by omega))
    obtain ⟨A, hA⟩ := Option.isSome_iff_exists.mp hp1
    obtain ⟨B, hB⟩ := Option.isSome_iff_exists.mp hp2
    obtain ⟨m, hm⟩ := Option.isSome_iff_exists.mp hnm
    have oA := hok _ A (by omega) hA
    have oB := hok _ B (by omega) hB
    obtain ⟨_, hmade⟩ := hms n m (by omega) hm
    obtain ⟨mA, mB, fA, fB, hmk⟩ := hmade h2
    obtain ⟨new, hnew, _⟩ := mapM_some (fun i => A[i]? >>= fun a => B[i]? >>= fun b => some (m.apply a b)) (List.range size) (by
      intro i hi
      rw [List.mem_range] at hi
      rw [List.getElem?_eq_getElem (l := A) (by rw [oA.1]; exact hi), List.getElem?_eq_getElem (l := B) (by rw [oB.1]; exact hi)]
      exact ⟨_, rfl⟩)
    obtain ⟨hlen, hget⟩ := mapM_get _ _ hnew
    have onew : RepOk c ev size φ n new := by
      refine ⟨by rw [hlen, List.length_range], ?_⟩
      intro i X hX
      have hi : i < size := by
        have := (List.getElem?_eq_some_iff.mp hX).1
        rw [hlen, List.length_range] at this; exact this
      rw [hget, List.getElem?_range hi, Option.bind_some, List.getElem?_eq_getElem (l := A) (by rw [oA.1]; exact hi),
        List.getElem?_eq_getElem (l := B) (by rw [oB.1]; exact hi)] at hX
      have hX' : m.apply (A[i]'(by rw [oA.1]; exact hi)) (B[i]'(by rw [oB.1]; exact hi)) = X := by simpa using hX
      rw [← hX']
      have := apply_represents hf (a := (parents n).1) (b := (parents n).2) (by omega) (by omega) (by omega) fA fB (by rw [hps.1]; exact hmk) (φ := φ i)
        (oA.2 i _ (List.getElem?_eq_getElem (by rw [oA.1]; exact hi))) (oB.2 i _ (List.getElem?_eq_getElem (by rw [oB.1]; exact hi)))
      rwa [hps.1] at this
    obtain ⟨rs', g1, g2, g3, g4, g5⟩ := ih (rs.set (n - 1) (some new)) (fun k hk => by rw [List.length_set]; exact hb k (List.mem_cons_of_mem _ hk)) hs' (by
      intro k hk
      have hk2 := hb k (List.mem_cons_of_mem _ hk)
      have hps' := parents_spec hk2.1 (by omega)
      have := hp k (List.mem_cons_of_mem _ hk)
      rw [at_set (by omega) (by omega) hnl, at_set (by omega) (by omega) hnl]
      refine ⟨?_, ?_⟩
      · by_cases h : (parents k).1 = n
        · left; rw [if_pos h]; rfl
        · rw [if_neg h]
          exact this.1.elim .inl fun h' => .inr ((List.mem_cons.mp h').resolve_left h)
      · by_cases h : (parents k).2 = n
        · left; rw [if_pos h]; rfl
        · rw [if_neg h]
          exact this.2.elim .inl fun h' => .inr ((List.mem_cons.mp h').resolve_left h)) (by
      intro k r hk hr
      rw [at_set (by omega) hk hnl] at hr
      by_cases h : k = n
      · rw [if_pos h] at hr
        rw [← Option.some.inj hr, h]
        exact onew
      · rw [if_neg h] at hr
        exact hok k r hk hr)
    refine ⟨rs', ?_, by rw [g2, List.length_set], g3, ?_, ?_⟩
    · rw [buildReps, hA, hB, hm]
      simp only [Option.bind_eq_bind, Option.bind_some]
      simp only [Option.bind_eq_bind] at hnew
      rw [hnew, Option.bind_some, g1]
    · intro k hk hs
      refine g4 k hk ?_
      rw [at_set (by omega) hk hnl]
      split
      · rfl
      · exact hs
    · intro k hk
      rcases List.mem_cons.mp hk with rfl | hk
      · refine g4 k (by omega) ?_
        rw [at_set (by omega) (by omega) hnl, if_pos rfl]; rfl
      · exact g5 k hk

/-- The invariant of the class. -/
structure Inv (c : Ctx) (ev : HSeq → R) (size : Nat) (φ : Nat → (R →ₐ[ℝ] R)) (G : Grp) : Prop where
  maps : MapsOk c G.mappers
  reps : RepsOk c ev size φ G.reps
  one : (at? G.mappers 1).isSome
  oneRep : (at? G.reps 1).isSome
  last : (at? G.mappers G.mappers.length).isSome
  len : 1 ≤ G.mappers.length

theorem inv_new {fund : List Entries} (h1 : fund.length = size) (h2 : ∀ i A, fund[i]? = some A → Represents ev (φ i) (c.words 1) A) :
    Inv c ev size φ (Grp.new c fund) := by
  refine ⟨?_, ?_, rfl, rfl, rfl, Nat.le_refl _⟩
  · intro n m hn h
    by_cases h1 : n = 1
    · subst h1
      have : Mapper.one c = m := Option.some.inj h
      subst this
      exact ⟨⟨rfl, rfl⟩, fun h => by omega⟩
    · rw [Grp.new, at?, List.getElem?_eq_none (by simp; omega)] at h
      exact absurd h (by simp)
  · intro n r hn h
    by_cases h1 : n = 1
    · subst h1
      have : fund = r := Option.some.inj h
      subst this
      exact ⟨by assumption, h2⟩
    · rw [Grp.new, at?, List.getElem?_eq_none (by simp; omega)] at h
      exact absurd h (by simp)

theorem inv_create (hf : Faithful c ev N) (hN64 : N < 2 ^ 64) {G : Grp} (hG : Inv c ev size φ G) {n : Nat} (hn : n ≤ N) :
    ∃ G' o, G.create c size n = some (G', o) ∧ Inv c ev size φ G' ∧ (n = 0 ∧ o = none ∨ 1 ≤ n ∧ ∃ r, o = some r ∧ RepOk c ev size φ n r) := by
  unfold Grp.create
  by_cases h0 : n = 0
  · rw [if_pos h0]
    exact ⟨G, none, rfl, hG, .inl ⟨h0, rfl⟩⟩
  rw [if_neg h0]
  cases hr : at? G.reps n with
  | some r => exact ⟨G, some r, rfl, hG, .inr ⟨by omega, r, rfl, hG.reps n r (by omega) hr⟩⟩
  | none =>
    dsimp only
    have h2 : 2 ≤ n := by
      rcases Nat.lt_or_ge n 2 with h | h
      · have : n = 1 := by omega
        subst this
        rw [Option.isSome_iff_exists.mp hG.oneRep |>.choose_spec] at hr
        exact absurd hr (by simp)
      · exact h
    obtain ⟨bl, b1, b2, b3, b4, b5⟩ := buildList_spec h2 (by omega)
    have hnbl : n ∈ bl := List.mem_of_getLast? b2
    obtain ⟨ms, m1, m2, m3, m4, m5⟩ := makeMappers_ok (c := c) hf hN64 bl (grow G.mappers n) (fun k hk => by
      rw [grow_length]
      have := b4 k hk
      omega) b3 (by
      intro k hk
      obtain ⟨h1, h2⟩ := b5 k hk
      rw [at_grow, at_grow]
      exact ⟨h1.elim (fun h => .inl (by rw [h]; exact hG.one)) .inr, h2.elim (fun h => .inl (by rw [h]; exact hG.one)) .inr⟩) (by
      intro k m hk hm
      rw [at_grow] at hm
      exact hG.maps k m hk hm)
    have hsome : ∀ k, (at? (grow G.reps n) k).isSome ∨ (at? (grow G.reps n) k).isNone := fun k => by cases at? (grow G.reps n) k <;> simp
    have hpr : ∀ p, p = 1 ∨ p ∈ bl → (at? (grow G.reps n) p).isSome ∨ p ∈ bl.filter fun k => (at? (grow G.reps n) k).isNone := by
      intro p hp
      rcases hp with rfl | hp
      · left; rw [at_grow]; exact hG.oneRep
      · rcases hsome p with h | h
        · exact .inl h
        · exact .inr (List.mem_filter.mpr ⟨hp, h⟩)
    obtain ⟨rs, r1, r2, r3, r4, r5⟩ := buildReps_ok (size := size) (φ := φ) hf hN64 m3 (bl.filter fun k => (at? (grow G.reps n) k).isNone) (grow G.reps n) (by
      intro k hk
      have hk' := (List.mem_filter.mp hk).1
      have := b4 k hk'
      exact ⟨this.1, by omega, by rw [grow_length]; omega, m5 k hk'⟩) (b3.filter _) (by
      intro k hk
      obtain ⟨h1, h2⟩ := b5 k (List.mem_filter.mp hk).1
      exact ⟨hpr _ h1, hpr _ h2⟩) (by
      intro k r hk h
      rw [at_grow] at h
      exact hG.reps k r hk h)
    have hlast : (at? ms ms.length).isSome := by
      rw [m2, grow_length]
      by_cases h : G.mappers.length ≤ n
      · rw [Nat.max_eq_right h]; exact m5 n hnbl
      · rw [Nat.max_eq_left (by omega)]
        refine m4 _ hG.len ?_
        rw [at_grow]; exact hG.last
    have hnr : (at? rs n).isSome := (hpr n (.inr hnbl)).elim (r4 n (by omega)) (r5 n)
    obtain ⟨r, hr'⟩ := Option.isSome_iff_exists.mp hnr
    obtain ⟨lm, hlm⟩ := Option.isSome_iff_exists.mp hlast
    refine ⟨⟨rs, ms⟩, some r, ?_, ⟨m3, r3, m4 1 (Nat.le_refl _) (by rw [at_grow]; exact hG.one), r4 1 (Nat.le_refl _) (by rw [at_grow]; exact hG.oneRep), hlast, ?_⟩,
      .inr ⟨by omega, r, rfl, r3 n r (by omega) hr'⟩⟩
    · unfold Grp.build
      simp only [b1, m1, last_join, hlm, r1, Option.bind_eq_bind, Option.bind_some, Option.map_some, hr']
    · rw [m2, grow_length]; have := hG.len; omega

end Moment.SymRep
