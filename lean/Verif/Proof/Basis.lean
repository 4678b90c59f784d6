import Verif.Spec.Basis
import Verif.Proof.Sound
import Verif.Proof.PolyOps
import Verif.Proof.MomentBook
import Verif.Proof.Sorting

/-! # Basis vectors: values and shape -/

namespace Moment.BasisVec

open Moment.Symbols (Sym Table Offsets Sound point)
open Moment.Poly (Mono Canonical Paired value Order)

theorem mapM_some {α β : Type} {f : α → Option β} : ∀ {l : List α} {r : List β}, l.mapM f = some r ↔ List.Forall₂ (fun a b => f a = some b) l r
  | [], r => by simp [List.mapM_nil, eq_comm]
  | a :: l, r => by
    simp only [List.mapM_cons, Option.bind_eq_bind, Option.bind_eq_some_iff, Option.pure_def, Option.some.injEq, List.forall₂_cons_left_iff]
    constructor
    · rintro ⟨b, hb, r', hr', rfl⟩
      exact ⟨b, r', hb, mapM_some.mp hr', rfl⟩
    · rintro ⟨b, r', hb, hr', rfl⟩
      exact ⟨b, hb, r', mapM_some.mpr hr', rfl⟩

theorem mapM_isSome {α β : Type} {f : α → Option β} : ∀ {l : List α}, (l.mapM f).isSome = true ↔ ∀ a ∈ l, (f a).isSome = true
  | [] => by simp
  | a :: l => by
    rw [List.mapM_cons]
    simp only [Option.bind_eq_bind, Option.pure_def, List.mem_cons, forall_eq_or_imp]
    rw [← mapM_isSome (l := l)]
    cases f a <;> cases l.mapM f <;> simp

/-! ## The walk over a polynomial -/

theorem pairs_value (v : Nat → ℂ) (p : List Mono) (hp : Paired p) :
    value v p = ((pairs p).map fun q => q.2.1 * v q.1 + q.2.2 * (starRingEnd ℂ) (v q.1)).sum := by
  induction p using pairs.induct with
  | case1 => simp [pairs]
  | case2 m h => simp [pairs, h, Poly.value, Mono.value]
  | case3 m h => simp [pairs, h, Poly.value, Mono.value]
  | case4 m n l h ih =>
    rw [pairs, if_pos h, Poly.value_cons, ih (List.pairwise_cons.mp hp).2]
    simp [Mono.value, h]
  | case5 m n l h he ih =>
    rw [pairs, if_neg h, if_pos he, Poly.value_cons, ih (List.pairwise_cons.mp hp).2]
    simp [Mono.value, h]
  | case6 m n l h he ih =>
    have he' : n.id = m.id := by simpa using he
    have hn := ((List.pairwise_cons.mp hp).1 n (by simp) he'.symm).2
    rw [pairs, if_neg h, if_neg he, Poly.value_cons, Poly.value_cons, ih (List.pairwise_cons.mp (List.pairwise_cons.mp hp).2).2]
    simp [Mono.value, h, hn, he']
    ring

theorem pairs_mem (p : List Mono) (i : Nat) : (∃ q ∈ pairs p, q.1 = i) ↔ ∃ m ∈ p, m.id = i := by
  induction p using pairs.induct with
  | case1 => simp [pairs]
  | case2 m h => simp [pairs, h]
  | case3 m h => simp [pairs, h]
  | case4 m n l h ih =>
    rw [pairs, if_pos h]
    simp only [List.mem_cons, exists_eq_or_imp] at ih ⊢
    rw [ih]
  | case5 m n l h he ih =>
    rw [pairs, if_neg h, if_pos he]
    simp only [List.mem_cons, exists_eq_or_imp] at ih ⊢
    rw [ih]
  | case6 m n l h he ih =>
    have he' : n.id = m.id := by simpa using he
    rw [pairs, if_neg h, if_neg he]
    simp only [List.mem_cons, exists_eq_or_imp] at ih ⊢
    rw [ih, he']
    tauto

theorem pairs_sorted {t : Poly.Table} {o : Order} (p : List Mono) (hp : Canonical t o p) :
    (pairs p).Pairwise fun q r => o.rank q.1 < o.rank r.1 := by
  induction p using pairs.induct with
  | case1 => simp [pairs]
  | case2 m h => simp [pairs, h]
  | case3 m h => simp [pairs, h]
  | case4 m n l h ih =>
    rw [pairs, if_pos h, List.pairwise_cons]
    refine ⟨fun q hq => ?_, ih (Poly.canonical_sublist hp (List.sublist_cons_self _ _))⟩
    obtain ⟨x, hx, hx'⟩ := (pairs_mem _ q.1).mp ⟨q, hq, rfl⟩
    rcases (List.pairwise_cons.mp hp.sorted).1 x hx with h1 | h1
    · rwa [hx'] at h1
    · rw [h] at h1; simp at h1
  | case5 m n l h he ih =>
    rw [pairs, if_neg h, if_pos he, List.pairwise_cons]
    refine ⟨fun q hq => ?_, ih (Poly.canonical_sublist hp (List.sublist_cons_self _ _))⟩
    obtain ⟨x, hx, hx'⟩ := (pairs_mem _ q.1).mp ⟨q, hq, rfl⟩
    obtain ⟨s1, s2⟩ := List.pairwise_cons.mp hp.sorted
    have hn : o.rank m.id < o.rank n.id := by
      rcases s1 n (by simp) with h1 | h1
      · exact h1
      · exact absurd h1.1.symm he
    rw [← hx']
    rcases List.mem_cons.mp hx with rfl | hx
    · exact hn
    · rcases (List.pairwise_cons.mp s2).1 x hx with h1 | h1
      · exact hn.trans h1
      · rw [← h1.1]; exact hn
  | case6 m n l h he ih =>
    have he' : n.id = m.id := by simpa using he
    rw [pairs, if_neg h, if_neg he, List.pairwise_cons]
    refine ⟨fun q hq => ?_, ih (Poly.canonical_sublist hp ((List.sublist_cons_self _ _).trans (List.sublist_cons_self _ _)))⟩
    obtain ⟨x, hx, hx'⟩ := (pairs_mem _ q.1).mp ⟨q, hq, rfl⟩
    obtain ⟨s1, s2⟩ := List.pairwise_cons.mp hp.sorted
    have hn := (Poly.canonical_paired hp |> List.pairwise_cons.mp).1 n (by simp) he'.symm
    rw [← hx', ← he']
    rcases (List.pairwise_cons.mp s2).1 x hx with h1 | h1
    · exact h1
    · rw [hn.2] at h1; simp at h1

/-- Pairs and terms of a canonical polynomial: a pair has a part, and conjugates stand only at symbols with two parts. -/
theorem pairs_nonzero {t : Poly.Table} {o : Order} (p : List Mono) (hp : Canonical t o p) : ∀ q ∈ pairs p,
    q.1 ≠ 0 ∧ ¬ (q.2.1 = 0 ∧ q.2.2 = 0) ∧ (q.2.2 ≠ 0 → t.herm q.1 = false ∧ t.anti q.1 = false) := by
  have one : ∀ m ∈ p, m.conj = true → m.id ≠ 0 ∧ ¬ ((0 : ℂ) = 0 ∧ m.factor = 0) ∧ (m.factor ≠ 0 → t.herm m.id = false ∧ t.anti m.id = false) :=
    fun m hm hc => ⟨(hp.nonzero m hm).2, fun h => (hp.nonzero m hm).1 h.2, fun _ => hp.plain m hm hc⟩
  have two : ∀ m ∈ p, m.id ≠ 0 ∧ ¬ (m.factor = 0 ∧ (0 : ℂ) = 0) ∧ ((0 : ℂ) ≠ 0 → t.herm m.id = false ∧ t.anti m.id = false) :=
    fun m hm => ⟨(hp.nonzero m hm).2, fun h => (hp.nonzero m hm).1 h.1, fun h => absurd rfl h⟩
  induction p using pairs.induct with
  | case1 => simp [pairs]
  | case2 m h =>
    rw [pairs, if_pos h]
    intro q hq
    rw [List.mem_singleton.mp hq]
    exact one m (by simp) h
  | case3 m h =>
    rw [pairs, if_neg h]
    intro q hq
    rw [List.mem_singleton.mp hq]
    exact two m (by simp)
  | case4 m n l h ih =>
    rw [pairs, if_pos h]
    intro q hq
    rcases List.mem_cons.mp hq with rfl | hq
    · exact one m (by simp) h
    · exact ih (Poly.canonical_sublist hp (List.sublist_cons_self _ _)) (fun x hx => one x (by simp [hx])) (fun x hx => two x (by simp [hx])) q hq
  | case5 m n l h he ih =>
    rw [pairs, if_neg h, if_pos he]
    intro q hq
    rcases List.mem_cons.mp hq with rfl | hq
    · exact two m (by simp)
    · exact ih (Poly.canonical_sublist hp (List.sublist_cons_self _ _)) (fun x hx => one x (by simp [hx])) (fun x hx => two x (by simp [hx])) q hq
  | case6 m n l h he ih =>
    have he' : n.id = m.id := by simpa using he
    have hn := (Poly.canonical_paired hp |> List.pairwise_cons.mp).1 n (by simp) he'.symm
    rw [pairs, if_neg h, if_neg he]
    intro q hq
    rcases List.mem_cons.mp hq with rfl | hq
    · refine ⟨(two m (by simp)).1, fun h => (hp.nonzero m (by simp)).1 h.1, fun _ => ?_⟩
      rw [← he']
      exact hp.plain n (by simp) hn.2
    · exact ih (Poly.canonical_sublist hp ((List.sublist_cons_self _ _).trans (List.sublist_cons_self _ _)))
        (fun x hx => one x (by simp [hx])) (fun x hx => two x (by simp [hx])) q hq

theorem terms_isSome (t : Table) (p : List Mono) : (terms t p).isSome = true ↔ ∀ m ∈ p, m.id < t.syms.length := by
  unfold terms
  rw [mapM_isSome]
  constructor
  · intro h m hm
    obtain ⟨q, hq, e⟩ := (pairs_mem p m.id).mpr ⟨m, hm, rfl⟩
    have := h q hq
    rw [Option.isSome_map, e] at this
    simpa using this
  · intro h q hq
    obtain ⟨m, hm, e⟩ := (pairs_mem p q.1).mp ⟨q, hq, rfl⟩
    rw [Option.isSome_map, ← e]
    simpa using h m hm

theorem terms_spec {t : Table} (ht : Offsets t) {p : List Mono} {l : List (Sym × ℂ × ℂ)} (h : terms t p = some l) :
    l.map (fun q => (q.1.id, q.2)) = pairs p ∧ ∀ q ∈ l, t.syms[q.1.id]? = some q.1 := by
  unfold terms at h
  rw [mapM_some] at h
  generalize pairs p = P at h ⊢
  induction h with
  | nil => simp
  | cons hq _ ih =>
    rename_i q r l1 l2
    simp only [Option.map_eq_some_iff] at hq
    obtain ⟨s, hs, rfl⟩ := hq
    have hid := Symbols.getElem?_id ht hs
    refine ⟨by simp [ih.1, hid], fun x hx => ?_⟩
    rcases List.mem_cons.mp hx with rfl | hx
    · simpa [hid] using hs
    · exact ih.2 x hx

/-! ## Filling vectors -/

theorem insertAt_perm {K : Type} (i : Nat) (x : K) : ∀ v : List (Nat × K), (insertAt i x v).Perm ((i, x) :: v)
  | [] => List.Perm.refl _
  | (j, y) :: l => by
    unfold insertAt
    split
    · exact List.Perm.refl _
    · exact ((insertAt_perm i x l).cons _).trans (List.Perm.swap _ _ _)

theorem insertAt_sorted {K : Type} (i : Nat) (x : K) : ∀ {v : List (Nat × K)}, v.Pairwise (fun x y => x.1 ≤ y.1) →
    (insertAt i x v).Pairwise fun x y => x.1 ≤ y.1
  | [], _ => by simp [insertAt]
  | (j, y) :: l, h => by
    unfold insertAt
    obtain ⟨h1, h2⟩ := List.pairwise_cons.mp h
    split
    · rename_i hji
      rw [List.pairwise_cons]
      refine ⟨fun e he => ?_, h⟩
      rcases List.mem_cons.mp he with rfl | he
      · exact hji.le
      · exact hji.le.trans (h1 e he)
    · rename_i hji
      rw [List.pairwise_cons]
      refine ⟨fun e he => ?_, insertAt_sorted i x h2⟩
      rcases List.mem_cons.mp ((insertAt_perm i x l).mem_iff.mp he) with rfl | he
      · exact not_lt.mp hji
      · exact h1 e he

/-- The entries a vector gets. -/
noncomputable def entries {K : Type} [Zero K] [DecidableEq K] (key : Sym → Option Nat) (test val : ℂ → ℂ → K) (l : List (Sym × ℂ × ℂ)) : List (Nat × K) :=
  l.filterMap fun q => (key q.1).bind fun k => if test q.2.1 q.2.2 = 0 then none else some (k, val q.2.1 q.2.2)

theorem fill_perm {K : Type} [Zero K] [DecidableEq K] (key : Sym → Option Nat) (test val : ℂ → ℂ → K) : ∀ (l : List (Sym × ℂ × ℂ)) (v : List (Nat × K)),
    (fill key test val l v).Perm (v ++ entries key test val l)
  | [], v => by simp [fill, entries]
  | (s, f, g) :: l, v => by
    unfold fill
    cases hk : key s with
    | none =>
      refine (fill_perm key test val l v).trans ?_
      simp [entries, hk]
    | some k =>
      refine (fill_perm key test val l _).trans ?_
      by_cases h0 : test f g = 0
      · simp [entries, hk, h0]
      · simp only [entries, hk, h0, if_false, List.filterMap_cons, Option.bind_some]
        exact ((insertAt_perm _ _ v).append_right _).trans (List.perm_middle.symm)

theorem fill_sorted {K : Type} [Zero K] (key : Sym → Option Nat) (test val : ℂ → ℂ → K) : ∀ (l : List (Sym × ℂ × ℂ)) {v : List (Nat × K)},
    v.Pairwise (fun x y => x.1 ≤ y.1) → (fill key test val l v).Pairwise fun x y => x.1 ≤ y.1
  | [], v, h => h
  | (s, f, g) :: l, v, h => by
    unfold fill
    split
    · refine fill_sorted key test val l ?_
      split
      · exact h
      · exact insertAt_sorted _ _ h
    · exact fill_sorted key test val l h

theorem dot_perm {K : Type} [AddCommMonoid K] [Mul K] {v w : List (Nat × K)} (h : v.Perm w) (a : Nat → K) : dot v a = dot w a := (h.map _).sum_eq

theorem fill_dot {K : Type} [CommSemiring K] (key : Sym → Option Nat) (test val : ℂ → ℂ → K) (h : ∀ f g, test f g = 0 → val f g = 0)
    (l : List (Sym × ℂ × ℂ)) (a : Nat → K) :
    dot (fill key test val l []) a = (l.map fun q => val q.2.1 q.2.2 * (key q.1).elim 0 a).sum := by
  classical
  rw [dot_perm (fill_perm key test val l []) a, List.nil_append]
  induction l with
  | nil => simp [entries, dot]
  | cons q l ih =>
    obtain ⟨s, f, g⟩ := q
    simp only [List.map_cons, List.sum_cons, ← ih]
    cases hk : key s with
    | none => simp [entries, hk]
    | some k =>
      by_cases h0 : test f g = 0
      · simp [entries, hk, h0, h f g h0]
      · simp [entries, hk, h0, dot]

/-- Offsets of the symbols in a canonical polynomial are all different. -/
def Distinct (key : Sym → Option Nat) (n : Nat) (l : List (Sym × ℂ × ℂ)) : Prop :=
  l.Pairwise (fun q r => ∀ k, key q.1 = some k → key r.1 = some k → False) ∧ ∀ q ∈ l, ∀ k, key q.1 = some k → k < n

theorem distinct_terms {t : Table} (ht : Offsets t) {ft : Poly.Table} {o : Order} {p : List Mono} (hp : Canonical ft o p)
    {l : List (Sym × ℂ × ℂ)} (h : terms t p = some l) :
    Distinct Sym.re t.basis.real.length l ∧ Distinct Sym.im t.basis.imag.length l := by
  obtain ⟨h1, h2⟩ := terms_spec ht h
  have hs := pairs_sorted p hp
  rw [← h1, List.pairwise_map] at hs
  refine ⟨⟨?_, ?_⟩, ⟨?_, ?_⟩⟩
  · refine hs.imp_of_mem fun {q r} hq hr hlt k hk hk' => ?_
    have e1 := (ht.re q.1 (List.mem_of_getElem? (h2 q hq)) k).mp hk
    have e2 := (ht.re r.1 (List.mem_of_getElem? (h2 r hr)) k).mp hk'
    rw [e1, Option.some.injEq] at e2
    dsimp only at hlt
    rw [e2] at hlt
    exact lt_irrefl _ hlt
  · intro q hq k hk
    exact (List.getElem?_eq_some_iff.mp ((ht.re q.1 (List.mem_of_getElem? (h2 q hq)) k).mp hk)).1
  · refine hs.imp_of_mem fun {q r} hq hr hlt k hk hk' => ?_
    have e1 := (ht.im q.1 (List.mem_of_getElem? (h2 q hq)) k).mp hk
    have e2 := (ht.im r.1 (List.mem_of_getElem? (h2 r hr)) k).mp hk'
    rw [e1, Option.some.injEq] at e2
    dsimp only at hlt
    rw [e2] at hlt
    exact lt_irrefl _ hlt
  · intro q hq k hk
    exact (List.getElem?_eq_some_iff.mp ((ht.im q.1 (List.mem_of_getElem? (h2 q hq)) k).mp hk)).1

theorem entries_nodup {K : Type} [Zero K] [DecidableEq K] {key : Sym → Option Nat} {n : Nat} (test val : ℂ → ℂ → K) {l : List (Sym × ℂ × ℂ)}
    (h : Distinct key n l) : (entries key test val l).Pairwise (fun x y => x.1 ≠ y.1) ∧ ∀ e ∈ entries key test val l, e.1 < n := by
  refine ⟨?_, ?_⟩
  · unfold entries
    rw [List.pairwise_filterMap]
    refine h.1.imp fun {q r} hqr x hx y hy e => ?_
    simp only [Option.bind_eq_some_iff] at hx hy
    obtain ⟨k, hk, hx⟩ := hx
    obtain ⟨k', hk', hy⟩ := hy
    split at hx
    · simp at hx
    · split at hy
      · simp at hy
      · simp only [Option.some.injEq] at hx hy
        subst hx hy
        dsimp only at e
        exact hqr k hk (e ▸ hk')
  · intro e he
    unfold entries at he
    simp only [List.mem_filterMap, Option.bind_eq_some_iff] at he
    obtain ⟨q, hq, k, hk, he⟩ := he
    split at he
    · simp at he
    · simp only [Option.some.injEq] at he
      subst he
      exact h.2 q hq k hk

theorem fill_proper {K : Type} [Zero K] {key : Sym → Option Nat} {n : Nat} (test val : ℂ → ℂ → K) {l : List (Sym × ℂ × ℂ)}
    (h : Distinct key n l) : Proper n (fill key test val l []) := by
  classical
  obtain ⟨h1, h2⟩ := entries_nodup test val h
  have hp := fill_perm key test val l []
  rw [List.nil_append] at hp
  have hne : (fill key test val l []).Pairwise fun x y => x.1 ≠ y.1 :=
    (hp.symm.pairwise_iff (fun {x y} (hxy : x.1 ≠ y.1) => hxy.symm)).mp h1
  refine ⟨?_, fun e he => h2 e (hp.mem_iff.mp he)⟩
  exact (List.pairwise_and_iff.mpr ⟨fill_sorted key test val l List.Pairwise.nil, hne⟩).imp fun ⟨a, b⟩ => lt_of_le_of_ne a b

/-! ## Values at points -/

theorem at_term (s : Sym) (f g : ℂ) (a b : Nat → ℝ) : f * s.at a b + g * (starRingEnd ℂ) (s.at a b) =
    zAx f g * (s.re.elim 0 a : ℝ) + zBx f g * (s.im.elim 0 b : ℝ) := by
  unfold Sym.at zAx zBx azAx azBx bzAx bzBx
  generalize s.re.elim 0 a = A
  generalize s.im.elim 0 b = B
  apply Complex.ext
  · simp; ring
  · simp; ring

theorem value_terms {t : Table} (ht : Offsets t) {p : List Mono} (hp : Paired p) {l : List (Sym × ℂ × ℂ)} (h : terms t p = some l) (a b : Nat → ℝ) :
    value (point t a b) p = (l.map fun q => zAx q.2.1 q.2.2 * (q.1.re.elim 0 a : ℝ)).sum + (l.map fun q => zBx q.2.1 q.2.2 * (q.1.im.elim 0 b : ℝ)).sum := by
  obtain ⟨h1, h2⟩ := terms_spec ht h
  rw [pairs_value _ p hp, ← h1, List.map_map, ← List.sum_map_add]
  congr 1
  refine List.map_congr_left fun q hq => ?_
  simp only [Function.comp]
  rw [← at_term]
  have : point t a b q.1.id = q.1.at a b := by simp only [point, h2 q hq]
  rw [this]

theorem elim_ofReal (o : Option Nat) (a : Nat → ℝ) : ((o.elim 0 a : ℝ) : ℂ) = o.elim 0 fun k => (a k : ℂ) := by cases o <;> simp

theorem complexVec_dot {t : Table} (ht : Offsets t) {p : List Mono} (hp : Paired p) {r} (h : complexVec t p = some r) (a b : Nat → ℝ) :
    dot r.1 (fun k => (a k : ℂ)) + dot r.2 (fun k => (b k : ℂ)) = value (point t a b) p := by
  unfold complexVec at h
  simp only [Option.map_eq_some_iff] at h
  obtain ⟨l, hl, rfl⟩ := h
  rw [value_terms ht hp hl]
  dsimp only
  rw [fill_dot _ _ _ (fun _ _ h => h), fill_dot _ _ _ (fun _ _ h => h)]
  simp only [elim_ofReal]

theorem sum_re (l : List ℂ) : l.sum.re = (l.map Complex.re).sum := by
  induction l with
  | nil => simp
  | cons a l ih => simp [ih]

theorem sum_im (l : List ℂ) : l.sum.im = (l.map Complex.im).sum := by
  induction l with
  | nil => simp
  | cons a l ih => simp [ih]

theorem realPart_dot {t : Table} (ht : Offsets t) {p : List Mono} (hp : Paired p) {r} (h : realPart t p = some r) (a b : Nat → ℝ) :
    dot r.1 a + dot r.2 b = (value (point t a b) p).re := by
  unfold realPart at h
  simp only [Option.map_eq_some_iff] at h
  obtain ⟨l, hl, rfl⟩ := h
  rw [value_terms ht hp hl]
  dsimp only
  rw [fill_dot _ _ _ (fun _ _ h => h), fill_dot _ _ _ (fun _ _ h => h), Complex.add_re, sum_re, sum_re, List.map_map, List.map_map]
  congr 1 <;> congr 1 <;> refine List.map_congr_left fun q _ => ?_ <;> simp [zAx, zBx]

theorem imag_sum {t : Table} (ht : Offsets t) {p : List Mono} (hp : Paired p) {l : List (Sym × ℂ × ℂ)} (h : terms t p = some l) (a b : Nat → ℝ) :
    (value (point t a b) p).im = (l.map fun q => bzAx q.2.1 q.2.2 * q.1.re.elim 0 a).sum + (l.map fun q => bzBx q.2.1 q.2.2 * q.1.im.elim 0 b).sum := by
  rw [value_terms ht hp h, Complex.add_im, sum_im, sum_im, List.map_map, List.map_map]
  congr 1 <;> congr 1 <;> refine List.map_congr_left fun q _ => ?_ <;> simp [zAx, zBx]

theorem real_sum {t : Table} (ht : Offsets t) {p : List Mono} (hp : Paired p) {l : List (Sym × ℂ × ℂ)} (h : terms t p = some l) (a b : Nat → ℝ) :
    (value (point t a b) p).re = (l.map fun q => azAx q.2.1 q.2.2 * q.1.re.elim 0 a).sum + (l.map fun q => azBx q.2.1 q.2.2 * q.1.im.elim 0 b).sum := by
  rw [value_terms ht hp h, Complex.add_re, sum_re, sum_re, List.map_map, List.map_map]
  congr 1 <;> congr 1 <;> refine List.map_congr_left fun q _ => ?_ <;> simp [zAx, zBx]

theorem pairs_real (p : List Mono) (h : ∀ m ∈ p, m.factor.im = 0) : ∀ q ∈ pairs p, q.2.1.im = 0 ∧ q.2.2.im = 0 := by
  induction p using pairs.induct with
  | case1 => simp [pairs]
  | case2 m hc => simp [pairs, hc, h m (by simp)]
  | case3 m hc => simp [pairs, hc, h m (by simp)]
  | case4 m n l hc ih =>
    rw [pairs, if_pos hc]
    intro q hq
    rcases List.mem_cons.mp hq with rfl | hq
    · simp [h m (by simp)]
    · exact ih (fun x hx => h x (by simp [List.mem_cons.mp hx])) q hq
  | case5 m n l hc he ih =>
    rw [pairs, if_neg hc, if_pos he]
    intro q hq
    rcases List.mem_cons.mp hq with rfl | hq
    · simp [h m (by simp)]
    · exact ih (fun x hx => h x (by simp [List.mem_cons.mp hx])) q hq
  | case6 m n l hc he ih =>
    rw [pairs, if_neg hc, if_neg he]
    intro q hq
    rcases List.mem_cons.mp hq with rfl | hq
    · simp [h m (by simp), h n (by simp)]
    · exact ih (fun x hx => h x (by simp [hx])) q hq

/-- The imaginary part is right if all coefficients are real. -/
theorem imagPart_dot {t : Table} (ht : Offsets t) {p : List Mono} (hp : Paired p) (hr : ∀ m ∈ p, m.factor.im = 0) {r} (h : imagPart t p = some r)
    (a b : Nat → ℝ) : dot r.1 a + dot r.2 b = (value (point t a b) p).im := by
  unfold imagPart at h
  simp only [Option.map_eq_some_iff] at h
  obtain ⟨l, hl, rfl⟩ := h
  rw [imag_sum ht hp hl]
  dsimp only
  rw [fill_dot _ bzBx bzBx (fun _ _ h => h)]
  congr 1
  have hz : ∀ q ∈ l, bzAx q.2.1 q.2.2 = 0 := fun q hq => by
    have := pairs_real p hr (q.1.id, q.2) (by rw [← (terms_spec ht hl).1]; exact List.mem_map_of_mem hq)
    dsimp only at this
    rw [bzAx, this.1, this.2, add_zero]
  clear hl
  have e1 : ∀ (l : List (Sym × ℂ × ℂ)) (v : List (Nat × ℝ)), (∀ q ∈ l, bzAx q.2.1 q.2.2 = 0) → fill Sym.re bzAx azAx l v = v := by
    intro l
    induction l with
    | nil => intro v _; rfl
    | cons q l ih =>
      intro v hq
      obtain ⟨s, f, g⟩ := q
      unfold fill
      split
      · rw [if_pos (show bzAx f g = 0 from hq (s, f, g) (by simp))]
        exact ih v fun x hx => hq x (by simp [hx])
      · exact ih v fun x hx => hq x (by simp [hx])
  rw [e1 l [] hz]
  symm
  show _ = (0 : ℝ)
  refine List.sum_eq_zero fun x hx => ?_
  obtain ⟨q, hq, rfl⟩ := List.mem_map.mp hx
  simp [hz q hq]

end Moment.BasisVec
