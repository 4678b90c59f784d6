import Verif.Model.Utilities
import Mathlib.Data.List.Rotate
import Mathlib.Data.List.Sort
import Mathlib.Tactic.Ring
import Mathlib.Tactic.Linarith

/-! # C44, C45, C46, C48: merging maps, least rotations, names, first common elements -/

namespace Moment.C44

open Util

variable {V : Type}

/-- The entries of a map: keys strictly ascending. -/
def Sorted (m : List (Int × V)) : Prop := m.Pairwise fun a b => a.1 < b.1

theorem mapInsert_mem {k : Int} {v : V} : ∀ {m : List (Int × V)}, Sorted m → ∀ x w,
    ((x, w) ∈ mapInsert k v m ↔ (x, w) ∈ m ∨ (x = k ∧ w = v ∧ ∀ u, (k, u) ∉ m)) := by
  intro m
  induction m with
  | nil => intro _ x w; simp [mapInsert]
  | cons e m ih =>
    intro hm x w
    obtain ⟨h1, h2⟩ := List.pairwise_cons.mp hm
    obtain ⟨ek, ev⟩ := e
    unfold mapInsert
    split
    · rename_i hlt
      have hno : ∀ u, (k, u) ∉ (ek, ev) :: m := by
        intro u hu
        rcases List.mem_cons.mp hu with h | h
        · simp only [Prod.mk.injEq] at h; dsimp only at hlt; omega
        · have := h1 _ h; dsimp only at this hlt; omega
      simp only [List.mem_cons, Prod.mk.injEq]
      constructor
      · rintro (⟨rfl, rfl⟩ | h)
        · exact Or.inr ⟨rfl, rfl, fun u hu => hno u (by simpa using hu)⟩
        · exact Or.inl h
      · rintro (h | ⟨h, h', -⟩)
        · exact Or.inr h
        · exact Or.inl ⟨h, h'⟩
    · split
      · rename_i h3 h4
        dsimp only at h4
        rw [List.mem_cons, ih h2, List.mem_cons]
        have : (∀ u, (k, u) ∉ m) ↔ ∀ u, (k, u) ∉ (ek, ev) :: m := by
          refine forall_congr' fun u => not_congr ?_
          simp only [List.mem_cons, Prod.mk.injEq]
          exact ⟨Or.inr, fun h => h.elim (fun h => by omega) id⟩
        rw [this, or_assoc]
      · rename_i h3 h4
        dsimp only at h3 h4
        have he : ek = k := by omega
        constructor
        · exact Or.inl
        · rintro (h | ⟨-, -, h⟩)
          · exact h
          · exact absurd (by simp [he]) (h ev)

theorem mapInsert_sorted {k : Int} {v : V} : ∀ {m : List (Int × V)}, Sorted m → Sorted (mapInsert k v m) := by
  intro m
  induction m with
  | nil => intro _; simp [mapInsert, Sorted]
  | cons e m ih =>
    intro hm
    obtain ⟨h1, h2⟩ := List.pairwise_cons.mp hm
    unfold mapInsert
    split
    · rename_i hlt
      refine List.pairwise_cons.mpr ⟨fun x hx => ?_, hm⟩
      rcases List.mem_cons.mp hx with rfl | hx
      · exact hlt
      · exact lt_trans hlt (h1 x hx)
    · split
      · rename_i h4
        refine List.pairwise_cons.mpr ⟨fun x hx => ?_, ih h2⟩
        obtain ⟨xk, xw⟩ := x
        rcases (mapInsert_mem h2 xk xw).mp hx with h | ⟨rfl, -, -⟩
        · exact h1 _ h
        · exact h4
      · exact hm

/-- Keys fit into one integer type of at most 64 bits. -/
def Fits (m m' : List (Int × V)) : Prop := ∃ lo : Int, ∀ e, e ∈ m ∨ e ∈ m' → lo ≤ e.1 ∧ e.1 < lo + 2 ^ 64

theorem toSize_inj {lo a b : Int} (ha : lo ≤ a ∧ a < lo + 2 ^ 64) (hb : lo ≤ b ∧ b < lo + 2 ^ 64) (h : toSize a = toSize b) : a = b := by
  unfold toSize at h; omega

theorem mapNext_some {m : List (Int × V)} {h h' : Int} (e : mapNext m h = some h') : h < h' ∧ ∃ v, (h', v) ∈ m := by
  unfold mapNext at e
  rw [Option.map_eq_some_iff] at e
  obtain ⟨x, hx, rfl⟩ := e
  exact ⟨by simpa using List.find?_some hx, x.2, List.mem_of_find?_eq_some hx⟩

theorem mapNext_before {m : List (Int × V)} (hm : Sorted m) {h : Int} {x : Int × V} (hx : x ∈ m) :
    match mapNext m h with | none => x.1 ≤ h | some h' => x.1 < h' → x.1 ≤ h := by
  unfold mapNext
  cases hf : m.find? fun e => decide (h < e.1) with
  | none =>
    have := List.find?_eq_none.mp hf x hx
    simpa using this
  | some y =>
    dsimp only [Option.map_some]
    intro hlt
    by_contra hgt
    push Not at hgt
    rw [List.find?_eq_some_iff_append] at hf
    obtain ⟨-, as, bs, rfl, hno⟩ := hf
    rw [List.mem_append, List.mem_cons] at hx
    rcases hx with hx | rfl | hx
    · have := hno x hx; simp at this; omega
    · omega
    · have := (List.pairwise_cons.mp (List.pairwise_append.mp hm).2.1).1 x hx
      omega

/-- All remaining keys are above the entries before the iterator. -/
def Ahead (m : List (Int × V)) (it : Option Int) (r : List (Int × V)) : Prop :=
  ∀ e ∈ m, (match it with | none => True | some h => e.1 < h) → ∀ x ∈ r, e.1 < x.1

theorem filter_shrinks {m : List (Int × V)} {h h' : Int} (hlt : h < h') (hm : ∃ v, (h, v) ∈ m) :
    (m.filter fun e => h' ≤ e.1).length < (m.filter fun e => h ≤ e.1).length := by
  obtain ⟨v, hv⟩ := hm
  induction m with
  | nil => simp at hv
  | cons e m ih =>
    have hle : ∀ l : List (Int × V), (l.filter fun e => h' ≤ e.1).length ≤ (l.filter fun e => h ≤ e.1).length := by
      intro l
      simp only [← List.countP_eq_length_filter]
      exact List.countP_mono_left fun x _ hx => by simp at hx ⊢; omega
    rcases List.mem_cons.mp hv with rfl | hv
    · rw [List.filter_cons_of_neg (by simpa using hlt), List.filter_cons_of_pos (by simp)]
      have := hle m
      simp only [List.length_cons]; omega
    · have := ih hv
      by_cases h1 : h' ≤ e.1
      · rw [List.filter_cons_of_pos (by simpa using h1), List.filter_cons_of_pos (by simp; omega)]
        simpa using this
      · rw [List.filter_cons_of_neg (by simpa using h1)]
        by_cases h2 : h ≤ e.1
        · rw [List.filter_cons_of_pos (by simpa using h2)]
          simp only [List.length_cons]; omega
        · rw [List.filter_cons_of_neg (by simpa using h2)]; exact this

/-- What is left to do at an iterator. -/
def left (m : List (Int × V)) : Option Int → Nat
  | none => 0
  | some h => (m.filter fun e => h ≤ e.1).length

/-- The keys of the maps are non-negative and below 2^64. -/
def Unsigned (m : List (Int × V)) : Prop := ∀ e ∈ m, 0 ≤ e.1 ∧ e.1 < 2 ^ 64

theorem mapMerge_spec : ∀ (r m : List (Int × V)) (it : Option Int) (exact : Bool), Sorted m → Sorted r → Fits m r →
    (∀ h, it = some h → ∃ v, (h, v) ∈ m) → ∃ out ex, mapMerge m it r exact = some (out, ex) ∧ Sorted out ∧
      (∀ k v, (k, v) ∈ out ↔ (k, v) ∈ m ∨ ((k, v) ∈ r ∧ ∀ w, (k, w) ∉ m)) ∧ (Unsigned m → Unsigned r → Ahead m it r → ex = exact) := by
  intro r
  induction r with
  | nil =>
    intro m it exact hm _ _ _
    refine ⟨m, exact, by rw [mapMerge.eq_def], hm, by simp, fun _ _ _ => rfl⟩
  | cons x rest ih =>
    obtain ⟨k, v⟩ := x
    intro m it
    induction hn : left m it using Nat.strong_induction_on generalizing it with
    | _ n ihn =>
      intro exact hm hr hfit hit
      obtain ⟨hr1, hr2⟩ := List.pairwise_cons.mp hr
      rw [mapMerge.eq_def]
      obtain ⟨lo, hlo⟩ := hfit
      -- after inserting
      have insert : ∀ (it' : Option Int) (exact' : Bool), (it' = none ∨ it' = some k) →
          ∃ out ex, mapMerge (mapInsert k v m) it' rest exact' = some (out, ex) ∧ Sorted out ∧
            (∀ k' v', (k', v') ∈ out ↔ (k', v') ∈ m ∨ ((k', v') ∈ (k, v) :: rest ∧ ∀ w, (k', w) ∉ m)) ∧
            (Unsigned m → Unsigned ((k, v) :: rest) → (it' = none → ∀ e ∈ m, e.1 < k) → ex = exact') := by
        intro it' exact' hit'
        have hfit' : Fits (mapInsert k v m) rest := ⟨lo, fun e he => by
          obtain ⟨ek, ev⟩ := e
          rcases he with he | he
          · rcases (mapInsert_mem hm ek ev).mp he with h | ⟨rfl, -, -⟩
            · exact hlo _ (Or.inl h)
            · exact hlo (_, v) (Or.inr (by simp))
          · exact hlo _ (Or.inr (by simp [he]))⟩
        have hpos : ∃ w, (k, w) ∈ mapInsert k v m := by
          by_cases h : ∃ u, (k, u) ∈ m
          · obtain ⟨u, hu⟩ := h
            exact ⟨u, (mapInsert_mem hm _ _).mpr (Or.inl hu)⟩
          · push Not at h
            exact ⟨v, (mapInsert_mem hm _ _).mpr (Or.inr ⟨rfl, rfl, h⟩)⟩
        obtain ⟨out, ex, h1, h2, h3, h4⟩ := ih (mapInsert k v m) it' exact' (mapInsert_sorted hm) hr2 hfit' (by
          intro h hh
          rcases hit' with rfl | rfl
          · simp at hh
          · simp at hh; subst hh; exact hpos)
        refine ⟨out, ex, h1, h2, fun k' v' => ?_, fun hu hu' ha => h4 ?_ ?_ ?_⟩
        · rw [h3, mapInsert_mem hm, List.mem_cons, Prod.mk.injEq]
          constructor
          · rintro ((h | ⟨rfl, rfl, h⟩) | ⟨h, hno⟩)
            · exact Or.inl h
            · exact Or.inr ⟨Or.inl ⟨rfl, rfl⟩, h⟩
            · exact Or.inr ⟨Or.inr h, fun w hw => hno w ((mapInsert_mem hm _ _).mpr (Or.inl hw))⟩
          · rintro (h | ⟨⟨rfl, rfl⟩ | h, hno⟩)
            · exact Or.inl (Or.inl h)
            · exact Or.inl (Or.inr ⟨rfl, rfl, hno⟩)
            · refine Or.inr ⟨h, fun w hw => ?_⟩
              rcases (mapInsert_mem hm _ _).mp hw with h' | ⟨rfl, -, -⟩
              · exact hno w h'
              · exact lt_irrefl _ (hr1 (_, v') h)
        · intro e he
          obtain ⟨ek, ev⟩ := e
          rcases (mapInsert_mem hm ek ev).mp he with h | ⟨rfl, -, -⟩
          · exact hu _ h
          · exact hu' (_, v) (by simp)
        · exact fun e he => hu' e (by simp [he])
        · intro e he hb y hy
          obtain ⟨ek, ev⟩ := e
          have hky := hr1 y hy
          rcases (mapInsert_mem hm ek ev).mp he with h | ⟨rfl, -, -⟩
          · rcases hit' with rfl | rfl
            · exact lt_trans (ha rfl _ h) hky
            · exact lt_trans hb hky
          · exact hky
      cases it with
      | none =>
        dsimp only
        obtain ⟨out, ex, h1, h2, h3, h4⟩ := insert none (exact && hintExact m none k) (Or.inl rfl)
        refine ⟨out, ex, h1, h2, h3, fun hu hu' ha => ?_⟩
        have ha' : ∀ e ∈ m, e.1 < k := fun e he => ha e he trivial (k, v) (by simp)
        rw [h4 hu hu' fun _ => ha']
        have : hintExact m none k = true := by
          simp only [hintExact, List.all_eq_true, beq_iff_eq, decide_eq_true_eq]
          exact ha'
        rw [this, Bool.and_true]
      | some h =>
        dsimp only
        have hin := hit h rfl
        split
        · -- move on
          rename_i hlt
          have hleft : left m (mapNext m h) < n := by
            rw [← hn]
            cases he : mapNext m h with
            | none =>
              obtain ⟨w, hw⟩ := hin
              exact List.length_pos_of_mem (List.mem_filter.mpr ⟨hw, by simp⟩)
            | some h' => exact filter_shrinks (mapNext_some he).1 hin
          obtain ⟨out, ex, h1, h2, h3, h4⟩ := ihn _ hleft (mapNext m h) rfl exact hm hr ⟨lo, hlo⟩ (fun h' he => (mapNext_some he).2)
          refine ⟨out, ex, h1, h2, h3, fun hu hu' ha => h4 hu hu' ?_⟩
          intro e he hb y hy
          have hle : e.1 ≤ h := by
            have := mapNext_before hm (h := h) he
            cases hn' : mapNext m h with
            | none => rw [hn'] at this; exact this
            | some h' => rw [hn'] at this hb; exact this hb
          rcases lt_or_eq_of_le hle with hl | rfl
          · exact ha e he hl y hy
          · have hk := hu' (k, v) (by simp)
            have he' := hu e he
            have : e.1 < k := by unfold toSize at hlt; dsimp only at hk; omega
            rcases List.mem_cons.mp hy with rfl | hy
            · exact this
            · exact lt_trans this (hr1 y hy)
        · split
          · -- insert before
            rename_i hgt
            obtain ⟨out, ex, h1, h2, h3, h4⟩ := insert (some k) (exact && hintExact m (some h) k) (Or.inr rfl)
            refine ⟨out, ex, h1, h2, h3, fun hu hu' ha => ?_⟩
            rw [h4 hu hu' (by simp)]
            obtain ⟨w, hw⟩ := hin
            have hk := hu' (k, v) (by simp)
            have hh := hu _ hw
            have hkh : k < h := by unfold toSize at hgt; dsimp only at hk hh; omega
            have : hintExact m (some h) k = true := by
              simp only [hintExact, List.all_eq_true, beq_iff_eq, decide_eq_decide]
              exact fun e he => ⟨fun h' => lt_trans h' hkh, fun h' => ha e he h' (k, v) (by simp)⟩
            rw [this, Bool.and_true]
          · -- same
            rename_i h5 h6
            obtain ⟨w, hw⟩ := hin
            have hkh : h = k := toSize_inj (hlo _ (Or.inl hw)) (hlo (k, v) (Or.inr (by simp))) (by omega)
            subst hkh
            obtain ⟨out, ex, h1, h2, h3, h4⟩ := ih m (mapNext m h) exact hm hr2 ⟨lo, fun e he => hlo e (he.imp_right fun h => by simp [h])⟩
              (fun h' he => (mapNext_some he).2)
            refine ⟨out, ex, h1, h2, fun k' v' => ?_, fun hu hu' ha => h4 hu (fun e he => hu' e (by simp [he])) ?_⟩
            · rw [h3, List.mem_cons, Prod.mk.injEq]
              constructor
              · rintro (h | ⟨h, h'⟩)
                · exact Or.inl h
                · exact Or.inr ⟨Or.inr h, h'⟩
              · rintro (h | ⟨⟨rfl, rfl⟩ | h, h'⟩)
                · exact Or.inl h
                · exact absurd hw (h' w)
                · exact Or.inr ⟨h, h'⟩
            · intro e he hb y hy
              have hle : e.1 ≤ h := by
                have := mapNext_before hm (h := h) he
                cases hn' : mapNext m h with
                | none => rw [hn'] at this; exact this
                | some h' => rw [hn'] at this hb; exact this hb
              exact lt_of_le_of_lt hle (hr1 y hy)

/-- **C44.** Merging ends; the result is an ordered map with the entries of the first map and those entries of the second whose key is not in the first.
For unsigned keys every insertion hint is exact, so no searching takes place. -/
theorem C44_merge (m r : List (Int × V)) (hm : Sorted m) (hr : Sorted r) (hf : Fits m r) :
    ∃ out ex, linearMapMerge m r = some (out, ex) ∧ Sorted out ∧ (∀ k v, (k, v) ∈ out ↔ (k, v) ∈ m ∨ ((k, v) ∈ r ∧ ∀ w, (k, w) ∉ m)) ∧
      (Unsigned m → Unsigned r → ex = true) := by
  obtain ⟨out, ex, h1, h2, h3, h4⟩ := mapMerge_spec r m (m.head?.map Prod.fst) true hm hr hf (by
    intro h hh
    cases m with
    | nil => simp at hh
    | cons e m => simp at hh; subst hh; exact ⟨e.2, by simp⟩)
  refine ⟨out, ex, h1, h2, h3, fun hu hu' => h4 hu hu' ?_⟩
  intro e he hb y _
  cases m with
  | nil => simp at he
  | cons a m =>
    simp only [List.head?_cons, Option.map_some] at hb
    rcases List.mem_cons.mp he with rfl | he
    · exact absurd hb (lt_irrefl _)
    · exact absurd ((List.pairwise_cons.mp hm).1 e he) (by omega)

example : Sorted [((1 : Int), "a"), (4, "b")] ∧ Sorted [((0 : Int), "x"), (4, "y"), (9, "z")] ∧ Fits [((1 : Int), "a"), (4, "b")] [(0, "x"), (4, "y"), (9, "z")] := by
  refine ⟨by simp [Sorted], by simp [Sorted], 0, ?_⟩
  rintro ⟨k, w⟩ h
  simp at h
  dsimp only
  omega

/-- For negative keys the comparison is by the converted key: the entry 0 is inserted with the hint "before -1". -/
theorem C44_refuted_hint_signed : ∃ out, linearMapMerge [((-1 : Int), "a")] [(0, "b")] = some (out, false) := by
  refine ⟨[(-1, "a"), (0, "b")], ?_⟩
  unfold linearMapMerge
  rw [mapMerge.eq_def]
  simp only [List.head?_cons, Option.map_some]
  rw [if_neg (by decide), if_pos (by decide), mapMerge.eq_def]
  simp [mapInsert, hintExact]

end Moment.C44

namespace Moment.C45

open Util

theorem rotationLess_iff (l : List Int) (a b : Nat) : ∀ n index, l.length - index = n → index ≤ l.length →
    (rotationLess (fun i => l.getD i 0) l.length a b index = true ↔ (l.rotate a).drop index < (l.rotate b).drop index) := by
  intro n
  induction n with
  | zero =>
    intro index hn hi
    rw [rotationLess, if_neg (by omega)]
    have h1 : (l.rotate a).drop index = [] := List.drop_eq_nil_of_le (by simp; omega)
    have h2 : (l.rotate b).drop index = [] := List.drop_eq_nil_of_le (by simp; omega)
    rw [h1, h2]; simp
  | succ n ih =>
    intro index hn hi
    have hlt : index < l.length := by omega
    rw [rotationLess, if_pos hlt, List.drop_eq_getElem_cons (l := l.rotate a) (by simpa using hlt),
      List.drop_eq_getElem_cons (l := l.rotate b) (by simpa using hlt), List.cons_lt_cons_iff, List.getElem_rotate, List.getElem_rotate, ← ih (index + 1) (by omega) (by omega)]
    have hpos : 0 < l.length := by omega
    have e : ∀ x, l.getD ((index + x) % l.length) 0 = l[(index + x) % l.length]'(Nat.mod_lt _ hpos) := fun x => by
      rw [List.getD_eq_getElem?_getD, List.getElem?_eq_getElem (Nat.mod_lt _ hpos), Option.getD_some]
    dsimp only
    rw [e, e]
    split
    · rename_i h; simp [h]
    · rename_i h
      split
      · rename_i h'
        simp only [Bool.false_eq_true, false_iff]
        rintro (h'' | ⟨h'', -⟩)
        · exact h h''
        · omega
      · rename_i h'
        have : l[(index + a) % l.length]'(Nat.mod_lt _ hpos) = l[(index + b) % l.length]'(Nat.mod_lt _ hpos) := by omega
        simp [this]

theorem shiftLoop_spec (l : List Int) : ∀ n opt alt, l.length - alt = n → opt < alt → alt ≤ l.length →
    (∀ j < alt, ¬ l.rotate j < l.rotate opt) → (∀ j < opt, l.rotate opt < l.rotate j) →
    shiftLoop (fun i => l.getD i 0) l.length opt alt < l.length ∧
    (∀ j < l.length, ¬ l.rotate j < l.rotate (shiftLoop (fun i => l.getD i 0) l.length opt alt)) ∧
    ∀ j < shiftLoop (fun i => l.getD i 0) l.length opt alt, l.rotate (shiftLoop (fun i => l.getD i 0) l.length opt alt) < l.rotate j := by
  intro n
  induction n with
  | zero =>
    intro opt alt hn hlt hle h1 h2
    rw [shiftLoop, if_neg (by omega)]
    exact ⟨by omega, fun j hj => h1 j (by omega), h2⟩
  | succ n ih =>
    intro opt alt hn hlt hle h1 h2
    rw [shiftLoop, if_pos (by omega)]
    have hiff := rotationLess_iff l alt opt l.length 0 (by omega) (by omega)
    simp only [List.drop_zero] at hiff
    by_cases h : rotationLess (fun i => l.getD i 0) l.length alt opt 0 = true
    · rw [if_pos h]
      rw [hiff] at h
      refine ih alt (alt + 1) (by omega) (by omega) (by omega) (fun j hj hlt' => ?_) (fun j hj => ?_)
      · rcases Nat.lt_succ_iff_lt_or_eq.mp hj with hj | rfl
        · exact h1 j hj (lt_trans hlt' h)
        · exact lt_irrefl _ hlt'
      · exact lt_of_lt_of_le h (not_lt.mp (h1 j hj))
    · rw [if_neg h]
      rw [hiff] at h
      refine ih opt (alt + 1) (by omega) (by omega) (by omega) (fun j hj => ?_) h2
      rcases Nat.lt_succ_iff_lt_or_eq.mp hj with hj | rfl
      · exact h1 j hj
      · exact h

/-- **C45.** The offset found is the first one whose rotation is lexicographically least. -/
theorem C45_least_rotation (l : List Int) (hl : l ≠ []) : shiftSorter l < l.length ∧ (∀ j < l.length, l.rotate (shiftSorter l) ≤ l.rotate j) ∧
    ∀ j < shiftSorter l, l.rotate (shiftSorter l) < l.rotate j := by
  have hpos : 0 < l.length := List.length_pos_iff.mpr hl
  have := shiftLoop_spec l (l.length - 1) 0 1 rfl (by omega) (by omega) (fun j hj => by
    have : j = 0 := by omega
    subst this; exact lt_irrefl _) (by omega)
  exact ⟨this.1, fun j hj => not_lt.mp (this.2.1 j hj), this.2.2⟩

example : [(3 : Int), 1, 2, 1, 2] ≠ [] ∧ shiftSorter [3, 1, 2, 1, 2] = 1 := by decide +kernel

end Moment.C45

namespace Moment.C46

open Util

/-- The number of a name in the list A, B, ..., Z, AA, AB, ..., starting from 1; letters are numbered from 0. -/
def number (name : List Nat) : Nat := name.foldl (fun a d => 26 * a + (d + 1)) 0

/-- 1 + 26 + ... + 26^(n-1). -/
def geom : Nat → Nat
  | 0 => 0
  | n + 1 => 26 * geom n + 1

theorem geom_eq (n : Nat) : 25 * geom n + 1 = 26 ^ n := by
  induction n with
  | zero => rfl
  | succ n ih => rw [geom, pow_succ, ← ih]; ring

theorem levelOffset_eq (n : Nat) : levelOffset n = 26 * geom n := by
  unfold levelOffset
  have h : (26 * ((26 : ℝ) ^ n - 1)) / 25 = ((26 * geom n : ℕ) : ℝ) := by
    have := congrArg (Nat.cast (R := ℝ)) (geom_eq n)
    push_cast at this ⊢
    rw [← this]; ring
  rw [h, round_natCast, Int.toNat_natCast]

theorem le_nameLength (id L : Nat) : L + 1 ≤ nameLength id ↔ 26 * geom L ≤ id := by
  unfold nameLength
  have hlog : 0 < Real.log 26 := Real.log_pos (by norm_num)
  have hx : (0 : ℝ) < id * 25 / 26 + 1 := by positivity
  have h0 : (0 : ℝ) ≤ 1 / Real.log 26 * Real.log (id * 25 / 26 + 1) := by
    refine mul_nonneg (by positivity) (Real.log_nonneg ?_)
    have : (0 : ℝ) ≤ id * 25 / 26 := by positivity
    linarith
  rw [Nat.add_comm 1, Nat.add_le_add_iff_right, Nat.le_floor_iff h0, one_div, ← div_eq_inv_mul, le_div_iff₀ hlog, ← Real.log_pow,
    Real.log_le_log_iff (by positivity) hx]
  have := congrArg (Nat.cast (R := ℝ)) (geom_eq L)
  push_cast at this
  rw [← this, ← Nat.cast_le (α := ℝ)]
  push_cast
  constructor <;> intro h <;> linarith

theorem nameLoop_eq (n : Nat) : ∀ (x : Nat) (out : List Nat), nameLoop n x out = nameLoop n x [] ++ out := by
  induction n with
  | zero => intro x out; simp [nameLoop]
  | succ n ih =>
    intro x out
    rw [nameLoop, ih, nameLoop, ih _ [x % 26], List.append_assoc]; rfl

theorem number_append (a : List Nat) (d : Nat) : number (a ++ [d]) = 26 * number a + (d + 1) := by simp [number]

theorem number_nameLoop (n : Nat) : ∀ x, x < 26 ^ n → number (nameLoop n x []) = x + geom n := by
  induction n with
  | zero => intro x hx; simp at hx; subst hx; rfl
  | succ n ih =>
    intro x hx
    rw [nameLoop, nameLoop_eq, number_append, ih _ (Nat.div_lt_of_lt_mul (by rw [mul_comm, ← pow_succ]; exact hx)), geom]
    omega

theorem nameLoop_letters (n : Nat) : ∀ x, ∀ d ∈ nameLoop n x [], d < 26 := by
  induction n with
  | zero => simp [nameLoop]
  | succ n ih =>
    intro x d hd
    rw [nameLoop, nameLoop_eq] at hd
    rcases List.mem_append.mp hd with h | h
    · exact ih _ d h
    · simp at h; omega

theorem nameLoop_length (n : Nat) : ∀ x, (nameLoop n x []).length = n := by
  induction n with
  | zero => simp [nameLoop]
  | succ n ih => intro x; rw [nameLoop, nameLoop_eq]; simp [ih]

/-- **C46.** The name of index `id` is number `id + 1` in the list A, ..., Z, AA, ...; and it consists of letters. -/
theorem C46_number (id : Nat) : number (alphabeticName id) = id + 1 ∧ ∀ d ∈ alphabeticName id, d < 26 := by
  unfold alphabeticName
  split
  · rename_i h; exact ⟨by simp [number], by simpa using h⟩
  · refine ⟨?_, nameLoop_letters _ _⟩
    have hL : 1 ≤ nameLength id := by unfold nameLength; omega
    obtain ⟨L, hL'⟩ : ∃ L, nameLength id = L + 1 := ⟨nameLength id - 1, by omega⟩
    have h1 : 26 * geom L ≤ id := (le_nameLength id L).mp (by omega)
    have h2 : id < 26 * geom (L + 1) := by
      by_contra h
      have := (le_nameLength id (L + 1)).mpr (by omega)
      omega
    have hg := geom_eq (L + 1)
    rw [geom] at h2
    rw [hL', Nat.add_sub_cancel, levelOffset_eq, number_nameLoop, geom]
    · omega
    · rw [← hg, geom]; omega

/-- **C46.** Different indices have different names. -/
theorem C46_injective : Function.Injective alphabeticName := fun a b h => by
  have := (C46_number a).1
  rw [h, (C46_number b).1] at this
  omega

theorem number_pos {a : List Nat} (h : a ≠ []) : 0 < number a := by
  cases a using List.reverseRecOn with
  | nil => exact absurd rfl h
  | append_singleton a d => rw [number_append]; omega

theorem number_inj : ∀ (a b : List Nat), (∀ d ∈ a, d < 26) → (∀ d ∈ b, d < 26) → number a = number b → a = b := by
  intro a
  induction a using List.reverseRecOn with
  | nil =>
    intro b _ _ h
    cases b with
    | nil => rfl
    | cons x b => exact absurd h (by have := number_pos (a := x :: b) (by simp); simp only [number, List.foldl_nil] at this ⊢; omega)
  | append_singleton a d ih =>
    intro b ha hb h
    cases b using List.reverseRecOn with
    | nil => exact absurd h (by rw [number_append]; simp [number])
    | append_singleton b e =>
      rw [number_append, number_append] at h
      have hd := ha d (by simp)
      have he := hb e (by simp)
      rw [ih b (fun x hx => ha x (by simp [hx])) (fun x hx => hb x (by simp [hx])) (by omega), show d = e by omega]

/-- **C46.** Every non-empty string of letters is the name of an index. -/
theorem C46_surjective (name : List Nat) (h : name ≠ []) (hl : ∀ d ∈ name, d < 26) : ∃ id, alphabeticName id = name := by
  have hpos := number_pos h
  refine ⟨number name - 1, number_inj _ _ (C46_number _).2 hl ?_⟩
  rw [(C46_number _).1]; omega

example : alphabeticName 701 = [25, 25] ∧ alphabeticName 702 = [0, 0, 0] :=
  ⟨number_inj _ _ (C46_number _).2 (by simp) ((C46_number _).1.trans (by rfl)), number_inj _ _ (C46_number _).2 (by simp) ((C46_number _).1.trans (by rfl))⟩

end Moment.C46

namespace Moment.C48

open Util

variable {α : Type} [LinearOrder α]

theorem firstIntersection_eq (test m : List α) (i : Nat) (ht : test.Pairwise (· ≤ ·)) (hm : m.Pairwise (· ≤ ·)) :
    firstIntersection (fun a b => decide (a < b)) test m i = (m.findIdx? fun x => decide (x ∈ test)).map (· + i) := by
  fun_induction firstIntersection (fun a b : α => decide (a < b)) test m i with
  | case1 a test b m i h ih =>
    rw [ih (List.pairwise_cons.mp ht).2 hm]
    congr 1
    have : ∀ x ∈ b :: m, (x ∈ test ↔ x ∈ a :: test) := by
      intro x hx
      have hbx : b ≤ x := by
        rcases List.mem_cons.mp hx with rfl | hx
        · exact le_rfl
        · exact (List.pairwise_cons.mp hm).1 x hx
      have : x ≠ a := fun e => by subst e; exact absurd (of_decide_eq_true h) (not_lt.mpr hbx)
      simp [this]
    generalize b :: m = l at this
    induction l with
    | nil => rfl
    | cons x l ihl =>
      rw [List.findIdx?_cons, List.findIdx?_cons, ihl fun y hy => this y (by simp [hy]),
        decide_eq_decide.mpr (this x (by simp))]
  | case2 a test b m i h1 h2 ih =>
    rw [ih ht (List.pairwise_cons.mp hm).2, List.findIdx?_cons]
    have : b ∉ a :: test := by
      intro hb
      have hba : b < a := of_decide_eq_true h2
      rcases List.mem_cons.mp hb with rfl | hb
      · exact lt_irrefl _ hba
      · exact absurd ((List.pairwise_cons.mp ht).1 b hb) (not_le.mpr hba)
    simp only [this, decide_false, Bool.false_eq_true, if_false, Option.map_map]
    congr 1
    funext x; simp; omega
  | case3 a test b m i h1 h2 =>
    have : a = b := le_antisymm (not_lt.mp fun h => h2 (decide_eq_true h)) (not_lt.mp fun h => h1 (decide_eq_true h))
    simp [List.findIdx?_cons, this]
  | case4 test m i h =>
    cases m with
    | nil => simp
    | cons b m =>
      cases test with
      | nil =>
        have : List.findIdx? (fun x : α => decide (x ∈ ([] : List α))) (b :: m) = none := by
          rw [List.findIdx?_eq_none_iff]; simp
        rw [this]; rfl
      | cons a test => exact (h a test b m rfl rfl).elim

/-- **C48.** The routine reports the position of the first element of the match range that is in the test range, and nothing exactly if there is none. -/
theorem C48_first_intersection (test m : List α) (ht : test.Pairwise (· ≤ ·)) (hm : m.Pairwise (· ≤ ·)) :
    (∀ i, firstIntersection (fun a b => decide (a < b)) test m 0 = some i ↔
      ∃ h : i < m.length, m[i] ∈ test ∧ ∀ j, (h' : j < i) → m[j] ∉ test) ∧
    (firstIntersection (fun a b => decide (a < b)) test m 0 = none ↔ ∀ x ∈ m, x ∉ test) := by
  rw [firstIntersection_eq test m 0 ht hm]
  simp only [Nat.add_zero, Option.map_id']
  refine ⟨fun i => ?_, ?_⟩
  · rw [List.findIdx?_eq_some_iff_getElem]
    simp
  · rw [List.findIdx?_eq_none_iff]
    simp

example : [(1 : Nat), 3, 5, 8].Pairwise (· ≤ ·) ∧ [(2 : Nat), 4, 5, 8].Pairwise (· ≤ ·) ∧
    firstIntersection (fun a b => decide (a < b)) [1, 3, 5, 8] [2, 4, 5, 8] 0 = some 2 := by decide +kernel

end Moment.C48
