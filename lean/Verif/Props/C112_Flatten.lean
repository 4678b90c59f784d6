import Verif.Proof.Flatten

/-! # C112: flattened indices

`choices`, `place` and `Admissible` are the specification (Spec/Flatten.lean): they say what `sub2ind` of MATLAB does for all combinations of indices. -/

namespace Moment.C112
open Moment Moment.Flatten

theorem admissible_one {b : Nat} {dims l : List Nat} : Admissible b dims [l] ↔ dims ≠ [] ∧ ∀ x ∈ l, b ≤ x ∧ x < b + dims.prod := by
  cases dims <;> simp [Admissible]

/-- The first index: 0 or 1. -/
def base (zero : Bool) : Nat := if zero then 0 else 1

theorem visits {f : Flattener} (h1 : f.indices ≠ []) (h2 : f.indices.length ≤ f.dims.length) : f.Visits (((choices f.indices).map (place f.dims)).map some) := by
  have hs : f.sizes ≠ [] := by simpa [Flattener.sizes] using h1
  have r := MultiDim.run_first true f.sizes hs
  have e : ((choices f.indices).map (place f.dims)).map some = ((List.range f.sizes.prod).map fun m => (MultiDim.nth true f.sizes m, m)).map
      fun x => f.value ⟨x.1, x.2, false⟩ := by
    rw [List.map_map, List.map_map]
    have p := picks f.indices
    have g : ∀ m, (pick f.indices (MultiDim.unrank f.sizes m)).bind (fun v => if v.length ≤ f.dims.length then some (Tensor.indexToOffsetNoChecks true f.dims v) else none) =
        f.value ⟨MultiDim.nth true f.sizes m, m, false⟩ := by
      intro m
      unfold Flattener.value Flattener.index
      rw [show MultiDim.nth true f.sizes m = MultiDim.unrank f.sizes m from rfl, ← pick_eq _ _ (by rw [MultiDim.unrank_length]; simp [Flattener.sizes])]
    have q := congrArg (List.map fun o : Option (List Nat) => o.bind fun v => if v.length ≤ f.dims.length then some (Tensor.indexToOffsetNoChecks true f.dims v) else none) p
    rw [List.map_map, List.map_map] at q
    rw [show (fun x : List Nat × Nat => f.value ⟨x.1, x.2, false⟩) ∘ (fun m => (MultiDim.nth true f.sizes m, m)) = _ from funext fun m => (g m).symm]
    refine Eq.trans ?_ q.symm
    apply List.map_congr_left
    intro v hv
    have hl := choices_length _ _ hv
    simp only [Function.comp, Option.bind_some]
    rw [if_pos (by omega), place_eq _ _ (by omega)]
  rw [e]
  exact Yields.sim Eq _ (by rintro s _ rfl; rfl) (by rintro s _ rfl _; rfl) (by rintro s _ rfl _; rfl) r rfl

theorem size_eq {f : Flattener} (h1 : f.indices ≠ []) : f.size = (choices f.indices).length := by
  unfold Flattener.size
  rw [if_neg (by simpa [Flattener.sizes] using h1), MultiDim.foldl_mul, Nat.one_mul, choices_count]
  rfl

theorem mapM_some {α β : Type} {g : α → Option β} {k : α → β} : ∀ {l : List α}, (∀ x ∈ l, g x = some (k x)) → l.mapM g = some (l.map k)
  | [], _ => rfl
  | a :: l, h => by
    rw [List.mapM_cons, h a (by simp), mapM_some fun x hx => h x (by simp [hx])]
    rfl

theorem mapM_none {α β : Type} {g : α → Option β} : ∀ {l : List α}, (∃ x ∈ l, g x = none) → l.mapM g = none
  | [], h => by simp at h
  | a :: l, h => by
    rw [List.mapM_cons]
    cases e : g a with
    | none => rfl
    | some y =>
      obtain ⟨x, hx, hn⟩ := h
      rcases List.mem_cons.mp hx with rfl | hx
      · rw [e] at hn; cases hn
      · rw [mapM_none ⟨x, hx, hn⟩]
        rfl

theorem shift_some {zero : Bool} {b x : Nat} (h : base zero ≤ x ∧ x < base zero + b) : shift zero b x = some (x - base zero) := by
  unfold shift base at *
  cases zero
  · simp only [Bool.false_eq_true, if_false] at *
    rw [if_neg (by omega)]
  · simp only [if_true] at *
    rw [if_neg (by omega), Nat.sub_zero]

theorem shift_none {zero : Bool} {b x : Nat} (h : ¬ (base zero ≤ x ∧ x < base zero + b)) : shift zero b x = none := by
  unfold shift base at *
  cases zero
  · simp only [Bool.false_eq_true, if_false] at *
    rw [if_pos (by omega)]
  · simp only [if_true] at *
    rw [if_pos (by omega)]

theorem shifts (zero : Bool) (b : Nat) (l : List Nat) : (∀ x ∈ l, base zero ≤ x ∧ x < base zero + b) ∧ l.mapM (shift zero b) = some (l.map (· - base zero)) ∨
    ¬ (∀ x ∈ l, base zero ≤ x ∧ x < base zero + b) ∧ l.mapM (shift zero b) = none := by
  by_cases h : ∀ x ∈ l, base zero ≤ x ∧ x < base zero + b
  · exact .inl ⟨h, mapM_some fun x hx => shift_some (h x hx)⟩
  · refine .inr ⟨h, mapM_none ?_⟩
    push Not at h
    obtain ⟨x, hx, hn⟩ := h
    exact ⟨x, hx, shift_none fun h => absurd h.2 (by have := hn h.1; omega)⟩

/-- The bounds of the indices. -/
def bounds (dims : List Nat) (n : Nat) : List Nat := (List.range n).map fun d => if d + 1 < n then dims.getD d 0 else (dims.drop (n - 1)).foldl (· * ·) 1

theorem bounds_cons (d : Nat) (ds : List Nat) (n : Nat) : bounds (d :: ds) (n + 2) = d :: bounds ds (n + 1) := by
  unfold bounds
  rw [List.range_succ_eq_map, List.map_cons, List.map_map]
  simp only [Nat.zero_add, Nat.lt_add_left_iff_pos, Nat.add_lt_add_iff_right]
  rw [if_pos (by omega)]
  simp only [List.getD_cons_zero, List.cons.injEq, true_and]
  apply List.map_congr_left
  intro i _
  simp

theorem checked (zero : Bool) : ∀ (ls : List (List Nat)) (dims : List Nat), ls ≠ [] → ls.length ≤ dims.length →
    (Admissible (base zero) dims ls ∧ ((bounds dims ls.length).zip ls).mapM (fun x : Nat × List Nat => x.2.mapM (shift zero x.1)) = some (ls.map (List.map (· - base zero))) ∨
      ¬ Admissible (base zero) dims ls ∧ ((bounds dims ls.length).zip ls).mapM (fun x : Nat × List Nat => x.2.mapM (shift zero x.1)) = none)
  | [], _, h, _ => absurd rfl h
  | [l], dims, _, h2 => by
    have hd : dims ≠ [] := by rintro rfl; simp at h2
    have hb : bounds dims [l].length = [dims.prod] := by
      simp [bounds, MultiDim.foldl_mul]
    rw [hb]
    rw [admissible_one]
    simp only [List.zip_cons_cons, List.zip_nil_right, List.mapM_cons, List.mapM_nil]
    rcases shifts zero dims.prod l with ⟨h, e⟩ | ⟨h, e⟩
    · exact .inl ⟨⟨hd, h⟩, by rw [e]; rfl⟩
    · exact .inr ⟨fun x => h x.2, by rw [e]; rfl⟩
  | l :: l' :: ls, [], _, h2 => by simp at h2
  | l :: l' :: ls, d :: ds, _, h2 => by
    have hb : bounds (d :: ds) (l :: l' :: ls).length = d :: bounds ds (l' :: ls).length := bounds_cons d ds ls.length
    rw [hb, List.zip_cons_cons, List.mapM_cons]
    simp only [Admissible]
    have ih := checked zero (l' :: ls) ds (by simp) (by simpa using h2)
    rcases shifts zero d l with ⟨h, e⟩ | ⟨h, e⟩
    · rw [e]
      rcases ih with ⟨i1, i2⟩ | ⟨i1, i2⟩
      · exact .inl ⟨⟨h, i1⟩, by rw [i2]; rfl⟩
      · exact .inr ⟨fun x => i1 x.2, by rw [i2]; rfl⟩
    · exact .inr ⟨fun x => h x.1, by rw [e]; rfl⟩

theorem params_eq (zero : Bool) {dims : List Nat} {ls : List (List Nat)} (h1 : ls ≠ []) (h2 : ls.length ≤ dims.length) :
    Admissible (base zero) dims ls ∧ params zero dims ls = some (some ⟨dims, ls.map (List.map (· - base zero))⟩) ∨
    ¬ Admissible (base zero) dims ls ∧ params zero dims ls = some none := by
  have hn : ls.length ≠ 0 := by simpa using h1
  have e : params zero dims ls = some ((((bounds dims ls.length).zip ls).mapM (fun x : Nat × List Nat => x.2.mapM (shift zero x.1))).map fun l => ⟨dims, l⟩) := by
    unfold params
    rw [if_neg (by omega), if_neg hn]
    rfl
  rw [e]
  rcases checked zero ls dims h1 h2 with ⟨h, e⟩ | ⟨h, e⟩
  · exact .inl ⟨h, by rw [e]; rfl⟩
  · exact .inr ⟨h, by rw [e]; rfl⟩

theorem admissible_length {b : Nat} : ∀ {dims : List Nat} {ls : List (List Nat)}, Admissible b dims ls → ls ≠ [] ∧ ls.length ≤ dims.length
  | dims, [], h => by cases dims <;> simp [Admissible] at h
  | dims, [l], h => by
    have : dims ≠ [] := (admissible_one.mp h).1
    exact ⟨by simp, by simpa [Nat.one_le_iff_ne_zero] using this⟩
  | [], l :: l' :: ls, h => by simp [Admissible] at h
  | d :: ds, l :: l' :: ls, h => ⟨by simp, by simpa using (admissible_length h.2).2⟩

/-- **C112, results.** A call with admissible indices gives the places of all combinations of indices, in column-major order of the combinations, and nothing else
happens. -/
theorem C112_values {zero : Bool} {dims : List Nat} {ls : List (List Nat)} (h : Admissible (base zero) dims ls) (o : Outcome) :
    Call zero dims ls o ↔ o = .array ((choices ls).map fun v => base zero + place dims (v.map (· - base zero))) := by
  obtain ⟨h1, h2⟩ := admissible_length h
  obtain ⟨-, e⟩ | ⟨n, -⟩ := params_eq zero h1 h2
  swap
  · exact absurd h n
  have f1 : (⟨dims, ls.map (List.map (· - base zero))⟩ : Flattener).indices ≠ [] := by simpa using h1
  have hv := visits (f := ⟨dims, ls.map (List.map (· - base zero))⟩) f1 (by simpa using h2)
  have hsz := size_eq f1
  dsimp only at hv hsz
  have hr : (((choices (ls.map (List.map (· - base zero)))).map (place dims)).map (if zero then id else (· + 1))) =
      (choices ls).map fun v => base zero + place dims (v.map (· - base zero)) := by
    rw [choices_map, List.map_map, List.map_map]
    apply List.map_congr_left
    intro v _
    cases zero
    · simp [base, Nat.add_comm]
    · simp [base]
  have hlen : ((choices (ls.map (List.map (· - base zero)))).map (place dims)).length = (⟨dims, ls.map (List.map (· - base zero))⟩ : Flattener).size := by
    rw [hsz, List.length_map]
  constructor
  · intro c
    cases c with
    | undefined q => rw [e] at q; cases q
    | refused q => rw [e] at q; cases q
    | bad q v b =>
      rw [e] at q; cases q
      have := Yields.unique v hv
      subst this
      rcases b with b | b
      · simp at b
      · rw [List.length_map, hlen] at b
        omega
    | @good f l q v b =>
      rw [e] at q; cases q
      have := List.map_injective_iff.mpr (Option.some_injective _) (Yields.unique v hv)
      subst this
      rw [hlen, Nat.sub_self, List.replicate_zero, List.append_nil, hr]
  · rintro rfl
    have := Call.good (zero := zero) e hv hlen.le
    rwa [hlen, Nat.sub_self, List.replicate_zero, List.append_nil, hr] at this

/-- **C112, refusals.** Everything else is refused, if there are index arrays. -/
theorem C112_refused {zero : Bool} {dims : List Nat} {ls : List (List Nat)} (h1 : ls ≠ []) (h : ¬ Admissible (base zero) dims ls) (o : Outcome) :
    Call zero dims ls o ↔ o = .refused := by
  have e : params zero dims ls = some none := by
    by_cases h2 : ls.length ≤ dims.length
    · obtain ⟨n, -⟩ | ⟨-, e⟩ := params_eq zero h1 h2
      · exact absurd n h
      · exact e
    · unfold params
      rw [if_pos (by omega)]
  constructor
  · intro c
    cases c with
    | undefined q => rw [e] at q; cases q
    | refused q => rfl
    | bad q v b => rw [e] at q; cases q
    | good q v b => rw [e] at q; cases q
  · rintro rfl
    exact .refused e

/-- C112 refuted without index arrays: an empty cell array as second argument is undefined behaviour, whatever the dimensions. -/
theorem C112_refuted_empty (zero : Bool) (dims : List Nat) (o : Outcome) : Call zero dims [] o ↔ o = .undefined := by
  have e : params zero dims [] = none := by simp [params]
  constructor
  · intro c
    cases c with
    | undefined q => rfl
    | refused q => rw [e] at q; cases q
    | bad q v b => rfl
    | good q v b => rw [e] at q; cases q
  · rintro rfl
    exact .undefined e

theorem place_lt : ∀ {ls : List (List Nat)} {dims v : List Nat}, Admissible 0 dims ls → v ∈ choices ls → place dims v < dims.prod
  | [], dims, v, h, hv => absurd rfl (admissible_length h).1
  | [l], dims, v, h, hv => by
    rw [mem_choices] at hv
    cases hv with
    | @cons x _ w _ hx hw =>
      cases hw
      obtain ⟨hd, hl⟩ := admissible_one.mp h
      obtain ⟨d, ds, rfl⟩ := List.exists_cons_of_ne_nil hd
      rw [place_cons, place_nil, Nat.mul_zero, Nat.add_zero]
      have := (hl x hx).2
      omega
  | l :: l' :: ls, [], v, h, hv => by simp [Admissible] at h
  | l :: l' :: ls, d :: ds, v, h, hv => by
    rw [mem_choices] at hv
    cases hv with
    | @cons x _ w _ hx hw =>
      have ih := place_lt h.2 ((mem_choices _ _).mpr hw)
      have hx := (h.1 x hx).2
      rw [place_cons, List.prod_cons]
      calc x + d * place ds w < d + d * place ds w := by omega
        _ = d * (place ds w + 1) := by ring
        _ ≤ d * ds.prod := Nat.mul_le_mul_left _ ih

theorem place_inj : ∀ {ls : List (List Nat)} {dims v w : List Nat}, Admissible 0 dims ls → v ∈ choices ls → w ∈ choices ls → place dims v = place dims w → v = w
  | [], dims, v, w, h, hv, hw, e => absurd rfl (admissible_length h).1
  | [l], dims, v, w, h, hv, hw, e => by
    rw [mem_choices] at hv hw
    cases hv with
    | cons _ hv => cases hw with
      | cons _ hw =>
        cases hv; cases hw
        obtain ⟨d, ds, rfl⟩ := List.exists_cons_of_ne_nil (admissible_one.mp h).1
        rw [place_cons, place_cons, place_nil] at e
        simpa using e
  | l :: l' :: ls, [], v, w, h, hv, hw, e => by simp [Admissible] at h
  | l :: l' :: ls, d :: ds, v, w, h, hv, hw, e => by
    rw [mem_choices] at hv hw
    cases hv with
    | @cons x _ v _ hx hv => cases hw with
      | @cons y _ w _ hy hw =>
        have hx := (h.1 x hx).2
        have hy := (h.1 y hy).2
        rw [place_cons, place_cons] at e
        have e1 : x = y := by
          have := congrArg (· % d) e
          simp only [Nat.add_mul_mod_self_left] at this
          rwa [Nat.mod_eq_of_lt (by omega), Nat.mod_eq_of_lt (by omega)] at this
        subst e1
        have e2 : place ds v = place ds w := Nat.eq_of_mul_eq_mul_left (by omega) (by omega : d * place ds v = d * place ds w)
        rw [place_inj h.2 ((mem_choices _ _).mpr hv) ((mem_choices _ _).mpr hw) e2]

theorem admissible_zero {b : Nat} : ∀ {ls : List (List Nat)} {dims : List Nat}, Admissible b dims ls → Admissible 0 dims (ls.map (List.map (· - b)))
  | [], dims, h => absurd rfl (admissible_length h).1
  | [l], dims, h => admissible_one.mpr ⟨(admissible_one.mp h).1, by
    intro x hx
    obtain ⟨y, hy, rfl⟩ := List.mem_map.mp hx
    have := (admissible_one.mp h).2 y hy
    omega⟩
  | l :: l' :: ls, [], h => by simp [Admissible] at h
  | l :: l' :: ls, d :: ds, h => ⟨by
    intro x hx
    obtain ⟨y, hy, rfl⟩ := List.mem_map.mp hx
    have := h.1 y hy
    omega, admissible_zero h.2⟩

theorem admissible_least {b : Nat} : ∀ {ls : List (List Nat)} {dims : List Nat}, Admissible b dims ls → ∀ l ∈ ls, ∀ x ∈ l, b ≤ x
  | [], dims, h => absurd rfl (admissible_length h).1
  | [l], dims, h => by
    intro l' hl x hx
    rw [List.mem_singleton.mp hl] at hx
    exact ((admissible_one.mp h).2 x hx).1
  | l :: l' :: ls, [], h => by simp [Admissible] at h
  | l :: l' :: ls, d :: ds, h => by
    intro m hm x hx
    rcases List.mem_cons.mp hm with rfl | hm
    · exact (h.1 x hx).1
    · exact admissible_least h.2 m hm x hx

/-- **C112, places in the array.** All results are places in the array, there is one for each combination, and different combinations have different places. -/
theorem C112_inside {zero : Bool} {dims : List Nat} {ls : List (List Nat)} (h : Admissible (base zero) dims ls) {r : List Nat} (hr : Call zero dims ls (.array r)) :
    (∀ x ∈ r, base zero ≤ x ∧ x < base zero + Tensor.elementCount dims) ∧ r.length = (ls.map List.length).prod ∧ ((∀ l ∈ ls, l.Nodup) → r.Nodup) := by
  have hd : dims ≠ [] := by
    rintro rfl
    have := admissible_length h
    exact this.1 (List.length_eq_zero_iff.mp (by simpa using this.2))
  have e := (C112_values h _).mp hr
  cases e
  have hz := admissible_zero h
  have key : ∀ v ∈ choices ls, v.map (· - base zero) ∈ choices (ls.map (List.map (· - base zero))) := fun v hv => by
    rw [choices_map]
    exact List.mem_map_of_mem hv
  refine ⟨fun x hx => ?_, by rw [List.length_map, choices_count], fun hn => ?_⟩
  · obtain ⟨v, hv, rfl⟩ := List.mem_map.mp hx
    rw [Tensor.count_eq _ hd]
    have := place_lt hz (key v hv)
    omega
  · refine (choices_nodup ls hn).map_on fun v hv w hw e => ?_
    have e := place_inj hz (key v hv) (key w hw) (by omega)
    have back : ∀ u ∈ choices ls, (u.map (· - base zero)).map (· + base zero) = u := by
      intro u hu
      rw [List.map_map]
      rw [mem_choices] at hu
      have hl := admissible_least h
      clear h hr hz key hv hw e hn
      induction hu with
      | nil => rfl
      | @cons x l u ls hx _ ih =>
        have := hl l (by simp) x hx
        rw [List.map_cons, ih fun m hm => hl m (by simp [hm])]
        simp [this]
    rw [← back v hv, ← back w hw, e]

/-- **C112, one list.** A single list is given back. -/
theorem C112_echo {zero : Bool} {dims l : List Nat} (hd : dims ≠ []) (hl : ∀ x ∈ l, base zero ≤ x ∧ x < base zero + Tensor.elementCount dims) :
    Call zero dims [l] (.array l) := by
  rw [Tensor.count_eq _ hd] at hl
  rw [C112_values (show Admissible (base zero) dims [l] from admissible_one.mpr ⟨hd, hl⟩)]
  simp only [choices, List.flatMap_cons, List.flatMap_nil, List.append_nil, List.map_map]
  congr 1
  obtain ⟨d, ds, rfl⟩ := List.exists_cons_of_ne_nil hd
  rw [List.map_congr_left (g := id)]
  · simp
  · intro x hx
    have := (hl x hx).1
    simp only [Function.comp, List.map_cons, List.map_nil, place_cons, place_nil, id]
    omega

theorem place_range : ∀ dims : List Nat, (choices (dims.map List.range)).map (place dims) = List.range dims.prod
  | [] => rfl
  | d :: ds => by
    have e := range_mul id d ds.prod
    rw [List.map_id] at e
    rw [List.prod_cons, e, List.map_cons, choices, List.map_flatMap, ← place_range ds, List.flatMap_map]
    congr 1
    funext v
    rw [List.map_map]
    apply List.map_congr_left
    intro x _
    simp [place_cons]

/-- **C112, the whole array.** All indices of all dimensions give all places, in order. -/
theorem C112_whole {dims : List Nat} (hd : dims ≠ []) : Call true dims (dims.map List.range) (.array (List.range (Tensor.elementCount dims))) := by
  have ha : ∀ dims : List Nat, dims ≠ [] → Admissible 0 dims (dims.map List.range) := by
    intro dims hd
    induction dims with
    | nil => exact absurd rfl hd
    | cons d ds ih => cases ds with
      | nil => exact ⟨by simp, by simp⟩
      | cons e es => exact ⟨by simp, ih (by simp)⟩
  rw [C112_values (show Admissible (base true) dims _ from ha dims hd), Tensor.count_eq _ hd, ← place_range]
  simp [base]

/-- The flag for empty ranges is right. -/
theorem C112_empty (f : Flattener) (l : List (Option Nat)) (h : f.Visits l) (h2 : f.indices.length ≤ f.dims.length) : (f.empty = true ↔ l = []) ∧ f.size = l.length := by
  by_cases h1 : f.indices = []
  · have : l = [] := Yields.unique h (Yields.done (by simp [MultiDim.atEnd, MultiDim.first, Flattener.sizes, h1]))
    subst this
    simp [Flattener.empty, Flattener.size, Flattener.sizes, h1]
  · have := Yields.unique h (visits h1 h2)
    subst this
    rw [size_eq h1]
    refine ⟨?_, by simp⟩
    have hz : (choices f.indices).length = 0 ↔ f.empty = true := by
      rw [choices_count, List.prod_eq_zero_iff]
      simp [Flattener.empty, Flattener.sizes, h1]
    rw [← hz]
    simp

-- The example in the help text of `sub_to_index`; and the last index of a 2×3×4 array running over two dimensions.
example : Admissible 1 [2, 2] [[2], [1, 2]] ∧ Call false [2, 2] [[2], [1, 2]] (.array [2, 4]) := by
  have h : Admissible 1 [2, 2] [[2], [1, 2]] := by simp [Admissible]
  exact ⟨h, (C112_values (zero := false) h _).mpr (by decide)⟩
example : Admissible 0 [2, 3, 4] [[1, 0], [11, 3]] ∧ Call true [2, 3, 4] [[1, 0], [11, 3]] (.array [23, 22, 7, 6]) := by
  have h : Admissible 0 [2, 3, 4] [[1, 0], [11, 3]] := by simp [Admissible]
  exact ⟨h, (C112_values (zero := true) h _).mpr (by decide)⟩
example : ¬ Admissible 1 [2, 2] [[2], [0, 2]] ∧ ¬ Admissible 1 [2, 2] [[1], [1], [1]] ∧ Call false [2, 2] [[2], [0, 2]] .refused := by
  refine ⟨by simp [Admissible], by simp [Admissible], (C112_refused (zero := false) (by simp) (by simp [Admissible, base]) _).mpr rfl⟩
example : ([2, 3] : List Nat) ≠ [] ∧ ∀ x ∈ [6, 1, 6], base false ≤ x ∧ x < base false + Tensor.elementCount [2, 3] := by decide
example : Flattener.Visits ⟨[2, 3], [[0, 1], []]⟩ [] := visits (f := ⟨[2, 3], [[0, 1], []]⟩) (by simp) (by simp)

end Moment.C112
