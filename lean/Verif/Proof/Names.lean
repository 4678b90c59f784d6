import Verif.Spec.Names
import Mathlib.Data.List.Nodup
import Mathlib.Tactic.Ring
import Mathlib.Tactic.Tauto

/-! # Proofs about names of operators -/

namespace Moment.Names
open Moment.Rules (Pre ConjMode)

/-! ## The index -/

def keys (m : Index) : List Text := m.map Prod.fst

theorem any_key (m : Index) (t : Text) : (m.any fun e => e.1 == t) = decide (t ∈ keys m) := by
  induction m with
  | nil => rfl
  | cons e m ih =>
    rw [List.any_cons, ih]
    simp only [keys, List.map_cons, List.mem_cons, Bool.decide_or]
    congr 1
    by_cases h : e.1 = t
    · simp [h]
    · have : ¬ t = e.1 := fun e => h e.symm
      simp [h, this]

theorem put_new {m : Index} {t : Text} {v : Int} (h : t ∉ keys m) : m.put t v = (m ++ [(t, v)], true) := by
  unfold Index.put
  rw [any_key, if_neg (by simpa using h)]

theorem put_old {m : Index} {t : Text} {v : Int} (h : t ∈ keys m) : m.put t v = (m, false) := by
  unfold Index.put
  rw [any_key, if_pos (by simpa using h)]

theorem get_iff {m : Index} (hn : (keys m).Nodup) (t : Text) (v : Int) : m.get t = some v ↔ (t, v) ∈ m := by
  induction m with
  | nil => simp [Index.get]
  | cons e m ih =>
    obtain ⟨a, b⟩ := e
    simp only [keys, List.map_cons, List.nodup_cons] at hn
    by_cases h : a = t
    · subst h
      have : Index.get ((a, b) :: m) a = some b := by simp [Index.get]
      rw [this]
      constructor
      · intro e; cases e; exact List.mem_cons_self
      · intro e
        rcases List.mem_cons.mp e with e | e
        · cases e; rfl
        · exact (hn.1 (List.mem_map.mpr ⟨_, e, rfl⟩)).elim
    · have : Index.get ((a, b) :: m) t = Index.get m t := by
        unfold Index.get
        rw [List.find?_cons_of_neg (by simpa using h)]
      rw [this, ih hn.2]
      constructor
      · exact List.mem_cons_of_mem _
      · intro e
        rcases List.mem_cons.mp e with e | e
        · cases e; exact (h rfl).elim
        · exact e

theorem get_none {m : Index} (t : Text) : m.get t = none ↔ t ∉ keys m := by
  unfold Index.get keys
  rw [Option.map_eq_none_iff, List.find?_eq_none]
  simp only [beq_iff_eq, List.mem_map, Prod.exists, exists_and_right, exists_eq_right, not_exists, Prod.forall]
  constructor
  · intro h x hx; exact h t x hx rfl
  · intro h a b hab e; exact h b (e ▸ hab)

/-! ## Names -/

theorem nameChar_iff (c : Char) : nameChar c = true ↔ letter c ∨ c.isDigit ∨ c ∈ ['_', '.', '|'] := by
  have h : c.isDigit = (decide ('0' ≤ c) && decide (c ≤ '9')) := by
    simp only [Char.isDigit]
    rfl
  rw [h]
  simp only [nameChar, Bool.or_eq_true, beq_iff_eq, List.mem_cons, List.not_mem_nil, or_false]
  tauto

theorem valid_iff (t : Text) : validName t = true ↔ ∃ c cs, t = c :: cs ∧ letter c ∧ ∀ d ∈ cs, letter d ∨ d.isDigit ∨ d ∈ ['_', '.', '|'] := by
  cases t with
  | nil => simp [validName]
  | cons c cs =>
    rw [validName, Bool.and_eq_true, List.all_eq_true]
    constructor
    · rintro ⟨h1, h2⟩
      exact ⟨c, cs, rfl, h1, fun d hd => (nameChar_iff d).mp (h2 d hd)⟩
    · rintro ⟨c', cs', e, h1, h2⟩
      cases e
      exact ⟨h1, fun d hd => (nameChar_iff d).mpr (h2 d hd)⟩

theorem valid_chars {t : Text} (h : validName t = true) : ∀ c ∈ t, nameChar c = true := by
  cases t with
  | nil => simp
  | cons c cs =>
    rw [validName, Bool.and_eq_true, List.all_eq_true] at h
    intro d hd
    rcases List.mem_cons.mp hd with e | e
    · rw [e]; simp [nameChar, h.1]
    · exact h.2 d e

theorem valid_not {t : Text} (h : validName t = true) {c : Char} (hc : nameChar c = false) : c ∉ t := fun hm => by
  rw [valid_chars h c hm] at hc
  exact Bool.noConfusion hc

theorem letter_iff (c : Char) : letter c = c.isAlpha := by
  unfold letter Char.isAlpha Char.isUpper Char.isLower
  rw [Bool.decide_and]
  rfl

theorem proper_iff (p : Pre) (raw : List Text) : Proper p raw ↔ raw.length = p.raw ∧ raw.Nodup ∧ ∀ t ∈ raw, validName t = true := by
  simp only [Proper, valid_iff, letter_iff]

theorem star_inj {a b : Text} : star a = star b ↔ a = b := by simp [star]

theorem star_ne {a b : Text} (h : validName a = true) : a ≠ star b := fun e => valid_not h (c := '*') (by decide) (by rw [e, star]; simp)

def stride (mode : ConjMode) : Nat := if mode = .interleaved then 2 else 1

theorem checkNames_eq (mode : ConjMode) (ts : List Text) : ∀ (op : Nat) (ix : Index) (s : Bool), (keys ix).Nodup →
    checkNames mode op ts ix s = if (∀ t ∈ ts, validName t = true) ∧ (keys ix ++ ts).Nodup
      then some (ix ++ (ts.zipIdx op).map fun e => (e.1, oper (e.2 * stride mode)), s && ts.all fun t => t.length == 1) else none := by
  induction ts with
  | nil => intro op ix s h; simp [checkNames, h]
  | cons t ts ih =>
    intro op ix s h
    rw [checkNames]
    by_cases hv : validName t = true
    · rw [hv]
      simp only [Bool.not_true, Bool.false_eq_true, if_false]
      by_cases hm : t ∈ keys ix
      · have hno : ¬ ((∀ x ∈ t :: ts, validName x = true) ∧ (keys ix ++ t :: ts).Nodup) := by
          rintro ⟨-, hn⟩
          exact (List.nodup_append.mp hn).2.2 t hm t List.mem_cons_self rfl
        rw [put_old hm, if_neg hno]
        rfl
      · rw [put_new hm]
        simp only [Bool.not_true, Bool.false_eq_true, if_false]
        have hk : keys (ix ++ [(t, oper (op * if mode = .interleaved then 2 else 1))]) = keys ix ++ [t] := by simp [keys]
        rw [ih _ _ _ (by rw [hk]; exact List.nodup_append.mpr ⟨h, List.nodup_singleton _, fun a ha b hb => by
          rw [List.mem_singleton] at hb; rw [hb]; exact fun e => hm (e ▸ ha)⟩), hk]
        simp only [List.append_assoc, List.singleton_append, List.mem_cons, forall_eq_or_imp, hv, true_and, List.zipIdx_cons, List.map_cons, List.all_cons,
          Bool.and_assoc, stride]
    · have hno : ¬ ((∀ x ∈ t :: ts, validName x = true) ∧ (keys ix ++ t :: ts).Nodup) := by
        rintro ⟨h1, -⟩
        exact hv (h1 t List.mem_cons_self)
      rw [if_neg hno, if_pos (by simp [hv])]

/-- The names, as they are entered first. -/
def base (mode : ConjMode) (raw : List Text) : Index := raw.zipIdx.map fun e => (e.1, oper (e.2 * stride mode))

theorem base_keys (mode : ConjMode) (raw : List Text) : keys (base mode raw) = raw := by
  unfold keys base
  rw [List.map_map]
  have h := List.zipIdx_map_fst 0 raw
  calc _ = List.map Prod.fst raw.zipIdx := List.map_congr_left fun _ _ => rfl
    _ = raw := h

theorem mem_base {mode : ConjMode} {raw : List Text} {t : Text} {v : Int} : (t, v) ∈ base mode raw ↔ ∃ k : Nat, raw[k]? = some t ∧ v = oper (k * stride mode) := by
  unfold base
  simp only [List.mem_map, Prod.exists, List.mk_mem_zipIdx_iff_getElem?, Prod.mk.injEq]
  constructor
  · rintro ⟨a, k, h, h', h''⟩; exact ⟨k, h' ▸ h, h''.symm⟩
  · rintro ⟨k, h, h'⟩; exact ⟨t, k, h, rfl, h'.symm⟩

theorem make_eq (mv : Moves) (p : Pre) (raw : List Text) : Table.make mv p raw = if raw.length = p.raw ∧ raw.Nodup ∧ (∀ t ∈ raw, validName t = true) then
    some (match p.mode with
    | .selfAdjoint => ⟨raw.length, raw, markSelf raw raw.length (base p.mode raw), raw.all fun t => t.length == 1⟩
    | .bunched => let x := bunch raw.length (raw, base p.mode raw); ⟨raw.length, x.1, x.2, raw.all fun t => t.length == 1⟩
    | .interleaved => let x := interleave mv raw.length (raw ++ List.replicate raw.length [], base p.mode raw); ⟨raw.length, x.1, x.2, raw.all fun t => t.length == 1⟩)
    else none := by
  unfold Table.make
  by_cases hl : raw.length = p.raw
  · rw [if_neg (by simpa using hl), checkNames_eq _ _ _ _ _ (by simp [keys])]
    by_cases hc : (∀ t ∈ raw, validName t = true) ∧ raw.Nodup
    · rw [if_pos (by simpa [keys] using hc), if_pos ⟨hl, hc.2, hc.1⟩]
      simp only [List.nil_append, Option.map_some, Bool.true_and]
      rfl
    · rw [if_neg (by simpa [keys] using hc), if_neg (by rintro ⟨-, h1, h2⟩; exact hc ⟨h2, h1⟩)]
      rfl
  · rw [if_pos (by simpa using hl), if_neg (by rintro ⟨h, -⟩; exact hl h)]

/-! ## Names of conjugates -/

/-- What the loops have entered, for the operators in `S`. -/
structure Marked (ix ix' : Index) (raw : List Text) (f : Nat → Int) (S : Nat → Prop) : Prop where
  nodup : (keys ix').Nodup
  mem : ∀ t v, (t, v) ∈ ix' ↔ (t, v) ∈ ix ∨ ∃ (k : Nat) (r : Text), S k ∧ raw[k]? = some r ∧ t = star r ∧ v = f k

theorem mem_keys {m : Index} {t : Text} : t ∈ keys m ↔ ∃ v, (t, v) ∈ m := by simp [keys]

theorem Marked.refl {ix : Index} {raw : List Text} {f : Nat → Int} {S : Nat → Prop} (h : (keys ix).Nodup) (hS : ∀ k, ¬ S k) : Marked ix ix raw f S :=
  ⟨h, fun _ _ => ⟨.inl, fun h => h.elim id fun ⟨k, _, h1, _⟩ => (hS k h1).elim⟩⟩

/-- One more name is entered. -/
theorem Marked.next {mode : ConjMode} {ix' : Index} {raw : List Text} {f : Nat → Int} {S S' : Nat → Prop} {k : Nat} (hr : raw.Nodup)
    (hv : ∀ t ∈ raw, validName t = true) (h : Marked (base mode raw) ix' raw f S) {r : Text} (hk : raw[k]? = some r) (hS : ¬ S k)
    (hS' : ∀ j, S' j ↔ S j ∨ j = k) : Marked (base mode raw) (ix'.put (star r) (f k)).1 raw f S' := by
  have hnew : star r ∉ keys ix' := by
    rw [mem_keys]
    rintro ⟨v, hm⟩
    rw [h.mem] at hm
    rcases hm with hm | ⟨j, r', h1, h3, h4, -⟩
    · obtain ⟨j, hj, -⟩ := mem_base.mp hm
      exact star_ne (hv _ (List.mem_of_getElem? hj)) rfl
    · rw [star_inj] at h4
      subst h4
      obtain ⟨h5a, h5⟩ := List.getElem?_eq_some_iff.mp hk
      obtain ⟨h6a, h6⟩ := List.getElem?_eq_some_iff.mp h3
      have := (hr.getElem_inj_iff (hi := h5a) (hj := h6a)).mp (h5.trans h6.symm)
      exact hS (this ▸ h1)
  rw [put_new hnew]
  refine ⟨?_, fun t v => ?_⟩
  · have : keys (ix' ++ [(star r, f k)]) = keys ix' ++ [star r] := by simp [keys]
    rw [this]
    exact List.nodup_append.mpr ⟨h.nodup, List.nodup_singleton _, fun a ha b hb => by
      rw [List.mem_singleton] at hb; rw [hb]; exact fun e => hnew (e ▸ ha)⟩
  · rw [List.mem_append, h.mem, List.mem_singleton, Prod.mk.injEq, or_assoc]
    refine or_congr Iff.rfl ⟨?_, ?_⟩
    · rintro (⟨j, r', h1, h3⟩ | ⟨rfl, rfl⟩)
      · exact ⟨j, r', (hS' j).mpr (.inl h1), h3⟩
      · exact ⟨k, r, (hS' k).mpr (.inr rfl), hk, rfl, rfl⟩
    · rintro ⟨j, r', h1, h3, rfl, rfl⟩
      rcases (hS' j).mp h1 with h1 | rfl
      · exact .inl ⟨j, r', h1, h3, rfl, rfl⟩
      · rw [hk] at h3
        cases h3
        exact .inr ⟨rfl, rfl⟩

theorem getD_of {l : List Text} {k : Nat} {t : Text} (h : l[k]? = some t) : l.getD k [] = t := by rw [List.getD_eq_getElem?_getD, h]; rfl

theorem markSelf_spec {mode : ConjMode} {raw : List Text} (hr : raw.Nodup) (hv : ∀ t ∈ raw, validName t = true) :
    ∀ n, n ≤ raw.length → Marked (base mode raw) (markSelf raw n (base mode raw)) raw oper (· < n) := by
  intro n
  induction n with
  | zero => intro _; exact .refl (by rw [base_keys]; exact hr) (by simp)
  | succ n ih =>
    intro h
    unfold markSelf
    rw [List.range_succ, List.foldl_append]
    simp only [List.foldl_cons, List.foldl_nil]
    have hk : raw[n]? = some raw[n] := List.getElem?_eq_getElem (by omega)
    rw [getD_of hk]
    exact (ih (by omega)).next hr hv hk (by simp) fun j => Nat.lt_succ_iff_lt_or_eq

theorem bunch_spec {mode : ConjMode} {raw : List Text} (hr : raw.Nodup) (hv : ∀ t ∈ raw, validName t = true) :
    ∀ n, n ≤ raw.length → (bunch n (raw, base mode raw)).1 = raw ++ (raw.take n).map star ∧
      Marked (base mode raw) (bunch n (raw, base mode raw)).2 raw (fun k => oper (raw.length + k)) (· < n) := by
  intro n
  induction n with
  | zero => intro _; exact ⟨by simp [bunch], .refl (by rw [base_keys]; exact hr) (by simp)⟩
  | succ n ih =>
    intro h
    obtain ⟨h1, h2⟩ := ih (by omega)
    have e : bunch (n + 1) (raw, base mode raw) = (fun x : List Text × Index => (x.1 ++ [star (x.1.getD n [])],
        (Index.put x.2 (star (x.1.getD n [])) (oper (x.1.length + 1 - 1))).1)) (bunch n (raw, base mode raw)) := by
      unfold bunch
      rw [List.range_succ, List.foldl_append]
      rfl
    rw [e]
    generalize bunch n (raw, base mode raw) = x at h1 h2 ⊢
    obtain ⟨ns, ix⟩ := x
    dsimp only at h1 h2 ⊢
    have hk : raw[n]? = some raw[n] := List.getElem?_eq_getElem (by omega)
    have hg : ns.getD n [] = raw[n] := getD_of (by rw [h1, List.getElem?_append_left (by omega)]; exact hk)
    rw [hg]
    constructor
    · rw [h1, List.take_add_one, hk, List.append_assoc, List.map_append]
      rfl
    · have hl : ns.length + 1 - 1 = raw.length + n := by rw [h1]; simp; omega
      rw [hl]
      exact h2.next (f := fun k => oper (raw.length + k)) hr hv hk (by simp) fun j => Nat.lt_succ_iff_lt_or_eq

/-- The name at a place after the loop for conjugates next to operators. -/
def placed (mv : Moves) (raw : List Text) (j : Nat) : Text :=
  if j = 0 then mv.self (raw.getD 0 []) else if j % 2 = 0 then raw.getD (j / 2) [] else star (raw.getD (j / 2) [])

theorem interleave_spec {mode : ConjMode} {raw : List Text} (mv : Moves) (hr : raw.Nodup) (hv : ∀ t ∈ raw, validName t = true) :
    ∀ n ns ix, n ≤ raw.length → ns.length = 2 * raw.length → (∀ j : Nat, j < n → ns[j]? = raw[j]?) →
      (∀ j : Nat, 2 * n ≤ j → j < 2 * raw.length → ns[j]? = some (placed mv raw j)) →
      Marked (base mode raw) ix raw (fun k => oper (2 * k + 1)) (fun k => n ≤ k ∧ k < raw.length) →
      (interleave mv n (ns, ix)).1.length = 2 * raw.length ∧
      (∀ j : Nat, j < 2 * raw.length → (interleave mv n (ns, ix)).1[j]? = some (placed mv raw j)) ∧
      Marked (base mode raw) (interleave mv n (ns, ix)).2 raw (fun k => oper (2 * k + 1)) (fun k => k < raw.length) := by
  intro n
  induction n with
  | zero =>
    intro ns ix _ h1 _ h3 h4
    refine ⟨h1, fun j hj => h3 j (by omega) hj, ?_⟩
    rw [interleave]
    simpa using h4
  | succ k ih =>
    intro ns ix hn hl h2 h3 h4
    rw [interleave]
    have hk : raw[k]? = some raw[k] := List.getElem?_eq_getElem (by omega)
    have hg : ns.getD k [] = raw[k] := getD_of (by rw [h2 k (by omega)]; exact hk)
    have hrg : raw.getD k [] = raw[k] := getD_of hk
    rw [hg]
    apply ih
    · omega
    · rw [List.length_set]
      split <;> simp [hl]
    · intro j hj
      rw [List.getElem?_set_ne (by omega)]
      split
      · omega
      · rw [List.getElem?_set_ne (by omega), List.getElem?_set_ne (by omega)]
        exact h2 j (by omega)
    · intro j hj1 hj2
      by_cases e1 : j = 2 * k + 1
      · subst e1
        rw [List.getElem?_set_self (by split <;> simp [hl] <;> omega)]
        simp only [placed]
        rw [if_neg (by omega), if_neg (by omega), show (2 * k + 1) / 2 = k by omega, hrg]
      · rw [List.getElem?_set_ne (by omega)]
        by_cases e2 : j = 2 * k
        · subst e2
          split
          · rename_i h0
            have : k = 0 := by omega
            subst this
            rw [List.getElem?_set_self (by omega)]
            simp only [placed]
            rw [if_pos trivial, hrg]
          · rename_i h0
            rw [List.getElem?_set_ne (by omega), List.getElem?_set_self (by omega)]
            simp only [placed]
            rw [if_neg (by omega), if_pos (by omega), show 2 * k / 2 = k by omega, hrg]
        · split
          · rw [List.getElem?_set_ne (by omega)]
            exact h3 j (by omega) hj2
          · rw [List.getElem?_set_ne (by omega), List.getElem?_set_ne (by omega)]
            exact h3 j (by omega) hj2
    · exact h4.next (f := fun k => oper (2 * k + 1)) hr hv hk (by omega) fun j => by omega

/-! ## The table -/

theorem oper_eq {n : Nat} (h : n < 32768) : oper n = n := by
  unfold oper Int.bmod
  dsimp only
  split <;> omega

theorem nameOf_lt {p : Pre} {raw : List Text} (hl : raw.length = p.raw) {k : Nat} {t : Text} (h : nameOf p raw k = some t) : k < p.num := by
  unfold nameOf at h
  unfold Pre.num
  split at h
  · rename_i hm
    rw [if_pos hm]
    have := (List.getElem?_eq_some_iff.mp h).1
    omega
  · rename_i hm
    rw [if_neg (by rw [hm]; decide)]
    split at h
    · omega
    · rw [Option.map_eq_some_iff] at h
      obtain ⟨_, h, -⟩ := h
      have := (List.getElem?_eq_some_iff.mp h).1
      omega
  · rename_i hm
    rw [if_neg (by rw [hm]; decide)]
    split at h
    · have := (List.getElem?_eq_some_iff.mp h).1
      omega
    · rw [Option.map_eq_some_iff] at h
      obtain ⟨_, h, -⟩ := h
      have := (List.getElem?_eq_some_iff.mp h).1
      omega

theorem nameOf_some {p : Pre} {raw : List Text} (hl : raw.length = p.raw) {k : Nat} (h : k < p.num) : ∃ t, nameOf p raw k = some t := by
  unfold Pre.num at h
  unfold nameOf
  split
  · rename_i hm
    rw [if_pos hm] at h
    exact ⟨_, List.getElem?_eq_getElem (by omega)⟩
  · rename_i hm
    rw [if_neg (by rw [hm]; decide)] at h
    split
    · exact ⟨_, List.getElem?_eq_getElem (by omega)⟩
    · rw [List.getElem?_eq_getElem (by omega)]
      exact ⟨_, rfl⟩
  · rename_i hm
    rw [if_neg (by rw [hm]; decide)] at h
    split
    · exact ⟨_, List.getElem?_eq_getElem (by omega)⟩
    · rw [List.getElem?_eq_getElem (by omega)]
      exact ⟨_, rfl⟩

/-- A given name, or one with a star. -/
theorem nameOf_cases {p : Pre} {raw : List Text} {k : Nat} {t : Text} (h : nameOf p raw k = some t) : ∃ r ∈ raw, t = r ∨ t = star r := by
  unfold nameOf at h
  split at h
  · exact ⟨t, List.mem_of_getElem? h, .inl rfl⟩
  · split at h
    · exact ⟨t, List.mem_of_getElem? h, .inl rfl⟩
    · rw [Option.map_eq_some_iff] at h
      obtain ⟨r, h, rfl⟩ := h
      exact ⟨r, List.mem_of_getElem? h, .inr rfl⟩
  · split at h
    · exact ⟨t, List.mem_of_getElem? h, .inl rfl⟩
    · rw [Option.map_eq_some_iff] at h
      obtain ⟨r, h, rfl⟩ := h
      exact ⟨r, List.mem_of_getElem? h, .inr rfl⟩

/-- What the constructor gives. -/
structure Built (mv : Moves) (p : Pre) (raw : List Text) (T : Table) : Prop where
  proper : raw.length = p.raw ∧ raw.Nodup ∧ ∀ t ∈ raw, validName t = true
  count : T.count = p.raw
  single : T.single = raw.all fun t => t.length == 1
  length : T.names.length = p.num
  names : ∀ k : Nat, T.names[k]? = if k = 0 ∧ p.mode = .interleaved then (nameOf p raw k).map mv.self else nameOf p raw k
  nodup : (keys T.index).Nodup
  index : Fits p → ∀ t v, (t, v) ∈ T.index ↔ (∃ k : Nat, nameOf p raw k = some t ∧ v = k) ∨
    (p.mode = .selfAdjoint ∧ ∃ (k : Nat) (r : Text), raw[k]? = some r ∧ t = star r ∧ v = k)

theorem built_self {mv : Moves} {p : Pre} {raw : List Text} (hc : raw.length = p.raw ∧ raw.Nodup ∧ ∀ t ∈ raw, validName t = true) (hm : p.mode = .selfAdjoint) :
    Built mv p raw ⟨raw.length, raw, markSelf raw raw.length (base p.mode raw), raw.all fun t => t.length == 1⟩ := by
  have hs := markSelf_spec (mode := p.mode) hc.2.1 hc.2.2 raw.length le_rfl
  refine ⟨hc, hc.1, rfl, ?_, fun k => ?_, hs.nodup, fun hf t v => ?_⟩
  · rw [Pre.num, if_pos hm]; exact hc.1
  · rw [if_neg (by rw [hm]; rintro ⟨-, h⟩; exact absurd h (by decide))]
    simp only [nameOf, hm]
  · have hn : ∀ {k : Nat} {r : Text}, raw[k]? = some r → oper k = k := fun h => oper_eq (by
      have := (List.getElem?_eq_some_iff.mp h).1
      have : p.num = p.raw := by rw [Pre.num, if_pos hm]
      unfold Fits at hf
      omega)
    rw [hs.mem, mem_base]
    simp only [nameOf, hm, stride, true_and]
    refine or_congr ⟨?_, ?_⟩ ⟨?_, ?_⟩
    · rintro ⟨k, h, h'⟩
      refine ⟨k, h, ?_⟩
      rw [h', if_neg (by decide), Nat.mul_one]
      exact hn h
    · rintro ⟨k, h, h'⟩
      refine ⟨k, h, ?_⟩
      rw [h', if_neg (by decide), Nat.mul_one]
      exact (hn h).symm
    · rintro ⟨k, r, -, h, h1, h2⟩
      exact ⟨k, r, h, h1, h2.trans (hn h)⟩
    · rintro ⟨k, r, h, h1, h2⟩
      exact ⟨k, r, (List.getElem?_eq_some_iff.mp h).1, h, h1, h2.trans (hn h).symm⟩

theorem built_bunch {mv : Moves} {p : Pre} {raw : List Text} (hc : raw.length = p.raw ∧ raw.Nodup ∧ ∀ t ∈ raw, validName t = true) (hm : p.mode = .bunched) :
    Built mv p raw ⟨raw.length, (bunch raw.length (raw, base p.mode raw)).1, (bunch raw.length (raw, base p.mode raw)).2, raw.all fun t => t.length == 1⟩ := by
  obtain ⟨h1, hs⟩ := bunch_spec (mode := p.mode) hc.2.1 hc.2.2 raw.length le_rfl
  have hnum : p.num = 2 * p.raw := by rw [Pre.num, if_neg (by rw [hm]; decide)]
  rw [List.take_length] at h1
  refine ⟨hc, hc.1, rfl, ?_, fun k => ?_, hs.nodup, fun hf t v => ?_⟩
  · dsimp only
    rw [h1, List.length_append, List.length_map, hnum]
    omega
  · rw [if_neg (by rw [hm]; rintro ⟨-, h⟩; exact absurd h (by decide))]
    simp only [nameOf, hm] at h1 ⊢
    rw [h1]
    split
    · rw [List.getElem?_append_left (by omega)]
    · rw [List.getElem?_append_right (by omega), List.getElem?_map, hc.1]
      rfl
  · unfold Fits at hf
    dsimp only
    rw [hs.mem, mem_base]
    have hlt : ∀ {k : Nat} {r : Text}, raw[k]? = some r → k < p.raw := fun h => by
      have := (List.getElem?_eq_some_iff.mp h).1
      omega
    simp only [nameOf, hm, stride]
    constructor
    · rintro (⟨k, h, h'⟩ | ⟨k, r, -, h, ht, h'⟩)
      · refine .inl ⟨k, ?_, ?_⟩
        · rw [if_pos (hlt h)]; exact h
        · have := hlt h
          rw [h', if_neg (by decide), Nat.mul_one]
          exact oper_eq (by omega)
      · refine .inl ⟨p.raw + k, ?_, ?_⟩
        · rw [if_neg (by omega), Nat.add_sub_cancel_left, h, ht]
          rfl
        · have := hlt h
          rw [h', hc.1]
          exact oper_eq (by omega)
    · rintro (⟨k, h, h'⟩ | ⟨h, -⟩)
      · split at h
        · refine .inl ⟨k, h, ?_⟩
          rw [h', if_neg (by decide), Nat.mul_one, oper_eq (by omega)]
        · rw [Option.map_eq_some_iff] at h
          obtain ⟨r, h, ht⟩ := h
          have := hlt h
          refine .inr ⟨k - p.raw, r, by omega, h, ht.symm, ?_⟩
          rw [h', hc.1, Nat.add_sub_cancel' (by omega), oper_eq (by omega)]
      · exact absurd h (by decide)

theorem built_inter {mv : Moves} {p : Pre} {raw : List Text} (hc : raw.length = p.raw ∧ raw.Nodup ∧ ∀ t ∈ raw, validName t = true) (hm : p.mode = .interleaved) :
    Built mv p raw ⟨raw.length, (interleave mv raw.length (raw ++ List.replicate raw.length [], base p.mode raw)).1,
      (interleave mv raw.length (raw ++ List.replicate raw.length [], base p.mode raw)).2, raw.all fun t => t.length == 1⟩ := by
  obtain ⟨h0, h1, hs⟩ := interleave_spec (mode := p.mode) mv hc.2.1 hc.2.2 raw.length (raw ++ List.replicate raw.length []) (base p.mode raw) le_rfl
    (by simp; omega) (fun j hj => List.getElem?_append_left hj) (fun j h1 h2 => by omega) (.refl (by rw [base_keys]; exact hc.2.1) fun k => by omega)
  have hnum : p.num = 2 * p.raw := by rw [Pre.num, if_neg (by rw [hm]; decide)]
  have hlt : ∀ {k : Nat} {r : Text}, raw[k]? = some r → k < p.raw := fun h => by
    have := (List.getElem?_eq_some_iff.mp h).1
    omega
  refine ⟨hc, hc.1, rfl, ?_, fun k => ?_, hs.nodup, fun hf t v => ?_⟩
  · dsimp only
    rw [h0, hnum, hc.1]
  · dsimp only
    by_cases hk : k < 2 * raw.length
    · rw [h1 k hk]
      have hd : raw[k / 2]? = some (raw.getD (k / 2) []) := by
        rw [List.getD_eq_getElem?_getD, List.getElem?_eq_getElem (by omega)]
        rfl
      simp only [nameOf, hm, placed, and_true]
      rw [hd]
      split
      · rename_i e
        subst e
        rfl
      · split <;> rfl
    · have hx : nameOf p raw k = none := by
        cases hx : nameOf p raw k with
        | none => rfl
        | some t => have := nameOf_lt hc.1 hx; omega
      rw [List.getElem?_eq_none (by omega), hx]
      split <;> rfl
  · unfold Fits at hf
    dsimp only
    rw [hs.mem, mem_base]
    simp only [nameOf, hm, stride]
    constructor
    · rintro (⟨k, h, h'⟩ | ⟨k, r, -, h, ht, h'⟩)
      · have := hlt h
        refine .inl ⟨k * 2, ?_, ?_⟩
        · rw [if_pos (by omega), Nat.mul_div_cancel _ (by omega)]; exact h
        · rw [h', if_pos trivial]
          exact oper_eq (by omega)
      · have := hlt h
        refine .inl ⟨2 * k + 1, ?_, ?_⟩
        · rw [if_neg (by omega), show (2 * k + 1) / 2 = k by omega, h, ht]
          rfl
        · rw [h']
          exact oper_eq (by omega)
    · rintro (⟨k, h, h'⟩ | ⟨h, -⟩)
      · split at h
        · have := hlt h
          refine .inl ⟨k / 2, h, ?_⟩
          rw [h', if_pos trivial, oper_eq (by omega)]
          omega
        · rw [Option.map_eq_some_iff] at h
          obtain ⟨r, h, ht⟩ := h
          have := hlt h
          refine .inr ⟨k / 2, r, by omega, h, ht.symm, ?_⟩
          rw [h', oper_eq (by omega)]
          omega
      · exact absurd h (by decide)

theorem make_built {mv : Moves} {p : Pre} {raw : List Text} {T : Table} (h : Table.make mv p raw = some T) : Built mv p raw T := by
  rw [make_eq] at h
  split at h
  · rename_i hc
    cases h
    split
    · rename_i hm; exact built_self hc hm
    · rename_i hm; exact built_bunch hc hm
    · rename_i hm; exact built_inter hc hm
  · cases h

theorem star_ne_nil (r : Text) : star r ≠ [] := by simp [star]

theorem Built.find {mv : Moves} {p : Pre} {raw : List Text} {T : Table} (h : Built mv p raw T) (hf : Fits p) (t : Text) (v : Int) :
    T.find t = some v ↔ (∃ k : Nat, nameOf p raw k = some t ∧ v = k) ∨ (p.mode = .selfAdjoint ∧ ∃ (k : Nat) (r : Text), raw[k]? = some r ∧ t = star r ∧ v = k) := by
  rw [← h.index hf, ← get_iff h.nodup]
  unfold Table.find
  split
  · rename_i e
    subst e
    constructor
    · intro e; cases e
    · intro e
      rw [get_iff h.nodup, h.index hf] at e
      rcases e with ⟨k, hk, -⟩ | ⟨-, k, r, -, hk, -⟩
      · obtain ⟨r, hr, e | e⟩ := nameOf_cases hk
        · exact absurd (h.proper.2.2 r hr) (by rw [← e]; decide)
        · exact (star_ne_nil r e.symm).elim
      · exact (star_ne_nil r hk.symm).elim
  · exact Iff.rfl

theorem Built.name_inj {mv : Moves} {p : Pre} {raw : List Text} {T : Table} (h : Built mv p raw T) (hf : Fits p) {j k : Nat} {t : Text}
    (hj : nameOf p raw j = some t) (hk : nameOf p raw k = some t) : j = k := by
  have h1 := (h.find hf t j).mpr (.inl ⟨j, hj, rfl⟩)
  have h2 := (h.find hf t k).mpr (.inl ⟨k, hk, rfl⟩)
  rw [h1] at h2
  exact Int.ofNat_inj.mp (Option.some.inj h2)

/-! ## Texts of words -/

/-- A letter, or a letter with a star. -/
def Code (t : Text) : Prop := ∃ c, letter c = true ∧ (t = [c] ∨ t = [c, '*'])

theorem code_head {L : List Text} (h : ∀ t ∈ L, Code t) (l : Text) : L.flatten ≠ '*' :: l := by
  cases L with
  | nil => simp
  | cons t L =>
    obtain ⟨c, hc, rfl | rfl⟩ := h t List.mem_cons_self <;>
    · intro e
      simp only [List.flatten_cons, List.cons_append, List.cons.injEq] at e
      rw [e.1] at hc
      exact absurd hc (by decide)

theorem code_cons {t : Text} (h : Code t) (L : Text) : t ++ L ≠ [] := by
  obtain ⟨c, hc, rfl | rfl⟩ := h <;> simp

theorem flat_inj : ∀ L M : List Text, (∀ t ∈ L, Code t) → (∀ t ∈ M, Code t) → L.flatten = M.flatten → L = M
  | [], [], _, _, _ => rfl
  | [], t :: M, _, hM, e => (code_cons (hM t List.mem_cons_self) _ e.symm).elim
  | t :: L, [], hL, _, e => (code_cons (hL t List.mem_cons_self) _ e).elim
  | t :: L, u :: M, hL, hM, e => by
    have hL' : ∀ t ∈ L, Code t := fun t ht => hL t (List.mem_cons_of_mem _ ht)
    have hM' : ∀ t ∈ M, Code t := fun t ht => hM t (List.mem_cons_of_mem _ ht)
    obtain ⟨c, -, ht⟩ := hL t List.mem_cons_self
    obtain ⟨d, -, hu⟩ := hM u List.mem_cons_self
    rcases ht with rfl | rfl <;> rcases hu with rfl | rfl <;>
      simp only [List.flatten_cons, List.cons_append, List.nil_append, List.cons.injEq, true_and] at e
    · rw [e.1, flat_inj L M hL' hM' e.2]
    · exact (code_head hL' _ e.2).elim
    · exact (code_head hM' _ e.2.symm).elim
    · rw [e.1, flat_inj L M hL' hM' e.2]

theorem split_at {c : Char} : ∀ {a b x y : Text}, c ∉ a → c ∉ b → a ++ c :: x = b ++ c :: y → a = b ∧ x = y
  | [], [], _, _, _, _, e => by simpa using e
  | [], d :: b, _, _, _, hb, e => by
    simp only [List.nil_append, List.cons_append, List.cons.injEq] at e
    exact (hb (e.1 ▸ List.mem_cons_self)).elim
  | d :: a, [], _, _, ha, _, e => by
    simp only [List.nil_append, List.cons_append, List.cons.injEq] at e
    exact (ha (e.1 ▸ List.mem_cons_self)).elim
  | d :: a, d' :: b, _, _, ha, hb, e => by
    simp only [List.cons_append, List.cons.injEq] at e
    obtain ⟨h1, h2⟩ := split_at (fun h => ha (List.mem_cons_of_mem _ h)) (fun h => hb (List.mem_cons_of_mem _ h)) e.2
    rw [e.1, h1]
    exact ⟨rfl, h2⟩

theorem join_inj {c : Char} : ∀ L M : List Text, (∀ t ∈ L, c ∉ t) → (∀ t ∈ M, c ∉ t) → L ≠ [] → M ≠ [] → List.intercalate [c] L = List.intercalate [c] M → L = M
  | [], _, _, _, h, _, _ => (h rfl).elim
  | _ :: _, [], _, _, _, h, _ => (h rfl).elim
  | [a], [b], _, _, _, _, e => by simpa [List.intercalate] using e
  | [a], b :: b' :: M, hL, hM, _, _, e => by
    exfalso
    apply hL a List.mem_cons_self
    have : List.intercalate [c] [a] = a := by simp [List.intercalate]
    rw [this] at e
    rw [e]
    simp [List.intercalate]
  | a :: a' :: L, [b], hL, hM, _, _, e => by
    exfalso
    apply hM b List.mem_cons_self
    have : List.intercalate [c] [b] = b := by simp [List.intercalate]
    rw [this] at e
    rw [← e]
    simp [List.intercalate]
  | a :: a' :: L, b :: b' :: M, hL, hM, _, _, e => by
    have h1 : List.intercalate [c] (a :: a' :: L) = a ++ c :: List.intercalate [c] (a' :: L) := by simp [List.intercalate]
    have h2 : List.intercalate [c] (b :: b' :: M) = b ++ c :: List.intercalate [c] (b' :: M) := by simp [List.intercalate]
    rw [h1, h2] at e
    obtain ⟨e1, e2⟩ := split_at (hL a List.mem_cons_self) (hM b List.mem_cons_self) e
    rw [e1, join_inj (a' :: L) (b' :: M) (fun t ht => hL t (List.mem_cons_of_mem _ ht)) (fun t ht => hM t (List.mem_cons_of_mem _ ht)) (by simp) (by simp) e2]

theorem mapM_all {α β : Type} {f : α → Option β} {g : α → β} : ∀ {w : List α}, (∀ o ∈ w, f o = some (g o)) → w.mapM f = some (w.map g)
  | [], _ => rfl
  | o :: w, h => by
    rw [List.mapM_cons, h o List.mem_cons_self, mapM_all fun x hx => h x (List.mem_cons_of_mem _ hx)]
    rfl

theorem map_inj_on {α β : Type} {g : α → β} {P : α → Prop} (hg : ∀ a b, P a → P b → g a = g b → a = b) :
    ∀ {w u : List α}, (∀ o ∈ w, P o) → (∀ o ∈ u, P o) → w.map g = u.map g → w = u
  | [], [], _, _, _ => rfl
  | [], _ :: _, _, _, e => by simp at e
  | _ :: _, [], _, _, e => by simp at e
  | a :: w, b :: u, hw, hu, e => by
    simp only [List.map_cons, List.cons.injEq] at e
    rw [hg a b (hw a List.mem_cons_self) (hu b List.mem_cons_self) e.1,
      map_inj_on hg (fun o ho => hw o (List.mem_cons_of_mem _ ho)) (fun o ho => hu o (List.mem_cons_of_mem _ ho)) e.2]

/-- The name as a text. -/
def textOf (p : Pre) (raw : List Text) (k : Nat) : Text := (nameOf p raw k).getD []

theorem Built.names' {mv : Moves} {p : Pre} {raw : List Text} {T : Table} (h : Built mv p raw T) (hh : Harmless mv p) (k : Nat) : T.names[k]? = nameOf p raw k := by
  rw [h.names]
  split
  · rename_i hc
    have : mv.self = id := funext (hh hc.2)
    rw [this, Option.map_id]
    rfl
  · rfl

theorem Built.body {mv : Moves} {p : Pre} {raw : List Text} {T : Table} (h : Built mv p raw T) (hh : Harmless mv p) {w : List Nat} (hw : ∀ o ∈ w, o < p.num) :
    T.body w = some (if T.single then (w.map (textOf p raw)).flatten else List.intercalate [';'] (w.map (textOf p raw))) := by
  have hn : ∀ o ∈ w, T.names[o]? = some (textOf p raw o) := fun o ho => by
    obtain ⟨t, ht⟩ := nameOf_some h.proper.1 (hw o ho)
    rw [h.names' hh, textOf, ht]
    rfl
  unfold Table.body
  split
  · rw [mapM_all hn]
    rfl
  · congr 2
    apply List.map_congr_left
    intro o ho
    unfold Table.stream
    rw [if_pos ⟨by omega, by rw [h.length]; have := hw o ho; omega⟩, Int.toNat_natCast, List.getD_eq_getElem?_getD, hn o ho]
    rfl

theorem textOf_eq {p : Pre} {raw : List Text} (hl : raw.length = p.raw) {k : Nat} (h : k < p.num) : nameOf p raw k = some (textOf p raw k) := by
  obtain ⟨t, ht⟩ := nameOf_some hl h
  rw [textOf, ht]
  rfl

theorem Built.body_inj {mv : Moves} {p : Pre} {raw : List Text} {T : Table} (h : Built mv p raw T) (hf : Fits p) (hh : Harmless mv p) {w u : List Nat}
    (hw : ∀ o ∈ w, o < p.num) (hu : ∀ o ∈ u, o < p.num) (hw0 : w ≠ []) (hu0 : u ≠ []) (e : T.body w = T.body u) : w = u := by
  rw [h.body hh hw, h.body hh hu, Option.some.injEq] at e
  have hinj : ∀ a b, a < p.num → b < p.num → textOf p raw a = textOf p raw b → a = b := fun a b ha hb e =>
    h.name_inj hf (textOf_eq h.proper.1 ha) (by rw [e]; exact textOf_eq h.proper.1 hb)
  have hval : ∀ (l : List Nat), (∀ o ∈ l, o < p.num) → ∀ t ∈ l.map (textOf p raw), ∃ r ∈ raw, t = r ∨ t = star r := fun l hl t ht => by
    obtain ⟨o, ho, rfl⟩ := List.mem_map.mp ht
    exact nameOf_cases (textOf_eq h.proper.1 (hl o ho))
  apply map_inj_on hinj hw hu
  split at e
  · rename_i hs
    rw [h.single, List.all_eq_true] at hs
    have hcode : ∀ (l : List Nat), (∀ o ∈ l, o < p.num) → ∀ t ∈ l.map (textOf p raw), Code t := fun l hl t ht => by
      obtain ⟨r, hr, ht⟩ := hval l hl t ht
      have h1 := hs r hr
      have h2 := h.proper.2.2 r hr
      cases r with
      | nil => exact absurd h2 (by decide)
      | cons c cs =>
        cases cs with
        | cons => simp at h1
        | nil =>
          rw [validName, Bool.and_eq_true] at h2
          exact ⟨c, h2.1, ht⟩
    exact flat_inj _ _ (hcode w hw) (hcode u hu) e
  · have hsemi : ∀ (l : List Nat), (∀ o ∈ l, o < p.num) → ∀ t ∈ l.map (textOf p raw), ';' ∉ t := fun l hl t ht => by
      obtain ⟨r, hr, ht⟩ := hval l hl t ht
      have h2 := valid_not (h.proper.2.2 r hr) (c := ';') (by decide)
      rcases ht with rfl | rfl
      · exact h2
      · simp only [star, List.mem_append, List.mem_singleton, not_or]
        exact ⟨h2, by decide⟩
    exact join_inj _ _ (hsemi w hw) (hsemi u hu) (by simpa using hw0) (by simpa using hu0) e

/-- The first character of a word is a letter. -/
theorem Built.body_head {mv : Moves} {p : Pre} {raw : List Text} {T : Table} (h : Built mv p raw T) (hh : Harmless mv p) {w : List Nat}
    (hw : ∀ o ∈ w, o < p.num) (hw0 : w ≠ []) : ∃ c l, T.body w = some (c :: l) ∧ letter c = true := by
  cases w with
  | nil => exact (hw0 rfl).elim
  | cons o w =>
    obtain ⟨r, hr, ht⟩ := nameOf_cases (textOf_eq h.proper.1 (hw o List.mem_cons_self))
    obtain ⟨c, l, hcl, hc⟩ : ∃ c l, textOf p raw o = c :: l ∧ letter c = true := by
      have h2 := h.proper.2.2 r hr
      cases r with
      | nil => exact absurd h2 (by decide)
      | cons c cs =>
        rw [validName, Bool.and_eq_true] at h2
        rcases ht with ht | ht
        · exact ⟨c, cs, ht, h2.1⟩
        · exact ⟨c, cs ++ ['*'], ht, h2.1⟩
    rw [h.body hh hw]
    split
    · exact ⟨c, _, by rw [List.map_cons, List.flatten_cons, hcl]; rfl, hc⟩
    · cases w with
      | nil => exact ⟨c, l, by simp [List.intercalate, hcl], hc⟩
      | cons o' w => exact ⟨c, l ++ ';' :: List.intercalate [';'] ((o' :: w).map (textOf p raw)), by simp [List.intercalate, hcl], hc⟩

end Moment.Names
