import Verif.Proof.Locality
import Verif.Props.C29_MultiDim
import Verif.Props.C31_Enumeration

namespace Moment.Locality

theorem collect_eq {σ α : Type} {next : σ → σ} {atEnd : σ → Prop} {value : σ → α} {s : σ} {l : List α}
    (h : Yields next atEnd value s l) : collect next atEnd value s = l := by
  have hex : ∃ l, Yields next atEnd value s l := ⟨l, h⟩
  unfold collect
  rw [dif_pos hex]
  exact hex.choose_spec.unique h

theorem nodup_of_lex {l : List (List Nat)} (h : l.Pairwise (List.Lex (· < ·))) : l.Nodup :=
  List.Pairwise.imp (fun {a b} (hab : List.Lex (· < ·) a b) (e : a = b) => lex_irrefl b (e ▸ hab)) h

theorem getD_lt {α : Type} (l : List α) (d : α) {i : Nat} (h : i < l.length) : l.getD i d = l[i] := by simp [List.getD, h]

/-- Neighbours that the simplification leaves alone. -/
def Ok (s : Scenario) (a b : Nat) : Prop :=
  a ≠ b ∧ (partyOf s a == partyOf s b && mutuallyExclusive s (partyOf s a) a b) = false

theorem isChain_of_not_any {α : Type} (p : α → α → Bool) : ∀ w : List α, anyNeighbours p w = false ↔ w.IsChain (fun a b => p a b = false)
  | [] => by simp [anyNeighbours]
  | [x] => by simp [anyNeighbours]
  | x :: y :: w => by
    rw [anyNeighbours, Bool.or_eq_false_iff, isChain_of_not_any p (y :: w), List.isChain_cons_cons]

theorem isChain_and {α : Type} (p q : α → α → Prop) : ∀ w : List α, w.IsChain (fun a b => p a b ∧ q a b) ↔ w.IsChain p ∧ w.IsChain q
  | [] => by simp
  | [x] => by simp
  | x :: y :: w => by
    rw [List.isChain_cons_cons, List.isChain_cons_cons, List.isChain_cons_cons, isChain_and p q (y :: w)]
    tauto

/-- The words that the simplification leaves as they are. -/
theorem fixed_iff {s : Scenario} {w : List Nat} : simplify s w = .word w ↔
    (∀ o ∈ w, o < operatorCount s) ∧ w.Pairwise (fun a b => partyOf s a ≤ partyOf s b) ∧ w.IsChain (Ok s) := by
  unfold Ok
  rw [isChain_and, ← isChain_of_not_any (fun a b => partyOf s a == partyOf s b && mutuallyExclusive s (partyOf s a) a b)]
  by_cases hne : w = []
  · subst hne; simp [simplify, anyNeighbours]
  by_cases hr : ∀ o ∈ w, o < operatorCount s
  swap
  · simp only [hr, false_and, iff_false]
    rw [simplify_range.mpr (by simpa using hr)]
    simp
  simp only [simplify]
  rw [if_neg (by simpa using hne), if_neg (by simpa using hr)]
  have hu : uniqueBy (fun a b => a == b) (stableSort (partyOf s) w) = w ↔
      w.Pairwise (fun a b => partyOf s a ≤ partyOf s b) ∧ w.IsChain (· ≠ ·) := by
    constructor
    · intro h
      have h1 := uniq_sublist (stableSort (partyOf s) w)
      have h2 : uniq (stableSort (partyOf s) w) = stableSort (partyOf s) w := by
        apply h1.eq_of_length
        show (uniqueBy (fun a b => a == b) (stableSort (partyOf s) w)).length = _
        rw [h, (stableSort_perm _ _).length_eq]
      have h3 : stableSort (partyOf s) w = w := h2.symm.trans h
      rw [h3] at h2
      exact ⟨h3 ▸ stableSort_sorted _ _, (uniq_eq_self w).mp h2⟩
    · rintro ⟨h1, h2⟩
      rw [stableSort_of_sorted _ h1]
      exact (uniq_eq_self w).mpr h2
  constructor
  · intro h
    split at h
    · simp at h
    · rename_i hn
      have he := Outcome.word.inj h
      rw [he] at hn
      exact ⟨hr, (hu.mp he).1, (hu.mp he).2, by simpa using hn⟩
  · rintro ⟨-, h1, h2, h3⟩
    rw [hu.mpr ⟨h1, h2⟩, if_neg (by simpa using h3)]

/-- The operators of a party are the block of numbers starting at its offset. -/
theorem party_block {s : Scenario} {p : Nat} (hp : p < s.length) {n : Nat} :
    (operatorOffset s p ≤ n ∧ n < operatorOffset s p + partyOps (s.getD p [])) ↔ (n < operatorCount s ∧ partyOf s n = p) := by
  have hg : (s.map partyOps)[p]? = some (partyOps (s.getD p [])) := by
    simp [List.getElem?_map, List.getElem?_eq_getElem hp, List.getD]
  constructor
  · rintro ⟨h1, h2⟩
    obtain ⟨j, rfl⟩ := Nat.exists_eq_add_of_le h1
    have hj : j < partyOps (s.getD p []) := by omega
    rw [operatorOffset_eq]
    exact ⟨sum_take_lt _ _ _ _ hg hj, by rw [partyOf, opToParty, blockTable_get _ _ _ _ _ hg hj, Nat.zero_add]⟩
  · rintro ⟨h1, h2⟩
    obtain ⟨a, ha, rfl⟩ := enc_surj h1
    rw [partyOf_enc ha] at h2
    subst h2
    have := enc_local_lt ha
    unfold enc
    omega

theorem partyOf_lt {s : Scenario} {n : Nat} (h : n < operatorCount s) : partyOf s n < s.length := by
  obtain ⟨a, ha, rfl⟩ := enc_surj h
  rw [partyOf_enc ha]
  obtain ⟨m, h1, -⟩ := ha
  exact (List.getElem?_eq_some_iff.mp h1).1

/-- The word list of one party for one length. -/
theorem partyWords_spec {s : Scenario} {p : Nat} (hp : p < s.length) (wl : Nat) :
    (partyWords s p wl).Nodup ∧
    ∀ w, w ∈ partyWords s p wl ↔ w.length = wl ∧ (∀ o ∈ w, partyOf s o = p) ∧ simplify s w = .word w := by
  by_cases h0 : wl = 0
  · subst h0
    refine ⟨by simp [partyWords], ?_⟩
    intro w
    simp only [partyWords, if_true, List.mem_singleton]
    constructor
    · rintro rfl; simp [simplify]
    · intro h; exact List.eq_nil_of_length_eq_zero h.1
  · obtain ⟨l, hy, hm, hs⟩ := C29.C29_operator_words wl (partyOps (s.getD p [])) (operatorOffset s p) (Nat.pos_of_ne_zero h0)
    have hfil : partyWords s p wl = l.filter (fun w => decide (simplify s w = .word w)) := by
      simp only [partyWords, h0, if_false]
      rw [collect_eq hy, ← List.filterMap_eq_filter]
      apply List.filterMap_congr
      intro w hw
      obtain ⟨hlen, hw2⟩ := (hm w).mp hw
      by_cases hfix : simplify s w = .word w
      · simp [hfix, hlen, Option.guard]
      · have hz : Option.guard (fun w => decide (simplify s w = .word w)) w = none := by simp [Option.guard, hfix]
        rw [hz]
        have hall := fun o ho => (party_block hp).mp (hw2 o ho)
        have hne : w ≠ [] := by rintro rfl; exact h0 hlen.symm
        split
        · rename_i v hv
          rw [if_neg]
          intro hlv
          apply hfix
          have h1 : v = uniqueBy (fun a b => a == b) w := by
            simp only [simplify] at hv
            rw [if_neg (by simpa using hne), if_neg (by simpa using fun o ho => (hall o ho).1)] at hv
            rw [stableSort_of_sorted (partyOf s) (List.pairwise_of_forall_mem_list fun a ha b hb => by
              rw [(hall a ha).2, (hall b hb).2])] at hv
            split at hv
            · simp at hv
            · exact (Outcome.word.inj hv).symm
          have h2 : v = w := by
            rw [h1]
            apply (uniq_sublist w).eq_of_length
            show (uniqueBy (fun a b => a == b) w).length = _
            rw [← h1, hlv, hlen]
          rw [hv, h2]
        · rfl
    rw [hfil]
    refine ⟨(nodup_of_lex hs).filter _, ?_⟩
    intro w
    rw [List.mem_filter, hm, decide_eq_true_eq]
    constructor
    · rintro ⟨⟨h1, h2⟩, h3⟩
      exact ⟨h1, fun o ho => ((party_block hp).mp (h2 o ho)).2, h3⟩
    · rintro ⟨h1, h2, h3⟩
      exact ⟨⟨h1, fun o ho => (party_block hp).mpr ⟨(fixed_iff.mp h3).1 o ho, h2 o ho⟩⟩, h3⟩

/-! ### Concatenation over the parties -/

/-- Part number `i` holds operators of party `k + i`. -/
def Parted (s : Scenario) : Nat → List (List Nat) → Prop
  | _, [] => True
  | k, x :: xs => (∀ o ∈ x, partyOf s o = k) ∧ Parted s (k + 1) xs

theorem Parted.le {s : Scenario} : ∀ {xs : List (List Nat)} {k : Nat}, Parted s k xs → ∀ o ∈ xs.flatten, k ≤ partyOf s o
  | [], _, _, o, h => by simp at h
  | x :: xs, k, hx, o, h => by
    rw [List.flatten_cons, List.mem_append] at h
    rcases h with h | h
    · exact Nat.le_of_eq (hx.1 o h).symm
    · have := Parted.le hx.2 o h; omega

theorem parted_filter {s : Scenario} : ∀ {xs : List (List Nat)} {k : Nat}, Parted s k xs → ∀ i < xs.length,
    xs.flatten.filter (fun o => partyOf s o == k + i) = xs.getD i []
  | [], _, _, i, h => by simp at h
  | x :: xs, k, hx, 0, _ => by
    rw [List.flatten_cons, List.filter_append, List.filter_eq_self.mpr (by intro o ho; simp [hx.1 o ho]),
      List.filter_eq_nil_iff.mpr]
    · simp
    · intro o ho
      have := hx.2.le o ho
      simp; omega
  | x :: xs, k, hx, i + 1, h => by
    rw [List.flatten_cons, List.filter_append, List.filter_eq_nil_iff.mpr, List.nil_append]
    · have := parted_filter hx.2 i (by simpa using h)
      rw [show k + (i + 1) = k + 1 + i by omega, this]
      simp
    · intro o ho
      have := hx.1 o ho
      simp; omega

theorem parted_sorted {s : Scenario} : ∀ {xs : List (List Nat)} {k : Nat}, Parted s k xs →
    xs.flatten.Pairwise (fun a b => partyOf s a ≤ partyOf s b)
  | [], _, _ => by simp
  | x :: xs, k, hx => by
    rw [List.flatten_cons, List.pairwise_append]
    refine ⟨List.pairwise_of_forall_mem_list fun a ha b hb => by rw [hx.1 a ha, hx.1 b hb], parted_sorted hx.2, ?_⟩
    intro a ha b hb
    have := hx.1 a ha
    have := hx.2.le b hb
    omega

theorem parted_fixed {s : Scenario} : ∀ {xs : List (List Nat)} {k : Nat}, Parted s k xs → (∀ x ∈ xs, simplify s x = .word x) →
    simplify s xs.flatten = .word xs.flatten
  | [], _, _, _ => by simp [simplify]
  | x :: xs, k, hx, hf => by
    have ih := fixed_iff.mp (parted_fixed hx.2 fun y hy => hf y (by simp [hy]))
    have h1 := fixed_iff.mp (hf x (by simp))
    rw [fixed_iff]
    refine ⟨?_, parted_sorted hx, ?_⟩
    · intro o ho
      rw [List.flatten_cons, List.mem_append] at ho
      exact ho.elim (h1.1 o) (ih.1 o)
    · rw [List.flatten_cons, List.isChain_append]
      refine ⟨h1.2.2, ih.2.2, ?_⟩
      intro a ha b hb
      have h2 := hx.1 a (List.mem_of_mem_getLast? ha)
      have h3 := hx.2.le b (List.mem_of_mem_head? hb)
      refine ⟨by rintro rfl; omega, ?_⟩
      have : (partyOf s a == partyOf s b) = false := by simp; omega
      rw [this]; rfl

theorem parted_of_get {s : Scenario} : ∀ {xs : List (List Nat)} {k : Nat}, (∀ i x, xs[i]? = some x → ∀ o ∈ x, partyOf s o = k + i) → Parted s k xs
  | [], _, _ => trivial
  | x :: xs, k, h => ⟨by simpa using h 0 x (by simp), parted_of_get fun i y hy o ho => by
      have := h (i + 1) y (by simpa using hy) o ho; omega⟩

theorem parted_inj {s : Scenario} {xs ys : List (List Nat)} {k : Nat} (hx : Parted s k xs) (hy : Parted s k ys) (hl : xs.length = ys.length)
    (h : xs.flatten = ys.flatten) : xs = ys := by
  apply List.ext_getElem hl
  intro i h1 h2
  have e1 := parted_filter hx i h1
  have e2 := parted_filter hy i h2
  rw [h, e2] at e1
  simpa [List.getD, h1, h2] using e1.symm

/-- A word sorted by party is the concatenation of its parts. -/
theorem split_parts {s : Scenario} {w : List Nat} (h : simplify s w = .word w) :
    let xs := (List.range s.length).map fun p => w.filter (fun o => partyOf s o == p)
    Parted s 0 xs ∧ xs.flatten = w ∧ ∀ x ∈ xs, simplify s x = .word x := by
  intro xs
  have hf := fixed_iff.mp h
  have hp : Parted s 0 xs := by
    apply parted_of_get
    intro i x hx o ho
    simp only [xs, List.getElem?_map, Option.map_eq_some_iff] at hx
    obtain ⟨p, hp, rfl⟩ := hx
    have := List.getElem?_eq_some_iff.mp hp
    obtain ⟨hi, rfl⟩ := this
    rw [List.mem_filter] at ho
    simpa using ho.2
  have hw : xs.flatten = w := by
    apply eq_of_filters (partyOf s) (parted_sorted hp) hf.2.1
    intro k
    by_cases hk : k < s.length
    · have := parted_filter hp k (by simpa [xs] using hk)
      rw [Nat.zero_add] at this
      rw [this]
      simp [xs, List.getD, hk]
    · have e : ∀ v : List Nat, (∀ o ∈ v, o < operatorCount s) → v.filter (fun o => partyOf s o == k) = [] := by
        intro v hv
        rw [List.filter_eq_nil_iff]
        intro o ho
        have := partyOf_lt (hv o ho)
        simp; omega
      rw [e w hf.1, e]
      intro o ho
      simp only [xs, List.mem_flatten, List.mem_map, List.mem_range] at ho
      obtain ⟨_, ⟨p, -, rfl⟩, ho⟩ := ho
      exact hf.1 o (List.mem_filter.mp ho).1
  refine ⟨hp, hw, ?_⟩
  intro x hx
  rw [fixed_iff]
  have hin : x <:+: w := by
    rw [← hw]
    exact List.infix_of_mem_flatten hx
  exact ⟨fun o ho => hf.1 o (hin.subset ho), hf.2.1.sublist hin.sublist, hf.2.2.infix hin⟩

theorem tensorWords_spec {cs : List (List (List Nat))} (hne : cs ≠ []) :
    ∃ idx : List (List Nat), idx.Nodup ∧ (∀ v, v ∈ idx ↔ List.Forall₂ (· < ·) v (cs.map List.length)) ∧
      tensorWords cs = idx.map fun v => (List.zipWith (fun c i => c.getD i []) cs v).flatten := by
  obtain ⟨l, hy, hm, hs, -⟩ := C29.C29_full_box false (cs.map List.length) (by simpa using hne)
  refine ⟨l.map Prod.fst, ?_, hm, ?_⟩
  · apply nodup_of_lex
    exact hs.imp fun h => by simpa only [C29.Before, Bool.false_eq_true, if_false] using h
  · simp only [tensorWords]
    rw [collect_eq hy, List.map_map]
    rfl

theorem zipWith_forall₂ : ∀ {cs : List (List (List Nat))} {v : List Nat}, List.Forall₂ (· < ·) v (cs.map List.length) →
    List.Forall₂ (fun x c => x ∈ c) (List.zipWith (fun c i => c.getD i []) cs v) cs
  | [], v, h => by
    simp only [List.map_nil, List.forall₂_nil_right_iff] at h
    subst h; exact List.Forall₂.nil
  | c :: cs, v, h => by
    rw [List.map_cons, List.forall₂_cons_right_iff] at h
    obtain ⟨i, v, hi, hv, rfl⟩ := h
    refine List.Forall₂.cons ?_ (zipWith_forall₂ hv)
    simp [List.getD, hi]

theorem forall₂_zipWith : ∀ {cs : List (List (List Nat))} {xs : List (List Nat)}, List.Forall₂ (fun x c => x ∈ c) xs cs →
    ∃ v, List.Forall₂ (· < ·) v (cs.map List.length) ∧ List.zipWith (fun c i => c.getD i []) cs v = xs
  | [], xs, h => by
    simp only [List.forall₂_nil_right_iff] at h
    subst h; exact ⟨[], List.Forall₂.nil, rfl⟩
  | c :: cs, xs, h => by
    rw [List.forall₂_cons_right_iff] at h
    obtain ⟨x, xs, hx, hxs, rfl⟩ := h
    obtain ⟨v, hv, rfl⟩ := forall₂_zipWith hxs
    obtain ⟨i, hi, rfl⟩ := List.getElem_of_mem hx
    exact ⟨i :: v, List.Forall₂.cons hi hv, by simp [List.getD, hi]⟩

theorem zipWith_inj : ∀ {cs : List (List (List Nat))}, (∀ c ∈ cs, c.Nodup) → ∀ {v v' : List Nat},
    List.Forall₂ (· < ·) v (cs.map List.length) → List.Forall₂ (· < ·) v' (cs.map List.length) →
    List.zipWith (fun c i => c.getD i []) cs v = List.zipWith (fun c i => c.getD i []) cs v' → v = v'
  | [], _, v, v', h, h', _ => by
    simp only [List.map_nil, List.forall₂_nil_right_iff] at h h'
    rw [h, h']
  | c :: cs, hn, v, v', h, h', e => by
    rw [List.map_cons, List.forall₂_cons_right_iff] at h h'
    obtain ⟨i, v, hi, hv, rfl⟩ := h
    obtain ⟨i', v', hi', hv', rfl⟩ := h'
    simp only [List.zipWith_cons_cons, List.cons.injEq] at e
    have h1 : i = i' := by
      have := e.1
      simp only [List.getD, hi, hi', List.getElem?_eq_getElem, Option.getD_some] at this
      exact (hn c (by simp)).getElem_inj_iff.mp this
    rw [h1, zipWith_inj (fun d hd => hn d (by simp [hd])) hv hv' e.2]

theorem mem_tensorWords {cs : List (List (List Nat))} (hne : cs ≠ []) (w : List Nat) :
    w ∈ tensorWords cs ↔ ∃ xs, List.Forall₂ (fun x c => x ∈ c) xs cs ∧ xs.flatten = w := by
  obtain ⟨idx, -, hm, e⟩ := tensorWords_spec hne
  rw [e, List.mem_map]
  constructor
  · rintro ⟨v, hv, rfl⟩
    exact ⟨_, zipWith_forall₂ ((hm v).mp hv), rfl⟩
  · rintro ⟨xs, hxs, rfl⟩
    obtain ⟨v, hv, rfl⟩ := forall₂_zipWith hxs
    exact ⟨v, (hm v).mpr hv, rfl⟩

/-- The constituents for given sub-lengths, and what selecting one word from each means. -/
theorem select_iff {s : Scenario} {v : List Nat} {xs : List (List Nat)} :
    List.Forall₂ (fun x c => x ∈ c) xs ((List.range s.length).map fun p => partyWords s p (v.getD p 0)) ↔
      xs.length = s.length ∧ Parted s 0 xs ∧ (∀ x ∈ xs, simplify s x = .word x) ∧ ∀ p < s.length, (xs.getD p []).length = v.getD p 0 := by
  rw [List.forall₂_iff_get]
  simp only [List.length_map, List.length_range, List.get_eq_getElem, List.getElem_map, List.getElem_range]
  constructor
  · rintro ⟨hl, h⟩
    have h2 : ∀ (p : Nat) (hp : p < xs.length), xs[p].length = v.getD p 0 ∧ (∀ o ∈ xs[p], partyOf s o = p) ∧ simplify s xs[p] = .word xs[p] :=
      fun p hp => ((partyWords_spec (s := s) (hl ▸ hp) _).2 _).mp (h p hp (hl ▸ hp))
    refine ⟨hl, ?_, ?_, ?_⟩
    · apply parted_of_get
      intro i x hx o ho
      obtain ⟨hi, rfl⟩ := List.getElem?_eq_some_iff.mp hx
      rw [Nat.zero_add]
      exact (h2 i hi).2.1 o ho
    · intro x hx
      obtain ⟨i, hi, rfl⟩ := List.getElem_of_mem hx
      exact (h2 i hi).2.2
    · intro p hp
      rw [getD_lt _ _ (hl ▸ hp)]
      exact (h2 p (hl ▸ hp)).1
  · rintro ⟨hl, hp, hf, hlen⟩
    refine ⟨hl, ?_⟩
    intro i h1 h2
    rw [(partyWords_spec h2 _).2]
    have := hlen i h2
    rw [getD_lt _ _ h1] at this
    refine ⟨this, ?_, hf _ (List.getElem_mem h1)⟩
    have e := parted_filter hp i h1
    rw [getD_lt _ _ h1, Nat.zero_add] at e
    intro o ho
    rw [← e, List.mem_filter] at ho
    simpa using ho.2

theorem sum_getD (xs : List (List Nat)) : xs.flatten.length = (xs.map List.length).sum := List.length_flatten

/-- Words of one length for several parties. -/
theorem levelWords_spec {s : Scenario} (hs : 0 < s.length) (wl : Nat) :
    (levelWords s wl).Nodup ∧ ∀ w, w ∈ levelWords s wl ↔ w.length = wl ∧ simplify s w = .word w := by
  obtain ⟨l, hy, hm, hord⟩ := C31.C33_compositions true wl s.length hs
  have hnd : l.Nodup := hord.imp fun hab e => by
    simp only [if_true] at hab
    exact lex_irrefl _ (e ▸ hab)
  have hcs : ∀ v : List Nat, ((List.range s.length).map fun p => partyWords s p (v.getD p 0)) ≠ [] := by
    intro v h
    have := congrArg List.length h
    rw [List.length_map, List.length_range, List.length_nil] at this; omega
  unfold levelWords
  rw [collect_eq hy]
  constructor
  · rw [List.nodup_flatMap]
    constructor
    · intro v hv
      obtain ⟨idx, hid, hmi, e⟩ := tensorWords_spec (hcs v)
      rw [e]
      refine List.Nodup.map_on ?_ hid
      intro x hx y hy2 exy
      have hx' := (hmi x).mp hx
      have hy' := (hmi y).mp hy2
      have sx := select_iff.mp (zipWith_forall₂ hx')
      have sy := select_iff.mp (zipWith_forall₂ hy')
      have := parted_inj sx.2.1 sy.2.1 (sx.1.trans sy.1.symm) exy
      refine zipWith_inj ?_ hx' hy' this
      intro c hc
      simp only [List.mem_map, List.mem_range] at hc
      obtain ⟨p, hp, rfl⟩ := hc
      exact (partyWords_spec hp _).1
    · refine hnd.imp_of_mem ?_
      intro v v' hv hv' hne
      simp only [Function.onFun, List.disjoint_left]
      intro w h1 h2
      rw [mem_tensorWords (hcs v)] at h1
      rw [mem_tensorWords (hcs v')] at h2
      obtain ⟨xs, hxs, e1⟩ := h1
      obtain ⟨ys, hys, e2⟩ := h2
      have sx := select_iff.mp hxs
      have sy := select_iff.mp hys
      have := parted_inj sx.2.1 sy.2.1 (sx.1.trans sy.1.symm) (e1.trans e2.symm)
      subst this
      apply hne
      have l1 := ((hm v).mp hv).1
      have l2 := ((hm v').mp hv').1
      apply List.ext_getElem (l1.trans l2.symm)
      intro i h1 h2
      have a1 := sx.2.2.2 i (l1 ▸ h1)
      have a2 := sy.2.2.2 i (l1 ▸ h1)
      rw [a1] at a2
      rwa [getD_lt _ _ h1, getD_lt _ _ h2] at a2
  · intro w
    rw [List.mem_flatMap]
    constructor
    · rintro ⟨v, hv, hw⟩
      rw [mem_tensorWords (hcs v)] at hw
      obtain ⟨xs, hxs, rfl⟩ := hw
      have sx := select_iff.mp hxs
      obtain ⟨hv1, hv2⟩ := (hm v).mp hv
      refine ⟨?_, parted_fixed sx.2.1 sx.2.2.1⟩
      rw [sum_getD, ← hv2]
      congr 1
      apply List.ext_getElem (by simp [sx.1, hv1])
      intro i h1 h2
      have := sx.2.2.2 i (hv1 ▸ h2)
      rw [getD_lt _ _ (by simpa using h1), getD_lt _ _ h2] at this
      simpa using this
    · rintro ⟨hlen, hfix⟩
      obtain ⟨hp, hfl, hfx⟩ := split_parts hfix
      generalize hxs : ((List.range s.length).map fun p => w.filter (fun o => partyOf s o == p)) = xs at hp hfl hfx
      have hxl : xs.length = s.length := by rw [← hxs]; simp
      refine ⟨xs.map List.length, (hm _).mpr ⟨by simp [hxl], by rw [← sum_getD, hfl, hlen]⟩, ?_⟩
      rw [mem_tensorWords (hcs _)]
      refine ⟨xs, select_iff.mpr ⟨hxl, hp, hfx, ?_⟩, hfl⟩
      intro p hpl
      rw [getD_lt _ _ (hxl ▸ hpl), getD_lt _ _ (by simpa [hxl] using hpl)]
      simp

theorem levelOne_spec {s : Scenario} : ((List.range s.length).flatMap fun p => partyWords s p 1).Nodup ∧
    ∀ w, w ∈ ((List.range s.length).flatMap fun p => partyWords s p 1) ↔ w.length = 1 ∧ simplify s w = .word w := by
  constructor
  · rw [List.nodup_flatMap]
    constructor
    · intro p hp
      exact (partyWords_spec (List.mem_range.mp hp) 1).1
    · refine List.nodup_range.imp_of_mem ?_
      intro p q hp hq hne
      simp only [Function.onFun, List.disjoint_left]
      intro w h1 h2
      obtain ⟨a1, a2, -⟩ := ((partyWords_spec (List.mem_range.mp hp) 1).2 w).mp h1
      obtain ⟨-, b2, -⟩ := ((partyWords_spec (List.mem_range.mp hq) 1).2 w).mp h2
      obtain ⟨o, rfl⟩ := List.length_eq_one_iff.mp a1
      exact hne ((a2 o (by simp)).symm.trans (b2 o (by simp)))
  · intro w
    rw [List.mem_flatMap]
    constructor
    · rintro ⟨p, hp, hw⟩
      obtain ⟨a1, -, a3⟩ := ((partyWords_spec (List.mem_range.mp hp) 1).2 w).mp hw
      exact ⟨a1, a3⟩
    · rintro ⟨h1, h2⟩
      obtain ⟨o, rfl⟩ := List.length_eq_one_iff.mp h1
      have hp := partyOf_lt ((fixed_iff.mp h2).1 o (by simp))
      exact ⟨partyOf s o, List.mem_range.mpr hp, ((partyWords_spec hp 1).2 _).mpr ⟨h1, by simp, h2⟩⟩

/-- A list put together from complete lists per length. -/
theorem by_length {F : Nat → List (List Nat)} {P : List Nat → Prop} (lens : List Nat) (hn : lens.Nodup)
    (h : ∀ wl ∈ lens, (F wl).Nodup ∧ ∀ w, w ∈ F wl ↔ w.length = wl ∧ P w) :
    (lens.flatMap F).Nodup ∧ ∀ w, w ∈ lens.flatMap F ↔ w.length ∈ lens ∧ P w := by
  constructor
  · rw [List.nodup_flatMap]
    refine ⟨fun wl hw => (h wl hw).1, hn.imp_of_mem ?_⟩
    intro a b ha hb hne
    simp only [Function.onFun, List.disjoint_left]
    intro w h1 h2
    exact hne ((((h a ha).2 w).mp h1).1.symm.trans (((h b hb).2 w).mp h2).1)
  · intro w
    rw [List.mem_flatMap]
    constructor
    · rintro ⟨wl, hwl, hw⟩
      obtain ⟨rfl, hp⟩ := ((h wl hwl).2 w).mp hw
      exact ⟨hwl, hp⟩
    · rintro ⟨h1, h2⟩
      exact ⟨_, h1, ((h _ h1).2 w).mpr ⟨rfl, h2⟩⟩

theorem generate_general {s : Scenario} (hs : 2 ≤ s.length) (L : Nat) : generate s L =
    (List.range (L + 1)).flatMap fun wl => if wl = 0 then [[]] else if wl = 1 then (List.range s.length).flatMap fun p => partyWords s p 1
      else levelWords s wl := by
  match s, hs with
  | a :: b :: s, _ =>
    unfold generate
    match L with
    | 0 => simp
    | 1 => simp [List.range_succ]
    | L + 2 =>
      have : List.range (L + 2 + 1) = 0 :: 1 :: List.range' 2 (L + 1) := by
        rw [List.range_eq_range', List.range'_succ, List.range'_succ]
      rw [this]
      simp only [List.flatMap_cons, if_true, Nat.add_eq_zero_iff, OfNat.ofNat_ne_zero, and_false, if_false]
      rw [if_neg (by omega)]
      simp only [List.cons_append, List.nil_append, Nat.one_ne_zero, if_false]
      congr 2
      apply List.flatMap_congr
      intro wl hwl
      rw [List.mem_range'] at hwl
      obtain ⟨i, -, rfl⟩ := hwl
      rw [if_neg (by omega), if_neg (by omega)]

theorem generate_spec (s : Scenario) (L : Nat) :
    (generate s L).Nodup ∧ ∀ w, w ∈ generate s L ↔ w.length ≤ L ∧ simplify s w = .word w := by
  have hlen : ∀ w : List Nat, w.length ∈ List.range (L + 1) ↔ w.length ≤ L := by
    intro w; rw [List.mem_range]; omega
  match s with
  | [] =>
    refine ⟨by simp [generate], ?_⟩
    intro w
    simp only [generate, List.mem_singleton]
    constructor
    · rintro rfl; simp [simplify]
    · rintro ⟨-, h⟩
      have := (fixed_iff.mp h).1
      cases w with
      | nil => rfl
      | cons o w => simpa [operatorCount] using this o (by simp)
  | [m] =>
    have h := by_length (F := fun wl => partyWords [m] 0 wl) (P := fun w => simplify [m] w = .word w) (List.range (L + 1)) List.nodup_range
      (fun wl _ => by
        have h1 := partyWords_spec (s := [m]) (p := 0) (by simp) wl
        refine ⟨h1.1, fun w => (h1.2 w).trans ⟨fun h => ⟨h.1, h.2.2⟩, fun h => ⟨h.1, ?_, h.2⟩⟩⟩
        intro o ho
        have := partyOf_lt ((fixed_iff.mp h.2).1 o ho)
        simpa using this)
    simp only [hlen] at h
    exact h
  | a :: b :: s =>
    have h := by_length (F := fun wl => if wl = 0 then [[]] else if wl = 1 then
        (List.range (a :: b :: s).length).flatMap fun p => partyWords (a :: b :: s) p 1 else levelWords (a :: b :: s) wl)
      (P := fun w => simplify (a :: b :: s) w = .word w) (List.range (L + 1)) List.nodup_range
      (fun wl _ => by
        by_cases h0 : wl = 0
        · subst h0
          simp only [if_true]
          refine ⟨by simp, fun w => ?_⟩
          rw [List.mem_singleton, List.length_eq_zero_iff]
          constructor
          · rintro rfl; exact ⟨rfl, by simp [simplify]⟩
          · exact fun h => h.1
        · by_cases h1 : wl = 1
          · subst h1
            simp only [Nat.one_ne_zero, if_false, if_true]
            exact levelOne_spec
          · simp only [h0, h1, if_false]
            exact levelWords_spec (by simp) wl)
    simp only [hlen] at h
    rw [generate_general (by simp)]
    exact h

end Moment.Locality
