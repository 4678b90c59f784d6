import Verif.Proof.CollinsGisin

/-! # Collins-Gisin tensors of locality scenarios: symbols of entries -/

namespace Moment.Gisin
open Moment.Symbols (Table Env)
open Moment.SymbolMatrix
open Moment.Locality (Scenario SameOperator Represents)
open Moment.Probability (locate choice joint gisinChoices gisinDims)
open Moment.C94 (localityParties)

/-- The entry with its symbol, if there is one, else as it is. -/
def upd (c : Env) (t : Table) (e : Entry) : Entry := (e.find c t).getD e

/-- Positions without symbol. -/
def gaps (c : Env) (t : Table) : Nat → List Entry → List Nat
  | _, [] => []
  | k, e :: l => if (e.find c t).isSome then gaps c t (k + 1) l else k :: gaps c t (k + 1) l

theorem search_eq (c : Env) (t : Table) : ∀ (l : List Entry) (k : Nat), search c t k l = (l.map (upd c t), gaps c t k l)
  | [], _ => rfl
  | e :: l, k => by
    unfold search
    rw [search_eq c t l (k + 1)]
    cases h : e.find c t <;> simp [upd, gaps, h]

theorem find_mono {c : Env} (hc : c.aliases = false) {t t' : Table} (h : Extends t t') {e e' : Entry} (hf : e.find c t = some e') :
    e.find c t' = some e' := by
  unfold Entry.find Table.lookup Table.find at hf ⊢
  simp only [hc, Bool.false_eq_true, if_false] at hf ⊢
  cases hk : t.hashes.lookup e.seq.hash with
  | none => simp [hk] at hf
  | some k =>
    rw [h.hashes _ _ hk]
    simp only [hk, Option.map_some, Option.bind_some] at hf ⊢
    cases hs : t.syms[k.natAbs]? with
    | none => simp [hs] at hf
    | some s =>
      rw [SymbolMatrix.get_prefix h.syms hs]
      simpa [hs] using hf

theorem find_seq {c : Env} {t : Table} {e e' : Entry} (hf : e.find c t = some e') : e'.seq = e.seq := by
  unfold Entry.find at hf
  simp only [Option.map_eq_some_iff] at hf
  obtain ⟨_, -, rfl⟩ := hf
  rfl

/-- Filling gaps after the table has grown gives what a new search would give. -/
theorem fillLoop_eq {c : Env} (hc : c.aliases = false) {t t' : Table} (h : Extends t t') : ∀ (l p : List Entry),
    fillLoop c t' (p ++ l.map (upd c t)) (gaps c t p.length l) = (p ++ l.map (upd c t'), gaps c t' p.length l)
  | [], p => by simp [fillLoop, gaps]
  | e :: l, p => by
    cases hf : e.find c t with
    | some e' =>
      have hf' := find_mono hc h hf
      have ih := fillLoop_eq hc h l (p ++ [e'])
      simp only [List.append_assoc, List.singleton_append, List.length_append, List.length_singleton] at ih
      simpa [gaps, hf, hf', upd] using ih
    | none =>
      have hget : (p ++ (e :: l).map (upd c t))[p.length]? = some e := by simp [upd, hf]
      cases hf' : e.find c t' with
      | some e' =>
        have ih := fillLoop_eq hc h l (p ++ [e'])
        simp only [List.append_assoc, List.singleton_append, List.length_append, List.length_singleton] at ih
        rw [gaps]
        simp only [hf, Option.isSome_none, Bool.false_eq_true, if_false]
        unfold fillLoop
        rw [hget, Option.bind_some, hf']
        simpa [gaps, hf, hf', upd] using ih
      | none =>
        have ih := fillLoop_eq hc h l (p ++ [e])
        simp only [List.append_assoc, List.singleton_append, List.length_append, List.length_singleton] at ih
        rw [gaps]
        simp only [hf, Option.isSome_none, Bool.false_eq_true, if_false]
        unfold fillLoop
        rw [hget, Option.bind_some, hf']
        have e1 : (e :: l).map (upd c t) = e :: l.map (upd c t) := by simp [upd, hf]
        dsimp only
        rw [e1, ih]
        simp [gaps, hf', upd]

theorem gaps_nil_iff (c : Env) (t : Table) : ∀ (l : List Entry) (k : Nat), gaps c t k l = [] ↔ ∀ e ∈ l, (e.find c t).isSome
  | [], _ => by simp [gaps]
  | e :: l, k => by
    unfold gaps
    split
    · rename_i h
      rw [gaps_nil_iff c t l (k + 1)]
      simp [h]
    · rename_i h
      simp [h]

theorem mem_gaps (c : Env) (t : Table) : ∀ (l : List Entry) (k i : Nat), i ∈ gaps c t k l ↔ ∃ j e, i = k + j ∧ l[j]? = some e ∧ e.find c t = none
  | [], _, _ => by simp [gaps]
  | e :: l, k, i => by
    have ih := mem_gaps c t l (k + 1) i
    have key : (∃ j e', i = k + j ∧ (e :: l)[j]? = some e' ∧ e'.find c t = none) ↔
        (i = k ∧ e.find c t = none) ∨ ∃ j e', i = k + 1 + j ∧ l[j]? = some e' ∧ e'.find c t = none := by
      constructor
      · rintro ⟨j, e', h1, h2, h3⟩
        cases j with
        | zero =>
          simp only [List.getElem?_cons_zero, Option.some.injEq] at h2
          exact Or.inl ⟨h1, h2 ▸ h3⟩
        | succ j => exact Or.inr ⟨j, e', by omega, by simpa using h2, h3⟩
      · rintro (⟨h1, h2⟩ | ⟨j, e', h1, h2, h3⟩)
        · exact ⟨0, e, h1, rfl, h2⟩
        · exact ⟨j + 1, e', by omega, by simpa using h2, h3⟩
    rw [key, ← ih, show gaps c t k (e :: l) = if (e.find c t).isSome then gaps c t (k + 1) l else k :: gaps c t (k + 1) l from rfl]
    cases hf : e.find c t <;> simp

theorem indices_eq {dims : List Nat} (hne : dims ≠ []) : indices dims = (List.range dims.prod).map (MultiDim.nth true dims) := by
  unfold indices
  rw [Locality.collect_eq (MultiDim.run_first true dims hne), List.map_map]
  rfl

/-- What a tensor can be: made for some table, which has grown since. -/
inductive Reach (s : Scenario) : Table → Tensor → Prop
  | new {t T} : construct s t = some T → Reach s t T
  | grow {t t' T} : Reach s t T → Extends t t' → Reach s t' T
  | fill {t T} : Reach s t T → Reach s t (T.fill (Locality.env s) t).1

/-- Refreshing a tensor gives the tensor that would be made anew. -/
theorem fill_construct {s : Scenario} {t t' : Table} (h : Extends t t') {T : Tensor} (hT : construct s t = some T) :
    ∃ T', construct s t' = some T' ∧ T.fill (Locality.env s) t' = (T', T'.hasAllSymbols) := by
  unfold construct at hT ⊢
  dsimp only at hT ⊢
  split at hT
  · rename_i hv
    rw [if_pos hv]
    rw [Option.some.injEq] at hT
    subst hT
    exact ⟨_, rfl, rfl⟩
  · rename_i hv
    rw [if_neg hv]
    rw [Option.map_eq_some_iff] at hT
    obtain ⟨ws, hw, rfl⟩ := hT
    rw [hw]
    refine ⟨_, rfl, ?_⟩
    have hfill := fillLoop_eq (c := Locality.env s) rfl h (ws.map Entry.blank) []
    simp only [List.nil_append, List.length_nil] at hfill
    simp only [search_eq]
    unfold Tensor.fill Tensor.hasAllSymbols
    simp only [Bool.false_eq_true, if_false]
    by_cases hg : gaps (Locality.env s) t 0 (ws.map Entry.blank) = []
    · rw [hg] at hfill ⊢
      simp only [List.isEmpty_nil, if_true]
      unfold fillLoop at hfill
      rw [Prod.mk.injEq] at hfill
      rw [← hfill.1, ← hfill.2]
      rfl
    · rw [if_neg (by simpa using hg), hfill]

theorem Reach.made {s : Scenario} {t : Table} {T : Tensor} (h : Reach s t T) : ∃ t0, Extends t0 t ∧ construct s t0 = some T := by
  induction h with
  | new h => exact ⟨_, .refl _, h⟩
  | grow _ he ih =>
    obtain ⟨t0, h1, h2⟩ := ih
    exact ⟨t0, h1.trans he, h2⟩
  | fill _ ih =>
    obtain ⟨t0, h1, h2⟩ := ih
    obtain ⟨T', h3, h4⟩ := fill_construct h1 h2
    exact ⟨_, .refl _, by rw [h4]; exact h3⟩

theorem dims_eq (s : Scenario) : Probability.localityGisinDims s = gisinDims (localityParties s) := by
  unfold Probability.localityGisinDims gisinDims localityParties
  rw [List.map_map, List.map_map]
  refine List.map_congr_left fun mmts _ => ?_
  simp only [Function.comp_def]
  rw [stored_locality]
  rfl

theorem mapM_get {α β : Type} {f : α → Option β} : ∀ {l : List α} {r : List β}, l.mapM f = some r → r.length = l.length ∧
    ∀ (i : Nat) a, l[i]? = some a → ∃ b, f a = some b ∧ r[i]? = some b := by
  intro l
  induction l with
  | nil => intro r h; simp at h; subst h; simp
  | cons a l ih =>
    intro r h
    simp only [List.mapM_cons, Option.bind_eq_bind, Option.bind_eq_some_iff, Option.pure_def, Option.some.injEq] at h
    obtain ⟨b, h1, r', h2, rfl⟩ := h
    obtain ⟨h3, h4⟩ := ih h2
    refine ⟨by simp [h3], fun i x hx => ?_⟩
    cases i with
    | zero =>
      simp only [List.getElem?_cons_zero, Option.some.injEq] at hx
      exact ⟨b, hx ▸ h1, rfl⟩
    | succ i => simpa using h4 i x (by simpa using hx)

theorem mapM_some' {α β : Type} {f : α → Option β} : ∀ {l : List α}, (∀ a ∈ l, (f a).isSome) → ∃ r, l.mapM f = some r
  | [], _ => ⟨[], rfl⟩
  | a :: l, h => by
    obtain ⟨b, hb⟩ := Option.isSome_iff_exists.mp (h a (by simp))
    obtain ⟨r, hr⟩ := mapM_some' (l := l) fun x hx => h x (by simp [hx])
    exact ⟨b :: r, by simp [List.mapM_cons, hb, hr]⟩

theorem nth_dims {s : Scenario} {k : Nat} (hk : k < (Probability.localityGisinDims s).prod) :
    List.Forall₂ (· < ·) (MultiDim.nth true (Probability.localityGisinDims s) k) (gisinDims (localityParties s)) := by
  rw [← dims_eq]
  exact (MultiDim.nth_mem true _ _).mp ⟨k, hk, rfl⟩

/-- The constructor does not fail. -/
theorem construct_some {s : Scenario} {L : Nat} (h : Locality.Room s L) (hL : s.length ≤ L) (t : Table) : ∃ T, construct s t = some T := by
  unfold construct
  dsimp only
  split
  · exact ⟨_, rfl⟩
  · by_cases hne : Probability.localityGisinDims s = []
    · have : s = [] := by simpa [Probability.localityGisinDims] using hne
      subst this
      have : indices [] = [] := by
        unfold indices
        rw [Locality.collect_eq (C29.C29_no_dimensions true)]
        rfl
      refine ⟨⟨false, [], []⟩, ?_⟩
      simp [Probability.localityGisinDims, this, search]
    · rw [indices_eq hne]
      obtain ⟨r, hr⟩ := mapM_some' (f := word s) (l := (List.range (Probability.localityGisinDims s).prod).map (MultiDim.nth true (Probability.localityGisinDims s))) (by
        intro idx hi
        obtain ⟨k, hk, rfl⟩ := List.mem_map.mp hi
        rw [(word_spec h hL (nth_dims (List.mem_range.mp hk))).1]
        rfl)
      rw [hr]
      exact ⟨_, rfl⟩

/-- The entry that a table gives for a word. -/
theorem find_blank {s : Scenario} {L : Nat} (h : Locality.Room s L) {t : Table} (ht : Ready (Locality.host s) (Locality.IsSeq s L) t) {u : List Locality.Op}
    (hu : C98.Word s L u) (hr : SameOperator (some u.reverse) (some u)) {e : Entry} (he : (Entry.blank (C98.stored s u)).find (Locality.env s) t = some e) :
    ∃ j sym, e.id = some j ∧ t.syms[j]? = some sym ∧ sym.id = j ∧ sym.seq = some (C98.stored s u) ∧ e.re = sym.re ∧ e.aliased = false ∧
      e.seq = C98.stored s u := by
  have hfit := ht.fit (Locality.setting s L h)
  have hW := Locality.words s L h
  have hw := C98.stored_seq hu
  unfold Entry.find Table.lookup Table.find at he
  simp only [show (Locality.env s).aliases = false from rfl, Bool.false_eq_true, if_false, Entry.blank] at he
  cases hk : t.hashes.lookup (C98.stored s u).hash with
  | none => simp [hk] at he
  | some k =>
    obtain ⟨q, cq, h1, hq, hp, hn⟩ := hfit.inv.sound _ _ hk
    unfold Table.keys at h1
    rw [List.getElem?_map, Option.map_eq_some_iff] at h1
    obtain ⟨sym, hs, hs'⟩ := h1
    simp only [Symbols.Sym.key, Prod.mk.injEq] at hs'
    obtain ⟨hid, hseq, -⟩ := hs'
    simp only [hk, Option.map_some, Option.bind_some, hs, Option.some.injEq] at he
    subst he
    have hk0 : 0 ≤ k := by
      by_contra hc
      obtain ⟨e1, e2⟩ := hn (by omega)
      have e3 := hW.hash _ _ (hW.conj _ hq) hw e1
      rw [hW.twice q hq, C98.conj_stored h hu, C98.stored_same hr] at e3
      exact e2 e3
    have hh := hp hk0
    have hsign : q.sign = .pos := hfit.plain sym (List.mem_of_getElem? hs) q hseq
    have heq : q = C98.stored s u := by
      have hs2 := C98.stored_sign s u
      rcases hq with ⟨a1, a2⟩ | ⟨a1, a2, a3⟩ <;> rcases hw with ⟨b1, b2⟩ | ⟨b1, b2, b3⟩
      · cases q; cases hst : C98.stored s u; simp_all
      · exact absurd (b1 ▸ hh ▸ a1) (h.ne b2.lt b3)
      · exact absurd (a1 ▸ hh.symm ▸ b1) (h.ne a2.lt a3)
      · have := h.inj a2.lt b2.lt a3 b3 (by rw [← a1, ← b1, hh])
        cases q; cases hst : C98.stored s u; simp_all
    exact ⟨sym.id, sym, rfl, by rw [hid]; exact hs, rfl, by rw [hseq, heq], rfl, rfl, rfl⟩

/-- Words that are found. -/
theorem find_known {s : Scenario} {L : Nat} (h : Locality.Room s L) {t : Table} (ht : Ready (Locality.host s) (Locality.IsSeq s L) t) {w : HSeq}
    (hk : (t.hashes.lookup w.hash).isSome) : ((Entry.blank w).find (Locality.env s) t).isSome := by
  obtain ⟨k, hk⟩ := Option.isSome_iff_exists.mp hk
  obtain ⟨q, cq, h1, -⟩ := (ht.fit (Locality.setting s L h)).inv.sound _ _ hk
  unfold Table.keys at h1
  rw [List.getElem?_map, Option.map_eq_some_iff] at h1
  obtain ⟨sym, hs, -⟩ := h1
  unfold Entry.find Table.lookup Table.find
  simp [Entry.blank, hk, hs]

end Moment.Gisin
