import Verif.Model.InflationTensor
import Verif.Spec.InflationTensor
import Verif.Proof.InflationContext
import Verif.Proof.GisinSymbols
import Verif.Proof.GisinRange
import Verif.Props.C94_Probability

/-! # Tensors of inflation scenarios -/

namespace Moment.Inflation
open Moment.Symbols (Table Env)
open Moment.SymbolMatrix
open Moment.Gisin (Entry Slot upd)

variable {n : Causal} {c : Ctx} {L : Nat}

/-! ## Copies of observables -/

/-- The copies of the observables, in the order of the dimensions. -/
def copies (n : Causal) (c : Ctx) : List Copy := (variants c).map fun x => ⟨x.1, unflattenIndex c.infl (n.sourcesOf x.1).length x.2⟩

theorem variants_mem {o v : Nat} : (o, v) ∈ variants c ↔ ∃ ob, c.net.observables[o]? = some ob ∧ v < ob.copies c.infl := by
  unfold variants
  simp only [List.mem_flatMap, List.mem_map, List.mem_range, Prod.exists, Prod.mk.injEq, List.mem_zipIdx_iff_getElem?]
  constructor
  · rintro ⟨ob, o', h1, v', h2, rfl, rfl⟩
    exact ⟨ob, h1, h2⟩
  · rintro ⟨ob, h1, h2⟩
    exact ⟨ob, o, h1, v, h2, rfl, rfl⟩

theorem obsAt_some {o : Nat} {ob : Obs} (h : c.net.observables[o]? = some ob) : obsAt c o = ob := by
  rw [obsAt, List.getD_eq_getElem?_getD, h]; rfl

/-- Lists that repeat something for each copy. -/
theorem per_copy {α : Type} (f : Obs → α) :
    (c.net.observables.flatMap fun ob => List.replicate (ob.copies c.infl) (f ob)) = (variants c).map fun x => f (obsAt c x.1) := by
  have h1 : (c.net.observables.flatMap fun ob => List.replicate (ob.copies c.infl) (f ob)) =
      c.net.observables.zipIdx.flatMap fun x => List.replicate (x.1.copies c.infl) (f x.1) := by
    conv_lhs => rw [← List.zipIdx_map_fst 0 c.net.observables]
    rw [List.flatMap_map]
  rw [h1, variants, List.map_flatMap]
  unfold List.flatMap
  congr 1
  refine List.map_congr_left fun x hx => ?_
  obtain ⟨ob, o⟩ := x
  have := obsAt_some (List.mem_zipIdx_iff_getElem?.mp hx)
  dsimp only at this ⊢
  rw [List.map_map]
  refine (List.eq_replicate_iff.mpr ⟨by simp, fun b hb => ?_⟩).symm
  obtain ⟨v, -, rfl⟩ := List.mem_map.mp hb
  simp [this]

theorem outcomes_eq : variantOutcomes c = (variants c).map fun x => (obsAt c x.1).outcomes := per_copy _

theorem dims_eq : gisinDims c = (variants c).map fun x => if (obsAt c x.1).projective then (obsAt c x.1).outcomes else 2 :=
  per_copy fun ob => if ob.projective then ob.outcomes else 2

theorem fullDims_eq : fullDims c = (variants c).map fun x => if (obsAt c x.1).projective then (obsAt c x.1).outcomes + 1 else 2 :=
  per_copy fun ob => if ob.projective then ob.outcomes + 1 else 2

theorem operators_eq (ob : Obs) : ob.operators = if ob.projective then ob.outcomes - 1 else 1 := by
  unfold Obs.operators Obs.projective
  by_cases h : ob.outcomes = 0 <;> simp [h]

theorem gisinSlots_eq : gisinSlots c = ((variants c).map fun x => (obsAt c x.1).operators).zipIdx.map fun x => ⟨x.2, 1, x.1⟩ := by
  unfold gisinSlots
  rw [per_copy fun ob => if ob.projective then ob.outcomes - 1 else 1]
  simp only [operators_eq]

theorem ids_eq : operatorIds c = (variants c).map fun x =>
    none :: (List.range (obsAt c x.1).operators).map fun k => some (variantOffset c x.1 x.2 + k) := by
  rw [operatorIds, variants, List.map_flatMap]
  unfold List.flatMap
  congr 1
  refine List.map_congr_left fun x hx => ?_
  obtain ⟨ob, o⟩ := x
  have := obsAt_some (List.mem_zipIdx_iff_getElem?.mp hx)
  dsimp only at this ⊢
  rw [List.map_map]
  refine List.map_congr_left fun v _ => ?_
  dsimp only [Function.comp]
  rw [this, operators_eq]
  split
  · rfl
  · simp

theorem copy_spec {k v : Nat} (hv : v < c.infl ^ k) : (unflattenIndex c.infl k v).length = k ∧ (∀ d ∈ unflattenIndex c.infl k v, d < c.infl) ∧
    flattenIndex c.infl (unflattenIndex c.infl k v) = v := by
  rcases Nat.eq_zero_or_pos c.infl with h0 | h0
  · cases k with
    | zero =>
      rw [pow_zero] at hv
      have : v = 0 := by omega
      subst this
      simp [unflattenIndex, flattenIndex, flattenIndex.go]
    | succ k => rw [h0] at hv; simp at hv
  · rw [flatten_eq]
    exact unflatten_spec h0 hv

/-- Variants of the network. -/
theorem variant_at (hb : Built n c) {o v : Nat} (h : (o, v) ∈ variants c) : ∃ k, n.outcomes[o]? = some k ∧ (obsAt c o).outcomes = k ∧
    v < c.infl ^ (n.sourcesOf o).length := by
  obtain ⟨ob, h1, h2⟩ := variants_mem.mp h
  obtain ⟨k, h3, rfl⟩ := obs_get_iff hb h1
  exact ⟨k, h3, obsAt_outcomes hb h3, by rw [← obsAt_copies hb h3]; exact h2⟩

theorem copies_nodup (hb : Built n c) : (copies n c).Nodup := by
  have hn : (variants c).Nodup := by
    unfold variants
    rw [List.nodup_flatMap]
    refine ⟨fun x _ => (List.nodup_range).map fun a b h => by simpa using h, ?_⟩
    have hp : (c.net.observables.zipIdx.map Prod.snd).Nodup := by
      rw [List.zipIdx_map_snd]; exact List.nodup_range'
    rw [List.Nodup, List.pairwise_map] at hp
    refine hp.imp fun {a b} h => ?_
    simp only [Function.onFun, List.disjoint_left, List.mem_map, List.mem_range, not_exists, not_and]
    rintro x ⟨v, -, rfl⟩ v' - e
    exact h (by simpa using (congrArg Prod.fst e).symm)
  unfold copies
  refine hn.map_on fun x hx y hy e => ?_
  obtain ⟨o, v⟩ := x
  obtain ⟨o', v'⟩ := y
  simp only [Copy.mk.injEq] at e
  obtain ⟨rfl, e⟩ := e
  obtain ⟨_, -, -, h1⟩ := variant_at hb hx
  obtain ⟨_, -, -, h2⟩ := variant_at hb hy
  rw [← (copy_spec h1).2.2, ← (copy_spec h2).2.2, e]

/-- All copies of all observables are there. -/
theorem copies_mem (hb : Built n c) {x : Copy} : x ∈ copies n c ↔ x.Valid n c.infl := by
  unfold copies
  rw [List.mem_map]
  constructor
  · rintro ⟨⟨o, v⟩, h, rfl⟩
    obtain ⟨k, h1, -, h2⟩ := variant_at hb h
    obtain ⟨h3, h4, -⟩ := copy_spec h2
    exact ⟨(List.getElem?_eq_some_iff.mp h1).1, h3, h4⟩
  · rintro ⟨h1, h2, h3⟩
    have hk := List.getElem?_eq_getElem h1
    refine ⟨(x.obs, flattenIndex c.infl x.at_), variants_mem.mpr ⟨_, obs_get hb hk, ?_⟩, ?_⟩
    · rw [obsAt_copies hb hk, flatten_eq, ← h2]; exact val_lt h3
    · dsimp only
      rw [flatten_eq, ← h2, unflatten_val h3]

/-! ## Words of elements -/

theorem picked_mem : ∀ (xs : List Copy) (is : List Nat), ∀ a ∈ picked xs is, (⟨a.obs, a.copy⟩ : Copy) ∈ xs
  | [], is, a, h => by cases is <;> simp [picked] at h
  | x :: xs, [], a, h => by simp [picked] at h
  | x :: xs, 0 :: is, a, h => List.mem_cons_of_mem _ (picked_mem xs is a (by simpa [picked] using h))
  | x :: xs, (k + 1) :: is, a, h => by
    simp only [picked, List.mem_cons] at h
    rcases h with rfl | h
    · exact List.mem_cons_self
    · exact List.mem_cons_of_mem _ (picked_mem xs is a h)

theorem picked_length : ∀ (xs : List Copy) (is : List Nat), (picked xs is).length ≤ xs.length
  | [], is => by cases is <;> simp [picked]
  | x :: xs, [] => by simp [picked]
  | x :: xs, 0 :: is => by have := picked_length xs is; simp only [picked, List.length_cons]; omega
  | x :: xs, (k + 1) :: is => by have := picked_length xs is; simp only [picked, List.length_cons]; omega

theorem picked_apart : ∀ (xs : List Copy) (is : List Nat), xs.Nodup → ∀ a ∈ picked xs is, ∀ b ∈ picked xs is, ¬ Exclusive a b
  | [], is, _, a, h, _, _ => by cases is <;> simp [picked] at h
  | x :: xs, [], _, a, h, _, _ => by simp [picked] at h
  | x :: xs, 0 :: is, hn, a, ha, b, hb => picked_apart xs is (List.nodup_cons.mp hn).2 a (by simpa [picked] using ha) b (by simpa [picked] using hb)
  | x :: xs, (k + 1) :: is, hn, a, ha, b, hb => by
    obtain ⟨h1, h2⟩ := List.nodup_cons.mp hn
    simp only [picked, List.mem_cons] at ha hb
    rintro ⟨e1, e2, e3⟩
    rcases ha with rfl | ha <;> rcases hb with rfl | hb
    · exact e3 rfl
    · have := picked_mem xs is b hb
      rw [← e1, ← e2] at this
      exact h1 this
    · have := picked_mem xs is a ha
      rw [e1, e2] at this
      exact h1 this
    · exact picked_apart xs is h2 a ha b hb ⟨e1, e2, e3⟩

/-- The index names an element of the Collins-Gisin tensor. -/
abbrev Valid (c : Ctx) (idx : List Nat) : Prop := List.Forall₂ (· < ·) idx (gisinDims c)

/-- The operators that an index stands for. -/
abbrev product (n : Causal) (c : Ctx) (idx : List Nat) : List Op := picked (copies n c) idx

theorem operators_spec (hb : Built n c) : ∀ (vs : List (Nat × Nat)), (∀ x ∈ vs, x ∈ variants c) → ∀ idx,
    List.Forall₂ (· < ·) idx (vs.map fun x => if (obsAt c x.1).projective then (obsAt c x.1).outcomes else 2) →
    Gisin.operators (vs.map fun x => none :: (List.range (obsAt c x.1).operators).map fun k => some (variantOffset c x.1 x.2 + k)) idx =
        some ((picked (vs.map fun x => ⟨x.1, unflattenIndex c.infl (n.sourcesOf x.1).length x.2⟩) idx).map (enc c)) ∧
      ∀ a ∈ picked (vs.map fun x => ⟨x.1, unflattenIndex c.infl (n.sourcesOf x.1).length x.2⟩) idx, Exists n c.infl a
  | [], _, idx, h => by
    cases h
    exact ⟨rfl, by simp [picked]⟩
  | x :: vs, hv, idx, h => by
    rw [List.map_cons] at h
    cases h with
    | cons hi h =>
    rename_i i idx
    obtain ⟨h1, h2⟩ := operators_spec hb vs (fun y hy => hv y (List.mem_cons_of_mem _ hy)) idx h
    cases i with
    | zero => exact ⟨h1, h2⟩
    | succ k =>
      obtain ⟨o, v⟩ := x
      obtain ⟨m, g1, g2, g3⟩ := variant_at hb (hv _ List.mem_cons_self)
      obtain ⟨u1, u2, u3⟩ := copy_spec g3
      have hk : k < (obsAt c o).operators := by
        rw [operators_eq]
        dsimp only at hi
        split at hi <;> rename_i hp
        · rw [if_pos hp]; omega
        · rw [if_neg hp]; omega
      have hE : Exists n c.infl ⟨o, unflattenIndex c.infl (n.sourcesOf o).length v, k⟩ := by
        refine ⟨m, g1, u1, u2, ?_⟩
        rw [Obs.operators, g2] at hk
        by_cases h0 : m = 0
        · rw [if_pos h0]; simp [h0] at hk; exact hk
        · rw [if_neg h0]; rw [if_pos h0] at hk; show k + 1 < m; omega
      simp only [List.map_cons, picked]
      refine ⟨?_, ?_⟩
      · unfold Gisin.operators
        rw [h1, List.getElem?_cons_succ, List.getElem?_map, List.getElem?_range hk]
        simp only [Option.map_some, Option.join_some, Option.bind_some, Option.some.injEq, List.cons.injEq, and_true]
        show variantOffset c o v + k = operatorNumber c o (flattenIndex c.infl (unflattenIndex c.infl (n.sourcesOf o).length v)) k
        rw [u3]; rfl
      · intro a ha
        rcases List.mem_cons.mp ha with rfl | ha
        · exact hE
        · exact h2 a ha

theorem word_spec (hb : Built n c) (h : Room c L) (hL : (variants c).length ≤ L) {idx : List Nat} (hx : Valid c idx) :
    gisinWord c idx = some (stored n c (product n c idx)) ∧ Word n c L (product n c idx) := by
  unfold Valid at hx
  rw [dims_eq] at hx
  obtain ⟨h1, h2⟩ := operators_spec hb (variants c) (fun _ h => h) idx hx
  have hW : Word n c L (product n c idx) := ⟨h2, (picked_length _ _).trans (by unfold copies; rw [List.length_map]; exact hL)⟩
  refine ⟨?_, hW⟩
  unfold gisinWord
  rw [ids_eq, h1, Option.map_some]
  exact congrArg some (construct_stored hb h hW _)

theorem apart_nonzero (hb : Built n c) {u : List Op} (hu : ∀ a ∈ u, Exists n c.infl a) (hx : ∀ a ∈ u, ∀ b ∈ u, ¬ Exclusive a b) :
    ¬ SameOperator n (some u) none := by
  rw [← nf_zero_iff hb hu]
  unfold nf
  dsimp only
  split
  · rename_i hn
    obtain ⟨a, ha, b, hb', he⟩ := (neighbours_iff hb (fun a ha => hu a (mem_stableSort.mp ha)) (stableSort_sorted _ _)).mp hn
    exact absurd he (hx a (mem_stableSort.mp ha) b (mem_stableSort.mp hb'))
  · simp

theorem product_nonzero (hb : Built n c) {idx : List Nat} (hu : ∀ a ∈ product n c idx, Exists n c.infl a) : ¬ SameOperator n (some (product n c idx)) none :=
  apart_nonzero hb hu (picked_apart _ _ (copies_nodup hb))

theorem relabel_nonzero (hb : Built n c) {idx : List Nat} (hu : ∀ a ∈ product n c idx, Exists n c.infl a) {σ : Nat → Nat → Nat} (hσ : Relabelling c.infl σ) :
    ¬ SameOperator n (some ((product n c idx).map (relabel n σ))) none := by
  have hi := relabelling_injOn hσ hu
  refine apart_nonzero hb (fun a ha => ?_) fun a ha b hb' => ?_
  · obtain ⟨x, hx, rfl⟩ := List.mem_map.mp ha
    have := hu x hx
    exact exists_relabel this fun s v hf => (hσ s).mapsTo (fedBy_lt this hf).2
  · obtain ⟨x, hx, rfl⟩ := List.mem_map.mp ha
    obtain ⟨y, hy, rfl⟩ := List.mem_map.mp hb'
    rw [relabel_exclusive hu hi hx hy]
    exact picked_apart _ _ (copies_nodup hb) x hx y hy

/-! ## Symbols of elements -/

/-- The symbol of the entry has the word, or its canonical moment. -/
structure Found (c : Ctx) (t : Table) (w : HSeq) (e : Entry) : Prop where
  seq : e.seq = w
  symbol : ∃ j sym q, e.id = some j ∧ t.syms[j]? = some sym ∧ sym.id = j ∧ sym.seq = some q ∧ e.re = sym.re ∧
    (e.aliased = false ∧ q = w ∨ e.aliased = true ∧ (env c).aliases = true ∧ q = shown c w)

theorem Found.mono {t t' : Table} {w : HSeq} {e : Entry} (h : Found c t w e) (he : Extends t t') : Found c t' w e := by
  obtain ⟨j, sym, q, h1, h2, h3⟩ := h.symbol
  exact ⟨h.seq, j, sym, q, h1, get_prefix he.syms h2, h3⟩

theorem known_word (hb : Built n c) (h : Room c L) {t : Table} (ht : Ready (host c) (IsSeq c L) t) {u : List Op} (hu : Word n c L u) {k : Int}
    (hk : t.hashes.lookup (stored n c u).hash = some k) :
    ∃ sym, t.syms[k.natAbs]? = some sym ∧ sym.id = k.natAbs ∧ sym.seq = some (stored n c u) := by
  have hfit := ht.fit (setting hb h)
  have hW := words hb h
  have hw := stored_seq hb hu
  obtain ⟨q, cq, h1, hq, hp, hn⟩ := hfit.inv.sound _ _ hk
  unfold Table.keys at h1
  rw [List.getElem?_map, Option.map_eq_some_iff] at h1
  obtain ⟨sym, hs, hs'⟩ := h1
  simp only [Symbols.Sym.key, Prod.mk.injEq] at hs'
  obtain ⟨hid, hseq, -⟩ := hs'
  have hk0 : 0 ≤ k := by
    by_contra hc
    obtain ⟨e1, e2⟩ := hn (by omega)
    have e3 := hW.hash _ _ (hW.conj _ hq) hw e1
    rw [hW.twice q hq, conj_stored hb h hu] at e3
    exact e2 e3
  have hh := hp hk0
  have hsign : q.sign = .pos := hfit.plain sym (List.mem_of_getElem? hs) q hseq
  have heq : q = stored n c u := by
    have hs2 := stored_sign (n := n) (c := c) u
    rcases hq with ⟨a1, a2⟩ | ⟨a1, a2, a3⟩ <;> rcases hw with ⟨b1, b2⟩ | ⟨b1, b2, b3⟩
    · cases q; cases hst : stored n c u; simp_all
    · exact absurd (b1 ▸ hh ▸ a1) (h.ne b2.1 b3)
    · exact absurd (a1 ▸ hh.symm ▸ b1) (h.ne a2.1 a3)
    · have := h.inj a2.1 b2.1 a3 b3 (by rw [← a1, ← b1, hh])
      cases q; cases hst : stored n c u; simp_all
  exact ⟨sym, hs, hid, by rw [hseq, heq]⟩

/-- The table has a symbol for the word, or for its canonical moment. -/
def Present (c : Ctx) (t : Table) (w : HSeq) : Prop :=
  ∃ (j : Nat) (sym : Symbols.Sym), t.syms[j]? = some sym ∧ (sym.seq = some w ∨ sym.seq = some (shown c w))

theorem find_blank (hb : Built n c) (h : Room c L) {t : Table} (ht : Ready (host c) (IsSeq c L) t) {u : List Op} (hu : Word n c L u) {e : Entry}
    (he : (Entry.blank (stored n c u)).find (env c) t = some e) : Found c t (stored n c u) e := by
  unfold Entry.find Table.lookup Table.find at he
  simp only [Entry.blank] at he
  cases hk : t.hashes.lookup (stored n c u).hash with
  | some k =>
    obtain ⟨sym, h1, h2, h3⟩ := known_word hb h ht hu hk
    simp only [hk, Option.map_some, Option.bind_some, h1, Option.some.injEq] at he
    subst he
    exact ⟨rfl, sym.id, sym, _, rfl, h2 ▸ h1, rfl, h3, rfl, .inl ⟨rfl, rfl⟩⟩
  | none =>
    simp only [hk, Option.map_none] at he
    by_cases hal : (env c).aliases = true
    · have hsh : (env c).simp (stored n c u) = shown c (stored n c u) := (if_pos hal).symm
      obtain ⟨σ, v, -, g1, -, g2, -⟩ := shown_stored hb h hu
      simp only [hal, if_true, hsh, g2] at he
      by_cases hne : (stored n c v).hash != (stored n c u).hash
      · simp only [hne, if_true] at he
        cases hk' : t.hashes.lookup (stored n c v).hash with
        | none => simp [hk'] at he
        | some k =>
          obtain ⟨sym, h1, h2, h3⟩ := known_word hb h ht g1 hk'
          simp only [hk', Option.map_some, Option.bind_some, h1, Option.some.injEq] at he
          subst he
          exact ⟨rfl, sym.id, sym, _, rfl, h2 ▸ h1, rfl, h3, rfl, .inr ⟨rfl, hal, g2.symm⟩⟩
      · simp [hne] at he
    · simp [hal] at he

/-- Words that are found. -/
theorem find_known (hb : Built n c) (h : Room c L) {t : Table} (ht : Ready (host c) (IsSeq c L) t) {u : List Op} (hu : Word n c L u)
    (hk : (t.hashes.lookup (stored n c u).hash).isSome ∨ (t.hashes.lookup (shown c (stored n c u)).hash).isSome) :
    ((Entry.blank (stored n c u)).find (env c) t).isSome := by
  unfold Entry.find Table.lookup Table.find
  simp only [Entry.blank]
  cases hd : t.hashes.lookup (stored n c u).hash with
  | some k =>
    obtain ⟨sym, h1, -⟩ := known_word hb h ht hu hd
    simp [h1]
  | none =>
    rw [hd] at hk
    simp only [Option.isSome_none, Bool.false_eq_true, false_or] at hk
    have hal : (env c).aliases = true := by
      by_contra hal
      unfold shown at hk
      rw [if_neg hal, hd] at hk
      simp at hk
    have hsh : (env c).simp (stored n c u) = shown c (stored n c u) := (if_pos hal).symm
    obtain ⟨σ, v, -, g1, -, g2, -⟩ := shown_stored hb h hu
    rw [g2] at hk hsh
    obtain ⟨k, hk⟩ := Option.isSome_iff_exists.mp hk
    obtain ⟨sym, h1, -⟩ := known_word hb h ht g1 hk
    have hne : (stored n c v).hash != (stored n c u).hash := by
      simp only [bne_iff_ne, ne_eq]
      intro e
      rw [e, hd] at hk
      simp at hk
    simp [hal, hsh, hne, hk, h1]

theorem found_iff (hb : Built n c) (h : Room c L) {t : Table} (ht : Ready (host c) (IsSeq c L) t) {u : List Op} (hu : Word n c L u) :
    ((Entry.blank (stored n c u)).find (env c) t).isSome ↔ Present c t (stored n c u) := by
  constructor
  · intro hf
    obtain ⟨e, he⟩ := Option.isSome_iff_exists.mp hf
    obtain ⟨j, sym, q, -, h1, -, h2, -, h3⟩ := (find_blank hb h ht hu he).symbol
    refine ⟨j, sym, h1, ?_⟩
    rcases h3 with ⟨-, rfl⟩ | ⟨-, -, rfl⟩
    · exact .inl h2
    · exact .inr h2
  · rintro ⟨j, sym, h1, h2⟩
    apply find_known hb h ht hu
    have hfit := ht.fit (setting hb h)
    have key : ∀ w, sym.seq = some w → (t.hashes.lookup w.hash).isSome := by
      intro w hw
      obtain ⟨-, h3, -⟩ := hfit.inv.full j w sym.conj (by
        unfold Table.keys
        rw [List.getElem?_map, h1, Option.map_some]
        have : sym.id = j := by
          have := hfit.inv.ids j
          unfold Table.keys at this
          simp only [List.getElem?_map, h1, Option.map_some] at this
          simpa [Symbols.Sym.key] using this
        simp [Symbols.Sym.key, hw, this])
      rw [h3]; rfl
    exact h2.imp (key _) (key _)

/-! ## Tensors -/

/-- What a tensor can be: made for some table, which has grown since. -/
inductive Reach (c : Ctx) (L : Nat) : Table → Gisin.Tensor → Prop
  | new {t T} : Ready (host c) (IsSeq c L) t → makeGisin c t = some T → Reach c L t T
  | grow {t t' T} : Reach c L t T → Extends t t' → Ready (host c) (IsSeq c L) t' → Reach c L t' T
  | fill {t T} : Reach c L t T → Reach c L t (T.fill (env c) t).1

theorem Reach.ready {t : Table} {T : Gisin.Tensor} (h : Reach c L t T) : Ready (host c) (IsSeq c L) t := by
  induction h with
  | new h _ => exact h
  | grow _ _ h _ => exact h
  | fill _ ih => exact ih

theorem fillLoop_spec (e : Env) (t : Table) : ∀ (ks : List Nat) (d : List Entry), ks.Nodup →
    (Gisin.fillLoop e t d ks).1.length = d.length ∧
    (∀ k, (Gisin.fillLoop e t d ks).1[k]? = if k ∈ ks then (d[k]?).map (upd e t) else d[k]?) ∧
    (Gisin.fillLoop e t d ks).2 = ks.filter fun k => ((d[k]?).bind (Entry.find e t)).isNone
  | [], d, _ => ⟨rfl, fun k => by simp [Gisin.fillLoop], rfl⟩
  | k :: ks, d, hn => by
    obtain ⟨h1, h2⟩ := List.nodup_cons.mp hn
    unfold Gisin.fillLoop
    cases hf : (d[k]?).bind (Entry.find e t) with
    | some x =>
      obtain ⟨g1, g2, g3⟩ := fillLoop_spec e t ks (d.set k x) h2
      obtain ⟨y, hy, hx⟩ := Option.bind_eq_some_iff.mp hf
      have hlt := (List.getElem?_eq_some_iff.mp hy).1
      refine ⟨by simpa using g1, fun j => ?_, ?_⟩
      · rw [g2]
        by_cases hj : j = k
        · subst hj
          rw [if_neg h1, if_pos List.mem_cons_self, List.getElem?_set_self hlt, hy]
          simp [upd, hx]
        · rw [List.getElem?_set_ne (Ne.symm hj)]
          simp [hj]
      · rw [g3, List.filter_cons, hf]
        simp only [Option.isNone_some, Bool.false_eq_true, if_false]
        refine List.filter_congr fun j hj => ?_
        rw [List.getElem?_set_ne (by rintro rfl; exact h1 hj)]
    | none =>
      obtain ⟨g1, g2, g3⟩ := fillLoop_spec e t ks d h2
      refine ⟨g1, fun j => ?_, ?_⟩
      · dsimp only
        rw [g2]
        by_cases hj : j = k
        · subst hj
          rw [if_neg h1, if_pos List.mem_cons_self]
          cases hy : d[j]? with
          | none => rfl
          | some y =>
            rw [hy, Option.bind_some] at hf
            simp [upd, hf]
        · simp [hj]
      · dsimp only
        rw [g3, List.filter_cons, hf]
        rfl

theorem gaps_nodup (e : Env) (t : Table) : ∀ (l : List Entry) (k : Nat), (Gisin.gaps e t k l).Nodup ∧ ∀ i ∈ Gisin.gaps e t k l, k ≤ i
  | [], _ => by simp [Gisin.gaps]
  | x :: l, k => by
    obtain ⟨h1, h2⟩ := gaps_nodup e t l (k + 1)
    unfold Gisin.gaps
    split
    · exact ⟨h1, fun i hi => by have := h2 i hi; omega⟩
    · refine ⟨List.nodup_cons.mpr ⟨fun h => by have := h2 k h; omega, h1⟩, fun i hi => ?_⟩
      rcases List.mem_cons.mp hi with rfl | hi
      · exact Nat.le_refl _
      · have := h2 i hi; omega

/-- The state of a tensor that stores its elements. -/
structure Shape (c : Ctx) (t : Table) (T : Gisin.Tensor) (ws : List HSeq) : Prop where
  words : (Gisin.indices (gisinDims c)).mapM (gisinWord c) = some ws
  nodup : T.missing.Nodup
  entry : ∀ (k : Nat) w, ws[k]? = some w → ∃ e, T.data[k]? = some e ∧ if k ∈ T.missing then e = Entry.blank w else Found c t w e
  inside : ∀ k ∈ T.missing, k < ws.length

theorem valid_nth {idx : List Nat} (hx : Valid c idx) : ∃ k < (gisinDims c).prod, MultiDim.nth true (gisinDims c) k = idx ∧
    Probability.position (gisinDims c) idx = k := by
  obtain ⟨k, hk, rfl⟩ := (MultiDim.nth_mem true (gisinDims c) idx).mpr hx
  exact ⟨k, hk, rfl, by rw [← Probability.offset_eq hx.length_eq, Tensor.rank_nth true _ _ hk]⟩

/-- Words are those of indices. -/
theorem words_get (hne : gisinDims c ≠ []) {ws : List HSeq} (h : (Gisin.indices (gisinDims c)).mapM (gisinWord c) = some ws) :
    ws.length = (gisinDims c).prod ∧ ∀ k < (gisinDims c).prod, ∃ w, gisinWord c (MultiDim.nth true (gisinDims c) k) = some w ∧ ws[k]? = some w := by
  rw [Gisin.indices_eq hne] at h
  obtain ⟨h1, h2⟩ := Gisin.mapM_get h
  exact ⟨by simpa using h1, fun k hk => h2 k _ (by rw [List.getElem?_map, List.getElem?_range hk]; rfl)⟩

theorem words_stored (hb : Built n c) (h : Room c L) (hL : (variants c).length ≤ L) (hne : gisinDims c ≠ []) {ws : List HSeq}
    (hw : (Gisin.indices (gisinDims c)).mapM (gisinWord c) = some ws) {k : Nat} {w : HSeq} (hk : ws[k]? = some w) :
    Valid c (MultiDim.nth true (gisinDims c) k) ∧ w = stored n c (product n c (MultiDim.nth true (gisinDims c) k)) ∧
      Word n c L (product n c (MultiDim.nth true (gisinDims c) k)) := by
  obtain ⟨h1, h2⟩ := words_get hne hw
  have hlt := (List.getElem?_eq_some_iff.mp hk).1
  rw [h1] at hlt
  have hx : Valid c (MultiDim.nth true (gisinDims c) k) := (MultiDim.nth_mem true _ _).mp ⟨k, hlt, rfl⟩
  obtain ⟨w', g1, g2⟩ := h2 k hlt
  obtain ⟨g3, g4⟩ := word_spec (n := n) hb h hL hx
  rw [hk, Option.some.injEq] at g2
  subst g2
  rw [g3, Option.some.injEq] at g1
  exact ⟨hx, g1.symm, g4⟩

/-- Tensors keep their shape. -/
theorem Reach.shape (hb : Built n c) (h : Room c L) (hL : (variants c).length ≤ L) (hne : gisinDims c ≠ []) {t : Table} {T : Gisin.Tensor} (hT : Reach c L t T) :
    (T.isVirtual = true ↔ Tensor.elementCount (gisinDims c) > 1024) ∧ (T.isVirtual = true → T.data = [] ∧ T.missing = []) ∧
      (T.isVirtual = false → ∃ ws, Shape c t T ws) := by
  induction hT with
  | @new t T ht hT =>
    unfold makeGisin at hT
    split at hT
    · rename_i hv
      rw [Option.some.injEq] at hT
      subst hT
      exact ⟨by simp [hv], fun _ => ⟨rfl, rfl⟩, by simp⟩
    · rename_i hv
      rw [Option.map_eq_some_iff] at hT
      obtain ⟨ws, h1, rfl⟩ := hT
      refine ⟨by simpa using hv, by simp, fun _ => ⟨ws, h1, ?_, ?_, ?_⟩⟩
      · simp only [Gisin.search_eq]; exact (gaps_nodup _ _ _ _).1
      · intro k w hk
        obtain ⟨-, rfl, hW⟩ := words_stored hb h hL hne h1 hk
        simp only [Gisin.search_eq, List.getElem?_map, hk, Option.map_some]
        refine ⟨_, rfl, ?_⟩
        split
        · rename_i hm
          obtain ⟨j, e, rfl, g1, g2⟩ := (Gisin.mem_gaps _ _ _ _ _).mp hm
          rw [Nat.zero_add, List.getElem?_map] at *
          rw [hk, Option.map_some, Option.some.injEq] at g1
          subst g1
          simp [upd, g2]
        · rename_i hm
          cases hf : (Entry.blank (stored n c (product n c (MultiDim.nth true (gisinDims c) k)))).find (env c) t with
          | none =>
            exact absurd ((Gisin.mem_gaps _ _ _ _ _).mpr ⟨k, _, (Nat.zero_add k).symm, by rw [List.getElem?_map, hk]; rfl, hf⟩) hm
          | some e =>
            have : upd (env c) t (Entry.blank (stored n c (product n c (MultiDim.nth true (gisinDims c) k)))) = e := by simp [upd, hf]
            rw [this]
            exact find_blank hb h ht hW hf
      · intro k hk
        simp only [Gisin.search_eq] at hk
        obtain ⟨j, e, rfl, g1, -⟩ := (Gisin.mem_gaps _ _ _ _ _).mp hk
        rw [List.getElem?_map, Option.map_eq_some_iff] at g1
        obtain ⟨w, g1, -⟩ := g1
        rw [Nat.zero_add]
        exact (List.getElem?_eq_some_iff.mp g1).1
  | grow _ he _ ih =>
    obtain ⟨h1, h2, h3⟩ := ih
    refine ⟨h1, h2, fun hv => ?_⟩
    obtain ⟨ws, g⟩ := h3 hv
    refine ⟨ws, g.words, g.nodup, fun k w hk => ?_, g.inside⟩
    obtain ⟨e, e1, e2⟩ := g.entry k w hk
    refine ⟨e, e1, ?_⟩
    split <;> rename_i hm
    · rwa [if_pos hm] at e2
    · rw [if_neg hm] at e2
      exact e2.mono he
  | @fill t T hR ih =>
    obtain ⟨h1, h2, h3⟩ := ih
    unfold Gisin.Tensor.fill
    cases hv : T.isVirtual with
    | true =>
      simp only [if_true]
      exact ⟨h1, h2, h3⟩
    | false =>
      obtain ⟨ws, g⟩ := h3 hv
      simp only [Bool.false_eq_true, if_false]
      split
      · exact ⟨h1, h2, h3⟩
      · obtain ⟨f1, f2, f3⟩ := fillLoop_spec (env c) t T.missing T.data g.nodup
        refine ⟨by rw [← h1, hv], by simp, fun _ => ⟨ws, g.words, ?_, ?_, ?_⟩⟩
        · dsimp only; rw [f3]; exact g.nodup.filter _
        · intro k w hk
          obtain ⟨-, rfl, hW⟩ := words_stored hb h hL hne g.words hk
          obtain ⟨e, e1, e2⟩ := g.entry k _ hk
          dsimp only
          rw [f2, f3, e1]
          by_cases hm : k ∈ T.missing
          · rw [if_pos hm] at e2
            subst e2
            refine ⟨_, by rw [if_pos hm]; rfl, ?_⟩
            cases hf : (Entry.blank (stored n c (product n c (MultiDim.nth true (gisinDims c) k)))).find (env c) t with
            | none => simp [hm, e1, hf, upd]
            | some x =>
              rw [if_neg (by simp [e1, hf])]
              have : upd (env c) t (Entry.blank (stored n c (product n c (MultiDim.nth true (gisinDims c) k)))) = x := by simp [upd, hf]
              rw [this]
              exact find_blank hb h hR.ready hW hf
          · rw [if_neg hm] at e2 ⊢
            exact ⟨e, rfl, by rw [if_neg (by simp [hm])]; exact e2⟩
        · intro k hk
          dsimp only at hk
          rw [f3] at hk
          exact g.inside k (List.mem_filter.mp hk).1

/-- Elements of tensors. -/
theorem element_spec (hb : Built n c) (h : Room c L) (hL : (variants c).length ≤ L) (hne : gisinDims c ≠ []) {t : Table} {T : Gisin.Tensor} (hT : Reach c L t T)
    {idx : List Nat} (hx : Valid c idx) :
    ∃ e, gisinElement c t T idx = some e ∧ gisinAt c t T (Probability.position (gisinDims c) idx) = some e ∧ e.seq = stored n c (product n c idx) ∧
      ((e.id = none ∧ (T.isVirtual = true → ((Entry.blank (stored n c (product n c idx))).find (env c) t) = none) ∧
          (T.isVirtual = false → Probability.position (gisinDims c) idx ∈ T.missing ∧ e = Entry.blank (stored n c (product n c idx)))) ∨
        Found c t (stored n c (product n c idx)) e ∧ (T.isVirtual = false → Probability.position (gisinDims c) idx ∉ T.missing)) := by
  obtain ⟨hw, hW⟩ := word_spec (n := n) hb h hL hx
  obtain ⟨-, -, hs⟩ := hT.shape hb h hL hne
  obtain ⟨k, hk, rfl, hp⟩ := valid_nth hx
  unfold gisinElement gisinAt
  rw [hp, Tensor.toIndex_eq true _ _ hk, Tensor.rank_nth true _ _ hk]
  cases hv : T.isVirtual with
  | true =>
    simp only [if_true, hw, Option.map_some]
    refine ⟨_, rfl, rfl, ?_⟩
    unfold Entry.make
    cases hf : (Entry.blank (stored n c (product n c (MultiDim.nth true (gisinDims c) k)))).find (env c) t with
    | none => exact ⟨rfl, .inl ⟨rfl, fun _ => rfl, by simp⟩⟩
    | some e =>
      rw [Option.getD_some]
      exact ⟨Gisin.find_seq hf, .inr ⟨find_blank hb h hT.ready hW hf, by simp⟩⟩
  | false =>
    obtain ⟨ws, g⟩ := hs hv
    obtain ⟨w, g1, g2⟩ := (words_get hne g.words).2 k hk
    rw [hw, Option.some.injEq] at g1
    subst g1
    obtain ⟨e, e1, e2⟩ := g.entry k _ g2
    simp only [Bool.false_eq_true, if_false]
    refine ⟨e, e1, e1, ?_⟩
    split at e2 <;> rename_i hm
    · subst e2
      exact ⟨rfl, .inl ⟨rfl, by simp, fun _ => ⟨hm, rfl⟩⟩⟩
    · exact ⟨e2.seq, .inr ⟨e2, fun _ => hm⟩⟩

theorem Found.id_ne {t : Table} {w : HSeq} {e : Entry} (h : Found c t w e) : e.id ≠ none := by
  obtain ⟨j, -, -, h1, -⟩ := h.symbol
  simp [h1]

theorem Found.present {t : Table} {w : HSeq} {e : Entry} (h : Found c t w e) : Present c t w := by
  obtain ⟨j, sym, q, -, h1, -, h2, -, h3⟩ := h.symbol
  refine ⟨j, sym, h1, ?_⟩
  rcases h3 with ⟨-, rfl⟩ | ⟨-, -, rfl⟩
  · exact .inl h2
  · exact .inr h2

/-- What refreshed tensors still miss. -/
theorem fill_spec (hb : Built n c) (h : Room c L) (hL : (variants c).length ≤ L) (hne : gisinDims c ≠ []) {t : Table} {T : Gisin.Tensor} (hT : Reach c L t T) :
    (T.fill (env c) t).1.isVirtual = T.isVirtual ∧ (T.isVirtual = false → (T.fill (env c) t).2 = (T.fill (env c) t).1.missing.isEmpty) ∧
    ∀ idx, Valid c idx → T.isVirtual = false → Probability.position (gisinDims c) idx ∈ (T.fill (env c) t).1.missing →
      ¬ Present c t (stored n c (product n c idx)) := by
  unfold Gisin.Tensor.fill
  cases hv : T.isVirtual with
  | true => simp [hv]
  | false =>
    simp only [Bool.false_eq_true, if_false]
    obtain ⟨ws, g⟩ := (hT.shape hb h hL hne).2.2 hv
    split
    · rename_i hm
      refine ⟨hv, fun _ => hm.symm, fun idx hx _ hk => ?_⟩
      rw [List.isEmpty_iff.mp hm] at hk
      simp at hk
    · obtain ⟨-, -, f3⟩ := fillLoop_spec (env c) t T.missing T.data g.nodup
      refine ⟨rfl, fun _ => rfl, fun idx hx _ hk => ?_⟩
      dsimp only at hk
      rw [f3, List.mem_filter] at hk
      obtain ⟨hk1, hk2⟩ := hk
      obtain ⟨hw, hW⟩ := word_spec (n := n) hb h hL hx
      obtain ⟨k, hk, rfl, hp⟩ := valid_nth hx
      rw [hp] at hk1 hk2
      obtain ⟨w, g1, g2⟩ := (words_get hne g.words).2 k hk
      rw [hw, Option.some.injEq] at g1
      subst g1
      obtain ⟨e, e1, e2⟩ := g.entry k _ g2
      rw [if_pos hk1] at e2
      subst e2
      rw [e1, Option.bind_some, Option.isNone_iff_eq_none] at hk2
      rw [← found_iff hb h hT.ready hW, hk2]
      simp

theorem makeGisin_some (hb : Built n c) (h : Room c L) (hL : (variants c).length ≤ L) (hne : gisinDims c ≠ []) (t : Table) : ∃ T, makeGisin c t = some T := by
  unfold makeGisin
  split
  · exact ⟨_, rfl⟩
  · rw [Gisin.indices_eq hne]
    obtain ⟨r, hr⟩ := Gisin.mapM_some' (f := gisinWord c) (l := (List.range (gisinDims c).prod).map (MultiDim.nth true (gisinDims c))) (by
      intro idx hi
      obtain ⟨k, hk, rfl⟩ := List.mem_map.mp hi
      rw [(word_spec (n := n) hb h hL ((MultiDim.nth_mem true _ _).mp ⟨k, List.mem_range.mp hk, rfl⟩)).1]
      rfl)
    rw [hr]
    exact ⟨_, rfl⟩

/-! ## Products as values -/

theorem joint_gisin {A : Type} [Monoid A] (P : Op → A) (F : Nat → Copy) : ∀ (xs : List (Copy × Nat)) (idx : List Nat) (d : Nat),
    (∀ i x, xs[i]? = some x → F (d + i) = x.1) → List.Forall₂ (· < ·) idx (Probability.gisinDims (C94.inflationParties (xs.map Prod.snd))) →
    Probability.joint (fun d _ k => P ((F d).op k)) d (Probability.gisinChoices (C94.inflationParties (xs.map Prod.snd)) idx) =
      ((picked (xs.map Prod.fst) idx).map P).prod
  | [], idx, d, _, h => by
    cases h
    rfl
  | x :: xs, idx, d, hF, h => by
    cases h with
    | cons hi h =>
    rename_i i idx
    have ih := joint_gisin P F xs idx (d + 1) (fun j y hy => by rw [← hF (j + 1) y (by simpa using hy)]; congr 1; omega) h
    simp only [C94.inflationParties] at ih
    simp only [List.map_cons, C94.inflationParties, Probability.gisinChoices, List.zipWith_cons_cons, Probability.joint]
    simp only [Probability.gisinChoices] at ih
    rw [ih]
    cases i with
    | zero => simp [Probability.choice, Probability.single, picked]
    | succ k =>
      have h0 : F d = x.1 := hF 0 x rfl
      have hl : Probability.locate (Probability.stored [if x.2 = 0 then (1, true) else (x.2, false)]) k = some (0, k) := by
        have : k + 1 < (Probability.stored [if x.2 = 0 then (1, true) else (x.2, false)]).sum + 1 := hi
        by_cases hz : x.2 = 0
        · simp only [hz, if_true, Probability.stored, List.map_cons, List.map_nil, List.sum_cons, List.sum_nil] at this ⊢
          simp only [Probability.locate]
          rw [if_pos (by omega)]
        · simp only [hz, if_false, Probability.stored, List.map_cons, List.map_nil, List.sum_cons, List.sum_nil, Bool.false_eq_true] at this ⊢
          simp only [Probability.locate]
          rw [if_pos (by omega)]
      simp [Probability.choice, hl, Probability.single, picked, h0]

theorem joint_full {A : Type} [Monoid A] (P : Op → A) (F : Nat → Copy) : ∀ (xs : List (Copy × Nat)) (idx : List Nat) (d : Nat),
    (∀ i x, xs[i]? = some x → F (d + i) = x.1) → List.Forall₂ (· < ·) idx (Probability.fullDims (C94.inflationParties (xs.map Prod.snd))) →
    Probability.joint (fun d _ k => P ((F d).op k)) d (Probability.fullChoices (C94.inflationParties (xs.map Prod.snd)) idx) =
      ((picked (xs.map Prod.fst) idx).map P).prod
  | [], idx, d, _, h => by
    cases h
    rfl
  | x :: xs, idx, d, hF, h => by
    cases h with
    | cons hi h =>
    rename_i i idx
    have ih := joint_full P F xs idx (d + 1) (fun j y hy => by rw [← hF (j + 1) y (by simpa using hy)]; congr 1; omega) h
    simp only [C94.inflationParties] at ih
    simp only [List.map_cons, C94.inflationParties, Probability.fullChoices, List.zipWith_cons_cons, Probability.joint]
    simp only [Probability.fullChoices] at ih
    rw [ih]
    cases i with
    | zero => simp [Probability.choice, Probability.single, picked]
    | succ k =>
      have h0 : F d = x.1 := hF 0 x rfl
      have hl : Probability.locate (Probability.outcomes [if x.2 = 0 then (1, true) else (x.2, false)]) k = some (0, k) := by
        have : k + 1 < (Probability.outcomes [if x.2 = 0 then (1, true) else (x.2, false)]).sum + 1 := hi
        by_cases hz : x.2 = 0
        · simp only [hz, if_true, Probability.outcomes, List.map_cons, List.map_nil, List.sum_cons, List.sum_nil] at this ⊢
          simp only [Probability.locate]
          rw [if_pos (by omega)]
        · simp only [hz, if_false, Probability.outcomes, List.map_cons, List.map_nil, List.sum_cons, List.sum_nil] at this ⊢
          simp only [Probability.locate]
          rw [if_pos (by omega)]
      simp [Probability.choice, hl, Probability.single, picked, h0]

/-- The copies with their numbers of outcomes. -/
def counted (n : Causal) (c : Ctx) : List (Copy × Nat) :=
  (variants c).map fun x => (⟨x.1, unflattenIndex c.infl (n.sourcesOf x.1).length x.2⟩, (obsAt c x.1).outcomes)

theorem counted_fst : (counted n c).map Prod.fst = copies n c := by unfold counted copies; rw [List.map_map]; rfl

theorem counted_snd : (counted n c).map Prod.snd = variantOutcomes c := by rw [outcomes_eq]; unfold counted; rw [List.map_map]; rfl

/-- The copy of dimension `d`. -/
def copyAt (n : Causal) (c : Ctx) (d : Nat) : Copy := (copies n c).getD d ⟨0, []⟩

theorem copyAt_counted (i : Nat) (x : Copy × Nat) (h : (counted n c)[i]? = some x) : copyAt n c (0 + i) = x.1 := by
  unfold copyAt
  rw [Nat.zero_add, ← counted_fst, List.getD_eq_getElem?_getD, List.getElem?_map, h]
  rfl

theorem parties_gisin : Probability.gisinDims (C94.inflationParties (variantOutcomes c)) = gisinDims c := by
  rw [outcomes_eq, dims_eq]
  unfold Probability.gisinDims C94.inflationParties
  rw [List.map_map, List.map_map]
  refine List.map_congr_left fun x _ => ?_
  by_cases h : (obsAt c x.1).outcomes = 0 <;> simp [h, Probability.stored, Obs.projective]
  omega

theorem parties_full : Probability.fullDims (C94.inflationParties (variantOutcomes c)) = fullDims c := by
  rw [outcomes_eq, fullDims_eq]
  unfold Probability.fullDims C94.inflationParties
  rw [List.map_map, List.map_map]
  refine List.map_congr_left fun x _ => ?_
  by_cases h : (obsAt c x.1).outcomes = 0 <;> simp [h, Probability.outcomes, Obs.projective]

theorem sums_complete {A : Type} [Semiring A] (hb : Built n c) {P : Op → A} (hS : Sums n P) :
    Probability.Complete (C94.inflationParties (variantOutcomes c)) (fun d _ k => P ((copyAt n c d).op k)) := by
  intro d mmts m k hd hm
  rw [← counted_snd (n := n)] at hd
  unfold C94.inflationParties at hd
  rw [List.getElem?_map, List.getElem?_map, Option.map_eq_some_iff] at hd
  obtain ⟨q, hq, rfl⟩ := hd
  rw [Option.map_eq_some_iff] at hq
  obtain ⟨x, hx, rfl⟩ := hq
  have hc := copyAt_counted d x hx
  rw [Nat.zero_add] at hc
  cases m with
  | succ m => simp at hm
  | zero =>
    simp only [List.getElem?_cons_zero, Option.some.injEq] at hm
    by_cases hz : x.2 = 0
    · simp [hz] at hm
    · rw [if_neg hz, Prod.mk.injEq] at hm
      obtain ⟨rfl, -⟩ := hm
      have hmem := List.mem_of_getElem? hx
      unfold counted at hmem
      obtain ⟨⟨o, v⟩, hov, rfl⟩ := List.mem_map.mp hmem
      obtain ⟨k, h1, h2, -⟩ := variant_at hb hov
      dsimp only at hz hc ⊢
      rw [h2] at hz ⊢
      obtain ⟨k, rfl⟩ := Nat.exists_eq_succ_of_ne_zero hz
      have := hS o k (unflattenIndex c.infl (n.sourcesOf o).length v) h1
      rw [← this]
      refine Finset.sum_congr rfl fun i _ => ?_
      rw [hc]; rfl

/-! ## Ranges -/

/-- The bounds that are set for each dimension. -/
def slotsOf (dims : List Nat) : List Slot := dims.zipIdx.map fun x => ⟨x.2, 1, x.1 - 1⟩

theorem gisinSlots_dims : gisinSlots c = slotsOf (gisinDims c) := by
  rw [gisinSlots_eq, slotsOf, dims_eq]
  simp only [List.zipIdx_map, List.map_map]
  refine List.map_congr_left fun x _ => ?_
  simp only [Function.comp, Prod.map, operators_eq, id]
  split <;> rfl

theorem slotsOf_get {dims : List Nat} {d D : Nat} (h : dims[d]? = some D) : (slotsOf dims)[d]? = some ⟨d, 1, D - 1⟩ := by
  unfold slotsOf
  rw [List.getElem?_map, List.getElem?_zipIdx, h]
  simp

theorem flat_get {α : Type} (f : α → Nat) : ∀ (l : List α) (s o v : Nat) (a : α), l[o]? = some a → v < f a →
    ((l.zipIdx s).flatMap fun x => (List.range (f x.1)).map fun v => (x.2, v))[((l.take o).map f).sum + v]? = some (s + o, v)
  | [], s, o, v, a, h, _ => by simp at h
  | b :: l, s, 0, v, a, h, hv => by
    simp only [List.getElem?_cons_zero, Option.some.injEq] at h
    subst h
    rw [List.zipIdx_cons, List.flatMap_cons, List.getElem?_append_left (by simpa using hv)]
    simp [hv]
  | b :: l, s, o + 1, v, a, h, hv => by
    have ih := flat_get f l (s + 1) o v a (by simpa using h) hv
    rw [List.zipIdx_cons, List.flatMap_cons, List.getElem?_append_right (by simp; omega)]
    simp only [List.take_succ_cons, List.map_cons, List.sum_cons, List.length_map, List.length_range]
    rw [show f b + ((l.take o).map f).sum + v - f b = ((l.take o).map f).sum + v by omega, ih]
    simp only [Option.some.injEq, Prod.mk.injEq, and_true]
    omega

/-- The dimension of a copy. -/
def dimOf (c : Ctx) (r : Nat × Nat) : Nat := ((c.net.observables.take r.1).map (Obs.copies c.infl)).sum + r.2

theorem dimOf_get {r : Nat × Nat} (h : r ∈ variants c) : (variants c)[dimOf c r]? = some r ∧ globalVariant c r.1 r.2 = some (dimOf c r) := by
  obtain ⟨o, v⟩ := r
  obtain ⟨ob, h1, h2⟩ := variants_mem.mp h
  refine ⟨?_, ?_⟩
  · have := flat_get (Obs.copies c.infl) c.net.observables 0 o v ob h1 h2
    rw [Nat.zero_add] at this
    exact this
  · unfold globalVariant dimOf
    rw [if_pos (List.getElem?_eq_some_iff.mp h1).1]

theorem variants_nodup (hb : Built n c) : (variants c).Nodup := List.Nodup.of_map _ (copies_nodup hb)

theorem dimOf_unique (hb : Built n c) {r : Nat × Nat} {d : Nat} (h : (variants c)[d]? = some r) : dimOf c r = d := by
  obtain ⟨h1, h2⟩ := List.getElem?_eq_some_iff.mp h
  have := (dimOf_get (List.mem_of_getElem? h)).1
  obtain ⟨g1, g2⟩ := List.getElem?_eq_some_iff.mp this
  exact (List.Nodup.getElem_inj_iff (variants_nodup hb)).mp (g2.trans h2.symm)

theorem requests_spec {reqs : List ((Nat × Nat) × Option Nat)} (h : ∀ r ∈ reqs, r.1 ∈ variants c) :
    requests c reqs = some (reqs.map fun r => (dimOf c r.1, r.2)) := by
  unfold requests
  induction reqs with
  | nil => rfl
  | cons r reqs ih =>
    rw [List.mapM_cons, ih fun x hx => h x (List.mem_cons_of_mem _ hx), (dimOf_get (h r List.mem_cons_self)).2]
    rfl

/-- Boxes of requests, for either tensor. -/
theorem range_spec (hb : Built n c) {dims : List Nat} (hd : dims.length = (variants c).length) {reqs : List ((Nat × Nat) × Option Nat)}
    (hr : ∀ r ∈ reqs, r.1 ∈ variants c) :
    (reqs.Pairwise (fun a b => a.1 ≠ b.1) → ∃ lo hi, (requests c reqs).bind (Gisin.range (slotsOf dims) dims.length) = some (some (lo, hi)) ∧
      lo.length = dims.length ∧ hi.length = dims.length ∧
      ∀ (d D : Nat) x, dims[d]? = some D → (variants c)[d]? = some x →
        ((∀ r ∈ reqs, r.1 ≠ x) → lo[d]? = some 0 ∧ hi[d]? = some 1) ∧
        (∀ r ∈ reqs, r.1 = x → lo[d]? = some (1 + r.2.getD 0) ∧ hi[d]? = some (r.2.elim (1 + (D - 1)) (1 + · + 1)))) ∧
    (¬ reqs.Pairwise (fun a b => a.1 ≠ b.1) → (requests c reqs).bind (Gisin.range (slotsOf dims) dims.length) = some none) := by
  rw [requests_spec hr, Option.bind_some]
  have hpos : ∀ g ∈ slotsOf dims, 1 ≤ g.offset := by
    intro g hg
    unfold slotsOf at hg
    obtain ⟨x, -, rfl⟩ := List.mem_map.mp hg
    exact Nat.le_refl 1
  have hlt : ∀ r ∈ reqs, dimOf c r.1 < dims.length := fun r hx => by
    rw [hd]; exact (List.getElem?_eq_some_iff.mp (dimOf_get (hr r hx)).1).1
  have hslot : ∀ r ∈ reqs, (slotsOf dims)[dimOf c r.1]? = some ⟨dimOf c r.1, 1, dims.getD (dimOf c r.1) 0 - 1⟩ := fun r hx => by
    rw [slotsOf_get (List.getElem?_eq_getElem (hlt r hx))]
    simp [hlt r hx]
  have hinj : ∀ r ∈ reqs, ∀ r' ∈ reqs, dimOf c r.1 = dimOf c r'.1 ↔ r.1 = r'.1 := fun r hx r' hx' => by
    refine ⟨fun e => ?_, fun e => by rw [e]⟩
    have h1 := (dimOf_get (hr r hx)).1
    rw [e, (dimOf_get (hr r' hx')).1, Option.some.injEq] at h1
    exact h1.symm
  have hpw : reqs.Pairwise (fun a b => a.1 ≠ b.1) ↔ (reqs.map fun r => (dimOf c r.1, r.2)).Pairwise fun a b => id a.1 ≠ id b.1 := by
    rw [List.pairwise_map]
    refine List.Pairwise.iff_of_mem fun {a b} ha hb' => ?_
    simp only [id, ne_eq, hinj a ha b hb']
  refine ⟨fun hp => ?_, fun hp => ?_⟩
  · obtain ⟨lo, hi, h1, h2, h3, h4, h5⟩ := Gisin.ranges_spec hpos id (reqs.map fun r => (dimOf c r.1, r.2)) (List.replicate dims.length 0)
      (List.replicate dims.length 1) (by simp) (by
        intro r hx0
        obtain ⟨r, hx, rfl⟩ := List.mem_map.mp hx0
        exact ⟨_, hslot r hx, rfl, by simpa using hlt r hx, by simp [hlt r hx]⟩) (hpw.mp hp)
    rw [List.length_replicate] at h2 h3
    refine ⟨lo, hi, h1, h2, h3, fun d D x hD hx => ⟨fun hno => ?_, fun r hr' e => ?_⟩⟩
    · have hdl := (List.getElem?_eq_some_iff.mp hD).1
      obtain ⟨e1, e2⟩ := h4 d (by
        intro r hx0
        obtain ⟨r, hx', rfl⟩ := List.mem_map.mp hx0
        intro e
        have := (dimOf_get (hr r hx')).1
        rw [show dimOf c r.1 = d from e, hx, Option.some.injEq] at this
        exact hno r hx' this.symm)
      rw [e1, e2]
      simp [hdl]
    · have hdd : dimOf c r.1 = d := by rw [e]; exact dimOf_unique hb hx
      obtain ⟨e1, e2⟩ := h5 _ (List.mem_map.mpr ⟨r, hr', rfl⟩) _ (hslot r hr')
      dsimp only at e1 e2
      rw [hdd] at e1 e2
      rw [List.getD_eq_getElem?_getD, hD, Option.getD_some] at e1 e2
      rw [e1, e2]
      cases r.2 <;> simp [Gisin.Slot.lower, Gisin.Slot.upper]
  · refine Gisin.ranges_twice hpos id _ _ _ (fun r hx0 => ?_) (.inr fun hp' => hp (hpw.mpr hp'))
    obtain ⟨r, hx, rfl⟩ := List.mem_map.mp hx0
    exact ⟨_, hslot r hx, rfl, by simpa using hlt r hx⟩

end Moment.Inflation
