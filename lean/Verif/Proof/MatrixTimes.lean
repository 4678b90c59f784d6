import Verif.Proof.SymbolMatrix

/-! # Proofs about the creation of matrices and their multiplication -/

namespace Moment.SymbolMatrix

open Moment.Symbols
open Moment.Poly (Mono)
open Moment.MatrixBasis (Mat SymMat)

/-! ## Tables only grow -/

theorem mergeSym_prefix {c : Env} {t t' : Table} {e : Sym} {id : Nat} {b : Bool} (h : t.mergeSym c e = some (t', id, b)) : t.syms <+: t'.syms := by
  unfold Table.mergeSym at h
  split at h
  · simp at h
  · split at h
    · simp only [Option.map_eq_some_iff, Prod.mk.injEq] at h
      obtain ⟨s, -, rfl, -⟩ := h
      exact List.prefix_rfl
    · simp only [Option.some.injEq, Prod.mk.injEq] at h
      obtain ⟨rfl, -, -⟩ := h
      exact List.prefix_append _ _

theorem mergeAll_prefix {c : Env} : ∀ (l : List Sym) {t t' : Table} {ids : List Nat} {n : Nat}, t.mergeAll c l = some (t', ids, n) → t.syms <+: t'.syms
  | [], t, t', ids, n, h => by
    simp only [Table.mergeAll, Option.some.injEq, Prod.mk.injEq] at h
    exact h.1 ▸ List.prefix_rfl
  | e :: l, t, t', ids, n, h => by
    unfold Table.mergeAll at h
    simp only [Option.bind_eq_bind, Option.bind_eq_some_iff, Option.some.injEq, Prod.mk.injEq] at h
    obtain ⟨⟨t1, id1, b1⟩, h1, ⟨t2, ids2, n2⟩, h2, rfl, -⟩ := h
    exact (mergeSym_prefix h1).trans (mergeAll_prefix l h2)

theorem get_prefix {α : Type} {l l' : List α} (h : l <+: l') {i : Nat} {x : α} (e : l[i]? = some x) : l'[i]? = some x := by
  obtain ⟨r, rfl⟩ := h
  rw [List.getElem?_append_left (List.getElem?_eq_some_iff.mp e).1]
  exact e

theorem agrees_mono {t t' : Table} (h : t.syms <+: t'.syms) {L v} (hv : Agrees t' L v) : Agrees t L v := by
  refine ⟨fun id s q hs hq => hv.word id s q (get_prefix h hs) hq, hv.flags.zero, fun i hi => hv.flags.herm i ?_, fun i hi => hv.flags.anti i ?_⟩
  · simp only [MatrixBasis.polyTable] at hi ⊢
    cases hs : t.syms[i]? with
    | none => simp [hs] at hi
    | some s => simpa [get_prefix h hs, hs] using hi
  · simp only [MatrixBasis.polyTable] at hi ⊢
    cases hs : t.syms[i]? with
    | none => simp [hs] at hi
    | some s => simpa [get_prefix h hs, hs] using hi

/-! ## The constructor -/

theorem plainMono_agree {t : Table} {m : Mono} (h : m.id < t.syms.length) :
    ∃ m', MatrixBasis.plainMono t m = some m' ∧ m'.id = m.id ∧ ∀ v, Poly.Respects (MatrixBasis.polyTable t) v → m'.value v = m.value v := by
  unfold MatrixBasis.plainMono
  have hs : t.syms[m.id]? = some t.syms[m.id] := List.getElem?_eq_getElem h
  split
  · rename_i hc
    rw [hs, Option.map_some]
    refine ⟨_, rfl, ?_⟩
    split
    · rename_i hh
      refine ⟨rfl, fun v hv => ?_⟩
      have := hv.herm m.id (by simp [MatrixBasis.polyTable, hs, hh])
      simp [Poly.Mono.value, hc, this]
    · split
      · rename_i hh
        refine ⟨rfl, fun v hv => ?_⟩
        have := hv.anti m.id (by simp [MatrixBasis.polyTable, hs, hh])
        simp [Poly.Mono.value, hc, this]
      · exact ⟨rfl, fun _ _ => rfl⟩
  · exact ⟨m, rfl, rfl, fun _ _ => rfl⟩

theorem makeMono_agree {t : Table} (h0 : 0 < t.syms.length) (herm : Bool) {S : Mat Mono} (hS : S.Square) (hk : ∀ m ∈ S.data, m.id < t.syms.length) :
    ∃ B, MatrixBasis.makeMono t herm S = some B ∧ B.mat.dim = S.dim ∧ B.mat.Square ∧ B.hermitian = herm ∧ (∀ m ∈ B.mat.data, m.id < t.syms.length) ∧
      ∀ v, Poly.Respects (MatrixBasis.polyTable t) v → ∀ i j, valueAt v B.mat i j = valueAt v S i j := by
  let g : Mono → Mono := fun m => (MatrixBasis.plainMono t m).getD m
  have hg : ∀ m ∈ S.data, MatrixBasis.plainMono t m = some (g m) ∧ (g m).id = m.id ∧
      ∀ v, Poly.Respects (MatrixBasis.polyTable t) v → (g m).value v = m.value v := by
    intro m hm
    obtain ⟨m', h1, h2, h3⟩ := plainMono_agree (hk m hm)
    have : g m = m' := by simp [g, h1]
    rw [this]
    exact ⟨h1, h2, h3⟩
  have hd : ∀ m ∈ (S.data.map g).map MatrixBasis.dropZero, m.id < t.syms.length := by
    intro m hm
    obtain ⟨m1, hm1, rfl⟩ := List.mem_map.mp hm
    obtain ⟨m2, hm2, rfl⟩ := List.mem_map.mp hm1
    unfold MatrixBasis.dropZero
    split
    · exact h0
    · rw [(hg m2 hm2).2.1]; exact hk m2 hm2
  have he : MatrixBasis.makeMono t herm S = some ⟨⟨S.dim, (S.data.map g).map MatrixBasis.dropZero⟩, herm,
      ((S.data.map g).map MatrixBasis.dropZero).any (fun m => m.factor.im ≠ 0),
      (((S.data.map g).map MatrixBasis.dropZero).map (MatrixBasis.symOf t)).any fun s => s.im.isSome⟩ := by
    unfold MatrixBasis.makeMono
    rw [MatrixBasis.mapM_some g fun m hm => (hg m hm).1, Option.bind_some]
    dsimp only
    rw [MatrixBasis.mapM_some (MatrixBasis.symOf t) fun m hm => MatrixBasis.symOf_eq (hd m hm)]
    rfl
  refine ⟨_, he, rfl, ?_, rfl, hd, ?_⟩
  · unfold MatrixBasis.Mat.Square at hS ⊢
    simpa using hS
  · intro v hv i j
    unfold valueAt MatrixBasis.Mat.get?
    simp only [List.getElem?_map]
    cases hx : S.data[i + j * S.dim]? with
    | none => rfl
    | some m =>
      have hm := List.mem_of_getElem? hx
      simp only [Option.map_some, Option.elim_some]
      rw [← (hg m hm).2.2 v hv]
      unfold MatrixBasis.dropZero
      split
      · rename_i hf
        simp [Poly.Mono.value, hf]
      · rfl

/-- What the creation of a matrix gives. -/
structure Created (h : Host) (W : HSeq → Prop) (t : Table) (ops : Mat HSeq) (al : Option (Mat HSeq)) (f : ℂ) (t' : Table) (M : MonoMat) : Prop where
  fit : Fit h W t'
  grows : t.syms <+: t'.syms
  own : M.ops = some ops
  aliased : M.aliased = al
  prefactor : M.prefactor = f
  herm : M.sym.hermitian = isHerm h.env (al.getD ops)
  stands : Stands h W t' f (al.getD ops) M.sym.mat

theorem fit_pos {h : Host} {W : HSeq → Prop} {t : Table} (ht : Fit h W t) : 0 < t.syms.length := by
  have := (List.getElem?_eq_some_iff.mp ht.inv.zero).1
  simpa [Table.keys] using this

theorem create_spec {h : Host} {W : HSeq → Prop} (hS : Setting h W) {t : Table} (ht : Fit h W t) {ops : Mat HSeq} {al : Option (Mat HSeq)} (f : ℂ)
    (hA : Usable h W (al.getD ops)) : ∃ t' M, create h t ops al f = some (t', some M) ∧ Created h W t ops al f t' M := by
  obtain ⟨t', ids, n, h1, h2, h3, h4⟩ := register hS ht hA (isHerm h.env (al.getD ops))
  obtain ⟨S, h5, h6⟩ := build_spec hS h2 hA f h4
  obtain ⟨B, b1, b2, b3, b4, b5, b6⟩ := makeMono_agree (fit_pos h2) (isHerm h.env (al.getD ops)) h6.square h6.known
  refine ⟨t', ⟨some ops, al, B, f⟩, ?_, h2, mergeAll_prefix _ h1, rfl, rfl, rfl, b4, b2.trans h6.dim, b3, b5, ?_⟩
  · simp [create, convert, h1, h5, fromOps, b1]
  · intro L v hL hv i j hi hj
    rw [b6 v hv.flags]
    exact h6.value L v hL hv i j hi hj

/-! ## Tables that come about -/

theorem plain_keys {t t' : Table} (h : ∀ k ∈ t'.keys, k.2.1 = none ∨ k ∈ t.keys) (ht : Plain t) : Plain t' := by
  intro s hs q hq
  rcases h s.key (List.mem_map.mpr ⟨s, hs, rfl⟩) with h1 | h1
  · simp [Sym.key, hq] at h1
  · obtain ⟨s', hs', e⟩ := List.mem_map.mp h1
    simp only [Sym.key, Prod.mk.injEq] at e
    exact ht s' hs' q (by rw [e.2.1, hq])

theorem plain_create {t : Table} (ht : Plain t) (r i : Bool) : Plain (t.create r i).1 := by
  intro s hs q hq
  simp only [Table.create, List.mem_append, List.mem_singleton] at hs
  rcases hs with hs | rfl
  · exact ht s hs q hq
  · simp at hq

theorem plain_createMany (r i : Bool) : ∀ (n : Nat) {t : Table}, Plain t → Plain (t.createMany r i n)
  | 0, _, h => h
  | n + 1, _, h => plain_createMany r i n (plain_create h r i)

theorem plain_step {c : Env} {t : Table} (ht : Plain t) {o : Op} (ho : PlainOp c o) {t' : Table} {r : Option Nat} (hr : step c t o = some (t', r)) :
    Plain t' := by
  cases o with
  | create a b =>
    simp only [step, Option.some.injEq, Prod.mk.injEq] at hr
    exact hr.1 ▸ plain_create ht a b
  | createMany n a b =>
    simp only [step, Option.some.injEq, Prod.mk.injEq] at hr
    exact hr.1 ▸ plain_createMany a b n ht
  | seq w =>
    simp only [step, Option.map_eq_some_iff, Prod.mk.injEq, Table.mergeSeq] at hr
    obtain ⟨⟨t1, id, b⟩, h1, rfl, -⟩ := hr
    exact mergeSym_plain ht (by intro q hq; simp only [Sym.ofPair, Option.some.injEq] at hq; rw [← hq]) h1
  | pair w =>
    simp only [step, Option.map_eq_some_iff, Prod.mk.injEq] at hr
    obtain ⟨⟨t1, id, b⟩, h1, rfl, -⟩ := hr
    exact mergeSym_plain ht (by intro q hq; simp only [Sym.ofPair, Option.some.injEq] at hq; rw [← hq]) h1
  | herm w =>
    simp only [step, Option.map_eq_some_iff, Prod.mk.injEq] at hr
    obtain ⟨⟨t1, id, b⟩, h1, rfl, -⟩ := hr
    refine mergeSym_plain ht ?_ h1
    intro q hq
    simp only [Sym.ofSeq, Option.some.injEq] at hq
    exact hq ▸ ho
  | fill ws =>
    simp only [step, Option.map_eq_some_iff, Prod.mk.injEq, Table.fill] at hr
    obtain ⟨⟨t1, n⟩, ⟨⟨t2, ids, n2⟩, h2, h3⟩, rfl, -⟩ := hr
    simp only [Prod.mk.injEq] at h3
    rw [← h3.1]
    refine mergeAll_plain _ ht ?_ h2
    intro e he q hq
    obtain ⟨p, hp, rfl⟩ := List.mem_map.mp he
    rcases (fillMap_spec c ws []).1 p hp with h | ⟨w, hw, h4, -⟩
    · simp at h
    · unfold fillEntry at h4
      split at h4
      · simp at h4
      · dsimp only at h4
        split at h4
        · rename_i heq
          rw [← Option.some.inj h4] at hq
          simp only [Sym.ofSeq, Option.some.injEq] at hq
          exact hq ▸ ho w hw heq.symm
        · split at h4
          · rw [← Option.some.inj h4] at hq
            simp only [Sym.ofPair, Option.some.injEq] at hq
            rw [← hq]
          · simp at h4
  | bits n re im =>
    simp only [step, Option.map_eq_some_iff] at hr
    obtain ⟨f, hf, hr⟩ := hr
    have h1 : Plain (if t.syms.length < n then t.createMany true true (n - t.syms.length) else t) := by
      split
      · exact plain_createMany _ _ _ ht
      · exact ht
    unfold Table.mergeBits at hf
    dsimp only at hf
    set t1 := (if t.syms.length < n then t.createMany true true (n - t.syms.length) else t) with ht1
    split at hf
    · simp at hf
    · split at hf
      · simp only [Option.some.injEq] at hf
        subst hf
        simp only [Prod.mk.injEq] at hr
        refine plain_keys (t := t1) (fun k hk => Or.inr ?_) h1
        rw [← hr.1] at hk
        have : Table.keys { t1 with syms := (flagLoop re im t1.syms false).1 } = t1.keys := flagLoop_keys _ _ _ _
        rwa [this] at hk
      · simp only [Option.some.injEq] at hf
        subst hf
        simp only [Prod.mk.injEq] at hr
        refine plain_keys (t := t1) (fun k hk => Or.inr ?_) h1
        rw [← hr.1] at hk
        have : Table.keys (Table.renumerate { t1 with syms := (flagLoop re im t1.syms false).1 }) = t1.keys := by
          show List.map Sym.key (renumLoop _ _).1 = _
          rw [renumLoop_keys]; exact flagLoop_keys _ _ _ _
        rwa [this] at hk

theorem Ready.fit {h : Host} {W : HSeq → Prop} (hS : Setting h W) {t : Table} (ht : Ready h W t) : Fit h W t := by
  induction ht with
  | new =>
    refine ⟨inv_new _ _ hS.words, ?_⟩
    intro s hs q hq
    simp only [Table.new, List.mem_cons, List.not_mem_nil, or_false] at hs
    rcases hs with rfl | rfl
    · simp only [Sym.zero, Sym.ofSeq, Option.some.injEq] at hq
      rw [← hq]; rfl
    · simp only [Sym.one, Sym.ofSeq, Option.some.injEq] at hq
      rw [← hq]; rfl
  | step _ ho hp hr ih => exact ⟨(step_keys hS.words ih.inv ho hr).1, plain_step ih.plain hp hr⟩
  | @matrix t t' ops al f M _ hu hr ih =>
    obtain ⟨t1, M1, h1, h2⟩ := create_spec hS ih f hu
    rw [h1] at hr
    simp only [Option.some.injEq, Prod.mk.injEq] at hr
    exact hr.1 ▸ h2.fit

/-! ## Products -/

theorem source_times (h : Host) (pre : Bool) (s : HSeq) (A : Mat HSeq) :
    (simplified h (timesWord h pre s A)).getD (timesWord h pre s A) =
      ⟨A.dim, A.data.map fun w => if h.env.aliases then h.env.simp (product h pre s w) else product h pre s w⟩ := by
  unfold simplified timesWord product
  split
  · simp
  · simp

theorem word_map {A : Mat HSeq} (hA : A.Square) (g : HSeq → HSeq) {i j : Nat} (hi : i < A.dim) (hj : j < A.dim) :
    word ⟨A.dim, A.data.map g⟩ i j = g (word A i j) := by
  have := (get_some hA hi hj).1
  unfold word MatrixBasis.Mat.get?
  simp only [List.getElem?_map, this, Option.map_some, Option.getD_some]

theorem usable_square {h : Host} {W : HSeq → Prop} {pre : Bool} {s : HSeq} {A : Mat HSeq} (hu : UsableProduct h W pre s A) : A.Square := by
  have := hu.square
  unfold MatrixBasis.Mat.Square at this ⊢
  simpa using this

/-- A matrix of products: the value of each entry is the moment of the product. -/
theorem create_times {h : Host} {W : HSeq → Prop} (hS : Setting h W) {t : Table} (ht : Fit h W t) {pre : Bool} {s : HSeq} {A : Mat HSeq}
    (hu : UsableProduct h W pre s A) (f : ℂ) :
    ∃ t' M, create h t (timesWord h pre s A) (simplified h (timesWord h pre s A)) f = some (t', some M) ∧ Fit h W t' ∧ t.syms <+: t'.syms ∧
      M.sym.mat.dim = A.dim ∧ M.sym.mat.Square ∧ (∀ m ∈ M.sym.mat.data, m.id < t'.syms.length) ∧ M.prefactor = f ∧ M.ops = some (timesWord h pre s A) ∧
      Usable h W ((simplified h (timesWord h pre s A)).getD (timesWord h pre s A)) ∧
      ∀ L v, Moments h.env W L → KeepsMoments h L → Agrees t' L v → ∀ i j, i < A.dim → j < A.dim →
        valueAt v M.sym.mat i j = f * L (product h pre s (word A i j)) := by
  have hsq := usable_square hu
  have hu' : Usable h W ((simplified h (timesWord h pre s A)).getD (timesWord h pre s A)) := by rw [source_times]; exact hu
  obtain ⟨t', M, h1, h2⟩ := create_spec hS ht f hu'
  refine ⟨t', M, h1, h2.fit, h2.grows, ?_, h2.stands.square, h2.stands.known, h2.prefactor, h2.own, hu', ?_⟩
  · have := h2.stands.dim
    rwa [source_times] at this
  · intro L v hL hk hv i j hi hj
    have hst := h2.stands.value L v hL hv i j (by rw [source_times]; exact hi) (by rw [source_times]; exact hj)
    rw [source_times, word_map hsq _ hi hj] at hst
    rw [hst]
    split
    · rename_i ha
      rw [hk ha]
    · rfl

theorem sumMM_value {v : Nat → ℂ} (h0 : v 0 = 0) (o : Poly.Order) (a b : Mono) : Poly.value v (Poly.sumMM o a b) = a.value v + b.value v := by
  unfold Poly.sumMM
  split
  · rename_i h
    split
    · rename_i hf
      rw [Poly.value_nil]
      unfold Poly.Mono.value
      rw [h.1, h.2, ← add_mul, hf, zero_mul]
    · rw [Poly.ofMono_value v h0]
      unfold Poly.Mono.value
      simp only
      rw [h.1, h.2, ← add_mul]
  · split
    · simp
    · simp [add_comm]

theorem sumMM_ids {o : Poly.Order} {a b m : Mono} (h : m ∈ Poly.sumMM o a b) : m.id = a.id ∨ m.id = b.id := by
  unfold Poly.sumMM Poly.ofMono at h
  split at h
  · split at h
    · simp at h
    · split at h
      · rw [List.mem_singleton.mp h]; exact Or.inl rfl
      · simp at h
  · split at h <;> simp only [List.mem_cons, List.not_mem_nil, or_false] at h <;> rcases h with rfl | rfl <;> simp

theorem maskBits_known {t : Table} : ∀ (p : List Mono), (∀ m ∈ p, m.id < t.syms.length) → ∃ M, BasisVec.maskBits t p = some M
  | [], _ => ⟨_, rfl⟩
  | [m], h => ⟨_, by rw [BasisVec.maskBits, List.getElem?_eq_getElem (h m (by simp)), Option.map_some]⟩
  | m :: n :: l, h => by
    unfold BasisVec.maskBits
    rw [List.getElem?_eq_getElem (h m (by simp)), Option.bind_some]
    split
    · obtain ⟨M, hM⟩ := maskBits_known (n :: l) fun x hx => h x (List.mem_cons_of_mem _ hx)
      exact ⟨_, by rw [hM]; rfl⟩
    · obtain ⟨M, hM⟩ := maskBits_known l fun x hx => h x (List.mem_cons_of_mem _ (List.mem_cons_of_mem _ hx))
      exact ⟨_, by rw [hM]; rfl⟩
termination_by p => p.length

theorem makePoly_known {t : Table} {A : Mat (List Mono)} (h : ∀ p ∈ A.data, ∀ m ∈ p, m.id < t.syms.length) :
    ∃ B, MatrixBasis.makePoly t A = some B ∧ B.mat = A := by
  unfold MatrixBasis.makePoly
  rw [MatrixBasis.mapM_some (fun p => (BasisVec.maskBits t p).getD ([], [])) ?_]
  · exact ⟨_, rfl, rfl⟩
  · intro p hp
    obtain ⟨M, hM⟩ := maskBits_known p (h p hp)
    simp [hM]

/-- What is known of the matrices of all products. -/
structure Parts (h : Host) (W : HSeq → Prop) (pre : Bool) (g : ℂ) (A : Mat HSeq) (t : Table) (p : HSeq × ℂ) (M : MonoMat) : Prop where
  dim : M.sym.mat.dim = A.dim
  square : M.sym.mat.Square
  known : ∀ m ∈ M.sym.mat.data, m.id < t.syms.length
  value : ∀ L v, Moments h.env W L → KeepsMoments h L → Agrees t L v → ∀ i j, i < A.dim → j < A.dim →
    valueAt v M.sym.mat i j = g * p.2 * L (product h pre p.1 (word A i j))

theorem createAll_spec {h : Host} {W : HSeq → Prop} (hS : Setting h W) {pre : Bool} {A : Mat HSeq} (g : ℂ) :
    ∀ (ps : List (HSeq × ℂ)) {t : Table}, Fit h W t → Ready h W t → (∀ p ∈ ps, UsableProduct h W pre p.1 A) →
      ∃ t' Ms, createAll h pre g A t ps = some (t', some Ms) ∧ Fit h W t' ∧ Ready h W t' ∧ t.syms <+: t'.syms ∧
        List.Forall₂ (Parts h W pre g A t') ps Ms
  | [], t, ht, hr, _ => ⟨t, [], rfl, ht, hr, List.prefix_rfl, List.Forall₂.nil⟩
  | p :: ps, t, ht, hr, hu => by
    obtain ⟨t1, M, h1, h2, h3, h4, h5, h6, -, -, hus, h7⟩ := create_times hS ht (hu p List.mem_cons_self) (g * p.2)
    obtain ⟨t2, Ms, k1, k2, k5, k3, k4⟩ := createAll_spec hS g ps h2 (Ready.matrix hr hus h1) fun q hq => hu q (List.mem_cons_of_mem _ hq)
    refine ⟨t2, M :: Ms, ?_, k2, k5, h3.trans k3, List.Forall₂.cons ⟨h4, h5, fun m hm => Nat.lt_of_lt_of_le (h6 m hm) k3.length_le, ?_⟩ k4⟩
    · simp [createAll, h1, k1]
    · intro L v hL hk hv
      exact h7 L v hL hk (agrees_mono k3 hv)

theorem valueAt_get {v : Nat → ℂ} {A : Mat Mono} (hA : A.Square) {i j : Nat} (hi : i < A.dim) (hj : j < A.dim) :
    ∃ m, A.data[i + j * A.dim]? = some m ∧ m ∈ A.data ∧ valueAt v A i j = m.value v := by
  have h : i + j * A.dim < A.data.length := by rw [hA]; exact Triangle.off_lt hi hj
  refine ⟨A.data[i + j * A.dim], List.getElem?_eq_getElem h, List.getElem_mem h, ?_⟩
  unfold valueAt MatrixBasis.Mat.get?
  rw [List.getElem?_eq_getElem h]; rfl

/-- At least two matrices are put together. -/
theorem synthesize_spec {h : Host} {W : HSeq → Prop} {pre : Bool} {g : ℂ} {A : Mat HSeq} {t : Table} (o : Poly.Order) {p1 p2 : HSeq × ℂ}
    {ps : List (HSeq × ℂ)} {Ms : List MonoMat} (hf : List.Forall₂ (Parts h W pre g A t) (p1 :: p2 :: ps) Ms) :
    ∃ P, synthesize t o Ms = some P ∧ P.dim = A.dim ∧ P.Square ∧ (∀ p ∈ P.data, ∀ m ∈ p, m.id < t.syms.length) ∧
      ∀ L v, Moments h.env W L → KeepsMoments h L → Agrees t L v → ∀ i j, i < A.dim → j < A.dim →
        polyAt v P i j = ((p1 :: p2 :: ps).map fun p => g * p.2 * L (product h pre p.1 (word A i j))).sum := by
  obtain ⟨M1, l1, h1, hf1, rfl⟩ := List.forall₂_cons_left_iff.mp hf
  obtain ⟨M2, l2, h2, hf2, rfl⟩ := List.forall₂_cons_left_iff.mp hf1
  cases hf2 with
  | nil =>
    refine ⟨_, rfl, h1.dim, ?_, ?_, ?_⟩
    · have e1 := h1.square
      have e2 := h2.square
      unfold MatrixBasis.Mat.Square at e1 e2 ⊢
      simp only [List.length_zipWith, e1, e2, h1.dim, h2.dim, Nat.min_self]
    · intro p hp m hm
      obtain ⟨a, ha, b, hb, rfl⟩ : ∃ a ∈ M1.sym.mat.data, ∃ b ∈ M2.sym.mat.data, p = Poly.sumMM o a b := by
        obtain ⟨k, hk, rfl⟩ := List.getElem_of_mem hp
        simp only [List.length_zipWith] at hk
        exact ⟨_, List.getElem_mem (by omega), _, List.getElem_mem (by omega), List.getElem_zipWith ..⟩
      rcases sumMM_ids hm with e | e <;> rw [e]
      · exact h1.known a ha
      · exact h2.known b hb
    · intro L v hL hk hv i j hi hj
      have v1 := h1.value L v hL hk hv i j hi hj
      have v2 := h2.value L v hL hk hv i j hi hj
      obtain ⟨a, ea, -, va⟩ := valueAt_get (v := v) h1.square (i := i) (j := j) (h1.dim ▸ hi) (h1.dim ▸ hj)
      obtain ⟨b, eb, -, vb⟩ := valueAt_get (v := v) h2.square (i := i) (j := j) (h2.dim ▸ hi) (h2.dim ▸ hj)
      rw [h1.dim] at ea
      rw [h2.dim] at eb
      unfold polyAt MatrixBasis.Mat.get?
      simp only [h1.dim]
      rw [List.getElem?_zipWith, ea, eb]
      simp only [Option.elim_some, sumMM_value hv.flags.zero, List.map_cons, List.map_nil, List.sum_cons, List.sum_nil, add_zero]
      rw [← va, ← vb, v1, v2]
  | @cons p3 M3 ps3 l3 h3 hf3 =>
    refine ⟨_, rfl, h1.dim, ?_, ?_, ?_⟩
    · unfold MatrixBasis.Mat.Square
      simp
    · intro p hp m hm
      obtain ⟨k, hk, rfl⟩ := List.mem_map.mp hp
      obtain ⟨y, hy, e⟩ := Poly.make_ids hm
      rw [← e]
      obtain ⟨B, hB, rfl⟩ := List.mem_map.mp hy
      have hall : ∀ B ∈ M1 :: M2 :: M3 :: l3, B.sym.mat.dim = A.dim ∧ B.sym.mat.Square ∧ ∀ m ∈ B.sym.mat.data, m.id < t.syms.length := by
        intro B hB
        obtain ⟨n, hn, rfl⟩ := List.getElem_of_mem hB
        have hq := List.Forall₂.get hf (i := n) (by rw [hf.length_eq]; exact hn) hn
        exact ⟨hq.dim, hq.square, hq.known⟩
      obtain ⟨d1, d2, d3⟩ := hall B hB
      have hlt : k < B.sym.mat.data.length := by
        rw [d2, d1, ← h1.dim]
        simpa using hk
      rw [List.getElem?_eq_getElem hlt, Option.getD_some]
      exact d3 _ (List.getElem_mem hlt)
    · intro L v hL hk hv i j hi hj
      unfold polyAt MatrixBasis.Mat.get?
      simp only [h1.dim]
      rw [List.getElem?_map, List.getElem?_range (Triangle.off_lt hi hj)]
      simp only [Option.map_some, Option.elim_some]
      rw [Poly.make_value hv.flags]
      have key : ∀ {qs : List (HSeq × ℂ)} {Ns : List MonoMat}, List.Forall₂ (Parts h W pre g A t) qs Ns →
          Poly.value v (Ns.map fun B => (B.sym.mat.data[i + j * A.dim]?).getD ⟨0, false, 0⟩) =
            (qs.map fun p => g * p.2 * L (product h pre p.1 (word A i j))).sum := by
        intro qs Ns hq
        induction hq with
        | nil => rfl
        | cons hd _ ih =>
          obtain ⟨a, ea, -, va⟩ := valueAt_get (v := v) hd.square (i := i) (j := j) (hd.dim ▸ hi) (hd.dim ▸ hj)
          rw [hd.dim] at ea
          rw [List.map_cons, List.map_cons, Poly.value_cons, List.sum_cons, ih, ea, Option.getD_some, ← va, hd.value L v hL hk hv i j hi hj]
      exact key hf

/-! ## Creating a matrix again -/

/-- The word of a symbol is in the table. -/
def Known (t : Table) (e : Sym) : Prop := ∃ w k s, e.seq = some w ∧ t.hashes.lookup w.hash = some k ∧ t.syms[k.natAbs]? = some s

theorem known_lt {t : Table} {e : Sym} {w : HSeq} {k : Int} (hw : e.seq = some w) (h : t.hashes.lookup w.hash = some k) (hk : k.natAbs < t.syms.length) :
    Known t e := ⟨w, k, _, hw, h, List.getElem?_eq_getElem hk⟩

theorem emplace_keep {m : List (UInt64 × Int)} {a b : UInt64} {k x : Int} (h : m.lookup a = some k) : (emplace m b x).lookup a = some k := by
  unfold emplace
  split
  · exact h
  · rename_i hb
    rw [List.lookup_cons]
    split
    · rename_i e
      rw [beq_iff_eq] at e
      rw [e] at h
      exact absurd (by rw [h]; rfl) hb
    · exact h

theorem mergeSym_known {c : Env} {t t' : Table} {e : Sym} {id : Nat} {b : Bool} (h : t.mergeSym c e = some (t', id, b)) :
    Known t' e ∧ ∀ e', Known t e' → Known t' e' := by
  unfold Table.mergeSym at h
  split at h
  · simp at h
  · rename_i w hw
    split at h
    · rename_i k hk
      simp only [Option.map_eq_some_iff, Prod.mk.injEq] at h
      obtain ⟨s, hs, rfl, -⟩ := h
      exact ⟨⟨w, k, s, hw, hk, hs⟩, fun _ h => h⟩
    · rename_i hk
      simp only [Option.some.injEq, Prod.mk.injEq] at h
      obtain ⟨rfl, -, -⟩ := h
      constructor
      · refine known_lt hw (k := t.syms.length) ?_ ?_
        · have h1 : (emplace t.hashes w.hash (t.syms.length : Int)).lookup w.hash = some (t.syms.length : Int) := by
            unfold emplace
            rw [hk]
            simp
          dsimp only
          split
          · exact h1
          · exact emplace_keep h1
        · simp
      · rintro e' ⟨w', k', s', h1, h2, h3⟩
        refine ⟨w', k', s', h1, ?_, ?_⟩
        · dsimp only
          split
          · exact emplace_keep h2
          · exact emplace_keep (emplace_keep h2)
        · exact get_prefix (List.prefix_append _ _) h3

theorem mergeAll_known {c : Env} : ∀ (l : List Sym) {t t' : Table} {ids : List Nat} {n : Nat}, t.mergeAll c l = some (t', ids, n) →
    (∀ e ∈ l, Known t' e) ∧ ∀ e', Known t e' → Known t' e'
  | [], t, t', ids, n, h => by
    simp only [Table.mergeAll, Option.some.injEq, Prod.mk.injEq] at h
    exact h.1 ▸ ⟨by simp, fun _ h => h⟩
  | e :: l, t, t', ids, n, h => by
    unfold Table.mergeAll at h
    simp only [Option.bind_eq_bind, Option.bind_eq_some_iff, Option.some.injEq, Prod.mk.injEq] at h
    obtain ⟨⟨t1, id1, b1⟩, h1, ⟨t2, ids2, n2⟩, h2, rfl, -⟩ := h
    obtain ⟨k1, k2⟩ := mergeSym_known h1
    obtain ⟨k3, k4⟩ := mergeAll_known l h2
    refine ⟨?_, fun e' h => k4 _ (k2 _ h)⟩
    intro e' he'
    rcases List.mem_cons.mp he' with rfl | h
    · exact k4 _ k1
    · exact k3 _ h

theorem mergeAll_same {c : Env} {t : Table} : ∀ (l : List Sym), (∀ e ∈ l, Known t e) → ∃ ids, t.mergeAll c l = some (t, ids, 0)
  | [], _ => ⟨[], rfl⟩
  | e :: l, h => by
    obtain ⟨w, k, s, h1, h2, h3⟩ := h e List.mem_cons_self
    obtain ⟨ids, h4⟩ := mergeAll_same (c := c) l fun e he => h e (List.mem_cons_of_mem _ he)
    have h5 : t.mergeSym c e = some (t, s.id, false) := by simp [Table.mergeSym, h1, h2, h3]
    exact ⟨s.id :: ids, by simp [Table.mergeAll, h5, h4]⟩

theorem create_merge (h : Host) {t t' : Table} {ops : Mat HSeq} {al : Option (Mat HSeq)} {f : ℂ} {M : Option MonoMat}
    (hM : create h t ops al f = some (t', M)) : ∃ ids n, t.mergeAll h.env (identify h (isHerm h.env (al.getD ops)) (al.getD ops)) = some (t', ids, n) := by
  unfold create convert at hM
  simp only [Option.bind_eq_some_iff, Option.map_eq_some_iff] at hM
  obtain ⟨⟨t1, S⟩, ⟨⟨t2, ids, n⟩, h1, h2⟩, h3⟩ := hM
  simp only [Prod.mk.injEq] at h2
  obtain ⟨rfl, rfl⟩ := h2
  split at h3
  · simp only [Option.some.injEq, Prod.mk.injEq] at h3
    exact ⟨ids, n, h3.1 ▸ h1⟩
  · simp only [Option.map_eq_some_iff, Prod.mk.injEq] at h3
    obtain ⟨_, -, rfl, -⟩ := h3
    exact ⟨ids, n, h1⟩

theorem create_again (h : Host) {t t' : Table} {ops : Mat HSeq} {al : Option (Mat HSeq)} {f : ℂ} {M : Option MonoMat}
    (hM : create h t ops al f = some (t', M)) : create h t' ops al f = some (t', M) := by
  obtain ⟨ids, n, h1⟩ := create_merge h hM
  obtain ⟨ids', h2⟩ := mergeAll_same (c := h.env) _ (mergeAll_known _ h1).1
  rw [← hM]
  simp only [create, convert, h1, h2, Option.map_some]

end Moment.SymbolMatrix
