import Verif.Model.DerivedSystem
import Verif.Proof.MatrixSystem

/-! # Derived systems hold transformed matrices of the base system -/

namespace Moment.DerivedSystem

open MatrixSystem

variable {T W P R B M T' R' B' M' : Type}

/-- Indices that are the same for the derived system are the same for the base system. -/
def Agree (X : Setup T W P R B M T' R' B' M') : Prop := ∀ i j : Index W P, Same X.own i j → Same X.maker i j

/-- What operations do to a system, deletions included. -/
structure Later (mk : Maker T W P R B M) (S S' : System T W P B M) : Prop where
  len : S.matrices.length ≤ S'.matrices.length
  find : ∀ i, 0 ≤ S.find mk i → S'.find mk i = S.find mk i
  get : ∀ o : Int, o < S.matrices.length → ∀ m, S'.get o = some m → S.get o = some m

theorem Later.refl (mk : Maker T W P R B M) (S : System T W P B M) : Later mk S S := ⟨le_rfl, fun _ _ => rfl, fun _ _ _ h => h⟩

theorem Later.of_prefix {mk : Maker T W P R B M} {S S' : System T W P B M} (hm : S.matrices <+: S'.matrices) (hf : ∀ i, 0 ≤ S.find mk i → S'.find mk i = S.find mk i) :
    Later mk S S' := by
  refine ⟨hm.length_le, hf, fun o hl m h => ?_⟩
  obtain ⟨h0, h1⟩ := get_iff h
  obtain ⟨l, hl'⟩ := hm
  rw [← hl', List.getElem?_append_left (by omega)] at h1
  have := get_some h1
  rwa [Int.toNat_of_nonneg h0] at this

theorem Grows.later {mk : Maker T W P R B M} {S S' : System T W P B M} (h : Grows mk S S') : Later mk S S' := .of_prefix h.matrices h.old

theorem delete_later {mk : Maker T W P R B M} {S S' : System T W P B M} {i : Int} {b : Bool} (h : S.delete i = some (S', b)) : Later mk S S' := by
  obtain ⟨h1, -, -, h2, h3, h4⟩ := delete_spec h
  refine ⟨h2.ge, fun j _ => h1.find mk j, fun o hl m hm => ?_⟩
  cases b with
  | false => rwa [h4 rfl] at hm
  | true =>
    obtain ⟨a, -, c⟩ := h3 rfl
    obtain ⟨h0, hx⟩ := get_iff hm
    rw [c, List.getElem?_set] at hx
    split at hx
    · split at hx <;> simp at hx
    · have := get_some hx
      rwa [Int.toNat_of_nonneg h0] at this

theorem exec_later {mk : Maker T W P R B M} (ho : Ordered mk) {S S' : System T W P B M} (h : Inv mk S) {x : MatrixSystem.Op W P R B} {r : Out M}
    (hx : S.exec mk x = some (S', r)) : Later mk S S' := by
  by_cases hd : ∃ i, x = .delete i
  · obtain ⟨i, rfl⟩ := hd
    simp only [System.exec, Option.map_eq_some_iff, Prod.mk.injEq] at hx
    obtain ⟨⟨S'', b⟩, hy, rfl, -⟩ := hx
    exact delete_later hy
  · exact Grows.later (exec_grows ho h hx fun i e => hd ⟨i, e⟩)

/-- Two matrices belong together, as long as both are there. -/
def Match (X : Setup T W P R B M T' R' B' M') (S : System T W P B M) (U : System T' W P B' M') (b o : Int) : Prop :=
  ∀ m m', S.get b = some m → U.get o = some m' → X.map m = some m'

/-- What holds of derived systems at all times, also before sources are entered. -/
structure Sound (X : Setup T W P R B M T' R' B' M') (D : State T W P B M T' B' M') : Prop where
  base : Inv X.maker D.base
  own : Inv X.own D.own
  low : ∀ x ∈ D.sources, -1 ≤ x
  high : ∀ k, vectorFind D.sources k < D.own.matrices.length
  mapped : ∀ i, Mapped i → 0 ≤ D.own.find X.own i → 0 ≤ D.base.find X.maker i ∧ Match X D.base D.own (D.base.find X.maker i) (D.own.find X.own i)
  sources : ∀ k, 0 ≤ vectorFind D.sources k → k < D.base.matrices.length ∧ Match X D.base D.own k (vectorFind D.sources k)

/-- What holds of derived systems at all times. -/
structure DInv (X : Setup T W P R B M T' R' B' M') (D : State T W P B M T' B' M') : Prop extends Sound X D where
  known : ∀ i, Mapped i → 0 ≤ D.own.find X.own i → 0 ≤ vectorFind D.sources (D.base.find X.maker i).toNat

theorem dinv_new (X : Setup T W P R B M T' R' B' M') {S : System T W P B M} (h : Inv X.maker S) (t : T') : DInv X (State.new S t : State T W P B M T' B' M') := by
  refine ⟨⟨h, inv_new X.own t, by simp [State.new], by simp [State.new, vectorFind]; omega, fun i hi hf => ?_, by simp [State.new, vectorFind]⟩, fun i hi hf => ?_⟩ <;>
    cases i <;> simp [State.new, System.new, System.find, vectorFind, mapFind] at hf

theorem low_find {v : List Int} (h : ∀ x ∈ v, -1 ≤ x) {k : Nat} (hk : vectorFind v k < 0) : vectorFind v k = -1 := by
  rw [vectorFind_eq, List.getD_eq_getElem?_getD] at *
  cases e : v[k]? with
  | none => simp
  | some x =>
    rw [e] at hk
    simp only [Option.getD_some] at *
    have := h x (List.mem_of_getElem? e)
    omega

/-- Changes of either system that keep what is there. -/
theorem DInv.later {X : Setup T W P R B M T' R' B' M'} {D : State T W P B M T' B' M'} (h : DInv X D) {S : System T W P B M} {U : System T' W P B' M'}
    (hS : Later X.maker D.base S) (hiS : Inv X.maker S) (hU : Later X.own D.own U) (hiU : Inv X.own U)
    (hn : ∀ i, Mapped i → D.own.find X.own i < 0 → U.find X.own i < 0) : DInv X ⟨S, U, D.sources⟩ := by
  have move : ∀ b o : Int, b < D.base.matrices.length → o < D.own.matrices.length → Match X D.base D.own b o → Match X S U b o :=
    fun b o hb ho hm m m' h1 h2 => hm m m' (hS.get b hb m h1) (hU.get o ho m' h2)
  have old : ∀ i, Mapped i → 0 ≤ U.find X.own i → 0 ≤ D.own.find X.own i := fun i hi hf => by
    by_contra hc
    have := hn i hi (by omega)
    omega
  refine ⟨⟨hiS, hiU, h.low, fun k => Int.lt_of_lt_of_le (h.high k) (Int.ofNat_le.mpr hU.len), fun i hi hf => ?_, fun k hk => ?_⟩, fun i hi hf => ?_⟩
  · have ho := old i hi hf
    obtain ⟨h1, h2⟩ := h.mapped i hi ho
    dsimp only
    rw [hS.find i h1, hU.find i ho]
    exact ⟨h1, move _ _ (h.base.range i) (h.own.range i) h2⟩
  · obtain ⟨h1, h2⟩ := h.sources k hk
    exact ⟨lt_of_lt_of_le h1 hS.len, move _ _ (by exact_mod_cast h1) (h.high k) h2⟩
  · have ho := old i hi hf
    dsimp only
    rw [hS.find i (h.mapped i hi ho).1]
    exact h.known i hi ho

theorem push_same (S : System T W P B M) (m : M) : SameIndices S (S.push m) ∧ S.matrices <+: (S.push m).matrices := ⟨⟨rfl, rfl, rfl, rfl⟩, List.prefix_append _ _⟩

theorem push_get (S : System T W P B M) (m : M) : (S.push m).get (S.matrices.length : Int) = some m := get_some (by simp [System.push])

/-- Entering the source of a matrix that is already in the system. -/
theorem Sound.source {X : Setup T W P R B M T' R' B' M'} {D : State T W P B M T' B' M'} (h : Sound X D) {k o : Nat} (hk : k < D.base.matrices.length)
    (ho : o < D.own.matrices.length) (hm : Match X D.base D.own k o) : Sound X ⟨D.base, D.own, (vectorInsert D.sources k o).1⟩ ∧
    0 ≤ vectorFind (vectorInsert D.sources k o).1 k ∧ ∀ j, 0 ≤ vectorFind D.sources j → vectorFind (vectorInsert D.sources k o).1 j = vectorFind D.sources j := by
  by_cases hf : vectorFind D.sources k < 0
  · have hi' := vectorFind_insert (o := (o : Int)) (low_find h.low hf)
    refine ⟨⟨h.base, h.own, fun x hx => ?_, fun j => ?_, h.mapped, fun j hj => ?_⟩, by rw [hi', if_pos rfl]; omega, fun j hj => ?_⟩
    · rcases vectorInsert_mem hx with y | y | y
      · exact h.low x y
      · omega
      · omega
    · dsimp only
      rw [hi']
      split
      · omega
      · exact h.high j
    · dsimp only at hj ⊢
      rw [hi'] at hj ⊢
      split
      · rename_i e
        subst e
        exact ⟨hk, hm⟩
      · rename_i e
        rw [if_neg e] at hj
        exact h.sources j hj
    · rw [hi', if_neg]
      rintro rfl
      omega
  · have : (vectorInsert D.sources k (o : Int)).1 = D.sources := by
      unfold vectorInsert
      rw [vectorFind_eq] at hf
      rw [if_neg, if_pos]
      · omega
      · intro hl
        rw [List.getD_eq_getElem?_getD, List.getElem?_eq_none hl, Option.getD_none] at hf
        omega
    rw [this]
    exact ⟨h, by omega, fun _ _ => rfl⟩

/-- A matrix that was made is entered under its index. -/
theorem DInv.enter {X : Setup T W P R B M T' R' B' M'} (hA : Agree X) (ho : Ordered X.maker) (ho' : Ordered X.own) {D : State T W P B M T' B' M'} (h : DInv X D)
    {i : Index W P} (hi : D.own.find X.own i < 0) {b : Nat} {m : M} {m' : M'} (hb : D.base.find X.maker i = b) (hm : D.base.matrices[b]? = some (some m))
    (ht : X.map m = some m') : DInv X (D.enter X i m') := by
  have hp := h.own.same (push_same D.own m').1 (push_same D.own m').2.length_le
  have hpf := (push_same D.own m').1.find X.own
  have hins := hp.find_insert ho' (i := i) (by rw [hpf]; exact hi) (D.own.matrices.length : Int)
  have hmat : ((D.own.push m').insert X.own i D.own.matrices.length).matrices = (D.own.push m').matrices := by cases i <;> rfl
  have hget : ∀ o, ((D.own.push m').insert X.own i D.own.matrices.length).get o = (D.own.push m').get o := by
    intro o
    unfold System.get
    rw [hmat]
  have hlen : (D.own.push m').matrices.length = D.own.matrices.length + 1 := by simp [System.push]
  have hinv : Inv X.own ((D.own.push m').insert X.own i D.own.matrices.length) := by
    refine hp.insert ho' (by rw [hpf]; exact hi) (by omega) fun j => ?_
    rw [hpf]
    have := h.own.range j
    omega
  have hlater : Later X.own D.own ((D.own.push m').insert X.own i D.own.matrices.length) := by
    refine Later.of_prefix (by rw [hmat]; exact (push_same D.own m').2) fun j hj => ?_
    have hs : ¬ Same X.own i j := fun hs => by
      have := h.own.find_same ho' hs.symm hj
      omega
    rw [(hins j).2 hs, hpf]
  have hk : b < D.base.matrices.length := (List.getElem?_eq_some_iff.mp hm).1
  have hmatch : Match X D.base ((D.own.push m').insert X.own i D.own.matrices.length) b D.own.matrices.length := by
    intro n n' h1 h2
    rw [get_some hm] at h1
    rw [hget, push_get] at h2
    obtain rfl := Option.some.inj h1
    obtain rfl := Option.some.inj h2
    exact ht
  have main : Sound X ⟨D.base, (D.own.push m').insert X.own i D.own.matrices.length, D.sources⟩ := by
    have move : ∀ b o : Int, o < D.own.matrices.length → Match X D.base D.own b o → Match X D.base ((D.own.push m').insert X.own i D.own.matrices.length) b o :=
      fun b o ho hm m m' h1 h2 => hm m m' h1 (hlater.get o ho m' h2)
    refine ⟨h.base, hinv, h.low, fun k => Int.lt_of_lt_of_le (h.high k) (Int.ofNat_le.mpr hlater.len), fun j hj hf => ?_, fun k hk => ?_⟩
    · dsimp only at hf ⊢
      by_cases hs : Same X.own i j
      · rw [(hins j).1 hs, h.base.find_same ho (hA i j hs) (by omega), hb]
        exact ⟨by omega, hmatch⟩
      · rw [(hins j).2 hs, hpf] at hf ⊢
        obtain ⟨h1, h2⟩ := h.mapped j hj hf
        exact ⟨h1, move _ _ (h.own.range j) h2⟩
    · obtain ⟨h1, h2⟩ := h.sources k hk
      exact ⟨h1, move _ _ (h.high k) h2⟩
  have := main.source (k := b) (o := D.own.matrices.length) hk (by dsimp only; rw [hmat]; omega) hmatch
  unfold State.enter
  rw [hb]
  obtain ⟨n1, n2, n3⟩ := this
  refine ⟨n1, fun j hj hf => ?_⟩
  dsimp only at hf n2 n3 ⊢
  by_cases hs : Same X.own i j
  · rw [h.base.find_same ho (hA i j hs) (by omega), hb]
    exact n2
  · rw [(hins j).2 hs, hpf] at hf
    have := h.known j hj hf
    rwa [Int.toNat_natCast, n3 _ this]

/-- What a request for a matrix that comes from the base system does. -/
theorem make_spec {X : Setup T W P R B M T' R' B' M'} (hA : Agree X) (ho : Ordered X.maker) (ho' : Ordered X.own) {D : State T W P B M T' B' M'} (h : DInv X D)
    {i : Index W P} (hi : D.own.find X.own i < 0) {r : State T W P B M T' B' M' × Option (Nat × M')} (hr : D.make X i = some r) :
    DInv X r.1 ∧ Grows X.maker D.base r.1.base ∧ Later X.own D.own r.1.own ∧
    ∀ o m', r.2 = some (o, m') → r.1.own.find X.own i = o ∧ r.1.own.get o = some m' ∧
      ∃ b m, r.1.base.find X.maker i = (b : Nat) ∧ r.1.base.get b = some m ∧ X.map m = some m' ∧ (∃ x, vectorFind r.1.sources b = (x : Nat) ∧ r.1.own.get x = some m' ∨
        0 ≤ vectorFind D.sources b) := by
  unfold State.make at hr
  split at hr
  · obtain rfl := Option.some.inj hr
    exact ⟨h, .refl h.base, .refl _ _, by simp⟩
  · simp only [Option.map_eq_some_iff] at hr
    obtain ⟨⟨S, q⟩, hq, rfl⟩ := hr
    obtain ⟨g1, g2, g3⟩ := request_gives ho h.base hq
    have stay : DInv X ⟨S, D.own, D.sources⟩ := h.later (Grows.later g1) g1.inv (.refl _ _) h.own fun _ _ e => e
    cases q with
    | none => exact ⟨stay, g1, .refl _ _, by simp⟩
    | some om =>
      obtain ⟨b, m⟩ := om
      obtain ⟨f1, f2⟩ := g3 b m rfl
      dsimp only at f1 f2 ⊢
      cases ht : X.map m with
      | none => exact ⟨stay, g1, .refl _ _, by simp⟩
      | some m' =>
        dsimp only
        have e := stay.enter hA ho ho' hi f1 f2 ht
        have hp := h.own.same (push_same D.own m').1 (push_same D.own m').2.length_le
        have hpf := (push_same D.own m').1.find X.own
        have hins := hp.find_insert ho' (i := i) (by rw [hpf]; exact hi) (D.own.matrices.length : Int)
        have hmat : ((D.own.push m').insert X.own i D.own.matrices.length).matrices = (D.own.push m').matrices := by cases i <;> rfl
        have hget : ∀ o, ((D.own.push m').insert X.own i D.own.matrices.length).get o = (D.own.push m').get o := by
          intro o
          unfold System.get
          rw [hmat]
        refine ⟨e, g1, ?_, ?_⟩
        · refine Later.of_prefix (by simp only [State.enter]; rw [hmat]; exact (push_same D.own m').2) fun j hj => ?_
          have hs : ¬ Same X.own i j := fun hs => by
            have := h.own.find_same ho' hs.symm hj
            omega
          simp only [State.enter]
          rw [(hins j).2 hs, hpf]
        · intro o n hn
          simp only [Option.some.injEq, Prod.mk.injEq] at hn
          obtain ⟨rfl, rfl⟩ := hn
          refine ⟨(hins i).1 (same_refl ho' i), by simp only [State.enter]; rw [hget, push_get], b, m, f1, get_some f2, ht, ?_⟩
          by_cases hv : 0 ≤ vectorFind D.sources b
          · exact ⟨0, .inr hv⟩
          · refine ⟨D.own.matrices.length, .inl ⟨?_, by simp only [State.enter]; rw [hget, push_get]⟩⟩
            simp only [State.enter, f1, Int.toNat_natCast]
            rw [vectorFind_insert (low_find h.low (by omega)), if_pos rfl]

theorem request_subst {X : Setup T W P R B M T' R' B' M'} {U : System T' W P B' M'} {i : Index W P} (hi : Mapped i = false)
    {r : System T' W P B' M' × Option (Nat × M')} (hr : U.request X.own i = some r) {j : Index W P} (hj : Mapped j = true) : r.1.find X.own j = U.find X.own j := by
  cases i with
  | subst a b =>
    unfold System.request System.create at hr
    dsimp only at hr
    split at hr
    · obtain rfl := Option.some.inj hr
      rfl
    · simp only [Option.map_eq_some_iff] at hr
      obtain ⟨⟨U', q⟩, hq, rfl⟩ := hr
      have hf : U'.find X.own j = U.find X.own j := by
        simp only [System.make, System.makeSubst] at hq
        split at hq
        · simp only [Option.map_eq_some_iff] at hq
          obtain ⟨t, _, ht⟩ := hq
          have := made_find (mk := X.own) (S := U) t j
          rwa [ht] at this
        · simp only [Option.some.injEq, Prod.mk.injEq] at hq
          rw [hq.1]
      cases q with
      | none => exact hf
      | some om =>
        dsimp only
        rw [← hf]
        cases j <;> simp_all [System.insert, System.find, Mapped]
  | _ => simp [Mapped] at hi

/-- What any request does. -/
theorem request_spec {X : Setup T W P R B M T' R' B' M'} (hA : Agree X) (ho : Ordered X.maker) (ho' : Ordered X.own) {D : State T W P B M T' B' M'} (h : DInv X D)
    {i : Index W P} {r : State T W P B M T' B' M' × Option (Nat × M')} (hr : D.request X i = some r) :
    DInv X r.1 ∧ Grows X.maker D.base r.1.base ∧ Later X.own D.own r.1.own ∧ ∀ o m', r.2 = some (o, m') → r.1.own.find X.own i = o ∧ r.1.own.get o = some m' := by
  unfold State.request at hr
  split at hr
  · dsimp only at hr
    split at hr
    · rename_i hf
      obtain rfl := Option.some.inj hr
      refine ⟨h, .refl h.base, .refl _ _, fun o m' e => ?_⟩
      simp only [Option.map_eq_some_iff, Prod.mk.injEq] at e
      obtain ⟨m, hm, rfl, rfl⟩ := e
      rw [Int.toNat_of_nonneg hf]
      exact ⟨rfl, hm⟩
    · rename_i hf
      obtain ⟨h1, h2, h3, h4⟩ := make_spec hA ho ho' h (by omega) hr
      exact ⟨h1, h2, h3, fun o m' e => ⟨(h4 o m' e).1, (h4 o m' e).2.1⟩⟩
  · rename_i hi
    simp only [Option.map_eq_some_iff] at hr
    obtain ⟨q, hq, rfl⟩ := hr
    obtain ⟨g1, g2, g3⟩ := request_gives ho' h.own hq
    refine ⟨h.later (.refl _ _) h.base (Grows.later g1) g1.inv fun j hj e => ?_, .refl h.base, Grows.later g1, fun o m' e => ⟨(g3 o m' e).1, get_some (g3 o m' e).2⟩⟩
    rwa [request_subst (by simpa using hi) hq hj]

/-- What a request by the number of the source does. -/
theorem derived_spec {X : Setup T W P R B M T' R' B' M'} {D : State T W P B M T' B' M'} (h : DInv X D) (k : Nat) :
    DInv X (D.derived X k).1 ∧ (D.derived X k).1.base = D.base ∧ Later X.own D.own (D.derived X k).1.own ∧
    ∀ o m', (D.derived X k).2 = some (o, m') → vectorFind (D.derived X k).1.sources k = o ∧ (D.derived X k).1.own.get o = some m' := by
  unfold State.derived
  dsimp only
  split
  · rename_i hf
    refine ⟨h, rfl, .refl _ _, fun o m' e => ?_⟩
    simp only [Option.map_eq_some_iff, Prod.mk.injEq] at e
    obtain ⟨m, hm, rfl, rfl⟩ := e
    dsimp only
    rw [Int.toNat_of_nonneg hf]
    exact ⟨rfl, hm⟩
  · rename_i hf
    cases e : (D.base.get k).bind X.map with
    | none => exact ⟨h, rfl, .refl _ _, by simp⟩
    | some m' =>
      rw [Option.bind_eq_some_iff] at e
      obtain ⟨m, hm, ht⟩ := e
      dsimp only
      have hl : Later X.own D.own (D.own.push m') := .of_prefix (push_same D.own m').2 fun j _ => (push_same D.own m').1.find X.own j
      have hi := h.own.same (push_same D.own m').1 (push_same D.own m').2.length_le
      have step := h.later (.refl _ _) h.base hl hi fun j _ e => by rwa [(push_same D.own m').1.find X.own j]
      have hk : k < D.base.matrices.length := (List.getElem?_eq_some_iff.mp (by simpa using (get_iff hm).2)).1
      have hm' : Match X D.base (D.own.push m') k D.own.matrices.length := by
        intro n n' h1 h2
        rw [push_get] at h2
        rw [hm] at h1
        obtain rfl := Option.some.inj h1
        obtain rfl := Option.some.inj h2
        exact ht
      obtain ⟨n1, -, n3⟩ := step.toSound.source hk (by simp [System.push]) hm'
      refine ⟨⟨n1, fun j hj hf => ?_⟩, rfl, hl, ?_⟩
      · have := step.known j hj hf
        dsimp only at n3 this ⊢
        rwa [n3 _ this]
      · intro o n e
        simp only [Option.some.injEq, Prod.mk.injEq] at e
        obtain ⟨rfl, rfl⟩ := e
        refine ⟨?_, push_get _ _⟩
        rw [vectorFind_insert (low_find h.low (by omega)), if_pos rfl]

theorem exec_spec {X : Setup T W P R B M T' R' B' M'} (hA : Agree X) (ho : Ordered X.maker) (ho' : Ordered X.own) {D D' : State T W P B M T' B' M'} (h : DInv X D)
    {x : Op W P R B} (hx : D.exec X x = some D') : DInv X D' ∧ Later X.maker D.base D'.base ∧ Later X.own D.own D'.own := by
  cases x with
  | base y =>
    simp only [State.exec, Option.map_eq_some_iff] at hx
    obtain ⟨⟨S, r⟩, hr, rfl⟩ := hx
    have hl := exec_later ho h.base hr
    exact ⟨h.later hl (exec_inv ho h.base hr).1 (.refl _ _) h.own fun _ _ e => e, hl, .refl _ _⟩
  | request i =>
    simp only [State.exec, Option.map_eq_some_iff] at hx
    obtain ⟨r, hr, rfl⟩ := hx
    obtain ⟨h1, h2, h3, -⟩ := request_spec hA ho ho' h hr
    exact ⟨h1, Grows.later h2, h3⟩
  | derived k =>
    simp only [State.exec, Option.some.injEq] at hx
    subst hx
    obtain ⟨h1, h2, h3, -⟩ := derived_spec h k
    exact ⟨h1, by rw [h2]; exact .refl _ _, h3⟩
  | delete o =>
    simp only [State.exec, Option.map_eq_some_iff] at hx
    obtain ⟨⟨U, b⟩, hr, rfl⟩ := hx
    have hl := delete_later (mk := X.own) hr
    obtain ⟨h1, -, -, h2, -⟩ := delete_spec hr
    exact ⟨h.later (.refl _ _) h.base hl (h.own.same h1 h2.ge) fun j _ e => by rwa [h1.find X.own j], .refl _ _, hl⟩

theorem Steps.spec {X : Setup T W P R B M T' R' B' M'} (hA : Agree X) (ho : Ordered X.maker) (ho' : Ordered X.own) {D D' : State T W P B M T' B' M'}
    {l : List (Op W P R B)} (hs : Steps X D l D') (h : DInv X D) : DInv X D' := by
  induction hs with
  | refl => exact h
  | step _ hx ih => exact (exec_spec hA ho ho' ih hx).1

theorem Later.trans {mk : Maker T W P R B M} {S S' S'' : System T W P B M} (h : Later mk S S') (h' : Later mk S' S'') : Later mk S S'' :=
  ⟨h.len.trans h'.len, fun i hi => by rw [h'.find i (by rw [h.find i hi]; exact hi), h.find i hi],
    fun o hl m hm => h.get o hl m (h'.get o (Int.lt_of_lt_of_le hl (Int.ofNat_le.mpr h.len)) m hm)⟩

theorem Steps.later {X : Setup T W P R B M T' R' B' M'} (hA : Agree X) (ho : Ordered X.maker) (ho' : Ordered X.own) {D D' : State T W P B M T' B' M'}
    {l : List (Op W P R B)} (hs : Steps X D l D') (h : DInv X D) : Later X.maker D.base D'.base ∧ Later X.own D.own D'.own := by
  induction hs with
  | refl => exact ⟨.refl _ _, .refl _ _⟩
  | step hs hx ih =>
    obtain ⟨-, h1, h2⟩ := exec_spec hA ho ho' (hs.spec hA ho ho' h) hx
    exact ⟨ih.1.trans h1, ih.2.trans h2⟩

theorem enter_matrices (X : Setup T W P R B M T' R' B' M') (D : State T W P B M T' B' M') (i : Index W P) (m : M') :
    (D.enter X i m).own.matrices = D.own.matrices ++ [some m] := by cases i <;> rfl

/-- Only deletions remove matrices, and what is added is there. -/
theorem request_matrices {X : Setup T W P R B M T' R' B' M'} {D : State T W P B M T' B' M'} {i : Index W P} {r : State T W P B M T' B' M' × Option (Nat × M')}
    (hr : D.request X i = some r) : r.1.own.matrices = D.own.matrices ∨ ∃ m, r.1.own.matrices = D.own.matrices ++ [some m] := by
  unfold State.request at hr
  split at hr
  · dsimp only at hr
    split at hr
    · obtain rfl := Option.some.inj hr
      exact .inl rfl
    · unfold State.make at hr
      split at hr
      · obtain rfl := Option.some.inj hr
        exact .inl rfl
      · simp only [Option.map_eq_some_iff] at hr
        obtain ⟨⟨S, q⟩, -, rfl⟩ := hr
        cases q with
        | none => exact .inl rfl
        | some om =>
          dsimp only
          cases X.map om.2 with
          | none => exact .inl rfl
          | some m' => exact .inr ⟨m', enter_matrices X _ i m'⟩
  · rename_i hi
    simp only [Option.map_eq_some_iff] at hr
    obtain ⟨r, hr, rfl⟩ := hr
    dsimp only
    cases i with
    | subst a b =>
      unfold System.request System.create at hr
      dsimp only at hr
      split at hr
      · obtain rfl := Option.some.inj hr
        exact .inl rfl
      · simp only [Option.map_eq_some_iff] at hr
        obtain ⟨⟨U', q⟩, hq, rfl⟩ := hr
        have hf : U'.matrices = D.own.matrices ∨ ∃ m, U'.matrices = D.own.matrices ++ [some m] := by
          simp only [System.make, System.makeSubst] at hq
          split at hq
          · simp only [Option.map_eq_some_iff] at hq
            obtain ⟨⟨t, m⟩, _, ht⟩ := hq
            cases m with
            | none => simp only [System.made, Prod.mk.injEq] at ht; exact .inl (by rw [← ht.1])
            | some m => simp only [System.made, Prod.mk.injEq] at ht; exact .inr ⟨m, by rw [← ht.1]; rfl⟩
          · simp only [Option.some.injEq, Prod.mk.injEq] at hq
            exact .inl (by rw [hq.1])
        cases q with
        | none => exact hf
        | some om => exact hf
    | _ => simp [Mapped] at hi

theorem derived_matrices (X : Setup T W P R B M T' R' B' M') (D : State T W P B M T' B' M') (k : Nat) :
    (D.derived X k).1.own.matrices = D.own.matrices ∨ ∃ m, (D.derived X k).1.own.matrices = D.own.matrices ++ [some m] := by
  unfold State.derived
  dsimp only
  split
  · exact .inl rfl
  · split
    · exact .inl rfl
    · exact .inr ⟨_, rfl⟩

theorem exec_matrices {X : Setup T W P R B M T' R' B' M'} {D D' : State T W P B M T' B' M'} {x : Op W P R B} (hx : D.exec X x = some D') (hd : ∀ o, x ≠ .delete o) :
    D'.own.matrices = D.own.matrices ∨ ∃ m, D'.own.matrices = D.own.matrices ++ [some m] := by
  cases x with
  | base y =>
    simp only [State.exec, Option.map_eq_some_iff] at hx
    obtain ⟨r, -, rfl⟩ := hx
    exact .inl rfl
  | request i =>
    simp only [State.exec, Option.map_eq_some_iff] at hx
    obtain ⟨r, hr, rfl⟩ := hx
    exact request_matrices hr
  | derived k =>
    simp only [State.exec, Option.some.injEq] at hx
    subst hx
    exact derived_matrices X D k
  | delete o => exact absurd rfl (hd o)

theorem exec_kept {X : Setup T W P R B M T' R' B' M'} {D D' : State T W P B M T' B' M'} {x : Op W P R B} (hx : D.exec X x = some D') {o : Nat} {m : M'}
    (hg : D.own.get o = some m) (hd : x ≠ .delete o) : D'.own.get o = some m := by
  have h1 := (get_iff hg).2
  simp only [Int.toNat_natCast] at h1
  have hlt := (List.getElem?_eq_some_iff.mp h1).1
  apply get_some
  by_cases hd' : ∃ k, x = .delete k
  · obtain ⟨k, rfl⟩ := hd'
    simp only [State.exec, Option.map_eq_some_iff] at hx
    obtain ⟨⟨U, b⟩, hr, rfl⟩ := hx
    obtain ⟨-, -, -, -, h3, h4⟩ := delete_spec hr
    cases b with
    | false => dsimp only; rwa [h4 rfl]
    | true =>
      obtain ⟨a, -, c⟩ := h3 rfl
      dsimp only at c ⊢
      rw [c, List.getElem?_set_ne, h1]
      rintro rfl
      exact hd (by rw [Int.toNat_of_nonneg a])
  · rcases exec_matrices hx fun k e => hd' ⟨k, e⟩ with e | ⟨n, e⟩
    · rwa [e]
    · rwa [e, List.getElem?_append_left hlt]

theorem Steps.kept {X : Setup T W P R B M T' R' B' M'} {D D' : State T W P B M T' B' M'} {l : List (Op W P R B)} (hs : Steps X D l D') {o : Nat} {m : M'}
    (hg : D.own.get o = some m) (hd : .delete o ∉ l) : D'.own.get o = some m := by
  induction hs with
  | refl => exact hg
  | step _ hx ih => exact exec_kept hx (ih fun e => hd (List.mem_append_left _ e)) fun e => hd (by simp [e])

/-- If nothing is deleted, all matrices are there. -/
theorem Steps.alive {X : Setup T W P R B M T' R' B' M'} {D D' : State T W P B M T' B' M'} {l : List (Op W P R B)} (hs : Steps X D l D')
    (hg : ∀ x ∈ D.own.matrices, x.isSome) (hd : ∀ o, .delete o ∉ l) : ∀ x ∈ D'.own.matrices, x.isSome := by
  induction hs with
  | refl => exact hg
  | @step D' D'' l x _ hx ih =>
    have ih := ih fun o e => hd o (List.mem_append_left _ e)
    rcases exec_matrices hx fun o e => hd o (by simp [e]) with e | ⟨n, e⟩
    · rwa [e]
    · rw [e]
      intro y hy
      rcases List.mem_append.mp hy with a | a
      · exact ih y a
      · rw [List.mem_singleton.mp a]; rfl

theorem alive_get {U : System T W P B M} (h : ∀ x ∈ U.matrices, x.isSome) {o : Int} (h0 : 0 ≤ o) (hl : o < U.matrices.length) : ∃ m, U.get o = some m := by
  have hl' : o.toNat < U.matrices.length := by omega
  obtain ⟨m, hm⟩ := Option.isSome_iff_exists.mp (h _ (List.getElem_mem hl'))
  refine ⟨m, ?_⟩
  have := get_some (S := U) (o := o.toNat) (m := m) (by rw [List.getElem?_eq_getElem hl', hm])
  rwa [Int.toNat_of_nonneg h0] at this

/-! ## Without requests by the number of the source -/

/-- Sources and indices lead to the same matrices. -/
structure Tied (X : Setup T W P R B M T' R' B' M') (D : State T W P B M T' B' M') : Prop where
  index : ∀ i, Mapped i → 0 ≤ D.own.find X.own i → vectorFind D.sources (D.base.find X.maker i).toNat = D.own.find X.own i
  source : ∀ k, 0 ≤ vectorFind D.sources k → ∃ i, Mapped i ∧ 0 ≤ D.own.find X.own i ∧ D.base.find X.maker i = k

theorem tied_new (X : Setup T W P R B M T' R' B' M') (S : System T W P B M) (t : T') : Tied X (State.new S t : State T W P B M T' B' M') := by
  refine ⟨fun i hi hf => ?_, by simp [State.new, vectorFind]⟩
  cases i <;> simp [State.new, System.new, System.find, vectorFind, mapFind] at hf

theorem Tied.later {X : Setup T W P R B M T' R' B' M'} {D : State T W P B M T' B' M'} (h : DInv X D) (ht : Tied X D) {S : System T W P B M} {U : System T' W P B' M'}
    (hS : Later X.maker D.base S) (hU : ∀ i, Mapped i → U.find X.own i = D.own.find X.own i) : Tied X ⟨S, U, D.sources⟩ := by
  refine ⟨fun i hi hf => ?_, fun k hk => ?_⟩
  · dsimp only at hf ⊢
    rw [hU i hi] at hf ⊢
    rw [hS.find i (h.mapped i hi hf).1]
    exact ht.index i hi hf
  · obtain ⟨i, h1, h2, h3⟩ := ht.source k hk
    refine ⟨i, h1, by dsimp only; rwa [hU i h1], ?_⟩
    dsimp only
    rw [hS.find i (h.mapped i h1 h2).1, h3]

/-- The number of the source is not yet known when a matrix is made. -/
theorem Tied.fresh {X : Setup T W P R B M T' R' B' M'} (hA' : ∀ i j, Same X.maker i j → Same X.own i j) (ho' : Ordered X.own) {D : State T W P B M T' B' M'}
    (h : DInv X D) (ht : Tied X D) {i : Index W P} (hi : D.own.find X.own i < 0) {b : Nat} (hb : D.base.find X.maker i = b) : vectorFind D.sources b = -1 := by
  apply low_find h.low
  by_contra hc
  obtain ⟨j, h1, h2, h3⟩ := ht.source b (by omega)
  have hs := h.base.inj j i (by omega) (by rw [h3, hb])
  have := h.own.find_same ho' (hA' j i hs) h2
  omega

theorem Tied.enter {X : Setup T W P R B M T' R' B' M'} (hA : Agree X) (hA' : ∀ i j, Same X.maker i j → Same X.own i j) (ho : Ordered X.maker) (ho' : Ordered X.own)
    {D : State T W P B M T' B' M'} (h : DInv X D) (ht : Tied X D) {i : Index W P} (hM : Mapped i) (hi : D.own.find X.own i < 0) {b : Nat} (m' : M')
    (hb : D.base.find X.maker i = b) : Tied X (D.enter X i m') := by
  have hp := h.own.same (push_same D.own m').1 (push_same D.own m').2.length_le
  have hpf := (push_same D.own m').1.find X.own
  have hins := hp.find_insert ho' (i := i) (by rw [hpf]; exact hi) (D.own.matrices.length : Int)
  have hv := vectorFind_insert (o := (D.own.matrices.length : Int)) (ht.fresh hA' ho' h hi hb)
  refine ⟨fun j hj hf => ?_, fun k hk => ?_⟩
  · simp only [State.enter, hb, Int.toNat_natCast] at hf ⊢
    rw [hv]
    by_cases hs : Same X.own i j
    · rw [(hins j).1 hs, h.base.find_same ho (hA i j hs) (by omega), hb]
      simp
    · rw [(hins j).2 hs, hpf] at hf ⊢
      rw [if_neg, ht.index j hj hf]
      intro e
      apply hs
      have := (h.mapped j hj hf).1
      exact hA' i j (h.base.inj i j (by omega) (by omega))
  · simp only [State.enter, hb, Int.toNat_natCast] at hk ⊢
    rw [hv] at hk
    split at hk
    · rename_i e
      exact ⟨i, hM, by rw [(hins i).1 (same_refl ho' i)]; omega, by rw [hb, e]⟩
    · obtain ⟨j, h1, h2, h3⟩ := ht.source k hk
      refine ⟨j, h1, ?_, h3⟩
      have hs : ¬ Same X.own i j := fun hs => by
        have := h.own.find_same ho' hs.symm h2
        omega
      rw [(hins j).2 hs, hpf]
      exact h2

theorem Tied.request {X : Setup T W P R B M T' R' B' M'} (hA : Agree X) (hA' : ∀ i j, Same X.maker i j → Same X.own i j) (ho : Ordered X.maker) (ho' : Ordered X.own)
    {D : State T W P B M T' B' M'} (h : DInv X D) (ht : Tied X D) {i : Index W P} {r : State T W P B M T' B' M' × Option (Nat × M')} (hr : D.request X i = some r) :
    Tied X r.1 := by
  unfold State.request at hr
  split at hr
  · rename_i hM
    dsimp only at hr
    split at hr
    · obtain rfl := Option.some.inj hr
      exact ht
    · rename_i hf
      unfold State.make at hr
      split at hr
      · obtain rfl := Option.some.inj hr
        exact ht
      · simp only [Option.map_eq_some_iff] at hr
        obtain ⟨⟨S, q⟩, hq, rfl⟩ := hr
        obtain ⟨g1, g2, g3⟩ := request_gives ho h.base hq
        have st : Tied X ⟨S, D.own, D.sources⟩ := ht.later h (Grows.later g1) fun _ _ => rfl
        have hD : DInv X ⟨S, D.own, D.sources⟩ := h.later (Grows.later g1) g1.inv (.refl _ _) h.own fun _ _ e => e
        cases q with
        | none => exact st
        | some om =>
          obtain ⟨b, m⟩ := om
          dsimp only
          cases X.map m with
          | none => exact st
          | some m' => exact st.enter hA hA' ho ho' hD hM (Int.not_le.mp hf) m' (g3 b m rfl).1
  · rename_i hi
    simp only [Option.map_eq_some_iff] at hr
    obtain ⟨q, hq, rfl⟩ := hr
    exact ht.later h (.refl _ _) fun j hj => request_subst (by simpa using hi) hq hj

theorem Steps.tied {X : Setup T W P R B M T' R' B' M'} (hA : Agree X) (hA' : ∀ i j, Same X.maker i j → Same X.own i j) (ho : Ordered X.maker) (ho' : Ordered X.own)
    {D D' : State T W P B M T' B' M'} {l : List (Op W P R B)} (hs : Steps X D l D') (h : DInv X D) (ht : Tied X D) (hd : ∀ k, .derived k ∉ l) : Tied X D' := by
  induction hs with
  | refl => exact ht
  | @step D' D'' l x hs hx ih =>
    have ih := ih fun o e => hd o (List.mem_append_left _ e)
    have hD := hs.spec hA ho ho' h
    cases x with
    | base y =>
      simp only [State.exec, Option.map_eq_some_iff] at hx
      obtain ⟨⟨S, r⟩, hr, rfl⟩ := hx
      exact ih.later hD (exec_later ho hD.base hr) fun _ _ => rfl
    | request i =>
      simp only [State.exec, Option.map_eq_some_iff] at hx
      obtain ⟨r, hr, rfl⟩ := hx
      exact ih.request hA hA' ho ho' hD hr
    | derived k => exact absurd (by simp) (hd k)
    | delete o =>
      simp only [State.exec, Option.map_eq_some_iff] at hx
      obtain ⟨⟨U, b⟩, hr, rfl⟩ := hx
      exact ih.later hD (.refl _ _) fun j _ => (delete_spec hr).1.find X.own j

end Moment.DerivedSystem
