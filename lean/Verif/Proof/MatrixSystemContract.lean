import Verif.Proof.MatrixSystem

/-! # What makers promise, and what requests give in return -/

namespace Moment.MatrixSystem

variable {T W P R B M : Type}

/-- The indices whose matrix depends on nothing but the index. -/
def Index.Plain : Index W P → Prop
  | .subst _ _ => False
  | _ => True

/-- The words in which promises are given: tables that are all right, tables that come from earlier ones, operations that are allowed, matrices
that are right for an index or a raw polynomial, and whether matrices can always be made. -/
structure Terms (T W P R B M : Type) where
  ok : T → Prop
  le : T → T → Prop
  legal : T → Op W P R B → Prop
  good : T → Index W P → M → Prop
  goodRaw : T → Nat → R → M → Prop
  safe : Prop

/-- There is a result; its table is all right, and so is the matrix, if there is one. -/
def Fulfils (c : Terms T W P R B M) (t : T) (x : Option (T × Option M)) (good : T → M → Prop) : Prop :=
  ∃ t' r, x = some (t', r) ∧ c.ok t' ∧ c.le t t' ∧ (c.safe → r.isSome) ∧ ∀ m, r = some m → good t' m

/-- What is promised by the functions that make matrices. Each of them is only spoken of by itself. -/
structure Contract (mk : Maker T W P R B M) (c : Terms T W P R B M) : Prop where
  refl : ∀ t, c.le t t
  trans : ∀ t t' t'', c.le t t' → c.le t' t'' → c.le t t''
  legal : ∀ t t' x, c.le t t' → c.legal t x → c.legal t' x
  stays : ∀ t t' i m, c.le t t' → c.good t i m → c.good t' i m
  same : ∀ t i j m, c.ok t → Same mk i j → c.legal t (.request i) → c.legal t (.request j) → c.good t i m → c.good t j m
  moment : ∀ t n, c.ok t → c.legal t (.request (.moment n)) → Fulfils c t (mk.moment t n) fun t' => c.good t' (.moment n)
  localizing : ∀ t n w, c.ok t → c.legal t (.request (.localizing n w)) → Fulfils c t (mk.localizing t n w) fun t' => c.good t' (.localizing n w)
  word : ∀ t n p k, c.ok t → c.legal t (.request (.poly n p)) → k < mk.size p → ∃ w, mk.word t p k = some w ∧ c.legal t (.request (.localizing n w)) ∧
    ∀ t', c.le t t' → mk.word t' p k = some w
  compose : ∀ t n p l, c.ok t → c.legal t (.request (.poly n p)) → l.length = mk.size p →
    (∀ (k : Nat) w m, mk.word t p k = some w → l[k]? = some m → c.good t (.localizing n w) m) → Fulfils c t (mk.compose t n p l) fun t' => c.good t' (.poly n p)
  register : mk.aliases = false → ∀ t n q, c.ok t → c.legal t (.raw n q) → ∃ t' p, mk.register t q = some (t', p) ∧ c.ok t' ∧ c.le t t' ∧
    c.legal t' (.request (.poly n p)) ∧ ∀ t'' m, c.le t' t'' → c.good t'' (.poly n p) m → c.goodRaw t'' n q m
  rawWords : mk.aliases = true → ∀ t n q, c.ok t → c.legal t (.raw n q) → ∀ w ∈ mk.rawWords q, c.legal t (.request (.localizing n w))
  composeRaw : mk.aliases = true → ∀ t n q l, c.ok t → c.legal t (.raw n q) → l.length = (mk.rawWords q).length →
    (∀ (k : Nat) w m, (mk.rawWords q)[k]? = some w → l[k]? = some m → c.good t (.localizing n w) m) → Fulfils c t (mk.composeRaw t n q l) fun t' => c.goodRaw t' n q
  substitute : ∀ t a b r m, c.ok t → c.legal t (.request (.subst a b)) → Fulfils c t (mk.substitute t r m) fun _ _ => True
  fill : ∀ t n, c.ok t → c.legal t (.dictionary n) → ∃ t' r, mk.fill t n = some (t', r) ∧ c.ok t' ∧ c.le t t'

/-- The table is all right, and each matrix is right for the index that it was made for. -/
structure Fine (mk : Maker T W P R B M) (c : Terms T W P R B M) (S : System T W P B M) : Prop where
  ok : c.ok S.table
  good : ∀ i m (o : Nat), i.Plain → S.find mk i = o → S.matrices[o]? = some (some m) → ∃ j, Same mk j i ∧ c.legal S.table (.request j) ∧ c.good S.table j m

/-- No matrix was deleted. -/
def Alive (S : System T W P B M) : Prop := ∀ x ∈ S.matrices, x.isSome

theorem Same.plain {mk : Maker T W P R B M} {i j : Index W P} (h : Same mk i j) (hj : j.Plain) : i.Plain := by
  cases i <;> cases j <;> simp_all [Same, Index.Plain]

/-- A reply as promised. -/
def Answers (mk : Maker T W P R B M) (c : Terms T W P R B M) (S : System T W P B M) (x : Reply T W P B M) (good : T → M → Prop) : Prop :=
  ∃ S' v, x = some (S', v) ∧ Fine mk c S' ∧ c.le S.table S'.table ∧ (c.safe → Alive S → Alive S' ∧ v.isSome) ∧ ∀ o m, v = some (o, m) → good S'.table m

theorem Fine.table {mk : Maker T W P R B M} {c : Terms T W P R B M} (hc : Contract mk c) {S S' : System T W P B M} (hf : Fine mk c S) (h1 : c.ok S'.table)
    (h2 : c.le S.table S'.table) (hs : SameIndices S S') (hm : ∀ (o : Nat) m, S'.matrices[o]? = some (some m) → S.matrices[o]? = some (some m)) : Fine mk c S' :=
  ⟨h1, fun i m o hi ho h => by
    rw [hs.find mk i] at ho
    obtain ⟨j, j1, j2, j3⟩ := hf.good i m o hi ho (hm o m h)
    exact ⟨j, j1, hc.legal _ _ _ h2 j2, hc.stays _ _ _ _ h2 j3⟩⟩

theorem made_answers {mk : Maker T W P R B M} {c : Terms T W P R B M} (hc : Contract mk c) {S : System T W P B M} (h : Inv mk S) (hf : Fine mk c S)
    {x : Option (T × Option M)} {good : T → M → Prop} (hx : Fulfils c S.table x good) : Answers mk c S (x.map S.made) good := by
  obtain ⟨t', r, rfl, h1, h2, h3, h4⟩ := hx
  have ht : ∀ r : Option M, (S.made (t', r)).1.table = t' := by
    intro r
    unfold System.made System.push
    cases r <;> rfl
  refine ⟨(S.made (t', r)).1, (S.made (t', r)).2, rfl, ⟨by rw [ht]; exact h1, fun i m o hi ho hm => ?_⟩, by rw [ht]; exact h2, fun hs ha => ?_, fun o m e => ?_⟩
  · rw [made_find] at ho
    have hr := h.range i
    have hlt : o < S.matrices.length := by omega
    obtain ⟨l, hl⟩ := (made_same S (t', r)).2
    rw [← hl, List.getElem?_append_left hlt] at hm
    obtain ⟨j, j1, j2, j3⟩ := hf.good i m o hi ho hm
    rw [ht]
    exact ⟨j, j1, hc.legal _ _ _ h2 j2, hc.stays _ _ _ _ h2 j3⟩
  · obtain ⟨m, rfl⟩ := Option.isSome_iff_exists.mp (h3 hs)
    refine ⟨fun x hx => ?_, by simp [System.made]⟩
    simp only [System.made, System.push, List.mem_append, List.mem_singleton] at hx
    rcases hx with hx | rfl
    · exact ha x hx
    · rfl
  · rw [ht]
    cases r with
    | none => simp [System.made] at e
    | some m' =>
      simp only [System.made, Option.some.injEq, Prod.mk.injEq] at e
      exact h4 m (by rw [e.2])

theorem insert_table (mk : Maker T W P R B M) (S : System T W P B M) (i : Index W P) (o : Int) :
    (S.insert mk i o).table = S.table ∧ (S.insert mk i o).matrices = S.matrices := by
  cases i <;> exact ⟨rfl, rfl⟩

theorem create_answers {mk : Maker T W P R B M} (ho : Ordered mk) {c : Terms T W P R B M} (hc : Contract mk c) {make : System T W P B M → Reply T W P B M}
    {S : System T W P B M} (h : Inv mk S) (hf : Fine mk c S) {i : Index W P} (hl : c.legal S.table (.request i))
    (hm : S.find mk i < 0 → Answers mk c S (make S) fun t m => i.Plain → c.good t i m)
    (hk : S.find mk i < 0 → ∀ r, make S = some r → Makes mk S r ∧ (r.2.isSome → r.1.find mk i < 0)) :
    Answers mk c S (S.create mk make i) fun t m => i.Plain → c.good t i m := by
  unfold System.create
  dsimp only
  split
  · rename_i hi
    obtain ⟨o, hn⟩ := Int.eq_ofNat_of_zero_le hi
    refine ⟨S, _, rfl, hf, hc.refl _, fun _ ha => ⟨ha, ?_⟩, fun o' m e hp => ?_⟩
    · have hr := h.range i
      have hlt : o < S.matrices.length := by omega
      have hs := ha _ (List.getElem_mem hlt)
      obtain ⟨m, hm⟩ := Option.isSome_iff_exists.mp hs
      rw [hn, get_some (m := m) (by rw [List.getElem?_eq_getElem hlt, hm])]
      rfl
    · cases hg : S.get (S.find mk i) with
      | none => simp [hg] at e
      | some m' =>
        simp only [hg, Option.map_some, Option.some.injEq, Prod.mk.injEq] at e
        obtain ⟨rfl, rfl⟩ := e
        have := (get_iff hg).2
        obtain ⟨j, j1, j2, j3⟩ := hf.good i m' _ hp (by rw [Int.toNat_of_nonneg hi]) this
        exact hc.same _ j i _ hf.ok j1 j2 hl j3
  · rename_i hi
    obtain ⟨S', v, hx, f1, f2, f3, f4⟩ := hm (by omega)
    obtain ⟨⟨g1, g2⟩, g3⟩ := hk (by omega) _ hx
    rw [hx, Option.map_some]
    cases v with
    | none => exact ⟨S', none, rfl, f1, f2, f3, fun o m e => by simp at e⟩
    | some km =>
      obtain ⟨k, m⟩ := km
      dsimp only at g1 g2 g3
      obtain ⟨a, b, -⟩ := g2 k m rfl
      have hneg := g3 rfl
      have hins := g1.inv.find_insert ho hneg (k : Int)
      obtain ⟨t1, t2⟩ := insert_table mk S' i k
      refine ⟨S'.insert mk i k, some (k, m), rfl, ⟨by rw [t1]; exact f1.ok, fun j m' o hj hjo hjm => ?_⟩, by rw [t1]; exact f2, fun hs ha => ⟨?_, rfl⟩, fun o m' e hp => ?_⟩
      · rw [t1]
        rw [t2] at hjm
        by_cases hs : Same mk i j
        · rw [(hins j).1 hs] at hjo
          have : k = o := by omega
          subst this
          rw [b] at hjm
          simp only [Option.some.injEq] at hjm
          subst hjm
          exact ⟨i, hs, hc.legal _ _ _ f2 hl, f4 k m rfl (hs.plain hj)⟩
        · rw [(hins j).2 hs] at hjo
          exact f1.good j m' o hj hjo hjm
      · have := (f3 hs ha).1
        unfold Alive
        rw [t2]
        exact this
      · rw [t1]
        simp only [Option.some.injEq, Prod.mk.injEq] at e
        exact e.2 ▸ f4 k m rfl hp

theorem createLocalizing_answers {mk : Maker T W P R B M} (ho : Ordered mk) {c : Terms T W P R B M} (hc : Contract mk c) {S : System T W P B M} (h : Inv mk S)
    (hf : Fine mk c S) {n : Nat} {w : W} (hl : c.legal S.table (.request (.localizing n w))) :
    Answers mk c S (S.createLocalizing mk n w) fun t m => c.good t (.localizing n w) m := by
  have := create_answers ho hc (make := fun S => (mk.localizing S.table n w).map S.made) h hf hl (fun _ => ?_) (fun hn r hr => ?_)
  · obtain ⟨S', v, h1, h2, h3, h4, h5⟩ := this
    exact ⟨S', v, h1, h2, h3, h4, fun o m e => h5 o m e trivial⟩
  · refine made_answers hc h hf ?_
    obtain ⟨t', r, h1, h2, h3, h4, h5⟩ := hc.localizing S.table n w hf.ok hl
    exact ⟨t', r, h1, h2, h3, h4, fun m e _ => h5 m e⟩
  · simp only [Option.map_eq_some_iff] at hr
    obtain ⟨x, -, rfl⟩ := hr
    exact ⟨made_makes h x, fun _ => by rw [made_find]; exact hn⟩

/-- The matrices for the terms of a polynomial. -/
theorem parts_answers {mk : Maker T W P R B M} (ho : Ordered mk) {c : Terms T W P R B M} (hc : Contract mk c) (n : Nat) (p : P) : ∀ (k : Nat)
    {S : System T W P B M}, Inv mk S → Fine mk c S → c.legal S.table (.request (.poly n p)) → k ≤ mk.size p →
    ∃ S' v, S.parts mk n p k = some (S', v) ∧ Inv mk S' ∧ Fine mk c S' ∧ c.le S.table S'.table ∧ (c.safe → Alive S → Alive S' ∧ v.isSome) ∧
      ∀ l, v = some l → l.length = k ∧ ∀ (j : Nat) w m, mk.word S'.table p (mk.size p - k + j) = some w → l[j]? = some m → c.good S'.table (.localizing n w) m
  | 0, S, h, hf, _, _ => ⟨S, some [], rfl, h, hf, hc.refl _, fun _ ha => ⟨ha, rfl⟩, fun l e => by
      simp only [Option.some.injEq] at e
      subst e
      simp⟩
  | k + 1, S, h, hf, hl, hk => by
    obtain ⟨w, hw, hlw, hst⟩ := hc.word S.table n p (mk.size p - (k + 1)) hf.ok hl (by omega)
    obtain ⟨S₁, v₁, e1, f1, l1, a1, r1⟩ := createLocalizing_answers ho hc h hf hlw
    have i1 := (createLocalizing_gives ho h e1).1.inv
    rw [System.parts, hw, Option.bind_some, e1, Option.bind_some]
    cases v₁ with
    | none =>
      exact ⟨S₁, none, rfl, i1, f1, l1, fun hs ha => by have := (a1 hs ha).2; simp at this, fun l e => by simp at e⟩
    | some om =>
      obtain ⟨o, m⟩ := om
      obtain ⟨S₂, v₂, e2, i2, f2, l2, a2, r2⟩ := parts_answers ho hc n p k i1 f1 (hc.legal _ _ _ l1 hl) (by omega)
      dsimp only at i1 ⊢
      rw [e2, Option.map_some]
      refine ⟨S₂, _, rfl, i2, f2, hc.trans _ _ _ l1 l2, fun hs ha => ?_, fun l e => ?_⟩
      · obtain ⟨b1, b2⟩ := a2 hs (a1 hs ha).1
        exact ⟨b1, by simpa using b2⟩
      · cases v₂ with
        | none => simp at e
        | some l' =>
          simp only [Option.map_some, Option.some.injEq] at e
          subst e
          obtain ⟨q1, q2⟩ := r2 l' rfl
          refine ⟨by simp [q1], fun j w' m' hw' hm' => ?_⟩
          cases j with
          | zero =>
            simp only [List.getElem?_cons_zero, Option.some.injEq] at hm'
            subst hm'
            rw [Nat.add_zero, hst S₂.table (hc.trans _ _ _ l1 l2), Option.some.injEq] at hw'
            subst hw'
            exact hc.stays _ _ _ _ l2 (r1 o m rfl)
          | succ j =>
            simp only [List.getElem?_cons_succ] at hm'
            refine q2 j w' m' ?_ hm'
            rw [← hw']
            congr 1
            omega

theorem rawParts_answers {mk : Maker T W P R B M} (ho : Ordered mk) {c : Terms T W P R B M} (hc : Contract mk c) (n : Nat) : ∀ (ws : List W)
    {S : System T W P B M}, Inv mk S → Fine mk c S → (∀ w ∈ ws, c.legal S.table (.request (.localizing n w))) →
    ∃ S' v, S.rawParts mk n ws = some (S', v) ∧ Inv mk S' ∧ Fine mk c S' ∧ c.le S.table S'.table ∧ (c.safe → Alive S → Alive S' ∧ v.isSome) ∧
      ∀ l, v = some l → l.length = ws.length ∧ ∀ (j : Nat) w m, ws[j]? = some w → l[j]? = some m → c.good S'.table (.localizing n w) m
  | [], S, h, hf, _ => ⟨S, some [], rfl, h, hf, hc.refl _, fun _ ha => ⟨ha, rfl⟩, fun l e => by
      simp only [Option.some.injEq] at e
      subst e
      simp⟩
  | w :: ws, S, h, hf, hl => by
    obtain ⟨S₁, v₁, e1, f1, l1, a1, r1⟩ := createLocalizing_answers ho hc h hf (hl w List.mem_cons_self)
    have i1 := (createLocalizing_gives ho h e1).1.inv
    rw [System.rawParts, e1, Option.bind_some]
    cases v₁ with
    | none =>
      exact ⟨S₁, none, rfl, i1, f1, l1, fun hs ha => by have := (a1 hs ha).2; simp at this, fun l e => by simp at e⟩
    | some om =>
      obtain ⟨o, m⟩ := om
      obtain ⟨S₂, v₂, e2, i2, f2, l2, a2, r2⟩ := rawParts_answers ho hc n ws i1 f1 fun w hw => hc.legal _ _ _ l1 (hl w (List.mem_cons_of_mem _ hw))
      dsimp only at i1 ⊢
      rw [e2, Option.map_some]
      refine ⟨S₂, _, rfl, i2, f2, hc.trans _ _ _ l1 l2, fun hs ha => ?_, fun l e => ?_⟩
      · obtain ⟨b1, b2⟩ := a2 hs (a1 hs ha).1
        exact ⟨b1, by simpa using b2⟩
      · cases v₂ with
        | none => simp at e
        | some l' =>
          simp only [Option.map_some, Option.some.injEq] at e
          subst e
          obtain ⟨q1, q2⟩ := r2 l' rfl
          refine ⟨by simp [q1], fun j w' m' hw' hm' => ?_⟩
          cases j with
          | zero =>
            simp only [List.getElem?_cons_zero, Option.some.injEq] at hm' hw'
            subst hm' hw'
            exact hc.stays _ _ _ _ l2 (r1 o m rfl)
          | succ j =>
            simp only [List.getElem?_cons_succ] at hm' hw'
            exact q2 j w' m' hw' hm'

theorem Answers.after {mk : Maker T W P R B M} {c : Terms T W P R B M} (hc : Contract mk c) {S S' : System T W P B M} {x : Reply T W P B M}
    {good : T → M → Prop} (hl : c.le S.table S'.table) (ha : c.safe → Alive S → Alive S') (h : Answers mk c S' x good) : Answers mk c S x good := by
  obtain ⟨S'', v, h1, h2, h3, h4, h5⟩ := h
  exact ⟨S'', v, h1, h2, hc.trans _ _ _ hl h3, fun hs hA => h4 hs (ha hs hA), h5⟩

theorem makePoly_answers {mk : Maker T W P R B M} (ho : Ordered mk) {c : Terms T W P R B M} (hc : Contract mk c) {S : System T W P B M} (h : Inv mk S)
    (hf : Fine mk c S) {n : Nat} {p : P} (hl : c.legal S.table (.request (.poly n p))) :
    Answers mk c S (S.makePoly mk n p) fun t m => c.good t (.poly n p) m := by
  obtain ⟨S', v, e, i, f, l, a, r⟩ := parts_answers ho hc n p (mk.size p) h hf hl le_rfl
  unfold System.makePoly
  rw [e, Option.bind_some]
  cases v with
  | none => exact ⟨S', none, rfl, f, l, fun hs ha => by have := (a hs ha).2; simp at this, fun o m e => by simp at e⟩
  | some ms =>
    obtain ⟨r1, r2⟩ := r ms rfl
    refine (made_answers hc i f ?_).after hc l fun hs ha => (a hs ha).1
    exact hc.compose S'.table n p ms f.ok (hc.legal _ _ _ l hl) r1 fun k w m hw hm => r2 k w m (by rw [Nat.sub_self, Nat.zero_add]; exact hw) hm

theorem makeRaw_answers {mk : Maker T W P R B M} (ho : Ordered mk) {c : Terms T W P R B M} (hc : Contract mk c) {S : System T W P B M} (h : Inv mk S)
    (hf : Fine mk c S) {n : Nat} {q : R} (hl : c.legal S.table (.raw n q)) : Answers mk c S (S.makeRaw mk n q) fun t m => c.goodRaw t n q m := by
  unfold System.makeRaw
  cases ha : mk.aliases with
  | true =>
    simp only [if_true]
    obtain ⟨S', v, e, i, f, l, a, r⟩ := rawParts_answers ho hc n (mk.rawWords q) h hf (hc.rawWords ha S.table n q hf.ok hl)
    rw [e, Option.bind_some]
    cases v with
    | none => exact ⟨S', none, rfl, f, l, fun hs ha => by have := (a hs ha).2; simp at this, fun o m e => by simp at e⟩
    | some ms =>
      obtain ⟨r1, r2⟩ := r ms rfl
      exact (made_answers hc i f (hc.composeRaw ha S'.table n q ms f.ok (hc.legal _ _ _ l hl) r1 r2)).after hc l fun hs ha => (a hs ha).1
  | false =>
    simp only [Bool.false_eq_true, if_false]
    obtain ⟨t', p, e, k1, k2, k3, k4⟩ := hc.register ha S.table n q hf.ok hl
    rw [e, Option.bind_some]
    have i1 : Inv mk ({ S with table := t' } : System T W P B M) := h.same ⟨rfl, rfl, rfl, rfl⟩ le_rfl
    have f1 : Fine mk c ({ S with table := t' } : System T W P B M) := hf.table hc k1 k2 ⟨rfl, rfl, rfl, rfl⟩ fun o m h => h
    obtain ⟨S'', v, h1, h2, h3, h4, h5⟩ := makePoly_answers ho hc i1 f1 (n := n) (p := p) k3
    exact ⟨S'', v, h1, h2, hc.trans _ _ _ k2 h3, h4, fun o m e => k4 _ _ h3 (h5 o m e)⟩

/-- **All requests.** -/
theorem request_answers {mk : Maker T W P R B M} (ho : Ordered mk) {c : Terms T W P R B M} (hc : Contract mk c) {S : System T W P B M} (h : Inv mk S)
    (hf : Fine mk c S) {i : Index W P} (hp : c.safe → i.Plain) (hl : c.legal S.table (.request i)) :
    Answers mk c S (S.request mk i) fun t m => i.Plain → c.good t i m := by
  refine create_answers ho hc h hf hl (fun _ => ?_) fun hn r hr => make_makes ho h hn hr
  cases i with
  | moment n =>
    refine made_answers hc h hf ?_
    obtain ⟨t', r, h1, h2, h3, h4, h5⟩ := hc.moment S.table n hf.ok hl
    exact ⟨t', r, h1, h2, h3, h4, fun m e _ => h5 m e⟩
  | localizing n w =>
    refine made_answers hc h hf ?_
    obtain ⟨t', r, h1, h2, h3, h4, h5⟩ := hc.localizing S.table n w hf.ok hl
    exact ⟨t', r, h1, h2, h3, h4, fun m e _ => h5 m e⟩
  | poly n p =>
    obtain ⟨S', v, h1, h2, h3, h4, h5⟩ := makePoly_answers ho hc h hf hl
    exact ⟨S', v, h1, h2, h3, h4, fun o m e _ => h5 o m e⟩
  | subst a b =>
    simp only [System.make, System.makeSubst]
    split
    · rename_i m r _ _
      refine made_answers hc h hf ?_
      obtain ⟨t', x, h1, h2, h3, h4, -⟩ := hc.substitute S.table a b r m hf.ok hl
      exact ⟨t', x, h1, h2, h3, h4, fun m e hp => hp.elim⟩
    · exact ⟨S, none, rfl, hf, hc.refl _, fun hs => (hp hs).elim, fun o m e => by simp at e⟩

/-- Operations that do not lead out of range: the number after the last must not be deleted. -/
def Apart (S : System T W P B M) : Op W P R B → Prop
  | .delete i => i ≠ S.matrices.length
  | _ => True

/-- What is expected of the outcome of an operation. -/
def Outcome (c : Terms T W P R B M) (t : T) : Op W P R B → Out M → Prop
  | .request i, .matrix _ m => i.Plain → c.good t i m
  | .raw n q, .matrix _ m => c.goodRaw t n q m
  | _, _ => True

theorem exec_answers {mk : Maker T W P R B M} (ho : Ordered mk) {c : Terms T W P R B M} (hc : Contract mk c) {S : System T W P B M} (h : Inv mk S)
    (hf : Fine mk c S) {x : Op W P R B} (hl : c.legal S.table x) (hp : c.safe → ∀ i, x = .request i → i.Plain) (ha : Apart S x) :
    ∃ S' r, S.exec mk x = some (S', r) ∧ Fine mk c S' ∧ c.le S.table S'.table ∧ Outcome c S'.table x r ∧
      (c.safe → Alive S → (∀ i, x ≠ .delete i) → Alive S' ∧ ((∃ i, x = .request i) ∨ (∃ n q, x = .raw n q) → ∃ o m, r = .matrix o m)) := by
  cases x with
  | request i =>
    obtain ⟨S', v, h1, h2, h3, h4, h5⟩ := request_answers ho hc h hf (fun hs => hp hs i rfl) hl
    refine ⟨S', _, by rw [System.exec, h1, Option.map_some, ofReply], h2, h3, ?_, fun hs hA _ => ⟨(h4 hs hA).1, fun _ => ?_⟩⟩
    · cases v with
      | none => trivial
      | some om => exact h5 om.1 om.2 rfl
    · obtain ⟨om, rfl⟩ := Option.isSome_iff_exists.mp (h4 hs hA).2
      exact ⟨om.1, om.2, rfl⟩
  | raw n q =>
    obtain ⟨S', v, h1, h2, h3, h4, h5⟩ := makeRaw_answers ho hc h hf hl
    refine ⟨S', _, by rw [System.exec, h1, Option.map_some, ofReply], h2, h3, ?_, fun hs hA _ => ⟨(h4 hs hA).1, fun _ => ?_⟩⟩
    · cases v with
      | none => trivial
      | some om => exact h5 om.1 om.2 rfl
    · obtain ⟨om, rfl⟩ := Option.isSome_iff_exists.mp (h4 hs hA).2
      exact ⟨om.1, om.2, rfl⟩
  | delete i =>
    simp only [Apart] at ha
    have : ∃ y, S.delete i = some y := by
      unfold System.delete
      split
      · exact ⟨_, rfl⟩
      · rename_i hi
        have hlt : i.toNat < S.matrices.length := by omega
        rw [List.getElem?_eq_getElem hlt]
        split
        · simp at *
        · exact ⟨_, rfl⟩
        · exact ⟨_, rfl⟩
    obtain ⟨⟨S', b⟩, hy⟩ := this
    obtain ⟨d1, d2, -, -, d3, d4⟩ := delete_spec hy
    refine ⟨S', .flag b, by rw [System.exec, hy]; rfl, hf.table hc (d2 ▸ hf.ok) (d2 ▸ hc.refl _) d1 fun o m hm => ?_, d2 ▸ hc.refl _, trivial, fun _ _ hn => absurd rfl (hn i)⟩
    cases b with
    | false => rw [d4 rfl] at hm; exact hm
    | true =>
      rw [(d3 rfl).2.2, List.getElem?_set] at hm
      split at hm
      · split at hm <;> simp at hm
      · exact hm
  | addBook b =>
    exact ⟨_, _, rfl, hf.table hc hf.ok (hc.refl _) ⟨rfl, rfl, rfl, rfl⟩ fun o m h => h, hc.refl _, trivial,
      fun _ hA _ => ⟨hA, by rintro (⟨_, h⟩ | ⟨_, _, h⟩) <;> simp at h⟩⟩
  | mergeBook i b =>
    rw [System.exec]
    cases hb : S.books[i]? with
    | none => exact ⟨_, _, rfl, hf, hc.refl _, trivial, fun _ hA _ => ⟨hA, by rintro (⟨_, h⟩ | ⟨_, _, h⟩) <;> simp at h⟩⟩
    | some y =>
      exact ⟨_, _, rfl, hf.table hc hf.ok (hc.refl _) ⟨rfl, rfl, rfl, rfl⟩ fun o m h => h, hc.refl _, trivial,
        fun _ hA _ => ⟨hA, by rintro (⟨_, h⟩ | ⟨_, _, h⟩) <;> simp at h⟩⟩
  | dictionary n =>
    obtain ⟨t', r, e, k1, k2⟩ := hc.fill S.table n hf.ok hl
    rw [System.exec, e]
    exact ⟨_, _, rfl, hf.table hc k1 k2 ⟨rfl, rfl, rfl, rfl⟩ fun o m h => h, k2, trivial,
      fun _ hA _ => ⟨hA, by rintro (⟨_, h⟩ | ⟨_, _, h⟩) <;> simp at h⟩⟩

/-- Allowed operations, one after the other. -/
inductive Runs (mk : Maker T W P R B M) (c : Terms T W P R B M) : System T W P B M → List (Op W P R B) → System T W P B M → Prop
  | refl (S : System T W P B M) : Runs mk c S [] S
  | step {S S' S'' : System T W P B M} {l : List (Op W P R B)} {x : Op W P R B} {r : Out M} : Runs mk c S l S' → c.legal S'.table x → Apart S' x →
      (c.safe → ∀ i, x = .request i → i.Plain) → S'.exec mk x = some (S'', r) → Runs mk c S (l ++ [x]) S''

theorem Runs.steps {mk : Maker T W P R B M} {c : Terms T W P R B M} {S S' : System T W P B M} {l : List (Op W P R B)} (h : Runs mk c S l S') : Steps mk S l S' := by
  induction h with
  | refl => exact .refl _
  | step _ _ _ _ hx ih => exact .step ih hx

theorem Runs.fine {mk : Maker T W P R B M} (ho : Ordered mk) {c : Terms T W P R B M} (hc : Contract mk c) {S S' : System T W P B M} {l : List (Op W P R B)}
    (h : Runs mk c S l S') (hi : Inv mk S) (hf : Fine mk c S) : Fine mk c S' ∧ c.le S.table S'.table ∧ (c.safe → Alive S → (∀ i, .delete i ∉ l) → Alive S') := by
  induction h with
  | refl => exact ⟨hf, hc.refl _, fun _ hA _ => hA⟩
  | step hr hl ha hp hx ih =>
    obtain ⟨f1, l1, a1⟩ := ih
    obtain ⟨S', r, e, f2, l2, -, a2⟩ := exec_answers ho hc (hr.steps.spec ho hi).1 f1 hl hp ha
    rw [e, Option.some.injEq, Prod.mk.injEq] at hx
    obtain ⟨rfl, rfl⟩ := hx
    refine ⟨f2, hc.trans _ _ _ l1 l2, fun hs hA hd => (a2 hs (a1 hs hA fun i hi => hd i (List.mem_append_left _ hi)) fun i hi => ?_).1⟩
    exact hd i (List.mem_append_right _ (by simp [hi]))

theorem fine_new (mk : Maker T W P R B M) (c : Terms T W P R B M) {t : T} (h : c.ok t) : Fine mk c (System.new t) := ⟨h, fun _ _ _ _ _ hm => by simp [System.new] at hm⟩

theorem alive_new (t : T) : Alive (System.new t : System T W P B M) := fun _ hx => by simp [System.new] at hx

end Moment.MatrixSystem
