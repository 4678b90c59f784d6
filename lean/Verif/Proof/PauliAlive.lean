import Verif.Proof.PauliSystem

/-! # Requests give matrices, if nothing is deleted -/

namespace Moment.PauliSystem
open Moment.MatrixSystem (System Index get_some)

variable {T W P R B M : Type} {mk : PMaker T W P R B M} {c : Terms T W P R B M}

/-- No matrix is missing. -/
def Alive (S : PSystem T W P B M) : Prop := ∀ x ∈ S.base.matrices, x.isSome

theorem Alive.same {S S' : PSystem T W P B M} (h : Alive S) (e : S'.base.matrices = S.base.matrices) : Alive S' := by
  unfold Alive
  rw [e]
  exact h

theorem Alive.made {S : PSystem T W P B M} (h : Alive S) (r : T × Option M) : Alive (S.made r).1 := by
  obtain ⟨t, r⟩ := r
  cases r with
  | none => exact h
  | some m =>
    intro x hx
    rcases List.mem_append.mp (show x ∈ S.base.matrices ++ [some m] from hx) with hx | hx
    · exact h x hx
    · rw [List.mem_singleton.mp hx]; rfl

theorem made_isSome (S : PSystem T W P B M) {r : T × Option M} (h : r.2.isSome) : (S.made r).2.isSome := by
  obtain ⟨t, r⟩ := r
  cases r with
  | none => cases h
  | some m => rfl

theorem notify_matrices {S S' : PSystem T W P B M} {i : Key W P} {o : Int} (h : S.notify mk i o = some S') : S'.base.matrices = S.base.matrices := by
  rw [notify_eq] at h
  split at h
  · cases h; rfl
  · unfold PSystem.alias at h
    split at h
    · cases h
    · cases h
      exact (insert_table mk S _ o).2.1

theorem create_alive {make : PSystem T W P B M → Reply T W P B M} {S : PSystem T W P B M} (hS : Alive S) {i : Key W P}
    (hm : ∀ r, make S = some r → Alive r.1) : ∀ r, S.create mk make i = some r → Alive r.1 := by
  intro r hr
  unfold PSystem.create at hr
  dsimp only at hr
  split at hr
  · cases hr; exact hS
  · obtain ⟨q, h1, h2⟩ := Option.bind_eq_some_iff.mp hr
    have ha := hm q h1
    obtain ⟨S', v⟩ := q
    cases v with
    | none => cases h2; exact ha
    | some km =>
      dsimp only at h2
      split at h2
      · cases h2
      · obtain ⟨S'', h3, rfl⟩ := Option.map_eq_some_iff.mp h2
        exact ha.same ((notify_matrices h3).trans (insert_table mk S' i _).2.1)

theorem map_made_alive {S : PSystem T W P B M} (hS : Alive S) {x : Option (T × Option M)} : ∀ r, x.map S.made = some r → Alive r.1 := by
  intro r hr
  obtain ⟨y, -, rfl⟩ := Option.map_eq_some_iff.mp hr
  exact hS.made y

theorem createMono_alive {S : PSystem T W P B M} (hS : Alive S) {k : Kind} {n : Nat × Nat} {plain : Bool} {w : W} :
    ∀ r, S.createMono mk k n plain w = some r → Alive r.1 :=
  create_alive hS fun _ => map_made_alive hS _

theorem parts_alive {kind : Kind} {n : Nat × Nat} {plain : Bool} {p : P} : ∀ (k : Nat) {S : PSystem T W P B M}, Alive S →
    ∀ r, S.parts mk kind n plain p k = some r → Alive r.1
  | 0, S, hS, r, hr => by
    unfold PSystem.parts at hr
    cases hr; exact hS
  | k + 1, S, hS, r, hr => by
    unfold PSystem.parts at hr
    obtain ⟨w, -, hr⟩ := Option.bind_eq_some_iff.mp hr
    obtain ⟨q, h1, hr⟩ := Option.bind_eq_some_iff.mp hr
    have ha := createMono_alive hS q h1
    obtain ⟨S', v⟩ := q
    cases v with
    | none => cases hr; exact ha
    | some om =>
      obtain ⟨q, h2, rfl⟩ := Option.map_eq_some_iff.mp hr
      exact parts_alive k ha q h2

theorem rawParts_alive {kind : Kind} {n : Nat × Nat} {plain : Bool} : ∀ (ws : List W) {S : PSystem T W P B M}, Alive S →
    ∀ r, S.rawParts mk kind n plain ws = some r → Alive r.1
  | [], S, hS, r, hr => by
    unfold PSystem.rawParts at hr
    cases hr; exact hS
  | w :: ws, S, hS, r, hr => by
    unfold PSystem.rawParts at hr
    obtain ⟨q, h1, hr⟩ := Option.bind_eq_some_iff.mp hr
    have ha := createMono_alive hS q h1
    obtain ⟨S', v⟩ := q
    cases v with
    | none => cases hr; exact ha
    | some om =>
      obtain ⟨q, h2, rfl⟩ := Option.map_eq_some_iff.mp hr
      exact rawParts_alive ws ha q h2

theorem makePoly_alive {kind : Kind} {n : Nat × Nat} {plain : Bool} {p : P} {S : PSystem T W P B M} (hS : Alive S) :
    ∀ r, S.makePoly mk kind n plain p = some r → Alive r.1 := by
  intro r hr
  unfold PSystem.makePoly at hr
  obtain ⟨q, h1, hr⟩ := Option.bind_eq_some_iff.mp hr
  have ha := parts_alive _ hS q h1
  obtain ⟨S', v⟩ := q
  cases v with
  | none => cases hr; exact ha
  | some l => exact map_made_alive ha r hr

theorem makeRaw_alive {kind : Kind} {n : Nat × Nat} {plain : Bool} {q : R} {S : PSystem T W P B M} (hS : Alive S) :
    ∀ r, S.makeRaw mk kind n plain q = some r → Alive r.1 := by
  intro r hr
  unfold PSystem.makeRaw at hr
  split at hr
  · obtain ⟨q, h1, hr⟩ := Option.bind_eq_some_iff.mp hr
    have ha := rawParts_alive _ hS q h1
    obtain ⟨S', v⟩ := q
    cases v with
    | none => cases hr; exact ha
    | some l => exact map_made_alive ha r hr
  · obtain ⟨x, -, hr⟩ := Option.bind_eq_some_iff.mp hr
    refine makePoly_alive ?_ r hr
    exact hS

theorem make_alive {i : Key W P} {S : PSystem T W P B M} (hS : Alive S) : ∀ r, S.make mk i = some r → Alive r.1 := by
  intro r hr
  rcases i with (_ | _ | _ | ⟨a, b⟩) | _ | _ | _
  case plain.poly => exact makePoly_alive hS r hr
  case poly => exact makePoly_alive hS r hr
  case plain.subst =>
    change (match S.base.get a, S.base.book b with
      | some m, some r => (mk.substitute S.base.table r m).map S.made
      | _, _ => some (S, none)) = some r at hr
    split at hr
    · exact map_made_alive hS r hr
    · cases hr; exact hS
  all_goals exact map_made_alive hS r hr

/-- Only deletions remove matrices. -/
theorem exec_alive {S S' : PSystem T W P B M} (hS : Alive S) {x : Op W P R B} (hx : ∀ i, x ≠ .delete i) {r : Option (Nat × M)}
    (h : S.exec mk x = some (S', r)) : Alive S' := by
  cases x with
  | request i => exact create_alive hS (make_alive hS) _ h
  | rawPlain n q => exact makeRaw_alive hS _ h
  | raw k n q => exact makeRaw_alive hS _ h
  | delete i => exact absurd rfl (hx i)
  | addBook b => cases h; exact hS
  | mergeBook i b =>
    change (match S.base.books[i]? with
        | none => some (S, none)
        | some c => some ({ S with base := { S.base with books := S.base.books.set i (mk.merge c b).1 } }, none)) = some (S', r) at h
    split at h <;> cases h <;> exact hS
  | dictionary n =>
    obtain ⟨y, -, e⟩ := Option.map_eq_some_iff.mp h
    cases e
    exact hS

theorem runs_alive {S S' : PSystem T W P B M} {l : List (Op W P R B)} (hr : Runs mk c S l S') (hd : ∀ i, .delete i ∉ l) (h : Alive S) : Alive S' := by
  induction hr with
  | refl => exact h
  | step hr hl he ih =>
    simp only [List.mem_append, List.mem_singleton, not_or] at hd
    exact exec_alive (ih fun i => (hd i).1) (fun i e => (hd i).2 e.symm) he

/-! ## Matrices -/

variable {fine : Nat × Nat → Prop} {fineRaw : Kind → Nat × Nat → Prop}

theorem create_live {make : PSystem T W P B M → Reply T W P B M} {S : PSystem T W P B M} (h : Inv mk c S) (hS : Alive S) {i : Key W P}
    (hm : ∀ r, make S = some r → r.2.isSome) : ∀ r, S.create mk make i = some r → r.2.isSome := by
  intro r hr
  unfold PSystem.create at hr
  dsimp only at hr
  split at hr
  · rename_i hi
    cases hr
    obtain ⟨o, ho⟩ := Int.eq_ofNat_of_zero_le hi
    have hlt := h.range i
    rw [ho] at hlt
    have hlt : o < S.base.matrices.length := by omega
    obtain ⟨m, e⟩ := Option.isSome_iff_exists.mp (hS _ (List.getElem_mem hlt))
    rw [ho, get_some (m := m) (by rw [List.getElem?_eq_getElem hlt, e])]
    rfl
  · obtain ⟨q, h1, h2⟩ := Option.bind_eq_some_iff.mp hr
    have ha := hm q h1
    obtain ⟨S', v⟩ := q
    cases v with
    | none => cases ha
    | some km =>
      dsimp only at h2
      split at h2
      · cases h2
      · obtain ⟨S'', h3, rfl⟩ := Option.map_eq_some_iff.mp h2
        rfl

theorem map_made_live {S : PSystem T W P B M} {x : Option (T × Option M)} (hx : ∀ t' r, x = some (t', r) → r.isSome) : ∀ r, x.map S.made = some r → r.2.isSome := by
  intro r hr
  obtain ⟨y, h, rfl⟩ := Option.map_eq_some_iff.mp hr
  exact made_isSome S (hx y.1 y.2 h)

theorem createMono_live (hv : Lively mk c fine fineRaw) {S : PSystem T W P B M} (h : Inv mk c S) (hS : Alive S) {k : Kind} {n : Nat × Nat}
    {plain : Bool} {w : W} (hl : c.legal S.base.table (.request (.mono k n w))) (hf : fine n) : ∀ r, S.createMono mk k n plain w = some r → r.2.isSome :=
  create_live h hS fun _ => map_made_live (fun t' r => hv.mono _ k n w t' r h.ok hl hf) _

theorem parts_live (ho : POrdered mk) (hc : Contract mk c) (hv : Lively mk c fine fineRaw) {kind : Kind} {n : Nat × Nat} {plain : Bool}
    (hp : plain = true → kind = .localizing ∧ n.2 = 0) {p : P} (hf : fine n) : ∀ (k : Nat), k ≤ mk.size p → ∀ {S : PSystem T W P B M}, Inv mk c S → Alive S →
    c.legal S.base.table (.request (.poly kind n p)) → ∀ r, S.parts mk kind n plain p k = some r → r.2.isSome
  | 0, _, S, _, _, _, r, hr => by
    unfold PSystem.parts at hr
    cases hr; rfl
  | k + 1, hk, S, h, hS, hl, r, hr => by
    unfold PSystem.parts at hr
    obtain ⟨w, hw, hr⟩ := Option.bind_eq_some_iff.mp hr
    obtain ⟨q, h1, hr⟩ := Option.bind_eq_some_iff.mp hr
    have hlw := (hc.word _ kind n p (mk.size p - (k + 1)) h.ok hl (by omega)).2 w hw
    have hsome := createMono_live hv h hS hlw hf q h1
    have ha := createMono_alive hS q h1
    obtain ⟨⟨g1, -, -⟩, -⟩ := (createMono_gives ho hc h hp hlw).2 q h1
    obtain ⟨S', v⟩ := q
    cases v with
    | none => cases hsome
    | some om =>
      obtain ⟨q, h2, rfl⟩ := Option.map_eq_some_iff.mp hr
      dsimp only
      rw [Option.isSome_map]
      exact parts_live ho hc hv hp hf k (by omega) g1.inv ha (hc.legal _ _ _ g1.le hl) q h2

theorem makePoly_live (ho : POrdered mk) (hc : Contract mk c) (hv : Lively mk c fine fineRaw) {kind : Kind} {n : Nat × Nat} {plain : Bool}
    (hp : plain = true → kind = .localizing ∧ n.2 = 0) {p : P} (hf : fine n) {S : PSystem T W P B M} (h : Inv mk c S) (hS : Alive S)
    (hl : c.legal S.base.table (.request (.poly kind n p))) : ∀ r, S.makePoly mk kind n plain p = some r → r.2.isSome := by
  intro r hr
  unfold PSystem.makePoly at hr
  obtain ⟨q, h1, hr⟩ := Option.bind_eq_some_iff.mp hr
  have hsome := parts_live ho hc hv hp hf _ le_rfl h hS hl q h1
  obtain ⟨q1, -, q3⟩ := (parts_spec ho hc hp p _ le_rfl h hl).2 q h1
  obtain ⟨S', v⟩ := q
  cases v with
  | none => cases hsome
  | some l =>
    dsimp only at q1 q3 hr
    obtain ⟨ws, q4, q5, q6⟩ := q3 l rfl
    have hl' := hc.legal _ _ _ q1.le hl
    have q7 : Spelt mk c S'.base.table p ws := ⟨q4, fun x w hx => by simpa using q6 x w hx⟩
    refine map_made_live (fun t' r e => ?_) r hr
    cases plain with
    | false => exact hv.compose _ kind n p l ws t' r q1.inv.ok hl' hf q7 q5 e
    | true =>
      obtain ⟨rfl, h0⟩ := hp rfl
      obtain ⟨a, b⟩ := n
      dsimp only at h0
      subst h0
      exact hv.composePlain _ a p l ws t' r q1.inv.ok hl' hf q7 q5 e

theorem rawParts_live (ho : POrdered mk) (hc : Contract mk c) (hv : Lively mk c fine fineRaw) {kind : Kind} {n : Nat × Nat} {plain : Bool}
    (hp : plain = true → kind = .localizing ∧ n.2 = 0) (hf : fine n) : ∀ (ws : List W) {S : PSystem T W P B M}, Inv mk c S → Alive S →
    (∀ w ∈ ws, c.legal S.base.table (.request (.mono kind n w))) → ∀ r, S.rawParts mk kind n plain ws = some r → r.2.isSome
  | [], S, _, _, _, r, hr => by
    unfold PSystem.rawParts at hr
    cases hr; rfl
  | w :: ws, S, h, hS, hl, r, hr => by
    unfold PSystem.rawParts at hr
    obtain ⟨q, h1, hr⟩ := Option.bind_eq_some_iff.mp hr
    have hlw := hl w List.mem_cons_self
    have hsome := createMono_live hv h hS hlw hf q h1
    have ha := createMono_alive hS q h1
    obtain ⟨⟨g1, -, -⟩, -⟩ := (createMono_gives ho hc h hp hlw).2 q h1
    obtain ⟨S', v⟩ := q
    cases v with
    | none => cases hsome
    | some om =>
      obtain ⟨q, h2, rfl⟩ := Option.map_eq_some_iff.mp hr
      dsimp only
      rw [Option.isSome_map]
      exact rawParts_live ho hc hv hp hf ws g1.inv ha (fun w hw => hc.legal _ _ _ g1.le (hl w (List.mem_cons_of_mem _ hw))) q h2

theorem makeRaw_live (ho : POrdered mk) (hc : Contract mk c) (hv : Lively mk c fine fineRaw) {kind : Kind} {n : Nat × Nat} {plain : Bool}
    (hp : plain = true → kind = .localizing ∧ n.2 = 0) {q : R} (hf : fineRaw kind n) {S : PSystem T W P B M} (h : Inv mk c S) (hS : Alive S)
    (hl : c.legal S.base.table (.raw kind n q)) : ∀ r, S.makeRaw mk kind n plain q = some r → r.2.isSome := by
  intro r hr
  unfold PSystem.makeRaw at hr
  cases ha : mk.aliases with
  | true =>
    rw [ha, if_pos rfl] at hr
    obtain ⟨x, h1, hr⟩ := Option.bind_eq_some_iff.mp hr
    have hlw := hc.rawWords ha _ kind n q h.ok hl
    have hsome := rawParts_live ho hc hv hp (hv.raw _ _ hf) _ h hS hlw x h1
    obtain ⟨q1, q3⟩ := (rawParts_spec ho hc hp _ h hlw).2 x h1
    obtain ⟨S', v⟩ := x
    cases v with
    | none => cases hsome
    | some l =>
      dsimp only at q1 q3 hr
      have hl' := hc.legal _ _ _ q1.le hl
      refine map_made_live (fun t' r e => ?_) r hr
      cases plain with
      | false => exact hv.composeRaw ha _ kind n q l t' r q1.inv.ok hl' hf (q3 l rfl) e
      | true =>
        obtain ⟨rfl, h0⟩ := hp rfl
        obtain ⟨a, b⟩ := n
        dsimp only at h0
        subst h0
        exact hv.composeRawPlain ha _ a q l t' r q1.inv.ok hl' hf (q3 l rfl) e
  | false =>
    rw [ha, if_neg (by simp)] at hr
    obtain ⟨x, h1, hr⟩ := Option.bind_eq_some_iff.mp hr
    obtain ⟨h2, h3, h4, -⟩ := (hc.register ha _ kind n q h.ok hl).2 x.1 x.2 h1
    have g : Grows mk c S { S with base := { S.base with table := x.1 } } := Grows.same hc h ⟨⟨rfl, rfl, rfl, rfl⟩, rfl, rfl, rfl⟩ List.prefix_rfl h2 h3
    exact makePoly_live ho hc hv hp (hv.raw _ _ hf) g.inv hS h4 r hr

theorem make_live (ho : POrdered mk) (hc : Contract mk c) (hv : Lively mk c fine fineRaw) {i : Key W P} {n : Nat × Nat} (hi : i.near = some n) (hf : fine n)
    {S : PSystem T W P B M} (h : Inv mk c S) (hS : Alive S) (hl : c.legal S.base.table (.request i)) : ∀ r, S.make mk i = some r → r.2.isSome := by
  have hl' := hc.plain _ _ hl
  rcases i with (n' | ⟨n', w⟩ | ⟨n', p⟩ | ⟨a, b⟩) | n' | ⟨k, n', w⟩ | ⟨k, n', p⟩ <;>
    simp only [Key.near, whole, Option.some.injEq, reduceCtorEq] at hi <;> subst hi
  · exact map_made_live fun t' r => hv.moment _ _ t' r h.ok hl' hf
  · exact map_made_live fun t' r => hv.mono _ _ _ _ t' r h.ok hl' hf
  · exact makePoly_live ho hc hv (by simp) hf h hS hl'
  · exact map_made_live fun t' r => hv.moment _ _ t' r h.ok hl' hf
  · exact map_made_live fun t' r => hv.mono _ _ _ _ t' r h.ok hl' hf
  · exact makePoly_live ho hc hv (by simp) hf h hS hl'

theorem request_live (ho : POrdered mk) (hc : Contract mk c) (hv : Lively mk c fine fineRaw) {i : Key W P} {n : Nat × Nat} (hi : i.near = some n) (hf : fine n)
    {S : PSystem T W P B M} (h : Inv mk c S) (hS : Alive S) (hl : c.legal S.base.table (.request i)) : ∀ r, S.request mk i = some r → r.2.isSome :=
  create_live h hS (make_live ho hc hv hi hf h hS hl)

end Moment.PauliSystem
