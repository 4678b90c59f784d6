import Verif.Props.C104_ExtendedMatrix
import Verif.Proof.ExtendedThreads

/-! # C105: moment matrices extended by scalars with several threads -/

set_option linter.unusedSectionVars false

namespace Moment.C105
open Moment Moment.Inflation Moment.Inflation.Extend Moment.C104

section
variable {W : Type} [DecidableEq W] {sc : Scenario W} {D : W → Prop} {zero one : W} {E : Type} {mono : Nat → E}

/-- The tables that one can get to: as in C104, with extensions by one thread and by any number of threads in any order of steps. -/
inductive Reached (sc : Scenario W) (D : W → Prop) (zero one : W) (mono : Nat → E) : Table W → Prop
  | new {t : Table W} : Table.new sc zero one = .ok t → Reached sc D zero one mono t
  | grow {t t' : Table W} {ws : List W} : Reached sc D zero one mono t → ws.Nodup → (∀ w ∈ ws, D w ∧ some w ∉ t.syms) →
      ({ t with syms := t.syms ++ ws.map some }).refresh sc = .ok t' → Reached sc D zero one mono t'
  | extend {t t' : Table W} {src : Source W E} {gens : List W} {scalars : List Int} {m : Mat E} : Reached sc D zero one mono t →
      OfMoments sc t src gens → extend sc mono t src scalars = .ok (t', m) → Reached sc D zero one mono t'
  | threads {t t' : Table W} {src : Source W E} {gens : List W} {scalars : List Int} {m : Mat E} {n : Nat} {order : List Nat} :
      Reached sc D zero one mono t → OfMoments sc t src gens → (∀ s ∈ scalars, 0 ≤ s ∧ s < t.syms.length) → 0 < n →
      extendThreads sc mono t src scalars n order = .ok (.ok (t', m)) → Reached sc D zero one mono t'

/-- The factors of a column of the extended matrix: of the word of the moment matrix, or of the scalar. -/
def Column (sc : Scenario W) (t : Table W) (gens : List W) (scalars : List Int) (i : Nat) (l : List Nat) : Prop :=
  (∃ (g : W) (k : Nat), gens[i]? = some g ∧ t.syms[k]? = some (some (sc.canonical g)) ∧ FactorsOf t k l) ∨
  (gens.length ≤ i ∧ ∃ s, scalars[i - gens.length]? = some s ∧ FactorsOf t s.toNat l)

/-- The factors of an entry of the extended matrix outside the moment matrix that no symbol has. -/
def NewProduct (sc : Scenario W) (t : Table W) (gens : List W) (scalars : List Int) (l : List Nat) : Prop :=
  (∃ (i j : Nat) (a b : List Nat), i ≤ j ∧ gens.length ≤ j ∧ Column sc t gens scalars i a ∧ Column sc t gens scalars j b ∧ l = combineFactors a b) ∧
  ∀ k, ¬ FactorsOf t k l

theorem find_none_iff {t : Table W} (hg : Good sc D zero one t) {l : List Nat} : t.find l = none ↔ ∀ k, ¬ FactorsOf t k l := by
  constructor
  · rintro h k ⟨e, he, rfl⟩
    obtain ⟨k', hk'⟩ := hg.kept k e he
    rw [hk'] at h
    cases h
  · intro h
    cases hf : t.find l with
    | none => rfl
    | some k => exact absurd (find_factors hg hf) (h k)

theorem column_iff {t : Table W} (hg : Good sc D zero one t) {gens : List W} {scalars : List Int} (hin : ∀ s ∈ scalars, 0 ≤ s ∧ s < t.syms.length) {i : Nat}
    {l : List Nat} : Column sc t gens scalars i l ↔ ∃ e, t.entryAt (sideOf sc t gens gens.length scalars i) = some e ∧ e.symbols = l := by
  rw [sideOf]
  constructor
  · rintro (⟨g, k, h1, h2, e, h3, h4⟩ | ⟨h0, s, h1, e, h3, h4⟩)
    · refine ⟨e, ?_, h4⟩
      rw [if_pos (List.getElem?_eq_some_iff.mp h1).1, wordAt, h1, Option.bind_some, place_apart hg.apart h2]
      exact h3
    · refine ⟨e, ?_, h4⟩
      have := (hin s (List.mem_of_getElem? h1)).1
      rw [if_neg (by omega), scalarAt, h1, Option.bind_some, if_neg (by omega)]
      exact h3
  · rintro ⟨e, h1, h2⟩
    split at h1
    · rename_i hi
      rw [wordAt, List.getElem?_eq_getElem hi, Option.bind_some] at h1
      cases hp : place t.syms (sc.canonical gens[i]) with
      | none => rw [hp] at h1; cases h1
      | some k =>
        rw [hp] at h1
        exact Or.inl ⟨gens[i], k, List.getElem?_eq_getElem hi, place_some hp, e, h1, h2⟩
    · rename_i hi
      rw [scalarAt] at h1
      cases hs : scalars[i - gens.length]? with
      | none => rw [hs] at h1; cases h1
      | some s =>
        have := (hin s (List.mem_of_getElem? hs)).1
        rw [hs, Option.bind_some, if_neg (by omega)] at h1
        exact Or.inr ⟨by omega, s, hs, e, h1, h2⟩

theorem product_iff {t : Table W} (hg : Good sc D zero one t) {gens : List W} {scalars : List Int} (hin : ∀ s ∈ scalars, 0 ≤ s ∧ s < t.syms.length) {i j : Nat}
    {l : List Nat} : Product t (sideOf sc t gens gens.length scalars i) (sideOf sc t gens gens.length scalars j) l ↔
      ∃ a b, Column sc t gens scalars i a ∧ Column sc t gens scalars j b ∧ l = combineFactors a b := by
  constructor
  · rintro ⟨a, b, h1, h2, rfl⟩
    exact ⟨_, _, (column_iff hg hin).mpr ⟨a, h1, rfl⟩, (column_iff hg hin).mpr ⟨b, h2, rfl⟩, rfl⟩
  · rintro ⟨a, b, h1, h2, rfl⟩
    obtain ⟨x, hx, rfl⟩ := (column_iff hg hin).mp h1
    obtain ⟨y, hy, rfl⟩ := (column_iff hg hin).mp h2
    exact ⟨x, y, hx, hy, rfl⟩

theorem column_lt {t : Table W} {gens : List W} {scalars : List Int} {i : Nat} {l : List Nat} (h : Column sc t gens scalars i l) :
    i < gens.length + scalars.length := by
  rcases h with ⟨g, k, h1, -⟩ | ⟨h0, s, h1, -⟩
  · have := (List.getElem?_eq_some_iff.mp h1).1
    omega
  · have := (List.getElem?_eq_some_iff.mp h1).1
    omega

/-- What is left after any order of steps. -/
theorem pool_of (law : Lawful sc D zero one) {t : Table W} (hg : Good sc D zero one t) {src : Source W E} {gens : List W} (hs : OfMoments sc t src gens)
    {scalars : List Int} (hin : ∀ s ∈ scalars, 0 ≤ s ∧ s < t.syms.length) (n : Nat) (order : List Nat) :
    let s := (Pool.start sc mono t gens src.mat.dim scalars n).run mono t src.mat (src.mat.dim + scalars.length) order
    (∃ u, Live sc D zero one mono t src.mat (sideOf sc t gens src.mat.dim scalars) (src.mat.dim + scalars.length)
      (workerTasks sc t gens src.mat.dim scalars n) s u) ∨
    (s.crash = some .terminated ∧ Clash t (sideOf sc t gens src.mat.dim scalars) src.mat.dim (src.mat.dim + scalars.length)) := by
  obtain ⟨gs, hgs⟩ := sourced hg hs.registered
  obtain ⟨ls, hl⟩ := factored hg (toNat_lt hin)
  exact Live.run law hg (by omega) (fun w => tasks_fine hs.dim hgs hin hl n w) order (start_live hg src.mat hs.dim n)

theorem threads_eq {t : Table W} {src : Source W E} {gens : List W} (hs : OfMoments sc t src gens) (scalars : List Int) (n : Nat) (order : List Nat) :
    extendThreads sc mono t src scalars n order =
      let full := src.mat.dim + scalars.length
      let s := (Pool.start sc mono t gens src.mat.dim scalars n).run mono t src.mat full order
      if s.finished then .ok (.ok (s.register sc t, s.matrix full)) else .ok (.error s.crash) := by
  rw [extendThreads, hs.words]
  dsimp only
  rw [hs.hermitian]
  rfl

theorem threads_ok (law : Lawful sc D zero one) {t : Table W} (hg : Good sc D zero one t) {src : Source W E} {gens : List W} (hs : OfMoments sc t src gens)
    {scalars : List Int} (hin : ∀ s ∈ scalars, 0 ≤ s ∧ s < t.syms.length) {n : Nat} (hn : 0 < n) {order : List Nat} {t' : Table W} {m : Mat E}
    (he : extendThreads sc mono t src scalars n order = .ok (.ok (t', m))) :
    Extended sc D zero one mono t src gens scalars t' m ∧ ∃ news : List (List Nat), news.Nodup ∧ t'.syms.length = t.syms.length + news.length ∧
      ∀ l ∈ news, NewProduct sc t gens scalars l := by
  obtain ⟨gs, hgs⟩ := sourced hg hs.registered
  obtain ⟨ls, hl⟩ := factored hg (toNat_lt hin)
  rw [threads_eq hs] at he
  dsimp only at he
  split at he
  · rename_i hfin
    cases he
    rcases pool_of (mono := mono) law hg hs hin n order with ⟨u, h⟩ | ⟨h, -⟩
    · have hlen : ((Pool.start sc mono t gens src.mat.dim scalars n).run mono t src.mat (src.mat.dim + scalars.length) order).workers.length = n := by
        rw [run_workers]
        simp [Pool.start]
      obtain ⟨r1, r2, r3, r4⟩ := register_same hg h.bank
      have hcount := news_count (fun w => tasks_fine hs.dim hgs hin hl n w) h.bank
      refine ⟨⟨hin, r1, r2, gs, ls, hgs, hl, threads_result hn hlen hs.dim hgs hin hl h hfin r3, ?_⟩, _, h.bank.nodup, ?_, ?_⟩
      · rw [r4, hs.dim]
        omega
      · rw [← hg.sync, ← r1.sync, r4, List.length_map]
      · intro l hl'
        obtain ⟨e, he, rfl⟩ := List.mem_map.mp hl'
        obtain ⟨x, y, c, r, ⟨w, hw⟩, hp⟩ := h.bank.wanted e he
        obtain ⟨f1, f2, f3, rfl, rfl, -⟩ := tasks_fine hs.dim hgs hin hl n w _ hw
        obtain ⟨k, hk⟩ := h.bank.known e he
        rw [← hs.dim] at hp f2
        obtain ⟨a, b, ca, cb, hab⟩ := (product_iff hg hin).mp hp
        exact ⟨⟨c, r, a, b, f1, f2, ca, cb, hab⟩, (find_none_iff hg).mp (h.bank.apart _ _ hk)⟩
    · rw [Pool.finished, h] at hfin
      simp at hfin
  · cases he

theorem reached_good (law : Lawful sc D zero one) {t : Table W} (h : Reached sc D zero one mono t) : Good sc D zero one t := by
  induction h with
  | new h => exact reach_good law (Reach.new (mono := mono) h)
  | grow _ h1 h2 h3 ih =>
    obtain ⟨t', g1, g2, -⟩ := grow_spec law ih h1 h2
    rw [h3] at g1
    cases g1
    exact g2
  | extend _ h1 h2 ih => exact (extend_ok law ih h1 h2).2.1
  | threads _ h1 h2 h3 h4 ih => exact (threads_ok law ih h1 h2 h3 h4).1.2.1

/-! ## What a call gives -/

/-- C105. For symbols as scalars, every number of threads and every order of steps there is no undefined behaviour: the workers are done and there is a
result, or they are not yet done, or an exception in a thread ends the program. The last happens only if there are two new products of which one begins with
the other. (The claim that there is always a result is refuted below.) -/
theorem C105_outcome_partial (law : Lawful sc D zero one) {t : Table W} (h : Reached sc D zero one mono t) {src : Source W E} {gens : List W}
    (hs : OfMoments sc t src gens) {scalars : List Int} (hin : ∀ s ∈ scalars, 0 ≤ s ∧ s < t.syms.length) (n : Nat) (order : List Nat) :
    (∃ t' m, extendThreads sc mono t src scalars n order = .ok (.ok (t', m))) ∨ extendThreads sc mono t src scalars n order = .ok (.error none) ∨
    (extendThreads sc mono t src scalars n order = .ok (.error (some .terminated)) ∧
      ∃ l m, NewProduct sc t gens scalars l ∧ NewProduct sc t gens scalars m ∧ l <+: m ∧ l ≠ m) := by
  have hg := reached_good law h
  rw [threads_eq hs]
  dsimp only
  split
  · exact Or.inl ⟨_, _, rfl⟩
  · right
    rcases pool_of (mono := mono) law hg hs hin n order with ⟨u, h⟩ | ⟨h1, a, b, c, d, l, m, ⟨a1, a2, -⟩, ⟨c1, c2, -⟩, pl, pm, nl, nm, hpre, hne⟩
    · left
      rw [h.sound]
    · right
      rw [h1]
      refine ⟨rfl, l, m, ⟨?_, (find_none_iff hg).mp nl⟩, ⟨?_, (find_none_iff hg).mp nm⟩, hpre, hne⟩
      · rw [← hs.dim] at pl a2
        obtain ⟨x, y, hx, hy, hl⟩ := (product_iff hg hin).mp pl
        exact ⟨a, b, x, y, a1, a2, hx, hy, hl⟩
      · rw [← hs.dim] at pm c2
        obtain ⟨x, y, hx, hy, hl⟩ := (product_iff hg hin).mp pm
        exact ⟨c, d, x, y, c1, c2, hx, hy, hl⟩

/-- Workers take steps in some order, each of them does something. -/
def Executes (mono : Nat → E) (t : Table W) (src : Mat E) (full : Nat) (s : Pool W E) : List Nat → Pool W E → Prop
  | [], s' => s = s'
  | w :: l, s' => ∃ s₁, s.step mono t src full w = some s₁ ∧ Executes mono t src full s₁ l s'

theorem executes_run {t : Table W} {src : Mat E} {full : Nat} : ∀ {order : List Nat} {s s' : Pool W E}, Executes mono t src full s order s' →
    s.run mono t src full order = s' ∧ order.length ≤ s.left + 1
  | [], s, s', h => ⟨h, by simp⟩
  | w :: order, s, s', ⟨s₁, h1, h2⟩ => by
    obtain ⟨e1, e2⟩ := executes_run h2
    refine ⟨by rw [Pool.run, h1]; exact e1, ?_⟩
    rcases (step_left h1).2 with hc | hlt
    · cases order with
      | nil => simp
      | cons w' o =>
        obtain ⟨s₂, h3, -⟩ := h2
        have := (step_left h3).1
        rw [this] at hc
        cases hc
    · rw [List.length_cons]
      omega

/-- C105. Every execution ends: no execution has more steps than one more than three times the number of tasks; an execution that cannot go on is
finished, or the program has crashed; and every execution is one of `extendThreads`. -/
theorem C105_ends {t : Table W} {src : Source W E} {gens : List W} (hs : OfMoments sc t src gens) (scalars : List Int) (n : Nat) {order : List Nat}
    {s : Pool W E} (h : Executes mono t src.mat (src.mat.dim + scalars.length) (Pool.start sc mono t gens src.mat.dim scalars n) order s) :
    order.length ≤ 3 * ((List.range n).map fun w => (workerTasks sc t gens src.mat.dim scalars n w).length).sum + 1 ∧
    ((∀ w, s.step mono t src.mat (src.mat.dim + scalars.length) w = none) ↔ s.crash.isSome = true ∨ s.finished = true) ∧
    extendThreads sc mono t src scalars n order =
      if s.finished then .ok (.ok (s.register sc t, s.matrix (src.mat.dim + scalars.length))) else .ok (.error s.crash) := by
  obtain ⟨h1, h2⟩ := executes_run h
  refine ⟨h2.trans (Nat.add_le_add_right ?_ 1), stuck_iff, by rw [threads_eq hs]; dsimp only; rw [h1]⟩
  have : ∀ l : List Nat, ((l.map fun w => (⟨workerTasks sc t gens src.mat.dim scalars n w, .ready⟩ : Worker W)).map Worker.left).sum ≤
      3 * (l.map fun w => (workerTasks sc t gens src.mat.dim scalars n w).length).sum := by
    intro l
    induction l with
    | nil => simp
    | cons w l ih =>
      simp only [List.map_cons, List.sum_cons]
      have hw : (⟨workerTasks sc t gens src.mat.dim scalars n w, .ready⟩ : Worker W).left ≤ 3 * (workerTasks sc t gens src.mat.dim scalars n w).length := by
        cases workerTasks sc t gens src.mat.dim scalars n w with
        | nil => simp [Worker.left]
        | cons τ r => simp [Worker.left, Phase.left]; omega
      omega
  exact this _

/-- C105. No two workers write to the same place: each offset of the output is written by one task of one worker, whatever the number of workers. -/
theorem C105_once (law : Lawful sc D zero one) {t : Table W} (h : Reached sc D zero one mono t) {src : Source W E} {gens : List W}
    (hs : OfMoments sc t src gens) {scalars : List Int} (hin : ∀ s ∈ scalars, 0 ≤ s ∧ s < t.syms.length) {n : Nat} (hn : 0 < n) {w w' i i' : Nat} (hw : w < n)
    (hw' : w' < n) {τ τ' : Task} (hτ : (workerTasks sc t gens src.mat.dim scalars n w)[i]? = some τ)
    (hτ' : (workerTasks sc t gens src.mat.dim scalars n w')[i']? = some τ') {p p' : Nat × Nat} (hp : p ∈ τ.cells) (hp' : p' ∈ τ'.cells) :
    p.1 * (src.mat.dim + scalars.length) + p.2 < (src.mat.dim + scalars.length) * (src.mat.dim + scalars.length) ∧
    (p.1 * (src.mat.dim + scalars.length) + p.2 = p'.1 * (src.mat.dim + scalars.length) + p'.2 → w = w' ∧ i = i') := by
  have hg := reached_good law h
  obtain ⟨gs, hgs⟩ := sourced hg hs.registered
  obtain ⟨ls, hl⟩ := factored hg (toNat_lt hin)
  have hm := List.mem_of_getElem? hτ
  have hm' := List.mem_of_getElem? hτ'
  have f := tasks_fine hs.dim hgs hin hl n w τ hm
  have f' := tasks_fine hs.dim hgs hin hl n w' τ' hm'
  have c := f.cells_lt (by omega) p hp
  have c' := f'.cells_lt (by omega) p' hp'
  refine ⟨?_, fun he => ?_⟩
  · have : (p.1 + 1) * (src.mat.dim + scalars.length) ≤ (src.mat.dim + scalars.length) * (src.mat.dim + scalars.length) := Nat.mul_le_mul_right _ c.1
    rw [Nat.add_mul] at this
    omega
  · obtain ⟨e1, e2⟩ := offset_inj c.2 c'.2 he
    have hpp : p = p' := Prod.ext e1 e2
    subst hpp
    have s1 := fine_owner f p hp
    have s2 := fine_owner f' p hp'
    have hww := spot_worker hw hw' hm hm' s1 s2
    subst hww
    refine ⟨rfl, ?_⟩
    by_contra hne
    have nd := spots_nodup (sc := sc) (t := t) (gens := gens) (dim := src.mat.dim) (scalars := scalars) hn w
    rw [List.Nodup, List.pairwise_filterMap] at nd
    rw [List.pairwise_iff_getElem] at nd
    obtain ⟨l1, g1⟩ := List.getElem?_eq_some_iff.mp hτ
    obtain ⟨l2, g2⟩ := List.getElem?_eq_some_iff.mp hτ'
    rcases Nat.lt_or_gt_of_ne hne with hlt | hlt
    · exact nd i i' l1 l2 hlt _ (by rw [g1, s1]) _ (by rw [g2, s2]) rfl
    · exact nd i' i l2 l1 hlt _ (by rw [g2, s2]) _ (by rw [g1, s1]) rfl

/-! ## Results -/

variable {M : Type} [CommMonoidWithZero M]

/-- C105. The values of an extended matrix, as with one thread. -/
theorem C105_values (law : Lawful sc D zero one) {t : Table W} (h : Reached sc D zero one mono t) {src : Source W E} {gens : List W}
    (hs : OfMoments sc t src gens) {scalars : List Int} (hin : ∀ s ∈ scalars, 0 ≤ s ∧ s < t.syms.length) {n : Nat} (hn : 0 < n) {order : List Nat}
    {t' : Table W} {m : Mat E} (he : extendThreads sc mono t src scalars n order = .ok (.ok (t', m)))
    {v : Nat → M} (hv : Respects t' v) {val : E → M} (hval : ∀ k, val (mono k) = v k) :
    m.dim = src.mat.dim + scalars.length ∧ (∀ i j, i < src.mat.dim → j < src.mat.dim → m.at_ i j = src.mat.at_ i j) ∧
    (∀ (i : Nat) g (k : Nat), gens[i]? = some g → t.syms[k]? = some (some (sc.canonical g)) → ∀ (j : Nat) s, scalars[j]? = some s →
      val (m.at_ i (src.mat.dim + j)) = v k * v s.toNat ∧ m.at_ (src.mat.dim + j) i = m.at_ i (src.mat.dim + j)) ∧
    ∀ (i j : Nat) a b, scalars[i]? = some a → scalars[j]? = some b →
      val (m.at_ (src.mat.dim + i) (src.mat.dim + j)) = v a.toNat * v b.toNat ∧
      m.at_ (src.mat.dim + j) (src.mat.dim + i) = m.at_ (src.mat.dim + i) (src.mat.dim + j) :=
  values_of law (reached_good law h) hs (threads_ok law (reached_good law h) hs hin hn he).1 hv hval

/-- C105. The extension only adds symbols, and values of the old symbols extend to the new ones in exactly one way. -/
theorem C105_conservative (law : Lawful sc D zero one) {t : Table W} (h : Reached sc D zero one mono t) {src : Source W E} {gens : List W}
    (hs : OfMoments sc t src gens) {scalars : List Int} (hin : ∀ s ∈ scalars, 0 ≤ s ∧ s < t.syms.length) {n : Nat} (hn : 0 < n) {order : List Nat}
    {t' : Table W} {m : Mat E} (he : extendThreads sc mono t src scalars n order = .ok (.ok (t', m))) :
    t.syms <+: t'.syms ∧ t.entries <+: t'.entries ∧ t'.syms.length ≤ t.syms.length + atMost gens.length scalars.length ∧
    (∀ v : Nat → M, Respects t' v → Respects t v) ∧
    ∀ v : Nat → M, Respects t v → ∃ v', Respects t' v' ∧ (∀ i, i < t.syms.length → v' i = v i) ∧
      ∀ v'', Respects t' v'' → (∀ i, i < t.syms.length → v'' i = v i) → ∀ i, i < t'.syms.length → v'' i = v' i :=
  conservative_of law (reached_good law h) hs (threads_ok law (reached_good law h) hs hin hn he).1

/-- C105. One thread that makes the same extension again finds all symbols, and makes the same matrix. -/
theorem C105_again (law : Lawful sc D zero one) {t : Table W} (h : Reached sc D zero one mono t) {src : Source W E} {gens : List W}
    (hs : OfMoments sc t src gens) {scalars : List Int} (hin : ∀ s ∈ scalars, 0 ≤ s ∧ s < t.syms.length) {n : Nat} (hn : 0 < n) {order : List Nat}
    {t' : Table W} {m : Mat E} (he : extendThreads sc mono t src scalars n order = .ok (.ok (t', m))) :
    ∃ m', extend sc mono t' src scalars = .ok (t', m') ∧ m'.dim = m.dim ∧ ∀ i j, i < m.dim → j < m.dim → m'.at_ i j = m.at_ i j :=
  again_of law (reached_good law h) hs (threads_ok law (reached_good law h) hs hin hn he).1

/-- C105. For real values that respect the factors the extended matrix is positive exactly if the moment matrix is. -/
theorem C105_positive (law : Lawful sc D zero one) {t : Table W} (h : Reached sc D zero one mono t) {src : Source W E} {gens : List W}
    (hs : OfMoments sc t src gens) {scalars : List Int} (hin : ∀ s ∈ scalars, 0 ≤ s ∧ s < t.syms.length) {n : Nat} (hn : 0 < n) {order : List Nat}
    {t' : Table W} {m : Mat E} (he : extendThreads sc mono t src scalars n order = .ok (.ok (t', m)))
    {v : Nat → ℝ} (hv : Respects t' v) {val : E → ℝ} (hval : ∀ k, val (mono k) = v k) (hone : gens[0]? = some one)
    (hrow : ∀ (i : Nat) g (k : Nat), gens[i]? = some g → t.syms[k]? = some (some (sc.canonical g)) → val (src.mat.at_ 0 i) = v k ∧ val (src.mat.at_ i 0) = v k) :
    Positive m.dim (fun i j => val (m.at_ i j)) ↔ Positive src.mat.dim (fun i j => val (src.mat.at_ i j)) :=
  positive_of law (reached_good law h) hs (threads_ok law (reached_good law h) hs hin hn he).1 hv hval hone hrow

/-- C105. In all tables that histories with one and several threads lead to: each symbol has an entry with its id, its factors do not factorize, the factors
of a symbol with a word are those of the word, and looking for factors of a symbol finds a symbol with these factors. -/
theorem C105_table (law : Lawful sc D zero one) {t : Table W} (h : Reached sc D zero one mono t) (i : Nat) :
    (i < t.syms.length ↔ ∃ e, t.entries[i]? = some e) ∧ ∀ e, t.entries[i]? = some e → e.id = i ∧ e.symbols ≠ [] ∧
      (∀ k ∈ e.symbols, FactorsOf t k [k] ∧ ∃ w, t.syms[k]? = some (some w) ∧ Basic sc w) ∧
      (∀ w, t.syms[i]? = some (some w) → ∃ ks, e.symbols.Perm ks ∧ List.Forall₂ (fun f k => t.syms[k]? = some (some (sc.canonical f))) (sc.factorize w) ks) ∧
      ∃ k, t.find e.symbols = some k ∧ FactorsOf t k e.symbols :=
  table_of law (reached_good law h) i

/-! ## All orders agree -/

theorem factors_unique {t : Table W} {k : Nat} {p q : List Nat} (h : FactorsOf t k p) (h' : FactorsOf t k q) : p = q := by
  obtain ⟨e, e1, rfl⟩ := h
  obtain ⟨e', e1', rfl⟩ := h'
  rw [e1] at e1'
  cases e1'
  rfl

theorem entry_of {t : Table W} (hg : Good sc D zero one t) {src : Source W E} {gens : List W} (hs : OfMoments sc t src gens) {scalars : List Int}
    {t' : Table W} {m : Mat E} (he : Extended sc D zero one mono t src gens scalars t' m) {i j : Nat} {a b : List Nat} (hij : i ≤ j) (hj : gens.length ≤ j)
    (ha : Column sc t gens scalars i a) (hb : Column sc t gens scalars j b) : Holds mono t' m i j a b := by
  obtain ⟨hin, hg', hx, gs, ls, h1, h2, h3, -⟩ := he
  have hlen := h2.length_eq
  rw [List.length_map] at hlen
  have scal : ∀ {i : Nat} {a : List Nat}, gens.length ≤ i → Column sc t gens scalars i a → ls[i - gens.length]? = some a := by
    rintro i a hi (⟨g, k, g1, -⟩ | ⟨-, s, g1, g2⟩)
    · have := (List.getElem?_eq_some_iff.mp g1).1
      omega
    · have hil := List.getElem?_eq_some_iff.mp g1
      have hi' : i - gens.length < ls.length := by rw [← hlen]; exact hil.1
      have := (List.forall₂_iff_get.mp h2).2 (i - gens.length) (by rw [List.length_map]; exact hil.1) hi'
      simp only [List.get_eq_getElem, List.getElem_map, hil.2] at this
      rw [List.getElem?_eq_getElem hi', factors_unique this g2]
  have word : ∀ {i : Nat} {a : List Nat}, i < gens.length → Column sc t gens scalars i a → gs[i]? = some a := by
    rintro i a hi (⟨g, k, g1, g2, g3⟩ | ⟨g0, -⟩)
    · have hil := List.getElem?_eq_some_iff.mp g1
      have hi' : i < gs.length := by rw [← h1.length_eq]; exact hil.1
      have hsrc := (List.forall₂_iff_get.mp h1).2 i hil.1 hi'
      simp only [List.get_eq_getElem, hil.2] at hsrc
      obtain ⟨k', hk', hkf⟩ := hsrc
      rw [place_apart hg.apart g2] at hk'
      cases hk'
      rw [List.getElem?_eq_getElem hi', factors_unique hkf g3]
    · omega
  rcases Nat.lt_or_ge i gens.length with hi | hi
  · have := h3.side i a (word hi ha) _ b (scal hj hb)
    rwa [← hs.dim, show gens.length + (j - gens.length) = j by omega] at this
  · have := h3.block _ _ a b (by omega) (scal hi ha) (scal hj hb)
    rwa [← hs.dim, show gens.length + (j - gens.length) = j by omega, show gens.length + (i - gens.length) = i by omega] at this

theorem column_ex {t : Table W} (hg : Good sc D zero one t) {src : Source W E} {gens : List W} (hs : OfMoments sc t src gens) {scalars : List Int}
    (hin : ∀ s ∈ scalars, 0 ≤ s ∧ s < t.syms.length) {i : Nat} (hi : i < gens.length + scalars.length) : ∃ a, Column sc t gens scalars i a := by
  obtain ⟨gs, hgs⟩ := sourced hg hs.registered
  obtain ⟨ls, hl⟩ := factored hg (toNat_lt hin)
  obtain ⟨e, he⟩ := side_entry (i := i) rfl hgs hin hl hi
  exact ⟨e.symbols, (column_iff hg hin).mpr ⟨e, he, rfl⟩⟩

/-- Two results agree up to the names of new symbols: the matrices have the same size, the same entries in the moment matrix, and symbols with the same
factors elsewhere, which are the same symbols if a symbol with these factors was there before. -/
def Agree (mono : Nat → E) (t : Table W) (dim : Nat) (t₁ : Table W) (m₁ : Mat E) (t₂ : Table W) (m₂ : Mat E) : Prop :=
  m₁.dim = m₂.dim ∧ (∀ i j, i < dim → j < dim → m₁.at_ i j = m₂.at_ i j) ∧
  ∀ i j, i < m₁.dim → j < m₁.dim → ¬ (i < dim ∧ j < dim) → ∃ k₁ k₂ l, m₁.at_ i j = mono k₁ ∧ m₂.at_ i j = mono k₂ ∧
    FactorsOf t₁ k₁ l ∧ FactorsOf t₂ k₂ l ∧ t₁.find l = some k₁ ∧ t₂.find l = some k₂ ∧ ∀ k, t.find l = some k → k₁ = k ∧ k₂ = k

theorem agree_of {t : Table W} (hg : Good sc D zero one t) {src : Source W E} {gens : List W} (hs : OfMoments sc t src gens) {scalars : List Int}
    {t₁ t₂ : Table W} {m₁ m₂ : Mat E} (h₁ : Extended sc D zero one mono t src gens scalars t₁ m₁) (h₂ : Extended sc D zero one mono t src gens scalars t₂ m₂) :
    Agree mono t src.mat.dim t₁ m₁ t₂ m₂ := by
  have hin := h₁.1
  have d₁ : m₁.dim = src.mat.dim + scalars.length := by
    obtain ⟨-, -, -, gs, ls, -, h2, h3, -⟩ := h₁
    rw [h3.dim, ← h2.length_eq, List.length_map]
  have d₂ : m₂.dim = src.mat.dim + scalars.length := by
    obtain ⟨-, -, -, gs, ls, -, h2, h3, -⟩ := h₂
    rw [h3.dim, ← h2.length_eq, List.length_map]
  have c₁ : ∀ i j, i < src.mat.dim → j < src.mat.dim → m₁.at_ i j = src.mat.at_ i j := by
    obtain ⟨-, -, -, gs, ls, -, h2, h3, -⟩ := h₁
    exact h3.corner
  have c₂ : ∀ i j, i < src.mat.dim → j < src.mat.dim → m₂.at_ i j = src.mat.at_ i j := by
    obtain ⟨-, -, -, gs, ls, -, h2, h3, -⟩ := h₂
    exact h3.corner
  refine ⟨d₁.trans d₂.symm, fun i j hi hj => (c₁ i j hi hj).trans (c₂ i j hi hj).symm, ?_⟩
  intro i j hi hj hc
  rw [d₁, ← hs.dim] at hi hj
  rw [← hs.dim] at hc
  have key : ∀ i j, i ≤ j → gens.length ≤ j → j < gens.length + scalars.length → ∃ k₁ k₂ l, (m₁.at_ i j = mono k₁ ∧ m₁.at_ j i = mono k₁) ∧
      (m₂.at_ i j = mono k₂ ∧ m₂.at_ j i = mono k₂) ∧
      FactorsOf t₁ k₁ l ∧ FactorsOf t₂ k₂ l ∧ t₁.find l = some k₁ ∧ t₂.find l = some k₂ ∧ ∀ k, t.find l = some k → k₁ = k ∧ k₂ = k := by
    intro i j hij hjd hj
    obtain ⟨a, ha⟩ := column_ex hg hs hin (i := i) (by omega)
    obtain ⟨b, hb⟩ := column_ex hg hs hin hj
    obtain ⟨k₁, f₁, p₁, q₁⟩ := entry_of hg hs h₁ hij hjd ha hb
    obtain ⟨k₂, f₂, p₂, q₂⟩ := entry_of hg hs h₂ hij hjd ha hb
    refine ⟨k₁, k₂, _, ⟨p₁, q₁⟩, ⟨p₂, q₂⟩, find_factors h₁.2.1 f₁, find_factors h₂.2.1 f₂, f₁, f₂, fun k hk => ⟨?_, ?_⟩⟩
    · have := h₁.2.2.1.finds _ k hk
      rw [f₁] at this
      exact Option.some.inj this
    · have := h₂.2.2.1.finds _ k hk
      rw [f₂] at this
      exact Option.some.inj this
  rcases Nat.le_total i j with hij | hij
  · obtain ⟨k₁, k₂, l, ⟨p₁, -⟩, ⟨p₂, -⟩, r⟩ := key i j hij (by omega) hj
    exact ⟨k₁, k₂, l, p₁, p₂, r⟩
  · obtain ⟨k₁, k₂, l, ⟨-, p₁⟩, ⟨-, p₂⟩, r⟩ := key j i hij (by omega) hi
    exact ⟨k₁, k₂, l, p₁, p₂, r⟩

/-- C105. The result does not depend on the number of threads and on the order of their steps, up to the names of new symbols, and the number of new
symbols is the same; one thread gives the same as several, up to the names of new symbols. -/
theorem C105_same (law : Lawful sc D zero one) {t : Table W} (h : Reached sc D zero one mono t) {src : Source W E} {gens : List W}
    (hs : OfMoments sc t src gens) {scalars : List Int} (hin : ∀ s ∈ scalars, 0 ≤ s ∧ s < t.syms.length) {n : Nat} (hn : 0 < n) {order : List Nat}
    {t' : Table W} {m : Mat E} (he : extendThreads sc mono t src scalars n order = .ok (.ok (t', m))) :
    (∀ t₁ m₁, extend sc mono t src scalars = .ok (t₁, m₁) → Agree mono t src.mat.dim t' m t₁ m₁) ∧
    ∀ n₂ order₂ t₂ m₂, 0 < n₂ → extendThreads sc mono t src scalars n₂ order₂ = .ok (.ok (t₂, m₂)) →
      Agree mono t src.mat.dim t' m t₂ m₂ ∧ t'.syms.length = t₂.syms.length := by
  have hg := reached_good law h
  obtain ⟨e1, news, nd, hlen, hnews⟩ := threads_ok law hg hs hin hn he
  refine ⟨fun t₁ m₁ h₁ => agree_of hg hs e1 (extend_ok law hg hs h₁), fun n₂ order₂ t₂ m₂ hn₂ h₂ => ?_⟩
  obtain ⟨e2, news₂, nd₂, hlen₂, hnews₂⟩ := threads_ok law hg hs hin hn₂ h₂
  refine ⟨agree_of hg hs e1 e2, ?_⟩
  have key : ∀ {ta tb : Table W} {ma mb : Mat E} {na nb : List (List Nat)}, Extended sc D zero one mono t src gens scalars ta ma →
      Extended sc D zero one mono t src gens scalars tb mb → na.Nodup → tb.syms.length = t.syms.length + nb.length →
      (∀ l ∈ na, NewProduct sc t gens scalars l) → na.length ≤ nb.length := by
    intro ta tb ma mb na nb ea eb nda hb hna
    -- the symbol of a new product in the other table is new there
    have hsub : ∀ l ∈ na, ∃ k, tb.find l = some k ∧ t.syms.length ≤ k ∧ k < tb.syms.length := by
      intro l hl
      obtain ⟨⟨i, j, a, b, hij, hj, ha, hb', rfl⟩, hno⟩ := hna l hl
      obtain ⟨k, hk, -⟩ := entry_of hg hs eb hij hj ha hb'
      obtain ⟨x, hx, hxs⟩ := find_factors eb.2.1 hk
      refine ⟨k, hk, ?_, ?_⟩
      · by_contra hc
        obtain ⟨e, he⟩ := entry_at hg (List.getElem?_eq_getElem (show k < t.syms.length by omega))
        have := get_prefix eb.2.2.1.grown.entries he
        rw [hx] at this
        cases this
        exact hno k ⟨_, he, hxs⟩
      · rw [← eb.2.1.sync]
        exact (List.getElem?_eq_some_iff.mp hx).1
    have hmap : (na.map fun l => (tb.find l).getD 0).Nodup := by
      refine List.Nodup.map_on ?_ nda
      intro l hl l' hl' heq
      obtain ⟨k, hk, -⟩ := hsub l hl
      obtain ⟨k', hk', -⟩ := hsub l' hl'
      rw [hk, hk'] at heq
      simp only [Option.getD_some] at heq
      subst heq
      exact factors_unique (find_factors eb.2.1 hk) (find_factors eb.2.1 hk')
    have hss : (na.map fun l => (tb.find l).getD 0) ⊆ List.range' t.syms.length nb.length := by
      intro x hx
      obtain ⟨l, hl, rfl⟩ := List.mem_map.mp hx
      obtain ⟨k, hk, h1, h2⟩ := hsub l hl
      rw [hk, Option.getD_some, List.mem_range'_1]
      omega
    have := (List.subperm_of_subset hmap hss).length_le
    rwa [List.length_map, List.length_range'] at this
  have l1 := key e1 e2 nd hlen₂ hnews
  have l2 := key e2 e1 nd₂ hlen hnews₂
  omega

end

/-! ## What is wrong, and examples -/

/-- The last lists of factors of the table of C104 are those of A, B, C, AB, AC, BC. -/
theorem second_reached : Reached threePlain (IsWord threeCtx) none (some []) (id : Nat → Nat) second := by
  have hf : Reached threePlain (IsWord threeCtx) none (some []) (id : Nat → Nat) first := .new (ok_of blank (by decide +kernel))
  refine .grow hf (ws := words1) (by decide +kernel) ?_ (ok_of blank (by decide +kernel))
  intro w hw
  refine ⟨?_, ?_⟩
  · simp only [words1, List.mem_cons, List.not_mem_nil, or_false] at hw
    rcases hw with rfl | rfl | rfl | rfl | rfl | rfl <;> exact words_isWord (by decide +kernel)
  · revert w
    decide +kernel

def okPair (x : Except Fault (Except (Option Crash) (T × Mat Nat))) : Option (T × Mat Nat) :=
  match x with
  | .ok (.ok p) => some p
  | _ => none

theorem okPair_eq {x : Except Fault (Except (Option Crash) (T × Mat Nat))} (d : T × Mat Nat) (h : (okPair x).isSome = true) : x = .ok (.ok ((okPair x).getD d)) := by
  match x, h with
  | .ok (.ok p), _ => rfl

/-- Two threads that take some steps in turn, then those of thread 1, then those of thread 0, extending the matrix of level 1 by the scalar AB. -/
def turns : List Nat := [0, 1, 0, 1, 1, 0] ++ List.replicate 60 1 ++ List.replicate 60 0
def both : T × Mat Nat := (okPair (extendThreads threePlain id second level1 [5] 2 turns)).getD (blank, ⟨0, fun _ _ => 0⟩)

theorem both_ok : extendThreads threePlain id second level1 [5] 2 turns = .ok (.ok both) := okPair_eq _ (by decide +kernel)

/-- `C105_values`, `C105_conservative`, `C105_again`, `C105_positive`, `C105_same`: an extension by two threads gives new symbols with other names than one
thread (C104). -/
example : (List.range 5).map (fun i => (List.range 5).map (both.2.at_ i)) =
    [[1, 2, 3, 4, 5], [2, 2, 5, 6, 8], [3, 5, 3, 7, 10], [4, 6, 7, 4, 9], [5, 8, 10, 9, 11]] := by decide +kernel

/-- What worker 0 does first when the matrix of level 0 is extended by AB and A, for all numbers of workers. -/
theorem tasks_zero (a b : Int) (n : Nat) : ∃ rest, workerTasks threePlain second [some []] 1 [a, b] n 0 =
    .copy 0 0 :: .read (some 1) :: .join (some 1) (scalarAt [a, b] 0) 0 1 :: .join (some 1) (scalarAt [a, b] 1) 0 2 ::
      .join (scalarAt [a, b] 0) (scalarAt [a, b] 0) 1 1 :: .join (scalarAt [a, b] 0) (scalarAt [a, b] 1) 1 2 :: rest := by
  have hw : wordAt threePlain second [some []] 0 = some 1 := by decide +kernel
  refine ⟨(strided n 3 2 (1 + n)).flatMap (blockTasks 1 [a, b]), ?_⟩
  rw [workerTasks]
  have h1 : strided n 1 1 0 = [0] := rfl
  have h2 : strided n (1 + [a, b].length) (1 + [a, b].length) (1 + 0) = 1 :: strided n 3 2 (1 + n) := rfl
  rw [h1, h2, List.flatMap_cons, List.flatMap_cons, List.flatMap_nil, List.append_nil]
  have h3 : sideTasks threePlain second [some []] 1 [a, b] 0 = [.copy 0 0, .read (wordAt threePlain second [some []] 0),
      .join (wordAt threePlain second [some []] 0) (scalarAt [a, b] 0) 0 1, .join (wordAt threePlain second [some []] 0) (scalarAt [a, b] 1) 0 2] := rfl
  have h4 : blockTasks 1 [a, b] 1 = [.join (scalarAt [a, b] 0) (scalarAt [a, b] 0) 1 1, .join (scalarAt [a, b] 0) (scalarAt [a, b] 1) 1 2] := rfl
  rw [h3, h4, hw]
  rfl

theorem start_zero (a b : Int) (n : Nat) : ∃ rest others, Pool.start threePlain (id : Nat → Nat) second [some []] 1 [a, b] (n + 1) =
    ⟨(none, .nil), [], fun _ => 0, ⟨.copy 0 0 :: .read (some 1) :: .join (some 1) (scalarAt [a, b] 0) 0 1 :: .join (some 1) (scalarAt [a, b] 1) 0 2 ::
      .join (scalarAt [a, b] 0) (scalarAt [a, b] 0) 1 1 :: .join (scalarAt [a, b] 0) (scalarAt [a, b] 1) 1 2 :: rest, .ready⟩ :: others, none⟩ := by
  obtain ⟨rest, hr⟩ := tasks_zero a b (n + 1)
  refine ⟨rest, (List.range' 1 n).map fun w => ⟨workerTasks threePlain second [some []] 1 [a, b] (n + 1) w, .ready⟩, ?_⟩
  rw [Pool.start, List.range_eq_range', List.range'_succ, List.map_cons, hr]
  rfl

theorem crash_range (rest : List Task) (others : List (Worker (Option (List Nat)))) :
    (Pool.run (id : Nat → Nat) second level0.mat 3 ⟨(none, .nil), [], fun _ => 0, ⟨.copy 0 0 :: .read (some 1) :: .join (some 1) (scalarAt [100, 2] 0) 0 1 ::
      .join (some 1) (scalarAt [100, 2] 1) 0 2 :: .join (scalarAt [100, 2] 0) (scalarAt [100, 2] 0) 1 1 ::
      .join (scalarAt [100, 2] 0) (scalarAt [100, 2] 1) 1 2 :: rest, .ready⟩ :: others, none⟩ (List.replicate 3 0)).crash = some .undefined := by
  with_unfolding_all rfl

theorem crash_of {t : T} {x1 x2 x5 : Entry (Option (List Nat))} {ws : List (Option (List Nat))} (h1 : t.entryAt (some 1) = some x1)
    (h2 : t.entryAt (some 2) = some x2) (h5 : t.entryAt (some 5) = some x5) (s1 : x1.symbols = [1]) (s2 : x2.symbols = [2]) (s5 : x5.symbols = [2, 3])
    (f2 : t.find [2] = some 2) (f5 : t.find [2, 3] = some 5) (g1 : t.find [2, 2, 3, 3] = none) (g2 : t.find [2, 2, 3] = none)
    (hw : wordsOf t.syms [2, 2, 3, 3] = .ok ws) (src : Mat Nat) (rest : List Task) (others : List (Worker (Option (List Nat)))) :
    (Pool.run (id : Nat → Nat) t src 3 ⟨(none, .nil), [], fun _ => 0, ⟨.copy 0 0 :: .read (some 1) :: .join (some 1) (some 5) 0 1 ::
      .join (some 1) (some 2) 0 2 :: .join (some 5) (some 5) 1 1 :: .join (some 5) (some 2) 1 2 :: rest, .ready⟩ :: others, none⟩
      (List.replicate 9 0)).crash = some .terminated := by
  have c1 : combineFactors [1] [2, 3] = [2, 3] := by decide +kernel
  have c2 : combineFactors [1] [2] = [2] := by decide +kernel
  have c3 : combineFactors [2, 3] [2, 3] = [2, 2, 3, 3] := by decide +kernel
  have c4 : combineFactors [2, 3] [2] = [2, 2, 3] := by decide +kernel
  have p1 : Index.findOrHint ((none, .nil) : Index.Node Nat) (path [2, 2, 3, 3]) = ((none, .nil), path [2, 2, 3, 3]) := rfl
  have p0 : path [2, 2, 3, 3] ≠ [] := by decide
  have p2 : (Index.findOrHint (Index.add t.syms.length (path [2, 2, 3, 3]) ((none, .nil) : Index.Node Nat)) (path [2, 2, 3])).2 = [] := rfl
  have p3 : (Index.findOrHint (Index.add t.syms.length (path [2, 2, 3, 3]) ((none, .nil) : Index.Node Nat)) (path [2, 2, 3])).1.1 = none := rfl
  have p4 : (path [2, 2, 3, 3]).length = 4 := rfl
  have p5 : path [] = [] := rfl
  have p6 : ∀ t : Index.Node Nat, Index.findNode t [] = some t := fun _ => rfl
  have p7 : Index.find ((none, .nil) : Index.Node Nat) (path [2, 2, 3, 3]) = none := rfl
  simp [p4, p5, p6, p7, List.replicate, Pool.run, Pool.step, Pool.goto, Pool.put, Pool.write, h1, h2, h5, s1, s2, s5, c1, c2, c3, c4, f2, f5, g1, g2, hw, p1, p0, p2, p3]

theorem run_append {W E : Type} [DecidableEq W] {mono : Nat → E} {t : Table W} {src : Mat E} {full : Nat} : ∀ (a b : List Nat) (s : Pool W E),
    s.run mono t src full (a ++ b) = (s.run mono t src full a).run mono t src full b
  | [], _, _ => rfl
  | w :: a, b, s => run_append a b _

theorem run_stuck {W E : Type} [DecidableEq W] {mono : Nat → E} {t : Table W} {src : Mat E} {full : Nat} {s : Pool W E}
    (h : ∀ w, s.step mono t src full w = none) : ∀ order : List Nat, s.run mono t src full order = s
  | [] => rfl
  | w :: order => by rw [Pool.run, h w, Option.getD_none, run_stuck h order]

/-- With one worker all orders are the same, as far as they go. -/
theorem run_alone {W E : Type} [DecidableEq W] {mono : Nat → E} {t : Table W} {src : Mat E} {full : Nat} : ∀ (order : List Nat) (s : Pool W E),
    s.workers.length = 1 → s.run mono t src full order = s.run mono t src full (List.replicate (order.count 0) 0)
  | [], _, _ => rfl
  | w :: order, s, h => by
    have hlen : ((s.step mono t src full w).getD s).workers.length = 1 := by
      cases hs : s.step mono t src full w with
      | none => exact h
      | some s' => exact (step_workers hs).trans h
    rw [Pool.run, run_alone order _ hlen]
    cases w with
    | zero =>
      rw [List.count_cons_self, List.replicate_succ]
      rfl
    | succ w =>
      have hnone : s.step mono t src full (w + 1) = none := by
        rw [Pool.step]
        split
        · rfl
        · rw [List.getElem?_eq_none (by omega)]
      rw [hnone, Option.getD_none, List.count_cons_of_ne (by omega)]

/-- C105, refuted for products of which one begins with the other: a list of factors that is the beginning of a new list is found in the temporary tree
without a value, the value is taken nevertheless, and the exception ends the program. Here the matrix of level 0 is extended by AB and A: AB·AB is new,
then AB·A is looked for. This can happen for every number of threads, and happens always with one worker. -/
theorem C105_refuted_prefix : ∃ (n : Causal) (c : Ctx), C12.ContextOf n c ∧ ∃ t, Reached (ofContext c (2 * ·)) (IsWord c) none (some []) (id : Nat → Nat) t ∧
    ∃ (src : Source (Option (List Nat)) Nat) (gens : List (Option (List Nat))) (scalars : List Int), OfMoments (ofContext c (2 * ·)) t src gens ∧
      (∀ s ∈ scalars, 0 ≤ s ∧ s < t.syms.length) ∧
      (∀ k, 0 < k → ∃ order, extendThreads (ofContext c (2 * ·)) id t src scalars k order = .ok (.error (some .terminated))) ∧
      ∀ order, ∀ p, extendThreads (ofContext c (2 * ·)) id t src scalars 1 order ≠ .ok (.ok p) := by
  refine ⟨three, threeCtx, three_context, ?_⟩
  rw [three_plain]
  have key : ∀ k, ((Pool.start threePlain (id : Nat → Nat) second [some []] 1 [5, 2] (k + 1)).run id second level0.mat 3 (List.replicate 9 0)).crash =
      some .terminated := by
    intro k
    obtain ⟨rest, others, he⟩ := start_zero 5 2 k
    rw [he]
    obtain ⟨x1, h1⟩ : ∃ x, second.entryAt (some 1) = some x ∧ x.symbols = [1] := Option.map_eq_some_iff.mp
      (show (second.entryAt (some 1)).map (·.symbols) = some [1] by decide +kernel)
    obtain ⟨x2, h2⟩ : ∃ x, second.entryAt (some 2) = some x ∧ x.symbols = [2] := Option.map_eq_some_iff.mp
      (show (second.entryAt (some 2)).map (·.symbols) = some [2] by decide +kernel)
    obtain ⟨x5, h5⟩ : ∃ x, second.entryAt (some 5) = some x ∧ x.symbols = [2, 3] := Option.map_eq_some_iff.mp
      (show (second.entryAt (some 5)).map (·.symbols) = some [2, 3] by decide +kernel)
    exact crash_of h1.1 h2.1 h5.1 h1.2 h2.2 h5.2 (by decide +kernel) (by decide +kernel) (by decide +kernel) (by decide +kernel)
      (ok_of [] (by decide +kernel)) _ rest others
  refine ⟨second, second_reached, level0, [some []], [5, 2], level0_ofMoments, by decide +kernel, ?_, ?_⟩
  · intro k hk
    obtain ⟨k, rfl⟩ : ∃ k', k = k' + 1 := ⟨k - 1, by omega⟩
    refine ⟨List.replicate 9 0, ?_⟩
    have := key k
    rw [threads_eq level0_ofMoments]
    dsimp only
    have e : (Pool.start threePlain (id : Nat → Nat) second [some []] level0.mat.dim [5, 2] (k + 1)).run id second level0.mat
        (level0.mat.dim + ([5, 2] : List Int).length) (List.replicate 9 0) = (Pool.start threePlain (id : Nat → Nat) second [some []] 1 [5, 2] (k + 1)).run id second level0.mat 3
        (List.replicate 9 0) := rfl
    rw [e, Pool.finished, this]
    rfl
  · intro order p hp
    rw [threads_eq level0_ofMoments] at hp
    dsimp only at hp
    split at hp
    · rename_i hfin
      have hstart : (Pool.start threePlain (id : Nat → Nat) second [some []] level0.mat.dim [5, 2] 1).workers.length = 1 := rfl
      rw [run_alone _ _ hstart] at hfin
      have h9 := key 0
      have hs1 := run_stuck ((stuck_iff (mono := (id : Nat → Nat)) (t := second) (src := level0.mat) (full := 3)).mpr (Or.inr hfin)) (List.replicate 9 0)
      have hs2 := run_stuck ((stuck_iff (mono := (id : Nat → Nat)) (t := second) (src := level0.mat) (full := 3)).mpr (Or.inl (by rw [h9]; rfl)))
        (List.replicate (order.count 0) 0)
      rw [← run_append, List.replicate_append_replicate] at hs2
      have hs1' := (run_append (mono := (id : Nat → Nat)) (t := second) (src := level0.mat) (full := 3) _ _ _).trans hs1
      rw [List.replicate_append_replicate, Nat.add_comm] at hs1'
      have hc := congrArg Pool.crash (hs1'.symm.trans hs2)
      rw [h9] at hc
      rw [Pool.finished, hc] at hfin
      cases hfin
    · cases hp

/-- C105, refuted for numbers that are no symbols: with one thread there is an exception, with several threads the entry that is not in the factor table is
read. -/
theorem C105_refuted_range : ∃ (n : Causal) (c : Ctx), C12.ContextOf n c ∧ ∃ t, Reached (ofContext c (2 * ·)) (IsWord c) none (some []) (id : Nat → Nat) t ∧
    ∃ (src : Source (Option (List Nat)) Nat) (gens : List (Option (List Nat))) (scalars : List Int), OfMoments (ofContext c (2 * ·)) t src gens ∧
      extend (ofContext c (2 * ·)) id t src scalars = .error .logicError ∧
      ∀ k, 0 < k → ∃ order, extendThreads (ofContext c (2 * ·)) id t src scalars k order = .ok (.error (some .undefined)) := by
  refine ⟨three, threeCtx, three_context, ?_⟩
  rw [three_plain]
  refine ⟨second, second_reached, level0, [some []], [100, 2], level0_ofMoments, ?_, ?_⟩
  · refine ((C104_outcome_partial three_lawful second_reach level0 [100, 2]).2 _ level0_ofMoments).1 ⟨100, by simp, Or.inr ?_⟩
    decide +kernel
  · intro k hk
    obtain ⟨k, rfl⟩ : ∃ k', k = k' + 1 := ⟨k - 1, by omega⟩
    refine ⟨List.replicate 3 0, ?_⟩
    obtain ⟨rest, others, he⟩ := start_zero 100 2 k
    have := crash_range rest others
    rw [← he] at this
    rw [threads_eq level0_ofMoments]
    dsimp only
    have e : (Pool.start threePlain (id : Nat → Nat) second [some []] level0.mat.dim [100, 2] (k + 1)).run id second level0.mat
        (level0.mat.dim + ([100, 2] : List Int).length) (List.replicate 3 0) =
        (Pool.start threePlain (id : Nat → Nat) second [some []] 1 [100, 2] (k + 1)).run id second level0.mat 3 (List.replicate 3 0) := rfl
    rw [e, Pool.finished, this]
    rfl

/-- `C105_outcome_partial`, `C105_table`: the history goes on after an extension by two threads. -/
theorem both_reached : Reached threePlain (IsWord threeCtx) none (some []) (id : Nat → Nat) both.1 := by
  have h : ∀ s ∈ ([5] : List Int), 0 ≤ s ∧ s < second.syms.length := by decide +kernel
  have h' := both_ok
  generalize both = b at h' ⊢
  exact .threads second_reached level1_ofMoments h Nat.zero_lt_two h'
example : both.1.entries.map (·.symbols) = [[0], [1], [2], [3], [4], [2, 3], [2, 4], [3, 4], [2, 2, 3], [2, 3, 4], [2, 3, 3], [2, 2, 3, 3]] := by decide +kernel

/-- `C105_ends`: an execution of four steps. -/
example : ∃ s, Executes (id : Nat → Nat) second level1.mat 5 (Pool.start threePlain id second [some [], some [0], some [1], some [2]] 4 [5] 2) [0, 1, 1, 0] s :=
  ⟨_, _, rfl, _, rfl, _, rfl, _, rfl, rfl⟩

/-- `C105_once`: worker 1 of 2 writes, among others, columns 1 and 3 of the matrix of level 1 and the entries for the scalar in these columns. -/
example : (workerTasks threePlain second [some [], some [0], some [1], some [2]] 4 [5] 2 1).map Task.cells =
    [[(1, 0)], [(1, 1)], [(1, 2)], [(1, 3)], [], [(1, 4), (4, 1)], [(3, 0)], [(3, 1)], [(3, 2)], [(3, 3)], [], [(3, 4), (4, 3)]] := by decide +kernel

end Moment.C105
