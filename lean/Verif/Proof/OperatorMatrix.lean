import Verif.Spec.OperatorMatrix
import Mathlib.Tactic.Ring

/-! # Proofs about threads that make a matrix of operators -/

namespace Moment.OperatorMatrix

variable {J : Job}

/-! ## The programs -/

theorem columns_eq (n N c : Nat) : columns n N c = if c < n ∧ 0 < N then c :: columns n N (c + N) else [] := by
  rw [columns]

theorem mem_columns {n N : Nat} (hN : 0 < N) (x : Nat) : ∀ (k c : Nat), n - c ≤ k → (x ∈ columns n N c ↔ x < n ∧ ∃ j, x = c + j * N)
  | 0, c, hk => by
    rw [columns_eq, if_neg (by omega)]
    simp only [List.not_mem_nil, false_iff, not_and, not_exists]
    intro hx j e
    omega
  | k + 1, c, hk => by
    rw [columns_eq]
    by_cases hc : c < n
    · rw [if_pos ⟨hc, hN⟩, List.mem_cons, mem_columns hN x k (c + N) (by omega)]
      constructor
      · rintro (rfl | ⟨hx, j, e⟩)
        · exact ⟨hc, 0, by simp⟩
        · exact ⟨hx, j + 1, by rw [e]; ring⟩
      · rintro ⟨hx, j, e⟩
        rcases j with _ | j
        · exact .inl (by simpa using e)
        · exact .inr ⟨hx, j, by rw [e]; ring⟩
    · rw [if_neg (by omega)]
      simp only [List.not_mem_nil, false_iff, not_and, not_exists]
      intro hx j e
      omega

theorem columns_iff {n N w : Nat} (hN : 0 < N) (x : Nat) : x ∈ columns n N w ↔ x < n ∧ ∃ j, x = w + j * N := mem_columns hN x _ w le_rfl

theorem columns_lt {n N w x : Nat} (h : x ∈ columns n N w) : x < n := by
  by_cases hN : 0 < N
  · exact ((columns_iff hN x).mp h).1
  · rw [columns_eq, if_neg (by omega)] at h
    simp at h

theorem columns_owner {n N w x : Nat} (hw : w < N) (h : x ∈ columns n N w) : x % N = w := by
  obtain ⟨-, j, e⟩ := (columns_iff (by omega) x).mp h
  rw [e, Nat.add_mul_mod_self_right, Nat.mod_eq_of_lt hw]

theorem columns_cover {n N x : Nat} (hN : 0 < N) (hx : x < n) : x ∈ columns n N (x % N) := by
  refine (columns_iff hN x).mpr ⟨hx, x / N, ?_⟩
  have := Nat.mod_add_div x N
  rw [Nat.mul_comm] at this
  omega

theorem mem_osProgram {w : Nat} (a : Act) : a ∈ osProgram J w ↔ ∃ c ∈ columns J.n J.workers w, a = .put (c * J.n + c) (J.f c c) ∨
    ∃ r, c < r ∧ r < J.n ∧ (a = .put (c * J.n + r) (J.f r c) ∨
      a = if J.generic then .put (r * J.n + c) (J.f c r) else .turn (r * J.n + c) (c * J.n + r)) := by
  unfold osProgram
  simp only [List.mem_flatMap, List.mem_cons, List.mem_range'_1, List.not_mem_nil, or_false]
  refine exists_congr fun c => and_congr_right fun hc => or_congr_right (exists_congr fun r => ?_)
  have := columns_lt hc
  constructor
  · rintro ⟨h, h'⟩; exact ⟨by omega, by omega, h'⟩
  · rintro ⟨h, h', h''⟩; exact ⟨by omega, h''⟩

theorem mem_aliasProgram {w : Nat} (a : Act) : a ∈ aliasProgram J w ↔ ∃ c ∈ columns J.n J.workers w, a = .simplify (c * J.n + c) ∨
    ∃ r, c < r ∧ r < J.n ∧ (a = .simplify (c * J.n + r) ∨
      a = if J.generic then .simplify (r * J.n + c) else .turnAlias (r * J.n + c) (c * J.n + r)) := by
  unfold aliasProgram
  simp only [List.mem_flatMap, List.mem_cons, List.mem_range'_1, List.not_mem_nil, or_false]
  refine exists_congr fun c => and_congr_right fun hc => or_congr_right (exists_congr fun r => ?_)
  have := columns_lt hc
  constructor
  · rintro ⟨h, h'⟩; exact ⟨by omega, by omega, h'⟩
  · rintro ⟨h, h', h''⟩; exact ⟨by omega, h''⟩

/-- What a worker touches lies in one of its columns, at or below the diagonal, or in the transposed place. -/
theorem os_touch {w : Nat} {a : Act} (h : a ∈ osProgram J w) : ∃ c r, c ∈ columns J.n J.workers w ∧ c ≤ r ∧ r < J.n ∧
    (a.target = cell J r c ∨ a.target = cell J c r) ∧ (a.source = cell J r c ∨ a.source = cell J c r) := by
  obtain ⟨c, hc, h⟩ := (mem_osProgram a).mp h
  have hcn := columns_lt hc
  rcases h with rfl | ⟨r, h1, h2, rfl | rfl⟩
  · exact ⟨c, c, hc, le_rfl, hcn, .inl rfl, .inl rfl⟩
  · exact ⟨c, r, hc, h1.le, h2, .inl rfl, .inl rfl⟩
  · refine ⟨c, r, hc, h1.le, h2, ?_⟩
    cases J.generic
    · exact ⟨.inr rfl, .inl rfl⟩
    · exact ⟨.inr rfl, .inr rfl⟩

theorem alias_touch {w : Nat} {a : Act} (h : a ∈ aliasProgram J w) : ∃ c r, c ∈ columns J.n J.workers w ∧ c ≤ r ∧ r < J.n ∧
    (a.target = cell J r c ∨ a.target = cell J c r) ∧ (a.source = cell J r c ∨ a.source = cell J c r) := by
  obtain ⟨c, hc, h⟩ := (mem_aliasProgram a).mp h
  have hcn := columns_lt hc
  rcases h with rfl | ⟨r, h1, h2, rfl | rfl⟩
  · exact ⟨c, c, hc, le_rfl, hcn, .inl rfl, .inl rfl⟩
  · exact ⟨c, r, hc, h1.le, h2, .inl rfl, .inl rfl⟩
  · refine ⟨c, r, hc, h1.le, h2, ?_⟩
    cases J.generic
    · exact ⟨.inr rfl, .inl rfl⟩
    · exact ⟨.inr rfl, .inr rfl⟩

theorem cell_inj {r c r' c' : Nat} (h : r < J.n) (h' : r' < J.n) (e : cell J r c = cell J r' c') : r = r' ∧ c = c' := by
  unfold cell at e
  have h1 : (c * J.n + r) % J.n = r := by rw [Nat.mul_comm, Nat.mul_add_mod, Nat.mod_eq_of_lt h]
  have h2 : (c' * J.n + r') % J.n = r' := by rw [Nat.mul_comm, Nat.mul_add_mod, Nat.mod_eq_of_lt h']
  have h3 : (c * J.n + r) / J.n = c := by rw [Nat.mul_comm, Nat.mul_add_div (by omega), Nat.div_eq_of_lt h, Nat.add_zero]
  have h4 : (c' * J.n + r') / J.n = c' := by rw [Nat.mul_comm, Nat.mul_add_div (by omega), Nat.div_eq_of_lt h', Nat.add_zero]
  exact ⟨by rw [← h1, e, h2], by rw [← h3, e, h4]⟩

/-- Two touched places are the same only if the unordered pairs are. -/
theorem touch_same {c r c' r' x : Nat} (h1 : c ≤ r) (h2 : r < J.n) (h1' : c' ≤ r') (h2' : r' < J.n) (h : x = cell J r c ∨ x = cell J c r)
    (h' : x = cell J r' c' ∨ x = cell J c' r') : c = c' := by
  rcases h with h | h <;> rcases h' with h' | h'
  · exact (cell_inj h2 h2' (h.symm.trans h')).2
  · obtain ⟨a, b⟩ := cell_inj h2 (by omega) (h.symm.trans h'); omega
  · obtain ⟨a, b⟩ := cell_inj (by omega) h2' (h.symm.trans h'); omega
  · exact (cell_inj (by omega) (by omega) (h.symm.trans h')).1

/-- What is expected in a cell, by its number. -/
def want (J : Job) (k : Nat) : Option HSeq := value J (k % J.n) (k / J.n)

def wantAlias (J : Job) (k : Nat) : Option HSeq := aliasValue J (k % J.n) (k / J.n)

theorem cell_mod {r c : Nat} (h : r < J.n) : (c * J.n + r) % J.n = r := by rw [Nat.mul_comm, Nat.mul_add_mod, Nat.mod_eq_of_lt h]

theorem cell_div {r c : Nat} (h : r < J.n) : (c * J.n + r) / J.n = c := by
  rw [Nat.mul_comm, Nat.mul_add_div (by omega), Nat.div_eq_of_lt h, Nat.add_zero]

theorem want_cell {r c : Nat} (h : r < J.n) : want J (c * J.n + r) = value J r c := by unfold want; rw [cell_mod h, cell_div h]

theorem wantAlias_cell {r c : Nat} (h : r < J.n) : wantAlias J (c * J.n + r) = aliasValue J r c := by unfold wantAlias; rw [cell_mod h, cell_div h]

/-! ## Programs that write what is expected -/

/-- The value an action writes, given what the memory holds. -/
def osVal (J : Job) : Act → (Nat → Option HSeq) → Option HSeq
  | .put _ v, _ => v
  | .turn _ j, m => (m j).map J.conj
  | _, _ => none

def alVal (J : Job) : Act → (Nat → Option HSeq) → Option HSeq
  | .simplify k, _ => (want J k).map J.simp
  | .turnAlias _ j, m => (m j).map J.conj
  | _, _ => none

/-- Run with the cells `K` right, the program only writes what is expected. -/
def Ok (val : Act → (Nat → Option HSeq) → Option HSeq) (E : Nat → Option HSeq) : (Nat → Prop) → List Act → Prop
  | _, [] => True
  | K, a :: l => (∀ m : Nat → Option HSeq, (∀ x, K x → m x = E x) → val a m = E a.target) ∧ Ok val E (fun x => K x ∨ x = a.target) l

section ok
variable {val : Act → (Nat → Option HSeq) → Option HSeq} {E : Nat → Option HSeq}

theorem Ok.mono : ∀ {l : List Act} {K K' : Nat → Prop}, (∀ x, K x → K' x) → Ok val E K l → Ok val E K' l
  | [], _, _, _, _ => trivial
  | _ :: _, _, _, hK, h => ⟨fun m hm => h.1 m fun x hx => hm x (hK x hx), Ok.mono (fun x hx => hx.imp (hK x) id) h.2⟩

theorem Ok.append : ∀ {l l' : List Act} {K : Nat → Prop}, Ok val E K l → (∀ K, Ok val E K l') → Ok val E K (l ++ l')
  | [], _, _, _, h => h _
  | _ :: _, _, _, h, h' => ⟨h.1, Ok.append h.2 h'⟩

theorem Ok.flatMap {α : Type} {g : α → List Act} : ∀ {L : List α}, (∀ c ∈ L, ∀ K, Ok val E K (g c)) → ∀ K, Ok val E K (L.flatMap g)
  | [], _, _ => trivial
  | c :: L, h, K => by
    rw [List.flatMap_cons]
    exact Ok.append (h c (by simp) K) (Ok.flatMap fun c' hc' => h c' (by simp [hc']))

end ok

theorem value_low {r c : Nat} (h : c ≤ r) : value J r c = J.f r c := by rw [value, if_pos (.inr h)]

theorem ok_os (w : Nat) (K : Nat → Prop) : Ok (osVal J) (want J) K (osProgram J w) := by
  refine Ok.flatMap (fun c hc K => ?_) K
  have hcn := columns_lt hc
  refine ⟨fun m _ => ?_, ?_⟩
  · show J.f c c = want J (c * J.n + c)
    rw [want_cell hcn, value_low le_rfl]
  · refine Ok.flatMap (fun r hr K => ?_) _
    rw [List.mem_range'_1] at hr
    have hrn : r < J.n := by omega
    refine ⟨fun m _ => ?_, fun m hm => ?_, trivial⟩
    · show J.f r c = want J (c * J.n + r)
      rw [want_cell hrn, value_low (by omega)]
    · cases hg : J.generic with
      | true =>
        show J.f c r = want J (r * J.n + c)
        rw [want_cell hcn, value, if_pos (.inl hg)]
      | false =>
        show (m (c * J.n + r)).map J.conj = want J (r * J.n + c)
        rw [hm (c * J.n + r) (.inr rfl)]
        rw [want_cell hrn, want_cell hcn, value_low (by omega), value, if_neg (by simp [hg]; omega)]

theorem ok_alias (w : Nat) (K : Nat → Prop) : Ok (alVal J) (wantAlias J) K (aliasProgram J w) := by
  refine Ok.flatMap (fun c hc K => ?_) K
  have hcn := columns_lt hc
  refine ⟨fun m _ => ?_, ?_⟩
  · show (want J (c * J.n + c)).map J.simp = wantAlias J (c * J.n + c)
    rw [want_cell hcn, wantAlias_cell hcn, aliasValue, if_pos (.inr le_rfl)]
  · refine Ok.flatMap (fun r hr K => ?_) _
    rw [List.mem_range'_1] at hr
    have hrn : r < J.n := by omega
    refine ⟨fun m _ => ?_, fun m hm => ?_, trivial⟩
    · show (want J (c * J.n + r)).map J.simp = wantAlias J (c * J.n + r)
      rw [want_cell hrn, wantAlias_cell hrn, aliasValue, if_pos (.inr (by omega))]
    · cases hg : J.generic with
      | true =>
        show (want J (r * J.n + c)).map J.simp = wantAlias J (r * J.n + c)
        rw [want_cell hcn, wantAlias_cell hcn, aliasValue, if_pos (.inl hg)]
      | false =>
        show (m (c * J.n + r)).map J.conj = wantAlias J (r * J.n + c)
        rw [hm (c * J.n + r) (.inr rfl)]
        rw [wantAlias_cell hrn, wantAlias_cell hcn, aliasValue, if_pos (.inr (by omega)), aliasValue, if_neg (by simp [hg]; omega)]

/-- Every cell is written by somebody. -/
theorem os_cover (hN : 0 < J.workers) {r c : Nat} (hr : r < J.n) (hc : c < J.n) :
    ∃ w < J.workers, ∃ a ∈ osProgram J w, a.target = c * J.n + r := by
  by_cases h : c ≤ r
  · refine ⟨c % J.workers, Nat.mod_lt _ hN, .put (c * J.n + r) (J.f r c), (mem_osProgram _).mpr ⟨c, columns_cover hN hc, ?_⟩, rfl⟩
    rcases h.eq_or_lt with rfl | h
    · exact .inl rfl
    · exact .inr ⟨r, h, hr, .inl rfl⟩
  · refine ⟨r % J.workers, Nat.mod_lt _ hN, _, (mem_osProgram _).mpr ⟨r, columns_cover hN hr, .inr ⟨c, by omega, hc, .inr rfl⟩⟩, ?_⟩
    cases J.generic <;> rfl

theorem alias_cover (hN : 0 < J.workers) {r c : Nat} (hr : r < J.n) (hc : c < J.n) :
    ∃ w < J.workers, ∃ a ∈ aliasProgram J w, a.target = c * J.n + r := by
  by_cases h : c ≤ r
  · refine ⟨c % J.workers, Nat.mod_lt _ hN, .simplify (c * J.n + r), (mem_aliasProgram _).mpr ⟨c, columns_cover hN hc, ?_⟩, rfl⟩
    rcases h.eq_or_lt with rfl | h
    · exact .inl rfl
    · exact .inr ⟨r, h, hr, .inl rfl⟩
  · refine ⟨r % J.workers, Nat.mod_lt _ hN, _, (mem_aliasProgram _).mpr ⟨r, columns_cover hN hr, .inr ⟨c, by omega, hc, .inr rfl⟩⟩, ?_⟩
    cases J.generic <;> rfl

theorem os_total (hT : Total J) {w k : Nat} : Act.put k none ∉ osProgram J w := by
  intro h
  obtain ⟨c, hc, h⟩ := (mem_osProgram _).mp h
  have hcn := columns_lt hc
  rcases h with h | ⟨r, h1, h2, h | h⟩
  · injection h with _ h; exact hT c c hcn hcn h.symm
  · injection h with _ h; exact hT r c h2 hcn h.symm
  · cases hg : J.generic <;> rw [hg] at h
    · simp at h
    · simp only [if_true] at h
      injection h with _ h; exact hT c r hcn h2 h.symm

/-- The actions of the first phase. -/
theorem os_kind {w : Nat} {a : Act} (h : a ∈ osProgram J w) : (∃ k v, a = .put k v) ∨ ∃ k j, a = .turn k j := by
  obtain ⟨c, hc, h⟩ := (mem_osProgram _).mp h
  rcases h with rfl | ⟨r, h1, h2, rfl | rfl⟩
  · exact .inl ⟨_, _, rfl⟩
  · exact .inl ⟨_, _, rfl⟩
  · cases J.generic
    · exact .inr ⟨_, _, rfl⟩
    · exact .inl ⟨_, _, rfl⟩

theorem alias_kind {w : Nat} {a : Act} (h : a ∈ aliasProgram J w) : (∃ k, a = .simplify k) ∨ ∃ k j, a = .turnAlias k j := by
  obtain ⟨c, hc, h⟩ := (mem_aliasProgram _).mp h
  rcases h with rfl | ⟨r, h1, h2, rfl | rfl⟩
  · exact .inl ⟨_, rfl⟩
  · exact .inl ⟨_, rfl⟩
  · cases J.generic
    · exact .inr ⟨_, _, rfl⟩
    · exact .inl ⟨_, rfl⟩

end Moment.OperatorMatrix
