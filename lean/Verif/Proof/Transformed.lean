import Verif.Proof.DerivedMaps
import Verif.Proof.MatrixTimes

/-! # Application of maps between systems -/

namespace Moment.Derived

open Moment.Symbols (Table)
open Moment.Poly (Mono)
open Moment.MatrixBasis (polyTable)

theorem scale_mem {f : ℂ} {p : List Mono} {m : Mono} (h : m ∈ Poly.scale f p) : ∃ m' ∈ p, m'.id = m.id ∧ m'.conj = m.conj := by
  unfold Poly.scale at h
  split at h
  · simp at h
  · split at h
    · exact ⟨m, h, rfl, rfl⟩
    · obtain ⟨m', a, rfl⟩ := List.mem_map.mp h
      exact ⟨m', a, rfl, rfl⟩

theorem conjugate_mem {t : Poly.Table} {p : List Mono} {m : Mono} (h : m ∈ Poly.conjugate t p) : ∃ m' ∈ p, m'.id = m.id := by
  have := (Poly.conjugate_perm t p).mem_iff.mp h
  obtain ⟨m', a, rfl⟩ := List.mem_map.mp this
  refine ⟨m', a, ?_⟩
  unfold Poly.conjMono
  dsimp only
  split_ifs <;> rfl

variable {t u : Table} {rows : Nat} {R : Nat → Nat → ℝ} {osg : List (Nat × Bool)} {M : STM}

/-- A monomial goes to a polynomial with the factor times the value of its symbol. -/
theorem apply_value (hM : Maps t rows R osg M u) {m : Mono} (hm : m.id < t.syms.length) :
    ∃ p, M.apply u m = some p ∧ (∀ m' ∈ p, m'.id < u.syms.length) ∧ (M.monomial = true → p.length ≤ 1) ∧
      ∀ y, Poly.Respects (polyTable u) y → (m.conj = true → (starRingEnd ℂ) m.factor = m.factor) → Poly.value y p = m.value (carried M y) := by
  have hlt : m.id < M.map.length := by rw [hM.size]; exact hm
  have hg : M.map[m.id]? = some M.map[m.id] := List.getElem?_eq_getElem hlt
  have hmem : M.map[m.id] ∈ M.map := List.getElem_mem hlt
  have hc : ∀ y, carried M y m.id = Poly.value y M.map[m.id] := by
    intro y
    simp [carried, List.getD_eq_getElem?_getD, hg]
  have hk : ∀ m' ∈ Poly.scale m.factor M.map[m.id], m'.id < u.syms.length ∧ m'.conj = false := by
    intro m' h
    obtain ⟨x, hx, e1, e2⟩ := scale_mem h
    rw [← e1, ← e2]
    exact hM.known _ hmem x hx
  have hlen : (Poly.scale m.factor M.map[m.id]).length ≤ M.map[m.id].length := by
    unfold Poly.scale
    split_ifs <;> simp
  refine ⟨if m.conj then Poly.conjugate (polyTable u) (Poly.scale m.factor M.map[m.id]) else Poly.scale m.factor M.map[m.id],
    by simp only [STM.apply, hg, Option.map_some], ?_, ?_, ?_⟩
  · intro m' h
    split at h
    · obtain ⟨x, hx, e⟩ := conjugate_mem h
      rw [← e]
      exact (hk x hx).1
    · exact (hk m' h).1
  · intro hmono
    have := hM.monomial hmono _ hmem
    split
    · rw [(Poly.conjugate_perm _ _).length_eq, List.length_map]
      omega
    · omega
  · intro y hy hr
    rw [Mono.value, hc]
    split
    · rename_i h
      rw [Poly.conjugate_value hy fun m' h' h'' => absurd h'' (by simp [(hk m' h').2]), Poly.scale_value, map_mul, hr h]
    · rw [Poly.scale_value]

theorem applyPoly_value (hM : Maps t rows R osg M u) {p : List Mono} (hp : ∀ m ∈ p, m.id < t.syms.length) :
    ∃ q, M.applyPoly u p = some q ∧ (∀ m ∈ q, m.id < u.syms.length) ∧
      ∀ y, Poly.Respects (polyTable u) y → (∀ m ∈ p, m.conj = true → (starRingEnd ℂ) m.factor = m.factor) → Poly.value y q = Poly.value (carried M y) p := by
  have key : ∃ l, p.mapM (M.apply u) = some l ∧ (∀ q ∈ l, ∀ m ∈ q, m.id < u.syms.length) ∧
      ∀ y, Poly.Respects (polyTable u) y → (∀ m ∈ p, m.conj = true → (starRingEnd ℂ) m.factor = m.factor) → Poly.value y l.flatten = Poly.value (carried M y) p := by
    clear * - hM hp
    induction p with
    | nil => exact ⟨[], rfl, by simp, by simp [Poly.value]⟩
    | cons m p ih =>
      obtain ⟨l, h1, h2, h3⟩ := ih fun m' h => hp m' (List.mem_cons_of_mem _ h)
      obtain ⟨q, g1, g2, -, g3⟩ := apply_value hM (hp m List.mem_cons_self)
      refine ⟨q :: l, by simp [List.mapM_cons, g1, h1], ?_, ?_⟩
      · intro q' hq'
        rcases List.mem_cons.mp hq' with rfl | hq'
        · exact g2
        · exact h2 q' hq'
      · intro y hy hr
        have a := g3 y hy (hr m List.mem_cons_self)
        have b := h3 y hy fun m' h => hr m' (List.mem_cons_of_mem _ h)
        unfold Poly.value at *
        rw [List.flatten_cons, List.map_append, List.sum_append, List.map_cons, List.sum_cons, a, b]
  obtain ⟨l, h1, h2, h3⟩ := key
  refine ⟨Poly.makeRaw Poly.byId l.flatten, by simp only [STM.applyPoly, h1, Option.map_some], ?_, ?_⟩
  · intro m hm
    obtain ⟨⟨x, hx, e, -⟩, -⟩ := Poly.makeRaw_mem hm
    obtain ⟨q, hq, hx⟩ := List.mem_flatten.mp hx
    rw [← e]
    exact h2 q hq x hx
  · intro y hy hr
    rw [Poly.makeRaw_value y hy.zero, h3 y hy hr]

end Moment.Derived
