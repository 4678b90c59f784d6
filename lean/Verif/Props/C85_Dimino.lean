import Verif.Proof.Dimino
import Mathlib.GroupTheory.Perm.Fin

/-! # C85: the elements of a symmetry group -/

namespace Moment.C85

open SymGroup

section
variable {M : Type} [Monoid M] [DecidableEq M]

theorem orbit_spec {g : M} {n max : Nat} (h1 : g ^ n = 1) (h2 : ∀ k, 0 < k → k < n → g ^ k ≠ 1) (hm : n ≤ max + 1) : ∀ (j i : Nat), i + 1 + j = n →
    orbit g max (g ^ (i + 1)) i ((List.range (i + 1)).map (g ^ ·)) = (1, (List.range n).map (g ^ ·)) := by
  intro j
  induction j with
  | zero =>
    intro i hi
    have hi' : i + 1 = n := hi
    rw [orbit, hi', if_neg (fun h => h.2 h1), h1]
  | succ j ih =>
    intro i hi
    rw [orbit, if_pos ⟨by omega, h2 _ (by omega) (by omega)⟩, ← pow_succ]
    have e : (List.range (i + 1)).map (g ^ ·) ++ [g ^ (i + 1)] = (List.range (i + 1 + 1)).map (g ^ ·) := by
      rw [List.range_succ (n := i + 1), List.map_append]; rfl
    rw [e]
    exact ih (i + 1) (by omega)

theorem orbit_fails {g : M} {max : Nat} (h2 : ∀ k, 0 < k → k ≤ max + 1 → g ^ k ≠ 1) : ∀ (j i : Nat), i + j = max → ∀ els,
    (orbit g max (g ^ (i + 1)) i els).1 ≠ 1 := by
  intro j
  induction j with
  | zero =>
    intro i hi els
    rw [orbit, if_neg (fun h => by have := h.1; omega)]
    exact h2 _ (by omega) (by omega)
  | succ j ih =>
    intro i hi els
    rw [orbit, if_pos ⟨by omega, h2 _ (by omega) (by omega)⟩, ← pow_succ]
    exact ih (i + 1) (by omega) _

end

section
variable {G : Type} [Group G] [DecidableEq G] {M : Type} [Monoid M] [DecidableEq M]

theorem extend_whole (ι : G →* M) (all gens : List G) {els : List G} (h : Whole els) : extend (all.map ι) (gens.map ι) (els.map ι) = some (els.map ι) := by
  induction gens with
  | nil => rfl
  | cons g gens ih =>
    rw [List.map_cons, extend, if_pos (List.mem_map_of_mem (h.2 g)), ih]

theorem extend_base [Fintype G] (ι : G →* M) (hι : Function.Injective ι) {H : Subgroup G} {Hl : List G} (hb : Base H Hl) (all : List G)
    (hS : Submonoid.closure {s | s ∈ all} = ⊤) {A : Set G} (hA : ∀ a ∈ A, a ∈ all) (hH : (H : Set G) = Submonoid.closure A) (gens : List G)
    (hg : ∀ s ∈ all, s ∈ H ∨ s ∈ gens) (hg' : ∀ s ∈ gens, s ∈ all) :
    ∃ els : List G, extend (all.map ι) (gens.map ι) (Hl.map ι) = some (els.map ι) ∧ Whole els := by
  induction gens with
  | nil =>
    refine ⟨Hl, rfl, hb.nodup, fun x => (hb.mem x).mpr ?_⟩
    have : Submonoid.closure {s | s ∈ all} ≤ H.toSubmonoid := Submonoid.closure_le.mpr fun s hs => by simpa using hg s hs
    rw [hS] at this
    exact this (Submonoid.mem_top x)
  | cons g gens ih =>
    by_cases h : g ∈ H
    · obtain ⟨els, h1, h2⟩ := ih (fun s hs => by
        rcases hg s hs with h' | h'
        · exact .inl h'
        · rcases List.mem_cons.mp h' with rfl | h'
          · exact .inl h
          · exact .inr h') (fun s hs => hg' s (List.mem_cons_of_mem _ hs))
      refine ⟨els, ?_, h2⟩
      rw [List.map_cons, extend, if_pos (List.mem_map_of_mem ((hb.mem g).mpr h)), h1]
    · obtain ⟨els, h1, h2⟩ := stage ι hι hb all hS hA hH (hg' g (by simp)) h
      refine ⟨els, ?_, h2⟩
      have hn : ι g ∉ Hl.map ι := fun h' => h ((hb.mem g).mp ((List.mem_map_of_injective hι).mp h'))
      rw [List.map_cons, extend, if_neg hn, List.length_map, h1]
      exact extend_whole ι all gens h2

/-- In terms of a finite group with these generators. -/
theorem dimino_group [Fintype G] (ι : G →* M) (hι : Function.Injective ι) (g : G) (gens : List G) (hS : Submonoid.closure {s | s ∈ g :: gens} = ⊤) {max : Nat}
    (hm : orderOf g ≤ max + 1) : ∃ els : List G, dimino (ι g) (gens.map ι) max = some (.ok (els.map ι)) ∧ Whole els := by
  have hpos : 0 < orderOf g := orderOf_pos g
  have ho := orbit_spec (g := ι g) (n := orderOf g) (max := max) (by rw [← map_pow, pow_orderOf_eq_one, map_one]) (by
    intro k hk hkn h
    rw [← map_pow, ← map_one ι] at h
    exact pow_ne_one_of_lt_orderOf (by omega) hkn (hι h)) hm (orderOf g - 1) 0 (by omega)
  have e1 : (List.range (0 + 1)).map (ι g ^ ·) = [1] := by simp
  rw [e1, Nat.zero_add, pow_one] at ho
  have e2 : (List.range (orderOf g)).map (ι g ^ ·) = ((List.range (orderOf g)).map (g ^ ·)).map ι := by
    rw [List.map_map]
    apply List.map_congr_left
    intro k _
    simp
  have hmem : ∀ x, x ∈ (List.range (orderOf g)).map (g ^ ·) ↔ x ∈ Subgroup.zpowers g := by
    intro x
    rw [List.mem_map, ← mem_powers_iff_mem_zpowers, Submonoid.mem_powers_iff]
    constructor
    · rintro ⟨k, _, rfl⟩; exact ⟨k, rfl⟩
    · rintro ⟨k, rfl⟩
      exact ⟨k % orderOf g, by rw [List.mem_range]; exact Nat.mod_lt _ hpos, pow_mod_orderOf g k⟩
  have hb : Base (Subgroup.zpowers g) ((List.range (orderOf g)).map (g ^ ·)) := by
    refine ⟨?_, hmem, ?_⟩
    · refine List.Nodup.map_on ?_ List.nodup_range
      intro a ha c hc h
      exact pow_injOn_Iio_orderOf (List.mem_range.mp ha) (List.mem_range.mp hc) h
    · obtain ⟨m, hm⟩ := Nat.exists_eq_succ_of_ne_zero hpos.ne'
      exact ⟨(List.range m).map fun k => g ^ (k + 1), by rw [hm, List.range_succ_eq_map]; simp [Function.comp_def]⟩
  obtain ⟨els, h1, h2⟩ := extend_base ι hι hb (g :: gens) hS (A := {g}) (by simp) (by
    ext x
    rw [SetLike.mem_coe, SetLike.mem_coe, ← mem_powers_iff_mem_zpowers, Submonoid.powers_eq_closure]) gens (by
      intro s hs
      rcases List.mem_cons.mp hs with rfl | hs
      · exact .inl (Subgroup.mem_zpowers s)
      · exact .inr hs) (fun s hs => List.mem_cons_of_mem _ hs)
  refine ⟨els, ?_, h2⟩
  unfold dimino
  rw [ho]
  dsimp only
  rw [if_pos rfl, e2, ← List.map_cons, h1]
  rfl
end

variable {M : Type} [Monoid M] [DecidableEq M]

/-- **C85.** If the generators are invertible, generate finitely many elements, and the first of them has an order within the limit, then the call returns
exactly the elements they generate, each once. -/
theorem C85_dimino (g : M) (gens : List M) (max : Nat) (hu : ∀ x ∈ g :: gens, IsUnit x) (hf : (Submonoid.closure {x | x ∈ g :: gens} : Set M).Finite)
    (hm : orderOf g ≤ max + 1) :
    ∃ els, dimino g gens max = some (.ok els) ∧ els.Nodup ∧ ∀ x, x ∈ els ↔ x ∈ Submonoid.closure {x | x ∈ g :: gens} := by
  classical
  -- the generators as units
  have hlift : ∀ l : List M, (∀ x ∈ l, IsUnit x) → ∃ us : List Mˣ, us.map (Units.coeHom M) = l := by
    intro l
    induction l with
    | nil => exact fun _ => ⟨[], rfl⟩
    | cons a l ih =>
      intro h
      obtain ⟨us, e⟩ := ih fun x hx => h x (List.mem_cons_of_mem _ hx)
      obtain ⟨u, hu⟩ := h a (by simp)
      exact ⟨u :: us, by rw [List.map_cons, e]; simp [hu]⟩
  obtain ⟨u, rfl⟩ := hu g (by simp)
  obtain ⟨us, rfl⟩ := hlift gens fun x hx => hu x (List.mem_cons_of_mem _ hx)
  have hset : {x : M | x ∈ (u : M) :: us.map (Units.coeHom M)} = Units.coeHom M '' {x | x ∈ u :: us} := by
    ext x
    simp only [Set.mem_setOf_eq, Set.mem_image, List.mem_cons, List.mem_map]
    constructor
    · rintro (rfl | ⟨y, hy, rfl⟩)
      · exact ⟨u, .inl rfl, rfl⟩
      · exact ⟨y, .inr hy, rfl⟩
    · rintro ⟨y, rfl | hy, rfl⟩
      · exact .inl rfl
      · exact .inr ⟨y, hy, rfl⟩
  have hcl : Submonoid.closure {x : M | x ∈ (u : M) :: us.map (Units.coeHom M)} = (Submonoid.closure {x | x ∈ u :: us}).map (Units.coeHom M) := by
    rw [hset, MonoidHom.map_mclosure]
  have hfU : (Submonoid.closure {x | x ∈ u :: us} : Set Mˣ).Finite := by
    rw [hcl, Submonoid.coe_map] at hf
    exact Set.Finite.of_finite_image hf (Units.val_injective.injOn)
  have hord : ∀ x ∈ {x | x ∈ u :: us}, IsOfFinOrder x := by
    intro x hx
    rw [← finite_powers]
    refine hfU.subset ?_
    rw [SetLike.coe_subset_coe, Submonoid.powers_eq_closure]
    exact Submonoid.closure_mono (Set.singleton_subset_iff.mpr hx)
  let K : Subgroup Mˣ := Subgroup.closure {x | x ∈ u :: us}
  have hK : K.toSubmonoid = Submonoid.closure {x | x ∈ u :: us} := Subgroup.closure_toSubmonoid_of_isOfFinOrder hord
  have hKmem : ∀ x, x ∈ K ↔ x ∈ Submonoid.closure {x | x ∈ u :: us} := fun x => by rw [← hK]; exact Iff.rfl
  have : Finite K := by
    have : (K : Set Mˣ).Finite := by
      refine hfU.subset ?_
      intro x hx
      exact (hKmem x).mp hx
    exact this.to_subtype
  have : Fintype K := Fintype.ofFinite K
  let ι : K →* M := (Units.coeHom M).comp K.subtype
  have hι : Function.Injective ι := fun a b h => Subtype.ext (Units.val_injective h)
  have hin : ∀ x ∈ u :: us, x ∈ K := fun x hx => Subgroup.subset_closure hx
  let u' : K := ⟨u, hin u (by simp)⟩
  let us' : List K := us.attach.map fun x => ⟨x.1, hin x.1 (List.mem_cons_of_mem _ x.2)⟩
  have hus : us'.map K.subtype = us := by
    simp only [us', List.map_map]
    exact us.attach_map_subtype_val
  have hus' : us'.map ι = us.map (Units.coeHom M) := by
    have h : (us'.map K.subtype).map (Units.coeHom M) = us'.map ι := List.map_map
    rw [hus] at h
    exact h.symm
  have htop : Submonoid.closure {s | s ∈ u' :: us'} = ⊤ := by
    have hinj : Function.Injective (Submonoid.map K.subtype) := Submonoid.map_injective_of_injective K.subtype_injective
    apply hinj
    rw [MonoidHom.map_mclosure]
    have e : K.subtype '' {s | s ∈ u' :: us'} = {x | x ∈ u :: us} := by
      ext x
      have h1 : x ∈ u :: us ↔ x ∈ (u' :: us').map K.subtype := by rw [List.map_cons, hus]; rfl
      simp only [Set.mem_image, Set.mem_setOf_eq, h1, List.mem_map]
    rw [e, ← hK]
    ext x
    simp [Submonoid.mem_map]
  obtain ⟨els, h1, h2⟩ := dimino_group ι hι u' us' htop (max := max) (by
    have : orderOf u' = orderOf (u : M) := (orderOf_injective ι hι u').symm
    rw [this]; exact hm)
  refine ⟨els.map ι, by rw [← h1, hus']; rfl, h2.1.map hι, ?_⟩
  intro x
  rw [hcl, Submonoid.mem_map, List.mem_map]
  constructor
  · rintro ⟨y, _, rfl⟩
    exact ⟨y.1, (hKmem _).mp y.2, rfl⟩
  · rintro ⟨y, hy, rfl⟩
    exact ⟨⟨y, (hKmem y).mpr hy⟩, h2.2 _, rfl⟩

/-- **C85.** The number of elements is the order of the group. -/
theorem C85_size (g : M) (gens : List M) (max : Nat) (hu : ∀ x ∈ g :: gens, IsUnit x) (hf : (Submonoid.closure {x | x ∈ g :: gens} : Set M).Finite)
    (hm : orderOf g ≤ max + 1) :
    ∃ els, dimino g gens max = some (.ok els) ∧ els.length = Nat.card (Submonoid.closure {x | x ∈ g :: gens}) := by
  classical
  obtain ⟨els, h1, h2, h3⟩ := C85_dimino g gens max hu hf hm
  refine ⟨els, h1, ?_⟩
  have e : (els.toFinset : Set M) = (Submonoid.closure {x | x ∈ g :: gens} : Set M) := by ext x; simp [h3]
  have : Nat.card (Submonoid.closure {x | x ∈ g :: gens}) = Nat.card (els.toFinset : Set M) := by rw [e]; rfl
  rw [this, Nat.card_coe_set_eq, Set.ncard_coe_finset, List.toFinset_card_of_nodup h2]

/-- **C85.** The call throws if no power of the first generator up to the limit is the identity. -/
theorem C85_throws (g : M) (gens : List M) (max : Nat) (h : ∀ k, 0 < k → k ≤ max + 1 → g ^ k ≠ 1) : dimino g gens max = some .throws := by
  have := orbit_fails h max 0 (by omega) [1]
  rw [Nat.zero_add, pow_one] at this
  unfold dimino
  dsimp only
  rw [if_neg this]

/-- Three transpositions of five points; they generate a group with twelve elements. -/
example : ∃ els, dimino (Equiv.swap (0 : Fin 5) 1) [Equiv.swap 1 2, Equiv.swap 3 4] 1000000 = some (.ok els) ∧ els.Nodup ∧
    ∀ x, x ∈ els ↔ x ∈ Submonoid.closure {x | x ∈ [Equiv.swap (0 : Fin 5) 1, Equiv.swap 1 2, Equiv.swap 3 4]} := by
  refine C85_dimino _ _ _ (fun x _ => Group.isUnit x) (Set.toFinite _) ?_
  refine le_trans (orderOf_le_of_pow_eq_one (n := 2) (by norm_num) ?_) (by norm_num)
  decide

/-- With a limit of zero, a generator of order two is refused. -/
example : dimino (Equiv.swap (0 : Fin 5) 1) [] 0 = some .throws :=
  C85_throws _ _ _ fun k h1 h2 => by
    have : k = 1 := by omega
    rw [this]
    decide

end Moment.C85
