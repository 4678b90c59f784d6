import Verif.Model.Translate
import Verif.Spec.Translate
import Mathlib.Data.List.Sort
import Mathlib.Tactic.Linarith
import Mathlib.Tactic.Ring

/-! # Lemmas on translations of open chains and lattices -/

namespace Moment.Translate

open Moment.Pauli (Normal)

theorem has_mem {w : List Nat} {o : Nat} : o ∈ w ↔ Has w (o / 3) (o % 3) := by
  have : 3 * (o / 3) + o % 3 = o := by omega
  simp [Has, this, Nat.mod_lt]

theorem normal_lt {w : List Nat} (h : Normal w) : w.Pairwise (· < ·) := h.imp fun {a b} hab => by omega

theorem normal_ext {w v : List Nat} (hw : Normal w) (hv : Normal v) (h : ∀ q p, Has w q p ↔ Has v q p) : w = v :=
  List.Pairwise.eq_of_mem_iff (normal_lt hw) (normal_lt hv) fun o => by rw [has_mem, has_mem, h]

theorem Has.of_normal {w : List Nat} (hw : Normal w) {q p p' : Nat} (h : Has w q p) (h' : Has w q p') : p = p' := by
  obtain ⟨hp, h⟩ := h
  obtain ⟨hp', h'⟩ := h'
  by_contra hne
  have key : ∀ a ∈ w, ∀ b ∈ w, a ≠ b → a / 3 ≠ b / 3 := by
    intro a ha b hb hab
    obtain ⟨i, hi, rfl⟩ := List.getElem_of_mem ha
    obtain ⟨j, hj, rfl⟩ := List.getElem_of_mem hb
    rcases Nat.lt_trichotomy i j with hij | rfl | hij
    · exact Nat.ne_of_lt (List.pairwise_iff_getElem.mp hw i j hi hj hij)
    · exact absurd rfl hab
    · exact Nat.ne_of_gt (List.pairwise_iff_getElem.mp hw j i hj hi hij)
  exact key _ h _ h' (by omega) (by omega)

/-! ## Chains -/

theorem chainMinimum_le {w : List Nat} (hw : Normal w) {q p : Nat} (h : Has w q p) : chainMinimum w ≤ q := by
  obtain ⟨hp, h⟩ := h
  cases w with
  | nil => simp at h
  | cons o l =>
    simp only [chainMinimum]
    rcases List.mem_cons.mp h with h | h
    · omega
    · have := (List.pairwise_cons.mp hw).1 _ h
      omega

theorem chainMinimum_has {w : List Nat} (h : w ≠ []) : ∃ p, Has w (chainMinimum w) p := by
  cases w with
  | nil => exact absurd rfl h
  | cons o l => exact ⟨o % 3, has_mem.mp (by simp)⟩

theorem chainCanonical_eq (w : List Nat) : chainCanonical w = w.map fun o => o - 3 * chainMinimum w := by
  unfold chainCanonical
  split
  · next h => simp [h]
  · rfl

theorem has_chainCanonical {w : List Nat} (hw : Normal w) (q p : Nat) : Has (chainCanonical w) q p ↔ Has w (q + chainMinimum w) p := by
  rw [chainCanonical_eq]
  constructor
  · rintro ⟨hp, h⟩
    obtain ⟨o, ho, e⟩ := List.mem_map.mp h
    have := chainMinimum_le hw (has_mem.mp ho)
    refine ⟨hp, ?_⟩
    have : 3 * (q + chainMinimum w) + p = o := by omega
    rwa [this]
  · rintro ⟨hp, h⟩
    exact ⟨hp, List.mem_map.mpr ⟨_, h, by omega⟩⟩

theorem chainCanonical_normal {w : List Nat} (hw : Normal w) : Normal (chainCanonical w) := by
  rw [chainCanonical_eq]
  unfold Normal
  rw [List.pairwise_map]
  refine List.Pairwise.imp_of_mem ?_ hw
  intro a b ha hb hab
  have := chainMinimum_le hw (has_mem.mp ha)
  have := chainMinimum_le hw (has_mem.mp hb)
  omega

theorem chainCanonical_moved {w : List Nat} (hw : Normal w) : MovedBy (ChainStep (-(chainMinimum w : Int))) w (chainCanonical w) := by
  refine ⟨fun q p h => ?_, fun r p h => ?_⟩
  · have hm := chainMinimum_le hw h
    refine ⟨q - chainMinimum w, by unfold ChainStep; omega, (has_chainCanonical hw _ _).mpr ?_⟩
    rwa [Nat.sub_add_cancel hm]
  · exact ⟨r + chainMinimum w, by unfold ChainStep; omega, (has_chainCanonical hw _ _).mp h⟩

theorem nonempty_has {w : List Nat} (h : w ≠ []) : ∃ q p, Has w q p := by
  obtain ⟨p, h⟩ := chainMinimum_has h
  exact ⟨_, p, h⟩

theorem MovedBy.nil {R : Nat → Nat → Prop} {v : List Nat} (h : MovedBy R [] v) : v = [] := by
  by_contra hv
  obtain ⟨q, p, hq⟩ := nonempty_has hv
  obtain ⟨_, _, _, h⟩ := h.2 q p hq
  simp at h

theorem MovedBy.symm {R : Nat → Nat → Prop} {w v : List Nat} (h : MovedBy R w v) : MovedBy (fun a b => R b a) v w := ⟨h.2, h.1⟩

theorem MovedBy.trans {R S : Nat → Nat → Prop} {u w v : List Nat} (h : MovedBy R u w) (k : MovedBy S w v) :
    MovedBy (fun a c => ∃ b, R a b ∧ S b c) u v := by
  refine ⟨fun q p hq => ?_, fun r p hr => ?_⟩
  · obtain ⟨b, hb, hw⟩ := h.1 q p hq
    obtain ⟨c, hc, hv⟩ := k.1 b p hw
    exact ⟨c, ⟨b, hb, hc⟩, hv⟩
  · obtain ⟨b, hb, hw⟩ := k.2 r p hr
    obtain ⟨a, ha, hu⟩ := h.2 b p hw
    exact ⟨a, ⟨b, ha, hb⟩, hu⟩

theorem MovedBy.mono {R S : Nat → Nat → Prop} (hRS : ∀ a b, R a b → S a b) {w v : List Nat} (h : MovedBy R w v) : MovedBy S w v := by
  refine ⟨fun q p hq => ?_, fun r p hr => ?_⟩
  · obtain ⟨b, hb, hw⟩ := h.1 q p hq
    exact ⟨b, hRS _ _ hb, hw⟩
  · obtain ⟨b, hb, hw⟩ := h.2 r p hr
    exact ⟨b, hRS _ _ hb, hw⟩

theorem ChainClass.symm {w v : List Nat} (h : ChainClass w v) : ChainClass v w := by
  obtain ⟨d, h⟩ := h
  exact ⟨-d, h.symm.mono fun a b hab => by unfold ChainStep at *; omega⟩

theorem ChainClass.trans {u w v : List Nat} (h : ChainClass u w) (k : ChainClass w v) : ChainClass u v := by
  obtain ⟨d, h⟩ := h
  obtain ⟨e, k⟩ := k
  exact ⟨d + e, (h.trans k).mono fun a c ⟨b, hab, hbc⟩ => by unfold ChainStep at *; omega⟩

theorem chainMinimum_moved {w v : List Nat} (hw : Normal w) (hv : Normal v) {d : Int} (h : MovedBy (ChainStep d) w v) (hne : w ≠ []) :
    (chainMinimum v : Int) = chainMinimum w + d := by
  have hne' : v ≠ [] := by
    rintro rfl
    exact hne (MovedBy.nil h.symm)
  obtain ⟨p, hp⟩ := chainMinimum_has hne
  obtain ⟨r, hr, h1⟩ := h.1 _ _ hp
  obtain ⟨p', hp'⟩ := chainMinimum_has hne'
  obtain ⟨r', hr', h2⟩ := h.2 _ _ hp'
  have := chainMinimum_le hv h1
  have := chainMinimum_le hw h2
  unfold ChainStep at *
  omega

theorem chainCanonical_unique {w v : List Nat} (hw : Normal w) (hv : Normal v) (h : ChainClass w v) : chainCanonical w = chainCanonical v := by
  obtain ⟨d, h⟩ := h
  by_cases hne : w = []
  · subst hne
    rw [h.nil]
  · have hm := chainMinimum_moved hw hv h hne
    refine normal_ext (chainCanonical_normal hw) (chainCanonical_normal hv) fun q p => ?_
    rw [has_chainCanonical hw, has_chainCanonical hv]
    constructor
    · intro hq
      obtain ⟨r, hr, h1⟩ := h.1 _ _ hq
      have : r = q + chainMinimum v := by unfold ChainStep at hr; omega
      rwa [← this]
    · intro hq
      obtain ⟨r, hr, h1⟩ := h.2 _ _ hq
      have : r = q + chainMinimum w := by unfold ChainStep at hr; omega
      rwa [← this]

/-! ## Lattices -/

theorem foldl_min_le (h : Nat) : ∀ (w : List Nat) (a : Nat), w.foldl (fun m o => min m (o / 3 % h)) a ≤ a ∧
    (∀ o ∈ w, w.foldl (fun m o => min m (o / 3 % h)) a ≤ o / 3 % h) ∧
    (w.foldl (fun m o => min m (o / 3 % h)) a = a ∨ ∃ o ∈ w, w.foldl (fun m o => min m (o / 3 % h)) a = o / 3 % h)
  | [], a => by simp
  | x :: w, a => by
    obtain ⟨h1, h2, h3⟩ := foldl_min_le h w (min a (x / 3 % h))
    simp only [List.foldl_cons]
    refine ⟨by omega, ?_, ?_⟩
    · intro o ho
      rcases List.mem_cons.mp ho with rfl | ho
      · omega
      · exact h2 o ho
    · rcases h3 with h3 | ⟨o, ho, h3⟩
      · rcases Nat.le_total a (x / 3 % h) with hle | hle
        · exact .inl (by omega)
        · exact .inr ⟨x, by simp, by omega⟩
      · exact .inr ⟨o, by simp [ho], h3⟩

theorem div_col (h o : Nat) : o / (h * 3) = o / 3 / h := by rw [Nat.mul_comm, Nat.div_div_eq_div_mul]

theorem latticeMinimum_le {h : Nat} {w : List Nat} (hw : Normal w) {q p : Nat} (hq : Has w q p) :
    (latticeMinimum h w).1 ≤ q % h ∧ (latticeMinimum h w).2 ≤ q / h := by
  obtain ⟨hp, hm⟩ := hq
  cases w with
  | nil => simp at hm
  | cons o l =>
    obtain ⟨h1, h2, -⟩ := foldl_min_le h l (o / 3 % h)
    simp only [latticeMinimum, minRow, div_col]
    rcases List.mem_cons.mp hm with e | hl
    · have : q = o / 3 := by omega
      subst this
      exact ⟨h1, Nat.le_refl _⟩
    · have h3 := h2 _ hl
      have h4 := (List.pairwise_cons.mp hw).1 _ hl
      have : (3 * q + p) / 3 = q := by omega
      rw [this] at h3 h4
      exact ⟨h3, Nat.div_le_div_right (by omega)⟩

theorem latticeMinimum_has {h : Nat} {w : List Nat} (hne : w ≠ []) :
    (∃ q p, Has w q p ∧ (latticeMinimum h w).1 = q % h) ∧ (∃ q p, Has w q p ∧ (latticeMinimum h w).2 = q / h) := by
  cases w with
  | nil => exact absurd rfl hne
  | cons o l =>
    obtain ⟨-, -, h3⟩ := foldl_min_le h l (o / 3 % h)
    refine ⟨?_, o / 3, o % 3, has_mem.mp (by simp), by simp [latticeMinimum, div_col]⟩
    rcases h3 with h3 | ⟨x, hx, h3⟩
    · exact ⟨o / 3, o % 3, has_mem.mp (by simp), h3⟩
    · exact ⟨x / 3, x % 3, has_mem.mp (by simp [hx]), h3⟩

/-- The distance by which words move into the corner. -/
def corner (h : Nat) (w : List Nat) : Nat := (latticeMinimum h w).2 * h + (latticeMinimum h w).1

theorem latticeCanonical_eq (h : Nat) (w : List Nat) : latticeCanonical h w = w.map fun o => o - 3 * corner h w := by
  have e : ∀ a b : Nat, a * (h * 3) + b * 3 = 3 * (a * h + b) := by intro a b; ring
  unfold latticeCanonical corner
  dsimp only
  split
  · next hz => simp [hz.1, hz.2]
  · simp only [e]

theorem split_site {h : Nat} (hh : 0 < h) {q a b : Nat} (ha : a ≤ q % h) (hb : b ≤ q / h) :
    b * h + a ≤ q ∧ (q - (b * h + a)) % h = q % h - a ∧ (q - (b * h + a)) / h = q / h - b := by
  have e : q = h * (q / h) + q % h := (Nat.div_add_mod q h).symm
  have hlt := Nat.mod_lt q hh
  obtain ⟨c, hc⟩ := Nat.exists_eq_add_of_le hb
  have e2 : h * (q / h) = b * h + h * c := by rw [hc]; ring
  have e3 : q - (b * h + a) = h * c + (q % h - a) := by omega
  refine ⟨by omega, ?_, ?_⟩
  · rw [e3, Nat.mul_add_mod, Nat.mod_eq_of_lt (by omega)]
  · rw [e3, Nat.mul_add_div hh, Nat.div_eq_of_lt (by omega)]
    omega

theorem corner_le {h : Nat} (hh : 0 < h) {w : List Nat} (hw : Normal w) {q p : Nat} (hq : Has w q p) : corner h w ≤ q := by
  obtain ⟨h1, h2⟩ := latticeMinimum_le (h := h) hw hq
  exact (split_site hh h1 h2).1

theorem has_latticeCanonical {h : Nat} (hh : 0 < h) {w : List Nat} (hw : Normal w) (q p : Nat) :
    Has (latticeCanonical h w) q p ↔ Has w (q + corner h w) p := by
  rw [latticeCanonical_eq]
  constructor
  · rintro ⟨hp, hm⟩
    obtain ⟨o, ho, e⟩ := List.mem_map.mp hm
    have := corner_le hh hw (has_mem.mp ho)
    refine ⟨hp, ?_⟩
    have : 3 * (q + corner h w) + p = o := by omega
    rwa [this]
  · rintro ⟨hp, hm⟩
    exact ⟨hp, List.mem_map.mpr ⟨_, hm, by omega⟩⟩

theorem latticeCanonical_normal {h : Nat} (hh : 0 < h) {w : List Nat} (hw : Normal w) : Normal (latticeCanonical h w) := by
  rw [latticeCanonical_eq]
  unfold Normal
  rw [List.pairwise_map]
  refine List.Pairwise.imp_of_mem ?_ hw
  intro a b ha hb hab
  have := corner_le hh hw (has_mem.mp ha)
  have := corner_le hh hw (has_mem.mp hb)
  omega

theorem latticeCanonical_moved {h : Nat} (hh : 0 < h) {w : List Nat} (hw : Normal w) :
    MovedBy (LatticeStep h (-((latticeMinimum h w).1 : Int)) (-((latticeMinimum h w).2 : Int))) w (latticeCanonical h w) := by
  have key : ∀ q p, Has w q p → LatticeStep h (-((latticeMinimum h w).1 : Int)) (-((latticeMinimum h w).2 : Int)) q (q - corner h w) := by
    intro q p hq
    obtain ⟨h1, h2⟩ := latticeMinimum_le (h := h) hw hq
    obtain ⟨h3, h4, h5⟩ := split_site hh h1 h2
    unfold LatticeStep corner
    rw [h4, h5]
    omega
  refine ⟨fun q p hq => ?_, fun r p hr => ?_⟩
  · refine ⟨q - corner h w, key q p hq, (has_latticeCanonical hh hw _ _).mpr ?_⟩
    rwa [Nat.sub_add_cancel (corner_le hh hw hq)]
  · have hq := (has_latticeCanonical hh hw _ _).mp hr
    have := key _ _ hq
    rw [Nat.add_sub_cancel] at this
    exact ⟨_, this, hq⟩

theorem LatticeClass.symm {h : Nat} {w v : List Nat} (k : LatticeClass h w v) : LatticeClass h v w := by
  obtain ⟨r, c, k⟩ := k
  exact ⟨-r, -c, k.symm.mono fun a b hab => by unfold LatticeStep at *; omega⟩

theorem LatticeClass.trans {h : Nat} {u w v : List Nat} (k : LatticeClass h u w) (l : LatticeClass h w v) : LatticeClass h u v := by
  obtain ⟨r, c, k⟩ := k
  obtain ⟨r', c', l⟩ := l
  exact ⟨r + r', c + c', (k.trans l).mono fun a x ⟨b, hab, hbc⟩ => by unfold LatticeStep at *; omega⟩

theorem latticeMinimum_moved {h : Nat} {w v : List Nat} (hw : Normal w) (hv : Normal v) {row col : Int} (k : MovedBy (LatticeStep h row col) w v)
    (hne : w ≠ []) : ((latticeMinimum h v).1 : Int) = (latticeMinimum h w).1 + row ∧ ((latticeMinimum h v).2 : Int) = (latticeMinimum h w).2 + col := by
  have hne' : v ≠ [] := by
    rintro rfl
    exact hne (MovedBy.nil k.symm)
  obtain ⟨⟨q, p, h1, e1⟩, q', p', h2, e2⟩ := latticeMinimum_has (h := h) hne
  obtain ⟨⟨s, t, h3, e3⟩, s', t', h4, e4⟩ := latticeMinimum_has (h := h) hne'
  obtain ⟨a, ha, ka⟩ := k.1 _ _ h1
  obtain ⟨b, hb, kb⟩ := k.1 _ _ h2
  obtain ⟨c, hc, kc⟩ := k.2 _ _ h3
  obtain ⟨d, hd, kd⟩ := k.2 _ _ h4
  have i1 := latticeMinimum_le (h := h) hv ka
  have i2 := latticeMinimum_le (h := h) hv kb
  have i3 := latticeMinimum_le (h := h) hw kc
  have i4 := latticeMinimum_le (h := h) hw kd
  unfold LatticeStep at *
  omega

theorem latticeCanonical_unique {h : Nat} (hh : 0 < h) {w v : List Nat} (hw : Normal w) (hv : Normal v) (k : LatticeClass h w v) :
    latticeCanonical h w = latticeCanonical h v := by
  obtain ⟨row, col, k⟩ := k
  by_cases hne : w = []
  · subst hne
    rw [k.nil]
  · obtain ⟨m1, m2⟩ := latticeMinimum_moved hw hv k hne
    have site : ∀ a b, a / h = b / h → a % h = b % h → a = b := by
      intro a b e1 e2
      rw [← Nat.div_add_mod a h, ← Nat.div_add_mod b h, e1, e2]
    refine normal_ext (latticeCanonical_normal hh hw) (latticeCanonical_normal hh hv) fun q p => ?_
    have one : ∀ {w v : List Nat} {row col : Int}, Normal w → Normal v → MovedBy (LatticeStep h row col) w v →
        ((latticeMinimum h v).1 : Int) = (latticeMinimum h w).1 + row → ((latticeMinimum h v).2 : Int) = (latticeMinimum h w).2 + col →
        Has (latticeCanonical h w) q p → Has (latticeCanonical h v) q p := by
      intro w v row col hw hv k m1 m2 hq
      have hq' := (has_latticeCanonical hh hw _ _).mp hq
      obtain ⟨r, hr, h1⟩ := k.1 _ _ hq'
      obtain ⟨s, hs, h2⟩ := (latticeCanonical_moved hh hv).1 _ _ h1
      obtain ⟨i1, i2⟩ := latticeMinimum_le (h := h) hw hq'
      obtain ⟨h3, h4, h5⟩ := split_site hh i1 i2
      have e : q + corner h w - ((latticeMinimum h w).2 * h + (latticeMinimum h w).1) = q := by unfold corner; omega
      rw [e] at h4 h5
      have : s = q := by
        unfold LatticeStep at *
        exact site _ _ (by omega) (by omega)
      rwa [← this]
    refine ⟨one hw hv k m1 m2, ?_⟩
    have ks : MovedBy (LatticeStep h (-row) (-col)) v w := k.symm.mono fun a b hab => by unfold LatticeStep at *; omega
    exact one hv hw ks (by omega) (by omega)

end Moment.Translate
