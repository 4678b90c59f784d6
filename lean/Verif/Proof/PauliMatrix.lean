import Verif.Spec.PauliMatrix
import Verif.Proof.SymbolValues
import Verif.Props.C06_Pauli
import Verif.Props.C75_Translate
import Verif.Props.C77_Wrapping
import Verif.Props.C82_MomentMatrix

/-! # Proofs about matrices of Pauli scenarios -/

namespace Moment.PauliMatrix

open Moment.Pauli Moment.Translate
open Moment.SymbolMatrix Moment.OperatorMatrix
open Moment.Symbols (Table Words)
open C06 (IsWord)

/-! ## The product -/

theorem mulPauli_swap (p q : Nat) (hp : p < 3) (hq : q < 3) : mulPauli q p = - mulPauli p q := by
  have : ∀ p q : Fin 3, mulPauli q p = - mulPauli p q := by decide
  exact this ⟨p, hp⟩ ⟨q, hq⟩

/-- The sign at the start is a factor. -/
theorem mergeLoop_sign (ls rs : List Nat) (s g : Sign) : mergeLoop ls rs (g * s) = ((mergeLoop ls rs s).1, g * (mergeLoop ls rs s).2) := by
  fun_induction mergeLoop ls rs s with
  | case1 rs s => simp [mergeLoop]
  | case2 ls s h => cases ls <;> simp [mergeLoop]
  | case3 l ls r rs s h x ih => rw [mergeLoop]; simp only [h, if_true, ih]; rfl
  | case4 l ls r rs s h1 h2 x ih => rw [mergeLoop]; simp only [h1, h2, if_true, if_false, ih]; rfl
  | case5 l ls r rs s h1 h2 m hm x ih =>
    rw [mergeLoop]
    simp only [h1, h2, if_false]
    rw [if_pos hm, show (g * s).mul .imag = g * s.mul .imag from mul_assoc _ _ _, ih]
  | case6 l ls r rs s h1 h2 m hm hm' x ih =>
    rw [mergeLoop]
    simp only [h1, h2, if_false]
    rw [if_neg hm, if_pos hm', show (g * s).mul .negImag = g * s.mul .negImag from mul_assoc _ _ _, ih]
  | case7 l ls r rs s h1 h2 m hm hm' ih =>
    rw [mergeLoop]
    simp only [h1, h2, if_false]
    rw [if_neg hm, if_neg hm', ih]

/-- The product in the other order has the conjugate phase. -/
theorem mergeLoop_swap (ls rs : List Nat) (s : Sign) : mergeLoop rs ls s⁻¹ = ((mergeLoop ls rs s).1, (mergeLoop ls rs s).2⁻¹) := by
  fun_induction mergeLoop ls rs s with
  | case1 rs s => cases rs <;> simp [mergeLoop]
  | case2 ls s h => simp [mergeLoop]
  | case3 l ls r rs s h x ih =>
    rw [mergeLoop, if_neg (by omega), if_pos h, ih]
  | case4 l ls r rs s h1 h2 x ih =>
    rw [mergeLoop, if_pos h2, ih]
  | case5 l ls r rs s h1 h2 m hm x ih =>
    have e := mulPauli_swap (l % 3) (r % 3) (Nat.mod_lt _ (by omega)) (Nat.mod_lt _ (by omega))
    rw [mergeLoop, if_neg h2, if_neg h1]
    dsimp only
    rw [e]
    rw [if_neg (show ¬ (-m > 0) by omega), if_pos (show -m < 0 by omega), show s⁻¹.mul .negImag = (s.mul .imag)⁻¹ by cases s <;> rfl, ih,
      show r / 3 = l / 3 by omega]
    simp [m, x]
  | case6 l ls r rs s h1 h2 m hm hm' x ih =>
    have e := mulPauli_swap (l % 3) (r % 3) (Nat.mod_lt _ (by omega)) (Nat.mod_lt _ (by omega))
    rw [mergeLoop, if_neg h2, if_neg h1]
    dsimp only
    rw [e]
    rw [if_pos (show -m > 0 by omega), show s⁻¹.mul .imag = (s.mul .negImag)⁻¹ by cases s <;> rfl, ih, show r / 3 = l / 3 by omega]
  | case7 l ls r rs s h1 h2 m hm hm' ih =>
    have e := mulPauli_swap (l % 3) (r % 3) (Nat.mod_lt _ (by omega)) (Nat.mod_lt _ (by omega))
    rw [mergeLoop, if_neg h2, if_neg h1]
    dsimp only
    rw [e]
    rw [if_neg (show ¬ (-m > 0) by omega), if_neg (show ¬ (-m < 0) by omega), ih]

/-- The word of a product. -/
def prod (v w : List Nat) : List Nat := (mergeLoop v w 1).1

/-- The phase that comes from a product of words. -/
def rel (v w : List Nat) : Sign := (mergeLoop v w 1).2

theorem prod_swap (v w : List Nat) : prod w v = prod v w := by
  have h := congrArg Prod.fst (mergeLoop_swap v w 1)
  rwa [inv_one] at h

theorem rel_swap (v w : List Nat) : rel w v = (rel v w)⁻¹ := by
  have h := congrArg Prod.snd (mergeLoop_swap v w 1)
  rwa [inv_one] at h

/-- The sequence of a word with a phase. -/
def seq (n : Nat) (w : List Nat) (s : Sign) : HSeq := ⟨hashWord (UInt64.ofNat (n * 3)) w, w, s⟩

theorem IsWord.eq {n : Nat} {a : HSeq} (ha : IsWord n a) : a = seq n a.ops a.sign := by
  rcases a with ⟨h, o, s⟩
  simp only [seq, HSeq.mk.injEq, and_true]
  exact ha.2.2.1

theorem IsWord.letters {n : Nat} {a : HSeq} (ha : IsWord n a) : Letters n a.ops := ⟨ha.1, ha.2.1⟩

/-- All words on the qubits have different hashes. -/
structure Room (n : Nat) : Prop where
  letters : n * 3 < 2 ^ 64
  words : (∑ k ∈ Finset.range (n + 1), (n * 3) ^ k) < 2 ^ 64

theorem Room.isWord {n : Nat} (hn : Room n) {w : List Nat} (hw : Letters n w) (s : Sign) : IsWord n (seq n w s) := by
  have hl := normal_length n w hw.1 hw.2
  exact ⟨hw.1, hw.2, rfl, (C02.C02_hash_shortlex_partial (n * 3) n hn.letters hn.words _ _ hw.2 hw.2 hl hl).2.2.1⟩

theorem Room.inj {n : Nat} (hn : Room n) {v w : List Nat} (hv : Letters n v) (hw : Letters n w)
    (e : hashWord (UInt64.ofNat (n * 3)) v = hashWord (UInt64.ofNat (n * 3)) w) : v = w :=
  ((C02.C02_hash_shortlex_partial (n * 3) n hn.letters hn.words _ _ hv.2 hw.2 (normal_length n v hv.1 hv.2) (normal_length n w hw.1 hw.2)).1.mp e)

theorem multiply_eq {n : Nat} {a b : HSeq} (ha : IsWord n a) (hb : IsWord n b) :
    multiply n a b = seq n (prod a.ops b.ops) (a.sign * b.sign * rel a.ops b.ops) := by
  have za : a.isZero = false := by simpa [HSeq.isZero] using ha.2.2.2
  have zb : b.isZero = false := by simpa [HSeq.isZero] using hb.2.2.2
  have hah := ha.2.2.1
  have hbh := hb.2.2.1
  unfold multiply seq prod rel
  simp only [za, zb, Bool.false_eq_true, if_false]
  cases hbo : b.ops with
  | nil => cases hao : a.ops <;> simp [mergeLoop, hah, hao]
  | cons r rs =>
    cases hao : a.ops with
    | nil => simp [mergeLoop, hbh, hbo]
    | cons l ls =>
      simp only [List.isEmpty_cons, Bool.false_eq_true, if_false]
      have e := mergeLoop_sign (l :: ls) (r :: rs) 1 (a.sign * b.sign)
      rw [mul_one] at e
      rw [show a.sign.mul b.sign = a.sign * b.sign from rfl, e]
      rfl

theorem prod_letters {n : Nat} {v w : List Nat} (hv : Letters n v) (hw : Letters n w) : Letters n (prod v w) := by
  have h := mergeLoop_normal v w 1 hv.1 hw.1
  refine ⟨h.1, fun o ho => ?_⟩
  obtain ⟨x, hx, e⟩ := h.2 o ho
  have : x < n * 3 := (List.mem_append.mp hx).elim (hv.2 x) (hw.2 x)
  omega

/-! ## Representations -/

section algebra
variable {A : Type*} [Ring A] [Algebra ℂ A] [StarRing A]

omit [Algebra ℂ A] [StarRing A] in
theorem evalWord_cons (ρ : Nat → A) (o : Nat) (w : List Nat) : Rewrite.evalWord ρ (o :: w) = ρ o * Rewrite.evalWord ρ w := by simp [Rewrite.evalWord]

theorem commute_word {n : Nat} {ρ : Nat → A} (hρ : Represents n ρ) {o : Nat} (ho : o < n * 3) : ∀ (w : List Nat), (∀ x ∈ w, x < n * 3 ∧ o / 3 ≠ x / 3) →
    Rewrite.evalWord ρ w * ρ o = ρ o * Rewrite.evalWord ρ w
  | [], _ => by simp
  | x :: w, h => by
    have hx := h x (by simp)
    rw [evalWord_cons, mul_assoc, commute_word hρ ho w (fun y hy => h y (by simp [hy])), ← mul_assoc, ← mul_assoc, hρ.apart o x ho hx.1 hx.2]

variable [StarModule ℂ A]

/-- The product of two letters of a qubit. -/
theorem letter_mul {n : Nat} {ρ : Nat → A} (hρ : Represents n ρ) {q : Nat} (hq : q < n) (p r : Nat) (hp : p < 3) (hr : r < 3) :
    ρ (3 * q + p) * ρ (3 * q + r) =
      if mulPauli p r > 0 then Complex.I • ρ (3 * q + (mulPauli p r - 1).toNat)
      else if mulPauli p r < 0 then (-Complex.I) • ρ (3 * q + (-mulPauli p r - 1).toNat) else 1 := by
  have flip : ∀ {a b c : Nat}, a < n * 3 → b < n * 3 → c < n * 3 → ρ a * ρ b = Complex.I • ρ c → ρ b * ρ a = (-Complex.I) • ρ c := by
    intro a b c ha hb hc e
    have := congrArg star e
    rw [star_mul, star_smul, hρ.star a ha, hρ.star b hb, hρ.star c hc] at this
    simpa using this
  have b0 : 3 * q < n * 3 := by omega
  have b1 : 3 * q + 1 < n * 3 := by omega
  have b2 : 3 * q + 2 < n * 3 := by omega
  have e1 := hρ.xy q hq
  have e2 := hρ.yz q hq
  have e3 := hρ.zx q hq
  have f1 := flip b0 b1 b2 e1
  have f2 := flip b1 b2 b0 e2
  have f3 := flip b2 b0 b1 e3
  have s0 := hρ.square _ b0
  have s1 := hρ.square _ b1
  have s2 := hρ.square _ b2
  interval_cases p <;> interval_cases r <;> simp [mulPauli, cayley, *]

theorem mergeLoop_eval {n : Nat} {ρ : Nat → A} (hρ : Represents n ρ) (ls rs : List Nat) (s : Sign) (hl : Letters n ls) (hr : ∀ o ∈ rs, o < n * 3) :
    Rewrite.phase (mergeLoop ls rs s).2 • Rewrite.evalWord ρ (mergeLoop ls rs s).1 =
      Rewrite.phase s • (Rewrite.evalWord ρ ls * Rewrite.evalWord ρ rs) := by
  have same : ∀ {l r : Nat} {ls rs : List Nat}, Letters n (l :: ls) → (∀ o ∈ r :: rs, o < n * 3) → ¬ l / 3 < r / 3 → ¬ l / 3 > r / 3 →
      Rewrite.evalWord ρ (l :: ls) * Rewrite.evalWord ρ (r :: rs) =
        (ρ (3 * (l / 3) + l % 3) * ρ (3 * (l / 3) + r % 3)) * (Rewrite.evalWord ρ ls * Rewrite.evalWord ρ rs) := by
    intro l r ls rs hl hr h1 h2
    have hp := List.pairwise_cons.mp hl.1
    rw [show 3 * (l / 3) + l % 3 = l by omega, show 3 * (l / 3) + r % 3 = r by omega, evalWord_cons, evalWord_cons, mul_assoc,
      ← mul_assoc (Rewrite.evalWord ρ ls), commute_word hρ (hr r (by simp)) ls (fun x hx => ⟨hl.2 x (by simp [hx]), by have := hp.1 x hx; omega⟩)]
    simp only [mul_assoc]
  have tail : ∀ {l : Nat} {ls : List Nat}, Letters n (l :: ls) → Letters n ls := fun h =>
    ⟨(List.pairwise_cons.mp h.1).2, fun o ho => h.2 o (by simp [ho])⟩
  fun_induction mergeLoop ls rs s with
  | case1 rs s => simp
  | case2 ls s h => simp
  | case3 l ls r rs s h x ih =>
    have := ih (tail hl) hr
    simp only [x, evalWord_cons ρ l] at this ⊢
    rw [← mul_smul_comm, this, mul_smul_comm, mul_assoc]
  | case4 l ls r rs s h1 h2 x ih =>
    have := ih hl (fun o ho => hr o (by simp [ho]))
    simp only [x, evalWord_cons ρ r] at this ⊢
    have hp := List.pairwise_cons.mp hl.1
    rw [← mul_smul_comm, this, mul_smul_comm, ← mul_assoc, ← mul_assoc, commute_word hρ (hr r (by simp)) (l :: ls) ?_]
    intro y hy
    refine ⟨hl.2 y hy, ?_⟩
    rcases List.mem_cons.mp hy with rfl | hy
    · omega
    · have := hp.1 y hy; omega
  | case5 l ls r rs s h1 h2 m hm x ih =>
    have := ih (tail hl) (fun o ho => hr o (by simp [ho]))
    have hq : l / 3 < n := by have := hl.2 l (by simp); omega
    rw [same hl hr h1 h2, letter_mul hρ hq _ _ (Nat.mod_lt _ (by omega)) (Nat.mod_lt _ (by omega)), if_pos hm]
    simp only [x, evalWord_cons] at this ⊢
    rw [← mul_smul_comm, this, SymbolMatrix.phase_mul]
    rw [show Rewrite.phase .imag = Complex.I from rfl]
    simp only [smul_mul_assoc, mul_smul_comm, smul_smul]
    rfl
  | case6 l ls r rs s h1 h2 m hm hm' x ih =>
    have := ih (tail hl) (fun o ho => hr o (by simp [ho]))
    have hq : l / 3 < n := by have := hl.2 l (by simp); omega
    rw [same hl hr h1 h2, letter_mul hρ hq _ _ (Nat.mod_lt _ (by omega)) (Nat.mod_lt _ (by omega)), if_neg hm, if_pos hm']
    simp only [x, evalWord_cons] at this ⊢
    rw [← mul_smul_comm, this, SymbolMatrix.phase_mul]
    rw [show Rewrite.phase .negImag = -Complex.I from rfl]
    simp only [smul_mul_assoc, mul_smul_comm, smul_smul]
    rfl
  | case7 l ls r rs s h1 h2 m hm hm' ih =>
    have hq : l / 3 < n := by have := hl.2 l (by simp); omega
    rw [same hl hr h1 h2, letter_mul hρ hq _ _ (Nat.mod_lt _ (by omega)) (Nat.mod_lt _ (by omega)), if_neg hm, if_neg hm', one_mul]
    exact ih (tail hl) (fun o ho => hr o (by simp [ho]))

/-- The product of sequences is the product of their operators. -/
theorem operator_multiply {n : Nat} {ρ : Nat → A} (hρ : Represents n ρ) {a b : HSeq} (ha : IsWord n a) (hb : IsWord n b) :
    operator ρ (multiply n a b) = operator ρ a * operator ρ b := by
  rw [multiply_eq ha hb]
  unfold operator seq
  dsimp only
  have e := mergeLoop_eval hρ a.ops b.ops 1 ⟨ha.1, ha.2.1⟩ hb.2.1
  rw [← Sign.mul_eq (a.sign * b.sign), SymbolMatrix.phase_mul, ← Sign.mul_eq, SymbolMatrix.phase_mul, mul_smul]
  rw [show (1 : Sign) = .pos from rfl] at e
  unfold prod rel
  rw [show (1 : Sign) = .pos from rfl, e, Rewrite.phase_pos, one_smul, smul_mul_smul_comm]

/-- Words in normal form stand for self-adjoint operators. -/
theorem word_star {n : Nat} {ρ : Nat → A} (hρ : Represents n ρ) : ∀ {w : List Nat}, Letters n w → star (Rewrite.evalWord ρ w) = Rewrite.evalWord ρ w
  | [], _ => by simp
  | o :: w, h => by
    have hp := List.pairwise_cons.mp h.1
    have ho := h.2 o (by simp)
    rw [evalWord_cons, star_mul, word_star hρ ⟨hp.2, fun x hx => h.2 x (by simp [hx])⟩, hρ.star o ho,
      commute_word hρ ho w fun x hx => ⟨h.2 x (by simp [hx]), by have := hp.1 x hx; omega⟩]

theorem operator_conj {n : Nat} {ρ : Nat → A} (hρ : Represents n ρ) {a : HSeq} (ha : IsWord n a) : operator ρ (conjugate a) = star (operator ρ a) := by
  unfold operator conjugate
  dsimp only
  rw [star_smul, word_star hρ (IsWord.letters ha)]
  congr 1
  cases a.sign <;> simp [Rewrite.phase, Sign.conj, Sign.code, Sign.ofCode]

end algebra

/-! ## Simplification -/

/-- The symmetry belongs to a context on `n` qubits: lattices have full columns, and the shifts of closed chains and lattices are defined (C77). -/
def Fit (n : Nat) : Symmetry → Prop
  | .none => True
  | .chain => True
  | .lattice h => 0 < h ∧ ∃ k, n = h * k
  | .closed wide H => SiteHash.Ready wide H ∧ H.qubits = n

theorem letters_within {n : Nat} {w : List Nat} (hw : Normal w) : Letters n w ↔ SiteHash.Within n w := by
  refine ⟨fun h q p hh => ?_, fun h => ⟨hw, fun o ho => ?_⟩⟩
  · have := h.2 _ hh.2
    omega
  · have := h (o / 3) (o % 3) ⟨Nat.mod_lt _ (by omega), by rwa [show 3 * (o / 3) + o % 3 = o by omega]⟩
    omega

theorem canon_form {n : Nat} {y : Symmetry} (hf : Fit n y) {w : List Nat} (hw : Letters n w) :
    Letters n (y.canon w) ∧ y.Class w (y.canon w) ∧ (y.isCanon w = true ↔ y.canon w = w) ∧ y.canon (y.canon w) = y.canon w := by
  cases y with
  | none => exact ⟨hw, rfl, by simp [Symmetry.isCanon, Symmetry.canon], rfl⟩
  | chain =>
    obtain ⟨h1, h2, h3, h4, h5⟩ := C75.C75_chain_form hw.1
    exact ⟨⟨h1, fun o ho => by have := h3 n (fun x hx => by have := hw.2 x hx; omega) o ho; omega⟩, h2, h4, h5⟩
  | lattice h =>
    obtain ⟨hh, k, rfl⟩ := hf
    obtain ⟨h1, h2, h3, h4, h5⟩ := C75.C75_lattice_form hh hw.1
    exact ⟨⟨h1, fun o ho => by have := h3 k (fun x hx => by have := hw.2 x hx; omega) o ho; omega⟩, h2, h4, h5⟩
  | closed wide H =>
    obtain ⟨hr, rfl⟩ := hf
    obtain ⟨u, h1, h2, h3, h4, h5, h6, -⟩ := C77.canonical_form hr hw.1 ((letters_within hw.1).mp hw)
    have e : (Symmetry.closed wide H).canon w = u := by simp [Symmetry.canon, h1]
    rw [e]
    refine ⟨(letters_within h3).mpr h4, h5, by simp [Symmetry.isCanon, h2], by simp [Symmetry.canon, h6]⟩

theorem canon_iff {n : Nat} {y : Symmetry} (hf : Fit n y) {w v : List Nat} (hw : Letters n w) (hv : Letters n v) :
    y.canon w = y.canon v ↔ y.Class w v := by
  cases y with
  | none => exact Iff.rfl
  | chain => exact C75.C75_chain hw.1 hv.1
  | lattice h => exact C75.C75_lattice hf.1 hw.1 hv.1
  | closed wide H =>
    obtain ⟨hr, rfl⟩ := hf
    obtain ⟨a, b, h1, h2, h3⟩ := C77.canonical_class hr hw.1 hv.1 ((letters_within hw.1).mp hw) ((letters_within hv.1).mp hv)
    simp only [Symmetry.canon, h1, h2, Option.getD_some]
    exact h3

/-! ## Sequences -/

/-- Zero or a word. -/
def IsSeq (n : Nat) (w : HSeq) : Prop := (w.hash = 0 ∧ w.ops = []) ∨ IsWord n w

theorem seq_zero (n : Nat) : IsSeq n HSeq.zero := .inl ⟨rfl, rfl⟩

theorem IsSeq.sign {n : Nat} {w : HSeq} (hw : IsSeq n w) (s : Sign) : IsSeq n { w with sign := s } := hw

theorem conj_seq {n : Nat} {w : HSeq} (hw : IsSeq n w) : IsSeq n (conjugate w) := hw

theorem setting (n : Nat) (y : Symmetry) : Setting (host n y) (IsSeq n) := by
  refine ⟨⟨⟨seq_zero n, rfl⟩, ⟨.inr ⟨List.Pairwise.nil, by simp [HSeq.identity], rfl, by simp [HSeq.identity]⟩, rfl⟩, fun w hw => conj_seq hw,
    fun w hw => hw, fun w _ => rfl, fun w v _ _ e => e⟩, fun w _ _ h => absurd rfl h, fun _ w _ => rfl⟩

/-- What the simplification as a moment makes of a sequence. -/
def settle (n : Nat) (y : Symmetry) (w : HSeq) : HSeq := if (host n y).env.aliases then (host n y).env.simp w else w

theorem settle_zero {n : Nat} {y : Symmetry} {w : HSeq} (h : w = HSeq.zero) : settle n y w = HSeq.zero := by
  subst h
  unfold settle
  split
  · rfl
  · rfl

theorem settle_word {n : Nat} {y : Symmetry} {w : HSeq} (hw : IsWord n w) : settle n y w = seq n (y.canon w.ops) w.sign := by
  have hz : w.isZero = false := by simpa [HSeq.isZero] using hw.2.2.2
  unfold settle
  split
  · simp only [host, env, canonicalSeq, hz, Bool.false_eq_true, if_false]
    rfl
  · rename_i h
    cases y with
    | none => exact IsWord.eq hw
    | chain => simp [host, env, Symmetry.aliases] at h
    | lattice _ => simp [host, env, Symmetry.aliases] at h
    | closed _ _ => simp [host, env, Symmetry.aliases] at h

theorem settle_isWord {n : Nat} (hn : Room n) {y : Symmetry} (hf : Fit n y) {w : HSeq} (hw : IsWord n w) : IsWord n (settle n y w) := by
  rw [settle_word hw]
  exact hn.isWord (canon_form hf (IsWord.letters hw)).1 _

/-- Zero itself, or a word. -/
def Proper (n : Nat) (w : HSeq) : Prop := w = HSeq.zero ∨ IsWord n w

theorem Proper.isSeq {n : Nat} {w : HSeq} (hw : Proper n w) : IsSeq n w := hw.elim (fun h => h ▸ seq_zero n) .inr

theorem settle_proper {n : Nat} (hn : Room n) {y : Symmetry} (hf : Fit n y) {w : HSeq} (hw : Proper n w) : Proper n (settle n y w) :=
  hw.elim (fun h => .inl (settle_zero h)) fun h => .inr (settle_isWord hn hf h)

theorem settle_conj {n : Nat} {y : Symmetry} {w : HSeq} (hw : Proper n w) : conjugate (settle n y w) = settle n y (conjugate w) := by
  rcases hw with rfl | hw
  · rw [settle_zero rfl, settle_zero (show conjugate HSeq.zero = HSeq.zero from rfl)]
    rfl
  · rw [settle_word hw, settle_word (show IsWord n (conjugate w) from hw)]
    rfl

section algebra
variable {A : Type*} [Ring A] [Algebra ℂ A] [StarRing A] [StarModule ℂ A]

theorem moment_moments {n : Nat} (hn : Room n) (y : Symmetry) {ρ : Nat → A} (hρ : Represents n ρ) {φ : A →ₗ[ℂ] ℂ}
    (hφ : ∀ a, φ (star a) = (starRingEnd ℂ) (φ a)) : Moments (host n y).env (IsSeq n) (moment ρ φ) := by
  constructor
  · simp [moment, HSeq.zero]
  · intro w _
    unfold moment operator
    dsimp only
    split
    · simp
    · rw [map_smul, map_smul, Rewrite.phase_pos, one_smul, smul_eq_mul]
  · intro w v hw hv e1 e2
    unfold moment
    rw [e1]
    split
    · rfl
    · rename_i h0
      have kw : IsWord n w := hw.resolve_left fun h => h0 (e1 ▸ h.1)
      have kv : IsWord n v := hv.resolve_left fun h => h0 h.1
      have := hn.inj (IsWord.letters kw) (IsWord.letters kv) (by rw [← kw.2.2.1, ← kv.2.2.1, e1])
      unfold operator
      rw [this, e2]
  · intro w hw
    show moment ρ φ (conjugate w) = _
    unfold moment
    by_cases h0 : w.hash = 0
    · rw [if_pos h0, if_pos (show (conjugate w).hash = 0 from h0), map_zero]
    · rw [if_neg h0, if_neg (show (conjugate w).hash ≠ 0 from h0), operator_conj hρ (hw.resolve_left fun h => h0 h.1), hφ]

theorem moment_word {ρ : Nat → A} {φ : A →ₗ[ℂ] ℂ} {n : Nat} {w : HSeq} (hw : IsWord n w) : moment ρ φ w = φ (operator ρ w) := if_neg hw.2.2.2

theorem moment_settle {n : Nat} (hn : Room n) {y : Symmetry} (hf : Fit n y) {ρ : Nat → A} {φ : A →ₗ[ℂ] ℂ} (hφ : Invariant n y ρ φ) {w : HSeq}
    (hw : Proper n w) : moment ρ φ (settle n y w) = moment ρ φ w := by
  rcases hw with rfl | hw
  · rw [settle_zero rfl]
  · have hc := canon_form hf (IsWord.letters hw)
    rw [moment_word (settle_isWord hn hf hw), moment_word hw, settle_word hw]
    unfold operator seq
    rw [map_smul, map_smul, hφ.move _ _ (IsWord.letters hw) hc.1 hc.2.1]

theorem moment_real {n : Nat} {ρ : Nat → A} (hρ : Represents n ρ) {φ : A →ₗ[ℂ] ℂ} (hφ : ∀ a, φ (star a) = (starRingEnd ℂ) (φ a)) {w : HSeq}
    (hw : IsSeq n w) (hs : w.sign = .pos) : (starRingEnd ℂ) (moment ρ φ w) = moment ρ φ w := by
  rcases hw with h | h
  · simp [moment, h.1]
  · rw [moment_word h, ← hφ, ← operator_conj hρ h]
    congr 2
    unfold conjugate
    rw [hs]
    rcases w with ⟨a, b, c⟩
    simp only at hs
    rw [hs]
    rfl

end algebra

/-! ## Functors -/

/-- The word of the generator is a word of the context. -/
def Kind.Fits (n : Nat) : Kind → Prop
  | .moment => True
  | .localizing x => IsWord n x
  | .commutator x => IsWord n x
  | .anticommutator x => IsWord n x

theorem multiply_word {n : Nat} (hn : Room n) {a b : HSeq} (ha : IsWord n a) (hb : IsWord n b) : IsWord n (multiply n a b) :=
  C06.C08_multiply_closed n hn.letters hn.words a b ha hb

theorem imaginary_mul (a b : Sign) : (a * b).isImaginary = (a.isImaginary != b.isImaginary) := by cases a <;> cases b <;> rfl

theorem commutator_eq {n : Nat} {a b : HSeq} (ha : IsWord n a) (hb : IsWord n b) :
    Pauli.commutator n a b = if (rel a.ops b.ops).isImaginary then multiply n a b else HSeq.zero := by
  have hs : (multiply n a b).sign = a.sign * b.sign * rel a.ops b.ops := by rw [multiply_eq ha hb]; rfl
  unfold Pauli.commutator
  simp only [hs, Sign.mul_eq, imaginary_mul (a.sign * b.sign)]
  cases (a.sign * b.sign).isImaginary <;> cases (rel a.ops b.ops).isImaginary <;> rfl

theorem anticommutator_eq {n : Nat} {a b : HSeq} (ha : IsWord n a) (hb : IsWord n b) :
    anticommutator n a b = if (rel a.ops b.ops).isImaginary then HSeq.zero else multiply n a b := by
  have hs : (multiply n a b).sign = a.sign * b.sign * rel a.ops b.ops := by rw [multiply_eq ha hb]; rfl
  unfold anticommutator
  simp only [hs, Sign.mul_eq, imaginary_mul (a.sign * b.sign)]
  cases (a.sign * b.sign).isImaginary <;> cases (rel a.ops b.ops).isImaginary <;> rfl

/-- The product in the other order. -/
theorem multiply_swap {n : Nat} {a b : HSeq} (ha : IsWord n a) (hb : IsWord n b) :
    multiply n b a = seq n (prod a.ops b.ops) (a.sign * b.sign * (rel a.ops b.ops)⁻¹) := by
  rw [multiply_eq hb ha, prod_swap, rel_swap, mul_comm b.sign]

theorem multiply_conj {n : Nat} {a b : HSeq} (ha : IsWord n a) (hb : IsWord n b) :
    conjugate (multiply n a b) = multiply n (conjugate b) (conjugate a) := by
  rw [multiply_eq ha hb, multiply_swap (a := conjugate a) (b := conjugate b) ha hb]
  simp only [conjugate, seq, Sign.conj_eq, mul_inv]

theorem fn_proper {n : Nat} (hn : Room n) {k : Kind} (hk : k.Fits n) {a b : HSeq} (ha : IsWord n a) (hb : IsWord n b) : Proper n (k.fn n a b) := by
  have hab := multiply_word hn ha hb
  cases k with
  | moment => exact .inr hab
  | localizing x => exact .inr (multiply_word hn ha (multiply_word hn hk hb))
  | commutator x =>
    show Proper n (Pauli.commutator n _ x)
    rw [commutator_eq hab hk]
    split
    · exact .inr (multiply_word hn hab hk)
    · exact .inl rfl
  | anticommutator x =>
    show Proper n (anticommutator n _ x)
    rw [anticommutator_eq hab hk]
    split
    · exact .inl rfl
    · exact .inr (multiply_word hn hab hk)

section algebra
variable {A : Type*} [Ring A] [Algebra ℂ A] [StarRing A] [StarModule ℂ A]

theorem exchange_real {n : Nat} {ρ : Nat → A} (hρ : Represents n ρ) {a b : HSeq} (ha : IsWord n a) (hb : IsWord n b)
    (h : (rel a.ops b.ops).isImaginary = false) : operator ρ b * operator ρ a = operator ρ a * operator ρ b := by
  have e : (rel a.ops b.ops)⁻¹ = rel a.ops b.ops := by cases hr : rel a.ops b.ops <;> rw [hr] at h <;> first | rfl | cases h
  rw [← operator_multiply hρ ha hb, ← operator_multiply hρ hb ha, multiply_swap ha hb, multiply_eq ha hb, e]

theorem exchange_imaginary {n : Nat} {ρ : Nat → A} (hρ : Represents n ρ) {a b : HSeq} (ha : IsWord n a) (hb : IsWord n b)
    (h : (rel a.ops b.ops).isImaginary = true) : operator ρ b * operator ρ a = -(operator ρ a * operator ρ b) := by
  have e : (rel a.ops b.ops)⁻¹ = .neg * rel a.ops b.ops := by cases hr : rel a.ops b.ops <;> rw [hr] at h <;> first | rfl | cases h
  rw [← operator_multiply hρ ha hb, ← operator_multiply hρ hb ha, multiply_swap ha hb, multiply_eq ha hb, e]
  unfold operator seq
  dsimp only
  rw [mul_left_comm, ← Sign.mul_eq .neg, SymbolMatrix.phase_mul]
  simp [Rewrite.phase]

/-- The prefactor times the moment of the sequence in the matrix is the moment that the matrix is to have there. -/
theorem fn_value {n : Nat} (hn : Room n) {k : Kind} (hk : k.Fits n) {ρ : Nat → A} (hρ : Represents n ρ) (φ : A →ₗ[ℂ] ℂ) {a b : HSeq} (ha : IsWord n a)
    (hb : IsWord n b) : k.prefactor * moment ρ φ (k.fn n a b) = φ (k.target ρ (operator ρ a) (operator ρ b)) := by
  have hab := multiply_word hn ha hb
  have zero : moment ρ φ HSeq.zero = 0 := by simp [moment, HSeq.zero]
  cases k with
  | moment =>
    show 1 * moment ρ φ (multiply n a b) = φ (operator ρ a * operator ρ b)
    rw [one_mul, moment_word hab, operator_multiply hρ ha hb]
  | localizing x =>
    have hxb := multiply_word hn hk hb
    show 1 * moment ρ φ (multiply n a (multiply n x b)) = φ (operator ρ a * operator ρ x * operator ρ b)
    rw [one_mul, moment_word (multiply_word hn ha hxb), operator_multiply hρ ha hxb, operator_multiply hρ hk hb, mul_assoc]
  | commutator x =>
    show 2 * moment ρ φ (Pauli.commutator n (multiply n a b) x) = φ (operator ρ a * operator ρ b * operator ρ x - operator ρ x * (operator ρ a * operator ρ b))
    rw [commutator_eq hab hk, ← operator_multiply hρ ha hb]
    split
    · rename_i h
      rw [moment_word (multiply_word hn hab hk), operator_multiply hρ hab hk, exchange_imaginary hρ hab hk h, sub_neg_eq_add, map_add, two_mul]
    · rename_i h
      rw [zero, exchange_real hρ hab hk (by simpa using h)]
      simp
  | anticommutator x =>
    show 2 * moment ρ φ (anticommutator n (multiply n a b) x) = φ (operator ρ a * operator ρ b * operator ρ x + operator ρ x * (operator ρ a * operator ρ b))
    rw [anticommutator_eq hab hk, ← operator_multiply hρ ha hb]
    split
    · rename_i h
      rw [zero, exchange_imaginary hρ hab hk h]
      simp
    · rename_i h
      rw [moment_word (multiply_word hn hab hk), operator_multiply hρ hab hk, exchange_real hρ hab hk (by simpa using h), map_add, two_mul]

end algebra

theorem sign_real (s : Sign) : s.isImaginary = false → s.conj = s := by cases s <;> decide

theorem sign_imaginary (s : Sign) : s.isImaginary = true → s.conj = .neg * s := by cases s <;> decide

theorem self_conj {a : HSeq} (h : a.sign.isImaginary = false) : conjugate a = a := by
  unfold conjugate
  rw [sign_real _ h]

/-- The sequence with the opposite sign. -/
def opposite (a : HSeq) : HSeq := { a with sign := .neg * a.sign }

theorem neg_conj {a : HSeq} (h : a.sign.isImaginary = true) : conjugate a = opposite a := by
  unfold conjugate
  rw [sign_imaginary _ h]
  rfl

theorem multiply_opposite {n : Nat} {a b : HSeq} (ha : IsWord n a) (hb : IsWord n b) :
    multiply n (opposite a) b = opposite (multiply n a b) ∧ multiply n a (opposite b) = opposite (multiply n a b) := by
  rw [multiply_eq (a := opposite a) ha hb, multiply_eq (b := opposite b) ha hb, multiply_eq ha hb]
  simp only [opposite, seq, HSeq.mk.injEq, true_and]
  constructor
  · simp only [mul_assoc]
  · rw [mul_left_comm, mul_assoc]

/-- Exchange of row and column: conjugation if the matrix should be Hermitian, and else conjugation with a sign. -/
theorem fn_turn {n : Nat} (hn : Room n) {k : Kind} (hk : k.Fits n) {a b : HSeq} (ha : IsWord n a) (hb : IsWord n b) (sa : a.sign = .pos) (sb : b.sign = .pos) :
    (k.shouldBeHermitian = true → conjugate (k.fn n a b) = k.fn n b a) ∧
    (k.shouldBeHermitian = false → (k.fn n a b = HSeq.zero ∧ k.fn n b a = HSeq.zero) ∨
      (IsWord n (k.fn n a b) ∧ conjugate (k.fn n a b) = opposite (k.fn n b a))) := by
  have ca : conjugate a = a := self_conj (by rw [sa]; rfl)
  have cb : conjugate b = b := self_conj (by rw [sb]; rfl)
  have hab := multiply_word hn ha hb
  have hba := multiply_word hn hb ha
  have cab : conjugate (multiply n a b) = multiply n b a := by rw [multiply_conj ha hb, ca, cb]
  have same : (multiply n b a).ops = (multiply n a b).ops := by rw [← cab]; rfl
  -- conjugates of products with the word
  have loc : ∀ x, IsWord n x → conjugate (multiply n a (multiply n x b)) = multiply n b (multiply n (conjugate x) a) := by
    intro x hx
    rw [multiply_conj ha (multiply_word hn hx hb), multiply_conj hx hb, ca, cb]
    exact C06.C08_multiply_assoc n hn.letters hn.words b (conjugate x) a hb hx ha
  have real : ∀ x, IsWord n x → (rel (multiply n a b).ops x.ops).isImaginary = false →
      conjugate (multiply n (multiply n a b) x) = multiply n (multiply n b a) (conjugate x) := by
    intro x hx h
    rw [multiply_conj hab hx, cab, multiply_swap (a := multiply n b a) (b := conjugate x) hba hx, multiply_eq (b := conjugate x) hba hx]
    rw [← same] at h
    have e : (rel (multiply n b a).ops x.ops)⁻¹ = rel (multiply n b a).ops x.ops := by
      cases hr : rel (multiply n b a).ops x.ops <;> rw [hr] at h <;> first | rfl | cases h
    rw [show (conjugate x).ops = x.ops from rfl, e]
  have imag : ∀ x, IsWord n x → (rel (multiply n a b).ops x.ops).isImaginary = true →
      conjugate (multiply n (multiply n a b) x) = opposite (multiply n (multiply n b a) (conjugate x)) := by
    intro x hx h
    rw [multiply_conj hab hx, cab, multiply_swap (a := multiply n b a) (b := conjugate x) hba hx, multiply_eq (b := conjugate x) hba hx]
    rw [← same] at h
    have e : (rel (multiply n b a).ops x.ops)⁻¹ = .neg * rel (multiply n b a).ops x.ops := by
      cases hr : rel (multiply n b a).ops x.ops <;> rw [hr] at h <;> first | rfl | cases h
    rw [show (conjugate x).ops = x.ops from rfl, e, mul_left_comm]
    rfl
  have twice : ∀ w : HSeq, opposite (opposite w) = w := by
    rintro ⟨x, o, s⟩
    simp only [opposite, HSeq.mk.injEq, true_and]
    cases s <;> decide
  cases k with
  | moment => exact ⟨fun _ => cab, fun h => by cases h⟩
  | localizing x =>
    have hx : IsWord n x := hk
    refine ⟨fun h => ?_, fun h => .inr ⟨multiply_word hn ha (multiply_word hn hx hb), ?_⟩⟩
    · show conjugate (multiply n a (multiply n x b)) = multiply n b (multiply n x a)
      rw [loc x hx, self_conj (by simpa [Kind.shouldBeHermitian] using h)]
    · show conjugate (multiply n a (multiply n x b)) = opposite (multiply n b (multiply n x a))
      rw [loc x hx, neg_conj (by simpa [Kind.shouldBeHermitian] using h), (multiply_opposite hx ha).1, (multiply_opposite hb (multiply_word hn hx ha)).2]
  | commutator x =>
    have hx : IsWord n x := hk
    simp only [Kind.fn, commutator_eq hab hx, commutator_eq hba hx, same]
    cases hr : (rel (multiply n a b).ops x.ops).isImaginary
    · simp only [Bool.false_eq_true, if_false]
      exact ⟨fun _ => rfl, fun _ => .inl ⟨trivial, trivial⟩⟩
    · simp only [if_true]
      refine ⟨fun h => ?_, fun h => .inr ⟨multiply_word hn hab hx, ?_⟩⟩
      · rw [imag x hx hr, neg_conj h, (multiply_opposite hba hx).2, twice]
      · rw [imag x hx hr, self_conj h]
  | anticommutator x =>
    have hx : IsWord n x := hk
    simp only [Kind.fn, anticommutator_eq hab hx, anticommutator_eq hba hx, same]
    cases hr : (rel (multiply n a b).ops x.ops).isImaginary
    · simp only [Bool.false_eq_true, if_false]
      refine ⟨fun h => ?_, fun h => .inr ⟨multiply_word hn hab hx, ?_⟩⟩
      · rw [real x hx hr, self_conj (by simpa [Kind.shouldBeHermitian] using h)]
      · rw [real x hx hr, neg_conj (by simpa [Kind.shouldBeHermitian] using h), (multiply_opposite hba hx).2]
    · simp only [if_true]
      exact ⟨fun _ => rfl, fun _ => .inl ⟨trivial, trivial⟩⟩

/-! ## The matrix of sequences -/

/-- The words of a generator: words of the context with positive sign. -/
def Plain (n : Nat) (words : List HSeq) : Prop := ∀ w ∈ words, IsWord n w ∧ w.sign = .pos

theorem used_at {n : Nat} (y : Symmetry) (f : HSeq → HSeq → HSeq) {words : List HSeq} {i j : Nat} {a b : HSeq} (hi : words[i]? = some a)
    (hj : words[j]? = some b) : word (C82.used (host n y) f words) i j = settle n y (f a b) :=
  C82.used_word (host n y) f words (show (rowWords (host n y) words)[i]? = some a from hi) hj

theorem usable {n : Nat} (hn : Room n) {y : Symmetry} (hf : Fit n y) {k : Kind} (hk : k.Fits n) {words : List HSeq} (hw : Plain n words) :
    Usable (host n y) (IsSeq n) (C82.used (host n y) (k.fn n) words) := by
  have hsq := C82.single_square (k.fn n) (rowWords (host n y) words) words (C82.rowWords_length _ _)
  have mem : ∀ w ∈ (single (k.fn n) (rowWords (host n y) words) words).data, Proper n w := by
    intro w h
    simp only [single, rowWords, show (host n y).canNonHerm = false from rfl, Bool.false_eq_true, if_false, List.mem_flatMap, List.mem_map] at h
    obtain ⟨b, hb, a, ha, rfl⟩ := h
    exact fn_proper hn hk (hw a ha).1 (hw b hb).1
  unfold C82.used singleAliased
  dsimp only
  split
  · rename_i hal
    refine ⟨?_, ?_, fun h => by cases h⟩
    · simpa [MatrixBasis.Mat.Square] using hsq
    · intro w h
      simp only [Option.getD_some, List.mem_map] at h
      obtain ⟨x, hx, rfl⟩ := h
      have := settle_proper hn hf (mem x hx)
      unfold settle at this
      rw [if_pos hal] at this
      exact this.isSeq
  · exact ⟨hsq, fun w h => (mem w h).isSeq, fun h => by cases h⟩

end Moment.PauliMatrix
