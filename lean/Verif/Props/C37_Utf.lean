import Verif.Model.Utf
import Mathlib.Tactic.Linarith

/-! # C37: conversion between UTF-16 and UTF-8

The specification of UTF-8 is Lean's `String.utf8EncodeChar`; UTF-16 is defined here. -/

namespace Moment.C37

open Utf

/-- The UTF-16 units of a character. -/
def utf16 (c : Char) : List Nat :=
  if c.toNat < 0x10000 then [c.toNat] else [0xd800 + (c.toNat - 0x10000) / 0x400, 0xdc00 + (c.toNat - 0x10000) % 0x400]

/-- The UTF-8 bytes of a character. -/
def utf8 (c : Char) : List Nat := (String.utf8EncodeChar c).map UInt8.toNat

/-- Characters outside the last plane. -/
def Low (cs : List Char) : Prop := ∀ c ∈ cs, c.toNat < 0x100000

/-- The character U+007F. -/
def del : Char := Char.ofNat 0x7f

/-! ## Masks as arithmetic -/

theorem mask (x k s : Nat) : x &&& ((2 ^ k - 1) <<< s) = x / 2 ^ s % 2 ^ k * 2 ^ s := by
  apply Nat.eq_of_testBit_eq
  intro i
  rw [Nat.testBit_and, Nat.testBit_shiftLeft, Nat.testBit_mul_two_pow, Nat.testBit_mod_two_pow, Nat.testBit_div_two_pow, Nat.testBit_two_pow_sub_one]
  by_cases h : s ≤ i
  · simp only [h, decide_true, Bool.true_and, ge_iff_le, Nat.sub_add_cancel h]
    rw [Bool.and_comm]
  · simp [h]

theorem mask' (x k s : Nat) : ((2 ^ k - 1) <<< s) &&& x = x / 2 ^ s % 2 ^ k * 2 ^ s := by rw [Nat.and_comm, mask]

theorem or_eq (a b i : Nat) (h : b < 2 ^ i) : a * 2 ^ i ||| b = a * 2 ^ i + b := by
  rw [← Nat.shiftLeft_eq, Nat.shiftLeft_add_eq_or_of_lt h]

theorem m7f (x : Nat) : x &&& 0x7f = x % 128 := by simpa using mask x 7 0
theorem m3f (x : Nat) : x &&& 0x3f = x % 64 := by simpa using mask x 6 0
theorem m3f' (x : Nat) : 0x3f &&& x = x % 64 := by simpa using mask' x 6 0
theorem m3ff (x : Nat) : x &&& 0x3ff = x % 1024 := by simpa using mask x 10 0
theorem m03 (x : Nat) : x &&& 0x3 = x % 4 := by simpa using mask x 2 0
theorem m0f (x : Nat) : x &&& 0xf = x % 16 := by simpa using mask x 4 0
theorem m1f' (x : Nat) : 0x1f &&& x = x % 32 := by simpa using mask' x 5 0
theorem m80 (x : Nat) : x &&& 0x80 = x / 128 % 2 * 128 := by simpa using mask x 1 7
theorem me0 (x : Nat) : x &&& 0xe0 = x / 32 % 8 * 32 := by simpa using mask x 3 5
theorem mf0 (x : Nat) : x &&& 0xf0 = x / 16 % 16 * 16 := by simpa using mask x 4 4
theorem mf8 (x : Nat) : x &&& 0xf8 = x / 8 % 32 * 8 := by simpa using mask x 5 3
theorem mf800 (x : Nat) : x &&& 0xf800 = x / 2048 % 32 * 2048 := by simpa using mask x 5 11
theorem mfc00 (x : Nat) : x &&& 0xfc00 = x / 1024 % 64 * 1024 := by simpa using mask x 6 10
theorem m300 (x : Nat) : (x &&& 0x300) >>> 8 = x / 256 % 4 := by
  rw [show x &&& 0x300 = x / 256 % 4 * 256 by simpa using mask x 2 8, Nat.shiftRight_eq_div_pow]; omega
theorem mfc (x : Nat) : (x &&& 0xfc) >>> 2 = x / 4 % 64 := by
  rw [show x &&& 0xfc = x / 4 % 64 * 4 by simpa using mask x 6 2, Nat.shiftRight_eq_div_pow]; omega
theorem m3c0 (x : Nat) : (x &&& 0x3c0) >>> 6 = x / 64 % 16 := by
  rw [show x &&& 0x3c0 = x / 64 % 16 * 64 by simpa using mask x 4 6, Nat.shiftRight_eq_div_pow]; omega
theorem m7c0' (x : Nat) : (0x7c0 &&& x) >>> 6 = x / 64 % 32 := by
  rw [show 0x7c0 &&& x = x / 64 % 32 * 64 by simpa using mask' x 5 6, Nat.shiftRight_eq_div_pow]; omega
theorem mfc0' (x : Nat) : (0xfc0 &&& x) >>> 6 = x / 64 % 64 := by
  rw [show 0xfc0 &&& x = x / 64 % 64 * 64 by simpa using mask' x 6 6, Nat.shiftRight_eq_div_pow]; omega
theorem mf000' (x : Nat) : (0xf000 &&& x) >>> 12 = x / 4096 % 16 := by
  rw [show 0xf000 &&& x = x / 4096 % 16 * 4096 by simpa using mask' x 4 12, Nat.shiftRight_eq_div_pow]; omega
theorem m30 (x : Nat) : (x &&& 0x30) >>> 4 = x / 16 % 4 := by
  rw [show x &&& 0x30 = x / 16 % 4 * 16 by simpa using mask x 2 4, Nat.shiftRight_eq_div_pow]; omega

theorem o80 {b : Nat} (h : b < 64) : 0x80 ||| b = 0x80 + b := or_eq 2 b 6 h
theorem oc0 {b : Nat} (h : b < 32) : 0xc0 ||| b = 0xc0 + b := or_eq 6 b 5 h
theorem oe0 {b : Nat} (h : b < 16) : 0xe0 ||| b = 0xe0 + b := or_eq 14 b 4 h
theorem of0 {b : Nat} (h : b < 4) : 0xf0 ||| b = 0xf0 + b := or_eq 60 b 2 h

/-! ## Single characters -/

theorem char_valid (c : Char) : c.toNat < 0xd800 ∨ (0xdfff < c.toNat ∧ c.toNat < 0x110000) := by
  have := c.valid
  simpa [UInt32.isValidChar, Nat.isValidChar] using this

theorem utf8_eq (c : Char) : utf8 c =
    if c.toNat ≤ 0x7f then [c.toNat]
    else if c.toNat ≤ 0x7ff then [c.toNat / 64 + 0xc0, c.toNat % 64 + 0x80]
    else if c.toNat ≤ 0xffff then [c.toNat / 4096 + 0xe0, c.toNat / 64 % 64 + 0x80, c.toNat % 64 + 0x80]
    else [c.toNat / 262144 + 0xf0, c.toNat / 4096 % 64 + 0x80, c.toNat / 64 % 64 + 0x80, c.toNat % 64 + 0x80] := by
  have hv := char_valid c
  unfold utf8 String.utf8EncodeChar
  have e : c.val.toNat = c.toNat := rfl
  simp only [e]
  split
  · simp only [List.map_cons, List.map_nil, UInt8.toNat_ofNat']
    congr 1; omega
  · split
    · simp only [List.map_cons, List.map_nil, UInt8.toNat_ofNat', List.cons.injEq, and_true]
      omega
    · split
      · simp only [List.map_cons, List.map_nil, UInt8.toNat_ofNat', List.cons.injEq, and_true]
        omega
      · simp only [List.map_cons, List.map_nil, UInt8.toNat_ofNat', List.cons.injEq, and_true]
        omega

theorem unit8_eq (c : Char) (h : c.toNat < 0x10000) : unit8 c.toNat = utf8 c := by
  rw [utf8_eq]
  unfold unit8
  split
  · rw [m7f, Nat.mod_eq_of_lt (by omega)]
  · split
    · rw [m7c0', m3f', oc0 (by omega), o80 (by omega)]
      simp only [List.cons.injEq, and_true]; omega
    · rw [if_pos (by omega), mf000', mfc0', m3f', oe0 (by omega), o80 (by omega), o80 (by omega)]
      simp only [List.cons.injEq, and_true]; omega

theorem pair8_eq (c : Char) (h : ¬ c.toNat < 0x10000) (h' : c.toNat < 0x100000) :
    pair8 (0xd800 + (c.toNat - 0x10000) / 0x400) (0xdc00 + (c.toNat - 0x10000) % 0x400) = utf8 c := by
  rw [utf8_eq, if_neg (by omega), if_neg (by omega), if_neg (by omega)]
  unfold pair8
  dsimp only
  generalize c.toNat = v at *
  rw [m3ff, m300, mfc, m03, m3c0, m3f, of0 (by omega), o80 (by omega), o80 (by omega), Nat.shiftLeft_eq]
  have : 0x80 + (((0xd800 + (v - 0x10000) / 0x400) % 1024 + 0x40) % 4 * 2 ^ 4) = (8 + ((0xd800 + (v - 0x10000) / 0x400) % 1024 + 0x40) % 4) * 2 ^ 4 := by
    omega
  rw [this, or_eq _ _ 4 (by omega), o80 (by omega)]
  simp only [List.cons.injEq, and_true]
  omega

theorem emit8_single {x : Nat} (h : x < 0x10000) (h' : x < 0xd800 ∨ 0xdfff < x) (w : List Nat) : emit8 (x :: w) = unit8 x ++ emit8 w := by
  have hm : (x &&& 0xf800) ≠ 0xd800 := by rw [mf800]; omega
  cases w with
  | nil => simp [emit8, hm]
  | cons y w => rw [emit8, if_pos hm]

theorem emit8_pair {x y : Nat} (h : 0xd800 ≤ x ∧ x < 0xdc00) (h' : 0xdc00 ≤ y ∧ y < 0xe000) (w : List Nat) :
    emit8 (x :: y :: w) = pair8 x y ++ emit8 w := by
  rw [emit8, if_neg (by rw [mf800]; omega), if_pos]
  rw [mfc00, mfc00]; omega

theorem emit8_eq (cs : List Char) (h : Low cs) : emit8 (cs.flatMap utf16) = cs.flatMap utf8 := by
  induction cs with
  | nil => rfl
  | cons c cs ih =>
    have hv := char_valid c
    have hc := h c (by simp)
    rw [List.flatMap_cons, List.flatMap_cons, ← ih fun x hx => h x (by simp [hx])]
    unfold utf16
    split
    · rename_i h'
      rw [List.singleton_append, emit8_single h' (by omega), unit8_eq c h']
    · rename_i h'
      rw [List.cons_append, List.singleton_append, emit8_pair (by omega) (by omega), pair8_eq c h' hc]

theorem size8_append (a b : List Nat) : size8 (a ++ b) = size8 a + size8 b := by
  induction a with
  | nil => simp [size8]
  | cons x a ih => simp only [List.cons_append, size8, ih]; omega

theorem del_toNat : del.toNat = 0x7f := rfl

theorem size8_char (c : Char) : size8 (utf16 c) = (utf8 c).length + if c = del then 1 else 0 := by
  have hv := char_valid c
  have hd : c = del ↔ c.toNat = 0x7f := ⟨fun h => by rw [h, del_toNat], fun h => Char.ext (UInt32.toNat_inj.mp h)⟩
  rw [utf8_eq]
  simp only [hd]
  unfold utf16
  split
  · simp only [size8]
    split_ifs <;> simp <;> omega
  · simp only [size8]
    split_ifs <;> first | omega | simp

theorem size8_eq (cs : List Char) : size8 (cs.flatMap utf16) = (cs.flatMap utf8).length + cs.count del := by
  induction cs with
  | nil => rfl
  | cons c cs ih =>
    rw [List.flatMap_cons, size8_append, ih, size8_char, List.flatMap_cons, List.length_append, List.count_cons]
    simp only [beq_iff_eq]
    split_ifs <;> omega

theorem size8_ge (w : List Nat) : w.length ≤ size8 w := by
  induction w with
  | nil => simp
  | cons x w ih => simp only [size8, List.length_cons]; split_ifs <;> omega

theorem ascii8 : ∀ w : List Nat, w.length = size8 w → ∀ x ∈ w, x < 0x7f := by
  intro w
  induction w with
  | nil => simp
  | cons x w ih =>
    intro h
    have := size8_ge w
    simp only [size8, List.length_cons] at h
    have h1 : x < 0x7f := by by_contra hx; rw [if_neg hx] at h; split_ifs at h <;> omega
    rw [if_pos h1] at h
    intro y hy
    rcases List.mem_cons.mp hy with rfl | hy
    · exact h1
    · exact ih (by omega) y hy

/-- **C37 (partial).** UTF-16 to UTF-8 outside the last plane: the result is the UTF-8 encoding of the text, followed by one zero byte for every
character U+007F. -/
theorem C37_to_utf8_partial (cs : List Char) (h : Low cs) :
    convert8 (cs.flatMap utf16) = some (cs.flatMap utf8 ++ List.replicate (cs.count del) 0) := by
  unfold convert8
  split
  · rename_i hlen
    have hall := ascii8 _ hlen
    have hc : ∀ c ∈ cs, c.toNat < 0x7f := by
      intro c hc
      have := hall
      by_cases h' : c.toNat < 0x10000
      · exact hall _ (List.mem_flatMap.mpr ⟨c, hc, by simp [utf16, h']⟩)
      · have := hall (0xd800 + (c.toNat - 0x10000) / 0x400) (List.mem_flatMap.mpr ⟨c, hc, by simp [utf16, h']⟩)
        omega
    have hcount : cs.count del = 0 := List.count_eq_zero.mpr fun hd => by have := hc _ hd; rw [del_toNat] at this; omega
    rw [hcount, List.replicate_zero, List.append_nil]
    congr 1
    clear hlen hall h hcount
    induction cs with
    | nil => rfl
    | cons c cs ih =>
      have := hc c (by simp)
      rw [List.flatMap_cons, List.flatMap_cons, List.map_append, ih fun x hx => hc x (by simp [hx]), utf8_eq, if_pos (by omega)]
      simp only [utf16, if_pos (show c.toNat < 0x10000 by omega), List.map_cons, List.map_nil]
      rw [m7f, Nat.mod_eq_of_lt (by omega)]
  · rw [emit8_eq cs h, size8_eq, fill, if_pos (by omega), Nat.add_sub_cancel_left]

example : Low "añ€😀".toList := by unfold Low; decide +kernel

/-- **C37 (violated).** U+007F is counted as two bytes, so the converted text ends in a zero byte. -/
theorem C37_refuted_delete : convert8 (utf16 del) = some [0x7f, 0] ∧ utf8 del = [0x7f] := by decide +kernel

/-- **C37 (violated).** Characters of the last plane get a wrong first byte: the result is an overlong encoding of U+0000. -/
theorem C37_refuted_last_plane : convert8 (utf16 (Char.ofNat 0x100000)) = some [0xf0, 0x80, 0x80, 0x80] ∧
    utf8 (Char.ofNat 0x100000) = [0xf4, 0x80, 0x80, 0x80] := by decide +kernel

/-- **C37 (violated).** In the other direction the third bit of the first byte is dropped, and the result is not valid UTF-16. -/
theorem C37_refuted_last_plane_back : convert16 (utf8 (Char.ofNat 0x100000)) = some [0xd7c0, 0xdc00] ∧
    utf16 (Char.ofNat 0x100000) = [0xdbc0, 0xdc00] := by
  refine ⟨?_, by decide +kernel⟩
  rw [show utf8 (Char.ofNat 0x100000) = [0xf4, 0x80, 0x80, 0x80] by decide +kernel]
  simp [convert16, size16, emit16, fill]

theorem emit16_char (c : Char) (hc : c.toNat < 0x100000) (w : List Nat) : emit16 (utf8 c ++ w) = utf16 c ++ emit16 w := by
  have hv := char_valid c
  rw [utf8_eq]
  unfold utf16
  split
  · rename_i h
    rw [List.singleton_append, emit16.eq_def]
    dsimp only
    rw [if_pos (by rw [m80]; omega), if_pos (by omega)]; rfl
  · rename_i h
    split
    · rename_i h2
      rw [List.cons_append, List.singleton_append, emit16.eq_def]
      dsimp only
      rw [if_neg (by rw [m80]; omega), if_pos (by rw [me0]; omega), if_pos (by omega)]
      rw [m1f', m3f', Nat.shiftLeft_eq, or_eq _ _ 6 (by omega)]
      simp only [List.cons_append, List.nil_append, List.cons.injEq, and_true]; omega
    · split
      · rename_i h2 h3
        simp only [List.cons_append, List.nil_append]
        rw [emit16.eq_def]
        dsimp only
        rw [if_neg (by rw [m80]; omega), if_neg (by rw [me0]; omega), if_pos (by rw [mf0]; omega), if_pos (by omega)]
        rw [m0f, m3f, m3f, Nat.shiftLeft_eq, Nat.shiftLeft_eq, or_eq _ ((c.toNat / 64 % 64 + 0x80) % 64 * 2 ^ 6) 12 (by omega),
          show (c.toNat / 4096 + 0xe0) % 16 * 2 ^ 12 + (c.toNat / 64 % 64 + 0x80) % 64 * 2 ^ 6 =
            ((c.toNat / 4096 + 0xe0) % 16 * 2 ^ 6 + (c.toNat / 64 % 64 + 0x80) % 64) * 2 ^ 6 by omega, or_eq _ _ 6 (by omega)]
        simp only [List.cons_append, List.nil_append, List.cons.injEq, and_true]; omega
      · rename_i h2 h3
        simp only [List.cons_append, List.nil_append]
        rw [emit16.eq_def]
        dsimp only
        rw [if_neg (by rw [m80]; omega), if_neg (by rw [me0]; omega), if_neg (by rw [mf0]; omega), if_pos (by rw [mf8]; omega),
          if_neg (by omega)]
        generalize c.toNat = v at *
        rw [m03, m3f, m3f, m3f, m0f, m30, Nat.shiftLeft_eq, Nat.shiftLeft_eq, Nat.shiftLeft_eq]
        have e1 : 0xd800 ||| (v / 262144 + 0xf0) % 4 * 2 ^ 8 = (0xd8 + (v / 262144 + 0xf0) % 4) * 2 ^ 8 := by
          rw [show 0xd800 = 0x36 * 2 ^ 10 by rfl, or_eq _ _ 10 (by omega)]; omega
        have e2 : (0xd8 + (v / 262144 + 0xf0) % 4) * 2 ^ 8 ||| (v / 4096 % 64 + 0x80) % 64 * 2 ^ 2 =
            ((0xd8 + (v / 262144 + 0xf0) % 4) * 64 + (v / 4096 % 64 + 0x80) % 64) * 2 ^ 2 := by
          rw [or_eq _ _ 8 (by omega)]; omega
        have e3 : 0xdc00 ||| (v / 64 % 64 + 0x80) % 64 % 16 * 2 ^ 6 = (0x370 + (v / 64 % 64 + 0x80) % 64 % 16) * 2 ^ 6 := by
          rw [show 0xdc00 = 0x37 * 2 ^ 10 by rfl, or_eq _ _ 10 (by omega)]; omega
        rw [e1, e2, e3, or_eq _ _ 2 (by omega), or_eq _ _ 6 (by omega)]
        refine congrArg₂ List.cons ?_ (congrArg₂ List.cons ?_ rfl) <;> omega

theorem size16_char (c : Char) (w : List Nat) : size16 (utf8 c ++ w) = (utf16 c).length + size16 w := by
  have hv := char_valid c
  rw [utf8_eq]
  unfold utf16
  split
  · rw [List.singleton_append, size16, if_pos (by rw [m80]; omega), if_pos (by omega)]; rfl
  · split
    · simp only [List.cons_append, List.nil_append]
      rw [size16, if_neg (by rw [m80]; omega), if_pos (by rw [me0]; omega), if_pos (by omega)]; rfl
    · split
      · simp only [List.cons_append, List.nil_append]
        rw [size16, if_neg (by rw [m80]; omega), if_neg (by rw [me0]; omega), if_pos (by rw [mf0]; omega), if_pos (by omega)]; rfl
      · simp only [List.cons_append, List.nil_append]
        rw [size16, if_neg (by rw [m80]; omega), if_neg (by rw [me0]; omega), if_neg (by rw [mf0]; omega), if_pos (by rw [mf8]; omega),
          if_neg (by omega)]; rfl

/-- **C37 (partial).** UTF-8 to UTF-16 outside the last plane gives the UTF-16 encoding of the text. -/
theorem C37_to_utf16_partial (cs : List Char) (h : Low cs) : convert16 (cs.flatMap utf8) = some (cs.flatMap utf16) := by
  have hs : ∀ cs : List Char, size16 (cs.flatMap utf8) = (cs.flatMap utf16).length := by
    intro cs
    induction cs with
    | nil => simp [size16]
    | cons c cs ih => rw [List.flatMap_cons, size16_char, ih, List.flatMap_cons, List.length_append]
  have he : ∀ cs : List Char, Low cs → emit16 (cs.flatMap utf8) = cs.flatMap utf16 := by
    intro cs
    induction cs with
    | nil => intro _; simp [emit16]
    | cons c cs ih =>
      intro h
      rw [List.flatMap_cons, emit16_char c (h c (by simp)), ih fun x hx => h x (by simp [hx]), List.flatMap_cons]
  unfold convert16
  split
  · rename_i hlen
    rw [hs] at hlen
    -- every character has one byte
    have hle : ∀ c : Char, (utf16 c).length ≤ (utf8 c).length ∧ ((utf16 c).length = (utf8 c).length → c.toNat ≤ 0x7f) := by
      intro c
      rw [utf8_eq]
      unfold utf16
      split_ifs <;> simp <;> omega
    have hall : ∀ cs : List Char, (cs.flatMap utf16).length ≤ (cs.flatMap utf8).length ∧
        ((cs.flatMap utf8).length = (cs.flatMap utf16).length → ∀ c ∈ cs, c.toNat ≤ 0x7f) := by
      intro cs
      induction cs with
      | nil => simp
      | cons c cs ih =>
        have hc := hle c
        simp only [List.flatMap_cons, List.length_append]
        refine ⟨by omega, fun e x hx => ?_⟩
        rcases List.mem_cons.mp hx with rfl | hx
        · exact hc.2 (by omega)
        · exact ih.2 (by omega) x hx
    have hc := (hall cs).2 hlen
    congr 1
    clear hlen h
    induction cs with
    | nil => rfl
    | cons c cs ih =>
      have := hc c (by simp)
      rw [List.flatMap_cons, List.flatMap_cons, List.map_append, ih fun x hx => hc x (by simp [hx]), utf8_eq, if_pos (by omega)]
      simp only [utf16, if_pos (show c.toNat < 0x10000 by omega), List.map_cons, List.map_nil]
      rw [m7f, Nat.mod_eq_of_lt (by omega)]
  · rw [he cs h, hs, fill, if_pos le_rfl, Nat.sub_self, List.replicate_zero, List.append_nil]

/-- **C37 (partial).** Back and forth. -/
theorem C37_round_trip_partial (cs : List Char) (h : Low cs) (hd : del ∉ cs) :
    (convert8 (cs.flatMap utf16)).bind convert16 = some (cs.flatMap utf16) ∧ (convert16 (cs.flatMap utf8)).bind convert8 = some (cs.flatMap utf8) := by
  have h8 := C37_to_utf8_partial cs h
  rw [List.count_eq_zero.mpr hd, List.replicate_zero, List.append_nil] at h8
  have h16 := C37_to_utf16_partial cs h
  rw [h8, h16]
  exact ⟨h16, h8⟩

example : Low "añ€😀".toList ∧ del ∉ "añ€😀".toList := by unfold Low; decide +kernel

theorem emit8_size (w : List Nat) (hw : ∀ x ∈ w, x < 0x10000) : (emit8 w).length ≤ size8 w := by
  have hu : ∀ x, x < 0x10000 → (x &&& 0xf800) ≠ 0xd800 → (unit8 x).length ≤ size8 [x] := by
    intro x hx hm
    rw [mf800] at hm
    simp only [unit8, size8]
    split_ifs <;> simp <;> omega
  have hs : ∀ x, x < 0x10000 → (x &&& 0xf800) = 0xd800 → 0xd800 ≤ x ∧ x ≤ 0xdfff := fun x hx hm => by rw [mf800] at hm; omega
  have hs2 : ∀ x, 0xd800 ≤ x ∧ x ≤ 0xdfff → size8 [x] = 2 := by
    intro x hx
    simp only [size8]
    split_ifs <;> omega
  have hcons : ∀ x w, size8 (x :: w) = size8 [x] + size8 w := fun x w => size8_append [x] w
  fun_induction emit8 w with
  | case1 => simp
  | case2 src h => exact hu _ (hw _ (by simp)) h
  | case3 src h => rw [hs2 _ (hs _ (hw _ (by simp)) (by simpa using h))]; rfl
  | case4 src low w h ih =>
    rw [List.length_append, hcons]
    exact Nat.add_le_add (hu _ (hw _ (by simp)) h) (ih fun x hx => hw x (List.mem_cons_of_mem _ hx))
  | case5 src low w h h2 ih =>
    have h1 := hs src (hw src (by simp)) (by simpa using h)
    have h3 : 0xd800 ≤ low ∧ low ≤ 0xdfff := by
      have := h2.2
      have hlow := hw low (by simp)
      rw [mfc00] at this; omega
    rw [List.length_append, hcons, hcons low, hs2 _ h1, hs2 _ h3]
    have := ih fun x hx => hw x (List.mem_cons_of_mem _ (List.mem_cons_of_mem _ hx))
    have hp : (pair8 src low).length = 4 := rfl
    omega
  | case6 src low w h h2 ih =>
    have h1 := hs src (hw src (by simp)) (by simpa using h)
    rw [List.length_append, hcons, hs2 _ h1]
    have := ih fun x hx => hw x (List.mem_cons_of_mem _ hx)
    simp only [List.length_cons, List.length_nil]; omega

theorem emit16_size (w : List Nat) : (emit16 w).length ≤ size16 w := by
  fun_induction emit16 w with
  | case1 => simp
  | case2 src w h ih => rw [size16, if_pos h, List.length_cons]; omega
  | case3 src h1 h2 lo w ih => rw [size16, if_neg h1, if_pos h2, List.length_cons, List.drop_one, List.tail_cons]; omega
  | case4 => simp
  | case5 src h1 h2 h3 mid lo w ih =>
    rw [size16, if_neg h1, if_neg h2, if_pos h3, List.length_cons]
    simp only [List.drop_succ_cons, List.drop_zero]; omega
  | case6 => simp
  | case7 src h1 h2 h3 h4 c2 c3 c4 w b1 b2 b3 b4 ih =>
    rw [size16, if_neg h1, if_neg h2, if_neg h3, if_pos h4, List.length_cons, List.length_cons]
    simp only [List.drop_succ_cons, List.drop_zero]; omega
  | case8 => simp
  | case9 src w h1 h2 h3 h4 ih => rw [size16, if_neg h1, if_neg h2, if_neg h3, if_neg h4]; omega

/-- **C37.** No input, however malformed, makes the convertors write past the end of their output. -/
theorem C37_no_overrun (w : List Nat) : ((∀ x ∈ w, x < 0x10000) → ∃ s, convert8 w = some s ∧ s.length = size8 w) ∧
    ∃ s, convert16 w = some s ∧ s.length = size16 w := by
  constructor
  · intro hw
    unfold convert8
    split
    · rename_i h; exact ⟨_, rfl, by simpa using h⟩
    · have := emit8_size w hw
      exact ⟨_, by rw [fill, if_pos this], by simp; omega⟩
  · unfold convert16
    split
    · rename_i h; exact ⟨_, rfl, by simpa using h⟩
    · have := emit16_size w
      exact ⟨_, by rw [fill, if_pos this], by simp; omega⟩

example : ∀ x ∈ [0xd800, 0x41, 0xdc00], x < 0x10000 := by decide

end Moment.C37
