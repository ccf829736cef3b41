import Verif.Proofs.Utf8

set_option linter.unusedVariables false

/-!
# The UTF-8 codec of the model is the one of Lean's library

`Verif/Model/Utf8.lean` is part of the trusted base.  Here it is compared with the definition in
Lean's core library, which was written by others and for another purpose.
-/

namespace Gaspra

/-- The code points that can be encoded are those of the characters of Lean. -/
theorem isScalar_iff_char (c : Nat) : isScalar c = true ↔ ∃ x : Char, x.toNat = c := by
  have h : isScalar c = true ↔ c.isValidChar := by
    simp only [isScalar, Nat.isValidChar, Bool.or_eq_true, Bool.and_eq_true, decide_eq_true_eq]
    omega
  rw [h]
  constructor
  · intro v
    exact ⟨Char.ofNatAux c v, by simp [Char.toNat, Char.ofNatAux, UInt32.toNat]⟩
  · rintro ⟨x, rfl⟩
    exact x.valid

/-- One character is encoded as in Lean's library. -/
theorem utf8EncodeCp_eq_core (x : Char) :
    utf8EncodeCp x.toNat = some (String.utf8EncodeChar x) := by
  have hs := (isScalar_iff_char x.toNat).2 ⟨x, rfl⟩
  have hb : x.toNat < 0x110000 := by
    simp only [isScalar, Bool.or_eq_true, Bool.and_eq_true, decide_eq_true_eq] at hs
    omega
  unfold utf8EncodeCp String.utf8EncodeChar
  rw [if_pos hs]
  show _ = some (if x.toNat ≤ 0x7f then _ else if x.toNat ≤ 0x7ff then _
    else if x.toNat ≤ 0xffff then _ else _)
  simp only [show x.val.toNat = x.toNat from rfl]
  generalize x.toNat = n at hb hs
  have e1 : n < 0x80 ↔ n ≤ 0x7f := by omega
  have e2 : n < 0x800 ↔ n ≤ 0x7ff := by omega
  have e3 : n < 0x10000 ↔ n ≤ 0xffff := by omega
  simp only [e1, e2, e3]
  split
  · rfl
  split
  · rw [show 0xC0 + n / 64 = n / 64 % 32 + 0xC0 by omega, Nat.add_comm 0x80]
  split
  · rw [show 0xE0 + n / 4096 = n / 4096 % 16 + 0xE0 by omega, Nat.add_comm 0x80, Nat.add_comm 0x80]
  · rw [show 0xF0 + n / 262144 = n / 262144 % 8 + 0xF0 by omega, Nat.add_comm 0x80,
      Nat.add_comm 0x80, Nat.add_comm 0x80]

/-- A text is encoded as in Lean's library. -/
theorem utf8Encode_eq_core (s : String) :
    utf8Encode (s.toList.map Char.toNat) = some s.toUTF8.data.toList := by
  have key : ∀ l : List Char, utf8Encode (l.map Char.toNat) = some (l.flatMap String.utf8EncodeChar) := by
    intro l
    induction l with
    | nil => rfl
    | cons x l ih =>
      simp only [List.map_cons, utf8Encode, utf8EncodeCp_eq_core, ih, List.flatMap_cons]
  rw [key]
  have : s.toUTF8 = s.toList.utf8Encode := by simp
  rw [this, List.utf8Encode]
  simp

/-- The bytes that are decoded are those that are valid UTF-8 for Lean's library, and to the same
text. -/
theorem utf8Decode_eq_core (b : Bytes) (s : String) :
    utf8Decode b = some (s.toList.map Char.toNat) ↔ s.toUTF8.data.toList = b := by
  rw [utf8_iff, utf8Encode_eq_core]
  simp

/-- Other texts cannot be encoded, and nothing else is decoded. -/
theorem utf8Decode_core_text {b : Bytes} {t : PyStr} (h : utf8Decode b = some t) :
    ∃ s : String, t = s.toList.map Char.toNat ∧ s.toUTF8.data.toList = b := by
  have hs := utf8Encode_isSome.1 ⟨b, utf8_iff.1 h⟩
  have : ∃ l : List Char, t = l.map Char.toNat := by
    clear h
    induction t with
    | nil => exact ⟨[], rfl⟩
    | cons c t ih =>
      obtain ⟨x, hx⟩ := (isScalar_iff_char c).1 (hs c (by simp))
      obtain ⟨l, hl⟩ := ih fun d hd => hs d (by simp [hd])
      exact ⟨x :: l, by simp [hx, hl]⟩
  obtain ⟨l, rfl⟩ := this
  refine ⟨String.ofList l, by simp, ?_⟩
  exact (utf8Decode_eq_core b (String.ofList l)).1 (by simpa using h)

end Gaspra
