import Verif.Model.Utf8

set_option linter.unusedSectionVars false
set_option linter.unusedSimpArgs false
set_option linter.unusedVariables false

/-! # Facts about the UTF-8 codec -/

namespace Gaspra

theorem isScalar_iff {c : Nat} : isScalar c = true ↔ c < 0xD800 ∨ (0xE000 ≤ c ∧ c < 0x110000) := by
  simp [isScalar]

theorem isScalar_lt {c : Nat} (h : isScalar c = true) : c < 0x110000 := by
  rw [isScalar_iff] at h; omega

theorem utf8EncodeCp_isSome {c : Nat} : (∃ b, utf8EncodeCp c = some b) ↔ isScalar c = true := by
  unfold utf8EncodeCp
  constructor
  · rintro ⟨b, h⟩
    split at h
    · assumption
    · cases h
  · intro h
    rw [if_pos h]
    split
    · exact ⟨_, rfl⟩
    · split
      · exact ⟨_, rfl⟩
      · split
        · exact ⟨_, rfl⟩
        · exact ⟨_, rfl⟩

theorem toNat_ofNat_lt {n : Nat} (h : n < 256) : (UInt8.ofNat n).toNat = n := by
  rw [UInt8.toNat_ofNat']; exact Nat.mod_eq_of_lt h

theorem contBits_ofNat {n : Nat} (h : n < 64) : contBits (UInt8.ofNat (0x80 + n)) = some n := by
  unfold contBits
  have e : (UInt8.ofNat (0x80 + n)).toNat = 0x80 + n := toNat_ofNat_lt (by omega)
  rw [e, if_pos ⟨by omega, by omega⟩, Nat.add_sub_cancel_left]

theorem contBits_some {b : UInt8} {x : Nat} (h : contBits b = some x) :
    x < 64 ∧ b = UInt8.ofNat (0x80 + x) := by
  unfold contBits at h
  split at h
  · next hb =>
    simp only [Option.some.injEq] at h
    subst h
    refine ⟨by omega, ?_⟩
    apply UInt8.toNat_inj.1
    rw [toNat_ofNat_lt (by omega)]
    omega
  · cases h

theorem utf8Head_encode {c : Nat} {b r : Bytes} (h : utf8EncodeCp c = some b) :
    utf8Head (b ++ r) = some (c, r) := by
  have hs : isScalar c = true := utf8EncodeCp_isSome.1 ⟨b, h⟩
  have hlt := isScalar_lt hs
  unfold utf8EncodeCp at h
  rw [if_pos hs] at h
  split at h
  · next h1 =>
    cases h
    simp only [List.cons_append, List.nil_append, utf8Head]
    rw [toNat_ofNat_lt (by omega), if_pos h1]
  · split at h
    · next h1 h2 =>
      cases h
      simp only [List.cons_append, List.nil_append, utf8Head]
      rw [toNat_ofNat_lt (by omega), if_neg (by omega), if_neg (by omega), if_pos (by omega)]
      rw [contBits_ofNat (by omega)]
      dsimp only
      have e : (192 + c / 64 - 192) * 64 + c % 64 = c := by omega
      rw [e, if_pos (by omega)]
    · split at h
      · next h1 h2 h3 =>
        cases h
        simp only [List.cons_append, List.nil_append, utf8Head]
        rw [toNat_ofNat_lt (by omega), if_neg (by omega), if_neg (by omega), if_neg (by omega),
          if_pos (by omega)]
        rw [contBits_ofNat (by omega), contBits_ofNat (by omega)]
        dsimp only
        have e : (224 + c / 4096 - 224) * 4096 + c / 64 % 64 * 64 + c % 64 = c := by omega
        rw [e, if_pos ⟨by omega, hs⟩]
      · next h1 h2 h3 =>
        cases h
        simp only [List.cons_append, List.nil_append, utf8Head]
        rw [toNat_ofNat_lt (by omega), if_neg (by omega), if_neg (by omega), if_neg (by omega),
          if_neg (by omega), if_pos (by omega)]
        rw [contBits_ofNat (by omega), contBits_ofNat (by omega), contBits_ofNat (by omega)]
        dsimp only
        have e : (240 + c / 262144 - 240) * 262144 + c / 4096 % 64 * 4096 + c / 64 % 64 * 64 +
          c % 64 = c := by omega
        rw [e, if_pos ⟨by omega, hs⟩]

theorem utf8Head_some {b r : Bytes} {c : Nat} (h : utf8Head b = some (c, r)) :
    ∃ e, utf8EncodeCp c = some e ∧ b = e ++ r := by
  have ofNat_self : ∀ (b : UInt8) (n : Nat), b.toNat = n → UInt8.ofNat n = b := by
    intro b n h; subst h; exact UInt8.ofNat_toNat
  cases b with
  | nil => simp [utf8Head] at h
  | cons b0 r0 =>
    have hb0 := b0.toNat_lt
    simp only [utf8Head] at h
    split at h
    · next h1 =>
      simp only [Option.some.injEq, Prod.mk.injEq] at h
      obtain ⟨rfl, rfl⟩ := h
      refine ⟨[b0], ?_, rfl⟩
      unfold utf8EncodeCp
      rw [if_pos (isScalar_iff.2 (by omega)), if_pos h1, ofNat_self b0 _ rfl]
    · split at h
      · cases h
      · split at h
        · next h1 h2 h3 =>
          cases r0 with
          | nil => simp at h
          | cons b1 r1 =>
            dsimp only at h
            cases hx1 : contBits b1 with
            | none => simp [hx1] at h
            | some x1 =>
              obtain ⟨l1, rfl⟩ := contBits_some hx1
              simp only [hx1] at h
              split at h
              · next h4 =>
                simp only [Option.some.injEq, Prod.mk.injEq] at h
                obtain ⟨rfl, rfl⟩ := h
                refine ⟨[b0, UInt8.ofNat (0x80 + x1)], ?_, rfl⟩
                unfold utf8EncodeCp
                rw [if_pos (isScalar_iff.2 (by omega)), if_neg (by omega), if_pos (by omega)]
                rw [ofNat_self b0 _ (by omega)]
                have : ((b0.toNat - 192) * 64 + x1) % 64 = x1 := by omega
                rw [this]
              · cases h
        · split at h
          · next h1 h2 h3 h4 =>
            match r0, h with
            | b1 :: b2 :: r2, h =>
              dsimp only at h
              cases hx1 : contBits b1 with
              | none => simp [hx1] at h
              | some x1 =>
                cases hx2 : contBits b2 with
                | none => simp [hx1, hx2] at h
                | some x2 =>
                  obtain ⟨l1, rfl⟩ := contBits_some hx1
                  obtain ⟨l2, rfl⟩ := contBits_some hx2
                  simp only [hx1, hx2] at h
                  split at h
                  · next h5 =>
                    simp only [Option.some.injEq, Prod.mk.injEq] at h
                    obtain ⟨rfl, rfl⟩ := h
                    refine ⟨[b0, UInt8.ofNat (0x80 + x1), UInt8.ofNat (0x80 + x2)], ?_, rfl⟩
                    unfold utf8EncodeCp
                    rw [if_pos h5.2, if_neg (by omega), if_neg (by omega), if_pos (by omega)]
                    rw [ofNat_self b0 _ (by omega)]
                    have e1 : ((b0.toNat - 224) * 4096 + x1 * 64 + x2) / 64 % 64 = x1 := by omega
                    have e2 : ((b0.toNat - 224) * 4096 + x1 * 64 + x2) % 64 = x2 := by omega
                    rw [e1, e2]
                  · cases h
            | [b1], h => simp at h
            | [], h => simp at h
          · split at h
            · next h1 h2 h3 h4 h5 =>
              match r0, h with
              | b1 :: b2 :: b3 :: r2, h =>
                dsimp only at h
                cases hx1 : contBits b1 with
                | none => simp [hx1] at h
                | some x1 =>
                  cases hx2 : contBits b2 with
                  | none => simp [hx1, hx2] at h
                  | some x2 =>
                    cases hx3 : contBits b3 with
                    | none => simp [hx1, hx2, hx3] at h
                    | some x3 =>
                      obtain ⟨l1, rfl⟩ := contBits_some hx1
                      obtain ⟨l2, rfl⟩ := contBits_some hx2
                      obtain ⟨l3, rfl⟩ := contBits_some hx3
                      simp only [hx1, hx2, hx3] at h
                      split at h
                      · next h5 =>
                        simp only [Option.some.injEq, Prod.mk.injEq] at h
                        obtain ⟨rfl, rfl⟩ := h
                        refine ⟨[b0, UInt8.ofNat (0x80 + x1), UInt8.ofNat (0x80 + x2),
                          UInt8.ofNat (0x80 + x3)], ?_, rfl⟩
                        unfold utf8EncodeCp
                        rw [if_pos h5.2, if_neg (by omega), if_neg (by omega), if_neg (by omega)]
                        rw [ofNat_self b0 _ (by omega)]
                        have e1 : ((b0.toNat - 240) * 262144 + x1 * 4096 + x2 * 64 + x3) / 4096 % 64
                          = x1 := by omega
                        have e2 : ((b0.toNat - 240) * 262144 + x1 * 4096 + x2 * 64 + x3) / 64 % 64
                          = x2 := by omega
                        have e3 : ((b0.toNat - 240) * 262144 + x1 * 4096 + x2 * 64 + x3) % 64
                          = x3 := by omega
                        rw [e1, e2, e3]
                      · cases h
              | [b1, b2], h => simp at h
              | [b1], h => simp at h
              | [], h => simp at h
            · cases h

theorem utf8EncodeCp_ne_nil {c : Nat} {b : Bytes} (h : utf8EncodeCp c = some b) : b ≠ [] := by
  rintro rfl
  unfold utf8EncodeCp at h
  repeat' split at h
  all_goals simp at h

theorem utf8Encode_isSome {s : PyStr} : (∃ b, utf8Encode s = some b) ↔ ∀ c ∈ s, isScalar c = true := by
  induction s with
  | nil => simp [utf8Encode]
  | cons c s ih =>
    rw [List.forall_mem_cons, ← ih, ← utf8EncodeCp_isSome]
    simp only [utf8Encode]
    cases utf8EncodeCp c <;> cases utf8Encode s <;> simp

theorem utf8Encode_cons {c : Nat} {s : PyStr} {b : Bytes} :
    utf8Encode (c :: s) = some b ↔ ∃ x y, utf8EncodeCp c = some x ∧ utf8Encode s = some y ∧
      b = x ++ y := by
  simp only [utf8Encode]
  cases utf8EncodeCp c <;> cases utf8Encode s <;> simp [eq_comm]

theorem utf8Encode_append {s t : PyStr} {b : Bytes} :
    utf8Encode (s ++ t) = some b ↔ ∃ x y, utf8Encode s = some x ∧ utf8Encode t = some y ∧
      b = x ++ y := by
  induction s generalizing b with
  | nil => simp [utf8Encode, eq_comm]
  | cons c s ih =>
    simp only [List.cons_append, utf8Encode_cons, ih]
    constructor
    · rintro ⟨x, _, hx, ⟨y, z, hy, hz, rfl⟩, rfl⟩
      exact ⟨x ++ y, z, ⟨x, y, hx, hy, rfl⟩, hz, by simp⟩
    · rintro ⟨_, z, ⟨x, y, hx, hy, rfl⟩, hz, rfl⟩
      exact ⟨x, _, hx, ⟨y, z, hy, hz, rfl⟩, by simp⟩

theorem utf8DecodeAux_encode : ∀ {s : PyStr} {b : Bytes} {f : Nat}, utf8Encode s = some b →
    b.length ≤ f → utf8DecodeAux f b = some s
  | [], b, f, h, _ => by
    simp [utf8Encode] at h; subst h; cases f <;> rfl
  | c :: s, b, f, h, hf => by
    obtain ⟨x, y, hx, hy, rfl⟩ := utf8Encode_cons.1 h
    have hne := utf8EncodeCp_ne_nil hx
    obtain ⟨x0, x', rfl⟩ := List.exists_cons_of_ne_nil hne
    simp only [List.cons_append, List.length_cons, List.length_append] at hf
    cases f with
    | zero => omega
    | succ f =>
      have ih := utf8DecodeAux_encode (f := f) hy (by omega)
      have hh := utf8Head_encode (r := y) hx
      simp only [List.cons_append] at hh ⊢
      simp only [utf8DecodeAux, hh, ih]

theorem utf8Encode_decodeAux : ∀ {f : Nat} {b : Bytes} {s : PyStr}, utf8DecodeAux f b = some s →
    utf8Encode s = some b
  | f, [], s, h => by
    cases f <;> simp [utf8DecodeAux] at h <;> subst h <;> rfl
  | 0, _ :: _, s, h => by simp [utf8DecodeAux] at h
  | f + 1, b0 :: b, s, h => by
    simp only [utf8DecodeAux] at h
    cases hh : utf8Head (b0 :: b) with
    | none => simp [hh] at h
    | some cr =>
      obtain ⟨c, r⟩ := cr
      simp only [hh] at h
      cases hd : utf8DecodeAux f r with
      | none => simp [hd] at h
      | some s' =>
        simp only [hd, Option.some.injEq] at h
        subst h
        obtain ⟨e, h1, h2⟩ := utf8Head_some hh
        have ih := utf8Encode_decodeAux hd
        exact utf8Encode_cons.2 ⟨e, r, h1, ih, h2⟩

/-- Decoding and encoding are inverse to each other. -/
theorem utf8_iff {b : Bytes} {s : PyStr} : utf8Decode b = some s ↔ utf8Encode s = some b :=
  ⟨utf8Encode_decodeAux, fun h => utf8DecodeAux_encode h (Nat.le_refl _)⟩

end Gaspra
