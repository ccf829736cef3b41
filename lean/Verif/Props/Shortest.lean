import Verif.Proofs.Serialize

/-!
# C24: the encoding of an integer is the only shortest one
-/

set_option linter.unusedSimpArgs false
set_option linter.unusedVariables false

namespace Gaspra

theorem fromBytes_lt (l : List UInt8) : fromBytes l < 256 ^ l.length := by
  have key : ∀ l : List UInt8, fromBytes l.reverse < 256 ^ l.length := by
    intro l
    induction l with
    | nil => simp [fromBytes]
    | cons b l ih =>
      rw [List.reverse_cons, fromBytes_snoc, List.length_cons, Nat.pow_succ]
      have := b.toNat_lt
      omega
  simpa using key l.reverse

theorem bytesBE_fromBytes (l : List UInt8) : bytesBE l.length (fromBytes l) = l := by
  have key : ∀ l : List UInt8, bytesBE l.length (fromBytes l.reverse) = l.reverse := by
    intro l
    induction l with
    | nil => rfl
    | cons b l ih =>
      have hb := b.toNat_lt
      rw [List.reverse_cons, fromBytes_snoc, List.length_cons, bytesBE,
        show (fromBytes l.reverse * 256 + b.toNat) / 256 = fromBytes l.reverse by omega, ih,
        show (fromBytes l.reverse * 256 + b.toNat) % 256 = b.toNat by omega]
      simp
  simpa using key l.reverse

/-- What an accepted stream looks like. -/
theorem vdeser_ok {s rest : List UInt8} {v : Nat} (h : vdeserializeInt s = .ok (v, rest)) :
    ∃ b p, s = b :: p ++ rest ∧
      ((b.toNat ≤ 240 ∧ p = [] ∧ v = b.toNat) ∨
       (241 ≤ b.toNat ∧ b.toNat ≤ 248 ∧ p.length = 1 ∧ v = 240 + 256 * (b.toNat - 241) + fromBytes p) ∨
       (b.toNat = 249 ∧ p.length = 2 ∧ v = 2288 + fromBytes p) ∨
       (250 ≤ b.toNat ∧ p.length = b.toNat - 247 ∧ v = fromBytes p)) := by
  cases s with
  | nil => simp [vdeserializeInt] at h
  | cons b t =>
    have hb := b.toNat_lt
    have e0 : fromBytes ((b :: t).take 1) = b.toNat := by simp [fromBytes]
    unfold vdeserializeInt at h
    rw [if_neg (by simp)] at h
    simp only [e0] at h
    have split : ∀ n, n + 1 ≤ (b :: t).length →
        ((b :: t).take (n + 1)).drop 1 = t.take n ∧ (b :: t).drop (n + 1) = t.drop n ∧
          (t.take n).length = n ∧ b :: t = b :: t.take n ++ t.drop n := by
      intro n hn
      simp at hn
      simp [hn]
    by_cases h1 : b.toNat ≤ 240
    · rw [if_pos h1] at h
      simp only [Except.ok.injEq, Prod.mk.injEq] at h
      exact ⟨b, [], by simp [← h.2], .inl ⟨h1, rfl, h.1.symm⟩⟩
    rw [if_neg h1] at h
    by_cases h2 : 241 ≤ b.toNat ∧ b.toNat ≤ 248
    · rw [if_pos h2] at h
      split at h
      · cases h
      · rename_i hl
        obtain ⟨s1, s2, s3, s4⟩ := split 1 (by omega)
        rw [s1, s2] at h
        simp only [Except.ok.injEq, Prod.mk.injEq] at h
        exact ⟨b, _, by rw [← h.2]; exact s4, .inr (.inl ⟨h2.1, h2.2, s3, h.1.symm⟩)⟩
    rw [if_neg h2] at h
    by_cases h3 : b.toNat = 249
    · rw [if_pos h3] at h
      split at h
      · cases h
      · rename_i hl
        obtain ⟨s1, s2, s3, s4⟩ := split 2 (by omega)
        rw [s1, s2] at h
        simp only [Except.ok.injEq, Prod.mk.injEq] at h
        exact ⟨b, _, by rw [← h.2]; exact s4, .inr (.inr (.inl ⟨h3, s3, h.1.symm⟩))⟩
    rw [if_neg h3] at h
    split at h
    · cases h
    · rename_i hl
      obtain ⟨s1, s2, s3, s4⟩ := split (b.toNat - 247) (by omega)
      rw [show b.toNat - 246 = b.toNat - 247 + 1 by omega, s1, s2] at h
      simp only [Except.ok.injEq, Prod.mk.injEq] at h
      exact ⟨b, _, by rw [← h.2]; exact s4, .inr (.inr (.inr ⟨by omega, s3, h.1.symm⟩))⟩

/-- C24.  Whatever stream `vdeserialize_int` accepts for a value, `vserialize_int` encodes the value
with no more bytes; with as many bytes only if it is the same stream. -/
theorem C24_shortest {s rest : List UInt8} {v : Nat} (h : vdeserializeInt s = .ok (v, rest)) :
    v < 2 ^ 64 ∧ ∃ a used, vserializeInt v = .ok a ∧ s = used ++ rest ∧ a.length ≤ used.length ∧
      (a.length = used.length → a = used) := by
  obtain ⟨b, p, hs, hb⟩ := vdeser_ok h
  have hlt := b.toNat_lt
  have hp := fromBytes_lt p
  have hv : v < 2 ^ 64 := by
    rcases hb with ⟨h1, h2, h3⟩ | ⟨h1, h1', h2, h3⟩ | ⟨h1, h2, h3⟩ | ⟨h1, h2, h3⟩
    · omega
    · rw [h2] at hp; omega
    · rw [h2] at hp; omega
    · have : 256 ^ p.length ≤ 256 ^ 8 := Nat.pow_le_pow_right (by omega) (by omega)
      omega
  obtain ⟨c, n, q, e, hc, hq, C⟩ := vser_spec hv
  have key : n ≤ p.length ∧ (n = p.length → c = b.toNat ∧ q = fromBytes p) := by
    unfold Code at C
    rcases hb with ⟨h1, h2, h3⟩ | ⟨h1, h1', h2, h3⟩ | ⟨h1, h2, h3⟩ | ⟨h1, h2, h3⟩
    · subst h2
      simp only [List.length_nil, show fromBytes [] = 0 from rfl]
      omega
    · rw [h2] at hp ⊢; omega
    · rw [h2] at hp ⊢; omega
    · rcases (by omega : p.length = 3 ∨ p.length = 4 ∨ p.length = 5 ∨ p.length = 6 ∨ p.length = 7 ∨
        p.length = 8) with h | h | h | h | h | h <;> rw [h] at hp h2 ⊢ <;> omega
  refine ⟨hv, _, b :: p, e, hs, ?_, ?_⟩
  · simp only [List.length_cons, bytesBE_length]
    omega
  · intro hl
    simp only [List.length_cons, bytesBE_length] at hl
    obtain ⟨k1, k2⟩ := key.2 (by omega)
    have hn : n = p.length := by omega
    subst hn
    rw [k1, k2, bytesBE_fromBytes]
    simp

-- 240 is also accepted in two bytes, and encoded in one.
example : vdeserializeInt [241, 0, 7] = .ok (240, [7]) ∧ vserializeInt 240 = .ok [240] := by
  decide +kernel

end Gaspra
