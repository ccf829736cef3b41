import Verif.Proofs.Serialize

/-!
# C23 – C26, C53: serialization
-/

namespace Gaspra

/-- C23.  Variable length integers round-trip, whatever bytes follow. -/
theorem C23_vint_roundtrip (v : Nat) (hv : v < 2 ^ 64) (rest : List UInt8) :
    ∃ bs, vserializeInt v = .ok bs ∧ vdeserializeInt (bs ++ rest) = .ok (v, rest) := by
  refine ⟨encV v, vser_encV hv, ?_⟩
  rcases vdeser_prefix hv (List.prefix_refl (encV v ++ rest)) with ⟨h, _⟩ | ⟨t', h1, _, h3⟩
  · simp at h; omega
  · rw [h3, List.append_cancel_left h1]

/-- C23, domain: negative integers and integers that do not fit in 64 bits raise
`OverflowError`. -/
theorem C23_vint_overflow (v : Int) (hv : v < 0 ∨ 2 ^ 64 ≤ v) :
    vserializeInt v = .error .overflowError := vser_overflow hv

example : vserializeInt 240 = .ok [240] ∧ vserializeInt 241 = .ok [241, 1] ∧
    vserializeInt 2287 = .ok [248, 255] ∧ vserializeInt 2288 = .ok [249, 0, 0] ∧
    vserializeInt 67823 = .ok [249, 255, 255] ∧ vserializeInt 67824 = .ok [250, 1, 8, 240] := by
  decide +kernel
example : (18446744073709551615 : Nat) < 2 ^ 64 := by decide

/-- C24.  Encodings are 1 to 9 bytes long, order preserving and prefix free. -/
theorem C24_vint_order (v w : Nat) (hvw : v < w) (hw : w < 2 ^ 64) :
    ∃ a b, vserializeInt v = .ok a ∧ vserializeInt w = .ok b ∧ LexBefore a b ∧ a < b ∧
      ¬ a <+: b ∧ ¬ b <+: a := by
  have hv : v < 2 ^ 64 := by omega
  have hl := vser_lex hvw hw _ _ (vser_encV hv) (vser_encV hw)
  refine ⟨_, _, vser_encV hv, vser_encV hw, hl, ?_, ?_, ?_⟩
  · obtain ⟨p, x, y, a', b', ha, hb, hxy⟩ := hl
    rw [ha, hb]
    clear ha hb
    induction p with
    | nil => exact List.Lex.rel hxy
    | cons c p ih => exact List.Lex.cons ih
  · obtain ⟨p, x, y, a', b', ha, hb, hxy⟩ := hl
    rw [ha, hb, List.prefix_append_right_inj, List.cons_prefix_cons]
    rintro ⟨rfl, _⟩; omega
  · obtain ⟨p, x, y, a', b', ha, hb, hxy⟩ := hl
    rw [ha, hb, List.prefix_append_right_inj, List.cons_prefix_cons]
    rintro ⟨rfl, _⟩; omega

/-- C24, length. -/
theorem C24_vint_length (v : Nat) (hv : v < 2 ^ 64) :
    ∃ a, vserializeInt v = .ok a ∧ 1 ≤ a.length ∧ a.length ≤ 9 :=
  ⟨_, vser_encV hv, encV_length hv⟩

example : vserializeInt (2 ^ 64 - 1) = .ok [255, 255, 255, 255, 255, 255, 255, 255, 255] := by
  decide +kernel

/-- C25.  Serializing and deserializing drops exactly the empty items. -/
theorem C25_changeset_roundtrip (cs : List (PatchItem UInt8)) (hfit : ∀ c ∈ cs, c.Fits) :
    ∃ bs, serializeChangeset cs = .ok bs ∧
      deserializeChangeset bs = (cs.filter (·.isNonempty), none) := by
  refine ⟨encAll true cs, ?_, ?_⟩
  · simpa [serializeChangeset] using serializeLoop_spec cs true [] hfit
  · exact (deserialize_spec cs true _ _ hfit (List.prefix_refl _) (Nat.le_refl _)).2.2 rfl

/-- C25, without empty items the round trip is exact. -/
theorem C25_changeset_roundtrip_exact (cs : List (PatchItem UInt8)) (hfit : ∀ c ∈ cs, c.Fits)
    (hne : ∀ c ∈ cs, c.isNonempty = true) :
    ∃ bs, serializeChangeset cs = .ok bs ∧ deserializeChangeset bs = (cs, none) := by
  obtain ⟨bs, h1, h2⟩ := C25_changeset_roundtrip cs hfit
  refine ⟨bs, h1, ?_⟩
  rw [h2, List.filter_eq_self.2 hne]

example : ∀ c ∈ [PatchItem.slice ⟨0, some 300⟩, .piece [1, 2], .piece [3]],
    c.Fits ∧ c.isNonempty = true := by
  simp [PatchItem.Fits, PatchItem.isNonempty]
example : serializeChangeset [.slice ⟨0, some 300⟩, .piece [1, 2], .piece [3]] =
    .ok [0, 0, 241, 60, 2, 1, 2, 0, 0, 1, 3] := by decide +kernel

/-- C25.  A changeset with an item that does not fit raises: `TypeError` if the first such item is a
slice without an end that starts below `2 ^ 64`, otherwise `OverflowError`. -/
theorem C25_refused (pre post : List (PatchItem UInt8)) (c : PatchItem UInt8)
    (hpre : ∀ c ∈ pre, c.Fits) (hc : ¬ c.Fits) :
    (∀ start < 2 ^ 64, c = .slice ⟨start, none⟩ →
      serializeChangeset (pre ++ c :: post) = .error .typeError) ∧
    ((∀ start < 2 ^ 64, c ≠ .slice ⟨start, none⟩) →
      serializeChangeset (pre ++ c :: post) = .error .overflowError) := by
  rw [serializeChangeset, serializeLoop_append pre (c :: post) true [] hpre]
  have h0 : vserializeInt 0 = .ok (encV 0) := vser_encV (v := 0) (by omega)
  refine ⟨?_, fun hne => ?_⟩
  · rintro st hs rfl
    cases nextBytes true pre <;>
      simp only [serializeLoop, vserializeStop, h0, vser_encV hs, if_true, Bool.false_eq_true,
        if_false] <;> rfl
  · cases c with
    | piece b =>
      have hb : vserializeInt (b.length : Int) = .error .overflowError :=
        C23_vint_overflow _ (Or.inr (by simp only [PatchItem.Fits] at hc; omega))
      cases nextBytes true pre <;>
        simp only [serializeLoop, h0, hb, if_true, Bool.false_eq_true, if_false] <;> rfl
    | slice sl =>
      obtain ⟨st, sp⟩ := sl
      by_cases hs : st < 2 ^ 64
      · cases sp with
        | none => exact absurd rfl (hne st hs)
        | some e =>
          have he : vserializeInt (e : Int) = .error .overflowError :=
            C23_vint_overflow _ (Or.inr (by
              simp only [PatchItem.Fits, Option.some.injEq, exists_eq_left', not_and] at hc
              have := hc hs; omega))
          cases nextBytes true pre <;>
            simp only [serializeLoop, vserializeStop, h0, vser_encV hs, he, if_true,
              Bool.false_eq_true, if_false] <;> rfl
      · have he : vserializeInt (st : Int) = .error .overflowError :=
          C23_vint_overflow _ (Or.inr (by omega))
        cases nextBytes true pre <;>
          simp only [serializeLoop, vserializeStop, h0, he, if_true, Bool.false_eq_true,
            if_false] <;> rfl

example : serializeChangeset [.piece [7], .slice ⟨3, none⟩, .slice ⟨2 ^ 64, none⟩] = .error .typeError ∧
    serializeChangeset [.slice ⟨2 ^ 64, none⟩, .slice ⟨3, none⟩] = .error .overflowError := by
  decide +kernel

/-- C26.  Deserializing any prefix of a serialized changeset yields a prefix of its (nonempty)
pieces, and then stops or raises `RuntimeError`. -/
theorem C26_truncation (cs : List (PatchItem UInt8)) (hfit : ∀ c ∈ cs, c.Fits)
    (bs t : List UInt8) (hs : serializeChangeset cs = .ok bs) (ht : t <+: bs) :
    (deserializeChangeset t).1 <+: cs.filter (·.isNonempty) ∧
      ((deserializeChangeset t).2 = none ∨
        (deserializeChangeset t).2 = some .runtimeError) := by
  have : serializeChangeset cs = .ok (encAll true cs) := by
    simpa [serializeChangeset] using serializeLoop_spec cs true [] hfit
  rw [this] at hs
  cases hs
  obtain ⟨h1, h2, _⟩ := deserialize_spec cs true t t.length hfit ht (Nat.le_refl _)
  exact ⟨h1, h2⟩

example : deserializeChangeset [0, 0, 241, 60, 2, 1] =
    ([.slice ⟨0, some 300⟩], some .runtimeError) := by decide +kernel
example : deserializeChangeset [0, 0, 241, 60, 2, 1, 2] =
    ([.slice ⟨0, some 300⟩, .piece [1, 2]], none) := by decide +kernel

/-- C53.  On any byte string at all, `deserialize_changeset` terminates: it yields finitely many
nonempty items and then stops or raises `RuntimeError`. -/
theorem C53_deserialize_total (bs : List UInt8) :
    (∀ c ∈ (deserializeChangeset bs).1, c.isNonempty = true) ∧
      ((deserializeChangeset bs).2 = none ∨ (deserializeChangeset bs).2 = some .runtimeError) :=
  deserialize_total bs.length true bs (Nat.le_refl _)

example : deserializeChangeset [3, 1, 2] = ([], some .runtimeError) := by decide +kernel

/-- C54.  Fixed width integers round-trip below `2 ^ 32` and overflow otherwise. -/
theorem C54_int_roundtrip (v : Nat) (hv : v < 2 ^ 32) (rest : List UInt8) :
    ∃ bs, serializeInt v = .ok bs ∧ bs.length = 4 ∧ deserializeInt (bs ++ rest) = .ok (v, rest) := by
  have h4 : v < 256 ^ 4 := by omega
  refine ⟨bytesBE 4 v, toBytes_ok h4, bytesBE_length _ _, ?_⟩
  have hl := bytesBE_length 4 v
  simp only [deserializeInt, List.length_append, hl]
  rw [if_neg (by omega), List.take_left' hl, List.drop_left' hl, fromBytes_bytesBE h4]

theorem C54_int_overflow (v : Int) (hv : v < 0 ∨ 2 ^ 32 ≤ v) :
    serializeInt v = .error .overflowError := by
  unfold serializeInt toBytes
  rcases hv with h | h
  · rw [if_pos h]
  · rw [if_neg (by omega), if_neg (by omega)]

example : serializeInt 305419896 = .ok [18, 52, 86, 120] := by decide +kernel

end Gaspra
