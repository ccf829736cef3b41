import Verif.Proofs.Refused
import Verif.Proofs.TokenizerDiff
import Verif.Props.Tokenizers

set_option linter.unusedSectionVars false

/-! # C97: contents that the tokenizer refuses -/

namespace Gaspra

variable {τ : Type _} [DecidableEq τ]

instance : DecidablePred Utf8Bytes := fun b =>
  match h : utf8Decode b with
  | some s => .isTrue ⟨s, utf8_iff.1 h⟩
  | none => .isFalse fun ⟨s, hs⟩ => by rw [utf8_iff.2 hs] at h; cases h

theorem charRefuses : Refuses charLawful := by
  intro st b hst hb
  have hw : wrongType st (.bytes b) = false := by rcases hst with rfl | rfl <;> rfl
  have hd : utf8Decode b = none := by
    cases hd : utf8Decode b with
    | none => rfl
    | some s => exact absurd ⟨s, utf8_iff.1 hd⟩ hb
  have : charTokenizer.encode st (.bytes b) = (some .bytes, .error .unicodeError) := by
    show charEncode st (.bytes b) = _
    simp [charEncode, hw, hd]
  simp [Tokenizer.bytesOps, this]

theorem symbolRefuses (cls : Nat → Bool) : Refuses (symbolLawful cls) := by
  rintro st b ⟨I, hst⟩ hb
  have hw : wrongType st.src (.bytes b) = false := by
    rcases hst with h | h <;> rw [h] <;> rfl
  have : (symbolTokenizer cls).encode st (.bytes b) = _ := (symbolLike cls).bad st (.bytes b) hw hb
  simp only [Tokenizer.bytesOps, this]

/-- C97: with `CharTokenizer`, after any calls with fresh tags, `get` returns the content of every
tag whose content is UTF-8, and raises `UnicodeDecodeError` for every other tag, however the
calls in between failed. -/
theorem C97_char_get {h : List (AddOp τ)} (F : FreshHistory h)
    (hc : ∀ a ∈ h, a.content.length < 2 ^ 64) : ∀ a ∈ h,
    versionsGet (memoryTree τ) charTokenizer.bytesOps
      (runHistory (memoryTree τ) charTokenizer.bytesOps (emptyVersions τ) h) a.tag =
      if Utf8Bytes a.content then .ok (some a.content) else .error .unicodeError :=
  F.mixed_get charRefuses hc

/-- C97: the same with `SymbolTokenizer`. -/
theorem C97_symbol_get (cls : Nat → Bool) {h : List (AddOp τ)} (F : FreshHistory h)
    (hc : ∀ a ∈ h, a.content.length < 2 ^ 64) : ∀ a ∈ h,
    versionsGet (memoryTree τ) (symbolTokenizer cls).bytesOps
      (runHistory (memoryTree τ) (symbolTokenizer cls).bytesOps (emptyVersions τ) h) a.tag =
      if Utf8Bytes a.content then .ok (some a.content) else .error .unicodeError :=
  F.mixed_get (symbolRefuses cls) hc

/-- C97: which exception the last call of any history with fresh tags raises. -/
theorem C97_char_add {h : List (AddOp τ)} {a : AddOp τ} (F : FreshHistory (h ++ [a]))
    (hc : ∀ o ∈ h ++ [a], o.content.length < 2 ^ 64) :
    (versionsAdd (memoryTree τ) charTokenizer.bytesOps
      (runHistory (memoryTree τ) charTokenizer.bytesOps (emptyVersions τ) h)
      a.tag a.content a.base).2 = refusal Utf8Bytes (headsWith Utf8Bytes h) a := by
  generalize hh : h ++ [a] = hx at F
  cases F with
  | nil => simp at hh
  | @snoc h' a' F' h1 h2 =>
    obtain ⟨rfl, e⟩ := List.append_inj' hh rfl
    simp at e; subst e
    exact ((F'.mixed charRefuses fun o ho => hc o (by simp [ho])).step charRefuses h1 h2
      (hc a (by simp))).2

/-- C97: the same with `SymbolTokenizer`. -/
theorem C97_symbol_add (cls : Nat → Bool) {h : List (AddOp τ)} {a : AddOp τ}
    (F : FreshHistory (h ++ [a])) (hc : ∀ o ∈ h ++ [a], o.content.length < 2 ^ 64) :
    (versionsAdd (memoryTree τ) (symbolTokenizer cls).bytesOps
      (runHistory (memoryTree τ) (symbolTokenizer cls).bytesOps (emptyVersions τ) h)
      a.tag a.content a.base).2 = refusal Utf8Bytes (headsWith Utf8Bytes h) a := by
  generalize hh : h ++ [a] = hx at F
  cases F with
  | nil => simp at hh
  | @snoc h' a' F' h1 h2 =>
    obtain ⟨rfl, e⟩ := List.append_inj' hh rfl
    simp at e; subst e
    exact ((F'.mixed (symbolRefuses cls) fun o ho => hc o (by simp [ho])).step
      (symbolRefuses cls) h1 h2 (hc a (by simp))).2

/-! ### Examples -/

/-- Six calls, three of which are refused: a bad first version, a version based on it, a good line
of two versions and a bad and a good successor. -/
def refusedCalls : List (AddOp Nat) :=
  [⟨1, [0xFF], none⟩, ⟨2, [97], some 1⟩, ⟨3, [97, 98], some 2⟩, ⟨4, [0xC3], some 3⟩,
   ⟨5, [97, 98, 99], some 3⟩, ⟨6, [97], some 2⟩]

theorem refusedCalls_fresh : FreshHistory refusedCalls :=
  .snoc (.snoc (.snoc (.snoc (.snoc (.snoc .nil (by decide) (by decide)) (by decide) (by decide))
    (by decide) (by decide)) (by decide) (by decide)) (by decide) (by decide))
    (by decide) (by decide)

example : runErrors (memoryTree Nat) charTokenizer.bytesOps (emptyVersions Nat) refusedCalls =
    [none, some .unicodeError, none, some .unicodeError, none, some .keyError] := by
  decide +kernel

example : headsWith Utf8Bytes refusedCalls =
    [(1, [0xFF]), (4, [0xC3]), (5, [97, 98, 99]), (6, [97])] := by decide +kernel

example : refusal Utf8Bytes (headsWith Utf8Bytes (refusedCalls.take 3)) ⟨4, [0xC3], some 3⟩ =
    some .unicodeError := by decide +kernel

example := C97_char_get refusedCalls_fresh (by decide)

example := C97_symbol_get asciiWord refusedCalls_fresh (by decide)

example : (refusedCalls.map fun a => versionsGet (memoryTree Nat) (symbolTokenizer asciiWord).bytesOps
      (runHistory (memoryTree Nat) (symbolTokenizer asciiWord).bytesOps (emptyVersions Nat)
        refusedCalls) a.tag) =
    [.error .unicodeError, .ok (some [97]), .ok (some [97, 98]), .error .unicodeError,
     .ok (some [97, 98, 99]), .ok (some [97])] := by decide +kernel

end Gaspra
