import Verif.Model.LazyDiff
import Verif.Proofs.TokenizerDiff

/-!
# Diffs read item by item
-/

namespace Gaspra

section
variable {E S : Type _} {tk : Tokenizer E S}

/-- What has been decoded once is decoded in the same way after further calls. -/
structure DecodeStable (tk : Tokenizer E S) (P : S → Prop) : Prop where
  keep : ∀ st x, P st → P (tk.encode st x).1
  same : ∀ st x e t, P st → tk.decode st e = .ok t → tk.decode (tk.encode st x).1 e = .ok t

theorem DecodeStable.calls {P : S → Prop} (D : DecodeStable tk P) : ∀ (calls : List Text) {st : S},
    P st → P (encodeCalls tk st calls) ∧
      ∀ e t, tk.decode st e = .ok t → tk.decode (encodeCalls tk st calls) e = .ok t
  | [], _, h => ⟨h, fun _ _ k => k⟩
  | x :: calls, _, h => by
    obtain ⟨h1, h2⟩ := D.calls calls (D.keep _ x h)
    exact ⟨h1, fun e t k => h2 e t (D.same _ x e t h k)⟩

theorem DecodeStable.changes {P : S → Prop} (D : DecodeStable tk P) {st st' : S}
    (hs : ∀ e t, tk.decode st e = .ok t → tk.decode st' e = .ok t) :
    ∀ {cs : List (Item E)} {items : List (Item Text)},
    decodeChanges tk st cs = (items, none) → decodeChanges tk st' cs = (items, none)
  | [], _, h => h
  | .common p :: rest, items, h => by
    simp only [decodeChanges] at h ⊢
    cases hp : tk.decode st p with
    | error e => rw [hp] at h; simp at h
    | ok t =>
      rw [hp] at h
      rw [hs _ _ hp]
      simp only [Prod.mk.injEq] at h ⊢
      have := D.changes hs (cs := rest) (items := (decodeChanges tk st rest).1) (by rw [← h.2])
      rw [this]
      exact ⟨h.1, rfl⟩
  | .change a b :: rest, items, h => by
    simp only [decodeChanges] at h ⊢
    cases hp : tk.decode st a with
    | error e => rw [hp] at h; simp at h
    | ok t =>
      rw [hp] at h
      rw [hs _ _ hp]
      cases hq : tk.decode st b with
      | error e => rw [hq] at h; simp at h
      | ok u =>
        rw [hq] at h
        rw [hs _ _ hq]
        simp only [Prod.mk.injEq] at h ⊢
        have := D.changes hs (cs := rest) (items := (decodeChanges tk st rest).1) (by rw [← h.2])
        rw [this]
        exact ⟨h.1, rfl⟩

theorem decodeChanges_cons (st : S) (c : Item E) (rest : List (Item E)) :
    decodeChanges tk st (c :: rest) =
      match decodeItem tk st c with
      | .error e => ([], some e)
      | .ok i => (i :: (decodeChanges tk st rest).1, (decodeChanges tk st rest).2) := by
  cases c with
  | common p => simp only [decodeChanges, decodeItem]; cases tk.decode st p <;> rfl
  | change a b =>
    simp only [decodeChanges, decodeItem]
    cases tk.decode st a with
    | error e => rfl
    | ok t => simp only; cases tk.decode st b <;> rfl

theorem DecodeStable.read {P : S → Prop} (D : DecodeStable tk P) :
    ∀ {cs : List (Item E)} {items : List (Item Text)} {st : S} (schedule : List (List Text)), P st →
    decodeChanges tk st cs = (items, none) → readItems tk st schedule cs = (items, none)
  | [], _, _, _, _, h => h
  | c :: rest, items, st, schedule, hp, h => by
    obtain ⟨h1, h2⟩ := D.calls (schedule.headD []) hp
    have k := D.changes h2 h
    rw [decodeChanges_cons] at k
    simp only [readItems]
    cases hc : decodeItem tk (encodeCalls tk st (schedule.headD [])) c with
    | error e => rw [hc] at k; simp at k
    | ok i =>
      rw [hc] at k
      simp only [Prod.mk.injEq] at k ⊢
      have := D.read (cs := rest) (items := (decodeChanges tk (encodeCalls tk st (schedule.headD [])) rest).1)
        schedule.tail h1 (by rw [← k.2])
      rw [this]
      exact ⟨k.1, rfl⟩

/-- `tokDiff` is `startDiff` read at once. -/
theorem tokDiff_start {st : S} {o m : Text} {items : List (Item Text)}
    (h : (tokDiff tk st o m).2 = .ok (items, none)) :
    ∃ pending, (startDiff tk st o m).2 = .ok pending ∧
      decodeChanges tk (startDiff tk st o m).1 pending = (items, none) ∧
      (∃ eo, (tk.encode st o).2 = .ok eo) ∧
      (startDiff tk st o m).1 = (tk.encode (tk.encode st o).1 m).1 := by
  unfold tokDiff at h
  unfold startDiff
  split at h
  · simp at h
  · next st1 eo h1 =>
    split at h
    · simp at h
    · next st2 em h2 =>
      split at h
      · simp at h
      · next cs hcs =>
        simp only [Except.ok.injEq] at h
        simp only [h1, h2, hcs]
        refine ⟨cs, rfl, h, ⟨eo, rfl⟩, trivial⟩

end

section
variable {encode : DictTok → Text → DictTok × Except PyErr (List Nat)} {Good : Text → Prop}
  {pieces : Text → List Text}

theorem DictLike.stable (D : DictLike encode Good pieces) {tk : Tokenizer (List Nat) DictTok}
    (he : tk.encode = encode) (hdec : tk.decode = DictTok.decode) :
    DecodeStable tk (fun st => DictInv st ∧ ∃ t, st.src = some t) where
  keep := by
    rintro st x ⟨h, t, ht⟩
    rw [he]
    exact ⟨(D.step h x).inv, t, (D.step h x).src ht⟩
  same := by
    rintro st x e y ⟨h, t, ht⟩ hd
    rw [he]
    rw [hdec] at hd ⊢
    have S := D.step h x
    unfold DictTok.decode at hd ⊢
    cases hdd : st.decoding with
    | none => rw [hdd] at hd; simp at hd
    | some d =>
      have e1 := h.dec hdd
      subst e1
      rw [S.dec hdd, S.src ht]
      rw [hdd, ht] at hd
      simp only at hd ⊢
      cases hl : lookupDecoding st.table e with
      | none => rw [hl] at hd; simp at hd
      | some ps =>
        rw [hl] at hd
        have := lookupDecoding_iff.2 (table_map S.tab (lookupDecoding_iff.1 hl))
        rw [this]
        exact hd

end

theorem char_stable : DecodeStable charTokenizer (fun st => ∃ t, st = some t) where
  keep := fun _ x ⟨t, h⟩ => ⟨t, charEncode_src (x := x) h⟩
  same := by
    rintro st x e y ⟨t, h⟩ hd
    have : (charTokenizer.encode st x).1 = some t := charEncode_src (x := x) h
    rw [this, ← h]
    exact hd

theorem null_stable : DecodeStable nullTokenizer (fun _ => True) where
  keep := fun _ _ _ => trivial
  same := fun _ _ _ _ _ h => h

end Gaspra
