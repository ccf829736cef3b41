import Verif.Proofs.GrowSize
import Verif.Props.DeltaSize
import Verif.Props.GrowLines

set_option linter.unusedSectionVars false
set_option linter.unusedVariables false

/-!
# C99: what a version store needs for texts that only grow

The delta of a version (`/repo/src/gaspra/versions.py:34-63`) leads from a newer text to an older
one. If the newer text contains the older one, the delta is one slice, whatever was added.
-/

namespace Gaspra

variable {τ : Type _} [DecidableEq τ]

instance (h : List (AddOp τ)) (t : τ) : Decidable (IsHead h t) := by
  unfold IsHead; infer_instance

/-- The bound on integers in terms of the serializer. -/
theorem encV_bound {N w : Nat} (hN : N < 2 ^ 64)
    (hw : ∀ k e, k ≤ N → vserializeInt k = .ok e → e.length ≤ w) :
    ∀ k, k ≤ N → (encV k).length ≤ w :=
  fun k hk => hw k _ hk (vser_encV (by omega))

theorem infix_trans' {a b c : Bytes} (h1 : a <:+: b) (h2 : b <:+: c) : a <:+: c := h1.trans h2

theorem ContainsBase.infixes {h : List (AddOp τ)} (hg : ContainsBase h) :
    ∀ a ∈ h, ∀ o ∈ h, a.base = some o.tag → o.content <:+: a.content := by
  intro a ha o ho e
  obtain ⟨f, b, e⟩ := hg a ha o ho e
  exact ⟨f, b, e.symm⟩

/-- C99, default tokenizer: a delta has at most `1 + 2 * w` bytes, if integers up to the length of
the longest content take at most `w` bytes. -/
theorem C99_delta_size {h : List (AddOp τ)} (H : GoodHistory h) (hg : ContainsBase h) {N w : Nat}
    (hN : N < 2 ^ 64) (hc : ∀ a ∈ h, a.content.length ≤ N)
    (hw : ∀ k e, k ≤ N → vserializeInt k = .ok e → e.length ≤ w) {t : τ} {d : Bytes}
    (hd : (t, d) ∈ (storeAfter h).diffs) : d.length ≤ 1 + 2 * w := by
  have L := nullLawful.deltaTok (G := fun a b => a <:+: b) infix_trans'
  have GH := (H.grows L (fun a ha => ⟨trivial, Nat.lt_of_le_of_lt (hc a ha) hN⟩) hg.infixes).1
  obtain ⟨_, a, ha, _, o, ho, hG, items, k1, k2⟩ := GH.delta H.fresh.nodup hd
  obtain ⟨sl, m1, m2, m3⟩ := nullLawful.infix_delta
    (fun {st t t' p} _ h1 h2 => (Option.some.inj h1).trans (Option.some.inj h2).symm)
    (a := o.content) (b := a.content) trivial trivial hG
  rw [m1] at k1; cases k1
  have := serialized_slices_le hN (encV_bound hN hw) (fun s hs => by
    obtain ⟨n, e1, e2, e3⟩ := m3 s hs
    have e3 : n ≤ o.content.length := e3
    have := hc o ho
    exact ⟨n, e1, e2, by omega⟩) k2
  refine Nat.le_trans this ?_
  have := Nat.mul_le_mul_left (1 + 2 * w) m2
  omega

/-- C99, default tokenizer: the store takes the length of the heads and at most 19 bytes for every
other version. -/
theorem C99_total {h : List (AddOp τ)} (H : GoodHistory h) (hc : ContentsFit h)
    (hg : ContainsBase h) :
    storedBytes (storeAfter h) ≤
      ((h.filter fun a => IsHead h a.tag).map (·.content.length)).sum +
        19 * (h.filter fun a => ¬ IsHead h a.tag).length := by
  obtain ⟨s1, s2, s3, s4⟩ := C29_storage H hc
  have hn := H.fresh.nodup
  have tagInj : ∀ a ∈ h, ∀ o ∈ h, a.tag = o.tag → a = o := by
    intro a ha o ho e
    revert hn
    unfold addedTags
    clear s1 s2 s3 s4 hg hc H
    induction h with
    | nil => simp at ha
    | cons x h ih =>
      intro hn
      simp only [List.map_cons, List.nodup_cons, List.mem_map, not_exists, not_and] at hn
      simp only [List.mem_cons] at ha ho
      rcases ha with rfl | ha <;> rcases ho with rfl | ho
      · rfl
      · exact absurd e.symm (hn.1 o ho)
      · exact absurd e (hn.1 a ha)
      · exact ih ha ho hn.2
  -- the heads
  have p1 : ((storeAfter h).headVersion).Perm
      ((h.filter fun a => IsHead h a.tag).map fun a => (a.tag, a.content)) := by
    refine perm_of_mem_iff (nodup_of_map s3) ?_ ?_
    · refine nodup_of_map (f := Prod.fst) ?_
      rw [List.map_map]
      exact (List.filter_sublist.map _).nodup hn
    · rintro ⟨t, c⟩
      rw [s1]
      simp only [List.mem_map, List.mem_filter, decide_eq_true_eq, Prod.mk.injEq]
      constructor
      · rintro ⟨h1, a, ha, rfl, rfl⟩; exact ⟨a, ⟨ha, h1⟩, rfl, rfl⟩
      · rintro ⟨a, ⟨ha, h1⟩, rfl, rfl⟩; exact ⟨h1, a, ha, rfl, rfl⟩
  -- the other versions
  have p2 : ((storeAfter h).diffs.map Prod.fst).Perm
      ((h.filter fun a => ¬ IsHead h a.tag).map fun a => a.tag) := by
    refine perm_of_mem_iff s4 ((List.filter_sublist.map _).nodup hn) ?_
    intro t
    rw [s2]
    simp only [addedTags, List.mem_map, List.mem_filter, decide_eq_true_eq]
    constructor
    · rintro ⟨⟨a, ha, rfl⟩, h1⟩; exact ⟨a, ⟨ha, h1⟩, rfl⟩
    · rintro ⟨a, ⟨ha, h1⟩, rfl⟩; exact ⟨⟨a, ha, rfl⟩, h1⟩
  have l2 := p2.length_eq
  simp only [List.length_map] at l2
  have e1 : ((storeAfter h).headVersion.map (·.2.length)).sum =
      ((h.filter fun a => IsHead h a.tag).map (·.content.length)).sum := by
    rw [sum_map_perm _ p1, List.map_map]; rfl
  have e2 : ((storeAfter h).diffs.map (·.2.length)).sum ≤ 19 * (storeAfter h).diffs.length := by
    have := sum_le_length_mul (l := (storeAfter h).diffs.map (·.2.length)) (k := 19) (by
      intro x hx
      obtain ⟨⟨t, d⟩, hd, rfl⟩ := List.mem_map.1 hx
      refine C99_delta_size H hg (N := 2 ^ 64 - 1) (w := 9) (by decide)
        (fun o ho => by have := hc o ho; omega) ?_ hd
      intro k e hk he
      have h1 : k < 2 ^ 64 := by omega
      rw [vser_encV h1] at he
      cases he
      exact (encV_length h1).2)
    simpa using this
  unfold storedBytes
  rw [e1, ← l2]
  omega

/-- Both contents are UTF-8, and the text of the first contains that of the second. -/
def ContainsText (old new : Bytes) : Prop :=
  ∃ s t, utf8Encode s = some old ∧ utf8Encode t = some new ∧ s <:+: t

/-- C99 with `CharTokenizer`: the same for contents that are UTF-8. -/
theorem C99_char_delta_size {h : List (AddOp τ)} (H : GoodHistory h)
    (hu : ∀ a ∈ h, ∃ s, utf8Encode s = some a.content)
    (hg : ∀ a ∈ h, ∀ o ∈ h, a.base = some o.tag → ContainsText o.content a.content) {N w : Nat}
    (hN : N < 2 ^ 64) (hc : ∀ a ∈ h, a.content.length ≤ N)
    (hw : ∀ k e, k ≤ N → vserializeInt k = .ok e → e.length ≤ w) {t : τ} {d : Bytes}
    (hd : (t, d) ∈ (runHistory (memoryTree τ) charTokenizer.bytesOps (emptyVersions τ) h).diffs) :
    d.length ≤ 1 + 2 * w := by
  have trans : ∀ {a b c : Bytes}, charLawful.split a <:+: charLawful.split b →
      charLawful.split b <:+: charLawful.split c → charLawful.split a <:+: charLawful.split c :=
    fun h1 h2 => h1.trans h2
  have L := charLawful.deltaTok (G := fun a b => charLawful.split a <:+: charLawful.split b) trans
  have hg' : ∀ a ∈ h, ∀ o ∈ h, a.base = some o.tag →
      charLawful.split o.content <:+: charLawful.split a.content := by
    intro a ha o ho e
    obtain ⟨s, t, e1, e2, e3⟩ := hg a ha o ho e
    show (utf8Decode _).getD [] <:+: (utf8Decode _).getD []
    rw [utf8_iff.2 e1, utf8_iff.2 e2]
    exact e3
  have GH := (H.grows L (fun a ha => ⟨hu a ha, Nat.lt_of_le_of_lt (hc a ha) hN⟩) hg').1
  obtain ⟨_, a, ha, _, o, ho, hG, items, k1, k2⟩ := GH.delta H.fresh.nodup hd
  obtain ⟨sl, m1, m2, m3⟩ := charLawful.infix_delta
    (fun {st t t' p} _ h1 h2 => by
      simp only [charLawful] at h1 h2
      split at h1 <;> split at h2 <;> simp_all)
    (hu o ho) (hu a ha) hG
  rw [m1] at k1; cases k1
  have hlen : (charLawful.split o.content).length ≤ o.content.length := by
    have := length_le_flatMap charLawful.text (l := charLawful.split o.content)
      fun x hx => charLawful.text_ne (hu o ho) hx
    rwa [charLawful.split_text (hu o ho)] at this
  have := serialized_slices_le hN (encV_bound hN hw) (fun s hs => by
    obtain ⟨n, e1, e2, e3⟩ := m3 s hs
    have := hc o ho
    exact ⟨n, e1, e2, by omega⟩) k2
  refine Nat.le_trans this ?_
  have := Nat.mul_le_mul_left (1 + 2 * w) m2
  omega

/-- C99 with `LineTokenizer`, for texts as in C98: a delta has at most `2 + 4 * w` bytes more than
the last line of its version, which is empty if the version ends in a newline. -/
theorem C99_line_delta_size {h : List (AddOp τ)} (H : GoodHistory h) (hg : GrowingHistory h)
    {N w : Nat} (hN : N < 2 ^ 64) (hc : ∀ a ∈ h, a.content.length + 1 ≤ N)
    (hw : ∀ k e, k ≤ N → vserializeInt k = .ok e → e.length ≤ w) {t : τ} {d : Bytes}
    (hd : (t, d) ∈ (runHistory (memoryTree τ) lineTokenizer.bytesOps (emptyVersions τ) h).diffs) :
    ∃ a ∈ h, a.tag = t ∧ ∀ front last, a.content = front ++ last → EndsLine front →
      (10 : UInt8) ∉ last → d.length ≤ 2 + 4 * w + last.length := by
  have GH := (H.grows lineDelta
    (fun a ha => show a.content.length + 1 < 2 ^ 64 by have := hc a ha; omega) hg).1
  obtain ⟨_, a, ha, ht, o, ho, hG, items, k1, k2⟩ := GH.delta H.fresh.nodup hd
  refine ⟨a, ha, ht, ?_⟩
  intro front last e hf hl
  obtain ⟨sl, A, x, h1, h2, h3, h4, h5⟩ := line_changeset hG
  have hxl : x = last := by
    obtain ⟨init, hi, hfull⟩ := hf.lines
    have e1 : byteLines a.content = init ++ [last] := by
      rw [e, hi, byteLines_append hfull, byteLines_one hl]
    rw [e1] at h1
    exact (List.cons.inj (List.append_inj' h1 rfl).2).1.symm
  subst hxl
  have hs : ∀ s ∈ sl, ∃ n, s.stop = some n ∧ s.start < n ∧ n ≤ N := by
    intro s hs
    obtain ⟨n, e1, e2, e3⟩ := h4 s hs
    have : (byteLines o.content).length ≤ o.content.length + 1 := lineHom.few o.content
    have := hc o ho
    exact ⟨n, e1, e2, by omega⟩
  have hwN := encV_bound hN hw
  rcases h5 with ⟨m1, _, m3⟩ | ⟨m1, _, m3⟩
  · rw [m1] at k1; cases k1
    have := serialized_slices_le hN hwN hs k2
    have := Nat.mul_le_mul_left (1 + 2 * w) m3
    omega
  · rw [m1] at k1; cases k1
    have hxN : x.length ≤ N := by
      have := hc a ha
      rw [e] at this
      simp at this; omega
    have := serialized_slices_piece_le hN hwN hxN hs k2
    have := Nat.mul_le_mul_left (1 + 2 * w) m3
    omega

/-! ### Examples -/

theorem GrowingHistory.containsBase {h : List (AddOp τ)} (hg : GrowingHistory h) : ContainsBase h := by
  intro a ha o ho e
  obtain ⟨f, b, _, e⟩ := hg a ha o ho e
  exact ⟨f, b, e⟩

/-- The log of C98 has one head, of 7 bytes, and three older versions. -/
example : storedBytes (storeAfter logHistory) ≤ 7 + 19 * 3 := by
  have := C99_total (h := logHistory) GoodHistory.four (by unfold ContentsFit; decide +kernel)
    logHistory_grows.containsBase
  have e1 : ((logHistory.filter fun a => IsHead logHistory a.tag).map (·.content.length)).sum = 7 := by
    decide +kernel
  have e2 : (logHistory.filter fun a => ¬ IsHead logHistory a.tag).length = 3 := by decide +kernel
  rw [e1, e2] at this
  exact this

/-- In fact each older version takes three bytes: the empty piece, start and stop. -/
example : (storeAfter logHistory).diffs = [(0, [0, 0, 2]), (1, [0, 0, 3]), (2, [0, 0, 5])] ∧
    storedBytes (storeAfter logHistory) = 7 + 3 * 3 := by decide +kernel

/-- With `LineTokenizer` the positions count lines, and the unfinished line of version 1 is stored. -/
example : (runHistory (memoryTree Nat) lineTokenizer.bytesOps (emptyVersions Nat) logHistory).diffs =
    [(0, [0, 0, 1, 0, 2, 3]), (1, [0, 0, 1, 1, 98]), (2, [0, 0, 2, 0, 3, 4])] := by decide +kernel

example {t : Nat} {d : Bytes} (hd : (t, d) ∈
    (runHistory (memoryTree Nat) lineTokenizer.bytesOps (emptyVersions Nat) logHistory).diffs) :
    ∃ a ∈ logHistory, a.tag = t ∧ ∀ front last, a.content = front ++ last → EndsLine front →
      (10 : UInt8) ∉ last → d.length ≤ 2 + 4 * 1 + last.length :=
  C99_line_delta_size (N := 240) GoodHistory.four logHistory_grows (by decide) (by decide +kernel)
    (fun k e hk he => by
      obtain ⟨c, n, p, h1, h2, h3, h4⟩ := vser_spec (show k < 2 ^ 64 by omega)
      rw [h1] at he
      cases he
      unfold Code at h4
      simp only [List.length_cons, bytesBE_length]
      omega) hd

end Gaspra
