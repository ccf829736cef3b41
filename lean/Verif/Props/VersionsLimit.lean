import Verif.Props.Versions
import Verif.Props.Tokenizers
import Verif.Props.Recursion
import Verif.Proofs.VersionsLimit

/-!
# C105: version stores survive `RecursionError`
-/

namespace Gaspra

variable {τ Tok S : Type _} [DecidableEq τ] [DecidableEq Tok]

/-- What holds of the store after calls of `add` with limits on the nesting of `find_changeset`. -/
structure SurvivesLimit (tk : TokOps Tok S) (hl : List (Nat × AddOp τ)) : Prop where
  /-- Every version is retrieved exactly, also those whose `add` raised. -/
  exact : ∀ c ∈ hl, versionsGet (memoryTree τ) tk
    (runLimited (memoryTree τ) tk (emptyVersions τ) hl).1 c.2.tag = .ok (some c.2.content)
  /-- The heads, which are stored in full, are the versions that no successful call was based on. -/
  heads : ∀ t b, dget (runLimited (memoryTree τ) tk (emptyVersions τ) hl).1.headVersion t = some b ↔
    t ∈ headsGiven (runLimited (memoryTree τ) tk (emptyVersions τ) hl).2 ∧
      b = contentOf (hl.map Prod.snd) t
  /-- A call without a base succeeds. -/
  first : ∀ h₁ c h₂, hl = h₁ ++ c :: h₂ → c.2.base = none →
    (versionsAddLim (memoryTree τ) tk c.1 (runLimited (memoryTree τ) tk (emptyVersions τ) h₁).1
      c.2.tag c.2.content c.2.base).2 = none
  /-- A call raises `KeyError` exactly if its base is not a head, and `RecursionError` if the
  changeset from the new version to its base is too deep; then and otherwise only if the changeset
  from the new version to some earlier version is too deep. -/
  based : ∀ h₁ c h₂ b, hl = h₁ ++ c :: h₂ → c.2.base = some b →
    let r := runLimited (memoryTree τ) tk (emptyVersions τ) h₁
    let e := (versionsAddLim (memoryTree τ) tk c.1 r.1 c.2.tag c.2.content c.2.base).2
    (e = some .keyError ↔ b ∉ headsGiven r.2) ∧
    (e = none ∨ e = some .keyError ∨ e = some .recursionError) ∧
    (b ∈ headsGiven r.2 → ∀ d,
      changesetDepth tk c.2.content (contentOf (h₁.map Prod.snd) b) = some d → c.1 < d →
      e = some .recursionError) ∧
    (e = some .recursionError → ∃ o ∈ h₁, ∃ d,
      changesetDepth tk c.2.content o.2.content = some d ∧ c.1 < d)

theorem FreshHistory.prefix {h : List (AddOp τ)} (F : FreshHistory h) : ∀ {h₁ h₂},
    h = h₁ ++ h₂ → FreshHistory h₁ := by
  induction F with
  | nil =>
    intro h₁ h₂ e
    rw [(List.append_eq_nil_iff.1 e.symm).1]
    exact .nil
  | @snoc h a F h1 h2 ih =>
    intro h₁ h₂ e
    rcases List.eq_nil_or_concat h₂ with rfl | ⟨h₃, o, rfl⟩
    · rw [List.append_nil] at e
      rw [← e]
      exact .snoc F h1 h2
    · rw [List.concat_eq_append, ← List.append_assoc] at e
      exact ih (List.append_inj' e rfl).1

theorem FreshHistory.last {h : List (AddOp τ)} {a : AddOp τ} (F : FreshHistory (h ++ [a])) :
    a.tag ∉ addedTags h ∧ a.base ≠ some a.tag := by
  generalize hg : h ++ [a] = g at F
  cases F with
  | nil => simp at hg
  | @snoc h' a' F' k1 k2 =>
    obtain ⟨rfl, e2⟩ := List.append_inj' hg rfl
    simp at e2; subst e2
    exact ⟨k1, k2⟩

theorem survivesLimit {P : Type _} {tk : TokOps Tok S} {Ok : Bytes → Prop} (L : LawfulTok tk P Ok)
    {hl : List (Nat × AddOp τ)} (F : FreshHistory (hl.map Prod.snd))
    (hc : ∀ a ∈ hl.map Prod.snd, Ok a.content ∧ a.content.length < 2 ^ 64) :
    SurvivesLimit tk hl := by
  have H := F.limited L hl rfl hc
  have pre : ∀ h₁ c h₂, hl = h₁ ++ c :: h₂ →
      LimitedOK L (h₁.map Prod.snd) (runLimited (memoryTree τ) tk (emptyVersions τ) h₁) ∧
      FreshHistory (h₁.map Prod.snd) ∧
      (c.2.tag ∉ addedTags (h₁.map Prod.snd) ∧ c.2.base ≠ some c.2.tag) ∧
      (Ok c.2.content ∧ c.2.content.length < 2 ^ 64) := by
    rintro h₁ c h₂ rfl
    have F1 : FreshHistory (h₁.map Prod.snd) := F.prefix (by rw [List.map_append])
    have F2 : FreshHistory (h₁.map Prod.snd ++ [c.2]) :=
      F.prefix (h₂ := h₂.map Prod.snd) (by simp)
    exact ⟨F1.limited L h₁ rfl fun a ha => hc a (by simp at ha ⊢; exact .inl ha), F1, F2.last,
      hc c.2 (by simp)⟩
  constructor
  · intro c hcm
    have hm : c.2 ∈ hl.map Prod.snd := List.mem_map.2 ⟨c, hcm, rfl⟩
    obtain ⟨nd, hnd⟩ : ∃ nd, dget (runLimited (memoryTree τ) tk (emptyVersions τ) hl).1.tree c.2.tag =
        some nd := by
      rw [dget_isSome_iff, H.keys]; exact List.mem_map.2 ⟨c.2, hm, rfl⟩
    rw [H.store.get_ok hnd, contentOf_mem F.nodup hm]
  · intro t b
    constructor
    · intro hd
      cases hg : dget (runLimited (memoryTree τ) tk (emptyVersions τ) hl).1.tree t with
      | none => rw [(H.store.absent hg).1] at hd; cases hd
      | some nd =>
        cases hp : nd.parent with
        | some p => rw [(H.store.inner hg hp).1] at hd; cases hd
        | none =>
          rw [(H.store.root hg hp).1] at hd
          cases hd
          exact ⟨(H.heads hg).1 hp, rfl⟩
    · rintro ⟨h1, rfl⟩
      obtain ⟨nd, hnd⟩ : ∃ nd, dget (runLimited (memoryTree τ) tk (emptyVersions τ) hl).1.tree t =
          some nd := by
        rw [dget_isSome_iff, H.keys]; exact H.headsAdded h1
      exact (H.store.root hnd ((H.heads hnd).2 h1)).1
  · intro h₁ c h₂ e hb
    obtain ⟨H1, F1, ⟨k1, k2⟩, k3, k4⟩ := pre h₁ c h₂ e
    obtain ⟨v', e', g1, g2, g3, g4, g5⟩ := H1.step c.1 k1 k2 k3 k4
    rw [g1]; exact g3 hb
  · intro h₁ c h₂ b e hb
    obtain ⟨H1, F1, ⟨k1, k2⟩, k3, k4⟩ := pre h₁ c h₂ e
    obtain ⟨v', e', g1, g2, g3, g4, g5⟩ := H1.step c.1 k1 k2 k3 k4
    simp only [g1]
    by_cases hbn : b ∈ headsGiven (runLimited (memoryTree τ) tk (emptyVersions τ) h₁).2
    · obtain ⟨j1, j2, j3⟩ := g5 b hb hbn
      refine ⟨?_, by rcases j1 with h | h <;> simp [h], ?_, ?_⟩
      · constructor
        · intro h; rcases j1 with h' | h' <;> rw [h] at h' <;> cases h'
        · intro h; exact absurd hbn h
      · intro _ d hd hlt
        rcases j1 with h | h
        · exact absurd h (j2 ⟨d, hd, hlt⟩)
        · exact h
      · intro h
        obtain ⟨x, hx, d, hd, hlt⟩ := j3 (by rw [h]; simp)
        obtain ⟨o, ho, rfl⟩ := List.mem_map.1 hx
        rw [contentOf_mem F1.nodup ho] at hd
        obtain ⟨o', ho', rfl⟩ := List.mem_map.1 ho
        exact ⟨o', ho', d, hd, hlt⟩
    · have he := g4 b hb hbn
      subst he
      exact ⟨⟨fun _ => hbn, fun _ => rfl⟩, .inr (.inl rfl), fun h => absurd h hbn, fun h => by cases h⟩

/-- C105.  Calls of `add` with new tags whose diffs run into the recursion limit leave a consistent
store: every version is still retrieved exactly, including those whose `add` raised `RecursionError`,
and the base of such a call is still a head. -/
theorem C105_survives {hl : List (Nat × AddOp τ)} (F : FreshHistory (hl.map Prod.snd))
    (hc : ContentsFit (hl.map Prod.snd)) : SurvivesLimit nullTok hl :=
  survivesLimit nullLawful F fun a ha => ⟨trivial, hc a ha⟩

/-- C105, `CharTokenizer`. -/
theorem C105_survives_chars {hl : List (Nat × AddOp τ)} (F : FreshHistory (hl.map Prod.snd))
    (hc : Utf8Contents (hl.map Prod.snd)) : SurvivesLimit charTokenizer.bytesOps hl :=
  survivesLimit charLawful F hc

/-- C105, `SymbolTokenizer`. -/
theorem C105_survives_symbols (cls : Nat → Bool) {hl : List (Nat × AddOp τ)}
    (F : FreshHistory (hl.map Prod.snd)) (hc : Utf8Contents (hl.map Prod.snd)) :
    SurvivesLimit (symbolTokenizer cls).bytesOps hl :=
  survivesLimit (symbolLawful cls) F hc

/-- C105.  For every tree and tokenizer, a call that does not raise `RecursionError` does exactly
what it does without a limit. -/
theorem C105_same {T : Type _} (ops : TreeOps τ T) (tk : TokOps Tok S) (limit : Nat)
    (v : Versions τ T) (tag : τ) (c : Bytes) (base : Option τ)
    (h : (versionsAddLim ops tk limit v tag c base).2 ≠ some .recursionError) :
    versionsAddLim ops tk limit v tag c base = versionsAdd ops tk v tag c base :=
  (versionsAddLim_same ops tk limit v tag c base).resolve_right h

theorem changesetDepth_null (a b : Bytes) :
    ∃ d, changesetDepth nullTok a b = some d ∧ d ≤ min a.length b.length + 1 ∧
      ∀ limit, findChangesetAux a b limit ⟨0, none⟩ ⟨0, none⟩ = none ↔ limit < d := by
  obtain ⟨cs, h, V⟩ := findChangeset_spec a b
  refine ⟨cs.depth, ?_, V.depth_le.1, ?_⟩
  · show (findChangeset a b).map Changeset.depth = _
    rw [h]; rfl
  · intro limit
    rw [findChangesetAux_limit _ _ _ _ _ _ h limit]
    split <;> simp <;> omega

/-- C105.  A call whose limit is larger than the version that it adds never raises
`RecursionError`. -/
theorem C105_short {hl : List (Nat × AddOp τ)} {c : Nat × AddOp τ}
    (F : FreshHistory ((hl ++ [c]).map Prod.snd)) (hc : ContentsFit ((hl ++ [c]).map Prod.snd))
    (hlim : c.2.content.length < c.1) :
    (versionsAddLim (memoryTree τ) nullTok c.1
      (runLimited (memoryTree τ) nullTok (emptyVersions τ) hl).1 c.2.tag c.2.content c.2.base).2 ≠
      some .recursionError := by
  intro he
  have S := C105_survives F hc
  cases hb : c.2.base with
  | none => rw [S.first hl c [] rfl hb] at he; cases he
  | some b =>
    obtain ⟨_, _, _, h4⟩ := S.based hl c [] b rfl hb
    obtain ⟨o, _, d, hd, hlt⟩ := h4 he
    obtain ⟨d', k1, k2, _⟩ := changesetDepth_null c.2.content o.2.content
    rw [hd] at k1; cases k1; omega

/-- C105.  The exception is raised for contents of every length: adding `n` times `a`, `y` on top of
`n` times `a`, `x` raises it if at most `n` calls may be nested.  Both versions are heads and are
retrieved exactly afterwards, and adding the content again under another tag with a larger limit
succeeds. -/
theorem C105_deep (a x y : UInt8) (hxa : x ≠ a) (hya : y ≠ a) (hxy : x ≠ y) (n limit enough : Nat)
    (hn : n < 2 ^ 63) (hl : limit ≤ n) (he : 2 * n < enough) :
    let cx := (List.replicate n [a, x]).flatten
    let cy := (List.replicate n [a, y]).flatten
    let h : List (Nat × AddOp Nat) :=
      [(0, ⟨0, cx, none⟩), (limit, ⟨1, cy, some 0⟩), (enough, ⟨2, cy, some 0⟩)]
    let r := runLimited (memoryTree Nat) nullTok (emptyVersions Nat) h
    r.2.map Prod.snd = [none, some .recursionError, none] ∧ headsGiven r.2 = [1, 2] ∧
      ∀ t, t < 3 → versionsGet (memoryTree Nat) nullTok r.1 t =
        .ok (some (if t = 0 then cx else cy)) := by
  intro cx cy h r
  have hlen : ∀ z, ((List.replicate n [a, z]).flatten).length = 2 * n := by
    intro z; clear hl hn he
    induction n with
    | zero => rfl
    | succ n ih => simp [List.replicate_succ] at ih ⊢; omega
  have F : FreshHistory (h.map Prod.snd) := by
    show FreshHistory ((([] ++ [_]) ++ [_]) ++ [_])
    exact .snoc (.snoc (.snoc .nil (by simp [addedTags]) (by simp)) (by simp [addedTags])
      (by simp)) (by simp [addedTags]) (by simp)
  have hc : ContentsFit (h.map Prod.snd) := by
    intro o ho
    simp [h] at ho
    rcases ho with rfl | rfl | rfl
    · show cx.length < _
      have : cx.length = 2 * n := hlen x
      omega
    · show cy.length < _
      have : cy.length = 2 * n := hlen y
      omega
    · show cy.length < _
      have : cy.length = 2 * n := hlen y
      omega
  have S := C105_survives F hc
  let h0 : List (Nat × AddOp Nat) := []
  let c0 : Nat × AddOp Nat := (0, ⟨0, cx, none⟩)
  let c1 : Nat × AddOp Nat := (limit, ⟨1, cy, some 0⟩)
  let c2 : Nat × AddOp Nat := (enough, ⟨2, cy, some 0⟩)
  have e0 : (runLimited (memoryTree Nat) nullTok (emptyVersions Nat) [c0]).2 = [(c0.2, none)] := by
    show (runLimited (memoryTree Nat) nullTok (emptyVersions Nat) ([] ++ [c0])).2 = _
    rw [runLimited_snoc, S.first [] c0 [c1, c2] rfl rfl]; rfl
  have e1 : (runLimited (memoryTree Nat) nullTok (emptyVersions Nat) [c0, c1]).2 =
      [(c0.2, none), (c1.2, some .recursionError)] := by
    show (runLimited (memoryTree Nat) nullTok (emptyVersions Nat) ([c0] ++ [c1])).2 = _
    rw [runLimited_snoc, e0]
    obtain ⟨_, _, h3, _⟩ := S.based [c0] c1 [c2] 0 rfl rfl
    obtain ⟨d, k1, k2, k3⟩ := changesetDepth_null cy cx
    have hd : limit < d := (k3 limit).1 (C61_recursion_deep a y x hya hxa (Ne.symm hxy) n limit hl)
    rw [h3 (by rw [e0]; show 0 ∈ [0]; simp) d k1 hd]; rfl
  have e2 : r.2 = [(c0.2, none), (c1.2, some .recursionError), (c2.2, none)] := by
    show (runLimited (memoryTree Nat) nullTok (emptyVersions Nat) ([c0, c1] ++ [c2])).2 = _
    rw [runLimited_snoc, e1]
    obtain ⟨h1, h2, _, _⟩ := S.based [c0, c1] c2 [] 0 rfl rfl
    have hne := C105_short (hl := [c0, c1]) (c := c2) F hc (by
      show cy.length < enough
      have : cy.length = 2 * n := hlen y
      omega)
    rcases h2 with h | h | h
    · rw [h]; rfl
    · exact absurd (by rw [e1]; show 0 ∈ [0, 1]; simp) (h1.1 h)
    · exact absurd h hne
  refine ⟨by rw [e2]; rfl, by rw [e2]; rfl, ?_⟩
  intro t ht
  have hcase : t = 0 ∨ t = 1 ∨ t = 2 := by omega
  rcases hcase with rfl | rfl | rfl
  · exact S.exact c0 (by simp [h, c0])
  · exact S.exact c1 (by simp [h, c1])
  · exact S.exact c2 (by simp [h, c2])

/-- Versions 0, 1 and 2 in a line, then a version whose changeset to the middle of that line can be
made but whose changeset to its base cannot. -/
def deepSample : List (Nat × AddOp Nat) :=
  [(9, ⟨0, [1, 2, 3], none⟩), (9, ⟨1, [1, 2, 4], some 0⟩), (9, ⟨2, [1, 5, 1, 6, 1], some 1⟩),
    (2, ⟨3, [1, 7, 1, 8, 1], some 2⟩), (9, ⟨4, [1, 9], some 2⟩), (0, ⟨5, [4], some 1⟩)]

example : FreshHistory (deepSample.map Prod.snd) ∧ ContentsFit (deepSample.map Prod.snd) := by
  constructor
  · show FreshHistory (((((([] ++ [_]) ++ [_]) ++ [_]) ++ [_]) ++ [_]) ++ [_])
    exact .snoc (.snoc (.snoc (.snoc (.snoc (.snoc .nil (by decide) (by decide)) (by decide)
      (by decide)) (by decide) (by decide)) (by decide) (by decide)) (by decide) (by decide))
      (by decide) (by decide)
  · intro a ha
    simp [deepSample] at ha
    rcases ha with rfl | rfl | rfl | rfl | rfl | rfl <;> decide

-- The fourth call moves version 1 below version 3 before it raises; 2 stays a head, so the fifth call
-- succeeds.
example : (runLimited (memoryTree Nat) nullTok (emptyVersions Nat) deepSample).2.map Prod.snd =
      [none, none, none, some .recursionError, none, some .keyError] ∧
    headsGiven (runLimited (memoryTree Nat) nullTok (emptyVersions Nat) deepSample).2 = [3, 4, 5] ∧
    (runLimited (memoryTree Nat) nullTok (emptyVersions Nat) deepSample).1.tree.map
        (fun p => (p.1, p.2.parent)) =
      [(0, some 4), (1, some 3), (2, some 4), (3, none), (4, none), (5, none)] ∧
    changesetDepth nullTok [1, 7, 1, 8, 1] [1, 5, 1, 6, 1] = some 4 ∧
    changesetDepth nullTok [1, 7, 1, 8, 1] [1, 2, 4] = some 2 := by decide +kernel
example : ∀ c ∈ deepSample, versionsGet (memoryTree Nat) nullTok
    (runLimited (memoryTree Nat) nullTok (emptyVersions Nat) deepSample).1 c.2.tag =
      .ok (some c.2.content) := by decide +kernel

end Gaspra
