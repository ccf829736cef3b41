import Verif.Proofs.Recursion
import Verif.Proofs.Tokenized

/-!
# The size of a stored delta, and which deltas an `add` stores (used by C78)
-/

set_option linter.unusedSectionVars false
set_option linter.unusedSimpArgs false
set_option linter.unusedVariables false

namespace Gaspra

theorem encV_zero : encV 0 = [0] := by decide

theorem stripForward_append {α : Type _} (a b : List (ChangeItem α)) :
    stripForward (a ++ b) = stripForward a ++ stripForward b := by
  simp [stripForward, List.filterMap_append]

theorem strip_node {α : Type _} (co cm : Slice) (p s : Changeset α) :
    stripForward (Changeset.node co cm p s).asChangeStream =
      stripForward p.asChangeStream ++ .slice co :: stripForward s.asChangeStream := by
  simp [Changeset.asChangeStream, stripForward, List.filterMap_append]

theorem strip_leaf {α : Type _} (x y : List α) (os ms : Slice) :
    stripForward (Changeset.leaf x y os ms).asChangeStream = if y = [] then [] else [.piece y] := by
  cases x <;> cases y <;> simp [Changeset.asChangeStream, bothEmpty, stripForward]

/-- A patch that does not start with a piece. -/
def NoPiece : List (PatchItem UInt8) → Prop
  | .piece _ :: _ => False
  | _ => True

theorem encAll_false_le {rest : List (PatchItem UInt8)} (h : NoPiece rest) :
    (encAll false rest).length ≤ (encAll true rest).length := by
  cases rest with
  | nil => simp [encAll]
  | cons c rest =>
    cases c with
    | piece b => exact h.elim
    | slice sl => simp only [encAll, List.length_append]; omega

theorem Valid.encAll_le {i j : Nat} {x y : List UInt8} {cs : Changeset UInt8}
    (V : Valid i x j y cs) {w N : Nat} (hw : ∀ k, k ≤ N → (encV k).length ≤ w) :
    i + x.length ≤ N → y.length ≤ N → ∀ rest, NoPiece rest →
      (encAll true (stripForward cs.asChangeStream ++ rest)).length ≤
        (1 + 2 * w) * y.length + (encAll true rest).length := by
  have hw1 : 1 ≤ w := by have := hw 0 (by omega); rw [encV_zero] at this; simpa using this
  induction V with
  | leaf h =>
    intro hx hy rest hr
    rw [strip_leaf]
    rename_i x y _ _
    split
    · simp
    · next hne =>
      have h1 : 1 ≤ y.length := by
        cases y with
        | nil => exact absurd rfl hne
        | cons => simp
      have h2 := hw y.length hy
      have h3 := encAll_false_le hr
      have h4 : 2 * w * 1 ≤ 2 * w * y.length := Nat.mul_le_mul_left _ h1
      simp only [List.cons_append, List.nil_append, encAll, List.length_append, Nat.add_mul]
      omega
  | node hne hmax hf hfO hp hs ihp ihs =>
    intro hx hy rest hr
    rename_i i j x1 u x2 y1 y2 p s
    simp only [List.length_append] at hx hy
    have hu : 1 ≤ u.length := by
      cases u with
      | nil => exact absurd rfl hne
      | cons => simp
    rw [strip_node, List.append_assoc, List.cons_append]
    refine Nat.le_trans (ihp (by omega) (by omega) _ trivial) ?_
    have h1 := ihs (by omega) (by omega) rest hr
    have h2 := hw (i + x1.length) (by omega)
    have h3 := hw (i + x1.length + u.length) (by omega)
    have h4 : (1 + 2 * w) * 1 ≤ (1 + 2 * w) * u.length := Nat.mul_le_mul_left _ hu
    simp only [encAll, encV_zero, List.length_append, Option.getD_some, Nat.mul_add, List.length_cons,
      List.length_nil]
    omega

theorem decodeItems_null (st : Unit) : ∀ items : List (PatchItem UInt8),
    decodeItems nullTok st items = .ok items
  | [] => rfl
  | .slice sl :: rest => by
    simp [decodeItems, decodeItems_null st rest, bind, Except.bind, pure, Except.pure]
  | .piece p :: rest => by
    have h := decodeItems_null st rest
    simp only [decodeItems, show nullTok.decode st p = .ok p from rfl, h, bind, Except.bind, pure,
      Except.pure]

theorem makeChangeset_null (a b : Bytes) : ∃ cs, Valid 0 a 0 b cs ∧
    makeChangeset nullTok a b = .ok (stripForward cs.asChangeStream) := by
  obtain ⟨cs, h, V⟩ := findChangeset_spec a b
  refine ⟨cs, V, ?_⟩
  simp only [makeChangeset, nullTok, bind, Except.bind, h]
  exact decodeItems_null () _

/-- What `_make_changeset` makes can be written and is at most `1 + 2 w` times as long as the
version, where `w` is the length of the longest number. -/
theorem delta_le {a b : Bytes} {items : List (PatchItem UInt8)} {w N : Nat}
    (hm : makeChangeset nullTok a b = .ok items) (hN : N < 2 ^ 64) (ha : a.length ≤ N)
    (hb : b.length ≤ N) (hw : ∀ k, k ≤ N → (encV k).length ≤ w) {d : Bytes}
    (hd : serializeChangeset items = .ok d) : d.length ≤ (1 + 2 * w) * b.length := by
  obtain ⟨cs, V, e⟩ := makeChangeset_null a b
  rw [e] at hm
  cases hm
  obtain ⟨hwf, _⟩ := V.patchForward (OccursAt.whole _) (OccursAt.whole _)
  have hfit : ∀ c ∈ stripForward cs.asChangeStream, c.Fits := by
    intro c hc
    have := hwf c hc
    cases c with
    | piece p =>
      have := this.2.length_le
      show p.length < 2 ^ 64
      omega
    | slice sl =>
      obtain ⟨e, h1, h2, h3⟩ := this
      exact ⟨by omega, e, h1, by omega⟩
  have hs := serializeLoop_spec _ true [] hfit
  rw [serializeChangeset, hs] at hd
  cases hd
  have := V.encAll_le hw (by omega) hb [] trivial
  simpa [encAll] using this

/-! ### A delta that is longer than the version -/

/-- The number of slices of a patch. -/
def sliceCount : List (PatchItem UInt8) → Nat
  | [] => 0
  | .slice _ :: rest => sliceCount rest + 1
  | .piece _ :: rest => sliceCount rest

theorem sliceCount_append : ∀ a b, sliceCount (a ++ b) = sliceCount a + sliceCount b
  | [], b => by simp [sliceCount]
  | .slice _ :: a, b => by simp [sliceCount, sliceCount_append a b]; omega
  | .piece _ :: a, b => by simp [sliceCount, sliceCount_append a b]

theorem literalCount_append : ∀ a b, literalCount (a ++ b) = literalCount a + literalCount b
  | [], b => by simp [literalCount]
  | .slice _ :: a, b => by simp [literalCount, literalCount_append a b]
  | .piece _ :: a, b => by simp [literalCount, literalCount_append a b]; omega

theorem encAll_ge : ∀ (items : List (PatchItem UInt8)) (nb : Bool), (∀ c ∈ items, c.Fits) →
    3 * sliceCount items + literalCount items ≤ (encAll nb items).length + (if nb then 0 else 1)
  | [], nb, _ => by simp [sliceCount, literalCount]
  | .piece b :: rest, nb, h => by
    have h1 := encAll_ge rest false fun c hc => h c (by simp [hc])
    have h2 := (encV_length (show b.length < 2 ^ 64 from h (.piece b) (by simp))).1
    cases nb <;> simp [encAll, sliceCount, literalCount] at h1 ⊢ <;> omega
  | .slice sl :: rest, nb, h => by
    have h1 := encAll_ge rest true fun c hc => h c (by simp [hc])
    obtain ⟨h2, e, h3, h4⟩ := h (.slice sl) (by simp)
    have h5 := (encV_length h2).1
    have h6 := (encV_length h4).1
    cases nb <;> simp [encAll, sliceCount, literalCount, h3, encV_zero] at h1 ⊢ <;> omega

theorem Valid.depth_le_slices {i j : Nat} {x y : List UInt8} {cs : Changeset UInt8}
    (V : Valid i x j y cs) : cs.depth ≤ sliceCount (stripForward cs.asChangeStream) + 1 := by
  induction V with
  | leaf h => rw [strip_leaf]; split <;> simp [Changeset.depth, sliceCount]
  | node hne hmax hf hfO hp hs ihp ihs =>
    rw [strip_node, sliceCount_append]
    simp only [sliceCount, Changeset.depth]
    omega

theorem Valid.count_le_literal {i j : Nat} {x y : List UInt8} {cs : Changeset UInt8}
    (V : Valid i x j y cs) {t : UInt8} (ht : t ∉ x) :
    y.count t ≤ literalCount (stripForward cs.asChangeStream) := by
  induction V with
  | leaf h =>
    rw [strip_leaf]
    rename_i x y _ _
    split
    · next e => subst e; simp
    · simpa [literalCount] using List.count_le_length (a := t) (l := y)
  | node hne hmax hf hfO hp hs ihp ihs =>
    simp only [List.mem_append, not_or] at ht
    rw [strip_node, literalCount_append]
    simp only [literalCount, List.count_append]
    have h1 := ihp ht.1.1
    have h2 := ihs ht.2
    have h3 := List.count_eq_zero.2 ht.1.2
    omega

theorem comb_count {a y : UInt8} (h : y ≠ a) : ∀ n, (comb a y n).count y = n
  | 0 => rfl
  | n + 1 => by
    simp [comb, List.count_cons, comb_count h n, Ne.symm h]

theorem comb_length {a y : UInt8} : ∀ n, (comb a y n).length = 2 * n
  | 0 => rfl
  | n + 1 => by simp [comb, comb_length n]; omega

theorem delta_ge {a x y : UInt8} (hxa : x ≠ a) (hya : y ≠ a) (hxy : x ≠ y) {n : Nat}
    (hn : 2 * n < 2 ^ 64) :
    ∃ items d, makeChangeset nullTok (comb a x n) (comb a y n) = .ok items ∧
      serializeChangeset items = .ok d ∧ 4 * n ≤ d.length := by
  obtain ⟨cs, V, e⟩ := makeChangeset_null (comb a x n) (comb a y n)
  obtain ⟨hwf, _⟩ := V.patchForward (OccursAt.whole _) (OccursAt.whole _)
  have hfit : ∀ c ∈ stripForward cs.asChangeStream, c.Fits := by
    intro c hc
    have := hwf c hc
    cases c with
    | piece p =>
      have := this.2.length_le
      rw [comb_length] at this
      show p.length < 2 ^ 64
      omega
    | slice sl =>
      obtain ⟨e, h1, h2, h3⟩ := this
      rw [comb_length] at h3
      exact ⟨by omega, e, h1, by omega⟩
  refine ⟨_, encAll true (stripForward cs.asChangeStream), e, ?_, ?_⟩
  · simpa [serializeChangeset] using serializeLoop_spec _ true [] hfit
  · have h1 := encAll_ge _ true hfit
    have h2 := V.depth_le_slices
    rw [comb_depth hxa hya hxy n 0 0 [] [] cs (.inl ⟨rfl, rfl⟩) V] at h2
    have h3 := V.count_le_literal (t := y) (fun h => by
      rcases mem_comb n h with h | h
      · exact hya h
      · exact hxy h.symm)
    rw [comb_count hya] at h3
    simp only [if_true] at h1
    omega

/-! ### What an `add` stores -/

section Adds

variable {τ T Tok S : Type _} [DecidableEq τ] [DecidableEq Tok]

/-- Deltas and head texts are the same for all tags outside `P`. -/
def OnlyAt (v v' : Versions τ T) (P : τ → Prop) : Prop :=
  ∀ y, ¬ P y → dget v'.diffs y = dget v.diffs y ∧ dget v'.headVersion y = dget v.headVersion y

theorem OnlyAt.refl {v v' : Versions τ T} {P : τ → Prop} (h1 : v'.diffs = v.diffs)
    (h2 : v'.headVersion = v.headVersion) : OnlyAt v v' P := by
  intro y _
  rw [h1, h2]
  exact ⟨rfl, rfl⟩

theorem OnlyAt.trans {v v' v'' : Versions τ T} {P Q : τ → Prop} (h : OnlyAt v v' P)
    (h' : OnlyAt v' v'' Q) : OnlyAt v v'' fun y => P y ∨ Q y := by
  intro y hn
  have h1 := h y fun e => hn (.inl e)
  have h2 := h' y fun e => hn (.inr e)
  exact ⟨h2.1.trans h1.1, h2.2.trans h1.2⟩

theorem OnlyAt.mono {v v' : Versions τ T} {P Q : τ → Prop} (h : OnlyAt v v' P)
    (hPQ : ∀ y, P y → Q y) : OnlyAt v v' Q := fun y hn => h y fun p => hn (hPQ y p)

theorem dget_ddel_ne {β : Type _} {k y : τ} (h : y ≠ k) : ∀ (d : List (τ × β)),
    dget (ddel d k) y = dget d y
  | [] => rfl
  | (k', z) :: d => by
    simp only [ddel]
    split
    · next e => simp only [dget]; rw [if_neg (fun e' => h (e'.symm.trans e))]
    · simp only [dget]; rw [dget_ddel_ne h d]

theorem addEdge_only (ops : TreeOps τ T) (v : Versions τ T) (p c : τ)
    (items : List (PatchItem UInt8)) : OnlyAt v (addEdge ops v p c items).1 (· = c) := by
  have key : ∀ (d : Bytes) (t : T) (hv : List (τ × Bytes)),
      hv = v.headVersion ∨ hv = ddel v.headVersion c →
      OnlyAt v ⟨hv, dset v.diffs c d, t⟩ (· = c) := by
    intro d t hv h y hn
    refine ⟨dget_dset_ne _ _ (Ne.symm hn), ?_⟩
    rcases h with rfl | rfl
    · rfl
    · exact dget_ddel_ne hn _
  unfold addEdge
  split
  · exact OnlyAt.refl rfl rfl
  · dsimp only
    split
    · exact key _ _ _ (.inl rfl)
    · split
      · exact key _ _ _ (.inr rfl)
      · exact key _ _ _ (.inl rfl)

theorem addOldHead_only (ops : TreeOps τ T) (tk : TokOps Tok S) (v : Versions τ T) (tag : τ)
    (c : Bytes) (b : τ) : OnlyAt v (addOldHead ops tk v tag c b).1 (· = b) := by
  unfold addOldHead
  split
  · exact OnlyAt.refl rfl rfl
  · split
    · exact OnlyAt.refl rfl rfl
    · exact addEdge_only ops v tag b _

theorem addSplit_only (ops : TreeOps τ T) (tk : TokOps Tok S) (v : Versions τ T) (tag : τ)
    (c : Bytes) (s : τ) (path : List τ) : OnlyAt v (addSplit ops tk v tag c s path).1 (· = s) := by
  unfold addSplit
  split
  · exact OnlyAt.refl rfl rfl
  · split
    · exact OnlyAt.refl rfl rfl
    · next cs _ =>
      have h := addEdge_only ops v tag s cs
      split
      · next v' e hv => rw [hv] at h; exact h
      · next v' hv =>
        rw [hv] at h
        exact fun y => h y

theorem addToHead_only (ops : TreeOps τ T) (tk : TokOps Tok S) (v : Versions τ T) (tag : τ)
    (c : Bytes) (b : τ) : OnlyAt v (addToHead ops tk v tag c b).1
      fun y => y = b ∨ ∃ path, ops.getSplit v.tree b = .ok (y, path) := by
  unfold addToHead
  split
  · exact OnlyAt.refl rfl rfl
  · next s path hs =>
    split
    · have h := addSplit_only ops tk v tag c s path
      split
      · next v' e hv =>
        rw [hv] at h
        exact h.mono fun y e => .inr ⟨path, by rw [e, hs]⟩
      · next v' hv =>
        rw [hv] at h
        refine (h.trans (addOldHead_only ops tk v' tag c b)).mono ?_
        rintro y (e | e)
        · exact .inr ⟨path, by rw [e, hs]⟩
        · exact .inl e
    · exact (addOldHead_only ops tk v tag c b).mono fun y e => .inl e

end Adds

end Gaspra
