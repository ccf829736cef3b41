import Verif.Proofs.GrowLines
import Verif.Proofs.DeltaSize
import Verif.Spec.Storage

set_option linter.unusedSectionVars false
set_option linter.unusedSimpArgs false
set_option linter.unusedVariables false

/-! # How much a version store needs for texts that only grow (used by C99) -/

namespace Gaspra

section
variable {Tok S P : Type _} [DecidableEq Tok] {tk : TokOps Tok S} {Ok : Bytes → Prop}

/-- A lawful tokenizer can be used with any transitive relation. -/
def LawfulTok.deltaTok (L : LawfulTok tk P Ok) {G : Bytes → Bytes → Prop}
    (trans : ∀ {a b c}, G a b → G b c → G a c) :
    DeltaTok tk G (fun b => Ok b ∧ b.length < 2 ^ 64) where
  Rep st toks b := L.Inv st ∧ L.Ready st ∧ Ok b ∧ toks.map (L.den st) = (L.split b).map some
  trans := trans
  start {b} hb := by
    obtain ⟨toks, st, a1, a2, a3, a4, _⟩ := L.encode_ok L.init_inv hb.1
    exact ⟨toks, st, a1, a2, a3, hb.1, a4⟩
  fin := by
    rintro st toks b ⟨h1, h2, h3, h4⟩
    rw [L.decode_ok h1 h2 h4, L.split_text h3]
  delta := by
    intro a b _ ha hb
    obtain ⟨items, m1, m2⟩ := makeChangeset_ok L ha.1 hb.1
    obtain ⟨d, s1, s2⟩ := serializeDelta L ha.1 hb.1 ha.2 hb.2 m2 m1
    refine ⟨items, d, m1, s1, ?_⟩
    rintro st toks ⟨h1, h2, h3, h4⟩
    obtain ⟨items', k1, ⟨Q, rfl, k2, k3⟩, _⟩ := s2
    obtain ⟨eitems, st', g1, g2, g3, g4, g5⟩ := encodeItems_ok L hb.1 h1 k3
    refine ⟨_, eitems, st', k1, g1, g3, g4 h2, hb.1, ?_⟩
    rw [relItems_apply (map_den_mono g5 h4) g2, k2]

theorem map_den_inj {den : Tok → Option P}
    (inj : ∀ {t t' p}, den t = some p → den t' = some p → t = t') : ∀ {x y : List Tok}
    {ps : List P}, x.map den = ps.map some → y.map den = ps.map some → x = y
  | [], [], _, _, _ => rfl
  | [], _ :: _, ps, h1, h2 => by cases ps <;> simp at h1 h2
  | _ :: _, [], ps, h1, h2 => by cases ps <;> simp at h1 h2
  | t :: x, t' :: y, [], h1, _ => by simp at h1
  | t :: x, t' :: y, p :: ps, h1, h2 => by
    simp only [List.map_cons, List.cons.injEq] at h1 h2
    rw [inj h1.1 h2.1, map_den_inj inj h1.2 h2.2]

/-- The patch from a text to a part of it is at most one slice. -/
theorem LawfulTok.infix_delta (L : LawfulTok tk P Ok)
    (inj : ∀ {st t t' p}, L.Inv st → L.den st t = some p → L.den st t' = some p → t = t')
    {a b : Bytes} (ha : Ok a) (hb : Ok b) (h : L.split b <:+: L.split a) :
    ∃ sl : List Slice, makeChangeset tk a b = .ok (sl.map .slice) ∧ sl.length ≤ 1 ∧
      ∀ s ∈ sl, ∃ n, s.stop = some n ∧ s.start < n ∧ n ≤ (L.split a).length := by
  obtain ⟨ea, st1, a1, a2, a3, a4, a5⟩ := L.encode_ok L.init_inv ha
  obtain ⟨eb, st2, b1, b2, b3, b4, b5⟩ := L.encode_ok a2 hb
  have a4' := map_den_mono b5 a4
  have hin : eb <:+: ea := by
    obtain ⟨l, r, e⟩ := h
    rw [← e, List.map_append, List.map_append] at a4'
    obtain ⟨x, y, rfl, e2, e3⟩ := List.map_eq_append_iff.1 a4'
    obtain ⟨z, w, rfl, e4, e5⟩ := List.map_eq_append_iff.1 e2
    rw [map_den_inj (fun h1 h2 => inj b2 h1 h2) b4 e5]
    exact ⟨z, y, rfl⟩
  obtain ⟨cs, hc, V⟩ := findChangeset_spec ea eb
  have hwf := (V.patchForward (OccursAt.whole _) (OccursAt.whole _)).1
  obtain ⟨sl, e, hn⟩ := V.slices_infix hin
  have hlen : ea.length = (L.split a).length := by
    have := congrArg List.length a4'
    simpa using this
  refine ⟨sl, ?_, hn, ?_⟩
  · have hd := decodeItems_ok L b2 b3 (relItems_slices (L.den st2) sl)
    simp only [makeChangeset, a1, bind, Except.bind, b1, hc, e]
    rw [hd]
    simp [textItem]
  · intro s hs
    rw [e] at hwf
    obtain ⟨n, k1, k2, k3⟩ := hwf (.slice s) (List.mem_map.2 ⟨s, hs, rfl⟩)
    exact ⟨n, k1, k2, by omega⟩

end

/-! ### Serialized lengths -/

theorem encAll_slices_le {w N : Nat} (hw : ∀ k, k ≤ N → (encV k).length ≤ w) :
    ∀ {sl : List Slice} (rest : List (PatchItem UInt8)),
      (∀ s ∈ sl, ∃ n, s.stop = some n ∧ s.start < n ∧ n ≤ N) →
      (encAll true (sl.map .slice ++ rest)).length ≤
        (1 + 2 * w) * sl.length + (encAll true rest).length
  | [], rest, _ => by simp
  | s :: sl, rest, h => by
    have ih := encAll_slices_le hw (sl := sl) rest fun s hs => h s (by simp [hs])
    obtain ⟨n, k1, k2, k3⟩ := h s (by simp)
    have h1 := hw s.start (by omega)
    have h2 := hw n k3
    simp only [List.map_cons, List.cons_append, encAll, encV_zero, List.length_append, k1,
      Option.getD_some, List.length_cons, List.length_nil, Nat.mul_add]
    omega

theorem serialize_encAll {items : List (PatchItem UInt8)} {d : Bytes} (hf : ∀ c ∈ items, c.Fits)
    (h : serializeChangeset items = .ok d) : d = encAll true items := by
  have : serializeChangeset items = .ok (encAll true items) := by
    simpa [serializeChangeset] using serializeLoop_spec items true [] hf
  rw [this] at h; cases h; rfl

theorem slices_fit {sl : List Slice} {N : Nat} (hN : N < 2 ^ 64)
    (h : ∀ s ∈ sl, ∃ n, s.stop = some n ∧ s.start < n ∧ n ≤ N) :
    ∀ c ∈ sl.map (PatchItem.slice (α := UInt8)), c.Fits := by
  intro c hc
  obtain ⟨s, hs, rfl⟩ := List.mem_map.1 hc
  obtain ⟨n, k1, k2, k3⟩ := h s hs
  exact ⟨by omega, n, k1, by omega⟩

theorem serialized_slices_le {sl : List Slice} {N w : Nat} (hN : N < 2 ^ 64)
    (hw : ∀ k, k ≤ N → (encV k).length ≤ w)
    (h : ∀ s ∈ sl, ∃ n, s.stop = some n ∧ s.start < n ∧ n ≤ N) {d : Bytes}
    (hd : serializeChangeset (sl.map .slice) = .ok d) : d.length ≤ (1 + 2 * w) * sl.length := by
  rw [serialize_encAll (slices_fit hN h) hd]
  have := encAll_slices_le hw [] h
  simpa [encAll] using this

theorem serialized_slices_piece_le {sl : List Slice} {e : Bytes} {N w : Nat} (hN : N < 2 ^ 64)
    (hw : ∀ k, k ≤ N → (encV k).length ≤ w) (he : e.length ≤ N)
    (h : ∀ s ∈ sl, ∃ n, s.stop = some n ∧ s.start < n ∧ n ≤ N) {d : Bytes}
    (hd : serializeChangeset (sl.map .slice ++ [.piece e]) = .ok d) :
    d.length ≤ (1 + 2 * w) * sl.length + w + e.length := by
  rw [serialize_encAll (by
    intro c hc
    rcases List.mem_append.1 hc with hc | hc
    · exact slices_fit hN h c hc
    · simp at hc; subst hc
      show e.length < 2 ^ 64
      omega) hd]
  have := encAll_slices_le hw [.piece e] h
  have := hw _ he
  simp only [encAll, List.length_append, List.length_nil] at *
  omega

/-- Every stored delta belongs to a version that is not a head. -/
theorem GrowHistory.delta {τ Tok S : Type _} [DecidableEq τ] [DecidableEq Tok] {tk : TokOps Tok S}
    {G : Bytes → Bytes → Prop} {Fit : Bytes → Prop} {L : DeltaTok tk G Fit} {h : List (AddOp τ)}
    {v : Versions τ (MTree τ)} (H : GrowHistory L h v) (hn : (addedTags h).Nodup) {t : τ} {d : Bytes}
    (hd : (t, d) ∈ v.diffs) : t ∉ headsOf h ∧ ∃ a ∈ h, a.tag = t ∧ ∃ o ∈ h, G a.content o.content ∧
      ∃ items, makeChangeset tk o.content a.content = .ok items ∧ serializeChangeset items = .ok d := by
  have hd' := dget_of_mem H.store.dfNodup hd
  have find : ∀ {x nd}, dget v.tree x = some nd → ∃ a ∈ h, a.tag = x ∧ contentOf h x = a.content := by
    intro x nd hx
    have : x ∈ addedTags h := by rw [← H.keys]; exact mem_keys_of_dget hx
    obtain ⟨a, ha, rfl⟩ := List.mem_map.1 this
    exact ⟨a, ha, rfl, contentOf_mem hn ha⟩
  cases hx : dget v.tree t with
  | none => rw [(H.store.absent hx).2] at hd'; cases hd'
  | some nd =>
    cases hp : nd.parent with
    | none => rw [(H.store.root hx hp).2] at hd'; cases hd'
    | some p =>
      obtain ⟨_, hG, d', items, k1, k2, k3, _⟩ := H.store.inner hx hp
      rw [hd'] at k1; cases k1
      obtain ⟨np, hnp, _⟩ := H.store.tree.up hx hp
      obtain ⟨a, ha, e1, e2⟩ := find hx
      obtain ⟨o, ho, e3, e4⟩ := find hnp
      rw [e2, e4] at hG k2
      refine ⟨?_, a, ha, e1, o, ho, hG, items, k2, k3⟩
      intro hh
      rw [← H.heads hx, hp] at hh; cases hh

theorem byteLines_one {e : Bytes} (h : (10 : UInt8) ∉ e) : byteLines e = [e] := by
  obtain ⟨init, last, l1, l2, l3, l4⟩ := byteLines_shape e
  cases init with
  | nil => simp at l3; rw [l1, l3]; rfl
  | cons p init =>
    obtain ⟨q, rfl, _⟩ := l4 p (by simp)
    exact absurd (by rw [l3]; simp) h

/-! ### Totals -/

theorem sum_map_perm {α : Type _} {l l' : List α} (f : α → Nat) (h : l.Perm l') :
    (l.map f).sum = (l'.map f).sum := by
  induction h with
  | nil => rfl
  | cons x _ ih => simp [ih]
  | swap x y l => simp; omega
  | trans _ _ ih1 ih2 => rw [ih1, ih2]

theorem nodup_of_map {α β : Type _} {f : α → β} {l : List α} (h : (l.map f).Nodup) : l.Nodup :=
  List.Pairwise.of_map f (fun _ _ hn e => hn (congrArg f e)) h

theorem perm_of_mem_iff {α : Type _} [DecidableEq α] : ∀ {l l' : List α}, l.Nodup → l'.Nodup →
    (∀ x, x ∈ l ↔ x ∈ l') → l.Perm l'
  | [], [], _, _, _ => .nil
  | [], y :: l', _, _, h => absurd ((h y).2 (by simp)) (by simp)
  | x :: l, l', h1, h2, h => by
    have hx : x ∈ l' := (h x).1 (by simp)
    obtain ⟨s, r, rfl⟩ := List.append_of_mem hx
    have h3 : (x :: (s ++ r)).Perm (s ++ x :: r) := List.perm_middle.symm
    have h4 : (x :: (s ++ r)).Nodup := h3.nodup_iff.2 h2
    refine .trans (.cons x (perm_of_mem_iff (List.nodup_cons.1 h1).2 (List.nodup_cons.1 h4).2 ?_)) h3
    intro y
    have h5 := (h y).trans h3.mem_iff.symm
    simp only [List.mem_cons] at h5
    constructor
    · intro hy
      rcases h5.1 (Or.inr hy) with e | e
      · subst e; exact absurd hy (List.nodup_cons.1 h1).1
      · exact e
    · intro hy
      rcases h5.2 (Or.inr hy) with e | e
      · subst e; exact absurd hy (List.nodup_cons.1 h4).1
      · exact e

theorem sum_le_length_mul {l : List Nat} {k : Nat} (h : ∀ x ∈ l, x ≤ k) : l.sum ≤ k * l.length := by
  induction l with
  | nil => simp
  | cons x l ih =>
    have h1 := ih fun y hy => h y (by simp [hy])
    have h2 := h x (by simp)
    simp only [List.sum_cons, List.length_cons, Nat.mul_add]
    omega

end Gaspra
