import Verif.Props.Store
import Verif.Proofs.DBTags
import Verif.Proofs.LineVersions

/-!
# C90: tags in `TEXT` columns

`col` is what a column holds for a tag (`Model/DBTags.lean`); `DBTag.column` is the instance for
strings and integers.
-/

namespace Gaspra

variable {τ Tok S : Type _} [DecidableEq τ] [DecidableEq Tok]

theorem addedTags_convert (col : τ → τ) (h : List (AddOp τ)) :
    addedTags (h.map (convertOp col)) = (addedTags h).map col := by
  simp [addedTags, convertOp, Function.comp_def]

/-- C90.  A store with all its parts in the database works with the converted tags: the calls do and
raise what the same calls with converted tags do and raise, and every answer is the answer for the
converted tag. -/
theorem C90_converted (tk : TokOps Tok S) {col : τ → τ} (hcol : ∀ t, col (col t) = col t)
    {h : List (AddOp τ)} (F : FreshHistory (h.map (convertOp col))) :
    storeErrors (textColl col) (textTree col) tk (emptyDBStore τ) h =
      storeErrors (collOps τ) (dbTree τ) tk (emptyDBStore τ) (h.map (convertOp col)) ∧
    ∀ x, storeGet (textColl col) (textTree col) tk
          (runStore (textColl col) (textTree col) tk (emptyDBStore τ) h) x =
        storeGet (collOps τ) (dbTree τ) tk
          (runStore (collOps τ) (dbTree τ) tk (emptyDBStore τ) (h.map (convertOp col))) (col x) ∧
      storeContains (textTree col)
          (runStore (textColl col) (textTree col) tk (emptyDBStore τ) h) x =
        storeContains (dbTree τ)
          (runStore (collOps τ) (dbTree τ) tk (emptyDBStore τ) (h.map (convertOp col))) (col x) := by
  have tree : ∀ k : List (AddOp τ),
      (runStore (collOps τ) (dbTree τ) tk (emptyDBStore τ) k).tree =
        (runHistory (dbTree τ) tk (emptyDBVersions τ) k).tree := fun k =>
    (runStore_like (collOps_like (τ := τ)) (ops := dbTree τ) (tk := tk) k
      (s := emptyDBStore τ) (v := emptyDBVersions τ) ⟨⟨rfl, .nil⟩, ⟨rfl, .nil⟩, rfl⟩).1.tree
  have main : runStore (textColl col) (textTree col) tk (emptyDBStore τ) h =
        runStore (collOps τ) (dbTree τ) tk (emptyDBStore τ) (h.map (convertOp col)) ∧
      storeErrors (textColl col) (textTree col) tk (emptyDBStore τ) h =
        storeErrors (collOps τ) (dbTree τ) tk (emptyDBStore τ) (h.map (convertOp col)) := by
    have go : ∀ (h2 : List (AddOp τ)) (h1 : List (AddOp τ)), h1 ++ h2 = h →
        ∀ s, s = runStore (collOps τ) (dbTree τ) tk (emptyDBStore τ) (h1.map (convertOp col)) →
        runStore (textColl col) (textTree col) tk s h2 =
            runStore (collOps τ) (dbTree τ) tk s (h2.map (convertOp col)) ∧
          storeErrors (textColl col) (textTree col) tk s h2 =
            storeErrors (collOps τ) (dbTree τ) tk s (h2.map (convertOp col)) := by
      intro h2
      induction h2 with
      | nil => intro h1 _ s _; exact ⟨rfl, rfl⟩
      | cons a h2 ih =>
        intro h1 e s hs
        have F1 : FreshHistory ((h1.map (convertOp col)) ++ [convertOp col a]) := by
          apply FreshHistory.front (l := h2.map (convertOp col))
          rw [← e] at F
          simpa using F
        obtain ⟨F0, hn⟩ : FreshHistory (h1.map (convertOp col)) ∧
            col a.tag ∉ addedTags (h1.map (convertOp col)) := by
          generalize hh : h1.map (convertOp col) ++ [convertOp col a] = l at F1
          cases F1 with
          | nil => simp at hh
          | @snoc h' a' G1 G2 G3 =>
            obtain ⟨e1, e2⟩ := List.append_inj' hh rfl
            cases e2
            subst e1
            exact ⟨G1, G2⟩
        obtain ⟨t1, t2⟩ := F0.tableAfter (tk := tk) hn (a.base.map col)
        have hst : s.tree = (runHistory (dbTree τ) tk (emptyDBVersions τ) (h1.map (convertOp col))).tree := by
          rw [hs, tree]
        rw [← hst] at t1 t2
        have step := textAdd (tk := tk) (col := col) s a.tag a.content a.base (by
          intro x hx
          rw [t2, addedTags_convert] at hx
          rcases List.mem_append.1 hx with hx | hx
          · obtain ⟨y, _, rfl⟩ := List.mem_map.1 hx
            exact hcol y
          · rw [List.mem_singleton] at hx
            rw [hx]; exact hcol _) t1
        obtain ⟨k1, k2⟩ := ih (h1 ++ [a]) (by rw [← e]; simp)
          (storeAdd (collOps τ) (dbTree τ) tk s (col a.tag) a.content (a.base.map col)).1 (by
            rw [hs]
            simp only [runStore, List.map_append, List.foldl_append]
            rfl)
        constructor
        · show runStore _ _ _ (storeAdd (textColl col) (textTree col) tk s a.tag a.content a.base).1 h2 = _
          rw [step]; exact k1
        · show (storeAdd (textColl col) (textTree col) tk s a.tag a.content a.base).2 ::
            storeErrors (textColl col) (textTree col) tk
              (storeAdd (textColl col) (textTree col) tk s a.tag a.content a.base).1 h2 = _
          rw [step]
          exact congrArg _ k2
    exact go h [] rfl _ rfl
  refine ⟨main.2, fun x => ?_⟩
  rw [main.1]
  refine ⟨textStoreGet _ ?_ x, rfl⟩
  intro y hy
  obtain ⟨J, hk⟩ := F.joint (tk := tk)
  rw [tree, J.sim.keys, hk, addedTags_convert] at hy
  obtain ⟨z, _, rfl⟩ := List.mem_map.1 hy
  exact hcol z

/-- C90.  So tags of any kind work in such a store, as long as no two of them are converted to the
same text. -/
theorem C90_db_exact {col : τ → τ} (hcol : ∀ t, col (col t) = col t) {h : List (AddOp τ)}
    (G : GoodHistory (h.map (convertOp col))) (hc : ContentsFit h) :
    ∀ a ∈ h, storeGet (textColl col) (textTree col) nullTok
      (runStore (textColl col) (textTree col) nullTok (emptyDBStore τ) h) a.tag =
        .ok (some a.content) := by
  intro a ha
  rw [((C90_converted nullTok hcol G.fresh).2 a.tag).1]
  refine C69_db_exact G ?_ (convertOp col a) (List.mem_map_of_mem ha)
  intro b hb
  obtain ⟨b', h1, rfl⟩ := List.mem_map.1 hb
  exact hc b' h1

/-- C90.  With tags that are not converted, such as strings, the store over `DBTree` is the one of
the other theorems. -/
theorem C90_plain (tk : TokOps Tok S) {col : τ → τ} {h : List (AddOp τ)} (F : FreshHistory h)
    (hp : ∀ a ∈ h, convertOp col a = a) :
    runHistory (textTree col) tk (emptyDBVersions τ) h = dbStoreAfter tk h ∧
    runErrors (textTree col) tk (emptyDBVersions τ) h =
      runErrors (dbTree τ) tk (emptyDBVersions τ) h := by
  induction F with
  | nil => exact ⟨rfl, rfl⟩
  | @snoc h a F h1 h2 ih =>
    obtain ⟨e1, e2⟩ := ih fun b hb => hp b (List.mem_append_left _ hb)
    have fixed : ∀ b ∈ h ++ [a], col b.tag = b.tag := fun b hb => congrArg AddOp.tag (hp b hb)
    have ha := hp a (by simp)
    obtain ⟨_, t2⟩ := F.tableAfter (tk := tk) h1 a.base
    have step := plainAdd (tk := tk) (col := col) (dbStoreAfter tk h) a.tag a.content a.base
      (congrArg AddOp.tag ha) (congrArg AddOp.base ha) (by
        intro x hx
        rw [t2] at hx
        have : x ∈ addedTags (h ++ [a]) := by simpa [addedTags] using hx
        obtain ⟨b, hb, rfl⟩ := List.mem_map.1 this
        exact fixed b hb)
    rw [runErrors_snoc, runErrors_snoc, runHistory_snoc, e1, e2, step, dbStoreAfter, dbStoreAfter,
      runHistory_snoc]
    exact ⟨rfl, rfl⟩

/-- C90.  With dictionaries for the contents and `DBTree`, tags that the columns change are lost:
after any calls, every tag that was added is in the store and none can be read. -/
theorem C90_lost (tk : TokOps Tok S) {col : τ → τ} {h : List (AddOp τ)} (H : NeverStored col h) :
    ∀ t ∈ addedTags h,
      versionsContains (textTree col) (runHistory (textTree col) tk (emptyDBVersions τ) h) t = true ∧
      versionsGet (textTree col) tk (runHistory (textTree col) tk (emptyDBVersions τ) h) t =
        .error .keyError := by
  have hT : ∀ s ∈ addedTags h, ∀ s' ∈ addedTags h, s ≠ col s' := by
    intro s hs s' hs'
    obtain ⟨a, ha, rfl⟩ := List.mem_map.1 hs
    obtain ⟨b, hb, rfl⟩ := List.mem_map.1 hs'
    exact H.changed a ha b hb
  have go : ∀ (h2 h1 : List (AddOp τ)) (v : Versions τ (Graph τ)), h1 ++ h2 = h →
      LostStore col (addedTags h1) v →
      LostStore col (addedTags h) (runHistory (textTree col) tk v h2) := by
    intro h2
    induction h2 with
    | nil => intro h1 v e L; rw [← e, List.append_nil]; exact L
    | cons a h2 ih =>
      intro h1 v e L
      have e' : (h1 ++ [a]) ++ h2 = h := by rw [← e]; simp
      have hsub : ∀ s ∈ addedTags h1 ++ [a.tag], s ∈ addedTags h := by
        intro s hs
        rw [← e']
        simp only [addedTags, List.map_append, List.map_cons, List.map_nil] at hs ⊢
        exact List.mem_append_left _ hs
      have ha : a ∈ h := by rw [← e]; simp
      have := L.add (tk := tk) a.content (base := a.base)
        (fun s hs s' hs' => hT s (hsub s hs) s' (hsub s' hs')) (H.base a ha)
      exact ih (h1 ++ [a]) _ e' (by simpa [addedTags] using this)
  have L := go h [] (emptyDBVersions τ) rfl
    ⟨by simp [emptyDBVersions], by simp [emptyDBVersions], by simp [emptyDBVersions], by simp [addedTags],
      by intro i row p hi; simp [emptyDBVersions] at hi⟩
  intro t ht
  refine ⟨?_, L.get hT ht⟩
  obtain ⟨y, l, hp⟩ := pathTo_ok L.later (L.known t ht)
  show (selectTag _ (col t)).isSome = true
  cases hs : selectTag (runHistory (textTree col) tk (emptyDBVersions τ) h).tree (col t) with
  | some r => rfl
  | none => simp [dbPathTo, dbReversePathTo, hs] at hp

/-- C90.  A rejected call can also give another tag its text: adding the text form of a tag raises
`IntegrityError`, and after that the first tag has the content of the rejected call. -/
theorem C90_wrong_text {col : τ → τ} {t : τ} (h1 : col (col t) = col t) (h2 : col t ≠ t)
    (a b : Bytes) :
    runErrors (textTree col) nullTok (emptyDBVersions τ) [⟨t, a, none⟩, ⟨col t, b, none⟩] =
      [none, some .integrityError] ∧
    versionsGet (textTree col) nullTok
      (runHistory (textTree col) nullTok (emptyDBVersions τ) [⟨t, a, none⟩, ⟨col t, b, none⟩]) t =
        .ok (some b) := by
  have hne : t ≠ col t := fun e => h2 e.symm
  constructor
  · simp [runErrors, versionsAdd, textTree, dbAdd, selectTag, emptyDBVersions, List.findIdx?_cons, h1]
  · simp [runHistory, versionsAdd, versionsGet, textTree, dbAdd, selectTag, emptyDBVersions,
      List.findIdx?_cons, h1, dset, hne, dbPathTo, dbReversePathTo, dbWalkUp, retrieveUsingPath, dget,
      retrieveLoop, nullTok]
    rfl

/-- Three versions in a line, with integers as tags. -/
def intHistory : List (AddOp DBTag) :=
  [⟨.int 1, [1, 2], none⟩, ⟨.int 2, [1, 2, 3], some (.int 1)⟩, ⟨.int (-12), [1, 3], some (.int 2)⟩]

theorem DBTag.column_column : ∀ t : DBTag, t.column.column = t.column
  | .str _ => rfl
  | .int (.ofNat _) => rfl
  | .int (.negSucc _) => rfl

/-- C90.  In particular integers as tags. -/
theorem C90_integers (tk : TokOps Tok S) {h : List (AddOp DBTag)}
    (hi : ∀ a ∈ h, ∃ n, a.tag = .int n) (hb : ∀ a ∈ h, a.base.map DBTag.column ≠ some a.tag.column) :
    ∀ t ∈ addedTags h, versionsGet (textTree DBTag.column) tk
      (runHistory (textTree DBTag.column) tk (emptyDBVersions DBTag) h) t = .error .keyError := by
  intro t ht
  refine (C90_lost tk ⟨fun a ha b hb' => ?_, hb⟩ t ht).2
  obtain ⟨n, e⟩ := hi a ha
  obtain ⟨m, e'⟩ := hi b hb'
  rw [e, e']
  cases m <;> simp [DBTag.column]

theorem GoodHistory.base_added {h : List (AddOp τ)} (G : GoodHistory h) :
    ∀ a ∈ h, ∀ b, a.base = some b → b ∈ addedTags h := by
  induction G with
  | nil => intro a ha; cases ha
  | @snoc h a G h1 h2 ih =>
    intro o ho b hb
    rcases List.mem_append.1 ho with ho | ho
    · have := ih o ho b hb
      simp only [addedTags, List.map_append, List.mem_append] at this ⊢
      exact Or.inl this
    · simp only [List.mem_singleton] at ho
      have := (h2 b (ho ▸ hb)).1
      simp only [addedTags, List.map_append, List.mem_append] at this ⊢
      exact Or.inl this

/-- A history stays good if different tags are converted to different ones. -/
theorem GoodHistory.convert {col : τ → τ} {h : List (AddOp τ)} (G : GoodHistory h)
    (hinj : ∀ s ∈ addedTags h, ∀ t ∈ addedTags h, col s = col t → s = t) :
    GoodHistory (h.map (convertOp col)) := by
  induction G with
  | nil => exact .nil
  | @snoc h a G h1 h2 ih =>
    have hsub : ∀ s ∈ addedTags h, s ∈ addedTags (h ++ [a]) := by
      intro s hs
      simp only [addedTags, List.map_append, List.mem_append] at hs ⊢
      exact Or.inl hs
    have ha : a.tag ∈ addedTags (h ++ [a]) := by simp [addedTags]
    rw [List.map_append]
    refine .snoc (ih fun s hs t ht => hinj s (hsub s hs) t (hsub t ht)) ?_ ?_
    · rw [addedTags_convert]
      intro hm
      obtain ⟨s, hs, e⟩ := List.mem_map.1 hm
      exact h1 (hinj s (hsub s hs) _ ha e ▸ hs)
    · intro b hb
      simp only [convertOp] at hb
      obtain ⟨c, hc, rfl⟩ := Option.map_eq_some_iff.1 hb
      obtain ⟨k1, k2⟩ := h2 c hc
      refine ⟨by rw [addedTags_convert]; exact List.mem_map_of_mem k1, ?_⟩
      intro o ho e
      obtain ⟨o, ho2, rfl⟩ := List.mem_map.1 ho
      simp only [convertOp] at e
      obtain ⟨d, hd, e⟩ := Option.map_eq_some_iff.1 e
      exact k2 o ho2 (hinj d (hsub d (G.base_added o ho2 d hd)) c (hsub c k1) e ▸ hd)

theorem column_int_inj {m n : Int} (h : (DBTag.int m).column = (DBTag.int n).column) : m = n := by
  have digits : ∀ a b : Nat, (Nat.toDigits 10 a).map Char.toNat = (Nat.toDigits 10 b).map Char.toNat →
      a = b := by
    intro a b e
    have : Nat.toDigits 10 a = Nat.toDigits 10 b :=
      List.map_inj_right (fun x y e => Char.toNat_inj.1 e) |>.1 e
    rw [← Nat.ofDigitChars_ten_toDigits (n := a), this, Nat.ofDigitChars_ten_toDigits]
  have sign : ∀ a b : Nat, (Nat.toDigits 10 a).map Char.toNat ≠
      45 :: (Nat.toDigits 10 b).map Char.toNat := by
    intro a b e
    cases hd : Nat.toDigits 10 a with
    | nil => rw [hd] at e; cases e
    | cons c l =>
      have hc : c.isDigit := Nat.isDigit_of_mem_toDigits (by omega) (by omega)
        (show c ∈ Nat.toDigits 10 a by rw [hd]; simp)
      rw [hd] at e
      simp only [List.map_cons, List.cons.injEq] at e
      have : c = '-' := Char.toNat_inj.1 e.1
      rw [this] at hc
      exact absurd hc (by decide)
  cases m with
  | ofNat m =>
    cases n with
    | ofNat n =>
      simp only [DBTag.column, DBTag.str.injEq] at h
      rw [digits _ _ h]
    | negSucc n =>
      simp only [DBTag.column, DBTag.str.injEq] at h
      exact absurd h (sign _ _)
  | negSucc m =>
    cases n with
    | ofNat n =>
      simp only [DBTag.column, DBTag.str.injEq] at h
      exact absurd h.symm (sign _ _)
    | negSucc n =>
      simp only [DBTag.column, DBTag.str.injEq, List.cons.injEq, true_and] at h
      have := digits _ _ h
      rw [show m = n by omega]

/-- C90.  With the contents in the database as well, integers are as good as strings: every version
is read back, negative numbers too. -/
theorem C90_integers_db {h : List (AddOp DBTag)} (G : GoodHistory h)
    (hi : ∀ a ∈ h, ∃ n, a.tag = .int n) (hc : ContentsFit h) :
    ∀ a ∈ h, storeGet (textColl DBTag.column) (textTree DBTag.column) nullTok
      (runStore (textColl DBTag.column) (textTree DBTag.column) nullTok (emptyDBStore DBTag) h) a.tag =
        .ok (some a.content) := by
  refine C90_db_exact DBTag.column_column (G.convert ?_) hc
  intro s hs t ht e
  obtain ⟨a, ha, rfl⟩ := List.mem_map.1 hs
  obtain ⟨b, hb, rfl⟩ := List.mem_map.1 ht
  obtain ⟨m, em⟩ := hi a ha
  obtain ⟨n, en⟩ := hi b hb
  rw [em, en] at e ⊢
  rw [column_int_inj e]

/-- C90.  An integer is the same tag as the string `str(n)`. -/
theorem C90_integer_text (n : Int) : (DBTag.int n).column = .str (n.repr.toList.map Char.toNat) := by
  cases n with
  | ofNat n => simp [DBTag.column, Int.repr, Nat.toList_repr]
  | negSucc n => simp [DBTag.column, Int.repr, Nat.toList_repr]

example : intHistory.map (fun a => a.tag.column) =
    [.str [49], .str [50], .str [45, 49, 50]] := by decide +kernel

-- Everything in the database: all is well.
example : intHistory.map (fun a => storeGet (textColl DBTag.column) (textTree DBTag.column) nullTok
      (runStore (textColl DBTag.column) (textTree DBTag.column) nullTok (emptyDBStore DBTag) intHistory)
      a.tag) =
    intHistory.map fun a => .ok (some a.content) := by decide +kernel
example : storeErrors (textColl DBTag.column) (textTree DBTag.column) nullTok (emptyDBStore DBTag)
    intHistory = [none, none, none] := by decide +kernel
-- Dictionaries for the contents: the third call raises, and nothing can be read.
example : runErrors (textTree DBTag.column) nullTok (emptyDBVersions DBTag) intHistory =
    [none, none, some .keyError] := by decide +kernel
example : NeverStored DBTag.column intHistory := ⟨by decide +kernel, by decide +kernel⟩
example : versionsGet (textTree DBTag.column) nullTok
    (runHistory (textTree DBTag.column) nullTok (emptyDBVersions DBTag) intHistory) (.int 1) =
      .error .keyError := by decide +kernel
-- A number and its text are the same tag.
example : versionsGet (textTree DBTag.column) nullTok
    (runHistory (textTree DBTag.column) nullTok (emptyDBVersions DBTag)
      [⟨.int 1, [7], none⟩, ⟨.str [49], [8, 8], none⟩]) (.int 1) = .ok (some [8, 8]) := by decide +kernel

end Gaspra
