import Verif.Props.DBGuarantees
import Verif.Props.Depth
import Verif.Proofs.StoreCost
import Verif.Proofs.DBCost

set_option linter.unusedSectionVars false

/-!
# C114: how many SQL statements a version store in a database runs

`storeAddC` and `storeGetC` (Model/DBCost.lean) are `add` and `get` with the number of calls of
`execute`.
-/

namespace Gaspra

variable {τ Tok S : Type} [DecidableEq τ] [DecidableEq Tok]

/-- C114.  Without the number of statements these are the functions of C69 and C104, for any store
(also one that no calls can make) and any tokenizer. -/
theorem C114_same_result (tk : TokOps Tok S) (s : Store (Graph τ) (Coll τ Bytes)) (tag : τ)
    (content : Bytes) (base : Option τ) :
    (storeAddC tk s tag content base).1 = storeAdd (collOps τ) (dbTree τ) tk s tag content base ∧
    (storeGetC tk s tag).1 = storeGet (collOps τ) (dbTree τ) tk s tag :=
  ⟨storeAddC_fst s tag content base, storeGetC_fst s tag⟩

example : (storeAddC nullTok (emptyDBStore Nat) 7 [1, 2] none).2 = 2 ∧
    (storeGetC nullTok (storeAddC nullTok (emptyDBStore Nat) 7 [1, 2] none).1.1 7) =
      (.ok (some [1, 2]), 2) := by decide +kernel

theorem allDBAfter_tree (tk : TokOps Tok S) {h : List (AddOp τ)} (F : FreshHistory h) :
    TreeOK (memStoreAfter tk h).tree ∧ Sim (memStoreAfter tk h).tree (allDBAfter tk h).tree ∧
    (memStoreAfter tk h).tree.map Prod.fst = addedTags h ∧
    ((allDBAfter tk h).headVersion.map Prod.fst).Nodup ∧
    ∀ {x nd}, dget (memStoreAfter tk h).tree x = some nd →
      collContains (allDBAfter tk h).headVersion x = true → nd.parent = none := by
  obtain ⟨L, _⟩ := runStore_like (collOps_like (τ := τ)) (ops := dbTree τ) (tk := tk) h
    (s := ⟨[], [], []⟩) (v := ⟨[], [], []⟩) ⟨⟨rfl, by simp⟩, ⟨rfl, by simp⟩, rfl⟩
  obtain ⟨J, hk⟩ := F.joint (tk := tk)
  have hh : (allDBAfter tk h).headVersion = (memStoreAfter tk h).headVersion :=
    (C104_same_store tk F).1
  refine ⟨J.tree, ?_, hk, by rw [hh]; exact J.nodup, ?_⟩
  · have : (allDBAfter tk h).tree = (dbStoreAfter tk h).tree := L.tree
    rw [this]; exact J.sim
  · intro x nd hx hc
    rw [hh, collContains_eq] at hc
    cases hd : dget (memStoreAfter tk h).headVersion x with
    | none => simp [dmem, hd] at hc
    | some c => exact J.roots hd hx

/-- C114, `add` without a base: two statements, in any store and also when the call fails. -/
theorem C114_first (tk : TokOps Tok S) (s : Store (Graph τ) (Coll τ Bytes)) (tag : τ)
    (content : Bytes) : (storeAddC tk s tag content none).2 = 2 := by
  unfold storeAddC
  dsimp only
  split <;> rfl

/-- C114, `add` with a base, any tokenizer, after any calls with fresh tags.  A call that succeeds
takes 16 statements if the base is a head of height 1, and else `39 + 4 ⌊height / 2⌋`. -/
theorem C114_add (tk : TokOps Tok S) {h : List (AddOp τ)} (F : FreshHistory h) {tag b : τ}
    (ht : tag ∉ addedTags h) (hb : b ≠ tag) (content : Bytes)
    (hok : (storeAdd (collOps τ) (dbTree τ) tk (allDBAfter tk h) tag content (some b)).2 = none) :
    ∃ nb, dget (memStoreAfter tk h).tree b = some nb ∧ nb.parent = none ∧
      (storeAddC tk (allDBAfter tk h) tag content (some b)).2 =
        if nb.height / 2 = 0 then 16 else 39 + 4 * (nb.height / 2) := by
  obtain ⟨T, H, hk, hn, hr⟩ := allDBAfter_tree tk F
  have hx : dget (memStoreAfter tk h).tree tag = none := by
    cases hd : dget (memStoreAfter tk h).tree tag with
    | none => rfl
    | some nd => exact absurd (hk ▸ mem_keys_of_dget hd) ht
  rw [← storeAddC_fst] at hok
  cases hs : storeAddC tk (allDBAfter tk h) tag content (some b) with
  | mk r k =>
    obtain ⟨s', e⟩ := r
    rw [hs] at hok
    simp only at hok
    subst hok
    refine storeAddC_ok T H hr ?_ hx hb hs
    intro x hx
    rw [collContains_eq, collContains_eq, collSet_eq hn]
    simp only [dmem]
    rw [dget_dset, if_neg (fun e => hx e.symm)]

/-- C114.  A call of `add` whose base was never added takes three statements, and fails. -/
theorem C114_unknown_base (tk : TokOps Tok S) {h : List (AddOp τ)} (F : FreshHistory h) {tag b : τ}
    (ht : tag ∉ addedTags h) (hbt : b ≠ tag) (hb : b ∉ addedTags h) (content : Bytes) :
    (storeAddC tk (allDBAfter tk h) tag content (some b)).1.2 = some .typeError ∧
    (storeAddC tk (allDBAfter tk h) tag content (some b)).2 = 3 := by
  obtain ⟨T, H, hk, hn, hr⟩ := allDBAfter_tree tk F
  have none_of : ∀ {x}, x ∉ addedTags h → dget (memStoreAfter tk h).tree x = none := by
    intro x hx
    cases hd : dget (memStoreAfter tk h).tree x with
    | none => rfl
    | some nd => exact absurd (hk ▸ mem_keys_of_dget hd) hx
  obtain ⟨g1, e1, H1, _⟩ := H.add T.nodup T.toForest (none_of ht) (some b)
  have hb1 : dget (mtAdd (memStoreAfter tk h).tree tag (some b)) b = none := by
    rw [dget_mtAdd, if_neg (fun e => hbt e.symm), none_of hb]
  unfold storeAddC
  dsimp only
  rw [e1]
  simp only [dbGetSplitC, H1.select_none hb1]
  exact ⟨trivial, trivial⟩

/-- C114, `get`, any tokenizer, after any calls with fresh tags: one statement more than the path to
the version is long, and one statement for tags that were never added. -/
theorem C114_get (tk : TokOps Tok S) {h : List (AddOp τ)} (F : FreshHistory h) (x : τ) :
    (∀ b, (storeGetC tk (allDBAfter tk h) x).1 = .ok (some b) →
      ∃ path, mtPathTo (memStoreAfter tk h).tree x = .ok (some path) ∧
        (storeGetC tk (allDBAfter tk h) x).2 = path.length + 1) ∧
    (x ∉ addedTags h → storeGetC tk (allDBAfter tk h) x = (.ok none, 1)) := by
  obtain ⟨T, H, hk, hn, hr⟩ := allDBAfter_tree tk F
  constructor
  · intro b hb
    obtain ⟨path, h1, h2, h3⟩ := storeGetC_ok (pair_of_fst hb)
    refine ⟨path, ?_, h3⟩
    cases hd : dget (memStoreAfter tk h).tree x with
    | none =>
      rw [H.pathTo_none hd] at h1
      cases h1
      exact absurd rfl h2
    | some nd =>
      obtain ⟨u, hu⟩ := T.acyc hd
      rw [H.pathTo T.nodup hu] at h1
      rw [pathTo_spec hu]
      exact h1
  · intro hx
    have hd : dget (memStoreAfter tk h).tree x = none := by
      cases hd : dget (memStoreAfter tk h).tree x with
      | none => rfl
      | some nd => exact absurd (hk ▸ mem_keys_of_dget hd) hx
    unfold storeGetC
    rw [H.pathTo_none hd]

/-- C114, documented histories.  If the base is the head of a line of `n` versions and
`N = ⌊√(4n + 1)⌋ - 1`, the call of `add` takes 16 statements when `N = 1` and `39 + 4 ⌊N / 2⌋`
otherwise: the number grows with the square root of the number of versions. -/
theorem C114_add_line {h : List (AddOp τ)} {a : AddOp τ} {b : τ} {l : List τ}
    (G : GoodHistory (h ++ [a])) (hc : ContentsFit (h ++ [a])) (hb : a.base = some b)
    (hl : BaseLine h b l) :
    ∃ N, (N + 1) ^ 2 ≤ 4 * l.length + 1 ∧ 4 * l.length + 1 < (N + 2) ^ 2 ∧ 0 < N ∧
      (storeAddC nullTok (allDBAfter nullTok h) a.tag a.content a.base).1.2 = none ∧
      (storeAddC nullTok (allDBAfter nullTok h) a.tag a.content a.base).2 =
        if N = 1 then 16 else 39 + 4 * (N / 2) := by
  obtain ⟨G', hfresh, hhead⟩ : GoodHistory h ∧ a.tag ∉ addedTags h ∧ ∀ b, a.base = some b → IsHead h b := by
    generalize hh : h ++ [a] = h' at G
    cases G with
    | nil => simp at hh
    | @snoc h0 a0 g1 g2 g3 =>
      obtain ⟨rfl, hha⟩ := List.append_inj' hh rfl
      cases hha
      exact ⟨g1, g2, g3⟩
  have hfit : ContentsFit h := fun o ho => hc o (by simp [ho])
  have H := historyOK G'.fresh hfit
  obtain ⟨f, J⟩ := G'.lines nullLawful fun o ho => ⟨trivial, hfit o ho⟩
  have hbh := G'.heads.2.2 (hhead b hb)
  have hbt : b ≠ a.tag := fun e => hfresh (e ▸ H.headsAdded hbh)
  have hok : (storeAdd (collOps τ) (dbTree τ) nullTok (allDBAfter nullTok h) a.tag a.content
      (some b)).2 = none := by
    obtain ⟨_, e1⟩ := H.step hfresh (by rw [hb]; simpa using hbt) trivial (hc a (by simp))
    rw [hb] at e1
    simp only [if_pos hbh] at e1
    obtain ⟨L, _⟩ := runStore_like (collOps_like (τ := τ)) (ops := dbTree τ) (tk := nullTok) h
      (s := ⟨[], [], []⟩) (v := ⟨[], [], []⟩) ⟨⟨rfl, by simp⟩, ⟨rfl, by simp⟩, rfl⟩
    obtain ⟨_, e2⟩ := collOps_like.add (ops := dbTree τ) (tk := nullTok) L a.tag a.content (some b)
    have e3 := (C36_same_errors nullTok G.fresh).1
    rw [if_neg (by rintro ⟨b', hb', hn⟩; exact hn (hhead b' hb').1), hb] at e3
    exact e2.trans (e3.trans e1)
  obtain ⟨nb, hnb, _, hk⟩ := C114_add nullTok G'.fresh hfresh hbt a.content hok
  obtain ⟨h1, h2⟩ := J.height H hbh hl G'.fresh.nodup hnb
  have hpos : 0 < nb.height := by
    have := (allDBAfter_tree nullTok G'.fresh).1.metric b nb hnb
    rw [this.1]; omega
  refine ⟨nb.height, h1, h2, hpos, ?_, ?_⟩
  · rw [hb, storeAddC_fst]; exact hok
  · rw [hb, hk]
    by_cases e : nb.height = 1
    · rw [if_pos e, if_pos (by omega)]
    · rw [if_neg e, if_neg (by omega)]

/-- C114, documented histories.  Reading a version of a line of `n` versions takes at most `N + 1`
statements, and for one of them exactly `N + 1`. -/
theorem C114_get_line {h : List (AddOp τ)} (G : GoodHistory h) (hc : ContentsFit h) {t : τ}
    {l : List τ} (ht : IsHead h t) (hl : BaseLine h t l) :
    ∃ N, (N + 1) ^ 2 ≤ 4 * l.length + 1 ∧ 4 * l.length + 1 < (N + 2) ^ 2 ∧
      (∀ y ∈ l, (storeGetC nullTok (allDBAfter nullTok h) y).2 ≤ N + 1) ∧
      ∃ y ∈ l, (storeGetC nullTok (allDBAfter nullTok h) y).2 = N + 1 := by
  obtain ⟨N, h1, h2, h3, y0, h4, p0, h5, h6⟩ := C51_depth G hc ht hl
  have key : ∀ y ∈ l, ∀ p, mtPathTo (storeAfter h).tree y = .ok (some (t :: p)) →
      (storeGetC nullTok (allDBAfter nullTok h) y).2 = p.length + 2 := by
    intro y hy p hp
    obtain ⟨a, ha, hay⟩ : ∃ a ∈ h, a.tag = y := by
      have : y ∈ addedTags h := by
        obtain ⟨T, _, hk, _⟩ := allDBAfter_tree nullTok G.fresh
        rw [← hk]
        cases hd : dget (memStoreAfter nullTok h).tree y with
        | some nd => exact mem_keys_of_dget hd
        | none =>
          have : mtPathTo (storeAfter h).tree y = .ok none := by
            have hd : dget (storeAfter h).tree y = none := hd
            simp [mtPathTo, mtPathLoop, hd]
          rw [this] at hp; cases hp
      obtain ⟨a, ha, e⟩ := List.mem_map.1 this
      exact ⟨a, ha, e⟩
    have hg := C69_db_exact G hc a ha
    rw [← storeGetC_fst, hay] at hg
    obtain ⟨path, k1, k2⟩ := (C114_get nullTok G.fresh y).1 _ hg
    have k1 : mtPathTo (storeAfter h).tree y = .ok (some path) := k1
    rw [hp] at k1; cases k1
    exact k2
  refine ⟨N, h1, h2, ?_, y0, h4, ?_⟩
  · intro y hy
    obtain ⟨p, k1, k2⟩ := h3 y hy
    rw [key y hy p k1]; omega
  · rw [key y0 h4 p0 h5]; omega

-- The calls that make the line 0, 1, 2, 3, 4 of the sample.
example : (sampleHistory.zipIdx.map fun (a, i) =>
      (storeAddC nullTok (allDBAfter nullTok (sampleHistory.take i)) a.tag a.content a.base).2) =
    [2, 16, 43, 2, 43, 43] := by decide +kernel
example : sampleHistory.map (fun a => (a.tag, a.base)) =
    [(0, none), (1, some 0), (2, some 1), (10, none), (3, some 2), (4, some 3)] := by decide +kernel
example : [4, 3, 2, 1, 0, 10, 99].map (fun x => (storeGetC nullTok (allDBAfter nullTok sampleHistory) x).2) =
    [2, 3, 3, 4, 4, 2, 1] := by decide +kernel
example : (storeAddC nullTok (allDBAfter nullTok sampleHistory) 5 [1] (some 99)).2 = 3 := by
  decide +kernel

end Gaspra
