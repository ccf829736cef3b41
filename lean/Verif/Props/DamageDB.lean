import Verif.Props.DBGuarantees
import Verif.Props.DamageAdd

set_option linter.unusedSectionVars false
set_option linter.unusedVariables false

/-!
# C131: damage to a store in a database

C128 and C129 are about stores in memory.  Here rows of the two tables of a database with a version
store are changed or deleted behind the program's back.
-/

namespace Gaspra

variable {τ Tok S : Type} [DecidableEq τ] [DecidableEq Tok]

/-- The database with the same tree, in whose other two tables data may have been changed and rows
may have been deleted.  (The tag is the primary key of both tables.) -/
structure RowsChanged (s s' : Store (Graph τ) (Coll τ Bytes)) : Prop where
  tree : s'.tree = s.tree
  heads : (s'.headVersion.map Prod.fst).Sublist (s.headVersion.map Prod.fst)
  diffs : (s'.diffs.map Prod.fst).Sublist (s.diffs.map Prod.fst)

/-- The store in memory with the same damage. -/
def damagedMemory (tk : TokOps Tok S) (h : List (AddOp τ)) (s : Store (Graph τ) (Coll τ Bytes)) :
    Versions τ (MTree τ) :=
  ⟨s.headVersion, s.diffs, (memStoreAfter tk h).tree⟩

theorem dget_sublist_none {β γ : Type _} {d : List (τ × β)} {d' : List (τ × γ)}
    (h : (d'.map Prod.fst).Sublist (d.map Prod.fst)) {x : τ} (hx : dget d x = none) :
    dget d' x = none := by
  cases hh : dget d' x with
  | none => rfl
  | some b =>
    have h1 : x ∈ d.map Prod.fst := h.subset (mem_keys_of_dget hh)
    obtain ⟨c, hc⟩ := dget_isSome_iff.2 h1
    rw [hx] at hc; cases hc

theorem Joint.damaged {v : Versions τ (MTree τ)} {w : Versions τ (Graph τ)} (J : Joint v w)
    {hv df : List (τ × Bytes)} (h1 : (hv.map Prod.fst).Sublist (v.headVersion.map Prod.fst))
    (h2 : (df.map Prod.fst).Sublist (v.diffs.map Prod.fst)) :
    Joint ⟨hv, df, v.tree⟩ ⟨hv, df, w.tree⟩ where
  tree := J.tree
  nodup := h1.nodup J.nodup
  roots := by
    intro x c nd hx hn
    cases hh : dget v.headVersion x with
    | none => rw [dget_sublist_none h1 hh] at hx; cases hx
    | some b => exact J.roots hh hn
  absent := fun hx => ⟨dget_sublist_none h1 (J.absent hx).1, dget_sublist_none h2 (J.absent hx).2⟩
  heads := rfl
  diffs := rfl
  sim := J.sim

theorem Joint.run {tk : TokOps Tok S} : ∀ {h2 h : List (AddOp τ)} {v : Versions τ (MTree τ)}
    {w : Versions τ (Graph τ)}, Joint v w → v.tree.map Prod.fst = addedTags h → GoodHistory (h ++ h2) →
    Joint (runHistory (memoryTree τ) tk v h2) (runHistory (dbTree τ) tk w h2) ∧
      runErrors (dbTree τ) tk w h2 = runErrors (memoryTree τ) tk v h2
  | [], _, _, _, J, _, _ => ⟨J, rfl⟩
  | a :: h2, h, v, w, J, hk, G => by
    have G' : GoodHistory ((h ++ [a]) ++ h2) := by simpa using G
    obtain ⟨ha, hb⟩ := G'.prefix.last
    have hd : dget v.tree a.tag = none := by
      cases hh : dget v.tree a.tag with
      | none => rfl
      | some nd => exact absurd (hk ▸ mem_keys_of_dget hh) ha
    have hne : a.base ≠ some a.tag := fun e => ha (hb _ e).1
    obtain ⟨j1, j2, _, j4⟩ := J.add (tk := tk) hd a.content a.base hne
    have e := j4 fun b e => by
      obtain ⟨nd, hnd⟩ := dget_isSome_iff.2 (show b ∈ v.tree.map Prod.fst by rw [hk]; exact (hb b e).1)
      rw [hnd]; simp
    obtain ⟨k1, k2⟩ := Joint.run (h2 := h2) (h := h ++ [a]) j1
      (by rw [j2, hk]; simp [addedTags]) G'
    refine ⟨k1, ?_⟩
    simp only [runErrors, e, k2]

theorem allDB_like (tk : TokOps Tok S) (h : List (AddOp τ)) :
    StoreLike (fun m d => m = d ∧ (d.map Prod.fst).Nodup) (allDBAfter tk h) (dbStoreAfter tk h) :=
  (runStore_like (collOps_like (τ := τ)) (ops := dbTree τ) (tk := tk) h
    (s := ⟨[], [], []⟩) (v := ⟨[], [], []⟩) ⟨⟨rfl, by simp⟩, ⟨rfl, by simp⟩, rfl⟩).1

/-- The damaged store over `DBTree` with dictionaries, and what it shares with the other two. -/
theorem RowsChanged.joint {tk : TokOps Tok S} {h : List (AddOp τ)} (F : FreshHistory h)
    {s : Store (Graph τ) (Coll τ Bytes)} (D : RowsChanged (allDBAfter tk h) s) :
    let w : Versions τ (Graph τ) := ⟨s.headVersion, s.diffs, s.tree⟩
    Joint (damagedMemory tk h s) w ∧ (damagedMemory tk h s).tree.map Prod.fst = addedTags h ∧
      StoreLike (fun m d => m = d ∧ (d.map Prod.fst).Nodup) s w := by
  intro w
  obtain ⟨J, hk⟩ := F.joint (tk := tk)
  have L := allDB_like tk h
  obtain ⟨e1, e2, _⟩ := C104_same_store tk F
  have h1 := D.heads
  have h2 := D.diffs
  rw [e1] at h1
  rw [e2] at h2
  have JD := J.damaged h1 h2
  rw [show (runHistory (dbTree τ) tk (emptyDBVersions τ) h).tree = s.tree from
    L.tree.symm.trans D.tree.symm] at JD
  refine ⟨JD, hk, ⟨rfl, JD.nodup⟩, ⟨rfl, ?_⟩, rfl⟩
  have hn := L.diffs.2
  rw [← L.diffs.1] at hn
  exact D.diffs.nodup hn

/-- C131.  With any tokenizer, a damaged store in the database behaves as a store in memory with the
same damage: `get` answers the same for every tag, and every further call of `add` with a new tag and a
head as the base raises the same exception, as do all calls of `get` after them. -/
theorem C131_as_memory (tk : TokOps Tok S) {h h2 : List (AddOp τ)} (G : GoodHistory (h ++ h2))
    {s : Store (Graph τ) (Coll τ Bytes)} (D : RowsChanged (allDBAfter tk h) s) :
    storeErrors (collOps τ) (dbTree τ) tk s h2 =
      runErrors (memoryTree τ) tk (damagedMemory tk h s) h2 ∧
    ∀ x, allDBGet tk (runStore (collOps τ) (dbTree τ) tk s h2) x =
      versionsGet (memoryTree τ) tk (runHistory (memoryTree τ) tk (damagedMemory tk h s) h2) x := by
  obtain ⟨J, hk, L⟩ := D.joint G.prefix.fresh
  obtain ⟨J2, he⟩ := J.run (tk := tk) hk G
  obtain ⟨L2, hl⟩ := runStore_like (collOps_like (τ := τ)) (ops := dbTree τ) (tk := tk) h2 L
  exact ⟨hl.trans he, fun x => (collOps_like.storeGet L2 x).trans (J2.get x)⟩

theorem RowsChanged.path {h : List (AddOp τ)} (F : FreshHistory h) {t : τ} {path : List τ}
    (hp : mtPathTo (storeAfter h).tree t = .ok (some path)) (ht : t ∈ addedTags h) :
    (dbTree τ).pathTo (allDBAfter nullTok h).tree t = .ok (some path) := by
  obtain ⟨J, hk⟩ := F.joint (tk := nullTok)
  obtain ⟨nd, hnd⟩ := dget_isSome_iff.2 (show t ∈ _ by rw [← hk] at ht; exact ht)
  obtain ⟨l, hl⟩ := J.tree.acyc hnd
  have e : mtPathTo (storeAfter h).tree t = .ok (some l.reverse) := pathTo_spec hl
  rw [e] at hp
  cases hp
  rw [(allDB_like nullTok h).tree]
  exact J.sim.pathTo J.tree.nodup hl

/-- Only the rows of the tag `x` are concerned. -/
def OnlyRowsOf (x : τ) (s s' : Store (Graph τ) (Coll τ Bytes)) : Prop :=
  ∀ t, t ≠ x → dget s'.headVersion t = dget s.headVersion t ∧ dget s'.diffs t = dget s.diffs t

theorem OnlyRowsOf.damagedAt {h : List (AddOp τ)} (F : FreshHistory h) {x : τ}
    {s : Store (Graph τ) (Coll τ Bytes)} (O : OnlyRowsOf x (allDBAfter nullTok h) s) :
    DamagedAt x (storeAfter h) (damagedMemory nullTok h s) := by
  obtain ⟨e1, e2, _⟩ := C104_same_store nullTok F
  refine ⟨rfl, fun t ht => ?_, fun t ht => ?_⟩
  · have := (O t ht).1; rw [e1] at this; exact this
  · have := (O t ht).2; rw [e2] at this; exact this

/-- C131.  Damage to the rows of `x` reaches only the versions whose path of deltas leads through `x`;
all others are still retrieved exactly.  If both rows of `x` are deleted, exactly the versions
whose path leads through `x` raise `KeyError`. -/
theorem C131_confined {h : List (AddOp τ)} (G : GoodHistory h) (hc : ContentsFit h) {x : τ}
    {s : Store (Graph τ) (Coll τ Bytes)} (D : RowsChanged (allDBAfter nullTok h) s)
    (O : OnlyRowsOf x (allDBAfter nullTok h) s) {t : τ} (ht : t ∈ addedTags h) :
    ∃ path, (dbTree τ).pathTo (allDBAfter nullTok h).tree t = .ok (some path) ∧
      (x ∉ path → allDBGet nullTok s t = .ok (some (contentOf h t))) ∧
      (dget s.headVersion x = none → dget s.diffs x = none → x ∈ path →
        allDBGet nullTok s t = .error .keyError) := by
  have DM := O.damagedAt G.fresh
  obtain ⟨_, e⟩ := C131_as_memory nullTok (h2 := []) (by simpa using G) D
  obtain ⟨path, p1, p2⟩ := C128_confined G hc DM ht
  refine ⟨path, RowsChanged.path G.fresh p1 ht, fun hx => (e t).trans (p2 hx), fun n1 n2 hx => ?_⟩
  obtain ⟨path', q1, q2⟩ := C128_missing G hc DM n1 n2 ht
  rw [p1] at q1
  cases q1
  rw [if_pos hx] at q2
  exact (e t).trans q2

/-- C131.  In particular, the versions of the lines to which `x` does not belong are exact. -/
theorem C131_lines {h : List (AddOp τ)} (G : GoodHistory h) (hc : ContentsFit h) {x : τ}
    {s : Store (Graph τ) (Coll τ Bytes)} (D : RowsChanged (allDBAfter nullTok h) s)
    (O : OnlyRowsOf x (allDBAfter nullTok h) s) {y : τ} {l : List τ} (hs : IsHead h y)
    (hl : BaseLine h y l) (hx : x ∉ l) {t : τ} (ht : t ∈ l) :
    allDBGet nullTok s t = .ok (some (contentOf h t)) := by
  obtain ⟨_, e⟩ := C131_as_memory nullTok (h2 := []) (by simpa using G) D
  exact (e t).trans (C128_lines G hc (O.damagedAt G.fresh) hs hl hx ht)

/-- C131.  A database in which data but no rows are changed, and from which every version can still be
read without an exception, can be used on: no documented further call raises, every new version is
retrieved exactly, and the others are read as before. -/
theorem C131_goes_on {h h2 : List (AddOp τ)} (G : GoodHistory (h ++ h2)) (hc : ContentsFit (h ++ h2))
    {s : Store (Graph τ) (Coll τ Bytes)} (htree : s.tree = (allDBAfter nullTok h).tree)
    (hheads : s.headVersion.map Prod.fst = (allDBAfter nullTok h).headVersion.map Prod.fst)
    (hdiffs : s.diffs.map Prod.fst = (allDBAfter nullTok h).diffs.map Prod.fst) {f : τ → Bytes}
    (hf : ∀ t ∈ addedTags h, allDBGet nullTok s t = .ok (some (f t)) ∧ (f t).length < 2 ^ 64) :
    (∀ r ∈ storeErrors (collOps τ) (dbTree τ) nullTok s h2, r = none) ∧
    (∀ t ∈ addedTags h,
      allDBGet nullTok (runStore (collOps τ) (dbTree τ) nullTok s h2) t = .ok (some (f t))) ∧
    ∀ a ∈ h2,
      allDBGet nullTok (runStore (collOps τ) (dbTree τ) nullTok s h2) a.tag = .ok (some a.content) := by
  have D : RowsChanged (allDBAfter nullTok h) s :=
    ⟨htree, hheads ▸ List.Sublist.refl _, hdiffs ▸ List.Sublist.refl _⟩
  obtain ⟨e1, e2, _⟩ := C104_same_store nullTok G.prefix.fresh
  obtain ⟨_, k0⟩ := C131_as_memory nullTok (h2 := []) (by simpa using G.prefix) D
  obtain ⟨k1, k2⟩ := C131_as_memory nullTok G D
  have R : ReadsAs f h (damagedMemory nullTok h s) :=
    ⟨rfl, by rw [e1] at hheads; exact hheads, by rw [e2] at hdiffs; exact hdiffs,
      fun t ht => ⟨(k0 t).symm.trans (hf t ht).1, (hf t ht).2⟩⟩
  obtain ⟨r1, r2, r3⟩ := C129_goes_on G hc R
  exact ⟨k1 ▸ r1, fun t ht => (k2 t).trans (r2 t ht), fun a ha => (k2 a.tag).trans (r3 a ha)⟩

/-- C131.  If the row with the text of a head is deleted, `add` with this head as the base raises
`KeyError`; the new version can be read nevertheless, and all others as before. -/
theorem C131_lost {h : List (AddOp τ)} (G : GoodHistory h) (hc : ContentsFit h) {b : τ} (hb : IsHead h b)
    {s : Store (Graph τ) (Coll τ Bytes)} (D : RowsChanged (allDBAfter nullTok h) s)
    (hs : dget s.headVersion b = none) {tag : τ} (hn : tag ∉ addedTags h) (c : Bytes) :
    let r := storeAdd (collOps τ) (dbTree τ) nullTok s tag c (some b)
    r.2 = some .keyError ∧ allDBGet nullTok r.1 tag = .ok (some c) ∧
      ∀ t ∈ addedTags h, allDBGet nullTok r.1 t = allDBGet nullTok s t := by
  intro r
  have G2 : GoodHistory (h ++ [⟨tag, c, some b⟩]) := .snoc G hn (by rintro _ ⟨⟩; exact hb)
  obtain ⟨_, k0⟩ := C131_as_memory nullTok (h2 := []) (by simpa using G) D
  obtain ⟨k1, k2⟩ := C131_as_memory nullTok G2 D
  obtain ⟨m1, m2, m3⟩ := C129_lost G hc hb (v := damagedMemory nullTok h s) rfl hs hn c
  have k1' : r.2 = (versionsAdd (memoryTree τ) nullTok (damagedMemory nullTok h s) tag c (some b)).2 :=
    (List.cons.inj k1).1
  exact ⟨k1'.trans m1, (k2 tag).trans m2, fun t ht => (k2 t).trans ((m3 t ht).trans (k0 t).symm)⟩

-- One byte of the head 4 is changed by an UPDATE.
example : let s := allDBAfter nullTok sampleHistory
    let s' := { s with headVersion := collSet s.headVersion 4 [7, 1, 9, 8, 4] }
    let w := runStore (collOps Nat) (dbTree Nat) nullTok s' [⟨5, [1, 1], some 4⟩, ⟨6, [1, 1, 3], some 5⟩]
    s'.headVersion.map Prod.fst = s.headVersion.map Prod.fst ∧
    ([4, 3, 2, 1, 0, 10] : List Nat).map (allDBGet nullTok s') =
      [.ok (some [7, 1, 9, 8, 4]), .ok (some [1, 9, 8, 4]), .ok (some [1, 9, 3, 4]),
        .ok (some [1, 2, 3, 4]), .ok (some [1, 2, 3]), .ok (some [])] ∧
    ([6, 5, 4, 3, 2, 1, 0, 10] : List Nat).map (allDBGet nullTok w) =
      [.ok (some [1, 1, 3]), .ok (some [1, 1]), .ok (some [7, 1, 9, 8, 4]), .ok (some [1, 9, 8, 4]),
        .ok (some [1, 9, 3, 4]), .ok (some [1, 2, 3, 4]), .ok (some [1, 2, 3]), .ok (some [])] := by
  decide +kernel
-- The delta of 2 is removed by a DELETE.
example : let s := allDBAfter nullTok sampleHistory
    let s' := { s with diffs := (collDel s.diffs 2).1 }
    (dbTree Nat).pathTo s.tree 0 = .ok (some [4, 2, 0]) ∧
    ([4, 3, 2, 1, 0, 10] : List Nat).map (allDBGet nullTok s') =
      [.ok (some [7, 1, 9, 9, 4]), .ok (some [1, 9, 9, 4]), .error .keyError, .ok (some [1, 2, 3, 4]),
        .error .keyError, .ok (some [])] := by decide +kernel

end Gaspra
