import Verif.Proofs.Isolate
import Verif.Props.DB

/-!
# Property C89: lines of versions do not affect each other
-/

namespace Gaspra

variable {τ Tok S : Type _} [DecidableEq τ] [DecidableEq Tok]

/-- C89.  Let `P` be a set of tags such that no version in it is based on one outside and the
other way round.  Then everything a `Versions` store holds and answers for the tags of `P`, and the
exceptions of the calls with a tag in `P`, are as if only these calls had been made.  This holds
for every tokenizer, and whether or not the calls fail. -/
theorem C89_alone (tk : TokOps Tok S) {h : List (AddOp τ)} (F : FreshHistory h) {P : τ → Bool}
    (hs : Separate P h) :
    (∀ x, P x = true →
      versionsGet (memoryTree τ) tk (memStoreAfter tk h) x =
        versionsGet (memoryTree τ) tk (memStoreAfter tk (callsIn P h)) x ∧
      versionInfo (memoryTree τ) (memStoreAfter tk h) x =
        versionInfo (memoryTree τ) (memStoreAfter tk (callsIn P h)) x ∧
      versionsContains (memoryTree τ) (memStoreAfter tk h) x =
        versionsContains (memoryTree τ) (memStoreAfter tk (callsIn P h)) x ∧
      mtPathTo (memStoreAfter tk h).tree x = mtPathTo (memStoreAfter tk (callsIn P h)).tree x ∧
      dget (memStoreAfter tk h).headVersion x =
        dget (memStoreAfter tk (callsIn P h)).headVersion x ∧
      dget (memStoreAfter tk h).diffs x = dget (memStoreAfter tk (callsIn P h)).diffs x) ∧
    resultsIn P h (runErrors (memoryTree τ) tk (emptyVersions τ) h) =
      runErrors (memoryTree τ) tk (emptyVersions τ) (callsIn P h) := by
  obtain ⟨V, _, Q, E⟩ := F.samePart (tk := tk) hs
  exact ⟨fun x hx => ⟨(Q.get V hx).symm, (Q.info V hx).symm, (Q.contains hx).symm,
    (Q.pathTo V hx).1.symm, (Q.heads hx).symm, (Q.diffs hx).symm⟩, E.symm⟩

/-- C89.  The order in which the calls for different lines are interleaved makes no difference:
two histories with the same calls for the tags of `P`, in the same order, give the same answers
for these tags and the same exceptions of these calls, over either tree. -/
theorem C89_interleaving (tk : TokOps Tok S) {h h' : List (AddOp τ)} (F : FreshHistory h)
    (F' : FreshHistory h') {P : τ → Bool} (hs : Separate P h) (hs' : Separate P h')
    (he : callsIn P h = callsIn P h') :
    (∀ x, P x = true →
      (versionsGet (memoryTree τ) tk (memStoreAfter tk h) x =
        versionsGet (memoryTree τ) tk (memStoreAfter tk h') x ∧
      versionInfo (memoryTree τ) (memStoreAfter tk h) x =
        versionInfo (memoryTree τ) (memStoreAfter tk h') x ∧
      versionsContains (memoryTree τ) (memStoreAfter tk h) x =
        versionsContains (memoryTree τ) (memStoreAfter tk h') x ∧
      mtPathTo (memStoreAfter tk h).tree x = mtPathTo (memStoreAfter tk h').tree x) ∧
      versionsGet (dbTree τ) tk (dbStoreAfter tk h) x =
        versionsGet (dbTree τ) tk (dbStoreAfter tk h') x ∧
      versionInfo (dbTree τ) (dbStoreAfter tk h) x =
        versionInfo (dbTree τ) (dbStoreAfter tk h') x ∧
      versionsContains (dbTree τ) (dbStoreAfter tk h) x =
        versionsContains (dbTree τ) (dbStoreAfter tk h') x) ∧
    resultsIn P h (runErrors (memoryTree τ) tk (emptyVersions τ) h) =
      resultsIn P h' (runErrors (memoryTree τ) tk (emptyVersions τ) h') := by
  obtain ⟨A, E⟩ := C89_alone tk F hs
  obtain ⟨A', E'⟩ := C89_alone tk F' hs'
  rw [← he] at A' E'
  refine ⟨fun x hx => ?_, E.trans E'.symm⟩
  obtain ⟨a1, a2, a3, a4, _⟩ := A x hx
  obtain ⟨b1, b2, b3, b4, _⟩ := A' x hx
  obtain ⟨c1, c2, c3⟩ := (C36_same_answers tk F).2.2 x
  obtain ⟨d1, d2, d3⟩ := (C36_same_answers tk F').2.2 x
  have m1 := a1.trans b1.symm
  have m2 := a2.trans b2.symm
  have m3 := a3.trans b3.symm
  exact ⟨⟨m1, m2, m3, a4.trans b4.symm⟩, c1.trans (m1.trans d1.symm),
    c2.trans (m2.trans d2.symm), c3.trans (m3.trans d3.symm)⟩

/-- C89.  In a documented history the versions of one line (a head, its base, the base of that,
...) are stored exactly as in a store that only ever held this line. -/
theorem C89_line (tk : TokOps Tok S) {h : List (AddOp τ)} (G : GoodHistory h) {t : τ} {l : List τ}
    (ht : IsHead h t) (hl : BaseLine h t l) {x : τ} (hx : x ∈ l) :
    let only := h.filter fun a => decide (a.tag ∈ l)
    versionsGet (memoryTree τ) tk (memStoreAfter tk h) x =
      versionsGet (memoryTree τ) tk (memStoreAfter tk only) x ∧
    versionInfo (memoryTree τ) (memStoreAfter tk h) x =
      versionInfo (memoryTree τ) (memStoreAfter tk only) x ∧
    mtPathTo (memStoreAfter tk h).tree x = mtPathTo (memStoreAfter tk only).tree x ∧
    dget (memStoreAfter tk h).headVersion x = dget (memStoreAfter tk only).headVersion x ∧
    dget (memStoreAfter tk h).diffs x = dget (memStoreAfter tk only).diffs x := by
  obtain ⟨h1, h2, _, h4, h5, h6⟩ :=
    (C89_alone tk G.fresh (G.separate_line ht hl)).1 x (by simpa using hx)
  exact ⟨h1, h2, h4, h5, h6⟩

/-- Two lines, one of odd and one of even tags, with a failing call in each (`99` is unknown and
`0` is no head any more); interleaved in one order and one after the other. -/
def twoLines : List (AddOp Nat) :=
  [⟨0, [1, 2, 3], none⟩, ⟨1, [5], none⟩, ⟨2, [1, 2, 3, 4], some 0⟩, ⟨3, [5, 6], some 1⟩,
   ⟨5, [6, 6], some 99⟩, ⟨4, [1, 9, 3, 4], some 2⟩, ⟨6, [8], some 0⟩, ⟨7, [5, 6, 7], some 3⟩]

/-- See `twoLines`. -/
def twoLinesInTurn : List (AddOp Nat) :=
  callsIn (fun n => n % 2 == 1) twoLines ++ callsIn (fun n => n % 2 == 0) twoLines

/-- The order numbers and the keys of the two trees differ; the answers for the even tags, and the
exceptions of their calls, are the same. -/
example :
    (memStoreAfter nullTok twoLines).tree.map (fun p => (p.1, p.2.orderId)) =
      [(0, 0), (1, 1), (2, 2), (3, 3), (5, 4), (4, 5), (6, 6), (7, 7)] ∧
    (memStoreAfter nullTok twoLinesInTurn).tree.map (fun p => (p.1, p.2.orderId)) =
      [(1, 0), (3, 1), (5, 2), (7, 3), (0, 4), (2, 5), (4, 6), (6, 7)] ∧
    [0, 2, 4, 6].map (versionsGet (memoryTree Nat) nullTok (memStoreAfter nullTok twoLines)) =
      [.ok (some [1, 2, 3]), .ok (some [1, 2, 3, 4]), .ok (some [1, 9, 3, 4]), .ok (some [8])] ∧
    [0, 2, 4, 6].map (versionsGet (memoryTree Nat) nullTok (memStoreAfter nullTok twoLinesInTurn)) =
      [.ok (some [1, 2, 3]), .ok (some [1, 2, 3, 4]), .ok (some [1, 9, 3, 4]), .ok (some [8])] ∧
    [0, 2, 4, 6].map (mtPathTo (memStoreAfter nullTok twoLines).tree) =
      [.ok (some [4, 0]), .ok (some [4, 2]), .ok (some [4]), .ok (some [6])] ∧
    resultsIn (fun n => n % 2 == 0) twoLines
        (runErrors (memoryTree Nat) nullTok (emptyVersions Nat) twoLines) =
      [none, none, none, some .keyError] ∧
    runErrors (memoryTree Nat) nullTok (emptyVersions Nat)
        (callsIn (fun n => n % 2 == 0) twoLines) = [none, none, none, some .keyError] := by
  decide +kernel

example : FreshHistory twoLines ∧ Separate (fun n => n % 2 == 1) twoLines ∧
    callsIn (fun n => n % 2 == 1) twoLines = callsIn (fun n => n % 2 == 1) twoLinesInTurn := by
  refine ⟨?_, by simp [Separate, twoLines], rfl⟩
  have d : ∀ {h : List (AddOp Nat)} {a : AddOp Nat}, FreshHistory h → a.tag ∉ addedTags h →
      a.base ≠ some a.tag → FreshHistory (h ++ [a]) := fun h1 h2 h3 => .snoc h1 h2 h3
  refine d (h := [_, _, _, _, _, _, _]) (d (h := [_, _, _, _, _, _]) (d (h := [_, _, _, _, _])
    (d (h := [_, _, _, _]) (d (h := [_, _, _]) (d (h := [_, _]) (d (h := [_]) (d (h := []) .nil
    ?_ ?_) ?_ ?_) ?_ ?_) ?_ ?_) ?_ ?_) ?_ ?_) ?_ ?_) ?_ ?_ <;> simp [addedTags]

end Gaspra
