import Verif.Props.DB
import Verif.Proofs.DBTreeOld
import Verif.Proofs.VersionsStore

/-!
# C68: `old_get_split`, C69: a store with all its parts in the database
-/

namespace Gaspra

variable {τ Tok S : Type _} [DecidableEq τ] [DecidableEq Tok]

/-- C68.  In every tree that a store can make, the old and the new `get_split` agree. -/
theorem C68_old_get_split (tk : TokOps Tok S) {h : List (AddOp τ)} (F : FreshHistory h) (x : τ) :
    oldGetSplit (dbStoreAfter tk h).tree x = dbGetSplit (dbStoreAfter tk h).tree x := by
  obtain ⟨J, _⟩ := F.joint (tk := tk)
  exact J.sim.oldGetSplit J.tree x

example : (oldGetSplit (dbStoreAfter nullTok sampleHistory).tree 4).toOption =
    (dbGetSplit (dbStoreAfter nullTok sampleHistory).tree 4).toOption := by decide +kernel

/-- C68.  When two heads are moved under one node (C56), only the old one still finds both: it gives
the answer of `MemoryTree`. -/
theorem C68_two_heads :
    let mt := buildTree (memoryTree Nat) [] [0, 1, 2, 3] [(0, 1), (1, 3), (2, 3)]
    let db := buildTree (dbTree Nat) [] [0, 1, 2, 3] [(0, 1), (1, 3), (2, 3)]
    (mtGetSplit mt 3).toOption = some (1, [3, 1]) ∧
    (oldGetSplit db 3).toOption = some (1, [3, 1]) ∧
    (dbGetSplit db 3).toOption = some (2, [3, 2]) := by
  decide +kernel

/-! ### C69 -/

section
variable {T M : Type _}

/-- The store after a history of calls of `add`, with any mappings. -/
def runStore (mo : MapOps τ M) (ops : TreeOps τ T) (tk : TokOps Tok S) (s : Store T M)
    (h : List (AddOp τ)) : Store T M :=
  h.foldl (fun s a => (storeAdd mo ops tk s a.tag a.content a.base).1) s

/-- The exceptions raised by the calls. -/
def storeErrors (mo : MapOps τ M) (ops : TreeOps τ T) (tk : TokOps Tok S) :
    Store T M → List (AddOp τ) → List (Option PyErr)
  | _, [] => []
  | s, a :: h =>
    let r := storeAdd mo ops tk s a.tag a.content a.base
    r.2 :: storeErrors mo ops tk r.1 h

theorem runStore_like {mo : MapOps τ M} {R : M → List (τ × Bytes) → Prop} (L : mo.Like R)
    {ops : TreeOps τ T} {tk : TokOps Tok S} : ∀ (h : List (AddOp τ)) {s : Store T M} {v : Versions τ T},
    StoreLike R s v → StoreLike R (runStore mo ops tk s h) (runHistory ops tk v h) ∧
      storeErrors mo ops tk s h = runErrors ops tk v h
  | [], _, _, H => ⟨H, rfl⟩
  | a :: h, s, v, H => by
    obtain ⟨h1, h2⟩ := L.add (ops := ops) (tk := tk) H a.tag a.content a.base
    obtain ⟨h3, h4⟩ := runStore_like L (ops := ops) (tk := tk) h h1
    refine ⟨h3, ?_⟩
    simp only [storeErrors, runErrors]
    rw [h2, h4]

/-- C69.  With dictionaries, the store with any mappings is the store of the other theorems. -/
theorem C69_dict (ops : TreeOps τ T) (tk : TokOps Tok S) (t : T) (h : List (AddOp τ)) :
    storeErrors (dictOps τ) ops tk ⟨[], [], t⟩ h = runErrors ops tk ⟨[], [], t⟩ h ∧
    ∀ x, storeGet (dictOps τ) ops tk (runStore (dictOps τ) ops tk ⟨[], [], t⟩ h) x =
        versionsGet ops tk (runHistory ops tk ⟨[], [], t⟩ h) x ∧
      storeInfo (dictOps τ) ops (runStore (dictOps τ) ops tk ⟨[], [], t⟩ h) x =
        versionInfo ops (runHistory ops tk ⟨[], [], t⟩ h) x ∧
      storeContains ops (runStore (dictOps τ) ops tk ⟨[], [], t⟩ h) x =
        versionsContains ops (runHistory ops tk ⟨[], [], t⟩ h) x := by
  obtain ⟨h1, h2⟩ := runStore_like (dictOps_like (τ := τ)) (ops := ops) (tk := tk) h
    (s := ⟨[], [], t⟩) (v := ⟨[], [], t⟩) ⟨rfl, rfl, rfl⟩
  refine ⟨h2, fun x => ⟨dictOps_like.storeGet h1 x, dictInfo h1 x, ?_⟩⟩
  rw [storeContains, h1.tree]; rfl

/-- C69.  With `DBCollection`s instead of dictionaries, every call of `add` (also one that fails),
`get` and `in` does the same, for any tree and any history of calls. -/
theorem C69_collections (ops : TreeOps τ T) (tk : TokOps Tok S) (t : T) (h : List (AddOp τ)) :
    storeErrors (collOps τ) ops tk ⟨[], [], t⟩ h = runErrors ops tk ⟨[], [], t⟩ h ∧
    ∀ x, storeGet (collOps τ) ops tk (runStore (collOps τ) ops tk ⟨[], [], t⟩ h) x =
        versionsGet ops tk (runHistory ops tk ⟨[], [], t⟩ h) x ∧
      storeContains ops (runStore (collOps τ) ops tk ⟨[], [], t⟩ h) x =
        versionsContains ops (runHistory ops tk ⟨[], [], t⟩ h) x := by
  obtain ⟨h1, h2⟩ := runStore_like (collOps_like (τ := τ)) (ops := ops) (tk := tk) h
    (s := ⟨[], [], t⟩) (v := ⟨[], [], t⟩) ⟨⟨rfl, by simp⟩, ⟨rfl, by simp⟩, rfl⟩
  refine ⟨h2, fun x => ⟨collOps_like.storeGet h1 x, ?_⟩⟩
  rw [storeContains, h1.tree]; rfl

/-- C69.  But `version_info` raises `AttributeError` for every tag. -/
theorem C69_no_version_info (ops : TreeOps τ T) (s : Store T (Coll τ Bytes)) (x : τ) :
    storeInfo (collOps τ) ops s x = .error .attributeError := rfl

end

/-- C69.  A store with all its parts in the database returns every version as it was added. -/
theorem C69_db_exact {h : List (AddOp τ)} (G : GoodHistory h) (hc : ContentsFit h) :
    ∀ a ∈ h, storeGet (collOps τ) (dbTree τ) nullTok
      (runStore (collOps τ) (dbTree τ) nullTok (emptyDBStore τ) h) a.tag = .ok (some a.content) := by
  intro a ha
  rw [emptyDBStore, ((C69_collections (dbTree τ) nullTok [] h).2 a.tag).1]
  exact C36_db_exact G hc a ha

example : sampleHistory.map (fun a => storeGet (collOps Nat) (dbTree Nat) nullTok
      (runStore (collOps Nat) (dbTree Nat) nullTok (emptyDBStore Nat) sampleHistory) a.tag) =
    sampleHistory.map fun a => .ok (some a.content) := by decide +kernel
example : storeErrors (collOps Nat) (dbTree Nat) nullTok (emptyDBStore Nat)
    [⟨0, [1], none⟩, ⟨1, [2], some 7⟩, ⟨0, [3], none⟩] =
    [none, some .typeError, some .integrityError] := by decide +kernel
-- With dictionaries `version_info` answers.
example : storeInfo (dictOps Nat) (dbTree Nat) (runStore (dictOps Nat) (dbTree Nat) nullTok ⟨[], [], []⟩
    [⟨0, [1, 2], none⟩]) 0 = .ok (some ⟨none, 2, 0⟩) := by decide +kernel

end Gaspra
