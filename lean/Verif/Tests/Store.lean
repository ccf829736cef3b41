import Verif.Model.Manifest
import Verif.Model.DBTree
import Verif.Model.DBCollection
import Verif.Props.Tokenizers
import Verif.Props.Lines

/-!
The expectations of the project's own tests about serialization, trees, versions, manifests and
collections, evaluated by the kernel in the model.  These are tests of the model, not proofs about it.
-/

namespace Gaspra

/-! test_serialize.py, lines 10-41. -/

example : serializeChangeset [.piece [97, 98, 99], .slice ⟨1, some 2⟩, .piece [120, 121, 122]] =
    .ok [3, 97, 98, 99, 1, 2, 3, 120, 121, 122] := by decide +kernel
example : serializeChangeset [.slice ⟨1, some 2⟩, .piece [97, 98, 99], .slice ⟨3, some 4⟩] = .ok
    [0, 1, 2, 3, 97, 98, 99, 3, 4] := by decide +kernel
example : (serializeChangeset [.piece [97, 98, 99], .slice ⟨1, some 2⟩, .piece [120, 121,
    122]]).map deserializeChangeset = .ok ([.piece [97, 98, 99], .slice ⟨1, some 2⟩, .piece [120,
    121, 122]], none) := by decide +kernel
example : (serializeChangeset [.slice ⟨1, some 2⟩, .piece [97, 98, 99], .slice ⟨3, some 4⟩]).map
    deserializeChangeset = .ok ([.slice ⟨1, some 2⟩, .piece [97, 98, 99], .slice ⟨3, some 4⟩],
    none) := by decide +kernel
example : (serializeChangeset [.piece [97, 98, 99], .slice ⟨1, some 2⟩, .slice ⟨3, some 4⟩,
    .piece [120, 121, 122]]).map deserializeChangeset = .ok ([.piece [97, 98, 99], .slice ⟨1,
    some 2⟩, .slice ⟨3, some 4⟩, .piece [120, 121, 122]], none) := by decide +kernel
example : (serializeChangeset [.slice ⟨1, some 2⟩, .slice ⟨3, some 4⟩, .piece [120, 121,
    122]]).map deserializeChangeset = .ok ([.slice ⟨1, some 2⟩, .slice ⟨3, some 4⟩, .piece [120,
    121, 122]], none) := by decide +kernel

/-! test_serialize.py, lines 44-84. -/

example : (vserializeInt 0).bind vdeserializeInt = .ok (0, []) := by decide +kernel
example : (vserializeInt 1).bind vdeserializeInt = .ok (1, []) := by decide +kernel
example : (vserializeInt 239).bind vdeserializeInt = .ok (239, []) := by decide +kernel
example : (vserializeInt 240).bind vdeserializeInt = .ok (240, []) := by decide +kernel
example : (vserializeInt 241).bind vdeserializeInt = .ok (241, []) := by decide +kernel
example : (vserializeInt 2286).bind vdeserializeInt = .ok (2286, []) := by decide +kernel
example : (vserializeInt 2287).bind vdeserializeInt = .ok (2287, []) := by decide +kernel
example : (vserializeInt 2288).bind vdeserializeInt = .ok (2288, []) := by decide +kernel
example : (vserializeInt 67822).bind vdeserializeInt = .ok (67822, []) := by decide +kernel
example : (vserializeInt 67823).bind vdeserializeInt = .ok (67823, []) := by decide +kernel
example : (vserializeInt 67824).bind vdeserializeInt = .ok (67824, []) := by decide +kernel
example : (vserializeInt 16777214).bind vdeserializeInt = .ok (16777214, []) := by decide +kernel
example : (vserializeInt 16777215).bind vdeserializeInt = .ok (16777215, []) := by decide +kernel
example : (vserializeInt 16776216).bind vdeserializeInt = .ok (16776216, []) := by decide +kernel
example : (vserializeInt 4294967294).bind vdeserializeInt = .ok (4294967294, []) := by
    decide +kernel
example : (vserializeInt 4294967295).bind vdeserializeInt = .ok (4294967295, []) := by
    decide +kernel
example : (vserializeInt 4294967296).bind vdeserializeInt = .ok (4294967296, []) := by
    decide +kernel
example : (vserializeInt 1099511627774).bind vdeserializeInt = .ok (1099511627774, []) := by
    decide +kernel
example : (vserializeInt 1099511627775).bind vdeserializeInt = .ok (1099511627775, []) := by
    decide +kernel
example : (vserializeInt 18446744073709551615).bind vdeserializeInt = .ok (18446744073709551615,
    []) := by decide +kernel
example : vserializeInt 18446744073709551616 = .error .overflowError := by decide +kernel

/-! test_versions.py, lines 5-75.  The tags are the numbers of the versions. -/

def testVersions : List (Nat × Bytes) :=
  [(0, (cps "a b c d e f g").map UInt8.ofNat),
   (1, (cps "a c e f g").map UInt8.ofNat),
   (2, (cps "a c d x y g").map UInt8.ofNat),
   (3, (cps "a c d x y g x y z").map UInt8.ofNat),
   (4, (cps "d x y g x y    z").map UInt8.ofNat),
   (5, (cps "d x y g x y z q r    s").map UInt8.ofNat)]

/-- Every version is added to the one before it; `check` is made before and after each call. -/
def addInTurn {T Tok S : Type} [DecidableEq Tok] (ops : TreeOps Nat T) (tk : TokOps Tok S)
    (check : Versions Nat T → Versions Nat T → Option Nat → Nat → Bytes → Bool) :
    Option Nat → Versions Nat T → List (Nat × Bytes) → Option (Versions Nat T)
  | _, v, [] => some v
  | base, v, (tag, c) :: rest =>
    match versionsAdd ops tk v tag c base with
    | (v', none) => if check v v' base tag c then addInTurn ops tk check (some tag) v' rest else none
    | _ => none

/-- `test_containment_changes_after_insertion` and the first half of `test_expected_version_info`. -/
def addedCheck {T Tok S : Type} [DecidableEq Tok] (ops : TreeOps Nat T) (tk : TokOps Tok S)
    (v v' : Versions Nat T) (base : Option Nat) (tag : Nat) (c : Bytes) : Bool :=
  !versionsContains ops v tag && versionsContains ops v' tag &&
  (match versionsGet ops tk v tag, versionsGet ops tk v' tag, versionInfo ops v' tag with
   | .ok none, .ok (some _), .ok (some i) => i.tokenCount == c.length && i.baseVersion == base
   | _, _, _ => false)

/-- `test_retrieved_versions_match` and the second half of `test_expected_version_info`. -/
def afterwards {T Tok S : Type} [DecidableEq Tok] (ops : TreeOps Nat T) (tk : TokOps Tok S)
    (v : Versions Nat T) : Bool :=
  testVersions.all fun (tag, c) =>
    (match versionsGet ops tk v tag with | .ok r => r == some c | _ => false) &&
    (tag == 5 || (match versionInfo ops v tag with
      | .ok (some i) => i.baseVersion == (if tag = 0 then none else some (tag - 1)) &&
          i.tokenCount < c.length && 0 < i.changeCount
      | _ => false))

example : ((addInTurn (memoryTree Nat) nullTok (addedCheck (memoryTree Nat) nullTok) none
    (emptyVersions Nat) testVersions).map (afterwards (memoryTree Nat) nullTok)) = some true :=
    by decide +kernel
example : ((addInTurn (memoryTree Nat) (symbolTokenizer asciiWord).bytesOps (addedCheck
    (memoryTree Nat) (symbolTokenizer asciiWord).bytesOps) none (emptyVersions Nat)
    testVersions).map (afterwards (memoryTree Nat) (symbolTokenizer asciiWord).bytesOps)) = some
    true := by decide +kernel
example : ((addInTurn (dbTree Nat) nullTok (addedCheck (dbTree Nat) nullTok) none
    (emptyDBVersions Nat) testVersions).map (afterwards (dbTree Nat) nullTok)) = some true := by
    decide +kernel
example : ((addInTurn (dbTree Nat) (symbolTokenizer asciiWord).bytesOps (addedCheck (dbTree Nat)
    (symbolTokenizer asciiWord).bytesOps) none (emptyDBVersions Nat) testVersions).map
    (afterwards (dbTree Nat) (symbolTokenizer asciiWord).bytesOps)) = some true := by
    decide +kernel

/-! test_tree.py, lines 9-110, for both trees.  The tags are numbered in the order of `TAGS`. -/

/-- The calls made for each tag, with what is asserted after them. -/
def treeRun {T : Type} (ops : TreeOps Nat T) (step : T → Nat → Option Nat → T × Option PyErr)
    (check : T → Nat → Option Nat → Bool) : Option Nat → T → List Nat → Bool
  | _, _, [] => true
  | base, t, tag :: rest =>
    !ops.contains t tag &&
    match step t tag base with
    | (t', none) => ops.contains t' tag && check t' tag base && treeRun ops step check (some tag) t' rest
    | _ => false

def pathIs {T : Type} (ops : TreeOps Nat T) (t : T) (tag : Nat) (path : List Nat) : Bool :=
  match ops.pathTo t tag with | .ok p => p == some path | _ => false

/-- Lines 60-74: only `add`; the path to the new node is itself; lines 98-110: the base. -/
def onlyAdd {T : Type} (ops : TreeOps Nat T) (t : T) : Bool :=
  treeRun ops ops.add (fun t tag base => pathIs ops t tag [tag] &&
    (List.range (tag + 1)).all fun i =>
      match ops.baseVersion t i with | .ok b => b == (if i = 0 then none else some (i - 1)) | _ => false)
    none t (List.range 10)

/-- Lines 77-90: the previous head becomes a child of the new one. -/
def linearMoves {T : Type} (ops : TreeOps Nat T) (t : T) : Bool :=
  treeRun ops (fun t tag base =>
      match ops.add t tag base, base with
      | (t, none), some b => ops.changeParent t b tag
      | r, _ => r)
    (fun t tag _ => (List.range (tag + 1)).all fun i =>
      pathIs ops t i ((List.range (tag + 1 - i)).map (tag - ·)))
    none t (List.range 10)

/-- `EXPECTED_PATHS` (lines 14-33). -/
def expectedPaths : List (List (List Nat)) :=
  [[[0]],
   [[1, 0], [1]],
   [[2, 0], [2, 1], [2]],
   [[3, 2, 0], [3, 1], [3, 2], [3]],
   [[4, 2, 0], [4, 3, 1], [4, 2], [4, 3], [4]],
   [[5, 4, 2, 0], [5, 3, 1], [5, 4, 2], [5, 3], [5, 4], [5]],
   [[6, 2, 0], [6, 5, 3, 1], [6, 2], [6, 5, 3], [6, 5, 4], [6, 5], [6]]]

/-- Lines 93-105: the split and the previous head become children of the new one. -/
def splitMoves {T : Type} (ops : TreeOps Nat T) (t : T) : Bool :=
  treeRun ops (fun t tag base =>
      match ops.add t tag base, base with
      | (t, none), some b =>
        match ops.getSplit t b with
        | .error e => (t, some e)
        | .ok (split, _) =>
          if split = b then ops.changeParent t b tag
          else
            match ops.changeParent t split tag with
            | (t, some e) => (t, some e)
            | (t, none) => ops.changeParent t b tag
      | r, _ => r)
    (fun t tag _ => ((expectedPaths.getD tag []).all fun p => pathIs ops t (p.getLastD 0) p))
    none t (List.range 7)

example : onlyAdd (memoryTree Nat) [] = true := by decide +kernel
example : linearMoves (memoryTree Nat) [] = true := by decide +kernel
example : splitMoves (memoryTree Nat) [] = true := by decide +kernel
example : onlyAdd (dbTree Nat) [] = true := by decide +kernel
example : linearMoves (dbTree Nat) [] = true := by decide +kernel
example : splitMoves (dbTree Nat) [] = true := by decide +kernel

/-! test_manifest.py. -/

def itemContents : List (PyStr × Bytes) :=
  [(cps "f0v0", (cps "a").map UInt8.ofNat),
   (cps "f0v1", (cps "ab").map UInt8.ofNat),
   (cps "f0v2", (cps "abc").map UInt8.ofNat),
   (cps "f0v3", (cps "abcd").map UInt8.ofNat),
   (cps "f1v0", (cps "1").map UInt8.ofNat),
   (cps "f1v1", (cps "12").map UInt8.ofNat),
   (cps "f1v2", (cps "123").map UInt8.ofNat),
   (cps "f2v0", (cps "x").map UInt8.ofNat),
   (cps "f2v1", (cps "xy").map UInt8.ofNat)]

def testManifests : List (PyStr × Manifest) :=
  [(cps "m0", [(cps "f0", cps "f0v0"), (cps "f1", cps "f1v0"), (cps "f2", cps "f2v0")]),
   (cps "m1", [(cps "f0", cps "f0v1"), (cps "f1", cps "f1v1"), (cps "f2", cps "f2v0")]),
   (cps "m2", [(cps "f0", cps "f0v2"), (cps "f1", cps "f1v2"), (cps "f2", cps "f2v0")]),
   (cps "m3", [(cps "f0", cps "f0v3"), (cps "f1", cps "f1v2"), (cps "f2", cps "f2v1")])]

/-- The fixture `loaded_versions`. -/
def loadManifests {T : Type} (ops : TreeOps PyStr T) :
    Option PyStr → Versions PyStr T → List (PyStr × Manifest) → Option (Versions PyStr T)
  | _, v, [] => some v
  | base, v, (tag, m) :: rest =>
    match addManifest ops nullTok v tag m itemContents base with
    | (v, none) => loadManifests ops (some tag) v rest
    | _ => none

/-- The last character of a tag, which is the number of the version. -/
def tagNumber (t : PyStr) : Nat := t.getLastD 0 - 48

/-- The assertions of the last five tests. -/
def loadedWell {T : Type} (ops : TreeOps PyStr T) (v : Versions PyStr T) : Bool :=
  (testManifests.all fun (t, m) =>
    match getManifest ops nullTok v t with | .ok r => r == m | _ => false) &&
  itemContents.all fun (t, c) =>
    versionsContains ops v t &&
    (match versionsGet ops nullTok v t with | .ok r => r == some c | _ => false) &&
    (match versionInfo ops v t with
     | .ok (some i) =>
       (match i.baseVersion with
        | none => tagNumber t == 0
        | some b => tagNumber t == tagNumber b + 1) &&
       ([cps "f0v3", cps "f1v2", cps "f2v1"].contains t ||
        0 < i.changeCount && i.tokenCount < c.length)
     | _ => false)

example : (testManifests.all fun (_, m) =>
    match (manifestToDoc m).bind docToManifest with | .ok r => r == m | _ => false) = true := by
  decide +kernel
example : (loadManifests (memoryTree PyStr) none (emptyVersions PyStr) testManifests).map
    (loadedWell (memoryTree PyStr)) = some true := by decide +kernel
example : (loadManifests (dbTree PyStr) none (emptyDBVersions PyStr) testManifests).map
    (loadedWell (dbTree PyStr)) = some true := by decide +kernel

/-! test_db_collections.py.  The tags `"0"`, `"1"` and `"2"` are the numbers 0, 1 and 2, and `"x"` is 9. -/

def threeItems : Coll Nat Bytes := [0, 1, 2].foldl (fun c t => collSet c t [UInt8.ofNat t]) []
example : ([0, 1, 2].all fun t => collContains threeItems t) = true := by decide +kernel
example : [0, 1, 2].map (fun t => collGet threeItems t) = [.ok [0], .ok [1], .ok [2]] := by
  decide +kernel
example : collLen ([] : Coll Nat Bytes) = 0 ∧ collLen threeItems = 3 := by decide +kernel
example : collGet (collSet (collSet [] 9 [0]) 9 [1]) 9 = .ok [1] := by decide +kernel
example : threeItems.map Prod.fst = [0, 1, 2] := by decide +kernel
example : collLen (collDel threeItems 0).1 = 2 ∧ collContains (collDel threeItems 0).1 0 = false ∧
    (collDel threeItems 0).2 = none := by decide +kernel
example : collGet ([] : Coll Nat Bytes) 9 = .error .keyError := by decide +kernel
example : (collDel ([] : Coll Nat Bytes) 9).2 = some .keyError := by decide +kernel

end Gaspra
