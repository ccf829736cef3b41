import Verif.Model.RevisionTree

/-!
The expectations of `src/deprecated/test_revision_tree.py`, evaluated by the kernel in the model.
These are tests of the model, not proofs about it.
-/

namespace Gaspra

/-! test_revision_tree.py, lines 15-64.  The tags are numbered in the order of `NODE_TAGS`. -/

/-- The edges after each insertion, the inserted and the removed ones. -/
def expectedTrees : List (List (Nat × Nat) × List (Nat × Nat) × List (Nat × Nat)) :=
  [([], [], []),
   ([(1, 0)], [(1, 0)], []),
   ([(2, 1), (2, 0)], [(2, 1), (2, 0)], [(1, 0)]),
   ([(3, 2), (3, 1), (2, 0)], [(3, 2), (3, 1)], [(2, 1)]),
   ([(4, 3), (4, 2), (3, 1), (2, 0)], [(4, 3), (4, 2)], [(3, 2)]),
   ([(5, 4), (5, 3), (4, 2), (3, 1), (2, 0)], [(5, 4), (5, 3)], [(4, 3)]),
   ([(6, 5), (6, 2), (5, 4), (5, 3), (3, 1), (2, 0)], [(6, 5), (6, 2)], [(4, 2)])]

/-- Equality as sets, of lists without repetitions. -/
def sameEdges (l m : List (Nat × Nat)) : Bool :=
  l.length == m.length && l.all (m.contains ·) && m.all (l.contains ·)

/-- Insert the tags from `tag` on, comparing with the expected results. -/
def insertsAsExpected : RTree Nat → Nat → List (List (Nat × Nat) × List (Nat × Nat) × List (Nat × Nat)) → Bool
  | _, _, [] => true
  | t, tag, (edges, inserted, removed) :: rest =>
    match rInsert t tag with
    | none => false
    | some r =>
      match rEdges r.tree with
      | none => false
      | some e =>
        sameEdges e edges && sameEdges r.inserted inserted && sameEdges r.removed removed &&
          insertsAsExpected r.tree (tag + 1) rest

example : insertsAsExpected ⟨none, []⟩ 0 expectedTrees = true := by decide +kernel

/-! test_revision_tree.py, lines 75-127, for the tree with ten tags. -/

def tenTags : Option (RTree Nat) := rInsertAll ⟨none, []⟩ (List.range 10)

example : (tenTags.map fun t => (List.range 10).all fun x =>
    match rPathTo t x with
    | .ok p => p.head? == some 9 && p.getLast? == some x
    | _ => false) = some true := by decide +kernel
example : (tenTags.bind fun t => (rReevaluate (rInvalidate t)).map fun r =>
    (List.range 10).all fun x => rGetState r.1 x == rGetState t x) = some true := by decide +kernel
example : ((List.range 10).map fun n => do
    let t ← rInsertAll ⟨none, []⟩ (List.range n)
    let e ← rEdges t
    let r ← rInsert t n
    let e' ← rEdges r.tree
    pure (sameEdges e' ((e ++ r.inserted).filter fun x => !r.removed.contains x))) =
    List.replicate 10 (some true) := by decide +kernel
-- Every tag but the root is the child in exactly one edge.
example : ((tenTags.bind rEdges).map fun e => (List.range 10).map fun x =>
    (e.filter fun d => d.2 == x).length) = some [1, 1, 1, 1, 1, 1, 1, 1, 1, 0] := by decide +kernel

end Gaspra
