import Verif.Model.Versions

/-!
# Specification of the version store: histories of `add` calls
-/

namespace Gaspra

/-- One call `versions.add(tag, content, base)`. -/
structure AddOp (τ : Type _) where
  tag : τ
  content : Bytes
  base : Option τ

variable {τ : Type _} [DecidableEq τ]

/-- The tags added by a history. -/
def addedTags (h : List (AddOp τ)) : List τ := h.map AddOp.tag

/-- A tag is a head after a history if it was added and no version was based on it. -/
def IsHead (h : List (AddOp τ)) (t : τ) : Prop :=
  t ∈ addedTags h ∧ ∀ o ∈ h, o.base ≠ some t

/-- The histories covered by the documentation (in chronological order): every tag is new and
every version has no base or is based on a head. -/
inductive GoodHistory : List (AddOp τ) → Prop
  | nil : GoodHistory []
  | snoc {h : List (AddOp τ)} {a : AddOp τ} : GoodHistory h → a.tag ∉ addedTags h →
      (∀ b, a.base = some b → IsHead h b) → GoodHistory (h ++ [a])

/-- Histories in which only the tags are required to be new: the base may be unknown or may not
be a head any more, so that the call fails. -/
inductive FreshHistory : List (AddOp τ) → Prop
  | nil : FreshHistory []
  | snoc {h : List (AddOp τ)} {a : AddOp τ} : FreshHistory h → a.tag ∉ addedTags h →
      a.base ≠ some a.tag → FreshHistory (h ++ [a])

/-- The heads after a history with failing calls: a call whose base is not a head fails, does not
use up its base, and leaves its own tag as a head. -/
def headsStep (heads : List τ) (a : AddOp τ) : List τ :=
  match a.base with
  | none => heads ++ [a.tag]
  | some b => if b ∈ heads then heads.erase b ++ [a.tag] else heads ++ [a.tag]

/-- The heads after a history (see `headsStep`). -/
def headsOf (h : List (AddOp τ)) : List τ := h.foldl headsStep []

/-- The content first added under a tag (empty if there is none). -/
def contentOf (h : List (AddOp τ)) (t : τ) : Bytes :=
  ((h.find? fun a => a.tag = t).map AddOp.content).getD []

/-- `l` are the tags from `t` along the bases given in the calls, up to a version without one. -/
inductive BaseLine (h : List (AddOp τ)) : τ → List τ → Prop
  | root {a : AddOp τ} : a ∈ h → a.base = none → BaseLine h a.tag [a.tag]
  | step {a : AddOp τ} {b : τ} {l : List τ} : a ∈ h → a.base = some b → BaseLine h b l →
      BaseLine h a.tag (a.tag :: l)

variable {T Tok S : Type _} [DecidableEq Tok]

/-- The store after a history of calls, whether or not they raise. -/
def runHistory (ops : TreeOps τ T) (tk : TokOps Tok S) (v : Versions τ T) (h : List (AddOp τ)) :
    Versions τ T :=
  h.foldl (fun v a => (versionsAdd ops tk v a.tag a.content a.base).1) v

/-- The exceptions raised by the calls of a history, in order. -/
def runErrors (ops : TreeOps τ T) (tk : TokOps Tok S) :
    Versions τ T → List (AddOp τ) → List (Option PyErr)
  | _, [] => []
  | v, a :: h =>
    let r := versionsAdd ops tk v a.tag a.content a.base
    r.2 :: runErrors ops tk r.1 h

end Gaspra
