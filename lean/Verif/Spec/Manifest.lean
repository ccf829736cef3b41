import Verif.Spec.Versions
import Verif.Model.Manifest

/-!
# Specification of manifests
-/

namespace Gaspra

/-- A string that JSON preserves: code points of `str` in which no high surrogate is directly
followed by a low surrogate. -/
def JsonSafe : PyStr → Prop
  | [] => True
  | [c] => c < 0x110000
  | c :: d :: s => c < 0x110000 ∧ ¬ (0xD800 ≤ c ∧ c < 0xDC00 ∧ 0xDC00 ≤ d ∧ d < 0xE000) ∧ JsonSafe (d :: s)

/-- `JsonSafe` is decidable. -/
def decJsonSafe : (s : PyStr) → Decidable (JsonSafe s)
  | [] => isTrue trivial
  | [c] => inferInstanceAs (Decidable (c < 0x110000))
  | c :: d :: s =>
    have := decJsonSafe (d :: s)
    inferInstanceAs (Decidable (c < 0x110000 ∧
      ¬ (0xD800 ≤ c ∧ c < 0xDC00 ∧ 0xDC00 ≤ d ∧ d < 0xE000) ∧ JsonSafe (d :: s)))

instance : DecidablePred JsonSafe := decJsonSafe

/-- A Python `dict` with strings that JSON preserves. -/
def SafeManifest (m : Manifest) : Prop :=
  (m.map Prod.fst).Nodup ∧ ∀ p ∈ m, JsonSafe p.1 ∧ JsonSafe p.2

/-- One call `add_manifest(tag, manifest, versions, contents, base)`. -/
structure ManifestOp where
  tag : PyStr
  manifest : Manifest
  contents : List (PyStr × Bytes)
  base : Option PyStr

/-- The entries of a manifest whose tags are new, each tag once. -/
def newEntries : List PyStr → Manifest → Manifest
  | _, [] => []
  | known, (n, t) :: rest =>
    if t ∈ known then newEntries known rest else (n, t) :: newEntries (t :: known) rest

/-- What the loop over the new entries needs: contents for every new tag and, if there is a base
manifest, a different current head for every new entry, listed there under the same name. -/
def ManifestReady (h : List (AddOp PyStr)) (contents : List (PyStr × Bytes)) (bm : Option Manifest)
    (manifest : Manifest) : Prop :=
  (∀ e ∈ newEntries (addedTags h) manifest, ∃ c, dget contents e.2 = some c) ∧
  ∀ m, bm = some m →
    (∀ e ∈ newEntries (addedTags h) manifest, ∃ b ∈ headsOf h, dget m e.1 = some b) ∧
    ((newEntries (addedTags h) manifest).map fun e => dget m e.1).Nodup

/-- The base manifest of a call after a history of the store: none if no base is given or if the
base is unknown, else the manifest whose document is stored under the base tag. -/
inductive BaseIs (h : List (AddOp PyStr)) : Option PyStr → Option Manifest → Prop
  | noBase : BaseIs h none none
  | unknown {b : PyStr} : b ∉ addedTags h → BaseIs h (some b) none
  | known {a : AddOp PyStr} {m : Manifest} : a ∈ h → SafeManifest m → manifestToDoc m = .ok a.content →
      (∀ p ∈ m, p.2 ∈ addedTags h) → (∀ p ∈ m, p.2 ≠ a.tag) → BaseIs h (some a.tag) (some m)

/-- The store and the exceptions after a sequence of `add_manifest` calls. -/
def runManifests {T Tok S : Type _} [DecidableEq Tok] (ops : TreeOps PyStr T) (tk : TokOps Tok S) :
    Versions PyStr T → List ManifestOp → Versions PyStr T × List (Option PyErr)
  | v, [] => (v, [])
  | v, op :: rest =>
    let r := addManifest ops tk v op.tag op.manifest op.contents op.base
    let s := runManifests ops tk r.1 rest
    (s.1, r.2 :: s.2)

/-- Sequences of calls in which every manifest tag is new, the tags of files and of manifests are
different, the bases are not tags of files, and everything can be represented. -/
structure ManifestHistory (ops : List ManifestOp) : Prop where
  tags : (ops.map ManifestOp.tag).Nodup
  apart : ∀ op ∈ ops, ∀ op' ∈ ops, ∀ p ∈ op'.manifest, p.2 ≠ op.tag
  bases : ∀ op ∈ ops, ∀ b, op.base = some b → b ≠ op.tag ∧ ∀ op' ∈ ops, ∀ p ∈ op'.manifest, p.2 ≠ b
  safe : ∀ op ∈ ops, SafeManifest op.manifest
  fits : ∀ op ∈ ops, (∀ p ∈ op.contents, p.2.length < 2 ^ 64) ∧
    ∀ doc, manifestToDoc op.manifest = .ok doc → doc.length < 2 ^ 64

end Gaspra
