import Verif.Spec.Manifest
import Verif.Model.ManifestNumbers

/-!
# Specification of manifests with numbers
-/

namespace Gaspra

/-- The name as a text: a number in decimal notation. -/
def NTag.spelled : NTag → PyStr
  | .str s => s
  | .int n => (toString n).toList.map Char.toNat

/-- A tag that JSON preserves. -/
def NTag.Safe : NTag → Prop
  | .str s => JsonSafe s
  | .int _ => True

/-- Names and tags that JSON preserves up to the spelling of the names. -/
def SafeN (m : NManifest) : Prop := ∀ p ∈ m, p.1.Safe ∧ p.2.Safe

/-- The last entry whose name is spelled `name` has the tag `t`. -/
def LastSpelled (m : NManifest) (name : PyStr) (t : NTag) : Prop :=
  ∃ before n after, m = before ++ (n, t) :: after ∧ n.spelled = name ∧
    ∀ e ∈ after, e.1.spelled ≠ name

/-- The name is a number. -/
def NTag.IsInt (t : NTag) : Prop := ∃ n, t = .int n

end Gaspra
