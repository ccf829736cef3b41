import Verif.Model.Database
import Verif.Spec.Versions

/-!
# Specification: calls to several stores of one database
-/

namespace Gaspra

variable {τ Tok S : Type _} [DecidableEq τ] [DecidableEq Tok]

/-- A call of `add` and the store it is made to. -/
abbrev StoreCall (τ : Type _) := StoreNames × AddOp τ

/-- The database and the exceptions after calls to several stores. -/
def sharedRun (tk : TokOps Tok S) : Database τ → List (StoreCall τ) → Database τ × List (Option PyErr)
  | db, [] => (db, [])
  | db, c :: calls =>
    let r := sharedAdd tk db c.1 c.2.tag c.2.content c.2.base
    let q := sharedRun tk r.1 calls
    (q.1, r.2 :: q.2)

/-- Two names of one table: they are equal except for the case of ASCII letters. -/
inductive SameTable : PyStr → PyStr → Prop
  | nil : SameTable [] []
  | same (c : Nat) {a b : PyStr} : SameTable a b → SameTable (c :: a) (c :: b)
  | upper {c : Nat} {a b : PyStr} : 'A'.toNat ≤ c → c ≤ 'Z'.toNat → SameTable a b →
      SameTable (c :: a) ((c + 32) :: b)
  | lower {c : Nat} {a b : PyStr} : 'A'.toNat ≤ c → c ≤ 'Z'.toNat → SameTable a b →
      SameTable ((c + 32) :: a) (c :: b)

/-- All the tables of the stores are different. -/
def OwnTables (stores : List StoreNames) : Prop :=
  (stores.flatMap fun n => [n.heads, n.diffs]).Pairwise fun a b => ¬ SameTable a b

/-- The calls to one store. -/
def callsTo (n : StoreNames) (calls : List (StoreCall τ)) : List (AddOp τ) :=
  (calls.filter fun c => c.1 = n).map Prod.snd

/-- Of the results of all calls, those of the calls to one store. -/
def resultsTo {β : Type _} (n : StoreNames) (calls : List (StoreCall τ)) (results : List β) : List β :=
  ((calls.zip results).filter fun r => r.1.1 = n).map Prod.snd

/-- Only calls to `n` use this tag, as the new tag or as the existing head. -/
def OnlyUsedBy (calls : List (StoreCall τ)) (n : StoreNames) (x : τ) : Prop :=
  ∀ c ∈ calls, (c.2.tag = x ∨ c.2.base = some x) → c.1 = n

/-- No tag is used in calls to two stores. -/
def OwnTags (calls : List (StoreCall τ)) : Prop :=
  ∀ c ∈ calls, OnlyUsedBy calls c.1 c.2.tag ∧ ∀ b, c.2.base = some b → OnlyUsedBy calls c.1 b

end Gaspra
