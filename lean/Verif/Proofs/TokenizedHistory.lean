import Verif.Proofs.History

set_option linter.unusedSectionVars false

/-! # Retrieval with any lawful tokenizer -/

namespace Gaspra

variable {τ : Type _} [DecidableEq τ]

/-- A prefix of a documented history is one. -/
theorem GoodHistory.pre {h : List (AddOp τ)} (G : GoodHistory h) : ∀ {h₁ a h₂},
    h = h₁ ++ a :: h₂ → GoodHistory (h₁ ++ [a]) := by
  induction G with
  | nil => intro h₁ a h₂ e; simp at e
  | @snoc h a' G h1 h2 ih =>
    intro h₁ a h₂ e
    rcases List.eq_nil_or_concat h₂ with rfl | ⟨h₃, o, rfl⟩
    · obtain ⟨rfl, e2⟩ := List.append_inj' e rfl
      simp at e2; subst e2
      exact .snoc G h1 h2
    · rw [List.concat_eq_append, ← List.cons_append, ← List.append_assoc] at e
      exact ih (List.append_inj' e rfl).1

variable {Tok S P : Type _} [DecidableEq Tok] {tk : TokOps Tok S} {Ok : Bytes → Prop}

/-- With a lawful tokenizer, every call of a documented history succeeds and afterwards every
version is retrieved exactly. -/
theorem GoodHistory.exact (L : LawfulTok tk P Ok) {h : List (AddOp τ)} (G : GoodHistory h)
    (hc : ∀ a ∈ h, Ok a.content ∧ a.content.length < 2 ^ 64) :
    (∀ {h₁ a h₂}, h = h₁ ++ a :: h₂ →
      (versionsAdd (memoryTree τ) tk (runHistory (memoryTree τ) tk (emptyVersions τ) h₁)
        a.tag a.content a.base).2 = none) ∧
    ∀ a ∈ h, versionsGet (memoryTree τ) tk
      (runHistory (memoryTree τ) tk (emptyVersions τ) h) a.tag = .ok (some a.content) := by
  constructor
  · intro h₁ a h₂ e
    have G' := G.pre e
    have hc' : ∀ o ∈ h₁ ++ [a], Ok o.content ∧ o.content.length < 2 ^ 64 := by
      subst e; intro o ho; exact hc o (by simp at ho ⊢; rcases ho with h | h <;> simp [h])
    generalize hh : h₁ ++ [a] = hx at G'
    cases G' with
    | nil => simp at hh
    | @snoc h0 a0 G0 k1 k2 =>
      obtain ⟨rfl, e2⟩ := List.append_inj' hh rfl
      simp at e2; subst e2
      have H0 := G0.fresh.ok L (fun o ho => hc' o (by simp [ho]))
      have := (H0.step k1 (fun e => k1 (k2 _ e).1) (hc' a (by simp)).1 (hc' a (by simp)).2).2
      rw [this]
      cases hb : a.base with
      | none => rfl
      | some b => simp [G0.heads.2.2 (k2 b hb)]
  · intro a ha
    have H := G.fresh.ok L hc
    obtain ⟨nd, hnd⟩ := H.dget_some.2 (List.mem_map.2 ⟨a, ha, rfl⟩)
    rw [H.store.get_ok hnd, contentOf_mem G.fresh.nodup ha]

end Gaspra
