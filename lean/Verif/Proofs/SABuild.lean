import Verif.Proofs.SAHeap

/-!
# What `build` constructs
-/

set_option linter.unusedSectionVars false
set_option linter.unusedSimpArgs false
set_option linter.unusedVariables false

namespace Gaspra

variable {α : Type _} [DecidableEq α]

/-! ## Per-node facts kept during construction -/

/-- Keys are distinct; reverse links and terminal flags are still unset. -/
def Fresh (nd : Node α) : Prop :=
  nd.reverseLinks = [] ∧ nd.isTerminal = false ∧ (nd.transitions.map Prod.fst).Nodup

def AllFresh (h : Heap α) : Prop := ∀ nd ∈ h, Fresh nd

theorem AllFresh.set {h : Heap α} (H : AllFresh h) {i : Nat} {nd : Node α} (hn : Fresh nd) :
    AllFresh (h.set i nd) := by
  intro x hx
  rcases List.mem_or_eq_of_mem_set hx with hx | rfl
  · exact H x hx
  · exact hn

theorem AllFresh.append {h : Heap α} (H : AllFresh h) {nd : Node α} (hn : Fresh nd) :
    AllFresh (h ++ [nd]) := by
  intro x hx
  rcases List.mem_append.1 hx with hx | hx
  · exact H x hx
  · simp at hx; subst hx; exact hn

theorem AllFresh.get {h : Heap α} (H : AllFresh h) {i : Nat} {nd : Node α}
    (hi : h[i]? = some nd) : Fresh nd := H nd (List.mem_of_getElem? hi)

theorem Fresh.dset {nd : Node α} (H : Fresh nd) (c : α) (v : Nat) :
    Fresh { nd with transitions := dset nd.transitions c v } :=
  ⟨H.1, H.2.1, dset_nodup H.2.2 c v⟩

theorem addLoop_fresh {c : α} {N : Nat} : ∀ {fuel : Nat} {h : Heap α} {prev cur : Option Nat}
    {r}, AllFresh h → addLoop c N fuel h prev cur = some r → AllFresh r.1 := by
  intro fuel
  induction fuel with
  | zero =>
    intro h prev cur r H hr
    cases cur <;> simp [addLoop] at hr
    subst hr; exact H
  | succ f ih =>
    intro h prev cur r H hr
    cases cur with
    | none => simp [addLoop] at hr; subst hr; exact H
    | some u =>
      simp only [addLoop] at hr
      split at hr
      · cases hr
      · next nd hnd =>
        split at hr
        · cases hr; exact H
        · exact ih (H.set ((H.get hnd).dset _ _)) hr

theorem redirectLoop_fresh {c : α} {q N : Nat} : ∀ {fuel : Nat} {h : Heap α} {cur : Option Nat}
    {r}, AllFresh h → redirectLoop c q N fuel h cur = some r → AllFresh r := by
  intro fuel
  induction fuel with
  | zero =>
    intro h cur r H hr
    cases cur <;> simp [redirectLoop] at hr
    subst hr; exact H
  | succ f ih =>
    intro h cur r H hr
    cases cur with
    | none => simp [redirectLoop] at hr; subst hr; exact H
    | some u =>
      simp only [redirectLoop] at hr
      split at hr
      · cases hr
      · next nd hnd =>
        split at hr
        · exact ih (H.set ((H.get hnd).dset _ _)) hr
        · cases hr; exact H

theorem setLink_fresh {h : Heap α} (H : AllFresh h) (i : Nat) (l : Option Nat) :
    AllFresh (setLink h i l) := by
  unfold setLink
  split
  · exact H
  · next nd hnd => have := H.get hnd; exact H.set (⟨this.1, this.2.1, this.2.2⟩)

theorem insertNode_fresh {c : α} {p q : Nat} {h : Heap α} {r} (H : AllFresh h)
    (hr : insertNode c p q h = some r) : AllFresh r.1 := by
  unfold insertNode at hr
  split at hr
  · next pn qn hp hq =>
    dsimp only at hr
    have := H.get hq
    split at hr
    · cases hr
    · next h3 hl =>
      cases hr
      refine redirectLoop_fresh ?_ hl
      refine AllFresh.set (H.append ?_) ?_
      · exact ⟨rfl, rfl, this.2.2⟩
      · exact ⟨this.1, this.2.1, this.2.2⟩
  · cases hr

theorem extend_fresh {c : α} {last : Nat} {h : Heap α} {r} (H : AllFresh h)
    (hr : extend c last h = some r) : AllFresh r.1 := by
  unfold extend at hr
  split at hr
  · cases hr
  · next ln hln =>
    have H1 : AllFresh (h ++ [({ length := ln.length + 1, firstEndpos := ln.length + 1 } : Node α)]) :=
      H.append ⟨rfl, rfl, List.nodup_nil⟩
    dsimp only at hr
    split at hr
    · cases hr
    · next h2 prev hl => cases hr; exact setLink_fresh (addLoop_fresh H1 hl) _ _
    · next h2 x cur hl =>
      have H2 := addLoop_fresh H1 hl
      split at hr
      · cases hr
      · split at hr
        · cases hr
        · split at hr
          · cases hr
          · split at hr
            · cases hr; exact setLink_fresh H2 _ _
            · split at hr
              · cases hr
              · next h3 clone hi => cases hr; exact setLink_fresh (insertNode_fresh H2 hi) _ _

/-! ## The loop over all tokens -/

theorem extendAll_spec : ∀ (ts : List α) {s : List α} {h : Heap α} {last : Nat}
    {L : Nat → List α}, HInv s h last L → AllFresh h →
    ∃ h' last' L', extendAll ts last h = some (h', last') ∧ HInv (s ++ ts) h' last' L' ∧
      AllFresh h' ∧ h.length + ts.length ≤ h'.length ∧
      h'.length ≤ h.length + 2 * ts.length ∧
      (s.length = 1 → 1 ≤ ts.length → h'.length ≤ h.length + 2 * ts.length - 1) ∧
      (s.length = 0 → 2 ≤ ts.length → h'.length ≤ h.length + 2 * ts.length - 2) := by
  intro ts
  induction ts with
  | nil =>
    intro s h last L H F
    exact ⟨h, last, L, rfl, by simpa using H, F, by simp, by simp, by simp, by simp⟩
  | cons c ts ih =>
    intro s h last L H F
    obtain ⟨h1, L1, he, H1, hl⟩ := extend_spec H c
    obtain ⟨h2, last2, L2, he2, H2, F2, a, b, b1, b0⟩ := ih H1 (extend_fresh F he)
    refine ⟨h2, last2, L2, ?_, ?_, F2, ?_, ?_, ?_, ?_⟩
    · simp only [extendAll, he]; exact he2
    · simpa using H2
    · simp only [List.length_cons]; omega
    · simp only [List.length_cons]; omega
    · intro hs _; simp only [List.length_cons]; omega
    · intro hs h2'
      simp only [List.length_cons] at h2' ⊢
      have hs1 : (s ++ [c]).length = 1 := by simp [hs]
      have := b1 hs1 (by omega)
      omega

theorem hInv_init : HInv ([] : List α) [{}] 0 (fun _ => []) := by
  refine ⟨?_, ?_⟩
  · have h1 : (trOf [({} : Node α)]) = fun _ _ => none := by
      funext i c
      rcases i with _ | i <;> simp [trOf, dget]
    have h2 : (lkOf [({} : Node α)]) = fun _ => none := by
      funext i
      rcases i with _ | i <;> simp [lkOf]
    have h3 : (endposOf [({} : Node α)]) = fun _ => 0 := by
      funext i
      rcases i with _ | i <;> simp [endposOf]
    rw [h1, h2, h3]
    exact SAInv.init
  · intro i hi
    have : i = 0 := by simp at hi; omega
    subst this; simp [lenOf]

/-! ## Terminal marking -/

def termOf (h : Heap α) (i : Nat) : Bool :=
  match h[i]? with
  | none => false
  | some nd => nd.isTerminal

def transOf (h : Heap α) (i : Nat) : List (α × Nat) :=
  match h[i]? with
  | none => []
  | some nd => nd.transitions

def revOf (h : Heap α) (i : Nat) : List Nat :=
  match h[i]? with
  | none => []
  | some nd => nd.reverseLinks

/-- Same heap up to terminal flags and reverse links. -/
structure SameCore (h h' : Heap α) : Prop where
  length_eq : h'.length = h.length
  trans : ∀ i, transOf h' i = transOf h i
  lk : ∀ i, lkOf h' i = lkOf h i
  len : ∀ i, lenOf h' i = lenOf h i
  fe : ∀ i, endposOf h' i = endposOf h i

theorem SameCore.refl (h : Heap α) : SameCore h h :=
  ⟨rfl, fun _ => rfl, fun _ => rfl, fun _ => rfl, fun _ => rfl⟩

theorem SameCore.trans' {a b c : Heap α} (h : SameCore a b) (h' : SameCore b c) : SameCore a c :=
  ⟨h'.length_eq.trans h.length_eq, fun i => (h'.trans i).trans (h.trans i),
    fun i => (h'.lk i).trans (h.lk i),
    fun i => (h'.len i).trans (h.len i), fun i => (h'.fe i).trans (h.fe i)⟩

theorem trOf_eq_dget (h : Heap α) (i : Nat) (c : α) : trOf h i c = dget (transOf h i) c := by
  unfold trOf transOf; cases h[i]? <;> rfl

theorem SameCore.tr {a b : Heap α} (h : SameCore a b) (i : Nat) (c : α) :
    trOf b i c = trOf a i c := by
  rw [trOf_eq_dget, trOf_eq_dget, h.trans]

theorem HInv.sameCore {s : List α} {h h' : Heap α} {last : Nat} {L : Nat → List α}
    (H : HInv s h last L) (e : SameCore h h') : HInv s h' last L := by
  refine ⟨?_, ?_⟩
  · have h1 : trOf h' = trOf h := by funext i c; exact e.tr i c
    have h2 : lkOf h' = lkOf h := by funext i; exact e.lk i
    have h3 : endposOf h' = endposOf h := by funext i; exact e.fe i
    rw [h1, h2, h3, e.length_eq]; exact H.inv
  · intro i hi; rw [e.length_eq] at hi; rw [e.len]; exact H.len i hi

theorem sameCore_set_term {h : Heap α} {u : Nat} {nd : Node α} (hu : h[u]? = some nd) :
    SameCore h (h.set u { nd with isTerminal := true }) := by
  have hlt : u < h.length := (List.getElem?_eq_some_iff.1 hu).1
  refine ⟨by simp, ?_, ?_, ?_, ?_⟩ <;> intro i <;>
    simp only [lkOf, lenOf, endposOf, transOf, getElem?_set'] <;>
    by_cases hiu : u = i
  all_goals first
    | (subst hiu; simp only [hlt, hu, if_true])
    | simp [hiu]

theorem sameCore_set_rev {h : Heap α} {u : Nat} {nd : Node α} (hu : h[u]? = some nd)
    (r : List Nat) : SameCore h (h.set u { nd with reverseLinks := r }) := by
  have hlt : u < h.length := (List.getElem?_eq_some_iff.1 hu).1
  refine ⟨by simp, ?_, ?_, ?_, ?_⟩ <;> intro i <;>
    simp only [lkOf, lenOf, endposOf, transOf, getElem?_set'] <;>
    by_cases hiu : u = i
  all_goals first
    | (subst hiu; simp only [hlt, hu, if_true])
    | simp [hiu]

theorem markTerminals_spec {s : List α} {h0 : Heap α} {last : Nat} {L : Nat → List α}
    (H : HInv s h0 last L) :
    ∀ (fuel : Nat) (h : Heap α) (cur : Option Nat), SameCore h0 h →
      (∀ i, revOf h i = revOf h0 i) →
      (∀ u, cur = some u → u < h0.length ∧ L u <:+ s ∧ (L u).length < fuel) →
      (∀ i, i < h0.length → (termOf h i = true ↔
        (L i <:+ s ∧ ∀ u, cur = some u → (L u).length < (L i).length))) →
      ∃ h', markTerminals fuel h cur = some h' ∧ SameCore h0 h' ∧
        (∀ i, revOf h' i = revOf h0 i) ∧
        ∀ i, i < h0.length → (termOf h' i = true ↔ L i <:+ s) := by
  have I := H.inv
  intro fuel
  induction fuel with
  | zero =>
    intro h cur e hrev hc ht
    cases cur with
    | none => exact ⟨h, by simp [markTerminals], e, hrev, by simpa using ht⟩
    | some u => have := (hc u rfl).2.2; omega
  | succ f ih =>
    intro h cur e hrev hc ht
    cases cur with
    | none => exact ⟨h, by simp [markTerminals], e, hrev, by simpa using ht⟩
    | some u =>
      obtain ⟨hu, hus, huf⟩ := hc u rfl
      obtain ⟨nd, hnd⟩ := heap_get (h := h) (i := u) (by rw [e.length_eq]; exact hu)
      have hult : u < h.length := by rw [e.length_eq]; exact hu
      simp only [markTerminals, hnd]
      have hlku : nd.link = lkOf h0 u := by rw [← e.lk, lkOf_some hnd]
      have hterm : ∀ i, termOf (h.set u { nd with isTerminal := true }) i =
          if u = i then true else termOf h i := by
        intro i
        simp only [termOf, getElem?_set']
        by_cases hiu : u = i
        · subst hiu; simp only [hult, if_true]
        · simp [hiu]
      apply ih
      · exact e.trans' (sameCore_set_term hnd)
      · intro i
        rw [← hrev i]
        simp only [revOf, getElem?_set']
        by_cases hiu : u = i
        · subst hiu; simp only [hult, if_true, hnd]
        · simp [hiu]
      · intro v hv
        rw [hlku] at hv
        obtain ⟨h1, h2, h3, _⟩ := I.lk_some u hu v hv
        exact ⟨h1, h2.trans hus, by omega⟩
      · intro i hi
        rw [hterm]
        by_cases hiu : u = i
        · subst hiu
          simp only [if_true, true_iff]
          refine ⟨hus, fun v hv => ?_⟩
          rw [hlku] at hv
          exact (I.lk_some u hu v hv).2.2.1
        · rw [if_neg hiu, ht i hi]
          constructor
          · rintro ⟨h1, h2⟩
            refine ⟨h1, fun v hv => ?_⟩
            rw [hlku] at hv
            have := (I.lk_some u hu v hv).2.2.1
            have := h2 u rfl
            omega
          · rintro ⟨h1, h2⟩
            refine ⟨h1, ?_⟩
            intro v hv; cases hv
            apply Nat.lt_of_not_le
            intro hle
            have hiu' : L i <:+ L u := List.suffix_of_suffix_length_le h1 hus hle
            apply hiu
            cases hl : lkOf h0 u with
            | none =>
              have := I.lk_none u hu hl
              rw [this] at hiu'
              exact I.inj u i hu hi (by rw [this]; exact (List.suffix_nil.1 hiu').symm)
            | some v =>
              obtain ⟨_, _, _, h4⟩ := I.lk_some u hu v hl
              exact (I.eq_of_eqv hi hu (h4 _ hiu' (h2 v (by rw [hlku]; exact hl)))).symm

/-! ## Reverse links -/

theorem addReverseLink_spec (h : Heap α) (j : Nat)
    (hl : ∀ l, lkOf h j = some l → l < h.length) :
    SameCore h (addReverseLink h j) ∧
      (∀ i, termOf (addReverseLink h j) i = termOf h i) ∧
      (∀ i, revOf (addReverseLink h j) i =
        if lkOf h j = some i then revOf h i ++ [j] else revOf h i) := by
  unfold addReverseLink
  split
  · next hj => simp [lkOf, hj, SameCore.refl]
  · next nd hj =>
    split
    · next hlk => simp [lkOf, hj, hlk, SameCore.refl]
    · next l hlk =>
      have hlkj : lkOf h j = some l := by rw [lkOf_some hj, hlk]
      have hll := hl l hlkj
      split
      · next hnl => rw [List.getElem?_eq_none_iff] at hnl; omega
      · next ln hln =>
        refine ⟨sameCore_set_rev hln _, ?_, ?_⟩
        · intro i
          simp only [termOf, getElem?_set']
          by_cases hil : l = i
          · subst hil; simp only [hll, if_true, hln]
          · simp [hil]
        · intro i
          rw [hlkj]
          simp only [revOf, getElem?_set']
          by_cases hil : l = i
          · subst hil; simp only [hll, if_true, hln]
          · simp [hil]

theorem foldl_addReverseLink_spec (h0 : Heap α) (hl : ∀ j l, lkOf h0 j = some l → l < h0.length)
    (xs : List Nat) : ∀ h, SameCore h0 h →
    SameCore h0 (xs.foldl addReverseLink h) ∧
      (∀ i, termOf (xs.foldl addReverseLink h) i = termOf h i) ∧
      (∀ i, revOf (xs.foldl addReverseLink h) i =
        revOf h i ++ xs.filter (fun j => lkOf h0 j = some i)) := by
  induction xs with
  | nil => intro h e; simp [e]
  | cons j xs ih =>
    intro h e
    obtain ⟨a, b, c⟩ := addReverseLink_spec h j (by
      intro l hl'; rw [e.lk] at hl'; rw [e.length_eq]; exact hl j l hl')
    obtain ⟨a', b', c'⟩ := ih _ (e.trans' a)
    refine ⟨a', fun i => (b' i).trans (b i), fun i => ?_⟩
    rw [List.foldl_cons, c', c, e.lk, List.filter_cons]
    by_cases hij : lkOf h0 j = some i <;> simp [hij]

/-! ## The result of `build` -/

/-- Everything the queries need to know about a built automaton. -/
structure Built (s : List α) (h : Heap α) (last : Nat) (L : Nat → List α) : Prop where
  hinv : HInv s h last L
  term : ∀ i, i < h.length → (termOf h i = true ↔ L i <:+ s)
  rev : ∀ i, i < h.length → revOf h i = (List.range h.length).filter (fun j => lkOf h j = some i)
  keys : ∀ i, ((transOf h i).map Prod.fst).Nodup
  size : s.length + 1 ≤ h.length

theorem build_spec (s : List α) : ∃ h last L, build s = some h ∧ Built s h last L ∧
    s.length + 1 ≤ h.length ∧ h.length ≤ 2 * s.length + 1 ∧
    (2 ≤ s.length → h.length ≤ 2 * s.length - 1) := by
  obtain ⟨h, last, L, he, H, F, a, b, _, b0⟩ := extendAll_spec s (hInv_init (α := α))
    (by intro nd hnd; simp at hnd; subst hnd; exact ⟨rfl, rfl, List.nodup_nil⟩)
  rw [List.nil_append] at H
  have I := H.inv
  obtain ⟨ln, hln⟩ := heap_get I.last_lt
  have hlnlen : ln.length = s.length := by rw [← lenOf_some hln, H.len _ I.last_lt, I.lastL]
  obtain ⟨h1, hm, e1, hr1, ht1⟩ := markTerminals_spec H (ln.length + 1) h (some last)
    (SameCore.refl h) (fun _ => rfl)
    (by intro u hu; cases hu; rw [I.lastL]; exact ⟨I.last_lt, List.suffix_refl _, by omega⟩)
    (by
      intro i hi
      have h1 : termOf h i = false := by
        obtain ⟨nd, hnd⟩ := heap_get hi
        simp only [termOf, hnd]; exact (F.get hnd).2.1
      rw [h1]
      simp only [Bool.false_eq_true, Option.some.injEq, forall_eq', I.lastL, false_iff, not_and]
      intro h2; have := h2.length_le; omega)
  have hlk : ∀ j l, lkOf h1 j = some l → l < h1.length := by
    intro j l hj
    rw [e1.lk] at hj
    rw [e1.length_eq]
    by_cases hjl : j < h.length
    · exact (I.lk_some j hjl l hj).1
    · simp only [lkOf] at hj
      rw [List.getElem?_eq_none (by omega)] at hj; cases hj
  obtain ⟨e2, ht2, hr2⟩ := foldl_addReverseLink_spec h1 hlk (List.range h1.length) h1 (SameCore.refl _)
  refine ⟨addReverseLinks h1, last, L, ?_, ?_, ?_⟩
  · simp only [build, he, hln, hm]
  · have e := e1.trans' e2
    refine ⟨H.sameCore e, ?_, ?_, ?_, ?_⟩
    · intro i hi
      have hlen := e.length_eq
      unfold addReverseLinks at *
      rw [hlen] at hi
      rw [ht2]; exact ht1 i hi
    · intro i hi
      have hlen := e.length_eq
      have hlen2 := e2.length_eq
      unfold addReverseLinks at *
      rw [hlen] at hi
      rw [hr2, hr1]
      have : revOf h i = [] := by
        obtain ⟨nd, hnd⟩ := heap_get hi
        simp only [revOf, hnd]; exact (F.get hnd).1
      rw [this, List.nil_append, hlen2]
      apply List.filter_congr
      intro j _
      rw [e2.lk]
    · intro i
      show ((transOf (addReverseLinks h1) i).map Prod.fst).Nodup
      unfold addReverseLinks
      rw [e.trans]
      unfold transOf
      split
      · exact List.nodup_nil
      · next nd hnd => exact (F.get hnd).2.2
    · have hlen := e.length_eq
      unfold addReverseLinks
      rw [hlen]; simp at a; omega
  · have hlen := (e1.trans' e2).length_eq
    unfold addReverseLinks
    rw [hlen]
    simp at a b b0
    refine ⟨by omega, by omega, fun h2 => ?_⟩
    have := b0 h2; omega

end Gaspra
