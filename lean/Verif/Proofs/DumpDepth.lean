import Verif.Proofs.Dump

/-!
# The recursive dump, and how deep it gets
-/

set_option linter.unusedSectionVars false
set_option linter.unusedSimpArgs false
set_option linter.unusedVariables false

namespace Gaspra

variable {α : Type _} [DecidableEq α]

/-- The loop over the transitions in `dumpFrom`. -/
def dumpChildren (h : Heap α) (f : Nat) (trs : List (α × Nat))
    (acc : Option (List Nat × List (DumpLine α))) : Option (List Nat × List (DumpLine α)) :=
  trs.foldl (fun acc tr =>
    match acc with
    | none => none
    | some (dumped, out) =>
      match dumpFrom h f tr.2 dumped with
      | none => none
      | some (dumped, more) => some (dumped, out ++ more)) acc

theorem dumpChildren_none (h : Heap α) (f : Nat) : ∀ (trs : List (α × Nat)),
    dumpChildren h f trs none = none
  | [] => rfl
  | _ :: trs => dumpChildren_none h f trs

theorem dumpFrom_succ (h : Heap α) (f cur : Nat) (dumped : List Nat) :
    dumpFrom h (f + 1) cur dumped = if cur ∈ dumped then some (dumped, []) else
      match h[cur]? with
      | none => none
      | some nd => dumpChildren h f nd.transitions (some (dumped ++ [cur], dumpBlock h cur)) := rfl

/-- What a call adds. -/
structure Adds (h : Heap α) (before order : List Nat) : Prop where
  nodup : (before ++ order).Nodup
  lt : ∀ u ∈ order, u < h.length

theorem dumpFrom_spec {s : List α} {h : Heap α} {last : Nat} {L : Nat → List α}
    (B : Built s h last L) : ∀ (f cur : Nat) (dumped : List Nat), cur < h.length → dumped.Nodup →
    s.length < f + (L cur).length →
    ∃ order, dumpFrom h f cur dumped = some (dumped ++ order, order.flatMap (dumpBlock h)) ∧
      Adds h dumped order ∧ cur ∈ dumped ++ order ∧
      (∀ u ∈ order, ∀ c v, trOf h u c = some v → v ∈ dumped ++ order) := by
  intro f
  induction f with
  | zero =>
    intro cur dumped hc hn hf
    have := B.hinv.length_le hc; omega
  | succ f ih =>
    intro cur dumped hc hn hf
    rw [dumpFrom_succ]
    by_cases hm : cur ∈ dumped
    · exact ⟨[], by simp [hm], ⟨by simpa using hn, by simp⟩, by simp [hm], by simp⟩
    · obtain ⟨nd, hnd⟩ := heap_get hc
      simp only [hm, if_false, hnd]
      -- The children, one after the other.
      have key : ∀ (trs : List (α × Nat)) (order : List Nat) (out : List (DumpLine α)),
          (∀ x ∈ trs, x ∈ nd.transitions) → Adds h dumped order →
          ∃ order', dumpChildren h f trs (some (dumped ++ order, out)) =
              some (dumped ++ (order ++ order'), out ++ order'.flatMap (dumpBlock h)) ∧
            Adds h dumped (order ++ order') ∧
            (∀ x ∈ trs, x.2 ∈ dumped ++ (order ++ order')) ∧
            (∀ u ∈ order', ∀ c v, trOf h u c = some v → v ∈ dumped ++ (order ++ order')) := by
        intro trs
        induction trs with
        | nil =>
          intro order out _ A
          exact ⟨[], by simp [dumpChildren], by simpa using A, by simp, by simp⟩
        | cons x trs iht =>
          intro order out hx A
          obtain ⟨hlt, hlong⟩ := B.hinv.step_longer hc ((B.mem_trans hnd).1 (hx x (by simp)))
          obtain ⟨o1, h1, A1, h2, h3⟩ := ih x.2 (dumped ++ order) hlt A.nodup (by omega)
          have A1' : Adds h dumped (order ++ o1) := ⟨by simpa using A1.nodup, by
            intro u hu
            rcases List.mem_append.1 hu with hu | hu
            · exact A.lt u hu
            · exact A1.lt u hu⟩
          obtain ⟨o2, h4, A2, h5, h6⟩ := iht (order ++ o1) (out ++ o1.flatMap (dumpBlock h))
            (fun y hy => hx y (by simp [hy])) A1'
          refine ⟨o1 ++ o2, ?_, by simpa using A2, ?_, ?_⟩
          · have : dumpChildren h f (x :: trs) (some (dumped ++ order, out)) =
                dumpChildren h f trs (some (dumped ++ (order ++ o1), out ++ o1.flatMap (dumpBlock h))) := by
              conv => lhs; unfold dumpChildren
              simp only [List.foldl_cons, h1]
              unfold dumpChildren
              simp only [List.append_assoc]
            rw [this, h4]
            simp
          · intro y hy
            rcases List.mem_cons.1 hy with rfl | hy
            · simp only [List.mem_append] at h2 ⊢
              rcases h2 with (h2 | h2) | h2 <;> simp [h2]
            · have := h5 y hy
              simpa using this
          · intro u hu c v ht
            rcases List.mem_append.1 hu with hu | hu
            · have := h3 u hu c v ht
              simp only [List.mem_append] at this ⊢
              rcases this with (h2 | h2) | h2 <;> simp [h2]
            · have := h6 u hu c v ht
              simpa using this
      have A0 : Adds h dumped [cur] := ⟨by
        rw [List.nodup_append]
        exact ⟨hn, by simp, fun a ha b hb e => by simp at hb; subst hb; exact hm (e ▸ ha)⟩,
        by simpa using hc⟩
      obtain ⟨o, h1, A, h2, h3⟩ := key nd.transitions [cur] (dumpBlock h cur) (fun _ hx => hx) A0
      refine ⟨[cur] ++ o, by rw [h1]; simp, A, by simp, ?_⟩
      intro u hu c v ht
      rcases List.mem_append.1 hu with hu | hu
      · simp at hu; subst hu
        exact h2 (c, v) ((B.mem_trans hnd).2 ht)
      · exact h3 u hu c v ht

/-! ## The first transition of a prefix -/

/-- The token of the first transition. -/
def headKey (nd : Node α) : Option α := (nd.transitions.head?).map Prod.fst

/-- The nodes of `h` are still there, with the same first transitions. -/
def HeadKept (h h' : Heap α) : Prop :=
  ∀ (i : Nat) (nd : Node α), h[i]? = some nd → ∃ nd' : Node α, h'[i]? = some nd' ∧ nd'.length = nd.length ∧
    nd'.firstEndpos = nd.firstEndpos ∧ ∀ c, headKey nd = some c → headKey nd' = some c

theorem HeadKept.refl (h : Heap α) : HeadKept h h := fun i nd hi => ⟨nd, hi, rfl, rfl, fun _ e => e⟩

theorem HeadKept.trans {a b c : Heap α} (h1 : HeadKept a b) (h2 : HeadKept b c) : HeadKept a c := by
  intro i nd hi
  obtain ⟨n1, e1, e2, e3, e4⟩ := h1 i nd hi
  obtain ⟨n2, f1, f2, f3, f4⟩ := h2 i n1 e1
  exact ⟨n2, f1, f2.trans e2, f3.trans e3, fun c hc => f4 c (e4 c hc)⟩

theorem HeadKept.set {h : Heap α} {u : Nat} {nd nd' : Node α} (hu : h[u]? = some nd)
    (h1 : nd'.length = nd.length) (h2 : nd'.firstEndpos = nd.firstEndpos)
    (h3 : ∀ c, headKey nd = some c → headKey nd' = some c) : HeadKept h (h.set u nd') := by
  intro i x hi
  have hlt : u < h.length := (List.getElem?_eq_some_iff.1 hu).1
  by_cases hiu : u = i
  · subst hiu
    rw [hu] at hi; cases hi
    exact ⟨nd', by simp [hlt], h1, h2, h3⟩
  · exact ⟨x, by rw [List.getElem?_set_ne hiu]; exact hi, rfl, rfl, fun _ e => e⟩

theorem headKey_dset {nd : Node α} (tok : α) (v : Nat) (c : α) (hc : headKey nd = some c) :
    headKey { nd with transitions := dset nd.transitions tok v } = some c := by
  unfold headKey at *
  cases ht : nd.transitions with
  | nil => simp [ht] at hc
  | cons x l =>
    simp [ht] at hc
    simp only [dset]
    split
    · rename_i e; simp [← e, hc]
    · simp [hc]

theorem HeadKept.append (h : Heap α) (x : List (Node α)) : HeadKept h (h ++ x) := by
  intro i nd hi
  have hlt : i < h.length := (List.getElem?_eq_some_iff.1 hi).1
  exact ⟨nd, by rw [List.getElem?_append_left hlt]; exact hi, rfl, rfl, fun _ e => e⟩

theorem addLoop_headKept {c : α} {N : Nat} : ∀ {fuel : Nat} {h : Heap α} {prev cur : Option Nat}
    {r}, addLoop c N fuel h prev cur = some r → HeadKept h r.1 := by
  intro fuel
  induction fuel with
  | zero =>
    intro h prev cur r hr
    cases cur <;> simp [addLoop] at hr
    subst hr; exact .refl _
  | succ f ih =>
    intro h prev cur r hr
    cases cur with
    | none => simp [addLoop] at hr; subst hr; exact .refl _
    | some u =>
      simp only [addLoop] at hr
      split at hr
      · cases hr
      · next nd hnd =>
        split at hr
        · cases hr; exact .refl _
        · exact (HeadKept.set hnd (nd' := { nd with transitions := dset nd.transitions c N }) rfl rfl
            (headKey_dset c N)).trans (ih hr)

theorem redirectLoop_headKept {c : α} {q N : Nat} : ∀ {fuel : Nat} {h : Heap α} {cur : Option Nat}
    {r}, redirectLoop c q N fuel h cur = some r → HeadKept h r := by
  intro fuel
  induction fuel with
  | zero =>
    intro h cur r hr
    cases cur <;> simp [redirectLoop] at hr
    subst hr; exact .refl _
  | succ f ih =>
    intro h cur r hr
    cases cur with
    | none => simp [redirectLoop] at hr; subst hr; exact .refl _
    | some u =>
      simp only [redirectLoop] at hr
      split at hr
      · cases hr
      · next nd hnd =>
        split at hr
        · exact (HeadKept.set hnd (nd' := { nd with transitions := dset nd.transitions c N }) rfl rfl
            (headKey_dset c N)).trans (ih hr)
        · cases hr; exact .refl _

theorem setLink_headKept (h : Heap α) (i : Nat) (l : Option Nat) : HeadKept h (setLink h i l) := by
  unfold setLink
  split
  · exact .refl _
  · next nd hnd => exact HeadKept.set hnd rfl rfl fun _ e => e

theorem insertNode_headKept {c : α} {p q : Nat} {h : Heap α} {r}
    (hr : insertNode c p q h = some r) : HeadKept h r.1 := by
  unfold insertNode at hr
  split at hr
  · next pn qn hp hq =>
    dsimp only at hr
    split at hr
    · cases hr
    · next h3 hl =>
      cases hr
      have hlt : q < h.length := (List.getElem?_eq_some_iff.1 hq).1
      refine (HeadKept.append h _).trans (HeadKept.trans (HeadKept.set (nd := qn)
        (nd' := { qn with link := some h.length }) ?_ rfl rfl fun _ e => e)
        (redirectLoop_headKept hl))
      rw [List.getElem?_append_left hlt]; exact hq
  · cases hr

/-- The first transition of the node of every prefix is the next token of the text. -/
def Firsts (s : List α) (h : Heap α) (L : Nat → List α) : Prop :=
  ∀ (i : Nat) (nd : Node α) (k : Nat) (c : α), h[i]? = some nd → L i = s.take k → s[k]? = some c →
    headKey nd = some c

section
variable {s : List α} {h : Heap α} {last : Nat} {L : Nat → List α}

theorem HInv.prefix_node (H : HInv s h last L) {k : Nat} (hk : k ≤ s.length) :
    ∃ i, i < h.length ∧ L i = s.take k := by
  have hocc : Occ s (s.take k) k := ⟨hk, List.suffix_refl _⟩
  obtain ⟨i, hi, he⟩ := H.inv.cover (s.take k) ⟨k, hocc⟩
  refine ⟨i, hi, ?_⟩
  have h1 := H.inv.longest i hi _ he
  have h2 : L i <:+ s.take k := ((he k).1 hocc).2
  exact (h2.eq_of_length_le h1.length_le)

theorem HInv.prefix_data (H : HInv s h last L) {i k : Nat} {nd : Node α} (hnd : h[i]? = some nd)
    (hk : k ≤ s.length) : L i = s.take k ↔ nd.length = k ∧ nd.firstEndpos = k := by
  have hi : i < h.length := (List.getElem?_eq_some_iff.1 hnd).1
  have hlen := H.len i hi
  rw [lenOf_some hnd] at hlen
  have ho := H.inv.fe_occ i hi
  have hm := H.inv.fe_min i hi
  rw [endposOf_some hnd] at ho hm
  constructor
  · intro e
    have h1 : nd.length = k := by rw [hlen, e, List.length_take]; omega
    refine ⟨h1, Nat.le_antisymm (hm k ⟨hk, e ▸ List.suffix_refl _⟩) ?_⟩
    have := ho.2.length_le
    rw [List.length_take] at this
    omega
  · rintro ⟨h1, h2⟩
    rw [h2] at ho
    exact ho.2.eq_of_length_le (by rw [List.length_take]; omega)

theorem HInv.last_no_trans (H : HInv s h last L) {nd : Node α} (hnd : h[last]? = some nd) :
    nd.transitions = [] := by
  cases ht : nd.transitions with
  | nil => rfl
  | cons x l =>
    exfalso
    have hd : trOf h last x.1 = some x.2 := by rw [trOf_some hnd, ht]; simp [dget]
    have := H.step_longer H.inv.last_lt hd
    rw [H.inv.lastL] at this
    have := H.length_le this.1
    omega

theorem extend_headKept {c : α} {r} (hr : extend c last h = some r) : HeadKept h r.1 := by
  unfold extend at hr
  split at hr
  · cases hr
  · next ln hln =>
    dsimp only at hr
    split at hr
    · cases hr
    · next h2 prev hl =>
      cases hr
      exact (HeadKept.append h _).trans ((addLoop_headKept hl).trans (setLink_headKept _ _ _))
    · next h2 x cur hl =>
      have K := (HeadKept.append h _).trans (addLoop_headKept hl)
      split at hr
      · cases hr
      · split at hr
        · cases hr
        · split at hr
          · cases hr
          · split at hr
            · cases hr; exact K.trans (setLink_headKept _ _ _)
            · split at hr
              · cases hr
              · next h3 clone hi =>
                cases hr
                exact K.trans ((insertNode_headKept hi).trans (setLink_headKept _ _ _))

/-- The last node gets its first transition. -/
theorem extend_last_head {c : α} {r} (hr : extend c last h = some r) {ln : Node α}
    (hln : h[last]? = some ln) (ht : ln.transitions = []) :
    ∃ nd : Node α, r.1[last]? = some nd ∧ headKey nd = some c := by
  have hlt : last < h.length := (List.getElem?_eq_some_iff.1 hln).1
  -- The heap after the first pass of the loop.
  have first : ∀ {f : Nat} {x : List (Node α)} {r2}, addLoop c h.length (f + 1) (h ++ x) none (some last) = some r2 →
      ∃ nd : Node α, r2.1[last]? = some nd ∧ headKey nd = some c := by
    intro f x r2 hl
    simp only [addLoop, List.getElem?_append_left hlt, hln, ht, dget] at hl
    have := addLoop_headKept hl
    obtain ⟨nd, h1, _, _, h2⟩ := this last { ln with transitions := dset [] c h.length } (by
      rw [List.getElem?_set_self (by simp; omega)])
    exact ⟨nd, h1, h2 c (by simp [headKey, dset])⟩
  have keep : ∀ {a b : Heap α}, HeadKept a b → (∃ nd : Node α, a[last]? = some nd ∧ headKey nd = some c) →
      ∃ nd : Node α, b[last]? = some nd ∧ headKey nd = some c := by
    rintro a b K ⟨nd, h1, h2⟩
    obtain ⟨nd', h3, _, _, h4⟩ := K last nd h1
    exact ⟨nd', h3, h4 c h2⟩
  unfold extend at hr
  rw [hln] at hr
  dsimp only at hr
  split at hr
  · cases hr
  · next h2 prev hl => cases hr; exact keep (setLink_headKept _ _ _) (first hl)
  · next h2 x cur hl =>
    have K := first hl
    split at hr
    · cases hr
    · split at hr
      · cases hr
      · split at hr
        · cases hr
        · split at hr
          · cases hr; exact keep (setLink_headKept _ _ _) K
          · split at hr
            · cases hr
            · next h3 clone hi =>
              cases hr
              exact keep ((insertNode_headKept hi).trans (setLink_headKept _ _ _)) K

theorem extend_firsts (H : HInv s h last L) (F : Firsts s h L) {c : α} {h1 : Heap α} {last1 : Nat}
    {L1 : Nat → List α} (he : extend c last h = some (h1, last1)) (H1 : HInv (s ++ [c]) h1 last1 L1) :
    Firsts (s ++ [c]) h1 L1 := by
  intro i nd k t hnd hL ht
  have hk : k < (s ++ [c]).length := by
    rw [List.getElem?_eq_some_iff] at ht; exact ht.1
  have hks : k ≤ s.length := by simp at hk; omega
  obtain ⟨i0, hi0, e0⟩ := H.prefix_node hks
  obtain ⟨n0, hn0⟩ := heap_get hi0
  obtain ⟨a1, a2⟩ := (H.prefix_data hn0 hks).1 e0
  obtain ⟨n1, b1, b2, b3, b4⟩ := extend_headKept he i0 n0 hn0
  have e1 := (H1.prefix_data b1 (Nat.le_of_lt hk)).2 ⟨by omega, by omega⟩
  have hii : i = i0 := H1.inv.inj i i0 (List.getElem?_eq_some_iff.1 hnd).1
    (List.getElem?_eq_some_iff.1 b1).1 (by rw [hL, e1])
  subst hii
  rw [b1] at hnd; cases hnd
  by_cases hlt : k < s.length
  · rw [List.getElem?_append_left hlt] at ht
    exact b4 t (F i n0 k t hn0 e0 ht)
  · have hkk : k = s.length := by omega
    subst hkk
    simp at ht e0
    subst ht
    have : i = last := H.inv.inj i last hi0 H.inv.last_lt (by rw [e0, H.inv.lastL])
    subst this
    obtain ⟨nd, h2, h3⟩ := extend_last_head he hn0 (H.last_no_trans hn0)
    rw [b1] at h2; cases h2
    exact h3

end

theorem extendAll_firsts : ∀ (ts : List α) {s : List α} {h : Heap α} {last : Nat}
    {L : Nat → List α}, HInv s h last L → Firsts s h L →
    ∃ h' last' L', extendAll ts last h = some (h', last') ∧ HInv (s ++ ts) h' last' L' ∧
      Firsts (s ++ ts) h' L' := by
  intro ts
  induction ts with
  | nil => intro s h last L H F; exact ⟨h, last, L, rfl, by simpa using H, by simpa using F⟩
  | cons c ts ih =>
    intro s h last L H F
    obtain ⟨h1, L1, he, H1, hl⟩ := extend_spec H c
    obtain ⟨h2, last2, L2, he2, H2, F2⟩ := ih H1 (extend_firsts H F he H1)
    exact ⟨h2, last2, L2, by simp only [extendAll, he]; exact he2, by simpa using H2, by simpa using F2⟩

theorem markTerminals_headKept : ∀ {f : Nat} {h : Heap α} {cur : Option Nat} {r},
    markTerminals f h cur = some r → HeadKept h r := by
  intro f
  induction f with
  | zero =>
    intro h cur r hr
    cases cur <;> simp [markTerminals] at hr
    subst hr; exact .refl _
  | succ f ih =>
    intro h cur r hr
    cases cur with
    | none => simp [markTerminals] at hr; subst hr; exact .refl _
    | some u =>
      simp only [markTerminals] at hr
      split at hr
      · cases hr
      · next nd hnd => exact (HeadKept.set hnd (nd' := { nd with isTerminal := true }) rfl rfl fun _ e => e).trans (ih hr)

theorem addReverseLink_headKept (h : Heap α) (i : Nat) : HeadKept h (addReverseLink h i) := by
  unfold addReverseLink
  split
  · exact .refl _
  · split
    · exact .refl _
    · split
      · exact .refl _
      · next ln hln => exact HeadKept.set hln rfl rfl fun _ e => e

theorem addReverseLinks_headKept : ∀ (l : List Nat) (h : Heap α),
    HeadKept h (l.foldl addReverseLink h)
  | [], h => .refl h
  | i :: l, h => (addReverseLink_headKept h i).trans (addReverseLinks_headKept l _)

/-- The first transition of a prefix, in the finished automaton. -/
theorem build_firsts {s : List α} {h : Heap α} {last : Nat} {L : Nat → List α}
    (hb : build s = some h) (B : Built s h last L) : Firsts s h L := by
  obtain ⟨h0, last0, L0, he, H0, F0⟩ := extendAll_firsts s (hInv_init (α := α))
    (by intro i nd k c _ _ hc; simp at hc)
  simp only [List.nil_append] at H0 F0
  have K : HeadKept h0 h := by
    unfold build at hb
    rw [he] at hb
    dsimp only at hb
    split at hb
    · cases hb
    · split at hb
      · cases hb
      · next hm => cases hb; exact (markTerminals_headKept hm).trans (addReverseLinks_headKept _ _)
  intro i nd k t hnd hL ht
  have hk : k ≤ s.length := by rw [List.getElem?_eq_some_iff] at ht; exact Nat.le_of_lt ht.1
  obtain ⟨i0, hi0, e0⟩ := H0.prefix_node hk
  obtain ⟨n0, hn0⟩ := heap_get hi0
  obtain ⟨a1, a2⟩ := (H0.prefix_data hn0 hk).1 e0
  obtain ⟨n1, b1, b2, b3, b4⟩ := K i0 n0 hn0
  have e1 := (B.hinv.prefix_data b1 hk).2 ⟨by omega, by omega⟩
  have hii : i = i0 := B.hinv.inv.inj i i0 (List.getElem?_eq_some_iff.1 hnd).1
    (List.getElem?_eq_some_iff.1 b1).1 (by rw [hL, e1])
  subst hii
  rw [b1] at hnd; cases hnd
  exact b4 t (F0 i n0 k t hn0 e0 ht)

/-- The node after a prefix, along the text. -/
theorem Built.next_prefix {s : List α} {h : Heap α} {last : Nat} {L : Nat → List α}
    (B : Built s h last L) {cur j k : Nat} (hc : cur < h.length) (hL : L cur = s.take k)
    (hk : k < s.length) (ht : trOf h cur s[k] = some j) : j < h.length ∧ L j = s.take (k + 1) := by
  obtain ⟨hx, he⟩ := B.hinv.inv.tr_some cur hc _ _ ht
  refine ⟨hx, ?_⟩
  rw [hL, List.take_append_getElem] at he
  have hocc : Occ s (s.take (k + 1)) (k + 1) := ⟨hk, List.suffix_refl _⟩
  have h2 : L j <:+ s.take (k + 1) := ((he (k + 1)).1 hocc).2
  exact h2.eq_of_length_le (B.hinv.inv.longest _ hx _ he).length_le

/-- `all_suffixes` recurses along the whole text. -/
theorem allSuffixesFrom_deep {s : List α} {h : Heap α} {last : Nat} {L : Nat → List α}
    (B : Built s h last L) : ∀ (f k cur : Nat), f + k ≤ s.length → cur < h.length →
    L cur = s.take k → allSuffixesFrom h f cur = none := by
  intro f
  induction f with
  | zero => intros; rfl
  | succ f ih =>
    intro k cur hf hc hL
    obtain ⟨nd, hnd⟩ := heap_get hc
    have hk : k < s.length := by omega
    have hsub : Sub s (L cur ++ [s[k]]) := by
      rw [hL, List.take_append_getElem]
      exact ⟨k + 1, hk, List.suffix_refl _⟩
    cases ht : trOf h cur s[k] with
    | none => exact absurd hsub (B.hinv.inv.tr_none cur hc _ ht)
    | some j =>
      obtain ⟨hj, hLj⟩ := B.next_prefix hc hL hk ht
      have hn := ih (k + 1) j (by omega) hj hLj
      have hm := (B.mem_trans hnd).2 ht
      simp only [allSuffixesFrom, hnd]
      generalize some (if nd.isTerminal then [([] : List α)] else []) = acc
      generalize nd.transitions = trs at hm
      clear hnd
      have absorb : ∀ trs : List (α × Nat), trs.foldl (fun acc tr =>
          match acc, allSuffixesFrom h f tr.2 with
          | some out, some subs => some (out ++ subs.map (tr.1 :: ·))
          | _, _ => none) none = none := by
        intro trs
        induction trs with
        | nil => rfl
        | cons x trs ih => simpa using ih
      induction trs generalizing acc with
      | nil => simp at hm
      | cons x trs iht =>
        rw [List.foldl_cons]
        rcases List.mem_cons.1 hm with rfl | hm
        · simp only [hn]
          cases acc <;> exact absorb trs
        · exact iht _ hm

/-- Too little room for the path along the text. -/
theorem dumpFrom_deep {s : List α} {h : Heap α} {last : Nat} {L : Nat → List α}
    (B : Built s h last L) (F : Firsts s h L) : ∀ (f k cur : Nat) (dumped : List Nat),
    f + k ≤ s.length → cur < h.length → L cur = s.take k →
    (∀ u ∈ dumped, ∀ j, L u = s.take j → j ≤ s.length → j < k) → dumpFrom h f cur dumped = none := by
  intro f
  induction f with
  | zero => intros; rfl
  | succ f ih =>
    intro k cur dumped hf hc hL hd
    rw [dumpFrom_succ]
    have hm : cur ∉ dumped := fun hm => by have := hd cur hm k hL (by omega); omega
    obtain ⟨nd, hnd⟩ := heap_get hc
    simp only [hm, if_false, hnd]
    have hk : k < s.length := by omega
    have hh := F cur nd k s[k] hnd hL (List.getElem?_eq_getElem hk)
    unfold headKey at hh
    cases ht : nd.transitions with
    | nil => simp [ht] at hh
    | cons x trs =>
      simp [ht] at hh
      have htr : trOf h cur x.1 = some x.2 := by rw [trOf_some hnd, ht]; simp [dget]
      obtain ⟨hx, hLx⟩ := B.next_prefix hc hL hk (hh ▸ htr)
      have := ih (k + 1) x.2 (dumped ++ [cur]) (by omega) hx hLx (by
        intro u hu j hj hjs
        rcases List.mem_append.1 hu with hu | hu
        · have := hd u hu j hj hjs; omega
        · simp at hu; subst hu
          have := congrArg List.length (hL.symm.trans hj)
          simp at this; omega)
      have e : dumpChildren h f (x :: trs) (some (dumped ++ [cur], dumpBlock h cur)) =
          dumpChildren h f trs none := by
        conv => lhs; unfold dumpChildren
        simp only [List.foldl_cons, this]
        rfl
      rw [e, dumpChildren_none]

end Gaspra
