import Verif.Proofs.History

set_option linter.unusedSectionVars false
set_option linter.unusedSimpArgs false
set_option linter.unusedVariables false

/-!
# The shape of the tree of a line of versions

The versions that descend from one root form a comb: a spine, the newest version first, and one
chain hanging from each tag of the spine.
-/

namespace Gaspra

variable {τ : Type _} [DecidableEq τ]

/-! ### Chains and combs -/

/-- The tags of `l` hang below each other and there is nothing else below them. -/
def Chain (t : MTree τ) (l : List τ) : Prop :=
  ∀ (i : Nat) (x : τ), l[i]? = some x → ∃ nd, dget t x = some nd ∧ ∀ c, c ∈ nd.children ↔ l[i + 1]? = some c

/-- The tags of a comb. -/
def combTags (sp : List (τ × List τ)) : List τ := sp.flatMap fun p => p.1 :: p.2

/-- The lengths of the chains of a comb. -/
def combLens (sp : List (τ × List τ)) : List Nat := sp.map fun p => p.2.length

/-- The height of the top of a comb with these chain lengths. -/
def combHeight : List Nat → Nat
  | [] => 0
  | c :: r => 1 + max c (combHeight r)

/-- The tags of `sp` hang below each other; the second component of each entry is a chain below
its tag; there is nothing else below them. -/
structure Comb (t : MTree τ) (sp : List (τ × List τ)) : Prop where
  node : ∀ {i : Nat} {s : τ} {C : List τ}, sp[i]? = some (s, C) → ∃ nd, dget t s = some nd ∧
    ∀ c, c ∈ nd.children ↔ C.head? = some c ∨ (sp[i + 1]?).map Prod.fst = some c
  chain : ∀ {i : Nat} {s : τ} {C : List τ}, sp[i]? = some (s, C) → Chain t C
  order : ∀ {i : Nat} {s : τ} {C : List τ} {s' : τ} {C' : List τ} {x : τ}, sp[i]? = some (s, C) → sp[i + 1]? = some (s', C') →
    C.head? = some x → orderOf t x < orderOf t s'

theorem Comb.drop {t : MTree τ} {sp : List (τ × List τ)} (K : Comb t sp) (n : Nat) :
    Comb t (sp.drop n) where
  node := by
    intro i s C h
    rw [List.getElem?_drop] at h
    obtain ⟨nd, h1, h2⟩ := K.node h
    refine ⟨nd, h1, ?_⟩
    intro c
    rw [h2, List.getElem?_drop, Nat.add_assoc]
  chain := by
    intro i s C h
    rw [List.getElem?_drop] at h
    exact K.chain h
  order := by
    intro i s C s' C' x h h'
    rw [List.getElem?_drop] at h h'
    rw [← Nat.add_assoc] at h'
    exact K.order h h'

theorem height_of_children {t : MTree τ} (T : TreeOK t) {x : τ} {nd : TNode τ}
    (hx : dget t x = some nd) {m : Nat} (h1 : ∀ c ∈ nd.children, heightOf t c ≤ m)
    (h2 : m = 0 ∨ ∃ c ∈ nd.children, heightOf t c = m) : heightOf t x = m + 1 := by
  rw [heightOf_eq hx, (T.metric x nd hx).1]
  congr 1
  apply Nat.le_antisymm
  · apply maxNat_le
    intro y hy
    obtain ⟨c, hc, rfl⟩ := List.mem_map.1 hy
    exact h1 c hc
  · rcases h2 with h2 | ⟨c, hc, h2⟩
    · omega
    · rw [← h2]; exact le_maxNat (List.mem_map_of_mem hc)

theorem Chain.tail {t : MTree τ} {x : τ} {l : List τ} (h : Chain t (x :: l)) : Chain t l := by
  intro i y hy
  have := h (i := i + 1) (x := y) (by simpa using hy)
  simpa using this

theorem Chain.height {t : MTree τ} (T : TreeOK t) : ∀ {l : List τ} {x : τ}, Chain t (x :: l) →
    heightOf t x = l.length + 1
  | [], x, h => by
    obtain ⟨nd, h1, h2⟩ := h (i := 0) (x := x) rfl
    apply height_of_children T h1 _ (Or.inl rfl)
    intro c hc
    have := (h2 c).1 hc
    simp at this
  | y :: l, x, h => by
    obtain ⟨nd, h1, h2⟩ := h (i := 0) (x := x) rfl
    have ih := Chain.height T h.tail
    have hy : y ∈ nd.children := (h2 y).2 (by simp)
    rw [height_of_children T h1 (m := l.length + 1) _ (Or.inr ⟨y, hy, ih⟩)]
    · simp
    · intro c hc
      have := (h2 c).1 hc
      simp at this
      subst this
      omega

theorem Comb.height {t : MTree τ} (T : TreeOK t) : ∀ {r : List (τ × List τ)} {s : τ} {C : List τ},
    Comb t ((s, C) :: r) → heightOf t s = combHeight (combLens ((s, C) :: r))
  | r, s, C, K => by
    obtain ⟨nd, h1, h2⟩ := K.node (i := 0) rfl
    have hC : ∀ x, C.head? = some x → heightOf t x = C.length := by
      intro x hx
      cases C with
      | nil => cases hx
      | cons y C =>
        simp at hx; subst hx
        simpa using Chain.height T (K.chain (i := 0) rfl)
    have hr : ∀ x, ((((s, C) :: r)[0 + 1]?).map Prod.fst) = some x →
        heightOf t x = combHeight (combLens r) := by
      intro x hx
      cases r with
      | nil => simp at hx
      | cons p r =>
        simp at hx; subst hx
        exact Comb.height T (r := r) (s := p.1) (C := p.2) (K.drop 1)
    show _ = 1 + max C.length (combHeight (combLens r))
    rw [Nat.add_comm]
    apply height_of_children T h1
    · intro c hc
      rcases (h2 c).1 hc with h | h
      · rw [hC c h]; omega
      · rw [hr c h]; omega
    · rcases Nat.le_total C.length (combHeight (combLens r)) with h | h
      · rw [Nat.max_eq_right h]
        cases r with
        | nil => exact Or.inl rfl
        | cons p r =>
          exact Or.inr ⟨p.1, (h2 _).2 (Or.inr (by simp)), hr _ (by simp)⟩
      · rw [Nat.max_eq_left h]
        cases C with
        | nil => exact Or.inl rfl
        | cons y C => exact Or.inr ⟨y, (h2 _).2 (Or.inl (by simp)), hC _ (by simp)⟩
  termination_by r => r.length

theorem Comb.height_at {t : MTree τ} (T : TreeOK t) {sp : List (τ × List τ)} (K : Comb t sp)
    {i : Nat} {s : τ} {C : List τ} (h : sp[i]? = some (s, C)) :
    heightOf t s = combHeight (combLens (sp.drop i)) := by
  have hd : sp.drop i = (s, C) :: sp.drop (i + 1) := by
    obtain ⟨hi, e⟩ := List.getElem?_eq_some_iff.1 h
    rw [List.drop_eq_getElem_cons hi, e]
  have := K.drop i
  rw [hd] at this ⊢
  exact this.height T

/-- The walk of `get_split` stays on the spine as long as the chains are not longer than what
follows. -/
theorem Comb.walk {t : MTree τ} (T : TreeOK t) {sp : List (τ × List τ)} (K : Comb t sp) {m : Nat}
    (hm : ∀ {i : Nat} {s : τ} {C : List τ}, i < m → sp[i]? = some (s, C) → i + 1 < sp.length ∧
      C.length ≤ combHeight (combLens (sp.drop (i + 1)))) {b y : τ} {path : List τ}
    (hb : (sp[0]?).map Prod.fst = some b) (h : BestPath t b path y) (hl : path.length ≤ m + 1) :
    0 < path.length ∧ (sp[path.length - 1]?).map Prod.fst = some y := by
  induction h with
  | start h => exact ⟨by simp, by simpa using hb⟩
  | @next l y nd c h1 h2 h3 ih =>
    simp only [List.length_append, List.length_cons, List.length_nil] at hl ⊢
    obtain ⟨i1, i2⟩ := ih (by omega)
    refine ⟨by omega, ?_⟩
    obtain ⟨⟨s, C⟩, e1, e2⟩ := Option.map_eq_some_iff.1 i2
    simp only at e2
    subst e2
    obtain ⟨hlt, hC⟩ := hm (i := l.length - 1) (by omega) e1
    have e3 : l.length - 1 + 1 = l.length := by omega
    rw [e3] at hlt hC
    obtain ⟨nd', k1, k2⟩ := K.node e1
    rw [h2] at k1; cases k1
    rw [e3] at k2
    have hsome : sp[l.length]? = some (sp[l.length].1, sp[l.length].2) :=
      List.getElem?_eq_getElem hlt
    have hs' : sp[l.length].1 ∈ nd.children := (k2 _).2 (Or.inr (by rw [hsome]; rfl))
    rcases (k2 c).1 h3.1 with h | h
    · exfalso
      have hh := K.height_at T hsome
      have ho := K.order e1 (by rw [e3]; exact hsome) h
      have hc : heightOf t c = C.length := by
        cases C with
        | nil => cases h
        | cons z C =>
          simp at h; subst h
          simpa using Chain.height T (K.chain e1)
      rcases h3.2 _ hs' with h | ⟨h, h'⟩ <;> omega
    · simpa using h

/-- The walk of `get_split` enters a chain that is longer than what follows. -/
theorem Comb.turn {t : MTree τ} (T : TreeOK t) {sp : List (τ × List τ)} (K : Comb t sp) {m : Nat}
    (hm : ∀ {i : Nat} {s : τ} {C : List τ}, i < m → sp[i]? = some (s, C) → i + 1 < sp.length ∧
      C.length ≤ combHeight (combLens (sp.drop (i + 1)))) {b y x s : τ} {path X : List τ}
    (hb : (sp[0]?).map Prod.fst = some b) (hs : sp[m]? = some (s, x :: X))
    (hX : combHeight (combLens (sp.drop (m + 1))) < X.length + 1)
    (h : BestPath t b path y) (hl : path.length = m + 2) : y = x := by
  cases h with
  | start h => simp at hl
  | @next l y0 nd _ h1 h2 h3 =>
    simp only [List.length_append, List.length_cons, List.length_nil] at hl
    obtain ⟨i1, i2⟩ := K.walk T hm hb h1 (by omega)
    have e : l.length - 1 = m := by omega
    rw [e, hs] at i2
    simp at i2; subst i2
    obtain ⟨nd', k1, k2⟩ := K.node hs
    rw [h2] at k1; cases k1
    have hx : x ∈ nd.children := (k2 _).2 (Or.inl rfl)
    have hhx : heightOf t x = X.length + 1 := Chain.height T (K.chain hs)
    rcases (k2 y).1 h3.1 with h | h
    · simpa using h.symm
    · exfalso
      obtain ⟨⟨s', C'⟩, e1, e2⟩ := Option.map_eq_some_iff.1 h
      simp only at e2
      subst e2
      have hh := K.height_at T e1
      rcases h3.2 _ hx with h | ⟨h, h'⟩ <;> omega

/-! ### The lengths of the chains -/

/-- The chain lengths of the comb of `n` versions. -/
inductive CombShape : Nat → List Nat → Prop
  | narrow {k j : Nat} : 0 < k → j ≤ k →
      CombShape (k * (k + 1) + j) (List.replicate k k ++ List.replicate j 0)
  | wide {k j : Nat} : j ≤ k →
      CombShape ((k + 1) * (k + 1) + j)
        (List.replicate j (k + 1) ++ List.replicate (k + 1 - j) k)

theorem combHeight_replicate (c : Nat) (r : List Nat) : ∀ {m : Nat}, 0 < m →
    combHeight (List.replicate m c ++ r) = m + max c (combHeight r)
  | 1, _ => by simp [combHeight]
  | m + 2, _ => by
    rw [List.replicate_succ, List.cons_append, combHeight, combHeight_replicate c r (Nat.succ_pos m)]
    omega

theorem combHeight_zeros : ∀ {j : Nat}, combHeight (List.replicate j 0) = j
  | 0 => rfl
  | j + 1 => by rw [List.replicate_succ, combHeight, combHeight_zeros]; omega

theorem combHeight_replicate' (c : Nat) {m : Nat} (h : 0 < m) :
    combHeight (List.replicate m c) = m + c := by
  have := combHeight_replicate c [] h
  simpa [combHeight] using this

theorem narrow_height {k j : Nat} (h1 : 0 < k) (h2 : j ≤ k) :
    combHeight (List.replicate k k ++ List.replicate j 0) = 2 * k := by
  rw [combHeight_replicate _ _ h1, combHeight_zeros]; omega

theorem wide_height {k j : Nat} (h : j ≤ k) :
    combHeight (List.replicate j (k + 1) ++ List.replicate (k + 1 - j) k) = 2 * k + 1 := by
  rcases Nat.eq_zero_or_pos j with rfl | hj
  · simp only [List.replicate_zero, List.nil_append]
    rw [combHeight_replicate' _ (by omega)]; omega
  · rw [combHeight_replicate _ _ hj, combHeight_replicate' _ (by omega)]; omega

theorem CombShape.height {n : Nat} {l : List Nat} (h : CombShape n l) :
    (combHeight l + 1) ^ 2 ≤ 4 * n + 1 ∧ 4 * n + 1 < (combHeight l + 2) ^ 2 := by
  cases h with
  | @narrow k j h1 h2 =>
    rw [narrow_height h1 h2]
    have e1 : (2 * k + 1) ^ 2 = 4 * (k * (k + 1)) + 1 := by
      simp only [Nat.pow_two, Nat.mul_add, Nat.add_mul, Nat.one_mul, Nat.mul_one]
      have : 2 * k * (2 * k) = 4 * (k * k) := by
        rw [Nat.mul_mul_mul_comm]
      omega
    have e2 : (2 * k + 2) ^ 2 = 4 * (k * (k + 1)) + 4 * k + 4 := by
      simp only [Nat.pow_two, Nat.mul_add, Nat.add_mul, Nat.one_mul, Nat.mul_one]
      have : 2 * k * (2 * k) = 4 * (k * k) := by
        rw [Nat.mul_mul_mul_comm]
      omega
    rw [e1, e2]; omega
  | @wide k j h2 =>
    rw [wide_height h2]
    have e1 : (2 * k + 1 + 1) ^ 2 = 4 * ((k + 1) * (k + 1)) := by
      simp only [Nat.pow_two, Nat.mul_add, Nat.add_mul, Nat.one_mul, Nat.mul_one]
      have : 2 * k * (2 * k) = 4 * (k * k) := by
        rw [Nat.mul_mul_mul_comm]
      omega
    have e2 : (2 * k + 1 + 2) ^ 2 = 4 * ((k + 1) * (k + 1)) + 4 * k + 5 := by
      simp only [Nat.pow_two, Nat.mul_add, Nat.add_mul, Nat.one_mul, Nat.mul_one]
      have : 2 * k * (2 * k) = 4 * (k * k) := by
        rw [Nat.mul_mul_mul_comm]
      omega
    rw [e1, e2]; omega

theorem combLens_take (sp : List (τ × List τ)) (n : Nat) :
    combLens (sp.take n) = (combLens sp).take n := by simp [combLens, List.map_take]

theorem combLens_drop (sp : List (τ × List τ)) (n : Nat) :
    combLens (sp.drop n) = (combLens sp).drop n := by simp [combLens, List.map_drop]

theorem combLens_get {sp : List (τ × List τ)} {i : Nat} {s : τ} {C : List τ}
    (h : sp[i]? = some (s, C)) : (combLens sp)[i]? = some C.length := by
  simp [combLens, h]

theorem combTags_chain_nil : ∀ {sp : List (τ × List τ)}, (∀ p ∈ sp, p.2 = []) →
    combTags sp = sp.map Prod.fst
  | [], _ => rfl
  | p :: sp, h => by
    have h1 := h p (by simp)
    have ih := combTags_chain_nil (sp := sp) fun q hq => h q (by simp [hq])
    simp only [combTags, List.flatMap_cons, h1, List.map_cons] at ih ⊢
    simp [ih]

/-- A comb without chains is a chain. -/
theorem Comb.bare {t : MTree τ} {sp : List (τ × List τ)} (K : Comb t sp)
    (h : ∀ p ∈ sp, p.2 = []) : Chain t (sp.map Prod.fst) := by
  intro i x hx
  rw [List.getElem?_map] at hx
  obtain ⟨⟨s, C⟩, e1, e2⟩ := Option.map_eq_some_iff.1 hx
  simp only at e2
  subst e2
  obtain ⟨nd, k1, k2⟩ := K.node e1
  have hC : C = [] := h _ (List.mem_of_getElem? e1)
  subst hC
  refine ⟨nd, k1, fun c => ?_⟩
  rw [k2, List.getElem?_map]
  simp

/-- The last tag of a comb with its chain is a chain. -/
theorem Comb.single {t : MTree τ} {s : τ} {C : List τ} (K : Comb t [(s, C)]) :
    Chain t (s :: C) := by
  intro i x hx
  cases i with
  | zero =>
    simp at hx; subst hx
    obtain ⟨nd, k1, k2⟩ := K.node (i := 0) rfl
    refine ⟨nd, k1, fun c => ?_⟩
    rw [k2]
    simp [List.head?_eq_getElem?]
  | succ i =>
    have hC : Chain t C := K.chain (i := 0) rfl
    have := hC i x (by simpa using hx)
    simpa using this

theorem getElem?_split {α : Type _} {l : List α} {i : Nat} {x : α} (h : l[i]? = some x) :
    l = l.take i ++ x :: l.drop (i + 1) := by
  obtain ⟨hi, e⟩ := List.getElem?_eq_some_iff.1 h
  rw [← e, ← List.drop_eq_getElem_cons hi, List.take_append_drop]

/-- Where the walk of `get_split` ends in a comb and which shape results: either it ends in the
first tag of a chain, or on the spine at a tag below which everything is a chain. -/
theorem Comb.split {t : MTree τ} (T : TreeOK t) {sp : List (τ × List τ)} (K : Comb t sp) {n : Nat}
    (hsh : CombShape n (combLens sp)) {b s : τ} {path : List τ}
    (hb : (sp[0]?).map Prod.fst = some b) (h : BestPath t b path s)
    (hl : path.length = heightOf t b / 2 + 1) :
    (∃ pre sk X post, sp = pre ++ (sk, s :: X) :: post ∧
      CombShape (n + 1) ((X.length + 1) :: combLens (pre ++ (sk, []) :: post))) ∨
    (∃ pre suf E, sp = pre ++ suf ∧ combTags suf = s :: E ∧ (suf.map Prod.fst).head? = some s ∧
      Chain t (s :: E) ∧ CombShape (n + 1) ((E.length + 1) :: combLens pre)) := by
  obtain ⟨⟨b', C0⟩, hb1, hb2⟩ := Option.map_eq_some_iff.1 hb
  simp only at hb2
  subst hb2
  rw [K.height_at T hb1, List.drop_zero] at hl
  generalize hL : combLens sp = L at hsh hl
  have hlen : sp.length = L.length := by rw [← hL]; simp [combLens]
  cases hsh with
  | @narrow k j h1 h2 =>
    rw [narrow_height h1 h2] at hl
    have hdrop : ∀ i, i < k → combLens (sp.drop (i + 1)) =
        List.replicate (k - 1 - i) k ++ List.replicate j 0 := by
      intro i hi
      rw [combLens_drop, hL, List.drop_append, List.drop_replicate, List.length_replicate,
        List.drop_replicate]
      congr 2
      · omega
      · omega
    have hC : ∀ {i : Nat} {s : τ} {C : List τ}, i < k → sp[i]? = some (s, C) → C.length = k := by
      intro i s C hi e
      have := combLens_get e
      rw [hL, List.getElem?_append_left (by simpa using hi), List.getElem?_replicate, if_pos hi] at this
      exact (Option.some.inj this).symm
    simp only [List.length_append, List.length_replicate] at hlen
    have hm : ∀ {i : Nat} {s : τ} {C : List τ}, i < k - 1 → sp[i]? = some (s, C) → i + 1 < sp.length ∧
        C.length ≤ combHeight (combLens (sp.drop (i + 1))) := by
      intro i s C hi e
      refine ⟨by omega, ?_⟩
      rw [hC (by omega) e, hdrop i (by omega), combHeight_replicate _ _ (by omega)]
      omega
    have hk1 : sp[k - 1]? = some (sp[k - 1]'(by omega)) := List.getElem?_eq_getElem _
    generalize sp[k - 1]'(by omega) = q at hk1
    obtain ⟨sk, C⟩ := q
    have hClen := hC (by omega) hk1
    have hd1 : combLens (sp.drop k) = List.replicate j 0 := by
      have := hdrop (k - 1) (by omega)
      rw [show k - 1 + 1 = k from by omega] at this
      rw [this]; simp
    by_cases hjk : j < k
    · left
      cases C with
      | nil => simp at hClen; omega
      | cons x X =>
        simp at hClen
        have hs := K.turn T hm hb hk1 (by
          rw [show k - 1 + 1 = k from by omega, hd1, combHeight_zeros]; omega) h (by omega)
        subst hs
        refine ⟨sp.take (k - 1), sk, X, sp.drop k, ?_, ?_⟩
        · have := getElem?_split hk1
          rwa [show k - 1 + 1 = k from by omega] at this
        · have e1 : combLens (sp.take (k - 1)) = List.replicate (k - 1) k := by
            rw [combLens_take, hL, List.take_append_of_le_length (by simp), List.take_replicate]
            congr 1; omega
          have e2 : (X.length + 1) :: combLens (sp.take (k - 1) ++ (sk, []) :: sp.drop k) =
              List.replicate k k ++ List.replicate (j + 1) 0 := by
            have : combLens (sp.take (k - 1) ++ (sk, []) :: sp.drop k) =
                combLens (sp.take (k - 1)) ++ 0 :: combLens (sp.drop k) := by
              simp [combLens]
            rw [this, e1, hd1, hClen, ← List.replicate_succ, ← List.cons_append,
              ← List.replicate_succ, show k - 1 + 1 = k from by omega]
          rw [e2]
          exact CombShape.narrow h1 (j := j + 1) hjk
    · right
      have hj : j = k := by omega
      subst hj
      have hm' : ∀ {i : Nat} {s : τ} {C : List τ}, i < j → sp[i]? = some (s, C) → i + 1 < sp.length ∧
          C.length ≤ combHeight (combLens (sp.drop (i + 1))) := by
        intro i s C hi e
        by_cases hi' : i < j - 1
        · exact hm hi' e
        · refine ⟨by omega, ?_⟩
          rw [hC (by omega) e, show i + 1 = j from by omega, hd1, combHeight_zeros]
          exact Nat.le_refl _
      obtain ⟨_, w⟩ := K.walk T hm' hb h (by omega)
      rw [show path.length - 1 = j from by omega] at w
      have hbare : ∀ p ∈ sp.drop j, p.2 = [] := by
        intro p hp
        have : p.2.length ∈ combLens (sp.drop j) := List.mem_map.2 ⟨p, hp, rfl⟩
        rw [hd1] at this
        exact List.eq_nil_of_length_eq_zero (List.eq_of_mem_replicate this)
      obtain ⟨⟨s', C'⟩, w1, w2⟩ := Option.map_eq_some_iff.1 w
      simp only at w2
      subst w2
      have hd : sp.drop j = (s', C') :: sp.drop (j + 1) := by
        obtain ⟨hi, e⟩ := List.getElem?_eq_some_iff.1 w1
        rw [List.drop_eq_getElem_cons hi, e]
      have ht : combTags (sp.drop j) = s' :: (sp.drop (j + 1)).map Prod.fst := by
        rw [combTags_chain_nil hbare, hd]; rfl
      refine ⟨sp.take j, sp.drop j, (sp.drop (j + 1)).map Prod.fst, (List.take_append_drop _ _).symm,
        ht, by rw [hd]; rfl, ?_, ?_⟩
      · rw [← ht, combTags_chain_nil hbare]
        exact (K.drop j).bare hbare
      · have e1 : combLens (sp.take j) = List.replicate j j := by
          rw [combLens_take, hL, List.take_append_of_le_length (by simp), List.take_replicate]
          congr 1; omega
        have e2 : ((sp.drop (j + 1)).map Prod.fst).length + 1 = j := by
          simp [hlen]; omega
        rw [e1, e2, ← List.replicate_succ]
        have := CombShape.wide (k := j) (j := 0) (by omega)
        simp only [List.replicate_zero, List.nil_append, Nat.add_zero, Nat.sub_zero] at this
        have e3 : j * (j + 1) + j + 1 = (j + 1) * (j + 1) := by
          rw [Nat.add_mul (j) 1 (j + 1)]; omega
        rw [e3]
        exact this
  | @wide k j h2 =>
    right
    rw [wide_height h2] at hl
    simp only [List.length_append, List.length_replicate] at hlen
    have hdrop : ∀ i, combLens (sp.drop (i + 1)) =
        List.replicate (j - (i + 1)) (k + 1) ++ List.replicate (k + 1 - j - (i + 1 - j)) k := by
      intro i
      rw [combLens_drop, hL, List.drop_append, List.drop_replicate, List.length_replicate,
        List.drop_replicate]
    have hC : ∀ {i : Nat} {s : τ} {C : List τ}, sp[i]? = some (s, C) → C.length = if i < j then k + 1 else k := by
      intro i s C e
      have := combLens_get e
      rw [hL, List.getElem?_append] at this
      split at this
      · next hi =>
        rw [List.getElem?_replicate] at this
        split at this
        · next hi => rw [if_pos hi]; exact (Option.some.inj this).symm
        · cases this
      · next hi =>
        rw [List.length_replicate] at hi
        rw [List.getElem?_replicate] at this
        split at this
        · rw [if_neg hi]; exact (Option.some.inj this).symm
        · cases this
    have hm : ∀ {i : Nat} {s : τ} {C : List τ}, i < k → sp[i]? = some (s, C) → i + 1 < sp.length ∧
        C.length ≤ combHeight (combLens (sp.drop (i + 1))) := by
      intro i s C hi e
      refine ⟨by omega, ?_⟩
      rw [hC e, hdrop i]
      by_cases hi' : i + 1 < j
      · rw [combHeight_replicate _ _ (by omega), if_pos (by omega)]; omega
      · rw [show j - (i + 1) = 0 from by omega, List.replicate_zero, List.nil_append,
          combHeight_replicate' _ (by omega)]
        split <;> omega
    obtain ⟨_, w⟩ := K.walk T hm hb h (by omega)
    rw [show path.length - 1 = k from by omega] at w
    obtain ⟨⟨s', C⟩, w1, w2⟩ := Option.map_eq_some_iff.1 w
    simp only at w2
    subst w2
    have hClen := hC w1
    rw [if_neg (by omega)] at hClen
    have hd : sp.drop k = [(s', C)] := by
      obtain ⟨hi, e⟩ := List.getElem?_eq_some_iff.1 w1
      rw [List.drop_eq_getElem_cons hi, e, List.drop_eq_nil_of_le (by omega)]
    refine ⟨sp.take k, sp.drop k, C, (List.take_append_drop _ _).symm, by simp [hd, combTags],
      by simp [hd], ?_, ?_⟩
    · have := K.drop k
      rw [hd] at this
      exact this.single
    · have e1 : combLens (sp.take k) = List.replicate j (k + 1) ++ List.replicate (k - j) k := by
        rw [combLens_take, hL, List.take_append, List.take_replicate, List.length_replicate,
          List.take_replicate]
        congr 2
        · omega
        · omega
      rw [e1, hClen, ← List.cons_append, ← List.replicate_succ]
      by_cases hjk : j < k
      · have := CombShape.wide (k := k) (j := j + 1) (by omega)
        rw [show k + 1 - (j + 1) = k - j from by omega] at this
        exact this
      · have hj : j = k := by omega
        subst hj
        have := CombShape.narrow (k := j + 1) (j := 0) (by omega) (by omega)
        have e3 : (j + 1) * (j + 1) + j + 1 = (j + 1) * (j + 1 + 1) + 0 := by
          rw [Nat.mul_add (j + 1) (j + 1) 1]; omega
        rw [e3]
        simpa using this

/-! ### What a call of `add` does to a comb -/

theorem comb_nil (t : MTree τ) : Comb t [] where
  node := by intro i s C h; simp at h
  chain := by intro i s C h; simp at h
  order := by intro i s C s' C' x h; simp at h

theorem comb_cons {t : MTree τ} {s : τ} {C : List τ} {r : List (τ × List τ)} :
    Comb t ((s, C) :: r) ↔
      (∃ nd, dget t s = some nd ∧
        ∀ c, c ∈ nd.children ↔ C.head? = some c ∨ (r.head?).map Prod.fst = some c) ∧
      Chain t C ∧
      (∀ x s', C.head? = some x → (r.head?).map Prod.fst = some s' →
        orderOf t x < orderOf t s') ∧ Comb t r := by
  constructor
  · intro K
    refine ⟨?_, K.chain (i := 0) rfl, ?_, K.drop 1⟩
    · obtain ⟨nd, h1, h2⟩ := K.node (i := 0) rfl
      refine ⟨nd, h1, fun c => ?_⟩
      rw [h2]; simp [List.head?_eq_getElem?]
    · intro x s' hx hs'
      obtain ⟨⟨a, A⟩, e1, e2⟩ := Option.map_eq_some_iff.1 hs'
      simp only at e2; subst e2
      exact K.order (i := 0) rfl (by simpa [List.head?_eq_getElem?] using e1) hx
  · rintro ⟨⟨nd, h1, h2⟩, h3, h4, h5⟩
    constructor
    · intro i s' C' h
      cases i with
      | zero =>
        simp at h; obtain ⟨rfl, rfl⟩ := h
        refine ⟨nd, h1, fun c => ?_⟩
        rw [h2]; simp [List.head?_eq_getElem?]
      | succ i =>
        obtain ⟨nd', k1, k2⟩ := h5.node (i := i) (by simpa using h)
        exact ⟨nd', k1, fun c => by rw [k2]; simp⟩
    · intro i s' C' h
      cases i with
      | zero => simp at h; obtain ⟨rfl, rfl⟩ := h; exact h3
      | succ i => exact h5.chain (i := i) (by simpa using h)
    · intro i a A a' A' x h h' hx
      cases i with
      | zero =>
        simp at h; obtain ⟨rfl, rfl⟩ := h
        refine h4 x a' hx ?_
        rw [List.head?_eq_getElem?, show r[0]? = some (a', A') by simpa using h']; rfl
      | succ i => exact h5.order (i := i) (by simpa using h) (by simpa using h') hx

theorem Chain.known {t : MTree τ} {l : List τ} (h : Chain t l) {x : τ} (hx : x ∈ l) :
    ∃ nd, dget t x = some nd := by
  obtain ⟨i, hi⟩ := List.getElem?_of_mem hx
  obtain ⟨nd, h1, _⟩ := h i x hi
  exact ⟨nd, h1⟩

theorem mem_combTags {sp : List (τ × List τ)} {x : τ} : x ∈ combTags sp ↔
    ∃ p ∈ sp, x = p.1 ∨ x ∈ p.2 := by simp [combTags]

theorem Comb.known {t : MTree τ} {sp : List (τ × List τ)} (K : Comb t sp) {x : τ}
    (hx : x ∈ combTags sp) : ∃ nd, dget t x = some nd := by
  obtain ⟨⟨s, C⟩, h1, h2⟩ := mem_combTags.1 hx
  obtain ⟨i, hi⟩ := List.getElem?_of_mem h1
  rcases h2 with rfl | h2
  · obtain ⟨nd, k, _⟩ := K.node hi; exact ⟨nd, k⟩
  · exact (K.chain hi).known h2

/-- `t'` arises from `t` by moving `s` and `b` below the new tag. -/
structure Regrown (t t' : MTree τ) (tag b s : τ) : Prop where
  kids : ∀ {p nd}, dget t p = some nd → ∃ nd', dget t' p = some nd' ∧
    ∀ c, c ∈ nd'.children ↔ c ∈ nd.children ∧ c ≠ s
  ord : ∀ {p nd}, dget t p = some nd → orderOf t' p = orderOf t p

theorem Regrown.chain {t t' : MTree τ} {tag b s : τ} (R : Regrown t t' tag b s) {l : List τ}
    (h : Chain t l) (hs : s ∉ l.tail) : Chain t' l := by
  intro i x hx
  obtain ⟨nd, h1, h2⟩ := h i x hx
  obtain ⟨nd', h3, h4⟩ := R.kids h1
  refine ⟨nd', h3, fun c => ?_⟩
  rw [h4, h2]
  constructor
  · exact fun h => h.1
  · intro h
    refine ⟨h, ?_⟩
    rintro rfl
    apply hs
    have : l.tail[i]? = some c := by simpa using h
    exact List.mem_of_getElem? this

theorem head_mem_combTags {r : List (τ × List τ)} {x : τ}
    (h : (r.head?).map Prod.fst = some x) : x ∈ combTags r := by
  cases r with
  | nil => cases h
  | cons p r => simp at h; subst h; simp [combTags]

theorem Regrown.order {t t' : MTree τ} {tag b s : τ} (R : Regrown t t' tag b s) {C : List τ}
    {r : List (τ × List τ)} (hC : Chain t C) (hr : Comb t r)
    (h : ∀ x s', C.head? = some x → (r.head?).map Prod.fst = some s' →
      orderOf t x < orderOf t s') :
    ∀ x s', C.head? = some x → (r.head?).map Prod.fst = some s' → orderOf t' x < orderOf t' s' := by
  intro x s' h1 h2
  obtain ⟨n1, k1⟩ := hC.known (List.mem_of_mem_head? h1)
  obtain ⟨n2, k2⟩ := hr.known (head_mem_combTags h2)
  rw [R.ord k1, R.ord k2]
  exact h x s' h1 h2

/-- A comb without the moved tag is not affected. -/
theorem Regrown.keep {t t' : MTree τ} {tag b s : τ} (R : Regrown t t' tag b s) :
    ∀ {sp : List (τ × List τ)}, Comb t sp → s ∉ combTags sp → Comb t' sp
  | [], _, _ => comb_nil t'
  | (a, C) :: r, K, hs => by
    rw [comb_cons] at K ⊢
    obtain ⟨⟨nd, h1, h2⟩, h3, h4, h5⟩ := K
    have e : combTags ((a, C) :: r) = a :: C ++ combTags r := rfl
    rw [e] at hs
    simp at hs
    refine ⟨?_, R.chain h3 fun h => hs.2.1 (List.mem_of_mem_tail h), R.order h3 h5 h4,
      R.keep h5 hs.2.2⟩
    obtain ⟨nd', h6, h7⟩ := R.kids h1
    refine ⟨nd', h6, fun c => ?_⟩
    rw [h7, h2]
    constructor
    · exact fun h => h.1
    · intro h
      refine ⟨h, ?_⟩
      rintro rfl
      rcases h with h | h
      · exact hs.2.1 (List.mem_of_mem_head? h)
      · exact hs.2.2 (head_mem_combTags h)

theorem combTags_append (a b : List (τ × List τ)) :
    combTags (a ++ b) = combTags a ++ combTags b := by simp [combTags]

theorem combTags_cons (a : τ) (C : List τ) (r : List (τ × List τ)) :
    combTags ((a, C) :: r) = a :: C ++ combTags r := rfl

/-- The moved tag was the first one of a chain. -/
theorem Regrown.cutChain {t t' : MTree τ} {tag b s : τ} (R : Regrown t t' tag b s) {sk : τ}
    {X : List τ} {post : List (τ × List τ)} : ∀ {pre : List (τ × List τ)},
    Comb t (pre ++ (sk, s :: X) :: post) → (combTags (pre ++ (sk, s :: X) :: post)).Nodup →
    Comb t' (pre ++ (sk, []) :: post)
  | [], K, hn => by
    rw [List.nil_append] at *
    rw [combTags_cons] at hn
    simp only [List.cons_append, List.nodup_cons, List.mem_cons, List.mem_append, not_or] at hn
    rw [comb_cons] at K ⊢
    obtain ⟨⟨nd, h1, h2⟩, h3, h4, h5⟩ := K
    refine ⟨?_, by intro i x h; simp at h, by intro x s' h; simp at h, R.keep h5 hn.2.1.2⟩
    obtain ⟨nd', h6, h7⟩ := R.kids h1
    refine ⟨nd', h6, fun c => ?_⟩
    rw [h7, h2]
    constructor
    · rintro ⟨h | h, h'⟩
      · simp at h; exact absurd h.symm h'
      · exact Or.inr h
    · rintro (h | h)
      · simp at h
      · refine ⟨Or.inr h, ?_⟩
        rintro rfl
        exact hn.2.1.2 (head_mem_combTags h)
  | (a, C) :: pre, K, hn => by
    rw [List.cons_append] at *
    rw [combTags_cons] at hn
    rw [comb_cons] at K ⊢
    obtain ⟨⟨nd, h1, h2⟩, h3, h4, h5⟩ := K
    have hhead : ((pre ++ (sk, ([] : List τ)) :: post).head?).map Prod.fst =
        ((pre ++ (sk, s :: X) :: post).head?).map Prod.fst := by
      cases pre <;> rfl
    rw [List.nodup_append] at hn
    obtain ⟨hn1, hn2, hn3⟩ := hn
    have hsk : s ∈ combTags (pre ++ (sk, s :: X) :: post) := by
      simp [combTags]
    have hsC : s ∉ C := fun h => hn3 s (by simp [h]) s hsk rfl
    rw [hhead]
    refine ⟨?_, R.chain h3 fun h => hsC (List.mem_of_mem_tail h), R.order h3 h5 h4, R.cutChain h5 hn2⟩
    obtain ⟨nd', h6, h7⟩ := R.kids h1
    refine ⟨nd', h6, fun c => ?_⟩
    rw [h7, h2]
    constructor
    · exact fun h => h.1
    · intro h
      refine ⟨h, ?_⟩
      rintro rfl
      rcases h with h | h
      · exact hsC (List.mem_of_mem_head? h)
      · -- the next tag of the spine is not in a chain
        cases pre with
        | nil =>
          simp at h
          subst h
          simp [combTags] at hn2
        | cons q pre =>
          obtain ⟨q1, q2⟩ := q
          simp at h
          subst h
          simp [combTags] at hn2

/-- The moved tag was on the spine. -/
theorem Regrown.cutSpine {t t' : MTree τ} {tag b s : τ} (R : Regrown t t' tag b s)
    {suf : List (τ × List τ)} (hs : (suf.map Prod.fst).head? = some s) :
    ∀ {pre : List (τ × List τ)}, Comb t (pre ++ suf) → (combTags (pre ++ suf)).Nodup →
    Comb t' pre
  | [], K, hn => comb_nil t'
  | (a, C) :: pre, K, hn => by
    rw [List.cons_append] at *
    rw [combTags_cons] at hn
    rw [comb_cons] at K ⊢
    obtain ⟨⟨nd, h1, h2⟩, h3, h4, h5⟩ := K
    rw [List.nodup_append] at hn
    obtain ⟨hn1, hn2, hn3⟩ := hn
    have hss : s ∈ combTags suf := head_mem_combTags (by simpa using hs)
    have hsk : s ∈ combTags (pre ++ suf) := by rw [combTags_append]; simp [hss]
    have hsC : s ∉ C := fun h => hn3 s (by simp [h]) s hsk rfl
    have hspre : s ∉ combTags pre := by
      intro h
      rw [combTags_append, List.nodup_append] at hn2
      exact hn2.2.2 s h s hss rfl
    refine ⟨?_, R.chain h3 fun h => hsC (List.mem_of_mem_tail h), ?_, R.cutSpine hs h5 hn2⟩
    · obtain ⟨nd', h6, h7⟩ := R.kids h1
      refine ⟨nd', h6, fun c => ?_⟩
      rw [h7, h2]
      cases pre with
      | nil =>
        have : ((([] : List (τ × List τ)) ++ suf).head?).map Prod.fst = some s := by simpa using hs
        rw [this]
        constructor
        · rintro ⟨h | h, h'⟩
          · exact Or.inl h
          · simp at h; exact absurd h.symm h'
        · rintro (h | h)
          · refine ⟨Or.inl h, ?_⟩
            rintro rfl
            exact hsC (List.mem_of_mem_head? h)
          · simp at h
      | cons q pre =>
        constructor
        · exact fun h => h.1
        · intro h
          refine ⟨h, ?_⟩
          rintro rfl
          rcases h with h | h
          · exact hsC (List.mem_of_mem_head? h)
          · exact hspre (head_mem_combTags h)
    · intro x s' hx hs'
      refine R.order h3 h5 h4 x s' hx ?_
      cases pre with
      | nil => cases hs'
      | cons q pre => exact hs'

/-- Everything about the comb below a head. -/
structure LineComb (t : MTree τ) (b : τ) (n : Nat) (sp : List (τ × List τ)) : Prop where
  comb : Comb t sp
  top : (sp[0]?).map Prod.fst = some b
  nodup : (combTags sp).Nodup
  shape : CombShape n (combLens sp)
  newest : ∀ x ∈ combTags sp, x ≠ b → orderOf t x < orderOf t b

theorem TreeGrew.regrown {t t' : MTree τ} {tag b s : τ} {nb : TNode τ} (F : Forest t)
    (F' : Forest t') (G : TreeGrew t t' tag (some b) (some b)) (hb : dget t b = some nb)
    (hbr : nb.parent = none) (htag : dget t tag = none) (hs : ∃ ns, dget t s = some ns)
    (M : ∀ {y nd}, dget t y = some nd → ∃ nd', dget t' y = some nd' ∧
      nd'.parent = if y = b ∨ y = s then some tag else nd.parent) :
    Regrown t t' tag b s ∧
    ∃ nd', dget t' tag = some nd' ∧ ∀ c, c ∈ nd'.children ↔ c = s ∨ c = b := by
  obtain ⟨ntag, g1, g2, _⟩ := G.new
  -- a child in `t'` is a tag of `t`
  have child : ∀ {p np c}, dget t' p = some np → c ∈ np.children →
      ∃ nc, dget t c = some nc ∧ (if c = b ∨ c = s then some tag else nc.parent) = some p := by
    intro p np c hp hc
    obtain ⟨nc, h1, h2⟩ := F'.down hp hc
    have hk := mem_keys_of_dget h1
    rw [G.keys, List.mem_append] at hk
    rcases hk with hk | hk
    · obtain ⟨n0, h0⟩ := dget_isSome_iff.2 hk
      obtain ⟨n1, h3, h4⟩ := M h0
      rw [h1] at h3; cases h3
      exact ⟨n0, h0, h4 ▸ h2⟩
    · simp at hk; subst hk
      rw [g1] at h1; cases h1
      rw [g2] at h2; cases h2
  refine ⟨⟨?_, ?_⟩, ntag, g1, ?_⟩
  · intro p nd hp
    have hpt : p ≠ tag := by rintro rfl; rw [htag] at hp; cases hp
    obtain ⟨nd', h1, _⟩ := G.old hp
    refine ⟨nd', h1, fun c => ?_⟩
    constructor
    · intro hc
      obtain ⟨nc, h2, h3⟩ := child h1 hc
      split at h3
      · exact absurd (Option.some.inj h3).symm hpt
      · next hne =>
        obtain ⟨np, h4, h5⟩ := F.up h2 h3
        rw [hp] at h4; cases h4
        exact ⟨h5, fun e => hne (Or.inr e)⟩
    · rintro ⟨hc, hcs⟩
      obtain ⟨nc, h2, h3⟩ := F.down hp hc
      obtain ⟨nc', h4, h5⟩ := M h2
      have hcb : c ≠ b := by
        rintro rfl
        rw [hb] at h2; cases h2
        rw [hbr] at h3; cases h3
      rw [if_neg (by simp [hcb, hcs]), h3] at h5
      obtain ⟨np, h6, h7⟩ := F'.up h4 h5
      rw [h1] at h6; cases h6
      exact h7
  · intro p nd hp
    obtain ⟨nd', h1, _, h2, _⟩ := G.old hp
    simp [orderOf, h1, hp, h2]
  · intro c
    constructor
    · intro hc
      obtain ⟨nc, h2, h3⟩ := child g1 hc
      split at h3
      · next h => exact h.symm
      · obtain ⟨np, h4, h5⟩ := F.up h2 h3
        rw [htag] at h4; cases h4
    · intro hc
      have : ∃ nc, dget t c = some nc := by
        rcases hc with rfl | rfl
        · exact hs
        · exact ⟨nb, hb⟩
      obtain ⟨nc, h2⟩ := this
      obtain ⟨nc', h3, h4⟩ := M h2
      rw [if_pos hc.symm] at h4
      obtain ⟨np, h5, h6⟩ := F'.up h3 h4
      rw [g1] at h5; cases h5
      exact h6

theorem Comb.mono {t t' : MTree τ} (h : ∀ {p nd}, dget t p = some nd → dget t' p = some nd) :
    ∀ {sp : List (τ × List τ)}, Comb t sp → Comb t' sp
  | [], _ => comb_nil t'
  | (a, C) :: r, K => by
    rw [comb_cons] at K ⊢
    obtain ⟨⟨nd, h1, h2⟩, h3, h4, h5⟩ := K
    refine ⟨⟨nd, h h1, h2⟩, ?_, ?_, Comb.mono h h5⟩
    · intro i x hx
      obtain ⟨n1, k1, k2⟩ := h3 i x hx
      exact ⟨n1, h k1, k2⟩
    · intro x s' hx hs'
      obtain ⟨n1, k1⟩ := h3.known (List.mem_of_mem_head? hx)
      obtain ⟨n2, k2⟩ := h5.known (head_mem_combTags hs')
      have := h4 x s' hx hs'
      simp only [orderOf, k1, k2] at this
      simpa only [orderOf, h k1, h k2] using this

theorem LineComb.mono {t t' : MTree τ} {b : τ} {n : Nat} {sp : List (τ × List τ)}
    (h : ∀ {p nd}, dget t p = some nd → dget t' p = some nd) (K : LineComb t b n sp) :
    LineComb t' b n sp where
  comb := K.comb.mono h
  top := K.top
  nodup := K.nodup
  shape := K.shape
  newest := by
    intro x hx hxb
    have hb : b ∈ combTags sp := head_mem_combTags (by simpa [List.head?_eq_getElem?] using K.top)
    obtain ⟨n1, k1⟩ := K.comb.known hx
    obtain ⟨n2, k2⟩ := K.comb.known hb
    have := K.newest x hx hxb
    simp only [orderOf, k1, k2] at this
    simpa only [orderOf, h k1, h k2] using this

theorem LineComb.top_mem {t : MTree τ} {b : τ} {n : Nat} {sp : List (τ × List τ)}
    (K : LineComb t b n sp) : b ∈ combTags sp :=
  head_mem_combTags (by simpa [List.head?_eq_getElem?] using K.top)

/-- The comb of a new root. -/
theorem LineComb.root {t : MTree τ} {tag : τ} {bo : Option τ} (h : dget t tag = none) :
    LineComb (mtAdd t tag bo) tag 1 [(tag, [])] where
  comb := by
    rw [comb_cons]
    refine ⟨⟨_, by rw [dget_mtAdd, if_pos rfl], ?_⟩, by intro i x h; simp at h,
      by intro x s' h; simp at h, comb_nil _⟩
    intro c
    simp [newNode]
  top := rfl
  nodup := by simp [combTags]
  shape := CombShape.wide (k := 0) (j := 0) (Nat.le_refl 0)
  newest := by intro x hx hxb; simp [combTags] at hx; exact absurd hx hxb

/-- The comb after one more version on top of a line. -/
theorem LineComb.add {t t' : MTree τ} {tag b : τ} {nb : TNode τ} {n : Nat}
    {sp : List (τ × List τ)} (K : LineComb t b n sp) (T : TreeOK t) (F' : Forest t')
    (hlt : ∀ {y nd}, dget t y = some nd → nd.orderId < t.length)
    (G : TreeGrew t t' tag (some b) (some b)) (M : SplitMove t t' tag b nb)
    (hb : dget t b = some nb) (hbr : nb.parent = none) (htag : dget t tag = none) :
    ∃ s sp', s ∈ combTags sp ∧ Regrown t t' tag b s ∧ LineComb t' tag (n + 1) sp' ∧
      (combTags sp').Perm (tag :: combTags sp) := by
  obtain ⟨s, path, m1, m2, m3⟩ := M
  have hsame : ∀ {p nd}, dget t p = some nd → dget (mtAdd t tag (some b)) p = some nd := by
    intro p nd hp
    have : tag ≠ p := by rintro rfl; rw [htag] at hp; cases hp
    rw [dget_mtAdd, if_neg this]; exact hp
  have T1 := T.add htag (some b)
  have K1 := K.mono hsame
  have hb1 := hsame hb
  have hsp := K1.comb.split T1 K.shape K.top m1 (by rw [m2, heightOf_eq hb1])
  -- the moved tag belongs to the comb
  have hsm : s ∈ combTags sp := by
    rcases hsp with ⟨pre, sk, X, post, rfl, _⟩ | ⟨pre, suf, E, rfl, h2, _⟩
    · simp [combTags]
    · rw [combTags_append, h2]; simp
  obtain ⟨R, nt, t1, t2⟩ := G.regrown T.toForest F' hb hbr htag (K.comb.known hsm) m3
  have htagn : tag ∉ combTags sp := by
    intro h
    obtain ⟨nd, hnd⟩ := K.comb.known h
    rw [htag] at hnd; cases hnd
  have hnewest : ∀ x ∈ combTags sp, orderOf t' x < orderOf t' tag := by
    intro x hx
    obtain ⟨nd, hnd⟩ := K.comb.known hx
    rw [R.ord hnd]
    obtain ⟨n0, g1, _, _, g4⟩ := G.new
    have := hlt hnd
    simp only [orderOf, hnd, g1, Option.map_some, Option.getD_some]
    omega
  -- the chain below the new tag and the remaining spine
  have build : ∀ X r, (combTags ((tag, s :: X) :: r)).Perm (tag :: combTags sp) →
      Comb t' r → Chain t' (s :: X) → (r.head?).map Prod.fst = some b ∨ (r = [] ∧ s = b) →
      CombShape (n + 1) ((X.length + 1) :: combLens r) →
      ∃ s sp', s ∈ combTags sp ∧ Regrown t t' tag b s ∧ LineComb t' tag (n + 1) sp' ∧
        (combTags sp').Perm (tag :: combTags sp) := by
    intro X r hperm hr hX hh hshape
    refine ⟨s, (tag, s :: X) :: r, hsm, R, ?_, hperm⟩
    have hnd : (combTags ((tag, s :: X) :: r)).Nodup := by
      rw [hperm.nodup_iff, List.nodup_cons]
      exact ⟨htagn, K.nodup⟩
    refine ⟨?_, rfl, hnd, hshape, ?_⟩
    · rw [comb_cons]
      refine ⟨⟨nt, t1, ?_⟩, hX, ?_, hr⟩
      · intro c
        rw [t2]
        rcases hh with hh | ⟨rfl, rfl⟩
        · rw [hh]; simp [eq_comm]
        · simp [eq_comm]
      · intro x s' hx hs'
        rcases hh with hh | ⟨rfl, rfl⟩
        · rw [hh] at hs'
          simp at hx hs'
          subst hx hs'
          have hsb : s ≠ b := by
            intro e
            have hbr : b ∈ combTags r := head_mem_combTags hh
            rw [combTags_cons] at hnd
            simp only [List.cons_append, List.nodup_cons, List.mem_append, not_or] at hnd
            exact hnd.2.1.2 (e ▸ hbr)
          obtain ⟨n1, k1⟩ := K.comb.known hsm
          rw [R.ord k1, R.ord hb]
          exact K.newest s hsm hsb
        · cases hs'
    · intro x hx hxt
      have := hperm.mem_iff.1 hx
      simp [hxt] at this
      exact hnewest x this
  rcases hsp with ⟨pre, sk, X, post, rfl, h2⟩ | ⟨pre, suf, E, rfl, h2, h3, h4, h5⟩
  · have hn := K.nodup
    refine build X (pre ++ (sk, []) :: post) ?_ (R.cutChain K.comb hn) ?_ (Or.inl ?_) h2
    · simp only [combTags_cons, combTags_append, List.cons_append, List.nil_append]
      refine List.Perm.cons _ ?_
      have e1 : s :: (X ++ (combTags pre ++ sk :: combTags post)) =
          (s :: X) ++ ((combTags pre ++ [sk]) ++ combTags post) := by simp
      have e2 : combTags pre ++ sk :: s :: (X ++ combTags post) =
          (combTags pre ++ [sk]) ++ ((s :: X) ++ combTags post) := by simp
      rw [e1, e2]
      exact List.perm_append_comm_assoc _ _ _
    · have hc : Chain t (s :: X) := K.comb.chain (i := pre.length) (s := sk) (by simp)
      refine R.chain hc ?_
      rw [combTags_append, List.nodup_append, combTags_cons] at hn
      have := hn.2.1
      simp only [List.cons_append, List.nodup_cons, List.mem_append, not_or] at this
      exact this.2.1.1
    · have := K.top
      rw [List.head?_eq_getElem?]
      cases pre <;> simpa using this
  · have hn := K.nodup
    have hc : Chain t (s :: E) := by
      intro i x hx
      obtain ⟨nd, k1, k2⟩ := h4 i x hx
      have hxm : x ∈ combTags (pre ++ suf) := by
        rw [combTags_append, h2]
        exact List.mem_append.2 (Or.inr (List.mem_of_getElem? hx))
      obtain ⟨n0, k3⟩ := K.comb.known hxm
      rw [hsame k3] at k1; cases k1
      exact ⟨_, k3, k2⟩
    refine build E pre ?_ (R.cutSpine h3 K.comb hn) ?_ ?_ h5
    · simp only [combTags_cons, combTags_append, h2, List.cons_append]
      refine List.Perm.cons _ ?_
      exact List.perm_append_comm (l₁ := s :: E)
    · refine R.chain hc ?_
      rw [combTags_append, List.nodup_append, h2] at hn
      exact (List.nodup_cons.1 hn.2.1).1
    · have := K.top
      cases pre with
      | nil =>
        right
        refine ⟨rfl, ?_⟩
        rw [List.nil_append, ← List.head?_eq_getElem?, ← List.head?_map, h3] at this
        exact Option.some.inj this
      | cons q pre => left; simpa using this

end Gaspra
