import Verif.Proofs.SuffixTypes
import Verif.Props.BuildOptions

/-!
# C110: of which types the listed suffixes are

`all_suffixes` yields values of the type of what `build` was given: strings for a string, `bytes` for
`bytes`, tuples for tuples and for anything that is not a sequence.  For a list it raises ValueError
after the empty suffix.
-/

namespace Gaspra

/-- C110.  What `all_suffixes` yields, for any text and any value of `empty`: the values of the
suffixes in some order without repetitions, up to the first that has no value of that type; then
ValueError. -/
theorem C110_general (reverseLinks : Bool) (source : Source) (empty : Option PySeq) :
    ∃ (ws : List (List PyTok)) (out : List PySeq) (err : Option PyErr) (k : Nat),
      ws.Nodup ∧ (∀ w, w ∈ ws ↔ w <:+ source.tokens) ∧ ws.head? = some [] ∧
      suffixesOf reverseLinks true source empty = some (out, err) ∧
      out.map some = (ws.take k).map (joined (empty.getD source.empty)) ∧
      ((err = none ∧ k = ws.length) ∨
        (err = some .valueError ∧ ∃ w, ws[k]? = some w ∧
          joined (empty.getD source.empty) w = none)) := by
  obtain ⟨⟨h, ws, h1, h2, h3, h4⟩, -⟩ := C101_terminals reverseLinks source.tokens
  obtain ⟨k, k1, k2⟩ := mapUntil_render (empty.getD source.empty) ws
  obtain ⟨rest, hr⟩ := allSuffixes_head h2 ((h4 []).2 List.nil_suffix)
  refine ⟨ws, _, _, k, h3, h4, by simp [hr], ?_, k1, k2⟩
  unfold allSuffixes at h2
  simp only [suffixesOf, h1, typedSuffixesFrom_eq, h2, Option.map_some]

/-- C110.  All suffixes are yielded exactly if every token can be put into a sequence of that type. -/
theorem C110_complete (reverseLinks : Bool) (source : Source) (empty : Option PySeq) :
    (∃ out, suffixesOf reverseLinks true source empty = some (out, none)) ↔
      ∀ t ∈ source.tokens, Fits (empty.getD source.empty) t := by
  obtain ⟨ws, out, err, k, -, h2, -, h3, h4, h5⟩ := C110_general reverseLinks source empty
  rw [← joined_isSome_iff, h3]
  constructor
  · rintro ⟨out', e⟩
    simp only [Option.some.injEq, Prod.mk.injEq] at e
    obtain ⟨rfl, rfl⟩ := e
    rcases h5 with ⟨-, rfl⟩ | ⟨h5, -⟩
    · have hm : joined (empty.getD source.empty) source.tokens ∈ out.map some := by
        rw [h4, List.take_length]
        exact List.mem_map_of_mem ((h2 _).2 (List.suffix_refl _))
      obtain ⟨x, -, hx⟩ := List.mem_map.1 hm
      rw [← hx]; rfl
    · simp at h5
  · intro hj
    rcases h5 with ⟨rfl, -⟩ | ⟨-, w, hw, hn⟩
    · exact ⟨out, rfl⟩
    · rw [joined_isSome_iff] at hj
      have : (joined (empty.getD source.empty) w).isSome :=
        (joined_isSome_iff _ _).2 fun t ht =>
          hj t ((h2 w).1 (List.mem_of_getElem? hw) |>.subset ht)
      rw [hn] at this
      simp at this

theorem suffix_map {β γ : Type _} (f : β → γ) (s : List β) (w : List γ) :
    w <:+ s.map f ↔ ∃ v, v <:+ s ∧ w = v.map f := by
  constructor
  · rintro ⟨a, h⟩
    refine ⟨s.drop a.length, List.drop_suffix _ _, ?_⟩
    rw [List.map_drop, ← h, List.drop_left]
  · rintro ⟨v, ⟨a, rfl⟩, rfl⟩
    exact ⟨a.map f, by simp⟩

/-- The values yielded when no exception ends the generator. -/
theorem suffixes_values {reverseLinks : Bool} {source : Source} {empty : Option PySeq}
    {f : List PyTok → PySeq} (hf : ∀ w, w <:+ source.tokens →
      joined (empty.getD source.empty) w = some (f w)) :
    ∃ ws : List (List PyTok), ws.Nodup ∧ (∀ w, w ∈ ws ↔ w <:+ source.tokens) ∧
      suffixesOf reverseLinks true source empty = some (ws.map f, none) := by
  obtain ⟨ws, out, err, k, h1, h2, -, h3, h4, h5⟩ := C110_general reverseLinks source empty
  rcases h5 with ⟨rfl, rfl⟩ | ⟨-, w, hw, hn⟩
  · refine ⟨ws, h1, h2, ?_⟩
    rw [h3]
    have : out.map some = (ws.map f).map some := by
      rw [h4, List.take_length, List.map_map]
      exact List.map_congr_left fun w hw => hf w ((h2 w).1 hw)
    rw [(List.map_inj_right fun _ _ e => Option.some.inj e).1 this]
  · rw [hf w ((h2 w).1 (List.mem_of_getElem? hw))] at hn
    simp at hn

theorem mapM_tokStr_chars (v : PyStr) :
    (v.map fun c => PyTok.str [c]).mapM tokStr = some (v.map fun c => [c]) := by
  induction v with
  | nil => rfl
  | cons c v ih => simp [tokStr, ih]

theorem mapM_tokByte_bytes (v : Bytes) :
    (v.map fun c => PyTok.int c.toNat).mapM tokByte = some v := by
  induction v with
  | nil => rfl
  | cons c v ih =>
    have : (0 : Int) ≤ c.toNat ∧ (c.toNat : Int) < 256 := by
      have := c.toNat_lt; omega
    simp [tokByte, ih, this]

theorem flatten_singletons {β : Type _} : ∀ (v : List β), (v.map fun c => [c]).flatten = v
  | [] => rfl
  | c :: v => by simp [flatten_singletons v]

/-- C110.  The suffixes of a string are strings, each once. -/
theorem C110_str (reverseLinks : Bool) (s : PyStr) :
    ∃ out, suffixesOf reverseLinks true (.str s) none = some (out, none) ∧ out.Nodup ∧
      ∀ x, x ∈ out ↔ ∃ w, w <:+ s ∧ x = .str w := by
  have hj : ∀ v : PyStr, joined (.str []) (v.map fun c => PyTok.str [c]) = some (.str v) := by
    intro v
    rw [joined, mapM_tokStr_chars, Option.map_some, flatten_singletons, List.append_nil]
  obtain ⟨ws, h1, h2, h3⟩ := suffixes_values (reverseLinks := reverseLinks) (source := .str s)
    (empty := none) (f := fun w => (joined (.str []) w).getD .other) (by
      intro w hw
      obtain ⟨v, -, rfl⟩ := (suffix_map _ s w).1 hw
      show joined (.str []) _ = _
      rw [hj]; rfl)
  refine ⟨_, h3, ?_, ?_⟩
  · rw [List.nodup_iff_pairwise_ne, List.pairwise_map]
    refine (List.nodup_iff_pairwise_ne.1 h1).imp_of_mem ?_
    intro a b ha hb hne e
    obtain ⟨v, -, rfl⟩ := (suffix_map _ s a).1 ((h2 a).1 ha)
    obtain ⟨u, -, rfl⟩ := (suffix_map _ s b).1 ((h2 b).1 hb)
    simp only [hj, Option.getD_some, PySeq.str.injEq] at e
    exact hne (by rw [e])
  · intro x
    rw [List.mem_map]
    constructor
    · rintro ⟨w, hw, rfl⟩
      obtain ⟨v, hv, rfl⟩ := (suffix_map _ s w).1 ((h2 w).1 hw)
      exact ⟨v, hv, by rw [hj]; rfl⟩
    · rintro ⟨v, hv, rfl⟩
      exact ⟨_, (h2 _).2 ((suffix_map _ s _).2 ⟨v, hv, rfl⟩), by rw [hj]; rfl⟩

/-- C110.  The suffixes of `bytes` are `bytes`, each once. -/
theorem C110_bytes (reverseLinks : Bool) (s : Bytes) :
    ∃ out, suffixesOf reverseLinks true (.bytes s) none = some (out, none) ∧ out.Nodup ∧
      ∀ x, x ∈ out ↔ ∃ w, w <:+ s ∧ x = .bytes w := by
  have hj : ∀ v : Bytes, joined (.bytes []) (v.map fun c => PyTok.int c.toNat) =
      some (.bytes v) := by
    intro v
    rw [joined, mapM_tokByte_bytes, Option.map_some, List.append_nil]
  obtain ⟨ws, h1, h2, h3⟩ := suffixes_values (reverseLinks := reverseLinks) (source := .bytes s)
    (empty := none) (f := fun w => (joined (.bytes []) w).getD .other) (by
      intro w hw
      obtain ⟨v, -, rfl⟩ := (suffix_map _ s w).1 hw
      show joined (.bytes []) _ = _
      rw [hj]; rfl)
  refine ⟨_, h3, ?_, ?_⟩
  · rw [List.nodup_iff_pairwise_ne, List.pairwise_map]
    refine (List.nodup_iff_pairwise_ne.1 h1).imp_of_mem ?_
    intro a b ha hb hne e
    obtain ⟨v, -, rfl⟩ := (suffix_map _ s a).1 ((h2 a).1 ha)
    obtain ⟨u, -, rfl⟩ := (suffix_map _ s b).1 ((h2 b).1 hb)
    simp only [hj, Option.getD_some, PySeq.bytes.injEq] at e
    exact hne (by rw [e])
  · intro x
    rw [List.mem_map]
    constructor
    · rintro ⟨w, hw, rfl⟩
      obtain ⟨v, hv, rfl⟩ := (suffix_map _ s w).1 ((h2 w).1 hw)
      exact ⟨v, hv, by rw [hj]; rfl⟩
    · rintro ⟨v, hv, rfl⟩
      exact ⟨_, (h2 _).2 ((suffix_map _ s _).2 ⟨v, hv, rfl⟩), by rw [hj]; rfl⟩

/-- C110.  The suffixes of a tuple and of anything that is not a sequence are tuples of the same
tokens, each once. -/
theorem C110_tuple (reverseLinks : Bool) {source : Source} {l : List PyTok}
    (h : source = .tuple l ∨ source = .iterable l) :
    ∃ out, suffixesOf reverseLinks true source none = some (out, none) ∧ out.Nodup ∧
      ∀ x, x ∈ out ↔ ∃ w, w <:+ l ∧ x = .tuple w := by
  have ht : source.tokens = l ∧ source.empty = .tuple [] := by
    rcases h with rfl | rfl <;> exact ⟨rfl, rfl⟩
  obtain ⟨ws, h1, h2, h3⟩ := suffixes_values (reverseLinks := reverseLinks) (source := source)
    (empty := none) (f := .tuple) (by intro w _; simp [ht.2, joined])
  refine ⟨_, h3, ?_, ?_⟩
  · rw [List.nodup_iff_pairwise_ne, List.pairwise_map]
    refine (List.nodup_iff_pairwise_ne.1 h1).imp ?_
    intro a b hne e
    exact hne (by injection e)
  · intro x
    rw [List.mem_map, ← ht.1]
    exact ⟨fun ⟨w, hw, e⟩ => ⟨w, (h2 w).1 hw, e.symm⟩, fun ⟨w, hw, e⟩ => ⟨w, (h2 w).2 hw, e.symm⟩⟩

/-- C110.  For a list with a token in it, `all_suffixes` yields the empty list and raises
ValueError. -/
theorem C110_list (reverseLinks : Bool) {l : List PyTok} (hl : l ≠ []) :
    suffixesOf reverseLinks true (.list l) none = some ([.other], some .valueError) := by
  obtain ⟨ws, out, err, k, hnd, h2, h0, h3, h4, h5⟩ := C110_general reverseLinks (.list l) none
  have hm : l ∈ ws := (h2 l).2 (List.suffix_refl _)
  change out.map some = (ws.take k).map (joined .other) at h4
  have hn : ∀ w : List PyTok, w ≠ [] → joined .other w = none := by
    intro w hw
    cases w with
    | nil => exact absurd rfl hw
    | cons t w => rfl
  -- Everything before position `k` is the empty suffix.
  have hpre : ∀ w ∈ ws.take k, w = [] := by
    intro w hw
    rcases Classical.em (w = []) with e | e
    · exact e
    · have : joined .other w ∈ out.map some := by rw [h4]; exact List.mem_map_of_mem hw
      rw [hn w e] at this
      simp at this
  clear h2
  match ws, hnd, h0, hm, h5, h4, hpre with
  | [] :: rest, hnd, _, hm, h5, h4, hpre =>
    have hr : l ∈ rest := by
      rcases List.mem_cons.1 hm with e | e
      · exact absurd e hl
      · exact e
    rcases h5 with ⟨-, rfl⟩ | ⟨rfl, w, hw, hj⟩
    · rw [List.take_length] at hpre
      exact absurd (hpre l (by simp [hr])) hl
    · match k, hw, h4, hpre with
      | 0, hw, _, _ =>
        simp only [List.getElem?_cons_zero, Option.some.injEq] at hw
        subst hw
        change joined .other [] = none at hj
        simp [joined] at hj
      | 1, _, h4, _ =>
        have : out = [.other] := by
          cases out with
          | nil => simp at h4
          | cons x out =>
            simp only [List.map_cons, List.take_succ_cons, List.take_zero, List.map_nil,
              List.cons.injEq, List.map_eq_nil_iff] at h4
            obtain ⟨e1, rfl⟩ := h4
            simp only [joined, Option.some.injEq] at e1
            rw [e1]
        rw [h3, this]
      | k + 2, _, _, hpre =>
        cases rest with
        | nil => simp at hr
        | cons y rest =>
          have hy : y = [] := hpre y (by simp)
          subst hy
          exact absurd (by simp) (List.nodup_cons.1 hnd).1

/-- C110.  Without the terminal flags nothing is yielded and nothing is raised. -/
theorem C110_unmarked (reverseLinks : Bool) (source : Source) (empty : Option PySeq) :
    suffixesOf reverseLinks false source empty = some ([], none) := by
  obtain ⟨-, h, h1, h2⟩ := C101_terminals reverseLinks source.tokens
  unfold allSuffixes at h2
  simp only [suffixesOf, h1, typedSuffixesFrom_eq, h2, Option.map_some, mapUntil]

-- "aba"
example : suffixesOf true true (.str [97, 98, 97]) none =
    some ([.str [], .str [97], .str [97, 98, 97], .str [98, 97]], none) := by decide +kernel
example : suffixesOf true true (.list [.str [97], .int 5]) none =
    some ([.other], some .valueError) := by decide +kernel
-- A string with `empty=()`.
example : suffixesOf false true (.str [97, 98]) (some (.tuple [])) =
    some ([.tuple [], .tuple [.str [97], .str [98]], .tuple [.str [98]]], none) := by decide +kernel
-- Words, of which one is a number, with `empty=""`.
example : suffixesOf true true (.iterable [.int 1, .str [97, 98], .str [99]]) (some (.str [])) =
    some ([.str []], some .valueError) := by decide +kernel

end Gaspra
