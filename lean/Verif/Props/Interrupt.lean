import Verif.Proofs.InterruptAdd
import Verif.Proofs.InterruptRuns
import Verif.Proofs.TokenizerDiff
import Verif.Props.Versions

set_option linter.unusedSectionVars false
set_option linter.unusedVariables false

/-!
# C80: interrupted calls of `Versions.add`

`content x` stands for the bytes handed to `add` for the tag `x`; `versionsAddTrace` lists the
store after every single write of a call.
-/

namespace Gaspra

variable {τ : Type _} [DecidableEq τ]

/-- C80.  The stores listed for a call lead from the store before the call to the one after it by
steps that change one entry of one dictionary each, whatever the store, the base and the
tokenizer. -/
theorem C80_writes {Tok S : Type _} [DecidableEq Tok] (tk : TokOps Tok S) (v : Versions τ (MTree τ))
    (tag : τ) (c : Bytes) (base : Option τ) :
    Runs OneWrite v (versionsAddTrace tk v tag c base)
      (versionsAdd (memoryTree τ) tk v tag c base).1 := add_runs v tag c base

section
variable {Tok S P : Type _} [DecidableEq Tok] {tk : TokOps Tok S} {Ok : Bytes → Prop}
  {content : τ → Bytes} {v : Versions τ (MTree τ)}

theorem known_iff {t : MTree τ} {x : τ} : mtContains t x = true ↔ ∃ q, par t x = some q := by
  unfold mtContains dmem par
  cases dget t x <;> simp

theorem survived_get (L : LawfulTok tk P Ok) (hok : ∀ x, Ok (content x) ∧ (content x).length < 2 ^ 64)
    (h : Survived tk content v) (x : τ) :
    versionsGet (memoryTree τ) tk v x =
      .ok (if mtContains v.tree x then some (content x) else none) := by
  have H := h.safe L hok
  split
  · next hx =>
    obtain ⟨q, hq⟩ := known_iff.1 hx
    obtain ⟨l, _, h2⟩ := H.get hq
    exact h2 fun _ _ => id
  · next hx =>
    refine get_unknown ?_
    cases hp : par v.tree x with
    | none => rfl
    | some q => exact absurd (known_iff.2 ⟨q, hp⟩) hx

end

/-- C80.  After any sequence of calls of `add`, each of which ran to its end, raised an exception,
or was interrupted after one of its writes other than between writing a delta and changing the
parent, every tag in the tree is retrieved with the bytes it was added with and every other tag
gives `None`. -/
theorem C80_survives {content : τ → Bytes} (hc : ∀ x, (content x).length < 2 ^ 64)
    {v : Versions τ (MTree τ)} (h : Survived nullTok content v) (x : τ) :
    versionsGet (memoryTree τ) nullTok v x =
      .ok (if mtContains v.tree x then some (content x) else none) :=
  survived_get nullLawful (fun x => ⟨trivial, hc x⟩) h x

/-- C80.  The same with `CharTokenizer` and UTF-8 contents. -/
theorem C80_survives_chars {content : τ → Bytes}
    (hc : ∀ x, Utf8Bytes (content x) ∧ (content x).length < 2 ^ 64)
    {v : Versions τ (MTree τ)} (h : Survived charTokenizer.bytesOps content v) (x : τ) :
    versionsGet (memoryTree τ) charTokenizer.bytesOps v x =
      .ok (if mtContains v.tree x then some (content x) else none) :=
  survived_get charLawful hc h x

/-- C80.  The same with `SymbolTokenizer`, whatever its symbol class, and UTF-8 contents. -/
theorem C80_survives_symbols {content : τ → Bytes} (cls : Nat → Bool)
    (hc : ∀ x, Utf8Bytes (content x) ∧ (content x).length < 2 ^ 64)
    {v : Versions τ (MTree τ)} (h : Survived (symbolTokenizer cls).bytesOps content v) (x : τ) :
    versionsGet (memoryTree τ) (symbolTokenizer cls).bytesOps v x =
      .ok (if mtContains v.tree x then some (content x) else none) :=
  survived_get (symbolLawful cls) hc h x

/-- C80.  At no moment does a call of `add` make a stored tag unknown, and the new tag is known
from the second write on. -/
theorem C80_no_tag_lost {content : τ → Bytes} (hc : ∀ x, (content x).length < 2 ^ 64)
    {v s : Versions τ (MTree τ)} (h : Survived nullTok content v) {tag : τ} {base : Option τ}
    (hroot : ∀ q, ¬ ParentOf v.tree tag q) (hbase : base ≠ some tag) {pt : AddPoint τ}
    (hs : (pt, s) ∈ versionsAddTrace nullTok v tag (content tag) base) :
    (∀ x, x ≠ tag → mtContains s.tree x = mtContains v.tree x) ∧
    (pt = .headWritten → mtContains s.tree tag = mtContains v.tree tag) ∧
    (pt ≠ .headWritten → mtContains s.tree tag = true) := by
  have H := h.safe nullLawful fun x => ⟨trivial, hc x⟩
  obtain ⟨_, h2, h3⟩ := (add_states H (fun q e => hroot q (parentOf_par.2 e)) ⟨trivial, hc tag⟩
    hbase).1 pt s hs
  have key : ∀ (t : MTree τ) x, mtContains t x = (par t x).isSome := fun t x => by
    unfold mtContains dmem par; cases dget t x <;> rfl
  refine ⟨fun x hx => ?_, fun e => by rw [h2 e], fun e => by rw [key, (h3 e).1]; rfl⟩
  by_cases e : pt = .headWritten
  · rw [h2 e]
  · rw [key, key, (h3 e).2 x hx]

theorem ChainP.drop {t : MTree τ} : ∀ {l r : List τ} {y c : τ}, ChainP t y (l ++ c :: r) → ChainP t c r
  | [], _, _, _, h => h.2
  | _ :: l, r, _, c, h => ChainP.drop (l := l) h.2

theorem getLastD_append {l r : List τ} {y c : τ} : (l ++ c :: r).getLastD y = r.getLastD c := by
  cases r with
  | nil => simp
  | cons a r =>
    rw [List.getLastD_eq_getLast?, List.getLastD_eq_getLast?]
    simp [List.getLast?_eq_some_getLast (l := a :: r) (by simp)]

/-- C80.  Between writing the delta of `c` and changing its parent, every tag whose path does not
pass through `c` is still retrieved exactly.  The bytes of the others are not lost either: they are
found along the path that leads from the new tag to `c`. -/
theorem C80_torn {content : τ → Bytes} (hc : ∀ x, (content x).length < 2 ^ 64)
    {v s : Versions τ (MTree τ)} (h : Survived nullTok content v) {tag : τ} {base : Option τ}
    (hroot : ∀ q, ¬ ParentOf v.tree tag q) (hbase : base ≠ some tag) {pt : AddPoint τ}
    (hs : (pt, s) ∈ versionsAddTrace nullTok v tag (content tag) base) {c : τ}
    (ht : Torn tag c pt s) {x : τ} (hx : mtContains s.tree x = true) :
    ∃ path, mtPathTo s.tree x = .ok (some path) ∧
      (c ∉ path → versionsGet (memoryTree τ) nullTok s x = .ok (some (content x))) ∧
      ∀ l r, path = l ++ c :: r →
        retrieveUsingPath nullTok s (tag :: c :: r) = .ok (content x) := by
  have H := h.safe nullLawful fun x => ⟨trivial, hc x⟩
  obtain ⟨h1, _, h3⟩ := (add_states H (fun q e => hroot q (parentOf_par.2 e)) ⟨trivial, hc tag⟩
    hbase).1 pt s hs
  obtain ⟨hpt, q, hq, hqt⟩ := ht
  have hptag := (h3 (by rintro rfl; simp at hpt)).1
  rcases h1 with ⟨y, hy, hw⟩ | ⟨h1, _⟩
  · have hyc : y = c := by
      rcases hpt with rfl | rfl <;> rcases hy with e | e <;> cases e <;> rfl
    subst hyc
    obtain ⟨q', hq'⟩ := known_iff.1 hx
    obtain ⟨ch, hlx⟩ := par_some.1 hq'
    obtain ⟨l, hl⟩ := hw.safe.tree.acyc hlx
    have hp : mtPathTo s.tree x = .ok (some l.reverse) := pathTo_spec hl.upPath
    obtain ⟨path, hp2, hget⟩ := hw.safe.get hq'
    rw [hp] at hp2; cases hp2
    refine ⟨l.reverse, hp, fun hn => hget fun z hz hE => hn (hE.1 ▸ hz), ?_⟩
    intro l1 r e
    have hnd : l.reverse.Nodup := (List.reverse_perm _).nodup_iff.2 hl.upPath.nodup
    obtain ⟨root, rest, e1, e2, e3, e4⟩ := hl.chain
    have hyr : y ∉ r := by
      rw [e] at hnd
      have := (List.nodup_append.1 hnd).2.1
      exact (List.nodup_cons.1 this).1
    have hch : ChainP s.tree y r ∧ r.getLastD y = x := by
      rw [e1] at e
      cases l1 with
      | nil =>
        simp only [List.nil_append, List.cons.injEq] at e
        obtain ⟨rfl, rfl⟩ := e
        exact ⟨e3, e4⟩
      | cons a l1 =>
        simp only [List.cons_append, List.cons.injEq] at e
        obtain ⟨rfl, rfl⟩ := e
        exact ⟨e3.drop, by rw [← e4, getLastD_append]⟩
    obtain ⟨d, hd, hD⟩ := hw.delta
    have L := nullLawful
    obtain ⟨toks, st, a1, a2, a3, a4, a5⟩ := nullLawful.encode_ok nullLawful.init_inv
      (hw.safe.ok hptag).1
    obtain ⟨t1, s1, k1, k2, k3, k4⟩ := retrieveStep nullLawful
      (hw.safe.ok hw.known.choose_spec).1 hd hD a2 a4
    obtain ⟨t2, s2, g1, g2, g3, g4⟩ := hw.safe.chain hch.1
      (fun z hz hE => hyr (hE.1 ▸ hz)) k2 k4
    rw [hch.2] at g4
    have hloop : retrieveLoop nullTok s.diffs st toks (y :: r) = .ok (t2, s2) := by
      have := retrieveLoop_append (tk := nullTok) s.diffs [y] r st toks
      rw [k1] at this
      exact this.trans g1
    simp only [retrieveUsingPath, hw.safe.root hptag, a1, bind, Except.bind, hloop,
      nullLawful.decode_ok g2 (g3 (k3 a3)) g4, nullLawful.split_text (hw.safe.ok hq').1]
  · exact absurd hpt (h1 c)

/-! ### Examples and the damage that can be done -/

/-- The contents of the examples. -/
def tornContent : Nat → Bytes
  | 0 => [1, 2, 3]
  | 1 => [1, 2, 3, 4]
  | _ => [7, 1, 9, 3]

/-- The store of the examples: version 1 on top of version 0. -/
def tornBefore : Versions Nat (MTree Nat) :=
  storeAfter [⟨0, tornContent 0, none⟩, ⟨1, tornContent 1, some 0⟩]

/-- The stores while version 2 is put on top of version 1. -/
def tornTrace : List (AddPoint Nat × Versions Nat (MTree Nat)) :=
  versionsAddTrace nullTok tornBefore 2 (tornContent 2) (some 1)

/-- The store after write number `i` of that call. -/
def tornAt (i : Nat) : Versions Nat (MTree Nat) :=
  (tornTrace[i]?.map Prod.snd).getD (storeAfter [])

theorem tornAt_get {i : Nat} {pt : AddPoint Nat} (h : tornTrace[i]?.map Prod.fst = some pt) :
    tornTrace[i]? = some (pt, tornAt i) := by
  unfold tornAt
  cases e : tornTrace[i]? with
  | none => rw [e] at h; cases h
  | some x => rw [e] at h; cases h; rfl

theorem tornBefore_survived : Survived nullTok tornContent tornBefore := by
  have h0 : Survived nullTok tornContent
      (versionsAdd (memoryTree Nat) nullTok ⟨[], [], []⟩ 0 (tornContent 0) none).1 :=
    .done .empty (by rintro q ⟨nc, h, _⟩; simp [dget] at h) (by simp)
  refine .done (tag := 1) (base := some 0) h0 ?_ (by simp)
  rintro q ⟨nc, h, _⟩
  have : dget (versionsAdd (memoryTree Nat) nullTok ⟨[], [], []⟩ 0 (tornContent 0) none).1.tree 1 =
    none := by decide +kernel
  exact absurd (this.symm.trans h) (by simp)

/-- C80 (refuted: "an interrupted `add` leaves every version readable").  Interrupted between
writing the delta of the split and moving it, `add` leaves a store in which an old version is read
without any error, but with wrong bytes. -/
theorem C80_wrong_bytes :
    ∃ s, tornTrace[2]? = some (.deltaWritten 0, s) ∧ Torn 2 0 (.deltaWritten 0) s ∧
      versionsGet (memoryTree Nat) nullTok tornBefore 0 = .ok (some [1, 2, 3]) ∧
      versionsGet (memoryTree Nat) nullTok s 0 = .ok (some [2, 2, 4]) ∧
      versionsGet (memoryTree Nat) nullTok s 1 = .ok (some [1, 2, 3, 4]) ∧
      retrieveUsingPath nullTok s [2, 0] = .ok [1, 2, 3] := by
  refine ⟨tornAt 2, tornAt_get (by decide +kernel), ⟨.inl rfl, 1, ?_, by
    decide⟩, by decide +kernel, by decide +kernel, by decide +kernel, by decide +kernel⟩
  exact ⟨((dget (tornAt 2).tree 0).getD (newNode 0 none)),
    by decide +kernel, by decide +kernel⟩

/-- C80 (refuted: "trying again repairs it").  Repeating the interrupted call succeeds and makes
the wrong bytes permanent: the delta is now computed from them, so that they are also what is found
along the path from the new tag. -/
theorem C80_retry_makes_it_permanent :
    ∃ s, tornTrace[2]? = some (.deltaWritten 0, s) ∧
      (versionsAdd (memoryTree Nat) nullTok s 2 (tornContent 2) (some 1)).2 = none ∧
      versionsGet (memoryTree Nat) nullTok
        (versionsAdd (memoryTree Nat) nullTok s 2 (tornContent 2) (some 1)).1 0 =
          .ok (some [2, 2, 4]) ∧
      retrieveUsingPath nullTok
        (versionsAdd (memoryTree Nat) nullTok s 2 (tornContent 2) (some 1)).1 [2, 0] =
          .ok [2, 2, 4] :=
  ⟨tornAt 2, tornAt_get (by decide +kernel), by decide +kernel,
    by decide +kernel, by decide +kernel⟩

/-- C80 (refuted: "an interrupted call can be tried again").  Interrupted after the split was taken
from its old parent and before the metrics of that parent were updated, `add` leaves all versions
readable, but `get_split` then looks for a child that is not there: every later call based on the
same head raises `ValueError`. -/
theorem C80_blocked :
    ∃ s, tornTrace[4]? = some (.parentSet 0, s) ∧ Survived nullTok tornContent s ∧
      (versionsAdd (memoryTree Nat) nullTok s 2 (tornContent 2) (some 1)).2 = some .valueError ∧
      (versionsAdd (memoryTree Nat) nullTok s 3 (tornContent 3) (some 1)).2 = some .valueError ∧
      ∀ x, versionsGet (memoryTree Nat) nullTok s x =
        .ok (if x ≤ 2 then some (tornContent x) else none) := by
  have hS : Survived nullTok tornContent (tornAt 4) := by
    refine .interrupted (tag := 2) (base := some 1) (pt := .parentSet 0) tornBefore_survived ?_
      (by simp) ?_ ?_
    · rintro q ⟨nc, h, _⟩
      have : dget tornBefore.tree 2 = none := by decide +kernel
      rw [this] at h; cases h
    · exact List.mem_of_getElem? (tornAt_get (i := 4) (by decide +kernel))
    · rintro c ⟨h | h, _⟩ <;> cases h
  refine ⟨_, tornAt_get (by decide +kernel), hS, by decide +kernel, by decide +kernel, fun x => ?_⟩
  rw [C80_survives (by
    intro x; unfold tornContent; split <;> decide) hS x]
  have hk : (tornAt 4).tree.map Prod.fst = [0, 1, 2] := by
    decide +kernel
  have : mtContains (tornAt 4).tree x = decide (x ≤ 2) := by
    rw [Bool.eq_iff_iff]
    have e : mtContains (tornAt 4).tree x = true ↔
        x ∈ (tornAt 4).tree.map Prod.fst := by
      rw [← dget_isSome_iff]
      unfold mtContains dmem
      exact Option.isSome_iff_exists
    rw [e, hk]
    simp
    omega
  rw [this]
  simp

/-- All the places of the call, in order. -/
example : tornTrace.map Prod.fst =
    [.headWritten, .nodeAdded, .deltaWritten 0, .detached 0, .parentSet 0, .attached 0,
      .metricSet 2, .metricSet 1, .detached 0, .parentSet 0, .attached 0, .metricSet 2,
      .metricSet 2, .deltaWritten 1, .detached 1, .parentSet 1, .attached 1, .metricSet 2,
      .headDeleted 1] := by decide +kernel

/-- What is read of the three versions in the 19 stores of the call: wrong only in two of them. -/
example : tornTrace.map (fun x => [0, 1, 2].map fun t =>
      decide (versionsGet (memoryTree Nat) nullTok x.2 t = .ok (some (tornContent t)))) =
    [[true, true, false], [true, true, true], [false, true, true], [false, true, true]] ++
      List.replicate 15 [true, true, true] := by decide +kernel

end Gaspra
