import Verif.Proofs.InterruptDBAdd
import Verif.Props.Interrupt

set_option linter.unusedSectionVars false
set_option linter.unusedVariables false

/-!
# C118: interrupted calls of `Versions.add` over a `DBTree`

`content x` stands for the bytes handed to `add` for the tag `x`; `dbAddTrace` lists the store after
every transaction of a call.
-/

namespace Gaspra

variable {τ : Type _} [DecidableEq τ]

/-- C118.  The stores listed for a call lead from the store before the call to the one after it by
steps each of which changes one entry of one dictionary, or the table, whatever the store, the base
and the tokenizer. -/
theorem C118_commits {Tok S : Type _} [DecidableEq Tok] (tk : TokOps Tok S) (v : Versions τ (Graph τ))
    (tag : τ) (c : Bytes) (base : Option τ) :
    Runs OneCommit v (dbAddTrace tk v tag c base) (versionsAdd (dbTree τ) tk v tag c base).1 :=
  dbAdd_runs v tag c base

/-- C118.  After any sequence of calls of `add`, each of which ran to its end, raised an exception,
or was interrupted after one of its transactions other than between writing a delta and changing the
parent, every tag in the table is retrieved with the bytes it was added with and every other tag
gives `None`. -/
theorem C118_survives {content : τ → Bytes} (hc : ∀ x, (content x).length < 2 ^ 64)
    {v : Versions τ (Graph τ)} (h : DBSurvived nullTok content v) (x : τ) :
    versionsGet (dbTree τ) nullTok v x =
      .ok (if dbContains v.tree x then some (content x) else none) :=
  (h.safe nullLawful fun x => ⟨trivial, hc x⟩).get x

/-- C118.  The same with `CharTokenizer` and UTF-8 contents. -/
theorem C118_survives_chars {content : τ → Bytes}
    (hc : ∀ x, Utf8Bytes (content x) ∧ (content x).length < 2 ^ 64)
    {v : Versions τ (Graph τ)} (h : DBSurvived charTokenizer.bytesOps content v) (x : τ) :
    versionsGet (dbTree τ) charTokenizer.bytesOps v x =
      .ok (if dbContains v.tree x then some (content x) else none) :=
  (h.safe charLawful hc).get x

/-- C118.  The same with `SymbolTokenizer`, whatever its symbol class, and UTF-8 contents. -/
theorem C118_survives_symbols {content : τ → Bytes} (cls : Nat → Bool)
    (hc : ∀ x, Utf8Bytes (content x) ∧ (content x).length < 2 ^ 64)
    {v : Versions τ (Graph τ)} (h : DBSurvived (symbolTokenizer cls).bytesOps content v) (x : τ) :
    versionsGet (dbTree τ) (symbolTokenizer cls).bytesOps v x =
      .ok (if dbContains v.tree x then some (content x) else none) :=
  (h.safe (symbolLawful cls) hc).get x

/-- C118.  At no moment does a call of `add` make a stored tag unknown, and the new tag is known
from the second transaction on. -/
theorem C118_no_tag_lost {content : τ → Bytes} (hc : ∀ x, (content x).length < 2 ^ 64)
    {v s : Versions τ (Graph τ)} (h : DBSurvived nullTok content v) {tag : τ} {base : Option τ}
    (hbase : base ≠ some tag) {pt : DBPoint τ}
    (hs : (pt, s) ∈ dbAddTrace nullTok v tag (content tag) base) :
    (∀ x, x ≠ tag → dbContains s.tree x = dbContains v.tree x) ∧
    (pt = .headWritten → s.tree = v.tree) ∧
    (pt ≠ .headWritten → dbContains s.tree tag = true) := by
  have H := h.safe nullLawful fun x => ⟨trivial, hc x⟩
  obtain ⟨_, h2, h3⟩ := (dbAdd_states H ⟨trivial, hc tag⟩ hbase).1 pt s hs
  refine ⟨fun x hx => ?_, h2, fun e => by rw [dbContains_par, (h3 e).1]; rfl⟩
  by_cases e : pt = .headWritten
  · rw [h2 e]
  · rw [dbContains_par, dbContains_par, (h3 e).2 x hx]

/-- C118.  Between writing the delta of `c` and changing its parent, every tag whose path does not
pass through `c` is still retrieved exactly.  The bytes of the others are not lost either: they are
found along the path that leads from the new tag to `c`. -/
theorem C118_torn {content : τ → Bytes} (hc : ∀ x, (content x).length < 2 ^ 64)
    {v s : Versions τ (Graph τ)} (h : DBSurvived nullTok content v) {tag : τ} {base : Option τ}
    (hbase : base ≠ some tag) {pt : DBPoint τ}
    (hs : (pt, s) ∈ dbAddTrace nullTok v tag (content tag) base) {c : τ}
    (ht : DBTorn tag c pt s) {x : τ} (hx : dbContains s.tree x = true) :
    ∃ path, dbPathTo s.tree x = .ok (some path) ∧
      (c ∉ path → versionsGet (dbTree τ) nullTok s x = .ok (some (content x))) ∧
      ∀ l r, path = l ++ c :: r →
        retrieveUsingPath nullTok s (tag :: c :: r) = .ok (content x) := by
  have H := h.safe nullLawful fun x => ⟨trivial, hc x⟩
  obtain ⟨⟨G, h1⟩, _, h3⟩ := (dbAdd_states H ⟨trivial, hc tag⟩ hbase).1 pt s hs
  obtain ⟨rfl, q, hq, hqt⟩ := ht
  have hptag := (h3 (by simp)).1
  rcases h1 with ⟨y, hy, hw⟩ | ⟨h1, _⟩
  · cases hy
    rw [dbContains_par] at hx
    obtain ⟨q', hq'⟩ := Option.isSome_iff_exists.1 hx
    obtain ⟨ch, hlx⟩ := par_some.1 hq'
    obtain ⟨l, hl⟩ := G.tree.acyc hlx
    have hp : dbPathTo s.tree x = .ok (some l.reverse) := G.pathTo hl.upPath
    obtain ⟨root, rest, e1, e2, e3, e4⟩ := hl.chain
    refine ⟨l.reverse, hp, fun hn => ?_, ?_⟩
    · rw [e1] at hn hp
      have hr := hw.safe.retrieve e2 (hw.safe.root e2) e3 fun z hz hE =>
        hn (hE.1 ▸ List.mem_cons_of_mem _ hz)
      have hp' : (dbTree τ).pathTo s.tree x = .ok (some (root :: rest)) := hp
      unfold versionsGet
      rw [hp']
      simp only [retrieve_shadow, hr, e4]
    intro l1 r e
    have hnd : l.reverse.Nodup := (List.reverse_perm _).nodup_iff.2 hl.upPath.nodup
    have hyr : c ∉ r := by
      rw [e] at hnd
      have := (List.nodup_append.1 hnd).2.1
      exact (List.nodup_cons.1 this).1
    have hch : ChainP (shadowTree s.tree) c r ∧ r.getLastD c = x := by
      rw [e1] at e
      cases l1 with
      | nil =>
        simp only [List.nil_append, List.cons.injEq] at e
        obtain ⟨rfl, rfl⟩ := e
        exact ⟨e3, e4⟩
      | cons a l1 =>
        simp only [List.cons_append, List.cons.injEq] at e
        obtain ⟨rfl, rfl⟩ := e
        exact ⟨e3.drop, by rw [← e4, getLastD_append]⟩
    obtain ⟨d, hd, hD⟩ := hw.delta
    obtain ⟨toks, st, a1, a2, a3, a4, a5⟩ := nullLawful.encode_ok nullLawful.init_inv
      (hw.safe.ok hptag).1
    obtain ⟨t1, s1, k1, k2, k3, k4⟩ := retrieveStep nullLawful
      (hw.safe.ok hw.known.choose_spec).1 hd hD a2 a4
    obtain ⟨t2, s2, g1, g2, g3, g4⟩ := hw.safe.chain hch.1
      (fun z hz hE => hyr (hE.1 ▸ hz)) k2 k4
    rw [hch.2] at g4
    have hloop : retrieveLoop nullTok (shadow s).diffs st toks (c :: r) = .ok (t2, s2) := by
      have := retrieveLoop_append (tk := nullTok) (shadow s).diffs [c] r st toks
      rw [k1] at this
      exact this.trans g1
    rw [retrieve_shadow]
    simp only [retrieveUsingPath, hw.safe.root hptag, a1, bind, Except.bind, hloop,
      nullLawful.decode_ok g2 (g3 (k3 a3)) g4, nullLawful.split_text (hw.safe.ok hq').1]
  · exact absurd rfl (h1 c)

/-- C118.  A call that was interrupted after its second transaction cannot be tried again, whatever
the store: the tag is in the table, so `add` raises `sqlite3.IntegrityError`, after it has replaced
what is stored for the tag as a head. -/
theorem C118_refused {Tok S : Type _} [DecidableEq Tok] (tk : TokOps Tok S) (v : Versions τ (Graph τ))
    {tag : τ} (h : dbContains v.tree tag = true) (c : Bytes) (base : Option τ) :
    versionsAdd (dbTree τ) tk v tag c base =
      ({ v with headVersion := dset v.headVersion tag c }, some .integrityError) := by
  rw [dbContains_par] at h
  obtain ⟨q, hq⟩ := Option.isSome_iff_exists.1 h
  have hadd : (dbTree τ).add v.tree tag base = (v.tree, some .integrityError) := dbAdd_known hq base
  simp only [versionsAdd, hadd]

/-! ### Examples and the damage that can be done -/

/-- The store of the examples: version 1 on top of version 0. -/
def dbTornBefore : Versions Nat (Graph Nat) :=
  (versionsAdd (dbTree Nat) nullTok
    (versionsAdd (dbTree Nat) nullTok (emptyDBVersions Nat) 0 (tornContent 0) none).1
    1 (tornContent 1) (some 0)).1

/-- The stores while version 2 is put on top of version 1. -/
def dbTornTrace : List (DBPoint Nat × Versions Nat (Graph Nat)) :=
  dbAddTrace nullTok dbTornBefore 2 (tornContent 2) (some 1)

/-- The store after transaction number `i` of that call. -/
def dbTornAt (i : Nat) : Versions Nat (Graph Nat) :=
  (dbTornTrace[i]?.map Prod.snd).getD (emptyDBVersions Nat)

theorem dbTornAt_get {i : Nat} {pt : DBPoint Nat} (h : dbTornTrace[i]?.map Prod.fst = some pt) :
    dbTornTrace[i]? = some (pt, dbTornAt i) := by
  unfold dbTornAt
  cases e : dbTornTrace[i]? with
  | none => rw [e] at h; cases h
  | some x => rw [e] at h; cases h; rfl

theorem dbTornBefore_survived : DBSurvived nullTok tornContent dbTornBefore :=
  .done (.done .empty (by simp)) (by simp)

/-- C118 (refuted: "the transactions of a database keep every version readable").  Interrupted
between writing the delta of the split and moving it, `add` leaves a store in which an old version is
read without any error, but with wrong bytes.  Another version on top of the same head makes them
permanent: the delta is then computed from them. -/
theorem C118_wrong_bytes :
    ∃ s, dbTornTrace[2]? = some (.deltaWritten 0, s) ∧ DBTorn 2 0 (.deltaWritten 0) s ∧
      versionsGet (dbTree Nat) nullTok dbTornBefore 0 = .ok (some [1, 2, 3]) ∧
      versionsGet (dbTree Nat) nullTok s 0 = .ok (some [2, 2, 4]) ∧
      retrieveUsingPath nullTok s [2, 0] = .ok [1, 2, 3] ∧
      (versionsAdd (dbTree Nat) nullTok s 3 (tornContent 3) (some 1)).2 = none ∧
      versionsGet (dbTree Nat) nullTok
        (versionsAdd (dbTree Nat) nullTok s 3 (tornContent 3) (some 1)).1 0 = .ok (some [2, 2, 4]) ∧
      retrieveUsingPath nullTok
        (versionsAdd (dbTree Nat) nullTok s 3 (tornContent 3) (some 1)).1 [2, 0] = .ok [2, 2, 4] := by
  refine ⟨dbTornAt 2, dbTornAt_get (by decide +kernel), ⟨rfl, 1, ?_, by decide⟩, by decide +kernel,
    by decide +kernel, by decide +kernel, by decide +kernel, by decide +kernel, by decide +kernel⟩
  unfold RowBelow
  decide +kernel

/-- C118 (refuted: "an interrupted call leaves a store that can be extended").  Interrupted after the
first transaction of `change_parent`, before the metrics of the old parent are updated, `add` leaves
all versions readable, but `get_split` then looks for a child that is not there: every later version
on top of the same head raises `TypeError`, and the interrupted one raises `IntegrityError`. -/
theorem C118_blocked :
    ∃ s, dbTornTrace[3]? = some (.linked 0, s) ∧ DBSurvived nullTok tornContent s ∧
      (versionsAdd (dbTree Nat) nullTok s 2 (tornContent 2) (some 1)).2 = some .integrityError ∧
      (∀ tag c, tag ∉ [0, 1, 2] →
        (versionsAdd (dbTree Nat) nullTok s tag c (some 1)).2 = some .typeError) ∧
      ∀ x, versionsGet (dbTree Nat) nullTok s x =
        .ok (if x ≤ 2 then some (tornContent x) else none) := by
  have hS : DBSurvived nullTok tornContent (dbTornAt 3) := by
    refine .interrupted (tag := 2) (base := some 1) (pt := .linked 0) dbTornBefore_survived
      (by simp) ?_ ?_
    · exact List.mem_of_getElem? (dbTornAt_get (i := 3) (by decide +kernel))
    · rintro c ⟨h, _⟩; cases h
  have htree : (dbTornAt 3).tree = [
      { tag := 0, parent := some 2, parentRid := some 3, child0 := none, child1 := none, height := 1, size := 1, baseVersion := none },
      { tag := 1, parent := none, parentRid := none, child0 := none, child1 := none, height := 2, size := 2, baseVersion := some 0 },
      { tag := 2, parent := none, parentRid := none, child0 := none, child1 := some 1, height := 1, size := 1, baseVersion := some 1 }] := by
    decide +kernel
  refine ⟨_, dbTornAt_get (by decide +kernel), hS, by decide +kernel, ?_, fun x => ?_⟩
  · intro tag c hn
    have hsel : selectTag (dbTornAt 3).tree tag = none := by
      refine selectTag_none ?_
      rw [htree]
      simpa using hn
    have hadd : (dbTree Nat).add (dbTornAt 3).tree tag (some 1) = ((dbTornAt 3).tree ++
        [{ tag := tag, parent := none, parentRid := none, child0 := none, child1 := none, height := 1, size := 1, baseVersion := some 1 }], none) := by
      show dbAdd _ _ _ = _
      simp only [dbAdd, hsel]
    have hsplit : (dbTree Nat).getSplit ((dbTornAt 3).tree ++
        [{ tag := tag, parent := none, parentRid := none, child0 := none, child1 := none, height := 1, size := 1, baseVersion := some 1 }]) 1 =
        .error .typeError := by
      rw [htree]
      rfl
    simp only [versionsAdd, hadd, addToHead, hsplit]
  · rw [C118_survives (by intro x; unfold tornContent; split <;> decide) hS x]
    have : dbContains (dbTornAt 3).tree x = decide (x ≤ 2) := by
      rw [dbContains_par, htree]
      match x with
      | 0 => rfl
      | 1 => rfl
      | 2 => rfl
      | n + 3 =>
        have : par (shadowTree ([
            { tag := 0, parent := some 2, parentRid := some 3, child0 := none, child1 := none, height := 1, size := 1, baseVersion := none },
            { tag := 1, parent := none, parentRid := none, child0 := none, child1 := none, height := 2, size := 2, baseVersion := some 0 },
            { tag := 2, parent := none, parentRid := none, child0 := none, child1 := some 1, height := 1, size := 1, baseVersion := some 1 }] : Graph Nat)) (n + 3) = none := by
          simp [par, shadowTree, dget]
        rw [this]
        simp
    rw [this]
    simp

/-- All the transactions of the call, in order. -/
example : dbTornTrace.map Prod.fst =
    [.headWritten, .rowAdded, .deltaWritten 0, .linked 0, .oldParentMetrics 0, .newParentMetrics 0,
      .linked 0, .oldParentMetrics 0, .newParentMetrics 0, .deltaWritten 1, .linked 1,
      .oldParentMetrics 1, .newParentMetrics 1, .headDeleted 1] := by decide +kernel

/-- What is read of the three versions in the 14 stores of the call: wrong only in one of them. -/
example : dbTornTrace.map (fun x => [0, 1, 2].map fun t =>
      decide (versionsGet (dbTree Nat) nullTok x.2 t = .ok (some (tornContent t)))) =
    [[true, true, false], [true, true, true], [false, true, true]] ++
      List.replicate 11 [true, true, true] := by decide +kernel

end Gaspra
