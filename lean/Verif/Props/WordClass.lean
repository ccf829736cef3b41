import Verif.Proofs.SameTokenizer
import Verif.Props.OtherTokenizer

set_option linter.unusedSectionVars false

/-!
# C124: `SymbolTokenizer` with another idea of words

`SYMBOLS` (tokenizers.py:10) leaves it to the tables of the running Python which characters belong to
words.  Two tables can be used for one store exactly as long as they agree on the characters that occur
in it.
-/

namespace Gaspra

variable {τ : Type} [DecidableEq τ]

/-- A call of `add` by a Python with a word class of its own. -/
def classAdd {T : Type} (ops : TreeOps τ T) (v : Versions τ T) (call : (Nat → Bool) × AddOp τ) :
    Versions τ T × Option PyErr :=
  versionsAdd ops (symbolTokenizer call.1).bytesOps v call.2.tag call.2.content call.2.base

theorem class_same {T : Type} {ops : TreeOps τ T} {cls : Nat → Bool} {A : Nat → Prop} :
    ∀ (calls : List ((Nat → Bool) × AddOp τ)) {v : Versions τ T},
    GoodStore (fun b => Over A (.bytes b)) v →
    (∀ c ∈ calls, (∀ x, A x → c.1 x = cls x) ∧ Over A (.bytes c.2.content)) →
    calls.foldl (fun v c => (classAdd ops v c).1) v =
        runHistory ops (symbolTokenizer cls).bytesOps v (calls.map Prod.snd) ∧
      GoodStore (fun b => Over A (.bytes b))
        (runHistory ops (symbolTokenizer cls).bytesOps v (calls.map Prod.snd))
  | [], v, G, _ => ⟨rfl, G⟩
  | c :: calls, v, G, hc => by
    obtain ⟨k1, k2⟩ := hc c (by simp)
    obtain ⟨h1, h2⟩ := G.add (ops := ops) (symbol_same k1) c.2.tag k2 c.2.base
    have := class_same (ops := ops) calls h2 fun c h => hc c (by simp [h])
    rw [List.foldl_cons, classAdd, h1, this.1]
    exact ⟨rfl, this.2⟩

/-- C124.  Let `A` be a set of characters that contains all characters of all contents (contents that
are not UTF-8 are allowed, they raise).  Then every call of `add` may be made by a Python with a word
class of its own, if these classes agree on `A`: over any tree and with any tags, also after failed
calls, the store is the same, byte by byte, as with one class, so are the exceptions, and every such
Python reads the same from it. -/
theorem C124_same_store {T : Type} (ops : TreeOps τ T) (t : T) (A : Nat → Prop) (cls : Nat → Bool)
    (calls : List ((Nat → Bool) × AddOp τ))
    (hA : ∀ c ∈ calls, ∀ x, A x → c.1 x = cls x)
    (hc : ∀ c ∈ calls, ∀ s, utf8Decode c.2.content = some s → ∀ x ∈ s, A x)
    {v : Versions τ T} (hv : v = calls.foldl (fun v c => (classAdd ops v c).1) ⟨[], [], t⟩) :
    v = runHistory ops (symbolTokenizer cls).bytesOps ⟨[], [], t⟩ (calls.map Prod.snd) ∧
      ∀ cls' : Nat → Bool, (∀ x, A x → cls' x = cls x) →
        (∀ a : AddOp τ, (∀ s, utf8Decode a.content = some s → ∀ x ∈ s, A x) →
          classAdd ops v (cls', a) = classAdd ops v (cls, a)) ∧
        ∀ tag, versionsGet ops (symbolTokenizer cls').bytesOps v tag =
          versionsGet ops (symbolTokenizer cls).bytesOps v tag := by
  obtain ⟨h1, h2⟩ := class_same (ops := ops) (cls := cls) (A := A) calls (v := ⟨[], [], t⟩)
    ⟨by simp, by simp⟩ fun c h => ⟨hA c h, hc c h⟩
  rw [← hv] at h1
  rw [← h1] at h2
  refine ⟨h1, fun cls' h => ⟨fun a ha => ?_, fun tag => h2.get (symbol_same h) tag⟩⟩
  exact (h2.add (symbol_same h) a.tag ha a.base).1

/-- C124.  A documented history of UTF-8 contents, added by Pythons with word classes that agree on the
characters of the contents, is read back exactly by each of them. -/
theorem C124_exact (A : Nat → Prop) (cls : Nat → Bool) {calls : List ((Nat → Bool) × AddOp τ)}
    (G : GoodHistory (calls.map Prod.snd)) (hu : Utf8Contents (calls.map Prod.snd))
    (hA : ∀ c ∈ calls, ∀ x, A x → c.1 x = cls x)
    (hc : ∀ c ∈ calls, ∀ s, utf8Decode c.2.content = some s → ∀ x ∈ s, A x)
    {v : Versions τ (MTree τ)}
    (hv : v = calls.foldl (fun v c => (classAdd (memoryTree τ) v c).1) (emptyVersions τ))
    (cls' : Nat → Bool) (h' : ∀ x, A x → cls' x = cls x) :
    ∀ c ∈ calls, versionsGet (memoryTree τ) (symbolTokenizer cls').bytesOps v c.2.tag =
      .ok (some c.2.content) := by
  intro c h
  obtain ⟨h1, h2⟩ := C124_same_store (memoryTree τ) [] A cls calls hA hc hv
  rw [(h2 cls' h').2, h1]
  exact (C42_symbol_versions (cls := cls) G hu).2 c.2 (List.mem_map.2 ⟨c, h, rfl⟩)

/-- C124.  Diffs and merges with `SymbolTokenizer` only depend on the class of the characters of the
texts, for `str` and `bytes`, whatever the tokenizer was used for before. -/
theorem C124_diff {A : Nat → Prop} {cls cls' : Nat → Bool} (h : ∀ x, A x → cls' x = cls x)
    (st : DictTok) {p x y : Text} (hp : Over A p) (hx : Over A x) (hy : Over A y) :
    tokDiff (symbolTokenizer cls') st x y = tokDiff (symbolTokenizer cls) st x y ∧
    tokMerged (symbolTokenizer cls') st p x y = tokMerged (symbolTokenizer cls) st p x y := by
  have hd : ∀ (st : DictTok) (l : List (Item (List Nat))),
      decodeChanges (symbolTokenizer cls') st l = decodeChanges (symbolTokenizer cls) st l := by
    intro st l
    induction l with
    | nil => rfl
    | cons i l ih =>
      cases i <;> simp only [decodeChanges, ih] <;> rfl
  constructor
  · simp only [tokDiff, symbolTokenizer, symbolEncode_congr h _ hx, symbolEncode_congr h _ hy]
    simp only [symbolTokenizer] at hd
    simp only [hd]
  · simp only [tokMerged, symbolTokenizer, symbolEncode_congr h _ hp, symbolEncode_congr h _ hx,
      symbolEncode_congr h _ hy]

section
variable {c : Nat} {b : Bytes}

theorem encode_word {cls : Nat → Bool} (hb : utf8EncodeCp c = some b) (hc : cls c = true) :
    (symbolTokenizer cls).bytesOps.encode .new (b ++ b) =
      .ok ([0], ⟨some .bytes, [(.bytes (b ++ b), 0)], some [.bytes (b ++ b)]⟩) ∧
    (symbolTokenizer cls).bytesOps.encode ⟨some .bytes, [(.bytes (b ++ b), 0)], some [.bytes (b ++ b)]⟩
        (b ++ b) =
      .ok ([0], ⟨some .bytes, [(.bytes (b ++ b), 0)], some [.bytes (b ++ b)]⟩) := by
  have e : utf8Encode [c, c] = some (b ++ b) := by simp [utf8Encode, hb]
  have d := utf8_iff.2 e
  constructor <;>
  simp [Tokenizer.bytesOps, symbolTokenizer, symbolEncode, wrongType, d, symbols, symbolsAux, spanClass,
    hc, encodeAll, e, DictTok.number, numberTokens, dmem, dget, dset, lookupTokens, DictTok.new, Text.type]

theorem encode_single {cls : Nat → Bool} (hb : utf8EncodeCp c = some b) (hc : cls c = false) :
    (symbolTokenizer cls).bytesOps.encode .new (b ++ b) =
      .ok ([0, 0], ⟨some .bytes, [(.bytes b, 0)], some [.bytes b]⟩) ∧
    (symbolTokenizer cls).bytesOps.encode ⟨some .bytes, [(.bytes b, 0)], some [.bytes b]⟩ b =
      .ok ([0], ⟨some .bytes, [(.bytes b, 0)], some [.bytes b]⟩) := by
  have e : utf8Encode [c, c] = some (b ++ b) := by simp [utf8Encode, hb]
  have e1 : utf8Encode [c] = some b := by simp [utf8Encode, hb]
  have d := utf8_iff.2 e
  have d1 := utf8_iff.2 e1
  constructor <;>
  simp [Tokenizer.bytesOps, symbolTokenizer, symbolEncode, wrongType, d, d1, symbols, symbolsAux,
    hc, encodeAll, e1, DictTok.number, numberTokens, dmem, dget, dset, lookupTokens,
    DictTok.new, Text.type]

/-- Two versions, the second made from the first. -/
def twoVersions (x y : Bytes) : List (AddOp Nat) := [⟨0, x, none⟩, ⟨1, y, some 0⟩]

theorem GoodHistory.two {x y : Bytes} : GoodHistory (twoVersions x y) := by
  have h0 : GoodHistory ([] : List (AddOp Nat)) := .nil
  have h1 := GoodHistory.snoc h0 (a := ⟨0, x, none⟩) (by simp [addedTags]) (by simp)
  have h2 := GoodHistory.snoc h1 (a := ⟨1, y, some 0⟩) (by simp [addedTags])
    (by simp [IsHead, addedTags])
  simpa [twoVersions] using h2

theorem two_store {Tok S : Type} [DecidableEq Tok] {tk : TokOps Tok S} {x y : Bytes}
    (h : makeChangeset tk y x = .ok [.slice ⟨0, some 1⟩]) :
    runHistory (memoryTree Nat) tk (emptyVersions Nat) (twoVersions x y) =
      ⟨[(1, y)], [(0, [0, 0, 1])],
        [(0, ⟨0, some 1, [], 1, 1, none⟩), (1, ⟨1, none, [0], 2, 2, some 0⟩)]⟩ ∧
    runErrors (memoryTree Nat) tk (emptyVersions Nat) (twoVersions x y) = [none, none] := by
  have s : serializeChangeset [.slice ⟨0, some 1⟩] = .ok [0, 0, 1] := by decide +kernel
  have t1 : (memoryTree Nat).add [] 0 none = ([(0, ⟨0, none, [], 1, 1, none⟩)], none) := by
    decide +kernel
  have t2 : (memoryTree Nat).add [(0, ⟨0, none, [], 1, 1, none⟩)] 1 (some 0) =
      ([(0, ⟨0, none, [], 1, 1, none⟩), (1, ⟨1, none, [], 1, 1, some 0⟩)], none) := by
    decide +kernel
  have t3 : (memoryTree Nat).getSplit
      [(0, ⟨0, none, [], 1, 1, none⟩), (1, ⟨1, none, [], 1, 1, some 0⟩)] 0 = .ok (0, [0]) := by
    decide +kernel
  have t4 : (memoryTree Nat).changeParent
      [(0, ⟨0, none, [], 1, 1, none⟩), (1, ⟨1, none, [], 1, 1, some 0⟩)] 0 1 =
      ([(0, ⟨0, some 1, [], 1, 1, none⟩), (1, ⟨1, none, [0], 2, 2, some 0⟩)], none) := by
    decide +kernel
  simp [runHistory, runErrors, twoVersions, versionsAdd, emptyVersions, t1, t2, addToHead, t3, addOldHead, dset,
    dget, h, addEdge, s, t4, dmem, ddel]

theorem two_get {Tok S : Type} [DecidableEq Tok] {tk : TokOps Tok S} {y r : Bytes} {toks : List Tok}
    {st : S} (he : tk.encode tk.init y = .ok (toks, st))
    (hd : tk.decode st (toks.take 1) = .ok r) :
    versionsGet (memoryTree Nat) tk ⟨[(1, y)], [(0, [0, 0, 1])],
        [(0, ⟨0, some 1, [], 1, 1, none⟩), (1, ⟨1, none, [0], 2, 2, some 0⟩)]⟩ 0 = .ok (some r) := by
  have t1 : (memoryTree Nat).pathTo
      [(0, ⟨0, some 1, [], 1, 1, none⟩), (1, ⟨1, none, [0], 2, 2, some 0⟩)] 0 = .ok (some [1, 0]) := by
    decide +kernel
  have t2 : deserializeChangeset [0, 0, 1] = ([.slice ⟨0, some 1⟩], none) := by decide +kernel
  simp [versionsGet, t1, retrieveUsingPath, dget, he, retrieveLoop, t2, encodeItems, bind, Except.bind,
    pure, Except.pure, applyPatch, joinChanges, Slice.get, hd]

end

theorem makeChangeset_slice {S : Type} {tk : TokOps Nat S} {x y : Bytes} {tx ty : List Nat} {sx sy : S}
    (hy : tk.encode tk.init y = .ok (ty, sy)) (hx : tk.encode sy x = .ok (tx, sx))
    (h : (findChangeset ty tx).map (fun cs => stripForward cs.asChangeStream) =
      some [.slice ⟨0, some 1⟩]) : makeChangeset tk y x = .ok [.slice ⟨0, some 1⟩] := by
  simp only [makeChangeset, hy, bind, Except.bind, hx]
  cases hf : findChangeset ty tx with
  | none => simp [hf] at h
  | some cs =>
    simp only [hf, Option.map_some, Option.some.injEq] at h
    simp [h, decodeItems, bind, Except.bind, pure, Except.pure]

theorem utf8EncodeCp_le {c : Nat} {b : Bytes} (h : utf8EncodeCp c = some b) : b.length ≤ 4 := by
  unfold utf8EncodeCp at h
  repeat' split at h
  all_goals simp at h
  all_goals subst h; simp

/-- C124.  Where two word classes differ in any character that text can contain, they cannot be used
for one store: two versions made of nothing but this character are enough for a wrong answer, without
an exception. -/
theorem C124_differ {cls cls' : Nat → Bool} {c : Nat} (hc : isScalar c = true) (h : cls c ≠ cls' c) :
    ∃ s t : PyStr, (∀ d ∈ s ++ t, d = c) ∧ ∃ x y wrong, utf8Encode s = some x ∧ utf8Encode t = some y ∧
      GoodHistory (twoVersions x y) ∧ Utf8Contents (twoVersions x y) ∧
      runErrors (memoryTree Nat) (symbolTokenizer cls).bytesOps (emptyVersions Nat) (twoVersions x y) =
        [none, none] ∧
      wrong ≠ x ∧
      versionsGet (memoryTree Nat) (symbolTokenizer cls').bytesOps
        (runHistory (memoryTree Nat) (symbolTokenizer cls).bytesOps (emptyVersions Nat)
          (twoVersions x y)) 0 = .ok (some wrong) := by
  obtain ⟨b, hb⟩ := utf8EncodeCp_isSome.2 hc
  have e1 : utf8Encode [c] = some b := by simp [utf8Encode, hb]
  have e2 : utf8Encode [c, c] = some (b ++ b) := by simp [utf8Encode, hb]
  have ne : b ++ b ≠ b := by
    intro e
    have := congrArg List.length e
    rw [List.length_append] at this
    have := List.length_pos_iff.2 (utf8EncodeCp_ne_nil hb)
    omega
  have le := utf8EncodeCp_le hb
  have utf8 : ∀ {x y : Bytes} (s t : PyStr), utf8Encode s = some x → utf8Encode t = some y →
      x.length ≤ b.length + b.length → y.length ≤ b.length + b.length →
      Utf8Contents (twoVersions x y) := by
    intro x y s t hs ht hx hy a ha
    simp only [twoVersions, List.mem_cons, List.not_mem_nil, or_false] at ha
    rcases ha with rfl | rfl
    · exact ⟨⟨s, hs⟩, by dsimp only; omega⟩
    · exact ⟨⟨t, ht⟩, by dsimp only; omega⟩
  cases h1 : cls c with
  | true =>
    have h2 : cls' c = false := by
      cases h' : cls' c with
      | false => rfl
      | true => rw [h1, h'] at h; exact absurd rfl h
    obtain ⟨k1, k2⟩ := encode_word hb h1
    have m : makeChangeset (symbolTokenizer cls).bytesOps (b ++ b) (b ++ b) = .ok [.slice ⟨0, some 1⟩] :=
      makeChangeset_slice k1 k2 (by decide +kernel)
    refine ⟨[c, c], [c, c], by simp, _, _, b, e2, e2, .two, utf8 _ _ e2 e2 (by simp) (by simp), (two_store m).2, fun e => ne e.symm, ?_⟩
    rw [(two_store m).1]
    refine two_get (encode_single hb h2).1 ?_
    simp [Tokenizer.bytesOps, symbolTokenizer, DictTok.decode, lookupDecoding, joinTexts]
  | false =>
    have h2 : cls' c = true := by
      cases h' : cls' c with
      | true => rfl
      | false => rw [h1, h'] at h; exact absurd rfl h
    obtain ⟨k1, k2⟩ := encode_single hb h1
    have m : makeChangeset (symbolTokenizer cls).bytesOps (b ++ b) b = .ok [.slice ⟨0, some 1⟩] :=
      makeChangeset_slice k1 k2 (by decide +kernel)
    refine ⟨[c], [c, c], by simp, _, _, b ++ b, e1, e2, .two, utf8 _ _ e1 e2 (by simp) (by simp), (two_store m).2, ne, ?_⟩
    rw [(two_store m).1]
    refine two_get (encode_word hb h2).1 ?_
    simp [Tokenizer.bytesOps, symbolTokenizer, DictTok.decode, lookupDecoding, joinTexts]

/-- C124.  So a Python with the class `cls'` reads every version of every documented history of UTF-8
contents that was added with the class `cls` exactly if the classes are the same on all characters. -/
theorem C124_exactly (cls cls' : Nat → Bool) :
    (∀ h : List (AddOp Nat), GoodHistory h → Utf8Contents h → ∀ a ∈ h,
      versionsGet (memoryTree Nat) (symbolTokenizer cls').bytesOps
        (runHistory (memoryTree Nat) (symbolTokenizer cls).bytesOps (emptyVersions Nat) h) a.tag =
        .ok (some a.content)) ↔
      ∀ c, isScalar c = true → cls c = cls' c := by
  constructor
  · intro H c hc
    refine Classical.byContradiction fun hn => ?_
    obtain ⟨s, t, _, x, y, wrong, _, _, k1, k2, _, k3, k4⟩ := C124_differ hc hn
    have := H _ k1 k2 ⟨0, x, none⟩ (by simp [twoVersions])
    rw [k4] at this
    cases this
    exact k3 rfl
  · intro H h G hu a ha
    have e : (h.map fun a => (cls, a)).map Prod.snd = h := by
      rw [List.map_map]; exact List.map_id h
    have := C124_exact (fun c => isScalar c = true) cls (calls := h.map fun a => (cls, a))
      (by rw [e]; exact G) (by rw [e]; exact hu) (by simp) ?_ rfl cls' (fun c hc => (H c hc).symm)
      (cls, a) (List.mem_map.2 ⟨a, ha, rfl⟩)
    · rw [List.foldl_map] at this
      exact this
    · intro c hc s hs x hx
      exact utf8Encode_isSome.1 ⟨_, utf8_iff.1 hs⟩ x hx

/-- Three versions, added by Pythons that do and do not take `é` for a letter, and read by both. -/
example :
    let wide : Nat → Bool := fun c => asciiWord c || c == 233
    let calls : List ((Nat → Bool) × AddOp Nat) :=
      (linear ["one two", "one three", "four-four three"]).zipIdx.map fun (a, i) =>
        (if i == 1 then wide else asciiWord, a)
    (calls.map fun c => versionsGet (memoryTree Nat) (symbolTokenizer wide).bytesOps
      (calls.foldl (fun v c => (classAdd (memoryTree Nat) v c).1) (emptyVersions Nat)) c.2.tag) =
    calls.map fun c => .ok (some c.2.content) := by decide +kernel

/-- `éé` twice: the second Python reads `é`. -/
example : readWith (symbolTokenizer fun c => asciiWord c || c == 233).bytesOps
    (symbolTokenizer asciiWord).bytesOps ["éé", "éé"] 0 = .ok (some (rawBytes "é")) := by decide +kernel

end Gaspra
