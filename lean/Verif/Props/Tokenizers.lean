import Verif.Proofs.TokenizerDiff

set_option linter.unusedSectionVars false

/-!
# C38 – C43, C52: tokenizers

`before` is the list of the earlier `encode` calls on the tokenizer (any texts, failing calls
included), `after` the list of the later ones.  The type a tokenizer accepts is that of its first
call.  `SymbolTokenizer` is proved for every character class `cls`.
-/

namespace Gaspra

/-- The ASCII part of the class `[\w\d$-]`, for the examples. -/
def asciiWord (c : Nat) : Bool :=
  (48 ≤ c && c ≤ 57) || (65 ≤ c && c ≤ 90) || (97 ≤ c && c ≤ 122) || c == 95 || c == 36 || c == 45

/-- A `str`, for the examples. -/
def strOf (s : String) : Text := .str (s.toList.map Char.toNat)

/-- A `bytes` with the UTF-8 encoding of a string, for the examples. -/
def bytesOf (s : String) : Text := .bytes ((utf8Encode (s.toList.map Char.toNat)).getD [])

/-! ### C38 -/

/-- C38, `NullTokenizer`: any text. -/
theorem C38_null_lossless : Lossless nullTokenizer (fun _ => True) := by
  intro before after x _ hf
  have := nullEncode_good (null_wrongType hf)
  exact ⟨x, by rw [show tokAfter nullTokenizer before = _ from rfl]; exact congrArg Prod.snd this,
    rfl⟩

/-- C38, `CharTokenizer`: any `str`, valid UTF-8. -/
theorem C38_char_lossless : Lossless charTokenizer WellEncoded := by
  intro before after x hx hf
  have he := charEncode_good hx (char_wrongType hf)
  refine ⟨charPoints x, congrArg Prod.snd he, ?_⟩
  have e : tokAfter charTokenizer (before ++ x :: after) = some x.type := by
    show (before ++ x :: after).foldl (fun st y => (charEncode st y).1) none = _
    rw [List.foldl_append, List.foldl_cons, he]
    exact charSteps after rfl
  rw [e]
  exact charDecode_ok hx

/-- C38, `LineTokenizer`: any text. -/
theorem C38_line_lossless : Lossless lineTokenizer (fun _ => True) := lineLike.lossless diffInts

/-- C38, `SymbolTokenizer`: any `str`, valid UTF-8. -/
theorem C38_symbol_lossless (cls : Nat → Bool) :
    Lossless (symbolTokenizer cls) (fun x => ∀ b, x = .bytes b → ∃ s, utf8Encode s = some b) := by
  intro before after x hx hf
  refine (symbolLike cls).lossless diffInts before after x ?_ hf
  cases x with
  | bytes b => exact hx b rfl
  | str s => trivial

/-- C38: `bytes` that are not UTF-8 raise `UnicodeDecodeError` in the two tokenizers that decode
them. -/
theorem C38_not_utf8 (cls : Nat → Bool) {b : Bytes} (hb : ¬ ∃ s, utf8Encode s = some b)
    {before : List Text} (hf : FirstCallLike (.bytes b) before) :
    (charTokenizer.encode (tokAfter charTokenizer before) (.bytes b)).2 = .error .unicodeError ∧
    ((symbolTokenizer cls).encode (tokAfter (symbolTokenizer cls) before) (.bytes b)).2 =
      .error .unicodeError := by
  constructor
  · have hw := char_wrongType hf
    have : utf8Decode b = none := by
      cases hd : utf8Decode b with
      | none => rfl
      | some s => exact absurd ⟨s, utf8_iff.1 hd⟩ hb
    show (charEncode (before.foldl (fun st y => (charEncode st y).1) none) (.bytes b)).2 = _
    generalize before.foldl (fun st y => (charEncode st y).1) none = src at hw ⊢
    simp [charEncode, hw, this]
  · exact congrArg Prod.snd ((symbolLike cls).bad _ _ (wrongType_after (symbolLike cls) hf) hb)

example : (lineTokenizer.encode (tokAfter lineTokenizer [strOf "a\nb", bytesOf "x", strOf "c\nb"])
    (strOf "b\na\n\nb")).2 = .ok [3, 0, 4, 1] := by decide +kernel

example : lineTokenizer.decode (tokAfter lineTokenizer
    [strOf "a\nb", bytesOf "x", strOf "c\nb", strOf "b\na\n\nb", strOf "zzz"]) [3, 0, 4, 1] =
    .ok (strOf "b\na\n\nb") := by decide +kernel

example : ((symbolTokenizer asciiWord).encode .new (bytesOf "a-b + é a-b")).2 =
    .ok [0, 1, 2, 1, 3, 1, 0] := by decide +kernel

example : WellEncoded (bytesOf "aé€😀") := ⟨[97, 233, 8364, 128512], by decide +kernel⟩

example : charTokenizer.encode none (.bytes [0xED, 0xA0, 0x80]) =
    (some .bytes, .error .unicodeError) := by decide +kernel

/-! ### C39 -/

/-- What the token numbers of a dictionary tokenizer mean: for any calls of one type there is one
table in which equal numbers are equal texts, and through which every result reads as the
pieces of its argument. -/
def TokensArePieces {S : Type _} (tk : Tokenizer (List Nat) S) (Good : Text → Prop)
    (IsPieces : Text → List Text → Prop) : Prop :=
  ∀ calls : List Text, (∀ x ∈ calls, Good x) → (∀ x ∈ calls, ∀ y ∈ calls, x.type = y.type) →
    ∃ (es : List (List Nat)) (table : List Text), encodings tk tk.init calls = es.map .ok ∧
      (∀ (i j : Nat) p q, table[i]? = some p → table[j]? = some q → (i = j ↔ p = q)) ∧
      ∀ (k : Nat) x e, calls[k]? = some x → es[k]? = some e →
        ∃ ps, e.map (fun i => table[i]?) = ps.map some ∧ IsPieces x ps

theorem DictLike.tokensArePieces {encode : DictTok → Text → DictTok × Except PyErr (List Nat)}
    {Good : Text → Prop} {pieces : Text → List Text} (D : DictLike encode Good pieces)
    {tk : Tokenizer (List Nat) DictTok} (he : tk.encode = encode) (hi : tk.init = .new)
    {IsPieces : Text → List Text → Prop} (hp : ∀ x, Good x → IsPieces x (pieces x)) :
    TokensArePieces tk Good IsPieces := by
  intro calls hg ht
  have : ∃ t, ∀ x ∈ calls, x.type = t := by
    cases calls with
    | nil => exact ⟨.str, by simp⟩
    | cons y calls => exact ⟨y.type, fun x hx => ht x hx y (by simp)⟩
  obtain ⟨t, ht'⟩ := this
  obtain ⟨es, h1, fin, h2, h3⟩ := D.tables he t calls .new (Or.inl rfl)
    (fun x hx => ⟨hg x hx, ht' x hx⟩)
  refine ⟨es, fin.table, by rw [hi]; exact h1, fun i j p q hi hj => h2.inv.table_inj hi hj, ?_⟩
  intro k x e hx he
  exact ⟨pieces x, h3 k x e hx he, hp x (hg x (List.mem_of_getElem? hx))⟩

/-- C39, `LineTokenizer`: equal numbers are equal lines, across all calls. -/
theorem C39_line_tokens : TokensArePieces lineTokenizer (fun _ => True) IsLines :=
  lineLike.tokensArePieces rfl rfl fun x _ => isLines x

/-- C39, `SymbolTokenizer`: equal numbers are equal symbols, across all calls. -/
theorem C39_symbol_tokens (cls : Nat → Bool) : TokensArePieces (symbolTokenizer cls)
    (fun x => ∀ b, x = .bytes b → ∃ s, utf8Encode s = some b) (IsSymbols cls) := by
  intro calls hg
  refine (symbolLike cls).tokensArePieces (tk := symbolTokenizer cls) rfl rfl
    (fun x hx => isSymbols cls hx) calls ?_
  intro x hx
  cases x with
  | bytes b => exact hg _ hx b rfl
  | str s => trivial

/-- The symbols of a text are determined by their specification. -/
theorem C39_symbols_unique {cls : Nat → Bool} {s : PyStr} {ps qs : List PyStr}
    (hp : IsSymbolsOf cls s ps) (hq : IsSymbolsOf cls s qs) : ps = qs := by
  rw [← symbols_unique cls hp, symbols_unique cls hq]

/-- The lines of a text are determined by their specification. -/
theorem C39_lines_unique {β : Type _} {nl : β} : ∀ {l : List β} {ps qs : List (List β)},
    IsLinesOf nl l ps → IsLinesOf nl l qs → ps = qs := by
  have key : ∀ {a b c d : List β}, a ++ nl :: b = c ++ nl :: d → nl ∉ a → nl ∉ c → a = c ∧ b = d := by
    intro a
    induction a with
    | nil =>
      intro b c d e _ hc
      cases c with
      | nil => simpa using e
      | cons x c =>
        simp only [List.nil_append, List.cons_append, List.cons.injEq] at e
        exact absurd (by simp [e.1]) hc
    | cons x a ih =>
      intro b c d e ha hc
      cases c with
      | nil =>
        simp only [List.nil_append, List.cons_append, List.cons.injEq] at e
        exact absurd (by simp [e.1]) ha
      | cons y c =>
        simp only [List.cons_append, List.cons.injEq] at e
        obtain ⟨h1, h2⟩ := ih e.2 (fun h => ha (by simp [h])) (fun h => hc (by simp [h]))
        exact ⟨by rw [e.1, h1], h2⟩
  intro l ps qs hp hq
  obtain ⟨hpf, pi, pl, rfl, hp1, hp2⟩ := hp
  obtain ⟨hqf, qi, ql, rfl, hq1, hq2⟩ := hq
  rw [← hpf] at hqf
  clear hpf
  induction pi generalizing qi with
  | nil =>
    cases qi with
    | nil => simpa using hqf.symm
    | cons q qi =>
      obtain ⟨a, rfl, _⟩ := hq2 q (by simp)
      simp at hqf
      exact absurd (by rw [← hqf]; simp) hp1
  | cons p pi ih =>
    obtain ⟨a, rfl, ha⟩ := hp2 p (by simp)
    cases qi with
    | nil =>
      simp at hqf
      exact absurd (by rw [hqf]; simp) hq1
    | cons q qi =>
      obtain ⟨b, rfl, hb⟩ := hq2 q (by simp)
      simp only [List.cons_append, List.flatten_cons, List.append_assoc, List.nil_append] at hqf
      obtain ⟨rfl, h2⟩ := key hqf hb ha
      have := ih (fun p hp => hp2 p (by simp [hp])) qi h2 (fun p hp => hq2 p (by simp [hp]))
      simp only [List.cons_append]
      rw [this]

theorem pySplit_intercalate {β : Type _} [DecidableEq β] (sep : β) : ∀ (l : List β),
    List.intercalate [sep] (pySplit sep l) = l
  | [] => rfl
  | c :: l => by
    have ih := pySplit_intercalate sep l
    simp only [pySplit]
    cases hs : pySplit sep l with
    | nil => exact absurd hs (pySplit_ne sep l)
    | cons q qs =>
      rw [hs] at ih
      split
      · next hc => rw [List.intercalate_cons_of_ne_nil (by simp), ih, hc]; rfl
      · cases qs with
        | nil => simpa using ih
        | cons r rs =>
          rw [List.intercalate_cons_of_ne_nil (by simp)] at ih ⊢
          simp only [List.cons_append, List.append_assoc] at ih ⊢
          rw [ih]

theorem lineEncodeLoop_spec : ∀ (strings : List PyStr) {enc : List (PyStr × Nat)}, NumOK enc →
    ∃ enc' es, lineEncodeLoop enc strings = some (enc', es) ∧ NumOK enc' ∧
      es.length = strings.length ∧
      (∃ more, enc'.map Prod.fst = enc.map Prod.fst ++ more) ∧
      ∀ (k : Nat) s e, strings[k]? = some s → es[k]? = some e →
        e.map (fun i => (enc'.map Prod.fst)[i]?) = (pySplit nl s).map some
  | [], enc, h => ⟨enc, [], rfl, h, rfl, ⟨[], by simp⟩, by simp⟩
  | s :: strings, enc, h => by
    obtain ⟨a1, ⟨more, a2, _⟩, a3⟩ := numberTokens_spec (pySplit nl s) h
    obtain ⟨toks, b1, b2⟩ := lookupTokens_spec a1 a3
    obtain ⟨enc', es, c1, c2, c5, ⟨more', c3⟩, c4⟩ := lineEncodeLoop_spec strings a1
    refine ⟨enc', toks :: es, by simp only [lineEncodeLoop, b1, c1], c2, by simp [c5],
      ⟨more ++ more', by rw [c3, a2]; simp⟩, ?_⟩
    intro k x e hx he
    cases k with
    | zero =>
      simp at hx he
      subst hx; subst he
      rw [← b2]
      apply List.map_congr_left
      intro t ht
      have : ((numberTokens enc (pySplit nl s)).map Prod.fst)[t]? ∈ (pySplit nl s).map some := by
        rw [← b2]; exact List.mem_map.2 ⟨t, ht, rfl⟩
      obtain ⟨p, _, hp⟩ := List.mem_map.1 this
      rw [c3, List.getElem?_append_left (List.getElem?_eq_some_iff.1 hp.symm).1]
    | succ k => exact c4 k x e (by simpa using hx) (by simpa using he)

/-- C39, `line_encode_strings`: one table without repetition; each encoding reads as the lines
without newlines, which joined with newlines are the string. -/
theorem C39_line_encode_strings (strings : List PyStr) :
    ∃ table es, lineEncodeStrings strings = some (table, es) ∧ es.length = strings.length ∧
      (∀ (i j : Nat) p q, table[i]? = some p → table[j]? = some q → (i = j ↔ p = q)) ∧
      ∀ (k : Nat) s e, strings[k]? = some s → es[k]? = some e →
        ∃ lines : List PyStr, e.map (fun i => table[i]?) = lines.map some ∧
          List.intercalate [10] lines = s ∧ ∀ p ∈ lines, 10 ∉ p := by
  have h0 : NumOK ([] : List (PyStr × Nat)) := ⟨by simp, by simp⟩
  obtain ⟨enc', es, h1, h2, h3, _, h4⟩ := lineEncodeLoop_spec strings h0
  refine ⟨enc'.map Prod.fst, es, by simp only [lineEncodeStrings, h1], h3, ?_, ?_⟩
  · intro i j p q hi hj
    constructor
    · rintro rfl; rw [hi] at hj; exact Option.some.inj hj
    · rintro rfl
      have k1 := h2.dget_some.2 hi
      have k2 := h2.dget_some.2 hj
      rw [k1] at k2; exact Option.some.inj k2
  · intro k s e hs he
    exact ⟨pySplit nl s, h4 k s e hs he, pySplit_intercalate nl s, pySplit_no_sep nl s⟩

example : lineEncodeStrings [[97, 10, 98], [98, 10, 97, 10]] =
    some ([[97], [98], []], [[0, 1], [1, 0, 2]]) := by decide +kernel

example : IsLinesOf 10 [97, 10, 98] [[97, 10], [98]] :=
  ⟨rfl, [[97, 10]], [98], rfl, by simp, by simp; exact ⟨[97], by simp⟩⟩
example : ¬ IsLinesOf 10 [97, 10, 98] [[97, 10, 98]] := by
  intro h
  have := C39_lines_unique h ⟨rfl, [[97, 10]], [98], rfl, by simp, by simp; exact ⟨[97], by simp⟩⟩
  simp at this
example : symbols asciiWord [97, 98, 32, 99] = [[97, 98], [32], [99]] := by decide +kernel

/-! ### C40 -/

/-- A tokenizer whose first call had another type rejects `x` and keeps its state. -/
def RejectsMixed {E S : Type _} (tk : Tokenizer E S) : Prop :=
  ∀ (y : Text) (rest : List Text) (x : Text), x.type ≠ y.type →
    tk.encode (tokAfter tk (y :: rest)) x = (tokAfter tk (y :: rest), .error .runtimeError)

/-- C40 for the four tokenizers. -/
theorem C40_mixed_types_rejected (cls : Nat → Bool) : RejectsMixed nullTokenizer ∧
    RejectsMixed charTokenizer ∧ RejectsMixed lineTokenizer ∧
    RejectsMixed (symbolTokenizer cls) := by
  refine ⟨?_, ?_, fun y rest x h => lineLike.mixed rest h,
    fun y rest x h => (symbolLike cls).mixed rest h⟩
  · intro y rest x h
    have e : tokAfter nullTokenizer (y :: rest) = some y.type := null_src_first y rest
    rw [e]
    simp [nullTokenizer, nullEncode, wrongType]
    exact fun e => absurd e.symm h
  · intro y rest x h
    have e : tokAfter charTokenizer (y :: rest) = some y.type := char_src_first y rest
    rw [e]
    have hw : wrongType (some y.type) x = true := by
      simp only [wrongType, ne_eq, decide_eq_true_eq]; exact fun e => h e.symm
    show charEncode (some y.type) x = _
    simp [charEncode, hw]

/-- C40, refuted half: `diff` with the default tokenizer depends on earlier calls.  The default
argument is one `NullTokenizer` object for the whole process; after any `diff` of one type, every
`diff` whose original has the other type raises `RuntimeError`. -/
theorem C40_default_is_shared (o m o' m' : Text) (h : o'.type ≠ o.type) :
    (tokDiff nullTokenizer (tokDiff nullTokenizer none o m).1 o' m').2 = .error .runtimeError := by
  have e : (tokDiff nullTokenizer none o m).1 = some o.type := by
    have f1 := nullEncode_good (src := none) (x := o) rfl
    unfold tokDiff
    simp only [f1]
    by_cases hm : o.type = m.type
    · have f2 := nullEncode_good (src := some o.type) (x := m) (by simp [wrongType, hm])
      simp only [f2]
      rw [hm]
      split <;> rfl
    · have : nullTokenizer.encode (some o.type) m = (some o.type, .error .runtimeError) := by
        simp [nullTokenizer, nullEncode, wrongType, hm]
      simp only [this]
  rw [e]
  have : nullTokenizer.encode (some o.type) o' = (some o.type, .error .runtimeError) := by
    have hw : wrongType (some o.type) o' = true := by
      simp only [wrongType, ne_eq, decide_eq_true_eq]; exact fun e => h e.symm
    simp [nullTokenizer, nullEncode, hw]
  unfold tokDiff
  simp only [this]

example : (tokDiff nullTokenizer none (bytesOf "ab") (bytesOf "b")).2 =
    .ok ([.change (bytesOf "") (bytesOf "a"), .common (bytesOf "b")], none) := by decide +kernel
example : (tokDiff nullTokenizer (tokDiff nullTokenizer none (strOf "x") (strOf "y")).1
    (bytesOf "ab") (bytesOf "b")).2 = .error .runtimeError := by decide +kernel

/-! ### C41 -/

/-- The diff of two texts of one type yields pieces that spell both. -/
def DiffSpells {E S : Type _} (tk : Tokenizer E S) (Good : Text → Prop) : Prop :=
  ∀ (before : List Text) (o m : Text), Good o → Good m → o.type = m.type →
    FirstCallLike o before →
    ∃ items, (tokDiff tk (tokAfter tk before) o m).2 = .ok (items, none) ∧
      Spells m (intoPieces items) ∧ Spells o (fromPieces items)

/-- C41, `NullTokenizer`. -/
theorem C41_null_diff : DiffSpells nullTokenizer (fun _ => True) :=
  fun _ _ _ _ _ hom hf => null_diff hom (null_wrongType hf)

/-- C41, `CharTokenizer`. -/
theorem C41_char_diff : DiffSpells charTokenizer WellEncoded :=
  fun _ _ _ ho hm hom hf => char_diff ho hm hom (char_wrongType hf)

/-- C41, `LineTokenizer`. -/
theorem C41_line_diff : DiffSpells lineTokenizer (fun _ => True) :=
  fun before _ _ ho hm hom hf => lineLike.diff (tk := lineTokenizer) rfl rfl rfl
    (lineLike.steps before .new).inv ho hm hom (wrongType_after lineLike hf)

/-- C41, `SymbolTokenizer`. -/
theorem C41_symbol_diff (cls : Nat → Bool) : DiffSpells (symbolTokenizer cls)
    (fun x => ∀ b, x = .bytes b → ∃ s, utf8Encode s = some b) := by
  have conv : ∀ {x : Text}, (∀ b, x = .bytes b → ∃ s, utf8Encode s = some b) → Utf8Text x := by
    intro x h
    cases x with
    | bytes b => exact h b rfl
    | str s => trivial
  intro before o m ho hm hom hf
  exact (symbolLike cls).diff (tk := symbolTokenizer cls) rfl rfl rfl
    ((symbolLike cls).steps before .new).inv (conv ho) (conv hm) hom
    (wrongType_after (symbolLike cls) hf)

example : (tokDiff lineTokenizer .new (strOf "a\nb\nc") (strOf "a\nX\nc")).2 =
    .ok ([.common (strOf "a\n"), .change (strOf "X\n") (strOf "b\n"), .common (strOf "c")], none) := by
  decide +kernel
example : (tokDiff (symbolTokenizer asciiWord) .new (bytesOf "old text") (bytesOf "new text")).2 =
    .ok ([.change (bytesOf "new") (bytesOf "old"), .common (bytesOf " text")], none) := by
  decide +kernel

/-! ### C42 -/

variable {τ : Type _} [DecidableEq τ]

/-- Every content is valid UTF-8 and can be serialized. -/
def Utf8Contents (h : List (AddOp τ)) : Prop :=
  ∀ a ∈ h, (∃ s, utf8Encode s = some a.content) ∧ a.content.length < 2 ^ 64

/-- C42, `CharTokenizer`: every `add` of a documented history succeeds and every version is
retrieved exactly. -/
theorem C42_char_versions {h : List (AddOp τ)} (G : GoodHistory h) (hc : Utf8Contents h) :
    (∀ {h₁ a h₂}, h = h₁ ++ a :: h₂ →
      (versionsAdd (memoryTree τ) charTokenizer.bytesOps
        (runHistory (memoryTree τ) charTokenizer.bytesOps (emptyVersions τ) h₁)
        a.tag a.content a.base).2 = none) ∧
    ∀ a ∈ h, versionsGet (memoryTree τ) charTokenizer.bytesOps
      (runHistory (memoryTree τ) charTokenizer.bytesOps (emptyVersions τ) h) a.tag =
      .ok (some a.content) :=
  G.exact charLawful hc

/-- C42, `SymbolTokenizer`. -/
theorem C42_symbol_versions (cls : Nat → Bool) {h : List (AddOp τ)} (G : GoodHistory h)
    (hc : Utf8Contents h) :
    (∀ {h₁ a h₂}, h = h₁ ++ a :: h₂ →
      (versionsAdd (memoryTree τ) (symbolTokenizer cls).bytesOps
        (runHistory (memoryTree τ) (symbolTokenizer cls).bytesOps (emptyVersions τ) h₁)
        a.tag a.content a.base).2 = none) ∧
    ∀ a ∈ h, versionsGet (memoryTree τ) (symbolTokenizer cls).bytesOps
      (runHistory (memoryTree τ) (symbolTokenizer cls).bytesOps (emptyVersions τ) h) a.tag =
      .ok (some a.content) :=
  G.exact (symbolLawful cls) hc

/-- The bytes of a string, for the examples. -/
def rawBytes (s : String) : Bytes := (utf8Encode (s.toList.map Char.toNat)).getD []

/-- A linear history, for the examples. -/
def linear (contents : List String) : List (AddOp Nat) :=
  contents.zipIdx.map fun (c, i) => ⟨i, rawBytes c, if i = 0 then none else some (i - 1)⟩

example : ((linear ["a b é", "a c é", "", "a b-b é é"]).map fun a =>
    versionsGet (memoryTree Nat) (symbolTokenizer asciiWord).bytesOps
      (runHistory (memoryTree Nat) (symbolTokenizer asciiWord).bytesOps (emptyVersions Nat)
        (linear ["a b é", "a c é", "", "a b-b é é"])) a.tag) =
    (linear ["a b é", "a c é", "", "a b-b é é"]).map fun a => .ok (some a.content) := by
  decide +kernel

/-! ### C43 -/

theorem GoodHistory.four {a b c d : Bytes} : GoodHistory
    ([⟨0, a, none⟩, ⟨1, b, some 0⟩, ⟨2, c, some 1⟩, ⟨3, d, some 2⟩] : List (AddOp Nat)) := by
  have h0 : GoodHistory ([] : List (AddOp Nat)) := .nil
  have h1 := GoodHistory.snoc h0 (a := ⟨0, a, none⟩) (by simp [addedTags]) (by simp)
  have h2 := GoodHistory.snoc h1 (a := ⟨1, b, some 0⟩) (by simp [addedTags])
    (by simp [IsHead, addedTags])
  have h3 := GoodHistory.snoc h2 (a := ⟨2, c, some 1⟩) (by simp [addedTags])
    (by simp [IsHead, addedTags])
  have h4 := GoodHistory.snoc h3 (a := ⟨3, d, some 2⟩) (by simp [addedTags])
    (by simp [IsHead, addedTags])
  simpa using h4

/-- C43, refuted: there is a documented history (four linear adds of short texts) after which a
store with `LineTokenizer` returns other bytes than were added, without an exception. -/
theorem C43_line_versions_wrong : ∃ h : List (AddOp Nat), GoodHistory h ∧ Utf8Contents h ∧
    runErrors (memoryTree Nat) lineTokenizer.bytesOps (emptyVersions Nat) h =
      h.map (fun _ => none) ∧
    ∃ a ∈ h, ∃ wrong, wrong ≠ a.content ∧
      versionsGet (memoryTree Nat) lineTokenizer.bytesOps
        (runHistory (memoryTree Nat) lineTokenizer.bytesOps (emptyVersions Nat) h) a.tag =
        .ok (some wrong) := by
  refine ⟨[⟨0, [98, 10, 122], none⟩, ⟨1, [113], some 0⟩, ⟨2, [120, 10, 98, 10], some 1⟩,
    ⟨3, [98, 10], some 2⟩], GoodHistory.four, ?_, by decide +kernel,
    ⟨0, [98, 10, 122], none⟩, by simp, [122], by decide, by decide +kernel⟩
  intro a ha
  simp only [List.mem_cons, List.not_mem_nil, or_false] at ha
  rcases ha with rfl | rfl | rfl | rfl
  · exact ⟨⟨[98, 10, 122], by decide +kernel⟩, by decide⟩
  · exact ⟨⟨[113], by decide +kernel⟩, by decide⟩
  · exact ⟨⟨[120, 10, 98, 10], by decide +kernel⟩, by decide⟩
  · exact ⟨⟨[98, 10], by decide +kernel⟩, by decide⟩

/-! ### C52 -/

/-- C52, refuted: `merged` never returns, whatever the tokenizer. -/
theorem C52_merged_never_returns {E S : Type _} (tk : Tokenizer E S) (st : S) (p c o : Text) :
    ∀ r, (tokMerged tk st p c o).2 ≠ .ok r := by
  intro r
  unfold tokMerged
  repeat' split
  all_goals simp

/-- C52: with the default tokenizer and three texts of the type of its first call, the exception
is always `TypeError`. -/
theorem C52_merged_type_error {before : List Text} {p c o : Text} (hf : FirstCallLike p before)
    (hc : c.type = p.type) (ho : o.type = p.type) :
    (tokMerged nullTokenizer (tokAfter nullTokenizer before) p c o).2 = .error .typeError := by
  have f1 := nullEncode_good (null_wrongType hf)
  have f2 := nullEncode_good (src := some p.type) (x := c) (by simp [wrongType, hc])
  have f3 := nullEncode_good (src := some c.type) (x := o) (by simp [wrongType, hc, ho])
  have total : ∀ {x : Text}, x.type = p.type → ∃ cs, nullTokenizer.diffSeq p x = some cs := by
    intro x hx
    cases p with
    | bytes p =>
      cases x with
      | str x => simp [Text.type] at hx
      | bytes x =>
        obtain ⟨d, h, _⟩ := C09_diff_reconstructs p x
        exact ⟨_, by simp [nullTokenizer, diffTexts, h]; rfl⟩
    | str p =>
      cases x with
      | bytes x => simp [Text.type] at hx
      | str x =>
        obtain ⟨d, h, _⟩ := C09_diff_reconstructs p x
        exact ⟨_, by simp [nullTokenizer, diffTexts, h]; rfl⟩
  obtain ⟨d1, h1⟩ := total hc
  obtain ⟨d2, h2⟩ := total ho
  have e : tokAfter nullTokenizer before =
      before.foldl (fun st y => (nullEncode st y).1) none := rfl
  unfold tokMerged
  rw [e]
  simp only [f1, f2, f3, h1, h2]

theorem Lossless.merged_type_error {S : Type _} {tk : Tokenizer (List Nat) S} {Good : Text → Prop}
    (L : Lossless tk Good) (hd : tk.diffSeq = diffInts) {before : List Text} {p c o : Text}
    (hf : FirstCallLike p before) (hc : c.type = p.type) (ho : o.type = p.type) (gp : Good p)
    (gc : Good c) (go : Good o) :
    (tokMerged tk (tokAfter tk before) p c o).2 = .error .typeError := by
  have app : ∀ {x y : Text}, y.type = x.type → ∀ {b : List Text}, FirstCallLike x b →
      FirstCallLike y (b ++ [x]) := by
    intro x y hxy b h z hz
    cases b with
    | nil =>
      simp only [List.nil_append, List.head?_cons, Option.some.injEq] at hz
      rw [← hz, hxy]
    | cons w b =>
      simp only [List.cons_append, List.head?_cons, Option.some.injEq] at hz
      rw [hxy]
      exact h z (by simpa using hz)
  have step : ∀ (b : List Text) (x : Text), tokAfter tk (b ++ [x]) = (tk.encode (tokAfter tk b) x).1 :=
    fun b x => by simp only [tokAfter, List.foldl_append, List.foldl_cons, List.foldl_nil]
  have h2 : FirstCallLike c (before ++ [p]) := app hc hf
  have h3 : FirstCallLike o (before ++ [p] ++ [c]) := app (ho.trans hc.symm) h2
  obtain ⟨ep, k1, _⟩ := L before [] p gp hf
  obtain ⟨ec, k2, _⟩ := L (before ++ [p]) [] c gc h2
  obtain ⟨eo, k3, _⟩ := L (before ++ [p] ++ [c]) [] o go h3
  rw [step] at k2 k3
  rw [step] at k3
  have total : ∀ a b : List Nat, ∃ d, diffInts a b = some d := by
    intro a b
    obtain ⟨d, h, _⟩ := C09_diff_reconstructs a b
    exact ⟨_, by simp [diffInts, h]; rfl⟩
  obtain ⟨d1, t1⟩ := total ep ec
  obtain ⟨d2, t2⟩ := total ep eo
  unfold tokMerged
  rcases e1 : tk.encode (tokAfter tk before) p with ⟨s1, r1⟩
  rw [e1] at k1 k2 k3
  rcases e2 : tk.encode s1 c with ⟨s2, r2⟩
  rw [e2] at k2 k3
  rcases e3 : tk.encode s2 o with ⟨s3, r3⟩
  rw [e3] at k3
  simp only at k1 k2 k3
  subst k1 k2 k3
  simp only [e2, e3, hd, t1, t2]

/-- C52: likewise with the other tokenizers, for three texts that they accept. -/
theorem C52_merged_type_error_tokenizers (cls : Nat → Bool) {before : List Text} {p c o : Text}
    (hf : FirstCallLike p before) (hc : c.type = p.type) (ho : o.type = p.type) :
    (WellEncoded p → WellEncoded c → WellEncoded o →
      (tokMerged charTokenizer (tokAfter charTokenizer before) p c o).2 = .error .typeError) ∧
    (tokMerged lineTokenizer (tokAfter lineTokenizer before) p c o).2 = .error .typeError ∧
    ((∀ x ∈ [p, c, o], ∀ b, x = .bytes b → ∃ s, utf8Encode s = some b) →
      (tokMerged (symbolTokenizer cls) (tokAfter (symbolTokenizer cls) before) p c o).2 =
        .error .typeError) :=
  ⟨fun hp hc' ho' => C38_char_lossless.merged_type_error rfl hf hc ho hp hc' ho',
    C38_line_lossless.merged_type_error rfl hf hc ho trivial trivial trivial,
    fun h => (C38_symbol_lossless cls).merged_type_error rfl hf hc ho (h p (by simp)) (h c (by simp))
      (h o (by simp))⟩

example : (tokMerged lineTokenizer .new (strOf "a\nb") (strOf "a\nc") (strOf "x\nb")).2 =
    .error .typeError := by decide +kernel

end Gaspra
