import Verif.Proofs.OtherTokenizer
import Verif.Props.Tokenizers
import Verif.Props.Versions
import Verif.Proofs.LineVersions

set_option linter.unusedSectionVars false

/-!
# C117: a store that is read with another tokenizer

Nothing in a store tells with which tokenizer it was made.  Heads can be read with any tokenizer, the
other versions in general only with the one that was used.  On ASCII texts `NullTokenizer` and
`CharTokenizer` do the same.
-/

namespace Gaspra

variable {τ : Type} [DecidableEq τ]

/-- A call of `add` with `CharTokenizer` (`true`) or `NullTokenizer` (`false`). -/
def mixedAdd {T : Type} (ops : TreeOps τ T) (v : Versions τ T) (call : Bool × AddOp τ) :
    Versions τ T × Option PyErr :=
  if call.1 then versionsAdd ops charTokenizer.bytesOps v call.2.tag call.2.content call.2.base
  else versionsAdd ops nullTok v call.2.tag call.2.content call.2.base

theorem mixedAdd_eq {T : Type} {ops : TreeOps τ T} {v : Versions τ T} (A : AsciiStore v)
    (call : Bool × AddOp τ) (hc : IsAscii call.2.content) :
    mixedAdd ops v call = versionsAdd ops nullTok v call.2.tag call.2.content call.2.base ∧
      AsciiStore (mixedAdd ops v call).1 := by
  obtain ⟨h1, h2⟩ := A.add (ops := ops) call.2.tag hc call.2.base
  unfold mixedAdd
  split
  · rw [h1]; exact ⟨rfl, h2⟩
  · exact ⟨rfl, h2⟩

theorem mixed_ascii {T : Type} {ops : TreeOps τ T} : ∀ (calls : List (Bool × AddOp τ))
    {v : Versions τ T}, AsciiStore v → (∀ c ∈ calls, IsAscii c.2.content) →
    calls.foldl (fun v c => (mixedAdd ops v c).1) v = runHistory ops nullTok v (calls.map Prod.snd) ∧
      AsciiStore (runHistory ops nullTok v (calls.map Prod.snd))
  | [], v, A, _ => ⟨rfl, A⟩
  | c :: calls, v, A, hc => by
    obtain ⟨h1, h2⟩ := mixedAdd_eq (ops := ops) A c (hc c (by simp))
    have := mixed_ascii (ops := ops) calls h2 fun c h => hc c (by simp [h])
    rw [List.foldl_cons, this.1]
    rw [h1] at this ⊢
    exact ⟨rfl, this.2⟩

/-- C117.  As long as all contents are ASCII, every call of `add` may use `NullTokenizer` or
`CharTokenizer`, over any tree and with any tags, also after failed calls: the stores are the same,
byte by byte, the exceptions are the same, and both tokenizers read the same from them. -/
theorem C117_ascii {T : Type} (ops : TreeOps τ T) (t : T) (calls : List (Bool × AddOp τ))
    (hc : ∀ c ∈ calls, ∀ x ∈ c.2.content, x.toNat < 128) :
    calls.foldl (fun v c => (mixedAdd ops v c).1) ⟨[], [], t⟩ =
        runHistory ops nullTok ⟨[], [], t⟩ (calls.map Prod.snd) ∧
      (∀ c : Bool × AddOp τ, (∀ x ∈ c.2.content, x.toNat < 128) →
        mixedAdd ops (runHistory ops nullTok ⟨[], [], t⟩ (calls.map Prod.snd)) c =
          versionsAdd ops nullTok (runHistory ops nullTok ⟨[], [], t⟩ (calls.map Prod.snd))
            c.2.tag c.2.content c.2.base) ∧
      ∀ tag, versionsGet ops charTokenizer.bytesOps
          (runHistory ops nullTok ⟨[], [], t⟩ (calls.map Prod.snd)) tag =
        versionsGet ops nullTok (runHistory ops nullTok ⟨[], [], t⟩ (calls.map Prod.snd)) tag := by
  have A0 : AsciiStore (⟨[], [], t⟩ : Versions τ T) := ⟨by simp, by simp⟩
  obtain ⟨h1, h2⟩ := mixed_ascii (ops := ops) calls A0 hc
  exact ⟨h1, fun c hc => (mixedAdd_eq h2 c hc).1, fun tag => h2.get tag⟩

/-- C117.  So with ASCII contents a documented history may be added and read with any mixture of the
two. -/
theorem C117_ascii_exact {calls : List (Bool × AddOp τ)} (G : GoodHistory (calls.map Prod.snd))
    (hf : ContentsFit (calls.map Prod.snd)) (hc : ∀ c ∈ calls, ∀ x ∈ c.2.content, x.toNat < 128) :
    ∀ c ∈ calls, ∀ v, v = calls.foldl (fun v c => (mixedAdd (memoryTree τ) v c).1) (emptyVersions τ) →
      versionsGet (memoryTree τ) nullTok v c.2.tag = .ok (some c.2.content) ∧
      versionsGet (memoryTree τ) charTokenizer.bytesOps v c.2.tag = .ok (some c.2.content) := by
  rintro c h v rfl
  obtain ⟨h1, _, h3⟩ := C117_ascii (memoryTree τ) [] calls hc
  have := (C27_get_exact G hf).2 c.2 (List.mem_map.2 ⟨c, h, rfl⟩)
  rw [show emptyVersions τ = ⟨[], [], []⟩ from rfl, h1, h3]
  exact ⟨this, this⟩

theorem head_any {Tok S P : Type} [DecidableEq Tok] {tk : TokOps Tok S} {Ok : Bytes → Prop}
    (L : LawfulTok tk P Ok) (cls : Nat → Bool) {h : List (AddOp τ)} (G : GoodHistory h)
    (hc : ∀ a ∈ h, Ok a.content ∧ a.content.length < 2 ^ 64) {a : AddOp τ} (ha : a ∈ h)
    (hu : Utf8Bytes a.content) (hd : IsHead h a.tag) {v : Versions τ (MTree τ)}
    (hv : v = runHistory (memoryTree τ) tk (emptyVersions τ) h) :
    versionsGet (memoryTree τ) nullTok v a.tag = .ok (some a.content) ∧
    versionsGet (memoryTree τ) charTokenizer.bytesOps v a.tag = .ok (some a.content) ∧
    versionsGet (memoryTree τ) (symbolTokenizer cls).bytesOps v a.tag = .ok (some a.content) ∧
    versionsGet (memoryTree τ) lineTokenizer.bytesOps v a.tag = .ok (some a.content) := by
  have H := G.fresh.ok L hc
  rw [← hv] at H
  obtain ⟨nd, hnd⟩ := H.dget_some.2 hd.1
  have hp := (H.heads hnd).2 (G.heads.2.2 hd)
  have h1 : (memoryTree τ).pathTo v.tree a.tag = .ok (some [a.tag]) := pathTo_spec (.root hnd hp)
  have h2 := (H.store.root hnd hp).1
  rw [contentOf_mem G.fresh.nodup ha] at h2
  refine ⟨get_full h1 h2 (tk := nullTok) rfl rfl, ?_, ?_, ?_⟩
  · obtain ⟨toks, st, a1, a2, a3, a4, _⟩ := charLawful.encode_ok charLawful.init_inv hu
    refine get_full h1 h2 a1 ?_
    rw [charLawful.decode_ok a2 a3 a4, charLawful.split_text hu]
  · obtain ⟨toks, st, a1, a2, a3, a4, _⟩ := (symbolLawful cls).encode_ok (symbolLawful cls).init_inv hu
    refine get_full h1 h2 a1 ?_
    rw [(symbolLawful cls).decode_ok a2 a3 a4, (symbolLawful cls).split_text hu]
  · obtain ⟨toks, st, a1, a2, a3, a4, _⟩ := lineHom.encode_ok (b := a.content) lineHom.init_inv
    refine get_full h1 h2 a1 ?_
    rw [lineHom.decode_ok a2 a3 a4, lineHom.split_text]

/-- C117.  The heads of a documented history that was added with `NullTokenizer`, `CharTokenizer` or
`SymbolTokenizer` are read back with each of the four tokenizers, if they are valid UTF-8. -/
theorem C117_heads (cls cls' : Nat → Bool) {h : List (AddOp τ)} (G : GoodHistory h)
    (hc : Utf8Contents h) {v : Versions τ (MTree τ)}
    (hv : v = runHistory (memoryTree τ) nullTok (emptyVersions τ) h ∨
      v = runHistory (memoryTree τ) charTokenizer.bytesOps (emptyVersions τ) h ∨
      v = runHistory (memoryTree τ) (symbolTokenizer cls).bytesOps (emptyVersions τ) h) :
    ∀ a ∈ h, IsHead h a.tag →
      versionsGet (memoryTree τ) nullTok v a.tag = .ok (some a.content) ∧
      versionsGet (memoryTree τ) charTokenizer.bytesOps v a.tag = .ok (some a.content) ∧
      versionsGet (memoryTree τ) (symbolTokenizer cls').bytesOps v a.tag = .ok (some a.content) ∧
      versionsGet (memoryTree τ) lineTokenizer.bytesOps v a.tag = .ok (some a.content) := by
  intro a ha hd
  rcases hv with hv | hv | hv
  · exact head_any nullLawful cls' G (fun a ha => ⟨trivial, (hc a ha).2⟩) ha (hc a ha).1 hd hv
  · exact head_any charLawful cls' G hc ha (hc a ha).1 hd hv
  · exact head_any (symbolLawful cls) cls' G hc ha (hc a ha).1 hd hv

/-- The version `tag` of a linear history, written with one tokenizer and read with another. -/
def readWith {Tok S Tok' S' : Type} [DecidableEq Tok] [DecidableEq Tok'] (tk : TokOps Tok S)
    (tk' : TokOps Tok' S') (contents : List String) (tag : Nat) : Except PyErr (Option Bytes) :=
  versionsGet (memoryTree Nat) tk' (runHistory (memoryTree Nat) tk (emptyVersions Nat) (linear contents))
    tag

/-- C117.  Other versions are read wrong with another tokenizer, without an exception: with
`NullTokenizer` what was written with `CharTokenizer`, and the other way round with an exception or
without; with one of them what was written with `SymbolTokenizer`; and with `SymbolTokenizer` itself,
if the Python that reads counts another character as part of a word (`\w`) than the Python that
wrote. -/
theorem C117_wrong :
    readWith charTokenizer.bytesOps nullTok ["é1 two", "é2 two"] 0 = .ok (some (195 :: rawBytes "12 tw")) ∧
    readWith nullTok charTokenizer.bytesOps ["é1 two", "é2 two"] 0 = .ok (some (rawBytes "é21two")) ∧
    readWith nullTok charTokenizer.bytesOps ["é", "è"] 0 = .error .unicodeError ∧
    readWith (symbolTokenizer asciiWord).bytesOps nullTok ["one two", "one three"] 0 =
      .ok (some (rawBytes "ontwo")) ∧
    readWith (symbolTokenizer asciiWord).bytesOps
      (symbolTokenizer fun c => asciiWord c || c == 233).bytesOps ["café one", "café two"] 0 =
      .ok (some (rawBytes "café twoone")) := by
  decide +kernel

/-- Three versions, the second one added with `CharTokenizer`, which also reads them. -/
example :
    let calls : List (Bool × AddOp Nat) :=
      (linear ["one two", "one three", "four three"]).zipIdx.map fun (a, i) => (i == 1, a)
    (calls.map fun c => versionsGet (memoryTree Nat) charTokenizer.bytesOps
      (calls.foldl (fun v c => (mixedAdd (memoryTree Nat) v c).1) (emptyVersions Nat)) c.2.tag) =
    calls.map fun c => .ok (some c.2.content) := by decide +kernel

/-- The last of three versions is read with every tokenizer. -/
example : readWith charTokenizer.bytesOps nullTok ["é1 two", "é2 two", "è"] 2 =
    .ok (some (rawBytes "è")) ∧
  readWith charTokenizer.bytesOps lineTokenizer.bytesOps ["é1 two", "é2 two", "è"] 2 =
    .ok (some (rawBytes "è")) := by decide +kernel

end Gaspra
