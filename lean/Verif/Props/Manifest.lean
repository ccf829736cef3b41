import Verif.Props.Versions
import Verif.Proofs.Manifest

set_option linter.unusedSectionVars false
set_option linter.unusedSimpArgs false
set_option linter.unusedVariables false

/-!
# C44: manifests
-/

namespace Gaspra

/-- C44.  The JSON document of a manifest is read back exactly. -/
theorem C44_doc_roundtrip {m : Manifest} (h : SafeManifest m) :
    ∃ doc, manifestToDoc m = .ok doc ∧ docToManifest doc = .ok m := doc_roundtrip h

/-- C44.  The restriction on surrogates is needed: a name of a high and a low surrogate comes back
as one other character. -/
theorem C44_surrogates_joined : ∃ doc, manifestToDoc [([0xD800, 0xDC00], [])] = .ok doc ∧
    docToManifest doc = .ok [([0x10000], [])] := ⟨_, rfl, by decide +kernel⟩

example : SafeManifest [([102, 48], [0x1F600, 34, 10]), ([0xDC00, 0xD800, 233], [])] := by
  constructor
  · decide
  · decide
example : manifestToDoc [([102], [0x1F600, 34, 10]), ([233], [])] = .ok
    [123, 34, 102, 34, 58, 34, 92, 117, 100, 56, 51, 100, 92, 117, 100, 101, 48, 48, 92, 34, 92, 110, 34, 44, 10,
      34, 92, 117, 48, 48, 101, 57, 34, 58, 34, 34, 125] := by decide +kernel

theorem contains_iff {h : List (AddOp PyStr)} (F : FreshHistory h) (hc : ContentsFit h) (t : PyStr) :
    versionsContains (memoryTree PyStr) (storeAfter h) t = true ↔ t ∈ addedTags h :=
  (C28_membership F hc t).1

theorem get_added {h : List (AddOp PyStr)} (F : FreshHistory h) (hc : ContentsFit h) {a : AddOp PyStr}
    (ha : a ∈ h) : versionsGet (memoryTree PyStr) nullTok (storeAfter h) a.tag = .ok (some a.content) := by
  have H := historyOK F hc
  obtain ⟨nd, hnd⟩ := H.dget_some.2 (List.mem_map.2 ⟨a, ha, rfl⟩)
  rw [H.store.get_ok hnd, contentOf_mem F.nodup ha]

theorem ContentsFit.snoc {h : List (AddOp PyStr)} (hc : ContentsFit h) {a : AddOp PyStr}
    (ha : a.content.length < 2 ^ 64) : ContentsFit (h ++ [a]) := by
  intro x hx
  rcases List.mem_append.1 hx with hx | hx
  · exact hc x hx
  · simp at hx; subst hx; exact ha

theorem newEntries_congr : ∀ {m : Manifest} {k k' : List PyStr}, (∀ t, t ∈ k ↔ t ∈ k') →
    newEntries k m = newEntries k' m
  | [], _, _, _ => rfl
  | (n, t) :: m, k, k', h => by
    simp only [newEntries, h t]
    rw [newEntries_congr h, newEntries_congr (k := t :: k) (k' := t :: k')]
    intro x; simp [h x]

/-- The exception of `add` with a new tag (C31). -/
def addErr (h : List (AddOp PyStr)) : Option PyStr → Option PyErr
  | none => none
  | some b => if b ∈ headsOf h then none else some .keyError

/-- A call of `add` in the loop. -/
theorem add_step {h : List (AddOp PyStr)} (F : FreshHistory h) (hc : ContentsFit h) {a : AddOp PyStr}
    (h1 : a.tag ∉ addedTags h) (h2 : a.base ≠ some a.tag) (h3 : a.content.length < 2 ^ 64) :
    versionsAdd (memoryTree PyStr) nullTok (storeAfter h) a.tag a.content a.base =
      (storeAfter (h ++ [a]), addErr h a.base) := by
  have := (C31_failing_add (.snoc F h1 h2) (hc.snoc h3)).1
  have e : storeAfter (h ++ [a]) =
      (versionsAdd (memoryTree PyStr) nullTok (storeAfter h) a.tag a.content a.base).1 :=
    runHistory_snoc _ _ _ _
  have e' : addErr h a.base =
      (versionsAdd (memoryTree PyStr) nullTok (storeAfter h) a.tag a.content a.base).2 := by
    rw [this]
    cases a.base with
    | none => rfl
    | some b => by_cases hbh : b ∈ headsOf h <;> simp [addErr, hbh]
  rw [e, e']

theorem dget_mem' {κ β : Type _} [DecidableEq κ] {d : List (κ × β)} {k : κ} {v : β}
    (h : dget d k = some v) : (k, v) ∈ d := mem_of_dget h

/-- What the loop of `add_manifest` does. -/
theorem manifestLoop_spec {contents : List (PyStr × Bytes)} {bm : Option Manifest}
    (hfit : ∀ p ∈ contents, p.2.length < 2 ^ 64) :
    ∀ (manifest : Manifest) {h : List (AddOp PyStr)}, FreshHistory h → ContentsFit h →
      (∀ m, bm = some m → ∀ p ∈ m, p.2 ∈ addedTags h) →
      ∃ h' err, manifestLoop (memoryTree PyStr) nullTok contents bm (storeAfter h) manifest =
          (storeAfter (h ++ h'), err) ∧
        FreshHistory (h ++ h') ∧ ContentsFit (h ++ h') ∧
        (∀ a ∈ h', (∃ n, (n, a.tag) ∈ manifest) ∧ dget contents a.tag = some a.content) ∧
        (∀ a ∈ h', ∀ b, a.base = some b → ∃ m, bm = some m ∧ ∃ p ∈ m, p.2 = b) ∧
        (err = none ∨ err = some .keyError) ∧
        (err = none ↔ ManifestReady h contents bm manifest) ∧
        (err = none → ∀ p ∈ manifest, p.2 ∈ addedTags (h ++ h'))
  | [], h, F, hc, hb => by
    refine ⟨[], none, by simp [manifestLoop], by simpa using F, by simpa using hc, by simp, by simp, Or.inl rfl,
      ⟨fun _ => ⟨by simp [newEntries], fun m _ => ⟨by simp [newEntries], by simp [newEntries]⟩⟩, fun _ => rfl⟩,
      by simp⟩
  | (name, tag) :: rest, h, F, hc, hb => by
    by_cases hk : tag ∈ addedTags h
    · obtain ⟨h', err, e1, e2, e3, e4, e5, e6, e7, e8⟩ := manifestLoop_spec hfit rest F hc hb
      refine ⟨h', err, ?_, e2, e3, ?_, e5, e6, ?_, ?_⟩
      · rw [manifestLoop, if_pos ((contains_iff F hc tag).2 hk), e1]
      · intro a ha
        obtain ⟨⟨n, hn⟩, h2⟩ := e4 a ha
        exact ⟨⟨n, by simp [hn]⟩, h2⟩
      · rw [e7]
        simp only [ManifestReady, newEntries, if_pos hk]
      · intro he p hp
        rcases List.mem_cons.1 hp with rfl | hp
        · simp only [addedTags, List.map_append, List.mem_append]; exact Or.inl hk
        · exact e8 he p hp
    · have hk' : ¬ versionsContains (memoryTree PyStr) (storeAfter h) tag = true := by
        rw [contains_iff F hc]; exact hk
      rw [manifestLoop, if_neg hk']
      cases hcon : dget contents tag with
      | none =>
        refine ⟨[], some .keyError, by simp, by simpa using F, by simpa using hc, by simp, by simp, Or.inr rfl,
          ⟨by simp, ?_⟩, by simp⟩
        intro hr
        obtain ⟨c, hc'⟩ := hr.1 (name, tag) (by simp [newEntries, hk])
        rw [hcon] at hc'; cases hc'
      | some content =>
        simp only
        have hlen : content.length < 2 ^ 64 := hfit _ (dget_mem' hcon)
        -- the base of this entry
        cases hbe : baseEntry bm name with
        | error e =>
          have he : e = .keyError ∧ ∃ m, bm = some m ∧ dget m name = none := by
            unfold baseEntry at hbe
            cases bm with
            | none => cases hbe
            | some m =>
              cases hd : dget m name with
              | none => simp only [hd] at hbe; cases hbe; exact ⟨rfl, m, rfl, hd⟩
              | some b => simp only [hd] at hbe; cases hbe
          obtain ⟨rfl, m, rfl, hd⟩ := he
          refine ⟨[], some .keyError, by simp, by simpa using F, by simpa using hc, by simp, by simp,
            Or.inr rfl, ⟨by simp, ?_⟩, by simp⟩
          intro hr
          obtain ⟨b, _, hb'⟩ := (hr.2 m rfl).1 (name, tag) (by simp [newEntries, hk])
          rw [hd] at hb'; cases hb'
        | ok base =>
          simp only
          -- where the base comes from
          have hbase : (bm = none ∧ base = none) ∨ ∃ m b, bm = some m ∧ base = some b ∧ dget m name = some b ∧
              b ∈ addedTags h := by
            unfold baseEntry at hbe
            cases bm with
            | none => cases hbe; exact Or.inl ⟨rfl, rfl⟩
            | some m =>
              cases hd : dget m name with
              | none => simp only [hd] at hbe; cases hbe
              | some b =>
                simp only [hd] at hbe; cases hbe
                exact Or.inr ⟨m, b, rfl, rfl, hd, hb m rfl (name, b) (dget_mem' hd)⟩
          have hne : base ≠ some tag := by
            rcases hbase with ⟨_, rfl⟩ | ⟨m, b, _, rfl, _, hb'⟩
            · simp
            · intro h; cases h; exact hk hb'
          have hadd := add_step (a := ⟨tag, content, base⟩) F hc hk hne hlen
          have F' : FreshHistory (h ++ [⟨tag, content, base⟩]) := .snoc F hk hne
          have hc' : ContentsFit (h ++ [⟨tag, content, base⟩]) := hc.snoc hlen
          have hcons : newEntries (addedTags h) ((name, tag) :: rest) =
              (name, tag) :: newEntries (addedTags (h ++ [⟨tag, content, base⟩])) rest := by
            simp only [newEntries, if_neg hk]
            congr 1
            apply newEntries_congr
            intro x; simp [addedTags, or_comm]
          simp only at hadd
          rw [hadd]
          by_cases hfail : ∃ b, base = some b ∧ b ∉ headsOf h
          · obtain ⟨b, rfl, hbh⟩ := hfail
            simp only [addErr, if_neg hbh]
            refine ⟨[⟨tag, content, some b⟩], some .keyError, rfl, F', hc', ?_, ?_, Or.inr rfl, ⟨by simp, ?_⟩, by simp⟩
            · intro a ha; simp at ha; subst ha; exact ⟨⟨name, by simp⟩, hcon⟩
            · intro a ha b' hb'; simp at ha; subst ha
              simp at hb'; subst hb'
              rcases hbase with ⟨_, h0⟩ | ⟨m, b, e1, e2, e3, _⟩
              · cases h0
              · cases e2; exact ⟨m, e1, _, dget_mem' e3, rfl⟩
            · intro hr
              rcases hbase with ⟨_, h0⟩ | ⟨m, b, e1, e2, e3, _⟩
              · cases h0
              · cases e2
                obtain ⟨b', h1, h2⟩ := (hr.2 m e1).1 (name, tag) (by rw [hcons]; simp)
                rw [e3] at h2; cases h2
                exact absurd h1 hbh
          · have hok : addErr h base = none := by
              cases base with
              | none => rfl
              | some b =>
                rw [addErr, if_pos]
                exact Classical.byContradiction fun hn => hfail ⟨b, rfl, hn⟩
            rw [hok]
            simp only
            have hb1 : ∀ m, bm = some m → ∀ p ∈ m, p.2 ∈ addedTags (h ++ [⟨tag, content, base⟩]) := by
              intro m hm p hp
              simp only [addedTags, List.map_append, List.mem_append]
              exact Or.inl (hb m hm p hp)
            obtain ⟨h', err, e1, e2, e3, e4, e5, e6, e7, e8⟩ := manifestLoop_spec hfit rest F' hc' hb1
            refine ⟨⟨tag, content, base⟩ :: h', err, by rw [e1]; simp, by simpa using e2, by simpa using e3,
              ?_, ?_, e6, ?_, ?_⟩
            · intro a ha
              rcases List.mem_cons.1 ha with rfl | ha
              · exact ⟨⟨name, by simp⟩, hcon⟩
              · obtain ⟨⟨n, hn⟩, h2⟩ := e4 a ha
                exact ⟨⟨n, by simp [hn]⟩, h2⟩
            · intro a ha b hb'
              rcases List.mem_cons.1 ha with rfl | ha
              · simp at hb'; subst hb'
                rcases hbase with ⟨_, h0⟩ | ⟨m, b, e1, e2, e3, _⟩
                · cases h0
                · cases e2; exact ⟨m, e1, _, dget_mem' e3, rfl⟩
              · exact e5 a ha b hb'
            · rw [e7]
              have hnd := (historyOK F hc).headsNodup
              -- the condition for the rest, seen from before this entry
              constructor
              · intro hr
                refine ⟨?_, ?_⟩
                · intro e he
                  rw [hcons] at he
                  rcases List.mem_cons.1 he with rfl | he
                  · exact ⟨_, hcon⟩
                  · exact hr.1 e he
                · intro m hm
                  rcases hbase with ⟨h0, _⟩ | ⟨m', b, f1, f2, f3, f4⟩
                  · rw [h0] at hm; cases hm
                  rw [hm] at f1; cases f1
                  subst f2
                  have hbh : b ∈ headsOf h := Classical.byContradiction fun hn => hfail ⟨b, rfl, hn⟩
                  obtain ⟨g1, g2⟩ := hr.2 m hm
                  have g1' : ∀ e ∈ newEntries (addedTags (h ++ [⟨tag, content, some b⟩])) rest,
                      ∃ b' ∈ headsOf h, dget m e.1 = some b' ∧ b' ≠ b := by
                    intro e he
                    obtain ⟨b', hb', hd⟩ := g1 e he
                    rw [headsOf_snoc, mem_headsStep hnd] at hb'
                    have hin := hb m hm (e.1, b') (dget_mem' hd)
                    rcases hb' with hb' | ⟨hb', hne'⟩
                    · simp only at hb' hin
                      rw [hb'] at hin; exact absurd hin hk
                    · exact ⟨b', hb', hd, fun h => hne' (by rw [h])⟩
                  rw [hcons]
                  refine ⟨?_, ?_⟩
                  · intro e he
                    rcases List.mem_cons.1 he with rfl | he
                    · exact ⟨b, hbh, f3⟩
                    · obtain ⟨b', h1, h2, _⟩ := g1' e he
                      exact ⟨b', h1, h2⟩
                  · rw [List.map_cons, List.nodup_cons]
                    refine ⟨?_, g2⟩
                    intro hin
                    obtain ⟨e, he, hee⟩ := List.mem_map.1 hin
                    obtain ⟨b', _, h2, h3⟩ := g1' e he
                    rw [f3, h2] at hee
                    cases hee; exact h3 rfl
              · intro hr
                refine ⟨?_, ?_⟩
                · intro e he; exact hr.1 e (by rw [hcons]; simp [he])
                · intro m hm
                  rcases hbase with ⟨h0, _⟩ | ⟨m', b, f1, f2, f3, f4⟩
                  · rw [h0] at hm; cases hm
                  rw [hm] at f1; cases f1
                  subst f2
                  obtain ⟨g1, g2⟩ := hr.2 m hm
                  rw [hcons, List.map_cons, List.nodup_cons] at g2
                  refine ⟨?_, g2.2⟩
                  intro e he
                  obtain ⟨b', h1, h2⟩ := g1 e (by rw [hcons]; simp [he])
                  refine ⟨b', ?_, h2⟩
                  rw [headsOf_snoc, mem_headsStep hnd]
                  refine Or.inr ⟨h1, ?_⟩
                  intro hbb
                  simp only [Option.some.injEq] at hbb
                  exact g2.1 (List.mem_map.2 ⟨e, he, by rw [h2, f3, hbb]⟩)
            · intro he p hp
              rcases List.mem_cons.1 hp with rfl | hp
              · simp [addedTags]
              · have := e8 he p hp
                simpa using this

theorem baseManifest_of {h : List (AddOp PyStr)} (F : FreshHistory h) (hc : ContentsFit h)
    {base : Option PyStr} {bm : Option Manifest} (hb : BaseIs h base bm) :
    baseManifest (memoryTree PyStr) nullTok (storeAfter h) base = .ok bm := by
  cases hb with
  | noBase => rfl
  | unknown hb =>
    simp only [baseManifest, ((C28_membership F hc _).2.1).2 hb]
  | @known a m ha hs hd _ _ =>
    obtain ⟨doc, d1, d2⟩ := doc_roundtrip hs
    rw [hd] at d1; cases d1
    simp only [baseManifest, get_added F hc ha, d2]

/-- Heads that are not used as a base stay heads. -/
theorem head_stays {h : List (AddOp PyStr)} : ∀ {h' : List (AddOp PyStr)}, FreshHistory (h ++ h') →
    ContentsFit (h ++ h') → ∀ {t : PyStr}, t ∈ addedTags h → (∀ a ∈ h', a.base ≠ some t) →
    (t ∈ headsOf (h ++ h') ↔ t ∈ headsOf h) := by
  have key : ∀ (n : Nat) (h' : List (AddOp PyStr)), h'.length = n → FreshHistory (h ++ h') →
      ContentsFit (h ++ h') → ∀ {t : PyStr}, t ∈ addedTags h → (∀ a ∈ h', a.base ≠ some t) →
      (t ∈ headsOf (h ++ h') ↔ t ∈ headsOf h) := by
   intro n
   induction n with
   | zero => intro h' hl _ _ t _ _; rw [List.eq_nil_of_length_eq_zero hl]; simp
   | succ n ih =>
    intro hx' hl F hc t ht
    rcases List.eq_nil_or_concat hx' with rfl | ⟨h', a, rfl⟩
    · simp at hl
    rw [List.concat_eq_append] at hl F hc ⊢
    have hl' : h'.length = n := by simpa using hl
    replace ih := ih h' hl'
    intro hn
    generalize hh : h ++ (h' ++ [a]) = hx at F
    rw [← List.append_assoc] at hh
    cases F with
    | nil => simp at hh
    | @snoc h0 a0 F0 k1 k2 =>
      obtain ⟨rfl, e2⟩ := List.append_inj' hh rfl
      simp at e2; subst e2
      have hc0 : ContentsFit (h ++ h') := by
        rw [← List.append_assoc] at hc; exact hc.left
      rw [headsOf_snoc, mem_headsStep (historyOK F0 hc0).headsNodup]
      rw [ih F0 hc0 ht (fun x hx => hn x (by simp [hx]))]
      have h1 : t ≠ a.tag := by
        intro h; apply k1; rw [← h]
        simp only [addedTags, List.map_append, List.mem_append]; exact Or.inl ht
      simp [h1, hn a (by simp)]
  intro h' F hc t ht hn
  exact key _ h' rfl F hc ht hn

/-- C44.  One call of `add_manifest` with a new tag after any history of the store with fresh
tags.  It succeeds exactly if there are contents for every new tag, every new entry has its own
current head listed in the base manifest under the same name, and the base is a current head;
else it raises `KeyError`.  In both cases the store is the one after further `add` calls for
new tags of the manifest, so nothing stored before is damaged. -/
theorem C44_add_manifest {h : List (AddOp PyStr)} (F : FreshHistory h) (hc : ContentsFit h)
    {tag : PyStr} {manifest : Manifest} {contents : List (PyStr × Bytes)} {base : Option PyStr}
    {bm : Option Manifest} (hb : BaseIs h base bm) (hs : SafeManifest manifest)
    (h1 : tag ∉ addedTags h) (h2 : ∀ p ∈ manifest, p.2 ≠ tag) (h3 : base ≠ some tag)
    (h4 : ∀ b, base = some b → ∀ p ∈ manifest, p.2 ≠ b)
    (hfit : ∀ p ∈ contents, p.2.length < 2 ^ 64)
    (hdoc : ∀ doc, manifestToDoc manifest = .ok doc → doc.length < 2 ^ 64) :
    ∃ h' err, addManifest (memoryTree PyStr) nullTok (storeAfter h) tag manifest contents base =
        (storeAfter (h ++ h'), err) ∧
      FreshHistory (h ++ h') ∧ ContentsFit (h ++ h') ∧
      (err = none ∨ err = some .keyError) ∧
      (err = none ↔ ManifestReady h contents bm manifest ∧ ∀ b, base = some b → b ∈ headsOf h) ∧
      (∀ a ∈ h', ((∃ n, (n, a.tag) ∈ manifest) ∧ dget contents a.tag = some a.content) ∨
        (a.tag = tag ∧ manifestToDoc manifest = .ok a.content ∧
          ∀ p ∈ manifest, p.2 ∈ addedTags (h ++ h'))) ∧
      (err = none → tag ∈ addedTags h' ∧ ∀ p ∈ manifest, p.2 ∈ addedTags (h ++ h')) := by
  have hbt : ∀ m, bm = some m → ∀ p ∈ m, p.2 ∈ addedTags h := by
    intro m hm
    subst hm
    cases hb with
    | known _ _ _ h _ => exact h
  obtain ⟨h', err, e1, e2, e3, e4, e5, e6, e7, e8⟩ := manifestLoop_spec hfit manifest F hc hbt
  unfold addManifest
  rw [baseManifest_of F hc hb]
  simp only [e1]
  cases err with
  | some e =>
    refine ⟨h', some e, rfl, e2, e3, e6, ?_, fun a ha => Or.inl (e4 a ha), by simp⟩
    simp only [reduceCtorEq, false_iff, not_and]
    intro hr
    exact absurd (e7.2 hr) (by simp)
  | none =>
    obtain ⟨doc, d1, d2⟩ := doc_roundtrip hs
    simp only [d1]
    have hnew : tag ∉ addedTags (h ++ h') := by
      simp only [addedTags, List.map_append, List.mem_append, not_or]
      refine ⟨h1, ?_⟩
      intro hin
      obtain ⟨a, ha, hat⟩ := List.mem_map.1 hin
      obtain ⟨⟨n, hn⟩, _⟩ := e4 a ha
      exact h2 _ hn hat
    have hadd := add_step (a := ⟨tag, doc, base⟩) e2 e3 hnew h3 (hdoc doc d1)
    simp only at hadd
    rw [hadd]
    have hheads : ∀ b, base = some b → (b ∈ headsOf (h ++ h') ↔ b ∈ headsOf h) := by
      intro b hbb
      by_cases hbk : b ∈ addedTags h
      · apply head_stays e2 e3 hbk
        intro a ha hab
        obtain ⟨m, hm, p, hp, hpb⟩ := e5 a ha b hab
        subst hm hbb
        cases hb with
        | known _ _ _ _ hapart => exact hapart p hp hpb
      · have n1 : b ∉ headsOf h := fun hin => hbk ((historyOK F hc).headsAdded hin)
        have n2 : b ∉ headsOf (h ++ h') := by
          intro hin
          have := (historyOK e2 e3).headsAdded hin
          simp only [addedTags, List.map_append, List.mem_append] at this
          rcases this with this | this
          · exact hbk this
          · obtain ⟨a, ha, hat⟩ := List.mem_map.1 this
            obtain ⟨⟨n, hn⟩, _⟩ := e4 a ha
            exact h4 b hbb _ hn hat
        simp [n1, n2]
    refine ⟨h' ++ [⟨tag, doc, base⟩], _, by rw [← List.append_assoc], ?_, ?_, ?_, ?_, ?_, ?_⟩
    · rw [← List.append_assoc]; exact .snoc e2 hnew h3
    · rw [← List.append_assoc]; exact e3.snoc (hdoc doc d1)
    · cases base with
      | none => exact Or.inl rfl
      | some b => simp only [addErr]; split <;> simp
    · have hr := e7.1 rfl
      cases base with
      | none => simp [hr, addErr]
      | some b =>
        simp only [addErr, hheads b rfl]
        constructor
        · intro hx
          refine ⟨hr, ?_⟩
          intro b' hb'; cases hb'
          exact Classical.byContradiction fun hn => by rw [if_neg hn] at hx; cases hx
        · intro hx; rw [if_pos (hx.2 b rfl)]
    · intro a ha
      rcases List.mem_append.1 ha with ha | ha
      · exact Or.inl (e4 a ha)
      · simp at ha; subst ha
        refine Or.inr ⟨rfl, rfl, ?_⟩
        intro p hp
        have := e8 rfl p hp
        simp only [addedTags, List.map_append, List.mem_append] at this ⊢
        rcases this with this | this
        · exact Or.inl this
        · exact Or.inr (Or.inl this)
    · intro _
      refine ⟨by simp [addedTags], ?_⟩
      intro p hp
      have := e8 rfl p hp
      simp only [addedTags, List.map_append, List.mem_append] at this ⊢
      rcases this with this | this
      · exact Or.inl this
      · exact Or.inr (Or.inl this)

/-- C44.  A new entry whose name is absent from the base manifest makes the call fail. -/
theorem C44_new_name_fails {h : List (AddOp PyStr)} (F : FreshHistory h) (hc : ContentsFit h)
    {tag : PyStr} {manifest : Manifest} {contents : List (PyStr × Bytes)} {base : Option PyStr}
    {m : Manifest} (hb : BaseIs h base (some m)) (hs : SafeManifest manifest)
    (h1 : tag ∉ addedTags h) (h2 : ∀ p ∈ manifest, p.2 ≠ tag) (h3 : base ≠ some tag)
    (h4 : ∀ b, base = some b → ∀ p ∈ manifest, p.2 ≠ b)
    (hfit : ∀ p ∈ contents, p.2.length < 2 ^ 64)
    (hdoc : ∀ doc, manifestToDoc manifest = .ok doc → doc.length < 2 ^ 64)
    {e : PyStr × PyStr} (he : e ∈ newEntries (addedTags h) manifest) (hn : e.1 ∉ m.map Prod.fst) :
    (addManifest (memoryTree PyStr) nullTok (storeAfter h) tag manifest contents base).2 =
      some .keyError := by
  obtain ⟨h', err, e1, _, _, e2, e3, _⟩ := C44_add_manifest F hc hb hs h1 h2 h3 h4 hfit hdoc
  rw [e1]
  rcases e2 with e2 | e2
  · obtain ⟨b, _, hd⟩ := ((e3.1 e2).1.2 m rfl).1 e he
    exact absurd (List.mem_map.2 ⟨_, mem_of_dget hd, rfl⟩) hn
  · exact e2

/-- What is known about the store after some calls of a sequence of `add_manifest` calls. -/
structure ManifestInv (all done : List ManifestOp) (errs : List (Option PyErr)) (h : List (AddOp PyStr)) :
    Prop where
  fresh : FreshHistory h
  fit : ContentsFit h
  stored : ∀ a ∈ h,
    (∃ op ∈ all, (∃ n, (n, a.tag) ∈ op.manifest) ∧ dget op.contents a.tag = some a.content) ∨
    ∃ op ∈ done, a.tag = op.tag ∧ manifestToDoc op.manifest = .ok a.content ∧
      ∀ p ∈ op.manifest, p.2 ∈ addedTags h
  succeeded : ∀ (i : Nat) op, done[i]? = some op → errs[i]? = some none →
    ∃ a ∈ h, a.tag = op.tag ∧ manifestToDoc op.manifest = .ok a.content ∧
      ∀ p ∈ op.manifest, p.2 ∈ addedTags h
  len : errs.length = done.length
  errors : ∀ e ∈ errs, e = none ∨ e = some .keyError

theorem ManifestInv.ready {all done rest : List ManifestOp} {op : ManifestOp} (G : ManifestHistory all)
    (hall : all = done ++ op :: rest) {errs : List (Option PyErr)} {h : List (AddOp PyStr)}
    (I : ManifestInv all done errs h) : op.tag ∉ addedTags h ∧ ∃ bm, BaseIs h op.base bm := by
  have hop : op ∈ all := by rw [hall]; simp
  have hdone : ∀ {o}, o ∈ done → o ∈ all := by intro o ho; rw [hall]; simp [ho]
  have hnew : op.tag ∉ addedTags h := by
    intro hin
    obtain ⟨a, ha, hat⟩ := List.mem_map.1 hin
    rcases I.stored a ha with ⟨o, ho, ⟨n, hn⟩, _⟩ | ⟨o, ho, h1, _⟩
    · exact G.apart op hop o ho _ hn hat
    · have := G.tags
      rw [hall, List.map_append, List.nodup_append] at this
      exact this.2.2 o.tag (List.mem_map.2 ⟨o, ho, rfl⟩) op.tag (by simp) (by rw [← h1, hat])
  refine ⟨hnew, ?_⟩
  cases hb : op.base with
  | none => exact ⟨none, .noBase⟩
  | some b =>
    by_cases hbk : b ∈ addedTags h
    · obtain ⟨a, ha, hat⟩ := List.mem_map.1 hbk
      rcases I.stored a ha with ⟨o, ho, ⟨n, hn⟩, _⟩ | ⟨o, ho, h1, h2, h3⟩
      · exact absurd hat ((G.bases op hop b hb).2 o ho _ hn)
      · rw [← hat]
        refine ⟨some o.manifest, .known ha (G.safe o (hdone ho)) h2 h3 ?_⟩
        intro p hp
        rw [h1]
        exact G.apart o (hdone ho) o (hdone ho) p hp
    · exact ⟨none, .unknown hbk⟩

theorem ManifestInv.step {all done rest : List ManifestOp} {op : ManifestOp} (G : ManifestHistory all)
    (hall : all = done ++ op :: rest) {errs : List (Option PyErr)} {h : List (AddOp PyStr)}
    (I : ManifestInv all done errs h) :
    ∃ h' err, addManifest (memoryTree PyStr) nullTok (storeAfter h) op.tag op.manifest op.contents op.base =
        (storeAfter (h ++ h'), err) ∧ ManifestInv all (done ++ [op]) (errs ++ [err]) (h ++ h') := by
  have hop : op ∈ all := by rw [hall]; simp
  have hmono : ∀ (h' : List (AddOp PyStr)) {t}, t ∈ addedTags h → t ∈ addedTags (h ++ h') := by
    intro h' t ht; simp only [addedTags, List.map_append, List.mem_append]; exact Or.inl ht
  obtain ⟨hnew, bm, hbm⟩ := I.ready G hall
  obtain ⟨h', err, e1, e2, e3, e4, e5, e6, e7⟩ := C44_add_manifest I.fresh I.fit (tag := op.tag)
    (contents := op.contents) hbm (G.safe op hop) hnew (G.apart op hop op hop)
    (fun hb => (G.bases op hop op.tag hb).1 rfl)
    (fun b hb => (G.bases op hop b hb).2 op hop) (G.fits op hop).1 (G.fits op hop).2
  refine ⟨h', err, e1, ⟨e2, e3, ?_, ?_, by simp [I.len], ?_⟩⟩
  · intro a ha
    rcases List.mem_append.1 ha with ha | ha
    · rcases I.stored a ha with hx | ⟨o, ho, h1, h2, h3⟩
      · exact Or.inl hx
      · exact Or.inr ⟨o, by simp [ho], h1, h2, fun p hp => hmono h' (h3 p hp)⟩
    · rcases e6 a ha with hx | ⟨h1, h2, h3⟩
      · exact Or.inl ⟨op, hop, hx⟩
      · exact Or.inr ⟨op, by simp, h1, h2, h3⟩
  · intro i o ho he
    by_cases hi : i < done.length
    · rw [List.getElem?_append_left hi] at ho
      rw [List.getElem?_append_left (by rw [I.len]; exact hi)] at he
      obtain ⟨a, ha, h1, h2, h3⟩ := I.succeeded i o ho he
      exact ⟨a, by simp [ha], h1, h2, fun p hp => hmono h' (h3 p hp)⟩
    · rw [List.getElem?_append_right (by omega)] at ho
      rw [List.getElem?_append_right (by rw [I.len]; omega), I.len] at he
      rcases hj : i - done.length with _ | j
      · rw [hj] at ho he
        simp only [List.getElem?_cons_zero, Option.some.injEq] at ho he
        subst ho he
        obtain ⟨h1, h2⟩ := e7 rfl
        obtain ⟨a, ha, hat⟩ := List.mem_map.1 h1
        rcases e6 a ha with ⟨⟨n, hn⟩, _⟩ | ⟨_, h3, _⟩
        · exact absurd hat (G.apart op hop op hop _ hn)
        · exact ⟨a, by simp [ha], hat, h3, h2⟩
      · rw [hj] at ho; simp at ho
  · intro e he
    rcases List.mem_append.1 he with he | he
    · exact I.errors e he
    · simp at he; subst he; exact e4

theorem manifestInv_run {all : List ManifestOp} (G : ManifestHistory all) :
    ∀ (rest done : List ManifestOp) {errs : List (Option PyErr)} {h : List (AddOp PyStr)},
      all = done ++ rest → ManifestInv all done errs h →
      ∃ h', (runManifests (memoryTree PyStr) nullTok (storeAfter h) rest).1 = storeAfter h' ∧
        ManifestInv all all (errs ++ (runManifests (memoryTree PyStr) nullTok (storeAfter h) rest).2) h'
  | [], done, errs, h, hall, I => by
    simp only [List.append_nil] at hall
    subst hall
    exact ⟨h, rfl, by simpa [runManifests] using I⟩
  | op :: rest, done, errs, h, hall, I => by
    obtain ⟨h', err, e1, I'⟩ := I.step G hall
    obtain ⟨h'', f1, f2⟩ := manifestInv_run G rest (done ++ [op]) (by simp [hall]) I'
    refine ⟨h'', ?_, ?_⟩
    · simp only [runManifests, e1, f1]
    · simpa only [runManifests, e1, List.append_assoc, List.cons_append, List.nil_append] using f2

/-- C44.  After any sequence of `add_manifest` calls (failing ones included): every manifest whose
call succeeded is returned exactly, every tag it lists is retrieved with its contents, and the
only exception that occurs is `KeyError`.  `C` are the contents of the files. -/
theorem C44_manifests {ops : List ManifestOp} (G : ManifestHistory ops) (C : PyStr → Option Bytes)
    (hC : ∀ op ∈ ops, ∀ t c, dget op.contents t = some c → C t = some c) :
    let r := runManifests (memoryTree PyStr) nullTok (emptyVersions PyStr) ops
    r.2.length = ops.length ∧ (∀ e ∈ r.2, e = none ∨ e = some .keyError) ∧
    ∀ (i : Nat) op, ops[i]? = some op → r.2[i]? = some none →
      getManifest (memoryTree PyStr) nullTok r.1 op.tag = .ok op.manifest ∧
      ∀ p ∈ op.manifest, ∃ c, C p.2 = some c ∧
        versionsGet (memoryTree PyStr) nullTok r.1 p.2 = .ok (some c) := by
  have I0 : ManifestInv ops [] [] [] := ⟨.nil, by simp [ContentsFit], by simp, by simp, rfl, by simp⟩
  obtain ⟨h, e1, I⟩ := manifestInv_run G ops [] (by simp) I0
  have e0 : storeAfter ([] : List (AddOp PyStr)) = emptyVersions PyStr := rfl
  rw [e0] at e1 I
  dsimp only
  refine ⟨by simpa using I.len, by simpa using I.errors, ?_⟩
  intro i op hi he
  rw [e1]
  obtain ⟨a, ha, h1, h2, h3⟩ := I.succeeded i op hi (by simpa using he)
  have hop := List.mem_of_getElem? hi
  constructor
  · unfold getManifest
    rw [← h1, get_added I.fresh I.fit ha]
    obtain ⟨doc, d1, d2⟩ := doc_roundtrip (G.safe op hop)
    rw [h2] at d1; cases d1
    exact d2
  · intro p hp
    obtain ⟨b, hb, hbt⟩ := List.mem_map.1 (h3 p hp)
    rw [← hbt, get_added I.fresh I.fit hb]
    rcases I.stored b hb with ⟨o, ho, _, hd⟩ | ⟨o, ho, k1, _⟩
    · exact ⟨b.content, hC o ho _ _ hd, rfl⟩
    · exact absurd (by rw [← hbt, k1]) (G.apart o ho op hop p hp)

/-- C44.  `get_manifest` of a tag that was never added raises `AttributeError`. -/
theorem C44_unknown_manifest {h : List (AddOp PyStr)} (F : FreshHistory h) (hc : ContentsFit h)
    {t : PyStr} (ht : t ∉ addedTags h) :
    getManifest (memoryTree PyStr) nullTok (storeAfter h) t = .error .attributeError := by
  unfold getManifest
  rw [((C28_membership F hc t).2.1).2 ht]

/-- Names and tags used in the examples. -/
def sampleContents : List (PyStr × Bytes) :=
  [([100], [97]), ([101], [97, 98]), ([102], [120]), ([103], [120, 121]), ([104], [122])]

/-- A sequence of calls used in the examples: `m0` with two files, `m1` in which the first file
changes. -/
def sampleOps : List ManifestOp :=
  [⟨[109, 48], [([1], [100]), ([2], [102])], sampleContents, none⟩,
   ⟨[109, 49], [([1], [101]), ([2], [102])], sampleContents, some [109, 48]⟩]

theorem sampleOps_good : ManifestHistory sampleOps := by
  refine ⟨by decide, by decide, ?_, ?_, ?_⟩
  · intro op hop b hb
    simp only [sampleOps, List.mem_cons, List.not_mem_nil, or_false] at hop
    rcases hop with rfl | rfl
    · cases hb
    · cases hb; decide
  · intro op hop
    simp only [sampleOps, List.mem_cons, List.not_mem_nil, or_false] at hop
    rcases hop with rfl | rfl <;> exact ⟨by decide, by decide⟩
  · intro op hop
    have key : ∀ {m : Manifest}, (∃ b, manifestToDoc m = .ok b ∧ b.length < 2 ^ 64) →
        ∀ doc, manifestToDoc m = .ok doc → doc.length < 2 ^ 64 := by
      rintro m ⟨b, hb, hl⟩ doc hd
      rw [hb] at hd; cases hd; exact hl
    simp only [sampleOps, List.mem_cons, List.not_mem_nil, or_false] at hop
    rcases hop with rfl | rfl <;> exact ⟨by decide, key ⟨_, rfl, by decide +kernel⟩⟩

example : (runManifests (memoryTree PyStr) nullTok (emptyVersions PyStr) sampleOps).2 = [none, none] := by
  decide +kernel
example : getManifest (memoryTree PyStr) nullTok
    (runManifests (memoryTree PyStr) nullTok (emptyVersions PyStr) sampleOps).1 [109, 48] =
    .ok [([1], [100]), ([2], [102])] := by decide +kernel

/-- C44.  Three ordinary uses that fail: a file is added later; a file goes back to an earlier
version and is then changed; two files with the same tag diverge. -/
theorem C44_ordinary_failures :
    (runManifests (memoryTree PyStr) nullTok (emptyVersions PyStr)
      [⟨[109, 48], [([1], [100])], sampleContents, none⟩,
       ⟨[109, 49], [([1], [100]), ([2], [102])], sampleContents, some [109, 48]⟩]).2 =
      [none, some .keyError] ∧
    (runManifests (memoryTree PyStr) nullTok (emptyVersions PyStr)
      [⟨[109, 48], [([1], [100])], sampleContents, none⟩,
       ⟨[109, 49], [([1], [101])], sampleContents, some [109, 48]⟩,
       ⟨[109, 50], [([1], [100])], sampleContents, some [109, 49]⟩,
       ⟨[109, 51], [([1], [104])], sampleContents, some [109, 50]⟩]).2 =
      [none, none, none, some .keyError] ∧
    (runManifests (memoryTree PyStr) nullTok (emptyVersions PyStr)
      [⟨[109, 48], [([1], [100]), ([2], [100])], sampleContents, none⟩,
       ⟨[109, 49], [([1], [101]), ([2], [104])], sampleContents, some [109, 48]⟩]).2 =
      [none, some .keyError] := by
  refine ⟨by decide +kernel, by decide +kernel, by decide +kernel⟩

end Gaspra
