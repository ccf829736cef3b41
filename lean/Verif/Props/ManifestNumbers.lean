import Verif.Proofs.ManifestNumbers
import Verif.Props.Versions
import Verif.Props.Lines

set_option linter.unusedVariables false

/-!
# C106: manifests whose names or tags are numbers
-/

namespace Gaspra

theorem C106_numbers (n : Nat) : decimal n = cps (toString n) := decimal_eq_toString n

/-- C106. Reading the document of a manifest back: the names are texts, numbers among them in decimal
notation, and of several names with the same spelling the last one counts; the tags are unchanged. -/
theorem C106_doc {m : NManifest} (h : SafeN m) :
    ∃ doc r, manifestToDocN m = .ok doc ∧ docToManifestN doc = .ok r ∧
      (∀ n, dget r (.int n) = none) ∧ ∀ s t, dget r (.str s) = some t ↔ LastSpelled m s t := by
  obtain ⟨doc, h1, h2⟩ := docN_roundtrip h
  exact ⟨doc, _, h1, h2, fun n => readBack_int m rfl, fun s t => lastSpelled_iff⟩

/-- C106. With names that are texts the manifest is read back exactly, whether the tags are texts or
numbers. -/
theorem C106_tags {m : NManifest} (h : SafeN m) (hn : (m.map Prod.fst).Nodup)
    (hs : ∀ e ∈ m, ∃ s, e.1 = .str s) :
    ∃ doc, manifestToDocN m = .ok doc ∧ docToManifestN doc = .ok m := by
  obtain ⟨doc, h1, h2⟩ := docN_roundtrip h
  rw [readBack_strs m hs (by simpa using hn)] at h2
  exact ⟨doc, h1, by simpa using h2⟩

theorem get_fresh {h : List (AddOp NTag)} (F : FreshHistory h) (hc : ContentsFit h) {a : AddOp NTag}
    (ha : a ∈ h) : versionsGet (memoryTree NTag) nullTok (storeAfter h) a.tag = .ok (some a.content) := by
  have H := historyOK F hc
  obtain ⟨nd, hnd⟩ := H.dget_some.2 (List.mem_map.2 ⟨a, ha, rfl⟩)
  rw [H.store.get_ok hnd, contentOf_mem F.nodup ha]

/-- C106. After any additions to a store, `get_manifest` returns what `C106_doc` describes. -/
theorem C106_get {h : List (AddOp NTag)} (F : FreshHistory h) (hc : ContentsFit h) {a : AddOp NTag}
    (ha : a ∈ h) {m : NManifest} (hm : SafeN m) (hd : manifestToDocN m = .ok a.content) :
    ∃ r, getManifestN (memoryTree NTag) nullTok (storeAfter h) a.tag = .ok r ∧
      (∀ n, dget r (.int n) = none) ∧ ∀ s t, dget r (.str s) = some t ↔ LastSpelled m s t := by
  obtain ⟨doc, r, h1, h2, h3⟩ := C106_doc hm
  rw [hd] at h1
  cases h1
  refine ⟨r, ?_, h3⟩
  rw [getManifestN, get_fresh F hc ha]
  exact h2

/-- C106. So a manifest with a number as name is never returned as it was added. -/
theorem C106_never {h : List (AddOp NTag)} (F : FreshHistory h) (hc : ContentsFit h) {a : AddOp NTag}
    (ha : a ∈ h) {m : NManifest} (hm : SafeN m) (hd : manifestToDocN m = .ok a.content) {n : Int}
    {t : NTag} (hn : (.int n, t) ∈ m) :
    getManifestN (memoryTree NTag) nullTok (storeAfter h) a.tag ≠ .ok m := by
  obtain ⟨r, h1, h2, _⟩ := C106_get F hc ha hm hd
  rw [h1]
  rintro ⟨⟩
  have k := h2 n
  have : ∀ {d : NManifest}, (NTag.int n, t) ∈ d → dget d (.int n) ≠ none := by
    intro d
    induction d with
    | nil => simp
    | cons p d ih =>
      obtain ⟨k', v⟩ := p
      intro hp
      by_cases e : k' = .int n
      · simp [dget, e]
      · rcases List.mem_cons.1 hp with hp | hp
        · cases hp; exact absurd rfl e
        · simp only [dget, if_neg e]
          exact ih hp
  exact this hn k

theorem manifestLoopN_known {contents : List (NTag × Bytes)} {bm : Option NManifest}
    {v : Versions NTag (MTree NTag)} {rest : NManifest} : ∀ {before : NManifest},
    (∀ e ∈ before, versionsContains (memoryTree NTag) v e.2 = true) →
    manifestLoopN (memoryTree NTag) nullTok contents bm v (before ++ rest) =
      manifestLoopN (memoryTree NTag) nullTok contents bm v rest
  | [], _ => rfl
  | (n, t) :: before, h => by
    have ht := h (n, t) (by simp)
    simp only at ht
    simp only [List.cons_append, manifestLoopN, ht, if_true]
    exact manifestLoopN_known fun e he => h e (by simp [he])

/-- C106. A manifest on top of another one: the first new version whose name is a number makes
`add_manifest` raise `KeyError`, even if the base manifest has the same name. Nothing is added. -/
theorem C106_update_fails {h : List (AddOp NTag)} (F : FreshHistory h) (hc : ContentsFit h)
    {a : AddOp NTag} (ha : a ∈ h) {base : NManifest} (hb : SafeN base)
    (hd : manifestToDocN base = .ok a.content) (tag : NTag) {before after : NManifest} {n : Int}
    {t : NTag} {contents : List (NTag × Bytes)} (hk : ∀ e ∈ before, e.2 ∈ addedTags h)
    (ht : t ∉ addedTags h) :
    addManifestN (memoryTree NTag) nullTok (storeAfter h) tag (before ++ (.int n, t) :: after) contents
      (some a.tag) = (storeAfter h, some .keyError) := by
  have C := fun x => (C28_membership F hc x).1
  obtain ⟨doc, r, h1, h2, h3, _⟩ := C106_doc hb
  rw [hd] at h1
  cases h1
  have e1 : baseManifestN (memoryTree NTag) nullTok (storeAfter h) (some a.tag) = .ok (some r) := by
    simp only [baseManifestN, get_fresh F hc ha, h2]
  have e2 : versionsContains (memoryTree NTag) (storeAfter h) t = false := by
    cases e : versionsContains (memoryTree NTag) (storeAfter h) t with
    | false => rfl
    | true => exact absurd ((C t).1 e) ht
  have e3 : manifestLoopN (memoryTree NTag) nullTok contents (some r) (storeAfter h)
      (before ++ (.int n, t) :: after) = (storeAfter h, some .keyError) := by
    rw [manifestLoopN_known fun e he => (C e.2).2 (hk e he)]
    simp only [manifestLoopN, e2, baseEntryN, h3 n]
    cases dget contents t <;> rfl
  rw [addManifestN, e1]
  simp only [e3]

/-! ### Examples -/

-- A number as name and a number as tag.
example : manifestToDocN [(.int (-12), .str (cps "x")), (.str (cps "a"), .int 305)] =
    .ok ((utf8Encode (cps "{\"-12\":\"x\",\n\"a\":305}")).getD []) := by decide +kernel
example : docToManifestN ((utf8Encode (cps "{\"-12\" : \"x\", \"a\":305, \"1\": -7, \"1\": 0}")).getD []) =
    .ok [(.str (cps "-12"), .str (cps "x")), (.str (cps "a"), .int 305), (.str (cps "1"), .int 0)] := by
  decide +kernel
example : docToManifestN ((utf8Encode (cps "{\"a\":01}")).getD []) = .error .valueError := by decide +kernel

/-- A store with the manifest `{1: 10}`, and the attempt to update it to `{1: 11}`. -/
def numbersStore : Versions NTag (MTree NTag) × Option PyErr :=
  addManifestN (memoryTree NTag) nullTok (emptyVersions NTag) (.str (cps "m0")) [(.int 1, .int 10)]
    [(.int 10, [97]), (.int 11, [98])] none

example : numbersStore.2 = none ∧
    getManifestN (memoryTree NTag) nullTok numbersStore.1 (.str (cps "m0")) =
      .ok [(.str (cps "1"), .int 10)] ∧
    (addManifestN (memoryTree NTag) nullTok numbersStore.1 (.str (cps "m1")) [(.int 1, .int 11)]
      [(.int 10, [97]), (.int 11, [98])] (some (.str (cps "m0")))).2 = some .keyError ∧
    (addManifestN (memoryTree NTag) nullTok numbersStore.1 (.str (cps "m1")) [(.str (cps "1"), .int 11)]
      [(.int 10, [97]), (.int 11, [98])] (some (.str (cps "m0")))).2 = none := by decide +kernel

end Gaspra
