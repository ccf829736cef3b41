import Verif.Proofs.Json

/-!
# C85: which documents are manifests
-/

namespace Gaspra

/-- C85.  `doc_to_manifest` returns a manifest exactly for the UTF-8 texts that the JSON grammar derives
as an object with string values, and returns the dictionary of its members. -/
theorem C85_documents (b : Bytes) (m : Manifest) : docToManifest b = .ok m ↔
    ∃ t ps, utf8Decode b = some t ∧ JsonDoc t ps ∧
      m = ps.foldl (fun d p => dset d p.1 p.2) [] := by
  unfold docToManifest
  cases hd : utf8Decode b with
  | none => simp
  | some t =>
    simp only [Option.some.injEq]
    constructor
    · intro h
      split at h
      · cases h
      · rename_i m' hm; cases h
        obtain ⟨ps, h1, h2⟩ := loads_sound hm
        exact ⟨t, ps, rfl, h1, h2⟩
    · rintro ⟨_, ps, rfl, h, rfl⟩
      rw [loads_complete h]; rfl

/-- C85.  Of members with the same name the last one counts. -/
theorem C85_last_counts (ps : List (PyStr × PyStr)) (k : PyStr) :
    dget (ps.foldl (fun d p => dset d p.1 p.2) []) k =
      ((ps.reverse.find? (fun p => p.1 = k)).map Prod.snd) := by
  suffices ∀ (ps : List (PyStr × PyStr)) (d : Manifest),
      dget (ps.foldl (fun d p => dset d p.1 p.2) d) k =
        ((ps.reverse.find? (fun p => p.1 = k)).map Prod.snd).or (dget d k) from by
    rw [this]; cases (ps.reverse.find? (fun p => p.1 = k)).map Prod.snd <;> rfl
  intro ps
  induction ps with
  | nil => intro d; rfl
  | cons p ps ih =>
    intro d
    rw [List.foldl_cons, ih, List.reverse_cons, List.find?_append, dget_dset]
    cases ps.reverse.find? (fun p => p.1 = k) with
    | some q => rfl
    | none =>
      by_cases h : p.1 = k
      · simp [h]
      · simp [h]

/-- C85.  White space between the parts, the choice of escapes and the case of hexadecimal digits do not
matter: documents with the same members give the same manifest. -/
theorem C85_layout {b b' : Bytes} {t t' : PyStr} {ps : List (PyStr × PyStr)}
    (hb : utf8Decode b = some t) (hb' : utf8Decode b' = some t') (h : JsonDoc t ps)
    (h' : JsonDoc t' ps) : ∃ m, docToManifest b = .ok m ∧ docToManifest b' = .ok m :=
  ⟨_, (C85_documents b _).2 ⟨t, ps, hb, h, rfl⟩, (C85_documents b' _).2 ⟨t', ps, hb', h', rfl⟩⟩

-- `{ "a" :\r"\uD83D\uDE00", "\u00e9":"", "a" : "\/" }`
def sampleDoc : Bytes := "{ \"a\" :\r\"\\uD83D\\uDE00\",\t\"\\u00e9\":\"\", \"a\" : \"\\/\" }\n".toUTF8.toList
example : docToManifest sampleDoc = .ok [([97], [47]), ([233], [])] := by decide +kernel
example : docToManifest "{\"a\":\"b\",}".toUTF8.toList = .error .valueError := by decide +kernel
example : docToManifest "{\"a\":\"\\x41\"}".toUTF8.toList = .error .valueError := by decide +kernel
-- The hypothesis of `C85_layout` is met by a document with white space and an escape.
example : JsonDoc [123, 32, 34, 92, 117, 48, 48, 52, 97, 34, 58, 13, 34, 34, 125]
    [([74], [])] :=
  .members (w1 := []) (w2 := [32]) (w3 := []) (by simp [JsonBlank]) (by simp [JsonBlank]) (by simp [JsonBlank])
    (.one (.mk (kt := [92, 117, 48, 48, 52, 97]) (vt := []) (w1 := []) (w2 := [13]) (w3 := [])
      (.unit (e := [92, 117, 48, 48, 52, 97]) (t := [])
        ⟨48, 48, 52, 97, 0, 0, 4, 10, rfl, by simp [JsonHex], by simp [JsonHex], by simp [JsonHex],
          by simp [JsonHex], rfl⟩ (by simp [JsonHigh]) .nil)
      .nil (by simp [JsonBlank]) (by simp [JsonBlank]) (by simp [JsonBlank])))

end Gaspra
