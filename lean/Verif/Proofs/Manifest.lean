import Verif.Spec.Manifest
import Verif.Proofs.Utf8
import Verif.Proofs.Dict

set_option linter.unusedSectionVars false
set_option linter.unusedSimpArgs false
set_option linter.unusedVariables false

/-!
# Lemmas on manifests: the JSON document
-/

namespace Gaspra

theorem hexVal_hexDigit {n : Nat} (h : n < 16) : hexVal (hexDigit n) = some n := by
  unfold hexVal hexDigit
  split
  · rw [if_pos (by omega)]; simp
  · rw [if_neg (by omega), if_pos (by omega)]; congr 1; omega

theorem hex4_hexDigit {n : Nat} (h : n < 65536) :
    hex4 (hexDigit (n / 4096 % 16)) (hexDigit (n / 256 % 16)) (hexDigit (n / 16 % 16)) (hexDigit (n % 16)) = some n := by
  unfold hex4
  rw [hexVal_hexDigit (by omega), hexVal_hexDigit (by omega), hexVal_hexDigit (by omega),
    hexVal_hexDigit (by omega)]
  simp only
  congr 1; omega

theorem scanString_quote (rest : PyStr) : scanString (34 :: rest) = some ([], rest) := by
  rw [scanString]

theorem scanString_plain {c : Nat} {rest : PyStr} (h1 : 32 ≤ c) (h2 : c ≠ 34) (h3 : c ≠ 92) :
    scanString (c :: rest) = scanCons c (scanString rest) := by
  rw [scanString.eq_def]
  split <;> simp_all
  all_goals omega

theorem scanString_named {c d : Nat} {rest : PyStr} (h : jsonBackslash c = some d) :
    scanString (92 :: c :: rest) = scanCons d (scanString rest) := by
  have hc : c ≠ 117 := by rintro rfl; simp [jsonBackslash] at h
  rw [scanString]
  · rw [h]
  · intro a b x y a' b' c' d' r e; exact absurd e hc
  · intro a b x y r e; exact absurd e hc

theorem scanString_pair {u u' : Nat} {rest : PyStr} (hu : u < 65536) (hu' : u' < 65536)
    (h1 : isHigh u = true) (h2 : isLow u' = true) :
    scanString (jsonU u ++ jsonU u' ++ rest) =
      scanCons (0x10000 + ((u - 0xD800) * 1024 + (u' - 0xDC00))) (scanString rest) := by
  simp only [jsonU, List.cons_append, List.nil_append]
  rw [scanString, hex4_hexDigit hu, hex4_hexDigit hu']
  simp [h1, h2]

/-- The escape of a single code unit is read back unless it could be the first of a pair. -/
theorem scanString_unit {u : Nat} {rest : PyStr} (hu : u < 65536)
    (h : isHigh u = true → ∀ {a b c d r}, rest = 92 :: 117 :: a :: b :: c :: d :: r →
      ∃ u', hex4 a b c d = some u' ∧ isLow u' = false) :
    scanString (jsonU u ++ rest) = scanCons u (scanString rest) := by
  simp only [jsonU, List.cons_append, List.nil_append]
  by_cases hr : ∃ a b c d r, rest = 92 :: 117 :: a :: b :: c :: d :: r
  · obtain ⟨a, b, c, d, r, rfl⟩ := hr
    rw [scanString, hex4_hexDigit hu]
    by_cases hh : isHigh u = true
    · obtain ⟨u', e1, e2⟩ := h hh rfl
      simp [hh, e1, e2]
    · simp [hh]
  · have hr' : ∀ a b c d r, rest ≠ 92 :: 117 :: a :: b :: c :: d :: r :=
      fun a b c d r e => hr ⟨a, b, c, d, r, e⟩
    rw [scanString, hex4_hexDigit hu]
    exact hr'

theorem JsonSafe.head {c : Nat} {s : PyStr} (h : JsonSafe (c :: s)) : c < 0x110000 := by
  cases s with
  | nil => exact h
  | cons d s => exact h.1

theorem JsonSafe.tail {c : Nat} {s : PyStr} (h : JsonSafe (c :: s)) : JsonSafe s := by
  cases s with
  | nil => trivial
  | cons d s => exact h.2.2

theorem jsonU_cons (u : Nat) (rest : PyStr) : jsonU u ++ rest =
    92 :: 117 :: hexDigit (u / 4096 % 16) :: hexDigit (u / 256 % 16) :: hexDigit (u / 16 % 16) ::
      hexDigit (u % 16) :: rest := rfl

/-- If the text after an escaped high surrogate starts with an escape, it is no low surrogate. -/
theorem escape_not_low {c : Nat} {s : PyStr} {rest : PyStr} (h : JsonSafe (c :: s)) (hc : isHigh c = true)
    {x y z w : Nat} {r : PyStr}
    (e : s.flatMap jsonEscape ++ 34 :: rest = 92 :: 117 :: x :: y :: z :: w :: r) :
    ∃ u', hex4 x y z w = some u' ∧ isLow u' = false := by
  simp only [isHigh, Bool.and_eq_true, decide_eq_true_eq] at hc
  cases s with
  | nil => simp at e
  | cons d s =>
    have hd : ¬ (0xDC00 ≤ d ∧ d < 0xE000) := by
      have := h.2.1; omega
    have hd' := h.tail.head
    simp only [List.flatMap_cons, List.append_assoc] at e
    by_cases n1 : d = 92 ∨ d = 34 ∨ d = 8 ∨ d = 12 ∨ d = 10 ∨ d = 13 ∨ d = 9
    · rcases n1 with rfl | rfl | rfl | rfl | rfl | rfl | rfl <;> simp [jsonEscape] at e
    · have n2 : ∀ k, (k = 92 ∨ k = 34 ∨ k = 8 ∨ k = 12 ∨ k = 10 ∨ k = 13 ∨ k = 9) → d ≠ k := by
        intro k hk h; subst h; exact n1 hk
      by_cases hp : 32 ≤ d ∧ d ≤ 126
      · have hd92 := n2 92 (by simp)
        rw [jsonEscape, if_neg (n2 _ (by simp)), if_neg (n2 _ (by simp)), if_neg (n2 _ (by simp)),
          if_neg (n2 _ (by simp)), if_neg (n2 _ (by simp)), if_neg (n2 _ (by simp)),
          if_neg (n2 _ (by simp)), if_pos hp] at e
        simp only [List.cons_append, List.cons.injEq] at e
        exact absurd e.1 hd92
      · rw [jsonEscape, if_neg (n2 _ (by simp)), if_neg (n2 _ (by simp)), if_neg (n2 _ (by simp)),
          if_neg (n2 _ (by simp)), if_neg (n2 _ (by simp)), if_neg (n2 _ (by simp)),
          if_neg (n2 _ (by simp)), if_neg hp] at e
        by_cases hs : d < 0x10000
        · rw [if_pos hs, jsonU_cons] at e
          simp only [List.cons.injEq, true_and] at e
          obtain ⟨rfl, rfl, rfl, rfl, -⟩ := e
          exact ⟨d, hex4_hexDigit hs, by simp [isLow]; omega⟩
        · rw [if_neg hs, List.append_assoc, jsonU_cons] at e
          simp only [List.cons.injEq, true_and] at e
          obtain ⟨rfl, rfl, rfl, rfl, -⟩ := e
          refine ⟨_, hex4_hexDigit (n := 0xD800 + (d - 0x10000) / 1024) (by omega), ?_⟩
          simp [isLow]; omega

/-- Scanning the escaped form of a string gives the string. -/
theorem scanString_escape : ∀ (s : PyStr) (rest : PyStr), JsonSafe s →
    scanString (s.flatMap jsonEscape ++ 34 :: rest) = some (s, rest)
  | [], rest, _ => by simp [scanString_quote]
  | c :: s, rest, h => by
    have ih := scanString_escape s rest h.tail
    have hc := h.head
    rw [List.flatMap_cons, List.append_assoc]
    have fin : ∀ {x}, x = scanCons c (scanString (s.flatMap jsonEscape ++ 34 :: rest)) →
        x = some (c :: s, rest) := by
      intro x hx; rw [hx, ih]; rfl
    apply fin
    by_cases n1 : c = 92 ∨ c = 34 ∨ c = 8 ∨ c = 12 ∨ c = 10 ∨ c = 13 ∨ c = 9
    · rcases n1 with rfl | rfl | rfl | rfl | rfl | rfl | rfl <;>
        exact scanString_named (by simp [jsonBackslash])
    · have n2 : ∀ k, (k = 92 ∨ k = 34 ∨ k = 8 ∨ k = 12 ∨ k = 10 ∨ k = 13 ∨ k = 9) → c ≠ k := by
        intro k hk h; subst h; exact n1 hk
      rw [jsonEscape, if_neg (n2 _ (by simp)), if_neg (n2 _ (by simp)), if_neg (n2 _ (by simp)),
        if_neg (n2 _ (by simp)), if_neg (n2 _ (by simp)), if_neg (n2 _ (by simp)),
        if_neg (n2 _ (by simp))]
      by_cases hp : 32 ≤ c ∧ c ≤ 126
      · rw [if_pos hp]
        exact scanString_plain hp.1 (n2 _ (by simp)) (n2 _ (by simp))
      · rw [if_neg hp]
        by_cases hs : c < 0x10000
        · rw [if_pos hs]
          exact scanString_unit hs fun hh => fun e => escape_not_low h hh e
        · rw [if_neg hs, scanString_pair (by omega) (by omega) (by simp [isHigh]; omega)
            (by simp [isLow]; omega)]
          have e : 0x10000 + ((0xD800 + (c - 0x10000) / 1024 - 0xD800) * 1024 +
              (0xDC00 + (c - 0x10000) % 1024 - 0xDC00)) = c := by omega
          rw [e]

theorem dropWhile_ws_cons {c : Nat} {s : PyStr} (h : jsonWs c = false) :
    (c :: s).dropWhile jsonWs = c :: s := by
  simp [List.dropWhile_cons, h]

theorem jsonString_append (s rest : PyStr) :
    jsonString s ++ rest = 34 :: (s.flatMap jsonEscape ++ 34 :: rest) := by
  simp [jsonString]

/-- Adding pairs with new keys one after the other. -/
theorem dset_new {κ β : Type _} [DecidableEq κ] : ∀ {d : List (κ × β)} {k : κ} {v : β},
    k ∉ d.map Prod.fst → dset d k v = d ++ [(k, v)]
  | [], k, v, _ => rfl
  | (k', v') :: d, k, v, h => by
    simp only [List.map_cons, List.mem_cons, not_or] at h
    rw [dset, if_neg (Ne.symm h.1), dset_new h.2]
    rfl

theorem jsonPairs_cons_cons (k v : PyStr) (p : PyStr × PyStr) (m : Manifest) :
    jsonPairs ((k, v) :: p :: m) = jsonString k ++ 58 :: jsonString v ++ 44 :: 10 :: jsonPairs (p :: m) := rfl

theorem jsonPairs_head (p : PyStr × PyStr) (m : Manifest) : ∃ r, jsonPairs (p :: m) = 34 :: r := by
  obtain ⟨k, v⟩ := p
  cases m with
  | nil => exact ⟨_, rfl⟩
  | cons q m => exact ⟨_, rfl⟩

theorem jsonPairLoop_pairs : ∀ (m : Manifest) (p : PyStr × PyStr) (acc : Manifest) (f : Nat) (rest : PyStr),
    (∀ q ∈ p :: m, JsonSafe q.1 ∧ JsonSafe q.2) → ((acc ++ p :: m).map Prod.fst).Nodup → m.length < f →
    jsonPairLoop f acc (jsonPairs (p :: m) ++ 125 :: rest) = some (acc ++ p :: m, rest)
  | [], (k, v), acc, f + 1, rest, hs, hn, _ => by
    have hk := hs (k, v) (by simp)
    have hnew : k ∉ acc.map Prod.fst := by
      intro hk
      rw [List.map_append, List.nodup_append] at hn
      exact hn.2.2 k hk k (by simp) rfl
    simp only [jsonPairs, jsonString_append, List.append_assoc, List.cons_append, jsonPairLoop]
    rw [scanString_escape k _ hk.1]
    simp only
    rw [dropWhile_ws_cons (by decide)]
    simp only
    rw [dropWhile_ws_cons (by decide)]
    simp only
    rw [scanString_escape v _ hk.2]
    simp only
    rw [dropWhile_ws_cons (by decide)]
    simp only
    rw [dset_new hnew]
  | q :: m, (k, v), acc, f + 1, rest, hs, hn, hf => by
    have hk := hs (k, v) (by simp)
    have hnew : k ∉ acc.map Prod.fst := by
      intro hk
      rw [List.map_append, List.nodup_append] at hn
      exact hn.2.2 k hk k (by simp) rfl
    have ih := jsonPairLoop_pairs m q (acc ++ [(k, v)]) f rest
      (fun x hx => hs x (by simp at hx ⊢; exact Or.inr hx)) (by simpa using hn) (by simpa using hf)
    obtain ⟨r, hr⟩ := jsonPairs_head q m
    rw [jsonPairs_cons_cons]
    simp only [jsonString_append, List.append_assoc, List.cons_append, jsonPairLoop]
    rw [scanString_escape k _ hk.1]
    simp only
    rw [dropWhile_ws_cons (by decide)]
    simp only
    rw [dropWhile_ws_cons (by decide)]
    simp only
    rw [scanString_escape v _ hk.2]
    simp only
    rw [dropWhile_ws_cons (by decide)]
    simp only
    rw [dset_new hnew]
    have hd : (10 :: (jsonPairs (q :: m) ++ 125 :: rest)).dropWhile jsonWs =
        jsonPairs (q :: m) ++ 125 :: rest := by
      rw [List.dropWhile_cons, if_pos (by decide), hr]
      exact dropWhile_ws_cons (by decide)
    rw [hd, ih]
    simp

theorem jsonPairs_length : ∀ (m : Manifest), m.length ≤ (jsonPairs m).length
  | [] => by simp
  | [(k, v)] => by simp [jsonPairs, jsonString]
  | (k, v) :: p :: m => by
    have := jsonPairs_length (p :: m)
    rw [jsonPairs_cons_cons]
    simp only [List.length_cons, List.length_append] at this ⊢
    omega

theorem jsonLoads_dumps {m : Manifest} (h : SafeManifest m) : jsonLoads (jsonDumps m) = some m := by
  unfold jsonLoads jsonDumps
  rw [dropWhile_ws_cons (by decide)]
  simp only
  cases m with
  | nil => decide
  | cons p m =>
    obtain ⟨r, hr⟩ := jsonPairs_head p m
    have hl := jsonPairs_length (p :: m)
    have key := jsonPairLoop_pairs m p [] (jsonPairs (p :: m) ++ [125]).length []
      h.2 (by simpa using h.1) (by simp at hl ⊢; omega)
    have hd : (jsonPairs (p :: m) ++ [125]).dropWhile jsonWs = 34 :: (r ++ [125]) := by
      rw [hr]; exact dropWhile_ws_cons (by decide)
    rw [hd]
    simp only
    rw [hr] at key
    simp only [List.cons_append] at key
    rw [key]
    simp

theorem jsonEscape_ascii {c x : Nat} (hc : c < 0x110000) (h : x ∈ jsonEscape c) : x < 128 := by
  have hd : ∀ n, n < 16 → hexDigit n < 128 := by intro n hn; unfold hexDigit; split <;> omega
  have hU : ∀ n, x ∈ jsonU n → x < 128 := by
    intro n hx
    simp only [jsonU, List.mem_cons, List.not_mem_nil, or_false] at hx
    rcases hx with rfl | rfl | rfl | rfl | rfl | rfl
    · decide
    · decide
    all_goals exact hd _ (by omega)
  unfold jsonEscape at h
  repeat' split at h
  all_goals first
    | exact hU _ h
    | (rcases List.mem_append.1 h with h | h <;> exact hU _ h)
    | (simp only [List.mem_cons, List.not_mem_nil, or_false] at h; omega)

theorem JsonSafe.lt : ∀ {s : PyStr}, JsonSafe s → ∀ c ∈ s, c < 0x110000
  | [], _, c, hc => by cases hc
  | d :: s, h, c, hc => by
    rcases List.mem_cons.1 hc with rfl | hc
    · exact h.head
    · exact JsonSafe.lt h.tail c hc

theorem jsonString_ascii {s : PyStr} (h : JsonSafe s) : ∀ x ∈ jsonString s, x < 128 := by
  intro x hx
  simp only [jsonString, List.mem_cons, List.mem_append, List.mem_flatMap, List.not_mem_nil,
    or_false] at hx
  rcases hx with rfl | ⟨c, hc, hx⟩ | rfl
  · decide
  · exact jsonEscape_ascii (h.lt c hc) hx
  · decide

theorem jsonPairs_ascii : ∀ {m : Manifest}, (∀ p ∈ m, JsonSafe p.1 ∧ JsonSafe p.2) →
    ∀ x ∈ jsonPairs m, x < 128
  | [], _, x, hx => by simp [jsonPairs] at hx
  | [(k, v)], h, x, hx => by
    have hk := h (k, v) (by simp)
    simp only [jsonPairs, List.mem_append, List.mem_cons] at hx
    rcases hx with hx | rfl | hx
    · exact jsonString_ascii hk.1 x hx
    · decide
    · exact jsonString_ascii hk.2 x hx
  | (k, v) :: p :: m, h, x, hx => by
    have hk := h (k, v) (by simp)
    rw [jsonPairs_cons_cons] at hx
    simp only [List.mem_append, List.mem_cons] at hx
    rcases hx with (hx | rfl | hx) | rfl | rfl | hx
    · exact jsonString_ascii hk.1 x hx
    · decide
    · exact jsonString_ascii hk.2 x hx
    · decide
    · decide
    · exact jsonPairs_ascii (fun q hq => h q (by simp at hq ⊢; exact Or.inr hq)) x hx

/-- The document of a manifest exists and is read back. -/
theorem doc_roundtrip {m : Manifest} (h : SafeManifest m) :
    ∃ doc, manifestToDoc m = .ok doc ∧ docToManifest doc = .ok m := by
  have ha : ∀ x ∈ jsonDumps m, isScalar x = true := by
    intro x hx
    have : x < 128 := by
      simp only [jsonDumps, List.mem_cons, List.mem_append, List.not_mem_nil, or_false] at hx
      rcases hx with rfl | hx | rfl
      · decide
      · exact jsonPairs_ascii h.2 x hx
      · decide
    simp [isScalar]; omega
  obtain ⟨b, hb⟩ := utf8Encode_isSome.2 ha
  refine ⟨b, by simp only [manifestToDoc, hb], ?_⟩
  simp only [docToManifest, utf8_iff.2 hb, jsonLoads_dumps h]

end Gaspra
