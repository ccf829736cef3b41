import Verif.Spec.ManifestNumbers
import Verif.Proofs.Manifest

set_option linter.unusedSimpArgs false

/-!
# JSON documents of manifests with numbers
-/

namespace Gaspra

/-! ### Numbers -/

theorem decimal_eq_toString (n : Nat) : decimal n = (toString n).toList.map Char.toNat := by
  simp [decimal, Nat.toString_eq_ofList_toDigits]

theorem decimal_digit {n c : Nat} (h : c ∈ decimal n) : isDigit c = true := by
  obtain ⟨d, hd, rfl⟩ := List.mem_map.1 h
  have h := Nat.isDigit_of_mem_toDigits (by omega) (by omega) hd
  simp only [Char.isDigit, Bool.and_eq_true, decide_eq_true_eq] at h
  have : 48 ≤ d.toNat ∧ d.toNat ≤ 57 := ⟨h.1, h.2⟩
  simp [isDigit, this]

theorem decimal_value (n : Nat) : digitsValue (decimal n) = n := by
  have h := Nat.ofDigitChars_ten_toDigits (n := n)
  unfold Nat.ofDigitChars at h
  unfold digitsValue decimal
  rw [List.foldl_map]
  conv => rhs; rw [← h]
  congr 1
  funext a c
  rw [Nat.mul_comm]
  rfl

theorem digitChar_pos {n : Nat} (h : 0 < n) (h' : n < 10) : (Nat.digitChar n).toNat ≠ 48 := by
  have : ∀ m < 10, 0 < m → (Nat.digitChar m).toNat ≠ 48 := by decide
  exact this n h' h

theorem decimal_head : ∀ {n : Nat}, 0 < n → ∃ c s, decimal n = c :: s ∧ c ≠ 48 := by
  intro n
  induction n using Nat.strongRecOn with
  | ind n ih =>
    intro h
    by_cases hn : n < 10
    · refine ⟨_, [], by rw [decimal, Nat.toDigits_of_lt_base hn]; rfl, digitChar_pos h hn⟩
    · obtain ⟨c, s, e, hc⟩ := ih (n / 10) (by omega) (by omega)
      refine ⟨c, s ++ [(Nat.digitChar (n % 10)).toNat], ?_, hc⟩
      rw [decimal, Nat.toDigits_of_base_le (by omega) (by omega), List.map_append]
      rw [decimal] at e
      rw [e]
      rfl

theorem scanNat_decimal (n : Nat) {rest : PyStr} (hr : ∀ c, rest.head? = some c → isDigit c = false) :
    scanNat (decimal n ++ rest) = some (n, rest) := by
  by_cases hn : n = 0
  · subst hn
    rfl
  · obtain ⟨c, s, e, hc⟩ := decimal_head (n := n) (by omega)
    have hd : ∀ x ∈ c :: s, isDigit x = true := fun x hx => decimal_digit (n := n) (e ▸ hx)
    have hv := decimal_value n
    rw [e] at hv ⊢
    have e1 : (s ++ rest).takeWhile isDigit = s := by
      have hs : ∀ x ∈ s, isDigit x = true := fun x hx => hd x (by simp [hx])
      clear hv e hd
      induction s with
      | nil =>
        cases rest with
        | nil => rfl
        | cons x r => simp [hr x rfl]
      | cons x s ih => simp [hs x (by simp), ih fun y hy => hs y (by simp [hy])]
    have e2 : (s ++ rest).dropWhile isDigit = rest := by
      have := List.takeWhile_append_dropWhile (p := isDigit) (l := s ++ rest)
      rw [e1] at this
      exact List.append_cancel_left this
    simp only [List.cons_append, scanNat, if_neg hc, hd c (by simp), if_true, e1, e2, hv]

theorem decimal_ne_minus (n : Nat) : ∃ c s, decimal n = c :: s ∧ isDigit c = true := by
  cases h : decimal n with
  | nil => simp [decimal, Nat.toDigits_ne_nil] at h
  | cons c s => exact ⟨c, s, rfl, decimal_digit (n := n) (by simp [h])⟩

theorem scanInt_intText (n : Int) {rest : PyStr} (hr : ∀ c, rest.head? = some c → isDigit c = false) :
    scanInt (intText n ++ rest) = some (n, rest) := by
  unfold intText
  split
  · rename_i h
    simp only [List.cons_append, scanInt, scanNat_decimal _ hr]
    congr 2
    omega
  · rename_i h
    obtain ⟨c, s, e, hc⟩ := decimal_ne_minus n.natAbs
    have hne : c ≠ 45 := by rintro rfl; simp [isDigit] at hc
    have k := scanNat_decimal n.natAbs hr
    rw [e] at k ⊢
    simp only [List.cons_append] at k ⊢
    unfold scanInt
    split
    · rename_i heq
      simp only [List.cons.injEq] at heq
      exact absurd heq.1 hne
    · rw [k]
      simp only [Option.some.injEq, Prod.mk.injEq, and_true]
      omega

theorem intText_spelled (n : Int) : intText n = (NTag.int n).spelled := by
  unfold intText NTag.spelled
  cases n with
  | ofNat m =>
    rw [if_neg (by simp)]
    simp only [Int.natAbs_natCast, Int.ofNat_eq_natCast, decimal_eq_toString]
    rfl
  | negSucc m =>
    rw [if_pos (Int.negSucc_lt_zero m), Int.natAbs_negSucc, decimal_eq_toString]
    show _ = (("-" ++ toString (m + 1)).toList).map Char.toNat
    simp

theorem intText_plain {n : Int} {c : Nat} (h : c ∈ intText n) : c = 45 ∨ isDigit c = true := by
  unfold intText at h
  split at h
  · rcases List.mem_cons.1 h with rfl | h
    · exact Or.inl rfl
    · exact Or.inr (decimal_digit h)
  · exact Or.inr (decimal_digit h)

theorem jsonSafe_low : ∀ {s : PyStr}, (∀ c ∈ s, c < 128) → JsonSafe s
  | [], _ => trivial
  | [c], h => by
    have := h c (by simp)
    show c < 0x110000
    omega
  | c :: d :: s, h => by
    have := h c (by simp)
    exact ⟨by omega, by omega, jsonSafe_low fun x hx => h x (by simp at hx ⊢; exact Or.inr hx)⟩

theorem intText_low {n : Int} {c : Nat} (h : c ∈ intText n) : 45 ≤ c ∧ c ≤ 57 := by
  rcases intText_plain h with rfl | h
  · omega
  · simp only [isDigit, Bool.and_eq_true, decide_eq_true_eq] at h
    omega

theorem spelled_safe {t : NTag} (h : t.Safe) : JsonSafe t.spelled := by
  cases t with
  | str s => exact h
  | int n =>
    rw [← intText_spelled]
    exact jsonSafe_low fun c hc => by have := intText_low hc; omega

theorem jsonName_eq (t : NTag) : jsonName t = jsonString t.spelled := by
  cases t with
  | str s => rfl
  | int n =>
    rw [← intText_spelled, jsonName, jsonString]
    have : (intText n).flatMap jsonEscape = intText n := by
      have h : ∀ c ∈ intText n, jsonEscape c = [c] := by
        intro c hc
        have := intText_low hc
        unfold jsonEscape
        repeat rw [if_neg (by omega)]
        rw [if_pos (by omega)]
      generalize intText n = l at h
      induction l with
      | nil => rfl
      | cons x l ih =>
        rw [List.flatMap_cons, h x (by simp), ih fun c hc => h c (by simp [hc])]
        rfl
    rw [this]

/-! ### Documents -/

theorem jsonValue_head (v : NTag) (rest : PyStr) : ∃ c s, jsonValue v ++ rest = c :: s ∧
    jsonWs c = false := by
  cases v with
  | str s => exact ⟨34, _, by rw [jsonValue, jsonString_append], by decide⟩
  | int n =>
    cases h : intText n with
    | nil =>
      unfold intText at h
      obtain ⟨c, s, e, _⟩ := decimal_ne_minus n.natAbs
      rw [e] at h
      split at h <;> simp at h
    | cons c s =>
      refine ⟨c, s ++ rest, by rw [jsonValue, h]; rfl, ?_⟩
      have := intText_low (n := n) (c := c) (by simp [h])
      simp only [jsonWs, Bool.or_eq_false_iff, decide_eq_false_iff_not]
      omega

theorem scanValue_jsonValue {v : NTag} (h : v.Safe) {rest : PyStr}
    (hr : ∀ c, rest.head? = some c → isDigit c = false) :
    scanValue (jsonValue v ++ rest) = some (v, rest) := by
  cases v with
  | str s =>
    rw [jsonValue, jsonString_append]
    simp only [scanValue, scanString_escape s rest h]
  | int n =>
    have k := scanInt_intText n hr
    rw [jsonValue]
    unfold scanValue
    split
    · rename_i heq
      cases e : intText n with
      | nil =>
        obtain ⟨c, s, e', _⟩ := jsonValue_head (.int n) []
        rw [jsonValue, e] at e'
        simp at e'
      | cons c s =>
        rw [e] at heq
        simp only [List.cons_append, List.cons.injEq] at heq
        have := intText_low (n := n) (c := c) (by simp [e])
        omega
    · rw [k]

/-- The dictionary that is read back. -/
def readBack (acc : NManifest) (m : NManifest) : NManifest :=
  m.foldl (fun d e => dset d (.str e.1.spelled) e.2) acc

theorem jsonPairsN_cons_cons (k v : NTag) (p : NTag × NTag) (m : NManifest) :
    jsonPairsN ((k, v) :: p :: m) =
      jsonName k ++ 58 :: jsonValue v ++ 44 :: 10 :: jsonPairsN (p :: m) := rfl

theorem jsonPairsN_head (p : NTag × NTag) (m : NManifest) : ∃ r, jsonPairsN (p :: m) = 34 :: r := by
  obtain ⟨k, v⟩ := p
  cases m with
  | nil => exact ⟨_, by rw [jsonPairsN, jsonName_eq]; rfl⟩
  | cons q m => exact ⟨_, by rw [jsonPairsN_cons_cons, jsonName_eq]; rfl⟩

theorem jsonPairLoopN_pairs : ∀ (m : NManifest) (p : NTag × NTag) (acc : NManifest) (f : Nat)
    (rest : PyStr), SafeN (p :: m) → m.length < f →
    jsonPairLoopN f acc (jsonPairsN (p :: m) ++ 125 :: rest) = some (readBack acc (p :: m), rest)
  | [], (k, v), acc, f + 1, rest, hs, _ => by
    have hk := hs (k, v) (by simp)
    obtain ⟨c, s, e, hc⟩ := jsonValue_head v (125 :: rest)
    have hv := scanValue_jsonValue hk.2 (rest := 125 :: rest) (by simp [isDigit])
    simp only [jsonPairsN, jsonName_eq, jsonString_append, List.append_assoc, List.cons_append,
      jsonPairLoopN]
    rw [scanString_escape k.spelled _ (spelled_safe hk.1)]
    simp only
    rw [dropWhile_ws_cons (by decide)]
    simp only
    rw [e] at hv ⊢
    rw [dropWhile_ws_cons hc, hv]
    simp only
    rw [dropWhile_ws_cons (by decide)]
    rfl
  | q :: m, (k, v), acc, f + 1, rest, hs, hf => by
    have hk := hs (k, v) (by simp)
    have ih := jsonPairLoopN_pairs m q (dset acc (.str k.spelled) v) f rest
      (fun x hx => hs x (by simp at hx ⊢; exact Or.inr hx)) (by simpa using hf)
    obtain ⟨r, hr⟩ := jsonPairsN_head q m
    obtain ⟨c, s, e, hc⟩ := jsonValue_head v (44 :: 10 :: (jsonPairsN (q :: m) ++ 125 :: rest))
    have hv := scanValue_jsonValue hk.2 (rest := 44 :: 10 :: (jsonPairsN (q :: m) ++ 125 :: rest))
      (by simp [isDigit])
    rw [jsonPairsN_cons_cons]
    simp only [jsonName_eq, jsonString_append, List.append_assoc, List.cons_append, jsonPairLoopN]
    rw [scanString_escape k.spelled _ (spelled_safe hk.1)]
    simp only
    rw [dropWhile_ws_cons (by decide)]
    simp only
    rw [e] at hv ⊢
    rw [dropWhile_ws_cons hc, hv]
    simp only
    rw [dropWhile_ws_cons (by decide)]
    simp only
    have hd : (10 :: (jsonPairsN (q :: m) ++ 125 :: rest)).dropWhile jsonWs =
        jsonPairsN (q :: m) ++ 125 :: rest := by
      rw [List.dropWhile_cons, if_pos (by decide), hr]
      exact dropWhile_ws_cons (by decide)
    rw [hd, ih]
    rfl

theorem jsonPairsN_length : ∀ (m : NManifest), m.length ≤ (jsonPairsN m).length
  | [] => by simp
  | [(k, v)] => by simp [jsonPairsN]; omega
  | (k, v) :: p :: m => by
    have := jsonPairsN_length (p :: m)
    rw [jsonPairsN_cons_cons]
    simp only [List.length_cons, List.length_append] at this ⊢
    omega

theorem jsonLoadsN_dumps {m : NManifest} (h : SafeN m) :
    jsonLoadsN (jsonDumpsN m) = some (readBack [] m) := by
  unfold jsonLoadsN jsonDumpsN
  rw [dropWhile_ws_cons (by decide)]
  simp only
  cases m with
  | nil => decide
  | cons p m =>
    obtain ⟨r, hr⟩ := jsonPairsN_head p m
    have hl := jsonPairsN_length (p :: m)
    have key := jsonPairLoopN_pairs m p [] (jsonPairsN (p :: m) ++ [125]).length [] h
      (by simp at hl ⊢; omega)
    have hd : (jsonPairsN (p :: m) ++ [125]).dropWhile jsonWs = 34 :: (r ++ [125]) := by
      rw [hr]; exact dropWhile_ws_cons (by decide)
    rw [hd]
    simp only
    rw [hr] at key
    simp only [List.cons_append] at key
    rw [key]
    simp

theorem jsonPairsN_ascii : ∀ {m : NManifest}, SafeN m → ∀ x ∈ jsonPairsN m, x < 128 := by
  have one : ∀ {t : NTag}, t.Safe → (∀ x ∈ jsonName t, x < 128) ∧ ∀ x ∈ jsonValue t, x < 128 := by
    intro t ht
    constructor
    · rw [jsonName_eq]
      exact jsonString_ascii (spelled_safe ht)
    · cases t with
      | str s => exact jsonString_ascii ht
      | int n => exact fun x hx => by have := intText_low hx; omega
  intro m
  induction m with
  | nil => intro _ x hx; simp [jsonPairsN] at hx
  | cons p m ih =>
    intro hs x hx
    obtain ⟨k, v⟩ := p
    have hk := hs (k, v) (by simp)
    have ih := ih fun q hq => hs q (by simp [hq])
    cases m with
    | nil =>
      simp only [jsonPairsN, List.mem_append, List.mem_cons] at hx
      rcases hx with hx | rfl | hx
      · exact (one hk.1).1 x hx
      · omega
      · exact (one hk.2).2 x hx
    | cons q m =>
      rw [jsonPairsN_cons_cons] at hx
      simp only [List.mem_append, List.mem_cons, List.append_assoc] at hx
      rcases hx with hx | (rfl | hx) | rfl | rfl | hx
      · exact (one hk.1).1 x hx
      · omega
      · exact (one hk.2).2 x hx
      · omega
      · omega
      · exact ih x hx

theorem docN_roundtrip {m : NManifest} (h : SafeN m) :
    ∃ doc, manifestToDocN m = .ok doc ∧ docToManifestN doc = .ok (readBack [] m) := by
  have hs : ∀ c ∈ jsonDumpsN m, isScalar c = true := by
    intro c hc
    have : c < 128 := by
      simp only [jsonDumpsN, List.mem_cons, List.mem_append, List.not_mem_nil, or_false] at hc
      rcases hc with rfl | hc | rfl
      · omega
      · exact jsonPairsN_ascii h c hc
      · omega
    simp only [isScalar, Bool.or_eq_true, decide_eq_true_eq]
    exact Or.inl (by omega)
  obtain ⟨b, hb⟩ := utf8Encode_isSome.2 hs
  refine ⟨b, by rw [manifestToDocN, hb], ?_⟩
  rw [docToManifestN, utf8_iff.2 hb]
  simp only
  rw [jsonLoadsN_dumps h]

/-! ### What is read back -/

theorem dget_dset_same {κ β : Type _} [DecidableEq κ] (d : List (κ × β)) (k : κ) (v : β) :
    dget (dset d k v) k = some v := by
  induction d with
  | nil => simp [dset, dget]
  | cons p d ih =>
    obtain ⟨k', v'⟩ := p
    by_cases h : k' = k
    · simp [dset, dget, h]
    · simp [dset, dget, h, ih]

theorem dget_dset_other {κ β : Type _} [DecidableEq κ] (d : List (κ × β)) {k k' : κ} (v : β)
    (h : k' ≠ k) : dget (dset d k v) k' = dget d k' := by
  induction d with
  | nil => simp [dset, dget, Ne.symm h]
  | cons p d ih =>
    obtain ⟨k'', v''⟩ := p
    by_cases h1 : k'' = k
    · subst h1
      simp [dset, dget, Ne.symm h]
    · by_cases h2 : k'' = k'
      · subst h2; simp [dset, dget, h1]
      · simp [dset, dget, h1, h2, ih]

theorem readBack_append (acc m m' : NManifest) :
    readBack acc (m ++ m') = readBack (readBack acc m) m' := by
  simp [readBack]

theorem readBack_int : ∀ (m : NManifest) {acc : NManifest} {n : Int}, dget acc (.int n) = none →
    dget (readBack acc m) (.int n) = none
  | [], _, _, h => h
  | e :: m, acc, n, h => by
    refine readBack_int m (acc := dset acc (.str e.1.spelled) e.2) ?_
    rw [dget_dset_other _ _ (by simp)]
    exact h

theorem readBack_other : ∀ (m : NManifest) {acc : NManifest} {s : PyStr},
    (∀ e ∈ m, e.1.spelled ≠ s) → dget (readBack acc m) (.str s) = dget acc (.str s)
  | [], _, _, _ => rfl
  | e :: m, acc, s, h => by
    have := readBack_other m (acc := dset acc (.str e.1.spelled) e.2) (s := s)
      fun x hx => h x (by simp [hx])
    show dget (readBack (dset acc (.str e.1.spelled) e.2) m) (.str s) = _
    rw [this, dget_dset_other _ _ (by simpa using (h e (by simp)).symm)]

theorem lastSpelled_iff {m : NManifest} {s : PyStr} {t : NTag} :
    dget (readBack [] m) (.str s) = some t ↔ LastSpelled m s t := by
  have fwd : ∀ {m : NManifest} {t : NTag}, LastSpelled m s t →
      dget (readBack [] m) (.str s) = some t := by
    rintro m t ⟨before, n, after, rfl, hn, ha⟩
    rw [readBack_append]
    show dget (readBack (dset (readBack [] before) (.str n.spelled) t) after) (.str s) = _
    rw [readBack_other after ha, hn, dget_dset_same]
  refine ⟨fun h => ?_, fwd⟩
  by_cases hex : ∃ e ∈ m, e.1.spelled = s
  · have : ∃ u, LastSpelled m s u := by
      clear h fwd
      induction m with
      | nil => simp at hex
      | cons e m ih =>
        by_cases hm : ∃ e ∈ m, e.1.spelled = s
        · obtain ⟨u, b, n, a, e1, e2, e3⟩ := ih hm
          exact ⟨u, e :: b, n, a, by rw [e1]; rfl, e2, e3⟩
        · obtain ⟨x, hx, hs⟩ := hex
          rcases List.mem_cons.1 hx with rfl | hx
          · exact ⟨x.2, [], x.1, m, rfl, hs, fun y hy h => hm ⟨y, hy, h⟩⟩
          · exact absurd ⟨x, hx, hs⟩ hm
    obtain ⟨u, hu⟩ := this
    have := fwd hu
    rw [h] at this
    cases this
    exact hu
  · rw [readBack_other m fun e he h' => hex ⟨e, he, h'⟩] at h
    simp [dget] at h

theorem readBack_strs : ∀ (m : NManifest) {acc : NManifest}, (∀ e ∈ m, ∃ s, e.1 = .str s) →
    ((acc ++ m).map Prod.fst).Nodup → readBack acc m = acc ++ m
  | [], acc, _, _ => by simp [readBack]
  | (k, v) :: m, acc, hs, hn => by
    obtain ⟨s, rfl⟩ := hs (k, v) (by simp)
    have hnew : NTag.str s ∉ acc.map Prod.fst := by
      intro hk
      rw [List.map_append, List.nodup_append] at hn
      exact hn.2.2 _ hk _ (by simp) rfl
    show readBack (dset acc (.str s) v) m = _
    rw [dset_new hnew, readBack_strs m (fun e he => hs e (by simp [he])) (by simpa using hn)]
    simp

end Gaspra
