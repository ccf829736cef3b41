import Verif.Spec.Json
import Verif.Proofs.Manifest

/-!
# `json.loads` reads exactly the documents of the grammar
-/

set_option linter.unusedSectionVars false
set_option linter.unusedSimpArgs false
set_option linter.unusedVariables false

namespace Gaspra

theorem hexVal_iff {c n : Nat} : hexVal c = some n ↔ JsonHex c n := by
  unfold hexVal JsonHex
  repeat' split
  all_goals simp only [Option.some.injEq, reduceCtorEq, false_iff]
  all_goals omega

theorem hex4_iff {a b c d u : Nat} : hex4 a b c d = some u ↔ JsonUnit [92, 117, a, b, c, d] u := by
  unfold hex4 JsonUnit
  constructor
  · intro h
    split at h
    · rename_i p q r s h1 h2 h3 h4
      refine ⟨a, b, c, d, p, q, r, s, rfl, hexVal_iff.1 h1, hexVal_iff.1 h2, hexVal_iff.1 h3,
        hexVal_iff.1 h4, ?_⟩
      cases h; omega
    · cases h
  · rintro ⟨a', b', c', d', p, q, r, s, e, h1, h2, h3, h4, rfl⟩
    simp at e
    obtain ⟨rfl, rfl, rfl, rfl⟩ := e
    rw [hexVal_iff.2 h1, hexVal_iff.2 h2, hexVal_iff.2 h3, hexVal_iff.2 h4]
    simp; omega

theorem isHigh_iff {u : Nat} : isHigh u = true ↔ JsonHigh u := by
  unfold isHigh JsonHigh; simp; omega
theorem isLow_iff {u : Nat} : isLow u = true ↔ JsonLow u := by
  unfold isLow JsonLow; simp; omega

theorem jsonBackslash_iff {c d : Nat} : jsonBackslash c = some d ↔ (c, d) ∈ jsonShort := by
  unfold jsonBackslash jsonShort
  simp only [List.mem_cons, Prod.mk.injEq, List.not_mem_nil, or_false]
  repeat' split
  all_goals simp only [Option.some.injEq, reduceCtorEq, false_iff]
  all_goals omega

theorem jsonWs_iff {c : Nat} : jsonWs c = true ↔ c = 32 ∨ c = 9 ∨ c = 10 ∨ c = 13 := by
  unfold jsonWs; simp [or_assoc]

theorem dropWhile_blank {w r : PyStr} {c : Nat} (hw : JsonBlank w) (hc : jsonWs c = false) :
    (w ++ c :: r).dropWhile jsonWs = c :: r := by
  induction w with
  | nil => simp [hc]
  | cons a w ih =>
    have ha : jsonWs a = true := jsonWs_iff.2 (hw a (by simp))
    rw [List.cons_append, List.dropWhile_cons, if_pos ha]
    exact ih fun x hx => hw x (by simp [hx])

theorem mem_takeWhile_ws : ∀ {s : PyStr} {c : Nat}, c ∈ s.takeWhile jsonWs → jsonWs c = true
  | [], _, h => by simp at h
  | a :: s, c, h => by
    rw [List.takeWhile_cons] at h
    split at h
    · rename_i ha
      rcases List.mem_cons.1 h with rfl | h
      · exact ha
      · exact mem_takeWhile_ws h
    · simp at h

theorem dropWhile_nil_iff : ∀ {s : PyStr}, s.dropWhile jsonWs = [] ↔ JsonBlank s
  | [] => by simp [JsonBlank]
  | a :: s => by
    rw [List.dropWhile_cons]
    by_cases ha : jsonWs a = true
    · rw [if_pos ha, dropWhile_nil_iff]
      constructor
      · intro h c hc
        rcases List.mem_cons.1 hc with rfl | hc
        · exact jsonWs_iff.1 ha
        · exact h c hc
      · exact fun h c hc => h c (by simp [hc])
    · rw [if_neg ha]
      simp only [reduceCtorEq, false_iff]
      exact fun h => ha (jsonWs_iff.2 (h a (by simp)))

theorem dropWhile_split {s r : PyStr} (h : s.dropWhile jsonWs = r) :
    ∃ w, s = w ++ r ∧ JsonBlank w := by
  refine ⟨s.takeWhile jsonWs, by rw [← h, List.takeWhile_append_dropWhile], fun c hc => ?_⟩
  exact jsonWs_iff.1 (mem_takeWhile_ws hc)

/-! ## Strings -/

theorem JsonBody.cons_quote {t v rest : PyStr} (h : JsonBody t v) {e' t' : PyStr} {u' : Nat}
    (he : t ++ 34 :: rest = e' ++ t') (hu : JsonUnit e' u') : ∃ t'', t = e' ++ t'' := by
  obtain ⟨a, b, c, d, p, q, r, s, rfl, h1, h2, h3, h4, -⟩ := hu
  have ne : ∀ {x n}, JsonHex x n → x ≠ 34 := by
    intro x n hx e; subst e; unfold JsonHex at hx; omega
  have := ne h1; have := ne h2; have := ne h3; have := ne h4
  rcases t with _ | ⟨x1, _ | ⟨x2, _ | ⟨x3, _ | ⟨x4, _ | ⟨x5, _ | ⟨x6, t⟩⟩⟩⟩⟩⟩
  all_goals simp at he
  all_goals first
    | omega
    | exact ⟨t, by simp [he]⟩

/-- A unit with nothing like a unit after it. -/
theorem scan_unit_end {a b c d : Nat} {t : PyStr}
    (hm : ¬ ∃ a' b' c' d' r, t = 92 :: 117 :: a' :: b' :: c' :: d' :: r) :
    scanString (92 :: 117 :: a :: b :: c :: d :: t) =
      match hex4 a b c d with
      | none => none
      | some u => scanCons u (scanString t) := by
  rw [scanString]
  · cases hex4 a b c d <;> rfl
  · intro a' b' c' d' r e
    exact hm ⟨a', b', c', d', r, e⟩

theorem scan_bad_unit {a b c d : Nat} {t : PyStr} (hx : hex4 a b c d = none) :
    scanString (92 :: 117 :: a :: b :: c :: d :: t) = none := by
  by_cases hm : ∃ a' b' c' d' r, t = 92 :: 117 :: a' :: b' :: c' :: d' :: r
  · obtain ⟨a', b', c', d', r, rfl⟩ := hm
    rw [scanString, hx]
  · rw [scan_unit_end hm, hx]

theorem scan_complete {t v : PyStr} (h : JsonBody t v) (rest : PyStr) :
    scanString (t ++ 34 :: rest) = some (v, rest) := by
  induction h with
  | nil => exact scanString_quote rest
  | char h1 h2 h3 hb ih =>
    rw [List.cons_append, scanString_plain h1 h2 h3, ih]; rfl
  | short e hb ih =>
    rw [List.cons_append, List.cons_append, scanString_named (jsonBackslash_iff.2 e), ih]; rfl
  | pair hu hu' high low hb ih =>
    obtain ⟨a, b, c, d, -, -, -, -, rfl, -⟩ := id hu
    obtain ⟨a', b', c', d', -, -, -, -, rfl, -⟩ := id hu'
    rw [← hex4_iff] at hu hu'
    simp only [List.cons_append, List.nil_append]
    rw [scanString]
    simp only [hu, hu', isHigh_iff.2 high, isLow_iff.2 low, if_true, ih, scanCons]
    simp; omega
  | @unit e t v u hu single hb ih =>
    obtain ⟨a, b, c, d, -, -, -, -, rfl, -⟩ := id hu
    rw [← hex4_iff] at hu
    simp only [List.cons_append, List.nil_append]
    by_cases hm : ∃ a' b' c' d' r, t ++ 34 :: rest = 92 :: 117 :: a' :: b' :: c' :: d' :: r
    · obtain ⟨a', b', c', d', r, hr⟩ := hm
      rw [hr] at ih ⊢
      rw [scanString]
      simp only [hu]
      by_cases hh : isHigh u = true
      · simp only [hh, if_true]
        -- The next unit is one, otherwise the rest would not be a string.
        cases hx : hex4 a' b' c' d' with
        | none =>
          exfalso
          rw [scan_bad_unit hx] at ih; cases ih
        | some u' =>
          have hl : isLow u' = false := by
            cases hl : isLow u' with
            | false => rfl
            | true =>
              obtain ⟨t'', ht⟩ := hb.cons_quote (e' := [92, 117, a', b', c', d']) (by simpa using hr)
                (hex4_iff.1 hx)
              exact absurd (isLow_iff.1 hl)
                (single (isHigh_iff.1 hh) _ _ _ ht (hex4_iff.1 hx))
          simp only [hl, Bool.false_eq_true, if_false, ih, scanCons]
      · simp only [hh, Bool.false_eq_true, if_false, ih, scanCons]
    · rw [scan_unit_end hm, hu]; simp only [ih, scanCons]

theorem scanCons_some {c : Nat} {o : Option (PyStr × PyStr)} {r : PyStr × PyStr}
    (h : scanCons c o = some r) : ∃ s, o = some (s, r.2) ∧ r.1 = c :: s := by
  cases o with
  | none => simp [scanCons] at h
  | some p => simp [scanCons] at h; subst h; exact ⟨p.1, rfl, rfl⟩

theorem scan_sound : ∀ (n : Nat) (t v rest : PyStr), t.length ≤ n → scanString t = some (v, rest) →
    ∃ body, t = body ++ 34 :: rest ∧ JsonBody body v := by
  intro n
  induction n with
  | zero =>
    intro t v rest hn h
    have : t = [] := List.eq_nil_of_length_eq_zero (by omega)
    subst this
    rw [scanString] at h; cases h
  | succ n ih =>
    intro t v rest hn h
    -- A single unit in front of a string.
    have single : ∀ {a b c d u : Nat} {t' : PyStr}, t = 92 :: 117 :: a :: b :: c :: d :: t' →
        hex4 a b c d = some u →
        (isHigh u = true → ∀ a' b' c' d' r u', t' = 92 :: 117 :: a' :: b' :: c' :: d' :: r →
          hex4 a' b' c' d' = some u' → isLow u' = false) →
        scanCons u (scanString t') = some (v, rest) →
        ∃ body, t = body ++ 34 :: rest ∧ JsonBody body v := by
      intro a b c d u t' ht hu hs h
      rw [ht] at hn ⊢
      obtain ⟨s, h1, h2⟩ := scanCons_some h
      obtain ⟨body, e, hb⟩ := ih t' s rest (by simp at hn; omega) h1
      simp at h2; subst h2
      refine ⟨[92, 117, a, b, c, d] ++ body, by simp [e], .unit (hex4_iff.1 hu) ?_ hb⟩
      intro hh e' t'' u' he hu' hl
      obtain ⟨a', b', c', d', -, -, -, -, rfl, -⟩ := id hu'
      have := hs (isHigh_iff.2 hh) a' b' c' d' (t'' ++ 34 :: rest) u' (by rw [e, he]; simp) (hex4_iff.2 hu')
      rw [isLow_iff.2 hl] at this; cases this
    rw [scanString.eq_def] at h
    split at h
    · cases h
    · rename_i r
      simp at h
      obtain ⟨rfl, rfl⟩ := h
      exact ⟨[], by simp, .nil⟩
    · rename_i a b c d a' b' c' d' r
      split at h
      · cases h
      · rename_i u hu
        split at h
        · rename_i hh
          split at h
          · cases h
          · rename_i u' hu'
            split at h
            · rename_i hl
              obtain ⟨s, h1, h2⟩ := scanCons_some h
              obtain ⟨body, e, hb⟩ := ih r s rest (by simp at hn; omega) h1
              simp at h2; subst h2
              refine ⟨[92, 117, a, b, c, d] ++ ([92, 117, a', b', c', d'] ++ body), by simp [e], ?_⟩
              have := JsonBody.pair (hex4_iff.1 hu) (hex4_iff.1 hu') (isHigh_iff.1 hh) (isLow_iff.1 hl) hb
              rw [Nat.add_assoc] at this
              exact this
            · rename_i hl
              refine single rfl hu ?_ h
              intro _ a2 b2 c2 d2 r2 u2 e hu2
              simp at e
              obtain ⟨rfl, rfl, rfl, rfl, rfl⟩ := e
              rw [hu'] at hu2; cases hu2
              simpa using hl
        · rename_i hh
          exact single rfl hu (fun h' => absurd h' hh) h
    · rename_i a b c d r hne
      split at h
      · cases h
      · rename_i u hu
        refine single rfl hu ?_ h
        intro _ a2 b2 c2 d2 r2 u2 e _
        exact absurd e (by intro e; exact hne _ _ _ _ _ e)
    · rename_i c r hne1 hne2
      split at h
      · cases h
      · rename_i d hd
        obtain ⟨s, h1, h2⟩ := scanCons_some h
        obtain ⟨body, e, hb⟩ := ih r s rest (by simp at hn; omega) h1
        simp at h2; subst h2
        exact ⟨92 :: c :: body, by simp [e], .short (jsonBackslash_iff.1 hd) hb⟩
    · rename_i c r h34 hx1 hx2 h92
      split at h
      · cases h
      · rename_i hc
        obtain ⟨s, h1, h2⟩ := scanCons_some h
        obtain ⟨body, e, hb⟩ := ih r s rest (by simp at hn; omega) h1
        simp at h2; subst h2
        have hc92 : c ≠ 92 := by
          rintro rfl
          cases r with
          | nil => rw [scanString] at h1; cases h1
          | cons x r => exact h92 x r rfl rfl
        exact ⟨c :: body, by simp [e], .char (by omega) h34 hc92 hb⟩

/-! ## Members -/


/-- The loop after one member. -/
theorem jsonPairLoop_member {t rest : PyStr} {p : PyStr × PyStr} (h : JsonMember t p) {x : Nat}
    (hx : jsonWs x = false) (f : Nat) (acc : Manifest) :
    jsonPairLoop (f + 1) acc (t ++ x :: rest) =
      match x :: rest with
      | 125 :: s => some (dset acc p.1 p.2, s)
      | 44 :: s => jsonPairLoop f (dset acc p.1 p.2) (s.dropWhile jsonWs)
      | _ => none := by
  cases h with
  | mk hk hv h1 h2 h3 =>
    rename_i k v kt vt w1 w2 w3
    have e : 34 :: (kt ++ 34 :: (w1 ++ 58 :: (w2 ++ 34 :: (vt ++ 34 :: w3)))) ++ x :: rest =
        34 :: (kt ++ 34 :: (w1 ++ 58 :: (w2 ++ 34 :: (vt ++ 34 :: (w3 ++ x :: rest))))) := by simp
    rw [e, jsonPairLoop, scan_complete hk]
    simp only
    rw [dropWhile_blank h1 (by decide)]
    simp only
    rw [dropWhile_blank h2 (by decide)]
    simp only
    rw [scan_complete hv]
    simp only
    rw [dropWhile_blank h3 hx]
    rfl

theorem JsonMember.head {t : PyStr} {p : PyStr × PyStr} (h : JsonMember t p) : ∃ r, t = 34 :: r := by
  cases h; exact ⟨_, rfl⟩

theorem JsonMembers.head {t : PyStr} {ps : List (PyStr × PyStr)} (h : JsonMembers t ps) :
    ∃ r, t = 34 :: r := by
  cases h with
  | one h => exact h.head
  | more h _ _ => obtain ⟨r, rfl⟩ := h.head; exact ⟨_, rfl⟩

/-- The dictionary of the members: a later one with the same key replaces the value. -/
def dictOf (acc : Manifest) (ps : List (PyStr × PyStr)) : Manifest :=
  ps.foldl (fun d p => dset d p.1 p.2) acc

theorem pairs_complete {t : PyStr} {ps : List (PyStr × PyStr)} (h : JsonMembers t ps) :
    ∀ (f : Nat) (acc : Manifest) (rest : PyStr), ps.length ≤ f →
      jsonPairLoop f acc (t ++ 125 :: rest) = some (dictOf acc ps, rest) := by
  induction h with
  | one h =>
    intro f acc rest hf
    obtain ⟨f, rfl⟩ : ∃ g, f = g + 1 := ⟨f - 1, by simp at hf; omega⟩
    rw [jsonPairLoop_member h (by decide)]
    rfl
  | @more t w r p ps h hw hr ih =>
    intro f acc rest hf
    obtain ⟨f, rfl⟩ : ∃ g, f = g + 1 := ⟨f - 1, by simp at hf; omega⟩
    obtain ⟨r', rfl⟩ := hr.head
    have e : t ++ 44 :: (w ++ 34 :: r') ++ 125 :: rest = t ++ 44 :: (w ++ 34 :: (r' ++ 125 :: rest)) := by simp
    rw [e, jsonPairLoop_member h (by decide)]
    simp only
    rw [dropWhile_blank hw (by decide)]
    have := ih f (dset acc p.1 p.2) rest (by simp at hf; omega)
    rw [List.cons_append] at this
    rw [this]
    rfl

theorem JsonMembers.length_le {t : PyStr} {ps : List (PyStr × PyStr)} (h : JsonMembers t ps) :
    ps.length ≤ t.length := by
  induction h with
  | one h => obtain ⟨r, rfl⟩ := h.head; simp
  | more h hw hr ih =>
    obtain ⟨r, rfl⟩ := h.head
    simp; omega

theorem pairs_sound : ∀ (f : Nat) (acc : Manifest) (s : PyStr) (m : Manifest) (rest : PyStr),
    jsonPairLoop f acc s = some (m, rest) →
    ∃ t ps, s = t ++ 125 :: rest ∧ JsonMembers t ps ∧ m = dictOf acc ps := by
  intro f
  induction f with
  | zero => intro acc s m rest h; rw [jsonPairLoop] at h; cases h; simp
  | succ f ih =>
    intro acc s m rest h
    rw [jsonPairLoop.eq_def] at h
    split at h
    · rename_i f' acc' s1 heq
      split at h
      · cases h
      · rename_i k s2 hk
        obtain ⟨kt, e1, hkt⟩ := scan_sound _ _ _ _ (Nat.le_refl _) hk
        split at h
        · rename_i s3 hs3
          obtain ⟨w1, e2, hw1⟩ := dropWhile_split hs3
          split at h
          · rename_i s4 hs4
            obtain ⟨w2, e3, hw2⟩ := dropWhile_split hs4
            split at h
            · cases h
            · rename_i v s5 hv
              obtain ⟨vt, e4, hvt⟩ := scan_sound _ _ _ _ (Nat.le_refl _) hv
              split at h
              · rename_i s6 hs6
                obtain ⟨w3, e5, hw3⟩ := dropWhile_split hs6
                have M := JsonMember.mk hkt hvt hw1 hw2 hw3
                simp only [Option.some.injEq, Prod.mk.injEq] at h
                obtain ⟨rfl, rfl⟩ := h
                refine ⟨_, [(k, v)], ?_, .one M, ?_⟩
                · rw [e1, e2, e3, e4, e5]; simp
                · cases heq; rfl
              · rename_i s6 hs6
                obtain ⟨w3, e5, hw3⟩ := dropWhile_split hs6
                have M := JsonMember.mk hkt hvt hw1 hw2 hw3
                cases heq
                obtain ⟨t, ps, e6, hm, e7⟩ := ih _ _ _ _ h
                obtain ⟨w4, e8, hw4⟩ := dropWhile_split e6
                refine ⟨_, (k, v) :: ps, ?_, .more M hw4 hm, ?_⟩
                · rw [e1, e2, e3, e4, e5, e8]; simp
                · rw [e7]; rfl
              · cases h
          · cases h
        · cases h
    · cases h

theorem loads_complete {t : PyStr} {ps : List (PyStr × PyStr)} (h : JsonDoc t ps) :
    jsonLoads t = some (dictOf [] ps) := by
  cases h with
  | @empty w1 w2 w3 h1 h2 h3 =>
    unfold jsonLoads
    rw [dropWhile_blank h1 (by decide)]
    simp only
    rw [dropWhile_blank h2 (by decide)]
    simp only
    have : w3.dropWhile jsonWs = [] := dropWhile_nil_iff.2 h3
    rw [this]; rfl
  | @members w1 w2 w3 t ps h1 h2 h3 h =>
    obtain ⟨r, rfl⟩ := h.head
    unfold jsonLoads
    rw [dropWhile_blank h1 (by decide)]
    simp only
    rw [List.cons_append, dropWhile_blank h2 (by decide)]
    simp only
    have hp := pairs_complete h (34 :: (r ++ 125 :: w3)).length [] w3 (by
      have := h.length_le; simp at this ⊢; omega)
    rw [List.cons_append] at hp
    rw [hp]
    have : w3.dropWhile jsonWs = [] := dropWhile_nil_iff.2 h3
    simp [this]

theorem loads_sound {t : PyStr} {m : Manifest} (h : jsonLoads t = some m) :
    ∃ ps, JsonDoc t ps ∧ m = dictOf [] ps := by
  unfold jsonLoads at h
  split at h
  · rename_i s hs
    obtain ⟨w1, e1, hw1⟩ := dropWhile_split hs
    dsimp only at h
    have fin : ∀ {s : PyStr}, (s.dropWhile jsonWs).isEmpty = true → JsonBlank s := by
      intro s hs
      rw [List.isEmpty_iff] at hs
      exact dropWhile_nil_iff.1 hs
    split at h
    · rename_i m' s' hr
      split at h
      · rename_i hemp
        cases h
        split at hr
        · rename_i s'' hs''
          obtain ⟨w2, e2, hw2⟩ := dropWhile_split hs''
          simp only [Option.some.injEq, Prod.mk.injEq] at hr
          obtain ⟨rfl, rfl⟩ := hr
          exact ⟨[], by rw [e1, e2]; exact .empty hw1 hw2 (fin hemp), rfl⟩
        · rename_i hne
          obtain ⟨w2, e2, hw2⟩ := dropWhile_split (s := s) rfl
          obtain ⟨t', ps, e3, hm, e4⟩ := pairs_sound _ _ _ _ _ hr
          refine ⟨ps, ?_, e4⟩
          rw [e1, e2, e3]
          exact .members hw1 hw2 (fin hemp) hm
      · cases h
    · cases h
  · cases h

end Gaspra
