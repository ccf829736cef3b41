import Verif.Spec.Bytes

/-!
# Correctness of `serialize.py`
-/

set_option linter.unusedSectionVars false
set_option linter.unusedSimpArgs false
set_option linter.unusedVariables false

namespace Gaspra

theorem bytesBE_length (n v : Nat) : (bytesBE n v).length = n := by
  induction n generalizing v with
  | zero => rfl
  | succ n ih => simp [bytesBE, ih]

theorem ofNat_toNat_lt {v : Nat} (h : v < 256) : (UInt8.ofNat v).toNat = v := by
  simp [UInt8.toNat_ofNat', Nat.mod_eq_of_lt h]

theorem fromBytes_snoc (l : List UInt8) (b : UInt8) :
    fromBytes (l ++ [b]) = fromBytes l * 256 + b.toNat := by
  simp [fromBytes]

theorem fromBytes_bytesBE {n v : Nat} (h : v < 256 ^ n) : fromBytes (bytesBE n v) = v := by
  induction n generalizing v with
  | zero => simp at h; subst h; rfl
  | succ n ih =>
    have h1 : v / 256 < 256 ^ n := by
      rw [Nat.div_lt_iff_lt_mul (by omega)]; rwa [Nat.pow_succ] at h
    rw [bytesBE, fromBytes_snoc, ih h1, ofNat_toNat_lt (Nat.mod_lt _ (by omega))]
    omega

theorem bytesBE_lex {n v w : Nat} (h : v < w) (hw : w < 256 ^ n) :
    LexBefore (bytesBE n v) (bytesBE n w) := by
  induction n generalizing v w with
  | zero => simp at hw; omega
  | succ n ih =>
    have h1 : w / 256 < 256 ^ n := by
      rw [Nat.div_lt_iff_lt_mul (by omega)]; rwa [Nat.pow_succ] at hw
    by_cases hd : v / 256 < w / 256
    · obtain ⟨p, x, y, a, b, ha, hb, hxy⟩ := ih hd h1
      exact ⟨p, x, y, a ++ [UInt8.ofNat (v % 256)], b ++ [UInt8.ofNat (w % 256)],
        by simp [bytesBE, ha], by simp [bytesBE, hb], hxy⟩
    · have he : v / 256 = w / 256 := by omega
      refine ⟨bytesBE n (w / 256), UInt8.ofNat (v % 256), UInt8.ofNat (w % 256), [], [],
        by simp [bytesBE, he], by simp [bytesBE], ?_⟩
      rw [ofNat_toNat_lt (by omega), ofNat_toNat_lt (by omega)]; omega

theorem LexBefore.append {a b : List UInt8} (h : LexBefore a b) (c d : List UInt8) :
    LexBefore (a ++ c) (b ++ d) := by
  obtain ⟨p, x, y, a', b', rfl, rfl, h⟩ := h
  exact ⟨p, x, y, a' ++ c, b' ++ d, by simp, by simp, h⟩

theorem LexBefore.cons {a b : List UInt8} (h : LexBefore a b) (c : UInt8) :
    LexBefore (c :: a) (c :: b) := by
  obtain ⟨p, x, y, a', b', rfl, rfl, h⟩ := h
  exact ⟨c :: p, x, y, a', b', by simp, by simp, h⟩

/-- The code byte `c`, the number `n` of payload bytes and the payload `p` of `v`. -/
def Code (v c n p : Nat) : Prop :=
  (v ≤ 240 ∧ c = v ∧ n = 0 ∧ p = 0) ∨
  (240 < v ∧ v ≤ 2287 ∧ c = 241 + (v - 240) / 256 ∧ n = 1 ∧ p = (v - 240) % 256) ∨
  (2287 < v ∧ v ≤ 67823 ∧ c = 249 ∧ n = 2 ∧ p = v - 2288) ∨
  (67823 < v ∧ v ≤ 16777215 ∧ c = 250 ∧ n = 3 ∧ p = v) ∨
  (16777215 < v ∧ v ≤ 4294967295 ∧ c = 251 ∧ n = 4 ∧ p = v) ∨
  (4294967295 < v ∧ v ≤ 1099511627775 ∧ c = 252 ∧ n = 5 ∧ p = v) ∨
  (1099511627775 < v ∧ v ≤ 281474976710655 ∧ c = 253 ∧ n = 6 ∧ p = v) ∨
  (281474976710655 < v ∧ v ≤ 72057594037927935 ∧ c = 254 ∧ n = 7 ∧ p = v) ∨
  (72057594037927935 < v ∧ v ≤ 18446744073709551615 ∧ c = 255 ∧ n = 8 ∧ p = v)

theorem toBytes_ok {v : Nat} {n : Nat} (h : v < 256 ^ n) : toBytes (v : Int) n = .ok (bytesBE n v) := by
  simp [toBytes, h]

theorem bytesBE_one {v : Nat} (h : v < 256) : bytesBE 1 v = [UInt8.ofNat v] := by
  simp [bytesBE, Nat.mod_eq_of_lt h]

theorem bytesBE_two {v : Nat} (h : v < 65536) :
    bytesBE 2 v = [UInt8.ofNat (v / 256), UInt8.ofNat (v % 256)] := by
  have : v / 256 % 256 = v / 256 := Nat.mod_eq_of_lt (by omega)
  simp [bytesBE, this]

theorem vser_spec {v : Nat} (hv : v < 2 ^ 64) :
    ∃ c n p, vserializeInt v = .ok (UInt8.ofNat c :: bytesBE n p) ∧ c < 256 ∧ p < 256 ^ n ∧
      Code v c n p := by
  have hv' : v ≤ 18446744073709551615 := by omega
  have lit : ∀ k : Nat, k < 256 → toBytes (k : Int) 1 = .ok [UInt8.ofNat k] := by
    intro k hk; rw [toBytes_ok (by omega), bytesBE_one hk]
  unfold vserializeInt
  by_cases h0 : v ≤ 240
  · refine ⟨v, 0, 0, ?_, by omega, by simp, Or.inl ⟨h0, rfl, rfl, rfl⟩⟩
    rw [if_pos (by omega), lit v (by omega)]; rfl
  rw [if_neg (by omega)]
  by_cases h1 : v ≤ 2287
  · refine ⟨241 + (v - 240) / 256, 1, (v - 240) % 256, ?_, by omega, by omega,
      Or.inr (Or.inl ⟨by omega, h1, rfl, rfl, rfl⟩)⟩
    rw [if_pos (by omega)]
    have e1 : (241 + ((v : Int) - 240) / 256) = ((241 + (v - 240) / 256 : Nat) : Int) := by omega
    have e2 : (((v : Int) - 240) % 256) = (((v - 240) % 256 : Nat) : Int) := by omega
    simp only [e1, e2, lit _ (show 241 + (v - 240) / 256 < 256 by omega),
      lit _ (show (v - 240) % 256 < 256 by omega), bytesBE_one (show (v - 240) % 256 < 256 by omega)]
    rfl
  rw [if_neg (by omega)]
  by_cases h2 : v ≤ 67823
  · refine ⟨249, 2, v - 2288, ?_, by omega, by omega,
      Or.inr (Or.inr (Or.inl ⟨by omega, h2, rfl, rfl, rfl⟩))⟩
    rw [if_pos (by omega)]
    have e1 : (((v : Int) - 2288) / 256) = (((v - 2288) / 256 : Nat) : Int) := by omega
    have e2 : (((v : Int) - 2288) % 256) = (((v - 2288) % 256 : Nat) : Int) := by omega
    simp only [e1, e2, lit _ (show (v - 2288) / 256 < 256 by omega),
      lit _ (show (v - 2288) % 256 < 256 by omega), bytesBE_two (show v - 2288 < 65536 by omega)]
    rfl
  rw [if_neg (by omega)]
  by_cases h3 : v ≤ 16777215
  · refine ⟨250, 3, v, ?_, by omega, by omega, by unfold Code; omega⟩
    rw [if_pos (by omega), toBytes_ok (show v < 256 ^ 3 by omega)]; rfl
  rw [if_neg (by omega)]
  by_cases h4 : v ≤ 4294967295
  · refine ⟨251, 4, v, ?_, by omega, by omega, by unfold Code; omega⟩
    rw [if_pos (by omega), toBytes_ok (show v < 256 ^ 4 by omega)]; rfl
  rw [if_neg (by omega)]
  by_cases h5 : v ≤ 1099511627775
  · refine ⟨252, 5, v, ?_, by omega, by omega, by unfold Code; omega⟩
    rw [if_pos (by omega), toBytes_ok (show v < 256 ^ 5 by omega)]; rfl
  rw [if_neg (by omega)]
  by_cases h6 : v ≤ 281474976710655
  · refine ⟨253, 6, v, ?_, by omega, by omega, by unfold Code; omega⟩
    rw [if_pos (by omega), toBytes_ok (show v < 256 ^ 6 by omega)]; rfl
  rw [if_neg (by omega)]
  by_cases h7 : v ≤ 72057594037927935
  · refine ⟨254, 7, v, ?_, by omega, by omega, by unfold Code; omega⟩
    rw [if_pos (by omega), toBytes_ok (show v < 256 ^ 7 by omega)]; rfl
  rw [if_neg (by omega)]
  · refine ⟨255, 8, v, ?_, by omega, by omega, by unfold Code; omega⟩
    rw [toBytes_ok (show v < 256 ^ 8 by omega)]; rfl

theorem vser_overflow {v : Int} (hv : v < 0 ∨ 2 ^ 64 ≤ v) :
    vserializeInt v = .error .overflowError := by
  unfold vserializeInt
  rcases hv with h | h
  · rw [if_pos (by omega)]; simp [toBytes, h]
  · rw [if_neg (by omega), if_neg (by omega), if_neg (by omega), if_neg (by omega),
      if_neg (by omega), if_neg (by omega), if_neg (by omega), if_neg (by omega)]
    have : toBytes v 8 = .error .overflowError := by
      unfold toBytes
      rw [if_neg (by omega), if_neg (by omega)]
    rw [this]; rfl

/-- Reading a (possibly truncated) encoding. -/
theorem vdeser_code {v c n p : Nat} (hc : c < 256) (hp : p < 256 ^ n) (C : Code v c n p)
    (t rest : List UInt8) (ht : t <+: bytesBE n p ++ rest) :
    (t.length < n ∧ vdeserializeInt (UInt8.ofNat c :: t) = .error .runtimeError) ∨
    (∃ t', t = bytesBE n p ++ t' ∧ t' <+: rest ∧
      vdeserializeInt (UInt8.ofNat c :: t) = .ok (v, t')) := by
  have ha0 : fromBytes ((UInt8.ofNat c :: t).take 1) = c := by
    simp [fromBytes, ofNat_toNat_lt hc]
  by_cases hlen : t.length < n
  · left
    refine ⟨hlen, ?_⟩
    unfold vdeserializeInt
    simp only [ha0, List.length_cons]
    rw [if_neg (by omega)]
    unfold Code at C
    by_cases k0 : c ≤ 240
    · omega
    rw [if_neg k0]
    by_cases k1 : c ≤ 248
    · rw [if_pos (by omega), if_pos (by omega)]
    rw [if_neg (by omega)]
    by_cases k2 : c = 249
    · rw [if_pos k2, if_pos (by omega)]
    rw [if_neg k2, if_pos (by omega)]
  · right
    obtain ⟨q, hq⟩ := ht
    have hl : (bytesBE n p).length = n := bytesBE_length n p
    have htake : t.take n = bytesBE n p := by
      have := congrArg (List.take n) hq
      rw [List.take_append_of_le_length (by omega), List.take_left' hl] at this
      exact this
    have htt : t = bytesBE n p ++ t.drop n := by
      rw [← htake, List.take_append_drop]
    refine ⟨t.drop n, htt, ⟨q, ?_⟩, ?_⟩
    · have h2 := hq
      rw [htt, List.append_assoc] at h2
      exact List.append_cancel_left h2
    have hfb : fromBytes (t.take n) = p := by rw [htake, fromBytes_bytesBE hp]
    unfold vdeserializeInt
    simp only [ha0, List.length_cons]
    rw [if_neg (by omega)]
    unfold Code at C
    by_cases k0 : c ≤ 240
    · rw [if_pos k0]
      have : n = 0 ∧ v = c := by omega
      rw [this.1, this.2]; simp
    rw [if_neg k0]
    by_cases k1 : c ≤ 248
    · have : n = 1 ∧ p = (v - 240) % 256 ∧ c = 241 + (v - 240) / 256 ∧ 240 < v := by omega
      obtain ⟨rfl, hpv, hcv, hv⟩ := this
      rw [if_pos (by omega), if_neg (by omega)]
      have e : (List.take 2 (UInt8.ofNat c :: t)).drop 1 = t.take 1 := by simp
      rw [e, hfb]
      rw [show 240 + 256 * (c - 241) + p = v by omega]
      simp only [List.drop_succ_cons]
    rw [if_neg (by omega)]
    by_cases k2 : c = 249
    · have : n = 2 ∧ p = v - 2288 ∧ 2287 < v := by omega
      obtain ⟨rfl, hpv, hv⟩ := this
      rw [if_pos k2, if_neg (by omega)]
      have e : (List.take 3 (UInt8.ofNat c :: t)).drop 1 = t.take 2 := by simp
      rw [e, hfb]
      rw [show 2288 + p = v by omega]
      simp only [List.drop_succ_cons]
    rw [if_neg k2, if_neg (by omega)]
    have : c - 246 = n + 1 ∧ p = v := by omega
    rw [this.1]
    have e : (List.take (n + 1) (UInt8.ofNat c :: t)).drop 1 = t.take n := by simp
    rw [e, hfb, this.2]
    simp

theorem vser_lex {v w : Nat} (h : v < w) (hw : w < 2 ^ 64) (a b : List UInt8)
    (ha : vserializeInt v = .ok a) (hb : vserializeInt w = .ok b) : LexBefore a b := by
  obtain ⟨c, n, p, h1, h2, h3, h4⟩ := vser_spec (show v < 2 ^ 64 by omega)
  obtain ⟨c', n', p', h1', h2', h3', h4'⟩ := vser_spec hw
  rw [ha] at h1; rw [hb] at h1'
  cases h1; cases h1'
  unfold Code at h4 h4'
  by_cases hc : c < c'
  · exact ⟨[], _, _, _, _, rfl, rfl, by rw [ofNat_toNat_lt h2, ofNat_toNat_lt h2']; exact hc⟩
  · have : c = c' ∧ n = n' ∧ p < p' := by omega
    obtain ⟨rfl, rfl, hp⟩ := this
    exact (bytesBE_lex hp h3').cons _

/-! ## Changesets -/

/-- The encoding of `v`, for `v` below `2 ^ 64`. -/
def encV (v : Nat) : List UInt8 :=
  match vserializeInt v with
  | .ok a => a
  | .error _ => []

theorem vser_encV {v : Nat} (hv : v < 2 ^ 64) : vserializeInt v = .ok (encV v) := by
  obtain ⟨c, n, p, h1, _⟩ := vser_spec hv
  simp [encV, h1]

theorem encV_length {v : Nat} (hv : v < 2 ^ 64) : 1 ≤ (encV v).length ∧ (encV v).length ≤ 9 := by
  obtain ⟨c, n, p, h1, h2, h3, h4⟩ := vser_spec hv
  simp only [encV, h1, List.length_cons, bytesBE_length]
  unfold Code at h4
  omega

theorem vdeser_nil : vdeserializeInt [] = .error .runtimeError := rfl

theorem vdeser_prefix {v : Nat} (hv : v < 2 ^ 64) {t rest : List UInt8}
    (ht : t <+: encV v ++ rest) :
    (t.length < (encV v).length ∧ vdeserializeInt t = .error .runtimeError) ∨
    (∃ t', t = encV v ++ t' ∧ t' <+: rest ∧ vdeserializeInt t = .ok (v, t')) := by
  obtain ⟨c, n, p, h1, h2, h3, h4⟩ := vser_spec hv
  have he : encV v = UInt8.ofNat c :: bytesBE n p := by simp [encV, h1]
  rw [he] at ht ⊢
  cases t with
  | nil => left; exact ⟨by simp, rfl⟩
  | cons b t =>
    rw [List.cons_append, List.cons_prefix_cons] at ht
    obtain ⟨rfl, ht⟩ := ht
    rcases vdeser_code h2 h3 h4 t rest ht with ⟨h5, h6⟩ | ⟨t', h5, h6, h7⟩
    · left; exact ⟨by simp [bytesBE_length]; exact h5, h6⟩
    · right; exact ⟨t', by rw [h5]; rfl, h6, h7⟩

/-- Outcome of deserializing a truncated stream whose complete items are `ys`. -/
def Good (r : List (PatchItem UInt8) × Option PyErr) (ys : List (PatchItem UInt8))
    (full : Prop) : Prop :=
  r.1 <+: ys ∧ (r.2 = none ∨ r.2 = some .runtimeError) ∧ (full → r = (ys, none))

theorem deser_nil (f : Nat) (nb : Bool) : deserializeLoop f nb [] = ([], none) := by
  cases f <;> simp [deserializeLoop]

theorem good_bytes {b rest t : List UInt8} {ys : List (PatchItem UInt8)} {fuel : Nat}
    (hb : b.length < 2 ^ 64) (ht : t <+: encV b.length ++ (b ++ rest)) (hf : t.length ≤ fuel)
    (ih : ∀ t' f', t' <+: rest → t'.length ≤ f' →
      Good (deserializeLoop f' false t') ys (t' = rest)) :
    Good (deserializeLoop fuel true t) (if b = [] then ys else .piece b :: ys)
      (t = encV b.length ++ (b ++ rest)) := by
  have hel := encV_length hb
  cases t with
  | nil =>
    rw [deser_nil]
    refine ⟨by simp, Or.inl rfl, fun h => ?_⟩
    have := congrArg List.length h
    simp at this; omega
  | cons t0 ts =>
    cases fuel with
    | zero => simp at hf
    | succ f =>
      rcases vdeser_prefix hb ht with ⟨h1, h2⟩ | ⟨t', h1, h2, h3⟩
      · simp only [deserializeLoop, h2]
        refine ⟨by simp, Or.inr (by simp), fun h => ?_⟩
        rw [h] at h1; simp at h1; omega
      · have hlen := congrArg List.length h1
        simp only [List.length_append, List.length_cons] at hlen
        simp only [List.length_cons] at hf
        simp only [deserializeLoop, h3]
        simp only [List.length_cons, if_neg (show ¬ ts.length + 1 = 0 by omega), if_true]
        rw [h1]
        by_cases hbe : b = []
        · subst hbe
          simp only [List.length_nil, ne_eq, not_true_eq_false, if_false, List.drop_zero, if_true]
          simp only [List.nil_append] at h2
          obtain ⟨g1, g2, g3⟩ := ih t' f h2 (by omega)
          refine ⟨g1, g2, fun h => g3 ?_⟩
          exact List.append_cancel_left h
        · have hb0 : b.length ≠ 0 := by simpa using hbe
          simp only [ne_eq, hb0, not_false_eq_true, if_true, hbe, if_false]
          split
          · next hsh =>
            refine ⟨by simp, Or.inr rfl, fun h => ?_⟩
            have := List.append_cancel_left h
            rw [this] at hsh; simp at hsh; omega
          · next hsh =>
            obtain ⟨q, hq⟩ := h2
            have e1 : t'.take b.length = b := by
              have := congrArg (List.take b.length) hq
              rw [List.take_append_of_le_length (by omega), List.take_left' rfl] at this
              exact this
            have e2 : t' = b ++ t'.drop b.length := by
              conv => lhs; rw [← List.take_append_drop b.length t', e1]
            have e3 : t'.drop b.length <+: rest := by
              refine ⟨q, ?_⟩
              rw [e2, List.append_assoc] at hq
              exact List.append_cancel_left hq
            obtain ⟨g1, g2, g3⟩ := ih _ f e3 (by simp; omega)
            rw [e1]
            refine ⟨(List.cons_prefix_cons).2 ⟨rfl, g1⟩, g2, fun h => ?_⟩
            have := List.append_cancel_left h
            rw [e2] at this
            have := g3 (List.append_cancel_left this)
            rw [this]

theorem good_slice {s e : Nat} {rest t : List UInt8} {ys : List (PatchItem UInt8)} {fuel : Nat}
    (hs : s < 2 ^ 64) (he : e < 2 ^ 64) (ht : t <+: encV s ++ (encV e ++ rest))
    (hf : t.length ≤ fuel)
    (ih : ∀ t' f', t' <+: rest → t'.length ≤ f' →
      Good (deserializeLoop f' true t') ys (t' = rest)) :
    Good (deserializeLoop fuel false t) (if s = e then ys else .slice ⟨s, some e⟩ :: ys)
      (t = encV s ++ (encV e ++ rest)) := by
  have hel := encV_length hs
  have hel' := encV_length he
  cases t with
  | nil =>
    rw [deser_nil]
    refine ⟨by simp, Or.inl rfl, fun h => ?_⟩
    have := congrArg List.length h
    simp at this; omega
  | cons t0 ts =>
    cases fuel with
    | zero => simp at hf
    | succ f =>
      rcases vdeser_prefix hs ht with ⟨h1, h2⟩ | ⟨t', h1, h2, h3⟩
      · simp only [deserializeLoop, h2]
        refine ⟨by simp, Or.inr (by simp), fun h => ?_⟩
        rw [h] at h1; simp at h1; omega
      · have hlen := congrArg List.length h1
        simp only [List.length_append, List.length_cons] at hlen
        simp only [List.length_cons] at hf
        simp only [deserializeLoop, h3]
        simp only [List.length_cons, if_neg (show ¬ ts.length + 1 = 0 by omega)]
        rw [h1]
        rcases vdeser_prefix he h2 with ⟨k1, k2⟩ | ⟨t'', k1, k2, k3⟩
        · simp only [k2]
          refine ⟨by simp, Or.inr (by simp), fun h => ?_⟩
          have := List.append_cancel_left h
          rw [this] at k1; simp at k1; omega
        · simp only [k3]
          have hlen' := congrArg List.length k1
          simp only [List.length_append] at hlen'
          obtain ⟨g1, g2, g3⟩ := ih t'' f k2 (by omega)
          have hfull : encV s ++ t' = encV s ++ (encV e ++ rest) → t'' = rest := by
            intro h
            have := List.append_cancel_left h
            rw [k1] at this
            exact List.append_cancel_left this
          by_cases hse : s = e
          · simp only [hse, if_true, ne_eq, not_true_eq_false, if_false]
            exact ⟨g1, g2, fun h => g3 (hfull (by rw [hse]; exact h))⟩
          · simp only [hse, ne_eq, not_false_eq_true, if_true, if_false]
            refine ⟨(List.cons_prefix_cons).2 ⟨rfl, g1⟩, g2, fun h => ?_⟩
            rw [g3 (hfull h)]; rfl

/-- The bytes written for a changeset. -/
def encAll : Bool → List (PatchItem UInt8) → List UInt8
  | _, [] => []
  | true, .piece b :: rest => encV b.length ++ (b ++ encAll false rest)
  | false, .piece b :: rest => encV 0 ++ (encV 0 ++ (encV b.length ++ (b ++ encAll false rest)))
  | true, .slice sl :: rest =>
    encV 0 ++ (encV sl.start ++ (encV (sl.stop.getD 0) ++ encAll true rest))
  | false, .slice sl :: rest => encV sl.start ++ (encV (sl.stop.getD 0) ++ encAll true rest)

theorem serializeLoop_spec : ∀ (cs : List (PatchItem UInt8)) (nb : Bool) (acc : List UInt8),
    (∀ c ∈ cs, c.Fits) → serializeLoop nb acc cs = .ok (acc ++ encAll nb cs) := by
  intro cs
  have h0 : vserializeInt 0 = .ok (encV 0) := vser_encV (v := 0) (by omega)
  induction cs with
  | nil => intro nb acc _; simp [serializeLoop, encAll]
  | cons c cs ih =>
    intro nb acc hfit
    have hc := hfit c (by simp)
    have hcs : ∀ c ∈ cs, c.Fits := fun c h => hfit c (by simp [h])
    cases c with
    | piece b =>
      have hb : b.length < 2 ^ 64 := hc
      cases nb with
      | true =>
        simp only [serializeLoop, encAll, vser_encV hb, if_true]
        refine (ih false _ hcs).trans ?_
        simp
      | false =>
        simp only [serializeLoop, encAll, vser_encV hb, h0, Bool.false_eq_true, if_false]
        refine (ih false _ hcs).trans ?_
        simp
    | slice sl =>
      obtain ⟨st, sp⟩ := sl
      obtain ⟨hs, e, hsp, he⟩ := hc
      simp only at hs hsp
      subst hsp
      cases nb with
      | true =>
        simp only [serializeLoop, encAll, vserializeStop, vser_encV hs, vser_encV he, h0, if_true,
          Option.getD_some]
        refine (ih true _ hcs).trans ?_
        simp
      | false =>
        simp only [serializeLoop, encAll, vserializeStop, vser_encV hs, vser_encV he, h0,
          Bool.false_eq_true, if_false, Option.getD_some]
        refine (ih true _ hcs).trans ?_
        simp

/-- Whether `serialize_changeset` expects bytes after the items. -/
def nextBytes : Bool → List (PatchItem UInt8) → Bool
  | nb, [] => nb
  | _, .piece _ :: rest => nextBytes false rest
  | _, .slice _ :: rest => nextBytes true rest

theorem serializeLoop_append : ∀ (cs more : List (PatchItem UInt8)) (nb : Bool) (acc : List UInt8),
    (∀ c ∈ cs, c.Fits) →
    serializeLoop nb acc (cs ++ more) = serializeLoop (nextBytes nb cs) (acc ++ encAll nb cs) more := by
  intro cs more
  have h0 : vserializeInt 0 = .ok (encV 0) := vser_encV (v := 0) (by omega)
  induction cs with
  | nil => intro nb acc _; simp [nextBytes, encAll]
  | cons c cs ih =>
    intro nb acc hfit
    have hc := hfit c (by simp)
    have hcs : ∀ c ∈ cs, c.Fits := fun c h => hfit c (by simp [h])
    cases c with
    | piece b =>
      have hb : b.length < 2 ^ 64 := hc
      cases nb with
      | true =>
        simp only [List.cons_append, serializeLoop, encAll, vser_encV hb, if_true]
        refine (ih false _ hcs).trans ?_
        simp [nextBytes]
      | false =>
        simp only [List.cons_append, serializeLoop, encAll, vser_encV hb, h0, Bool.false_eq_true, if_false]
        refine (ih false _ hcs).trans ?_
        simp [nextBytes]
    | slice sl =>
      obtain ⟨st, sp⟩ := sl
      obtain ⟨hs, e, hsp, he⟩ := hc
      simp only at hs hsp
      subst hsp
      cases nb with
      | true =>
        simp only [List.cons_append, serializeLoop, encAll, vserializeStop, vser_encV hs, vser_encV he,
          h0, if_true, Option.getD_some]
        refine (ih true _ hcs).trans ?_
        simp [nextBytes]
      | false =>
        simp only [List.cons_append, serializeLoop, encAll, vserializeStop, vser_encV hs, vser_encV he,
          h0, Bool.false_eq_true, if_false, Option.getD_some]
        refine (ih true _ hcs).trans ?_
        simp [nextBytes]

theorem deserialize_spec : ∀ (cs : List (PatchItem UInt8)) (nb : Bool) (t : List UInt8)
    (fuel : Nat), (∀ c ∈ cs, c.Fits) → t <+: encAll nb cs → t.length ≤ fuel →
    Good (deserializeLoop fuel nb t) (cs.filter (·.isNonempty)) (t = encAll nb cs) := by
  intro cs
  have h0 : (0 : Nat) < 2 ^ 64 := by omega
  induction cs with
  | nil =>
    intro nb t fuel _ ht _
    have : t = [] := by simpa [encAll] using ht
    subst this
    rw [deser_nil]
    exact ⟨by simp, Or.inl rfl, fun _ => rfl⟩
  | cons c cs ih =>
    intro nb t fuel hfit ht hf
    have hc := hfit c (by simp)
    have hcs : ∀ c ∈ cs, c.Fits := fun c h => hfit c (by simp [h])
    cases c with
    | piece b =>
      have hb : b.length < 2 ^ 64 := hc
      have efilter : (PatchItem.piece b :: cs).filter (·.isNonempty) =
          if b = [] then cs.filter (·.isNonempty) else .piece b :: cs.filter (·.isNonempty) := by
        cases b <;> simp [PatchItem.isNonempty]
      rw [efilter]
      have main : ∀ t fuel, t <+: encV b.length ++ (b ++ encAll false cs) → t.length ≤ fuel → _ :=
        fun t fuel ht hf => good_bytes (fuel := fuel) hb ht hf
          (fun t' f' h1 h2 => ih false t' f' hcs h1 h2)
      cases nb with
      | true => exact main t fuel ht hf
      | false =>
        have := good_slice (s := 0) (e := 0) h0 h0 ht hf main
        simpa [encAll] using this
    | slice sl =>
      obtain ⟨st, sp⟩ := sl
      obtain ⟨hs, e, hsp, he⟩ := hc
      simp only at hs hsp
      subst hsp
      have efilter : (PatchItem.slice ⟨st, some e⟩ :: cs).filter (·.isNonempty) =
          if st = e then cs.filter (·.isNonempty)
          else .slice ⟨st, some e⟩ :: cs.filter (·.isNonempty) := by
        by_cases h : st = e
        · simp [PatchItem.isNonempty, h]
        · have : ¬ e = st := fun h' => h h'.symm
          simp [PatchItem.isNonempty, h, this]
      rw [efilter]
      have main : ∀ t fuel, t <+: encV st ++ (encV e ++ encAll true cs) → t.length ≤ fuel → _ :=
        fun t fuel ht hf => good_slice (fuel := fuel) hs he ht hf
          (fun t' f' h1 h2 => ih true t' f' hcs h1 h2)
      cases nb with
      | false => exact main t fuel ht hf
      | true =>
        have := good_bytes (b := []) (fuel := fuel) (t := t) (by simp) (by simpa [encAll] using ht) hf main
        simpa [encAll] using this

/-! ## Arbitrary byte strings -/

theorem vdeser_total (s : List UInt8) :
    vdeserializeInt s = .error .runtimeError ∨
    ∃ v s', vdeserializeInt s = .ok (v, s') ∧ s'.length < s.length := by
  unfold vdeserializeInt
  by_cases h0 : s.length < 1
  · left; rw [if_pos h0]
  rw [if_neg h0]
  dsimp only
  generalize fromBytes (s.take 1) = a0
  by_cases h1 : a0 ≤ 240
  · right; rw [if_pos h1]; exact ⟨_, _, rfl, by simp; omega⟩
  rw [if_neg h1]
  by_cases h2 : 241 ≤ a0 ∧ a0 ≤ 248
  · rw [if_pos h2]
    by_cases h3 : s.length < 2
    · left; rw [if_pos h3]
    · right; rw [if_neg h3]; exact ⟨_, _, rfl, by simp; omega⟩
  rw [if_neg h2]
  by_cases h3 : a0 = 249
  · rw [if_pos h3]
    by_cases h4 : s.length < 3
    · left; rw [if_pos h4]
    · right; rw [if_neg h4]; exact ⟨_, _, rfl, by simp; omega⟩
  rw [if_neg h3]
  by_cases h4 : s.length < a0 - 246
  · left; rw [if_pos h4]
  · right; rw [if_neg h4]; exact ⟨_, _, rfl, by simp; omega⟩

theorem deserialize_total : ∀ (fuel : Nat) (nb : Bool) (s : List UInt8), s.length ≤ fuel →
    (∀ c ∈ (deserializeLoop fuel nb s).1, c.isNonempty = true) ∧
      ((deserializeLoop fuel nb s).2 = none ∨
        (deserializeLoop fuel nb s).2 = some .runtimeError) := by
  intro fuel
  induction fuel with
  | zero =>
    intro nb s hs
    have : s = [] := List.eq_nil_of_length_eq_zero (by omega)
    subst this
    rw [deser_nil]; simp
  | succ f ih =>
    intro nb s hs
    by_cases hz : s.length = 0
    · simp [deserializeLoop, hz]
    unfold deserializeLoop
    rw [if_neg hz]
    cases nb with
    | true =>
      rw [if_pos rfl]
      rcases vdeser_total s with h | ⟨v, s', h, hl⟩
      · simp [h]
      · simp only [h]
        by_cases hv : v ≠ 0
        · rw [if_pos hv]
          by_cases hlt : s'.length < v
          · rw [if_pos hlt]; simp
          · rw [if_neg hlt]
            obtain ⟨i1, i2⟩ := ih false (s'.drop v) (by simp; omega)
            refine ⟨?_, i2⟩
            intro c hc
            simp only [List.mem_cons] at hc
            rcases hc with rfl | hc
            · simp only [PatchItem.isNonempty, Bool.not_eq_true', List.isEmpty_eq_false_iff]
              intro h0
              have := congrArg List.length h0
              rw [List.length_take, List.length_nil] at this
              omega
            · exact i1 c hc
        · rw [if_neg hv]
          exact ih false (s'.drop v) (by simp; omega)
    | false =>
      rw [if_neg (by simp)]
      rcases vdeser_total s with h | ⟨v, s', h, hl⟩
      · simp [h]
      · simp only [h]
        rcases vdeser_total s' with h' | ⟨v', s'', h', hl'⟩
        · simp [h']
        · simp only [h']
          obtain ⟨i1, i2⟩ := ih true s'' (by omega)
          by_cases hv : v ≠ v'
          · rw [if_pos hv]
            refine ⟨?_, i2⟩
            intro c hc
            simp only [List.mem_cons] at hc
            rcases hc with rfl | hc
            · simp [PatchItem.isNonempty]; exact fun h => hv h.symm
            · exact i1 c hc
          · rw [if_neg hv]; exact ⟨i1, i2⟩

end Gaspra
