import Verif.Spec.Tokenizers
import Verif.Proofs.Utf8
import Verif.Proofs.Dict

set_option linter.unusedSectionVars false
set_option linter.unusedSimpArgs false
set_option linter.unusedVariables false

/-! # Tokenizers -/

namespace Gaspra

/-! ### Numbering -/

section
variable {β : Type _} [DecidableEq β]

/-- Keys are numbered in insertion order. -/
def NumOK (enc : List (β × Nat)) : Prop :=
  (enc.map Prod.fst).Nodup ∧ enc = (enc.map Prod.fst).zipIdx

theorem NumOK.dget_some {enc : List (β × Nat)} (h : NumOK enc) {p : β} {i : Nat} :
    dget enc p = some i ↔ (enc.map Prod.fst)[i]? = some p := by
  have hm : (p, i) ∈ enc ↔ (enc.map Prod.fst)[i]? = some p := by
    conv => lhs; rw [h.2]
    rw [List.mk_mem_zipIdx_iff_getElem?]
  rw [← hm]
  exact ⟨mem_of_dget, dget_of_mem h.1⟩

theorem NumOK.add {enc : List (β × Nat)} (h : NumOK enc) {t : β} (ht : dmem enc t = false) :
    NumOK (dset enc t enc.length) ∧
      (dset enc t enc.length).map Prod.fst = enc.map Prod.fst ++ [t] := by
  have hn : dget enc t = none := by
    unfold dmem at ht; cases hd : dget enc t <;> simp [hd] at ht ⊢
  have hset : ∀ (d : List (β × Nat)) v, dget d t = none → dset d t v = d ++ [(t, v)] := by
    intro d v
    induction d with
    | nil => intro _; rfl
    | cons x d ih =>
      intro hd
      obtain ⟨k, w⟩ := x
      simp only [dget] at hd
      split at hd
      · cases hd
      · next hk => simp only [dset, if_neg hk, ih hd, List.cons_append]
  rw [hset enc _ hn]
  have hnm : t ∉ enc.map Prod.fst := by
    intro hm
    obtain ⟨x, hx, rfl⟩ := List.mem_map.1 hm
    exact dget_eq_none_iff.1 hn x hx rfl
  refine ⟨⟨?_, ?_⟩, by simp⟩
  · rw [List.map_append, List.nodup_append]
    refine ⟨h.1, by simp, ?_⟩
    rintro a ha b hb rfl
    simp at hb
    exact hnm (hb ▸ ha)
  · rw [List.map_append, List.zipIdx_append, ← h.2]
    simp

theorem numberTokens_spec : ∀ (ts : List β) {enc : List (β × Nat)}, NumOK enc →
    NumOK (numberTokens enc ts) ∧
    (∃ more, (numberTokens enc ts).map Prod.fst = enc.map Prod.fst ++ more ∧ ∀ m ∈ more, m ∈ ts) ∧
    ∀ t ∈ ts, t ∈ (numberTokens enc ts).map Prod.fst
  | [], enc, h => ⟨h, ⟨[], by simp [numberTokens]⟩, by simp⟩
  | t :: ts, enc, h => by
    simp only [numberTokens]
    cases hm : dmem enc t with
    | true =>
      obtain ⟨a1, ⟨more, a2, a4⟩, a3⟩ := numberTokens_spec ts h
      refine ⟨a1, ⟨more, a2, fun m hm => by simp [a4 m hm]⟩, ?_⟩
      intro x hx
      rcases List.mem_cons.1 hx with rfl | hx
      · simp only [if_true, a2]
        unfold dmem at hm
        obtain ⟨v, hv⟩ := Option.isSome_iff_exists.1 hm
        exact List.mem_append_left _ (List.mem_map.2 ⟨_, mem_of_dget hv, rfl⟩)
      · exact a3 x hx
    | false =>
      obtain ⟨b1, b2⟩ := h.add hm
      obtain ⟨a1, ⟨more, a2, a4⟩, a3⟩ := numberTokens_spec ts b1
      simp only [Bool.false_eq_true, if_false]
      rw [b2] at a2
      refine ⟨a1, ⟨t :: more, by rw [a2]; simp, ?_⟩, ?_⟩
      · intro m hm'
        rcases List.mem_cons.1 hm' with rfl | hm'
        · simp
        · simp [a4 m hm']
      · intro x hx
        rcases List.mem_cons.1 hx with rfl | hx
        · rw [a2]; simp
        · exact a3 x hx

theorem lookupTokens_spec {enc : List (β × Nat)} (h : NumOK enc) : ∀ {ts : List β},
    (∀ t ∈ ts, t ∈ enc.map Prod.fst) →
    ∃ toks, lookupTokens enc ts = some toks ∧
      toks.map (fun i => (enc.map Prod.fst)[i]?) = ts.map some
  | [], _ => ⟨[], rfl, rfl⟩
  | t :: ts, hk => by
    obtain ⟨toks, h1, h2⟩ := lookupTokens_spec h (ts := ts) fun x hx => hk x (by simp [hx])
    obtain ⟨i, hi⟩ := List.mem_iff_getElem?.1 (hk t (by simp))
    refine ⟨i :: toks, by simp [lookupTokens, h.dget_some.2 hi, h1], ?_⟩
    simp only [List.map_cons, hi, h2]

end

theorem lookupDecoding_iff {d : List Text} : ∀ {toks : List Nat} {ps : List Text},
    lookupDecoding d toks = some ps ↔ toks.map (fun i => d[i]?) = ps.map some
  | [], ps => by cases ps <;> simp [lookupDecoding]
  | t :: toks, ps => by
    have ih := fun ps => lookupDecoding_iff (d := d) (toks := toks) (ps := ps)
    simp only [lookupDecoding]
    cases hd : d[t]? with
    | none =>
      cases ps with
      | nil => simp
      | cons p ps => simp [hd]
    | some p =>
      cases hl : lookupDecoding d toks with
      | none =>
        cases ps with
        | nil => simp
        | cons q ps =>
          have := ih ps
          rw [hl] at this
          simp only [List.map_cons, hd, List.cons.injEq]
          constructor
          · intro h; cases h
          · rintro ⟨_, h⟩; exact absurd (this.2 h) (by simp)
      | some r =>
        cases ps with
        | nil => simp
        | cons q ps =>
          have := ih ps
          rw [hl] at this
          simp only [List.map_cons, hd, List.cons.injEq, Option.some.injEq]
          rw [← this]; simp

theorem joinTexts_bytes : ∀ (bs : List Bytes),
    joinTexts .bytes (bs.map .bytes) = .ok (.bytes bs.flatten)
  | [] => rfl
  | b :: bs => by simp [joinTexts, joinTexts_bytes bs]

theorem joinTexts_str : ∀ (ss : List PyStr),
    joinTexts .str (ss.map .str) = .ok (.str ss.flatten)
  | [] => rfl
  | s :: ss => by simp [joinTexts, joinTexts_str ss]

theorem joinTexts_spells {x : Text} {ps : List Text} (h : Spells x ps) :
    joinTexts x.type ps = .ok x := by
  cases x with
  | bytes b => obtain ⟨bs, rfl, rfl⟩ := h; exact joinTexts_bytes bs
  | str s => obtain ⟨ss, rfl, rfl⟩ := h; exact joinTexts_str ss

theorem Spells.type {x : Text} {ps : List Text} (h : Spells x ps) : ∀ p ∈ ps, p.type = x.type := by
  cases x with
  | bytes b =>
    obtain ⟨bs, rfl, _⟩ := h
    intro p hp; obtain ⟨q, _, rfl⟩ := List.mem_map.1 hp; rfl
  | str s =>
    obtain ⟨bs, rfl, _⟩ := h
    intro p hp; obtain ⟨q, _, rfl⟩ := List.mem_map.1 hp; rfl

/-! ### `LineTokenizer` and `SymbolTokenizer` in common -/

/-- The table of pieces. -/
def DictTok.table (st : DictTok) : List Text := st.encoding.map Prod.fst

/-- Invariant of the two tokenizers with a dictionary. -/
structure DictInv (st : DictTok) : Prop where
  num : NumOK st.encoding
  dec : ∀ {d}, st.decoding = some d → d = st.table
  typ : ∀ {p}, p ∈ st.table → st.src = some p.type

theorem DictInv.new : DictInv .new where
  num := by refine ⟨by simp [DictTok.new], by simp [DictTok.new]⟩
  dec := by intro d h; simp [DictTok.new] at h
  typ := by intro p h; simp [DictTok.table, DictTok.new] at h

theorem DictInv.setSrc {st : DictTok} (h : DictInv st) {x : Text}
    (hx : wrongType st.src x = false) : DictInv { st with src := some x.type } where
  num := h.num
  dec := h.dec
  typ := by
    intro p hp
    have := h.typ hp
    rw [this] at hx
    simp only [wrongType, decide_eq_false_iff_not, ne_eq, Decidable.not_not] at hx
    simp [hx]

theorem DictInv.number {st : DictTok} (h : DictInv st) {pieces : List Text} {t : SrcType}
    (hs : st.src = some t) (ht : ∀ p ∈ pieces, p.type = t) :
    ∃ toks, (st.number pieces).2 = .ok toks ∧ DictInv (st.number pieces).1 ∧
      (st.number pieces).1.src = st.src ∧
      (st.number pieces).1.decoding = some (st.number pieces).1.table ∧
      (∃ more, (st.number pieces).1.table = st.table ++ more) ∧
      toks.map (fun i => (st.number pieces).1.table[i]?) = pieces.map some := by
  obtain ⟨a1, ⟨more, a2, a4⟩, a3⟩ := numberTokens_spec pieces h.num
  obtain ⟨toks, b1, b2⟩ := lookupTokens_spec a1 a3
  have e : st.number pieces = (DictTok.mk st.src (numberTokens st.encoding pieces)
      (some ((numberTokens st.encoding pieces).map Prod.fst)), .ok toks) := by
    simp only [DictTok.number, b1]
  rw [e]
  refine ⟨toks, rfl, ⟨a1, ?_, ?_⟩, rfl, rfl, ⟨more, a2⟩, b2⟩
  · intro d hd; simp at hd; exact hd.symm
  · intro p hp
    simp only [DictTok.table, a2, List.mem_append] at hp
    rcases hp with hp | hp
    · exact h.typ hp
    · simp only [hs, ht p (a4 p hp)]

theorem DictInv.decode {st : DictTok} (h : DictInv st) {x : Text} {ps : List Text}
    (hd : st.decoding = some st.table) (hs : st.src = some x.type) (hx : Spells x ps)
    {toks : List Nat} (ht : toks.map (fun i => st.table[i]?) = ps.map some) :
    st.decode toks = .ok x := by
  unfold DictTok.decode
  rw [hd]
  simp only [lookupDecoding_iff.2 ht, hs, Option.some.injEq]
  have : (if x.type = SrcType.bytes then SrcType.bytes else SrcType.str) = x.type := by
    cases x <;> simp [Text.type]
  rw [this]
  exact joinTexts_spells hx

/-- What the two tokenizers have in common: `Good` texts are cut into pieces and numbered, other
texts only set the type. -/
structure DictLike (encode : DictTok → Text → DictTok × Except PyErr (List Nat))
    (Good : Text → Prop) (pieces : Text → List Text) : Prop where
  wrong : ∀ st x, wrongType st.src x = true → encode st x = (st, .error .runtimeError)
  good : ∀ st x, wrongType st.src x = false → Good x →
    encode st x = { st with src := some x.type }.number (pieces x)
  bad : ∀ st x, wrongType st.src x = false → ¬ Good x →
    encode st x = ({ st with src := some x.type }, .error .unicodeError)
  spells : ∀ x, Good x → Spells x (pieces x)

/-- What one call can do to the state. -/
structure DictStep (st st' : DictTok) : Prop where
  inv : DictInv st'
  src : ∀ {t}, st.src = some t → st'.src = some t
  tab : ∃ more, st'.table = st.table ++ more
  dec : st.decoding = some st.table → st'.decoding = some st'.table

theorem DictStep.refl {st : DictTok} (h : DictInv st) : DictStep st st :=
  ⟨h, id, ⟨[], by simp⟩, id⟩

theorem DictStep.trans {a b c : DictTok} (h : DictStep a b) (k : DictStep b c) : DictStep a c :=
  ⟨k.inv, fun e => k.src (h.src e), by
    obtain ⟨m, hm⟩ := h.tab
    obtain ⟨m', hm'⟩ := k.tab
    exact ⟨m ++ m', by rw [hm', hm]; simp⟩, fun e => k.dec (h.dec e)⟩

section
variable {encode : DictTok → Text → DictTok × Except PyErr (List Nat)} {Good : Text → Prop}
  {pieces : Text → List Text} (D : DictLike encode Good pieces)

theorem setSrc_step {st : DictTok} (h : DictInv st) {x : Text}
    (hx : wrongType st.src x = false) : DictStep st { st with src := some x.type } := by
  refine ⟨h.setSrc hx, ?_, ⟨[], by simp [DictTok.table]⟩, id⟩
  intro t ht
  rw [ht] at hx
  simp only [wrongType, decide_eq_false_iff_not, ne_eq, Decidable.not_not] at hx
  simp [hx]

include D in
theorem DictLike.encode_good {st : DictTok} (h : DictInv st) {x : Text} (hx : Good x)
    (hw : wrongType st.src x = false) :
    ∃ toks, (encode st x).2 = .ok toks ∧ DictStep st (encode st x).1 ∧
      (encode st x).1.src = some x.type ∧
      (encode st x).1.decoding = some (encode st x).1.table ∧
      toks.map (fun i => (encode st x).1.table[i]?) = (pieces x).map some := by
  rw [D.good st x hw hx]
  have S := setSrc_step h hw
  obtain ⟨toks, h1, h2, h3, h4, h5, h6⟩ := S.inv.number (t := x.type) rfl (D.spells x hx).type
  refine ⟨toks, h1, ⟨h2, ?_, ?_, fun _ => h4⟩, h3, h4, h6⟩
  · intro t ht; rw [h3]; exact S.src ht
  · exact h5

include D in
theorem DictLike.step {st : DictTok} (h : DictInv st) (x : Text) : DictStep st (encode st x).1 := by
  cases hw : wrongType st.src x with
  | true => rw [D.wrong st x hw]; exact .refl h
  | false =>
    by_cases hx : Good x
    · obtain ⟨_, _, h2, _⟩ := D.encode_good h hx hw
      exact h2
    · rw [D.bad st x hw hx]; exact setSrc_step h hw

include D in
theorem DictLike.steps (calls : List Text) : ∀ {st : DictTok}, DictInv st →
    DictStep st (calls.foldl (fun st y => (encode st y).1) st) := by
  induction calls with
  | nil => intro st h; exact .refl h
  | cons x calls ih => intro st h; exact (D.step h x).trans (ih (D.step h x).inv)

/-- The type is fixed by the first call. -/
theorem DictLike.src_first (D : DictLike encode Good pieces) (y : Text) (calls : List Text) :
    ((y :: calls).foldl (fun st y => (encode st y).1) DictTok.new).src = some y.type := by
  have h0 : wrongType DictTok.new.src y = false := rfl
  have h1 : (encode .new y).1.src = some y.type := by
    by_cases hx : Good y
    · obtain ⟨_, _, _, h3, _⟩ := D.encode_good .new hx h0
      exact h3
    · rw [D.bad _ y h0 hx]
  exact (D.steps calls (D.step .new y).inv).src h1

theorem table_lookup {st st' : DictTok} (h : ∃ more, st'.table = st.table ++ more) {i : Nat}
    {p : Text} (hp : st.table[i]? = some p) : st'.table[i]? = some p := by
  obtain ⟨more, e⟩ := h
  rw [e, List.getElem?_append_left (List.getElem?_eq_some_iff.1 hp).1, hp]

theorem table_map {st st' : DictTok} (h : ∃ more, st'.table = st.table ++ more) {toks : List Nat}
    {ps : List Text} (hp : toks.map (fun i => st.table[i]?) = ps.map some) :
    toks.map (fun i => st'.table[i]?) = ps.map some := by
  rw [← hp]
  apply List.map_congr_left
  intro t ht
  have : st.table[t]? ∈ ps.map some := by rw [← hp]; exact List.mem_map.2 ⟨t, ht, rfl⟩
  obtain ⟨p, _, hp'⟩ := List.mem_map.1 this
  rw [← hp', table_lookup h hp'.symm]

theorem wrongType_after (D : DictLike encode Good pieces) {x : Text} {calls : List Text}
    (h : FirstCallLike x calls) :
    wrongType (calls.foldl (fun st y => (encode st y).1) DictTok.new).src x = false := by
  cases calls with
  | nil => rfl
  | cons y calls =>
    rw [D.src_first y calls]
    simp [wrongType, h y rfl]

/-- Losslessness of both. -/
theorem DictLike.lossless (D : DictLike encode Good pieces)
    (dseq : List Nat → List Nat → Option (List (Item (List Nat)))) :
    Lossless ⟨DictTok.new, encode, DictTok.decode, dseq⟩ Good := by
  intro before after x hx hf
  have S0 := D.steps before .new
  obtain ⟨toks, h1, h2, h3, h4, h5⟩ := D.encode_good S0.inv hx (wrongType_after D hf)
  refine ⟨toks, h1, ?_⟩
  have S1 := D.steps after h2.inv
  have e : tokAfter ⟨DictTok.new, encode, DictTok.decode, dseq⟩ (before ++ x :: after) =
      after.foldl (fun st y => (encode st y).1)
        (encode (before.foldl (fun st y => (encode st y).1) DictTok.new) x).1 := by
    simp [tokAfter, List.foldl_append]
  rw [e]
  exact S1.inv.decode (S1.dec h4) (S1.src h3) (D.spells x hx) (table_map S1.tab h5)

theorem DictLike.mixed (D : DictLike encode Good pieces) {x y : Text} (calls : List Text)
    (hxy : x.type ≠ y.type) :
    encode ((y :: calls).foldl (fun st y => (encode st y).1) DictTok.new) x =
      ((y :: calls).foldl (fun st y => (encode st y).1) DictTok.new, .error .runtimeError) := by
  apply D.wrong
  rw [D.src_first y calls]
  simp only [wrongType, ne_eq, decide_eq_true_eq]
  exact fun e => hxy e.symm

end

/-! ### Lines -/

section
variable {β : Type _} [DecidableEq β]

theorem pySplit_ne (sep : β) (l : List β) : pySplit sep l ≠ [] := by
  cases l with
  | nil => simp [pySplit]
  | cons c l =>
    simp only [pySplit]
    split
    · simp
    · split <;> simp

theorem pySplit_no_sep (sep : β) : ∀ (l : List β), ∀ p ∈ pySplit sep l, sep ∉ p
  | [], p, hp => by simp [pySplit] at hp; subst hp; simp
  | c :: l, p, hp => by
    have ih := pySplit_no_sep sep l
    simp only [pySplit] at hp
    split at hp
    · rcases List.mem_cons.1 hp with rfl | hp
      · simp
      · exact ih p hp
    · next hc =>
      cases hs : pySplit sep l with
      | nil => exact absurd hs (pySplit_ne sep l)
      | cons q qs =>
        rw [hs] at hp ih
        rcases List.mem_cons.1 hp with rfl | hp
        · simp only [List.mem_cons, not_or]
          exact ⟨fun e => hc e.symm, ih q (by simp)⟩
        · exact ih p (by simp [hp])

theorem addSeps_flatten (sep : β) : ∀ (l : List β), (addSeps sep (pySplit sep l)).flatten = l
  | [] => rfl
  | c :: l => by
    have ih := addSeps_flatten sep l
    simp only [pySplit]
    cases hs : pySplit sep l with
    | nil => exact absurd hs (pySplit_ne sep l)
    | cons q qs =>
      rw [hs] at ih
      split
      · next hc =>
        simp only [addSeps, List.nil_append, List.flatten_cons, ih, List.cons_append, hc]
      · cases qs with
        | nil => simpa [addSeps] using ih
        | cons r rs =>
          simp only [addSeps, List.flatten_cons, List.cons_append, List.append_assoc] at ih ⊢
          rw [ih]

theorem addSeps_shape (sep : β) : ∀ (ps : List (List β)), ps ≠ [] → (∀ p ∈ ps, sep ∉ p) →
    ∃ init last, addSeps sep ps = init ++ [last] ∧ sep ∉ last ∧
      ∀ p ∈ init, ∃ q, p = q ++ [sep] ∧ sep ∉ q
  | [], h, _ => absurd rfl h
  | [p], _, h => ⟨[], p, rfl, h p (by simp), by simp⟩
  | p :: q :: ps, _, h => by
    obtain ⟨init, last, h1, h2, h3⟩ := addSeps_shape sep (q :: ps) (by simp)
      fun x hx => h x (by simp [hx])
    refine ⟨(p ++ [sep]) :: init, last, by simp [addSeps, h1], h2, ?_⟩
    intro x hx
    rcases List.mem_cons.1 hx with rfl | hx
    · exact ⟨p, rfl, h p (by simp)⟩
    · exact h3 x hx

theorem isLinesOf (sep : β) (l : List β) : IsLinesOf sep l (addSeps sep (pySplit sep l)) :=
  ⟨addSeps_flatten sep l, addSeps_shape sep _ (pySplit_ne sep l) (pySplit_no_sep sep l)⟩

end

theorem isLines (x : Text) : IsLines x (lineTokens x) := by
  cases x with
  | bytes b => exact ⟨_, rfl, isLinesOf 10 b⟩
  | str s => exact ⟨_, rfl, isLinesOf nl s⟩

theorem IsLines.spells {x : Text} {ps : List Text} (h : IsLines x ps) : Spells x ps := by
  cases x with
  | bytes b => obtain ⟨qs, h1, h2⟩ := h; exact ⟨qs, h1, h2.1⟩
  | str s => obtain ⟨qs, h1, h2⟩ := h; exact ⟨qs, h1, h2.1⟩

theorem lineLike : DictLike lineEncode (fun _ => True) lineTokens where
  wrong := by intro st x h; simp [lineEncode, h]
  good := by intro st x h _; simp [lineEncode, h]
  bad := by intro st x _ h; exact absurd trivial h
  spells := fun x _ => (isLines x).spells

/-! ### Symbols -/

theorem spanClass_append (cls : Nat → Bool) : ∀ (s : PyStr),
    (spanClass cls s).1 ++ (spanClass cls s).2 = s
  | [] => rfl
  | c :: s => by
    simp only [spanClass]
    split
    · simp [spanClass_append cls s]
    · rfl

theorem spanClass_all (cls : Nat → Bool) : ∀ (s : PyStr), AllClass cls (spanClass cls s).1
  | [] => by intro c h; simp [spanClass] at h
  | c :: s => by
    simp only [spanClass]
    split
    · next hc =>
      intro x hx
      rcases List.mem_cons.1 hx with rfl | hx
      · exact hc
      · exact spanClass_all cls s x hx
    · intro x hx; simp at hx

theorem spanClass_stop (cls : Nat → Bool) : ∀ (s : PyStr) {c : Nat} {r : PyStr},
    (spanClass cls s).2 = c :: r → cls c = false
  | [], c, r, h => by simp [spanClass] at h
  | d :: s, c, r, h => by
    simp only [spanClass] at h
    split at h
    · exact spanClass_stop cls s h
    · next hd =>
      simp only [List.cons.injEq] at h
      rw [← h.1]; simpa using hd

theorem symbolsAux_first (cls : Nat → Bool) {f : Nat} {c : Nat} {s : PyStr} {p : PyStr}
    {ps : List PyStr} (h : symbolsAux cls f (c :: s) = p :: ps) : ∃ r, p = c :: r := by
  cases f with
  | zero => simp [symbolsAux] at h
  | succ f =>
    simp only [symbolsAux] at h
    split at h <;> simp only [List.cons.injEq] at h <;> exact ⟨_, h.1.symm⟩

theorem symbolsAux_spec (cls : Nat → Bool) : ∀ (f : Nat) (s : PyStr), s.length ≤ f →
    IsSymbolsOf cls s (symbolsAux cls f s)
  | f, [], _ => by
    have : symbolsAux cls f [] = [] := by cases f <;> rfl
    rw [this]
    exact ⟨rfl, by simp, by intro l p q r h; simp at h⟩
  | 0, _ :: _, h => by simp at h
  | f + 1, c :: s, h => by
    simp only [List.length_cons] at h
    simp only [symbolsAux]
    have key : ∀ (p : PyStr) (s' : PyStr), s'.length ≤ f → p ++ s' = c :: s →
        ((∃ c, p = [c] ∧ cls c = false) ∨ (p ≠ [] ∧ AllClass cls p)) →
        (AllClass cls p → ∀ d r, s' = d :: r → cls d = false) →
        IsSymbolsOf cls (c :: s) (p :: symbolsAux cls f s') := by
      intro p s' hl he hp hstop
      obtain ⟨i1, i2, i3⟩ := symbolsAux_spec cls f s' hl
      refine ⟨by simp only [List.flatten_cons, i1, he], ?_, ?_⟩
      · intro q hq
        rcases List.mem_cons.1 hq with rfl | hq
        · exact hp
        · exact i2 q hq
      · intro l a b r e
        cases l with
        | cons x l =>
          simp only [List.cons_append, List.cons.injEq] at e
          exact i3 l a b r e.2
        | nil =>
          simp only [List.nil_append, List.cons.injEq] at e
          obtain ⟨rfl, e⟩ := e
          rintro ⟨ha, hb⟩
          cases hs' : s' with
          | nil => rw [hs'] at e; cases f <;> simp [symbolsAux] at e
          | cons d s'' =>
            rw [hs'] at e
            obtain ⟨r', rfl⟩ := symbolsAux_first cls e
            have h1 := hstop ha d s'' hs'
            have h2 := hb d (by simp)
            rw [h1] at h2; cases h2
    split
    · next hc =>
      refine key (c :: (spanClass cls s).1) (spanClass cls s).2 ?_ ?_ (Or.inr ⟨by simp, ?_⟩) ?_
      · have := congrArg List.length (spanClass_append cls s)
        simp at this; omega
      · simp [spanClass_append cls s]
      · intro x hx
        rcases List.mem_cons.1 hx with rfl | hx
        · exact hc
        · exact spanClass_all cls s x hx
      · intro _ d r hd; exact spanClass_stop cls s hd
    · next hc =>
      refine key [c] s (by omega) rfl (Or.inl ⟨c, rfl, by simpa using hc⟩) ?_
      intro ha
      exact absurd (ha c (by simp)) hc

theorem symbols_spec (cls : Nat → Bool) (s : PyStr) : IsSymbolsOf cls s (symbols cls s) :=
  symbolsAux_spec cls s.length s (Nat.le_refl _)

theorem spanClass_run (cls : Nat → Bool) : ∀ (p s : PyStr), AllClass cls p →
    (∀ d r, s = d :: r → cls d = false) → spanClass cls (p ++ s) = (p, s)
  | [], s, _, hs => by
    cases s with
    | nil => rfl
    | cons d r => simp [spanClass, hs d r rfl]
  | c :: p, s, hp, hs => by
    have hc := hp c (by simp)
    have := spanClass_run cls p s (fun x hx => hp x (by simp [hx])) hs
    simp [spanClass, hc, this]

/-- The symbols are determined by the specification. -/
theorem symbolsAux_unique (cls : Nat → Bool) : ∀ (ps : List PyStr) (f : Nat) (s : PyStr),
    s.length ≤ f → IsSymbolsOf cls s ps → symbolsAux cls f s = ps
  | [], f, s, _, h => by
    have : s = [] := h.1.symm
    subst this; cases f <;> rfl
  | p :: ps, f, s, hf, h => by
    obtain ⟨h1, h2, h3⟩ := h
    simp only [List.flatten_cons] at h1
    have hrest : IsSymbolsOf cls ps.flatten ps :=
      ⟨rfl, fun q hq => h2 q (by simp [hq]), fun l a b r e => h3 (p :: l) a b r (by simp [e])⟩
    have hpne : p ≠ [] := by
      rcases h2 p (by simp) with ⟨c, rfl, _⟩ | ⟨h, _⟩
      · simp
      · exact h
    obtain ⟨c, p', rfl⟩ := List.exists_cons_of_ne_nil hpne
    subst h1
    simp only [List.cons_append, List.length_cons, List.length_append] at hf
    cases f with
    | zero => omega
    | succ f =>
      simp only [List.cons_append, symbolsAux]
      rcases h2 (c :: p') (by simp) with ⟨d, e, hd⟩ | ⟨_, ha⟩
      · simp only [List.cons.injEq] at e
        obtain ⟨rfl, rfl⟩ := e
        simp only [hd, Bool.false_eq_true, if_false, List.nil_append]
        rw [symbolsAux_unique cls ps f _ (by omega) hrest]
      · have hstop : ∀ d r, ps.flatten = d :: r → cls d = false := by
          intro d r e
          cases ps with
          | nil => simp at e
          | cons q qs =>
            rcases h2 q (by simp) with ⟨d', rfl, hd'⟩ | ⟨hq, hqa⟩
            · simp at e; rw [← e.1]; exact hd'
            · exact absurd ⟨ha, hqa⟩ (h3 [] _ _ qs rfl)
        have hrun := spanClass_run cls p' ps.flatten (fun x hx => ha x (by simp [hx])) hstop
        rw [hrun]
        simp only [ha c (by simp), if_true]
        rw [symbolsAux_unique cls ps f _ (by omega) hrest]

theorem symbols_unique (cls : Nat → Bool) {s : PyStr} {ps : List PyStr} (h : IsSymbolsOf cls s ps) :
    symbols cls s = ps := symbolsAux_unique cls ps s.length s (Nat.le_refl _) h

/-- A run of consecutive symbols is cut the same way again. -/
theorem IsSymbolsOf.infix {cls : Nat → Bool} {s : PyStr} {l m r : List PyStr}
    (h : IsSymbolsOf cls s (l ++ m ++ r)) : IsSymbolsOf cls m.flatten m := by
  obtain ⟨h1, h2, h3⟩ := h
  refine ⟨rfl, fun p hp => h2 p (by simp [hp]), ?_⟩
  intro a p q b e
  exact h3 (l ++ a) p q (b ++ r) (by rw [e]; simp)

theorem encodeAll_iff : ∀ {ss : List PyStr} {bs : List Bytes},
    encodeAll ss = some bs ↔ ss.map utf8Encode = bs.map some
  | [], bs => by cases bs <;> simp [encodeAll]
  | s :: ss, bs => by
    have ih := fun bs => encodeAll_iff (ss := ss) (bs := bs)
    cases bs with
    | nil =>
      simp only [encodeAll, List.map_cons, List.map_nil]
      cases utf8Encode s <;> cases encodeAll ss <;> simp
    | cons b bs =>
      simp only [encodeAll, List.map_cons, List.cons.injEq]
      rw [← ih bs]
      cases utf8Encode s <;> cases encodeAll ss <;> simp

theorem utf8Encode_flatten : ∀ {ss : List PyStr} {bs : List Bytes},
    ss.map utf8Encode = bs.map some → utf8Encode ss.flatten = some bs.flatten
  | [], bs, h => by cases bs <;> simp at h; rfl
  | s :: ss, bs, h => by
    cases bs with
    | nil => simp at h
    | cons b bs =>
      simp only [List.map_cons, List.cons.injEq] at h
      rw [List.flatten_cons, List.flatten_cons]
      exact utf8Encode_append.2 ⟨b, _, h.1, utf8Encode_flatten h.2, rfl⟩

theorem encodeAll_of_flatten : ∀ {ss : List PyStr} {b : Bytes}, utf8Encode ss.flatten = some b →
    ∃ bs, encodeAll ss = some bs ∧ bs.flatten = b
  | [], b, h => by simp [utf8Encode] at h; subst h; exact ⟨[], rfl, rfl⟩
  | s :: ss, b, h => by
    rw [List.flatten_cons] at h
    obtain ⟨x, y, hx, hy, rfl⟩ := utf8Encode_append.1 h
    obtain ⟨bs, h1, h2⟩ := encodeAll_of_flatten hy
    exact ⟨x :: bs, by simp [encodeAll, hx, h1], by simp [h2]⟩

/-- The pieces that `SymbolTokenizer.encode` numbers. -/
def symbolTokens (cls : Nat → Bool) : Text → List Text
  | .bytes b => ((encodeAll (symbols cls ((utf8Decode b).getD []))).getD []).map .bytes
  | .str s => (symbols cls s).map .str

/-- What `SymbolTokenizer` accepts. -/
def Utf8Text : Text → Prop
  | .bytes b => ∃ s, utf8Encode s = some b
  | .str _ => True

theorem symbol_bytes (cls : Nat → Bool) {b : Bytes} {s : PyStr} (h : utf8Encode s = some b) :
    ∃ bs, encodeAll (symbols cls s) = some bs ∧ bs.flatten = b := by
  apply encodeAll_of_flatten
  rw [(symbols_spec cls s).1, h]

theorem isSymbols (cls : Nat → Bool) {x : Text} (hx : Utf8Text x) :
    IsSymbols cls x (symbolTokens cls x) := by
  cases x with
  | str s => exact ⟨_, rfl, symbols_spec cls s⟩
  | bytes b =>
    obtain ⟨s, hs⟩ := hx
    obtain ⟨bs, h1, h2⟩ := symbol_bytes cls hs
    refine ⟨s, symbols cls s, bs, hs, symbols_spec cls s, encodeAll_iff.1 h1, ?_⟩
    simp [symbolTokens, utf8_iff.2 hs, h1]

theorem symbolLike (cls : Nat → Bool) : DictLike (symbolEncode cls) Utf8Text (symbolTokens cls) where
  wrong := by intro st x h; simp [symbolEncode, h]
  good := by
    intro st x h hx
    cases x with
    | str s => simp [symbolEncode, h, symbolTokens, Text.type]
    | bytes b =>
      obtain ⟨s, hs⟩ := hx
      obtain ⟨bs, h1, h2⟩ := symbol_bytes cls hs
      simp [symbolEncode, h, symbolTokens, Text.type, utf8_iff.2 hs, h1]
  bad := by
    intro st x h hx
    cases x with
    | str s => exact absurd trivial hx
    | bytes b =>
      have : utf8Decode b = none := by
        cases hd : utf8Decode b with
        | none => rfl
        | some s => exact absurd ⟨s, utf8_iff.1 hd⟩ hx
      simp [symbolEncode, h, this, Text.type]
  spells := by
    intro x hx
    cases x with
    | str s => exact ⟨_, rfl, (symbols_spec cls s).1⟩
    | bytes b =>
      obtain ⟨s, hs⟩ := hx
      obtain ⟨bs, h1, h2⟩ := symbol_bytes cls hs
      exact ⟨bs, by simp [symbolTokens, utf8_iff.2 hs, h1], h2⟩

/-! ### Characters -/

theorem charJoinStr_ok : ∀ {s : PyStr}, (∀ c ∈ s, c < 0x110000) → charJoinStr s = .ok s
  | [], _ => rfl
  | c :: s, h => by
    simp [charJoinStr, h c (by simp), charJoinStr_ok (s := s) fun c hc => h c (by simp [hc])]

theorem charJoinBytes_ok : ∀ {s : PyStr} {b : Bytes}, utf8Encode s = some b →
    charJoinBytes s = .ok b
  | [], b, h => by simp [utf8Encode] at h; subst h; rfl
  | c :: s, b, h => by
    obtain ⟨x, y, hx, hy, rfl⟩ := utf8Encode_cons.1 h
    have hc := isScalar_lt (utf8EncodeCp_isSome.1 ⟨x, hx⟩)
    simp [charJoinBytes, hc, hx, charJoinBytes_ok hy]

/-- The code points of a text. -/
def charPoints : Text → PyStr
  | .bytes b => (utf8Decode b).getD []
  | .str s => s

theorem charEncode_good {src : Option SrcType} {x : Text} (hx : WellEncoded x)
    (hw : wrongType src x = false) : charEncode src x = (some x.type, .ok (charPoints x)) := by
  cases x with
  | str s => simp [charEncode, hw, charPoints, Text.type]
  | bytes b =>
    obtain ⟨s, hs⟩ := hx
    simp [charEncode, hw, charPoints, Text.type, utf8_iff.2 hs]

theorem charEncode_src {src : Option SrcType} {x : Text} {t : SrcType} (h : src = some t) :
    (charEncode src x).1 = some t := by
  subst h
  unfold charEncode
  split
  · rfl
  · next hw =>
    simp only [wrongType, ne_eq, decide_not, Bool.not_eq_true', decide_eq_false_iff_not,
      Decidable.not_not] at hw
    subst hw
    cases x with
    | str s => rfl
    | bytes b => simp only; split <;> rfl

theorem charEncode_src_none {x : Text} : (charEncode none x).1 = some x.type := by
  unfold charEncode
  simp only [wrongType]
  cases x with
  | str s => rfl
  | bytes b => simp only [Bool.false_eq_true, if_false]; split <;> rfl

theorem charSteps : ∀ (calls : List Text) {src : Option SrcType} {t : SrcType}, src = some t →
    calls.foldl (fun st y => (charEncode st y).1) src = some t
  | [], _, _, h => h
  | x :: calls, src, t, h => charSteps calls (charEncode_src (x := x) h)

theorem char_src_first (y : Text) (calls : List Text) :
    (y :: calls).foldl (fun st y => (charEncode st y).1) none = some y.type :=
  charSteps calls charEncode_src_none

theorem char_wrongType {x : Text} {calls : List Text} (h : FirstCallLike x calls) :
    wrongType (calls.foldl (fun st y => (charEncode st y).1) none) x = false := by
  cases calls with
  | nil => rfl
  | cons y calls => rw [char_src_first]; simp [wrongType, h y rfl]

theorem charDecode_ok {x : Text} (hx : WellEncoded x) :
    charDecode (some x.type) (charPoints x) = .ok x := by
  cases x with
  | str s => simp [charDecode, Text.type, charPoints, charJoinStr_ok hx, Except.map]
  | bytes b =>
    obtain ⟨s, hs⟩ := hx
    simp [charDecode, Text.type, charPoints, utf8_iff.2 hs, charJoinBytes_ok hs, Except.map]

/-! ### `NullTokenizer` -/

theorem nullSteps : ∀ (calls : List Text) {src : Option SrcType} {t : SrcType}, src = some t →
    calls.foldl (fun st y => (nullEncode st y).1) src = some t
  | [], _, _, h => h
  | x :: calls, src, t, h => by
    refine nullSteps calls ?_
    subst h
    show (nullEncode (some t) x).1 = some t
    unfold nullEncode
    split
    · rfl
    · next hw =>
      simp only [wrongType, ne_eq, decide_not, Bool.not_eq_true', decide_eq_false_iff_not,
        Decidable.not_not] at hw
      simp [hw]

theorem null_src_first (y : Text) (calls : List Text) :
    (y :: calls).foldl (fun st y => (nullEncode st y).1) none = some y.type :=
  nullSteps calls rfl

theorem null_wrongType {x : Text} {calls : List Text} (h : FirstCallLike x calls) :
    wrongType (calls.foldl (fun st y => (nullEncode st y).1) none) x = false := by
  cases calls with
  | nil => rfl
  | cons y calls => rw [null_src_first]; simp [wrongType, h y rfl]

end Gaspra
