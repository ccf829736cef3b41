import Verif.Proofs.Tokenizers
import Verif.Props.Changesets
import Verif.Proofs.TokenizedHistory

set_option linter.unusedSectionVars false
set_option linter.unusedSimpArgs false
set_option linter.unusedVariables false

/-! # Diffs of encoded texts, and tokenizers inside the version store -/

namespace Gaspra

/-! ### Decoding a diff -/

section
variable {S β : Type _} {tk : Tokenizer (List Nat) S}

/-- In state `st` tokens satisfying `Dom` decode one by one by `g`. -/
def DecodeHom (tk : Tokenizer (List Nat) S) (st : S) (wrap : List β → Text) (g : Nat → List β)
    (Dom : Nat → Prop) : Prop :=
  ∀ ts : List Nat, (∀ t ∈ ts, Dom t) → tk.decode st ts = .ok (wrap (ts.flatMap g))

theorem decodeChanges_hom {st : S} {wrap : List β → Text} {g : Nat → List β} {Dom : Nat → Prop}
    (H : DecodeHom tk st wrap g Dom) : ∀ {d : List (DiffItem Nat)},
    (∀ t ∈ intoText d, Dom t) → (∀ t ∈ fromText d, Dom t) →
    ∃ (items : List (Item Text)) (is fs : List (List β)), decodeChanges tk st (d.map (DiffItem.toItem id)) = (items, none) ∧
      intoPieces items = is.map wrap ∧ is.flatten = (intoText d).flatMap g ∧
      fromPieces items = fs.map wrap ∧ fs.flatten = (fromText d).flatMap g
  | [], _, _ => ⟨[], [], [], rfl, rfl, rfl, rfl, rfl⟩
  | .common p :: d, hi, hf => by
    simp only [intoText, fromText, List.flatMap_cons, List.mem_append] at hi hf
    obtain ⟨items, is, fs, h1, h2, h3, h4, h5⟩ := decodeChanges_hom H (d := d)
      (fun t ht => hi t (Or.inr ht)) (fun t ht => hf t (Or.inr ht))
    refine ⟨.common (wrap (p.flatMap g)) :: items, p.flatMap g :: is, p.flatMap g :: fs, ?_, ?_,
      ?_, ?_, ?_⟩
    · simp only [List.map_cons, DiffItem.toItem, decodeChanges, id,
        H p (fun t ht => hi t (Or.inl ht)), h1]
    · simp only [intoPieces, List.map_cons] at h2 ⊢; rw [h2]
    · simp only [intoText, List.flatMap_cons, List.flatMap_append, List.flatten_cons] at h3 ⊢
      rw [h3]
    · simp only [fromPieces, List.map_cons] at h4 ⊢; rw [h4]
    · simp only [fromText, List.flatMap_cons, List.flatMap_append, List.flatten_cons] at h5 ⊢
      rw [h5]
  | .change a b :: d, hi, hf => by
    simp only [intoText, fromText, List.flatMap_cons, List.mem_append] at hi hf
    obtain ⟨items, is, fs, h1, h2, h3, h4, h5⟩ := decodeChanges_hom H (d := d)
      (fun t ht => hi t (Or.inr ht)) (fun t ht => hf t (Or.inr ht))
    refine ⟨.change (wrap (a.flatMap g)) (wrap (b.flatMap g)) :: items, a.flatMap g :: is,
      b.flatMap g :: fs, ?_, ?_, ?_, ?_, ?_⟩
    · simp only [List.map_cons, DiffItem.toItem, decodeChanges, id,
        H a (fun t ht => hi t (Or.inl ht)), H b (fun t ht => hf t (Or.inl ht)), h1]
    · simp only [intoPieces, List.map_cons] at h2 ⊢; rw [h2]
    · simp only [intoText, List.flatMap_cons, List.flatMap_append, List.flatten_cons] at h3 ⊢
      rw [h3]
    · simp only [fromPieces, List.map_cons] at h4 ⊢; rw [h4]
    · simp only [fromText, List.flatMap_cons, List.flatMap_append, List.flatten_cons] at h5 ⊢
      rw [h5]

/-- The diff of two encoded texts decodes to pieces of the texts. -/
theorem diffInts_hom {st : S} {wrap : List β → Text} {g : Nat → List β} {Dom : Nat → Prop}
    (H : DecodeHom tk st wrap g Dom) (hd : tk.diffSeq = diffInts) {eo em : List Nat}
    (ho : ∀ t ∈ eo, Dom t) (hm : ∀ t ∈ em, Dom t) :
    ∃ cs items, ∃ (is fs : List (List β)), tk.diffSeq eo em = some cs ∧ decodeChanges tk st cs = (items, none) ∧
      intoPieces items = is.map wrap ∧ is.flatten = em.flatMap g ∧
      fromPieces items = fs.map wrap ∧ fs.flatten = eo.flatMap g := by
  obtain ⟨d, h, hi, hf⟩ := C09_diff_reconstructs eo em
  obtain ⟨items, is, fs, h1, h2, h3, h4, h5⟩ := decodeChanges_hom H (d := d)
    (by rw [hi]; exact hm) (by rw [hf]; exact ho)
  rw [hi] at h3
  rw [hf] at h5
  exact ⟨_, items, is, fs, by rw [hd, diffInts, h]; rfl, h1, h2, h3, h4, h5⟩

end

/-- A state in which both texts decode token by token gives a faithful diff. -/
theorem diff_spells {S : Type _} {tk : Tokenizer (List Nat) S} (hd : tk.diffSeq = diffInts)
    {st : S} {o m : Text} (hom : o.type = m.type) {eo em : List Nat}
    (ho : tk.decode st eo = .ok o) (hm : tk.decode st em = .ok m)
    (HB : o.type = .bytes → ∃ g Dom, DecodeHom tk st Text.bytes g Dom ∧ (∀ t ∈ eo, Dom t) ∧
      ∀ t ∈ em, Dom t)
    (HS : o.type = .str → ∃ g Dom, DecodeHom tk st Text.str g Dom ∧ (∀ t ∈ eo, Dom t) ∧
      ∀ t ∈ em, Dom t) :
    ∃ cs items, tk.diffSeq eo em = some cs ∧ decodeChanges tk st cs = (items, none) ∧
      Spells m (intoPieces items) ∧ Spells o (fromPieces items) := by
  cases o with
  | bytes o =>
    cases m with
    | str m => simp [Text.type] at hom
    | bytes m =>
      obtain ⟨g, Dom, H, d1, d2⟩ := HB rfl
      obtain ⟨cs, items, is, fs, h1, h2, h3, h4, h5, h6⟩ := diffInts_hom H hd d1 d2
      rw [H eo d1] at ho
      rw [H em d2] at hm
      simp only [Except.ok.injEq, Text.bytes.injEq] at ho hm
      exact ⟨cs, items, h1, h2, ⟨is, h3, by rw [h4, hm]⟩, ⟨fs, h5, by rw [h6, ho]⟩⟩
  | str o =>
    cases m with
    | bytes m => simp [Text.type] at hom
    | str m =>
      obtain ⟨g, Dom, H, d1, d2⟩ := HS rfl
      obtain ⟨cs, items, is, fs, h1, h2, h3, h4, h5, h6⟩ := diffInts_hom H hd d1 d2
      rw [H eo d1] at ho
      rw [H em d2] at hm
      simp only [Except.ok.injEq, Text.str.injEq] at ho hm
      exact ⟨cs, items, h1, h2, ⟨is, h3, by rw [h4, hm]⟩, ⟨fs, h5, by rw [h6, ho]⟩⟩

/-! ### Dictionary tokenizers -/

/-- The bytes of a text. -/
def Text.theBytes : Text → Bytes
  | .bytes b => b
  | .str _ => []

/-- The characters of a text. -/
def Text.theStr : Text → PyStr
  | .bytes _ => []
  | .str s => s

theorem dict_in_table {tab : List Text} {e : List Nat} {ps : List Text}
    (h : e.map (fun i => tab[i]?) = ps.map some) : ∀ t ∈ e, t < tab.length := by
  intro t ht
  have : tab[t]? ∈ ps.map some := by rw [← h]; exact List.mem_map.2 ⟨t, ht, rfl⟩
  obtain ⟨p, _, hp⟩ := List.mem_map.1 this
  exact (List.getElem?_eq_some_iff.1 hp.symm).1

theorem dict_lookup {tab : List Text} {e : List Nat} (h : ∀ t ∈ e, t < tab.length) :
    e.map (fun i => tab[i]?) = (e.map fun i => tab[i]?.getD (.bytes [])).map some := by
  rw [List.map_map]
  apply List.map_congr_left
  intro t ht
  simp [List.getElem?_eq_getElem (h t ht)]

theorem dict_hom_bytes {st : DictTok} (I : DictInv st) (hd : st.decoding = some st.table)
    (hs : st.src = some .bytes) {tk : Tokenizer (List Nat) DictTok}
    (htk : tk.decode = DictTok.decode) :
    DecodeHom tk st Text.bytes (fun t => (st.table[t]?.getD (.bytes [])).theBytes)
      (fun t => t < st.table.length) := by
  intro ts hts
  rw [htk]
  refine I.decode (x := .bytes _) (ps := ts.map fun i => st.table[i]?.getD (.bytes [])) hd hs ?_ (dict_lookup hts)
  refine ⟨ts.map fun t => (st.table[t]?.getD (.bytes [])).theBytes, ?_, ?_⟩
  · rw [List.map_map]
    apply List.map_congr_left
    intro t ht
    have hl := hts t ht
    have := I.typ (List.getElem_mem hl)
    rw [hs] at this
    simp only [List.getElem?_eq_getElem hl, Option.getD_some, Function.comp]
    generalize st.table[t] = x at this ⊢
    cases x <;> simp [Text.type, Text.theBytes] at this ⊢
  · rw [List.flatMap_def]

theorem dict_hom_str {st : DictTok} (I : DictInv st) (hd : st.decoding = some st.table)
    (hs : st.src = some .str) {tk : Tokenizer (List Nat) DictTok}
    (htk : tk.decode = DictTok.decode) :
    DecodeHom tk st Text.str (fun t => (st.table[t]?.getD (.bytes [])).theStr)
      (fun t => t < st.table.length) := by
  intro ts hts
  rw [htk]
  refine I.decode (x := .str _) (ps := ts.map fun i => st.table[i]?.getD (.bytes [])) hd hs ?_ (dict_lookup hts)
  refine ⟨ts.map fun t => (st.table[t]?.getD (.bytes [])).theStr, ?_, ?_⟩
  · rw [List.map_map]
    apply List.map_congr_left
    intro t ht
    have hl := hts t ht
    have := I.typ (List.getElem_mem hl)
    rw [hs] at this
    simp only [List.getElem?_eq_getElem hl, Option.getD_some, Function.comp]
    generalize st.table[t] = x at this ⊢
    cases x <;> simp [Text.type, Text.theStr] at this ⊢
  · rw [List.flatMap_def]

section
variable {encode : DictTok → Text → DictTok × Except PyErr (List Nat)} {Good : Text → Prop}
  {pieces : Text → List Text}

/-- Both texts encode, and in the state afterwards both decode. -/
theorem DictLike.two (D : DictLike encode Good pieces) {st : DictTok} (I : DictInv st) {o m : Text}
    (ho : Good o) (hm : Good m) (hom : o.type = m.type) (hw : wrongType st.src o = false) :
    ∃ eo em, (encode st o).2 = .ok eo ∧ (encode (encode st o).1 m).2 = .ok em ∧
      let st2 := (encode (encode st o).1 m).1
      DictInv st2 ∧ st2.decoding = some st2.table ∧ st2.src = some m.type ∧
      st2.decode eo = .ok o ∧ st2.decode em = .ok m ∧
      (∀ t ∈ eo, t < st2.table.length) ∧ ∀ t ∈ em, t < st2.table.length := by
  obtain ⟨eo, a1, a2, a3, a4, a5⟩ := D.encode_good I ho hw
  have hw2 : wrongType (encode st o).1.src m = false := by rw [a3]; simp [wrongType, hom]
  obtain ⟨em, b1, b2, b3, b4, b5⟩ := D.encode_good a2.inv hm hw2
  have a6 := table_map b2.tab a5
  exact ⟨eo, em, a1, b1, b2.inv, b4, b3, b2.inv.decode b4 (hom ▸ b3) (D.spells o ho) a6,
    b2.inv.decode b4 b3 (D.spells m hm) b5, dict_in_table a6, dict_in_table b5⟩

theorem DictLike.diff (D : DictLike encode Good pieces) {tk : Tokenizer (List Nat) DictTok}
    (he : tk.encode = encode) (hdec : tk.decode = DictTok.decode) (hd : tk.diffSeq = diffInts)
    {st : DictTok} (I : DictInv st) {o m : Text}
    (ho : Good o) (hm : Good m) (hom : o.type = m.type) (hw : wrongType st.src o = false) :
    ∃ items, (tokDiff tk st o m).2 = .ok (items, none) ∧
      Spells m (intoPieces items) ∧ Spells o (fromPieces items) := by
  obtain ⟨eo, em, h1, h2, h3, h4, h5, h6, h7, h8, h9⟩ := D.two I ho hm hom hw
  obtain ⟨cs, items, k1, k2, k3, k4⟩ := diff_spells (tk := tk) hd hom (hdec ▸ h6) (hdec ▸ h7)
    (fun e => ⟨_, _, dict_hom_bytes h3 h4 (by rw [h5, ← hom, e]) hdec, h8, h9⟩)
    (fun e => ⟨_, _, dict_hom_str h3 h4 (by rw [h5, ← hom, e]) hdec, h8, h9⟩)
  refine ⟨items, ?_, k3, k4⟩
  unfold tokDiff
  rw [he]
  clear h3 h4 h5 h6 h7 h8 h9
  generalize encode st o = r1 at h1 h2 k2 ⊢
  obtain ⟨st1, r1⟩ := r1
  simp only at h1 h2 k2
  subst h1
  simp only
  generalize encode st1 m = r2 at h2 k2 ⊢
  obtain ⟨st2, r2⟩ := r2
  simp only at h2 k2
  subst h2
  simp only [k1, k2]

/-- All calls of one type: the encodings read through one table without repetition are the
pieces. -/
theorem DictLike.tables (D : DictLike encode Good pieces) {tk : Tokenizer (List Nat) DictTok}
    (he : tk.encode = encode) (t : SrcType) : ∀ (calls : List Text) {st : DictTok}, DictInv st →
    (st.src = none ∨ st.src = some t) → (∀ x ∈ calls, Good x ∧ x.type = t) →
    ∃ es : List (List Nat), encodings tk st calls = es.map .ok ∧ ∃ fin, DictStep st fin ∧
      ∀ (k : Nat) (x : Text) (e : List Nat), calls[k]? = some x → es[k]? = some e →
        e.map (fun i => fin.table[i]?) = (pieces x).map some
  | [], st, I, _, _ => ⟨[], rfl, st, .refl I, by simp⟩
  | x :: calls, st, I, hs, hg => by
    obtain ⟨hx, ht⟩ := hg x (by simp)
    have hw : wrongType st.src x = false := by
      rcases hs with h | h <;> rw [h] <;> simp [wrongType, ht]
    obtain ⟨e, a1, a2, a3, a4, a5⟩ := D.encode_good I hx hw
    obtain ⟨es, b1, fin, b2, b3⟩ := D.tables he t calls a2.inv (Or.inr (ht ▸ a3))
      (fun y hy => hg y (by simp [hy]))
    refine ⟨e :: es, by simp only [encodings, he, List.map_cons, a1, b1], fin, a2.trans b2, ?_⟩
    intro k y f hy hf
    cases k with
    | zero =>
      simp at hy hf
      subst hy; subst hf
      exact table_map b2.tab a5
    | succ k => exact b3 k y f (by simpa using hy) (by simpa using hf)

theorem DictInv.table_inj {st : DictTok} (I : DictInv st) {i j : Nat} {p q : Text}
    (hi : st.table[i]? = some p) (hj : st.table[j]? = some q) : i = j ↔ p = q := by
  constructor
  · rintro rfl; rw [hi] at hj; exact Option.some.inj hj
  · rintro rfl
    have h1 := I.num.dget_some.2 hi
    have h2 := I.num.dget_some.2 hj
    rw [h1] at h2; exact Option.some.inj h2

end

/-! ### `CharTokenizer` -/

theorem char_hom_str : DecodeHom charTokenizer (some .str) Text.str (fun c => [c])
    (fun c => c < 0x110000) := by
  intro ts h
  simp [charTokenizer, charDecode, charJoinStr_ok h, Except.map]

theorem char_hom_bytes : DecodeHom charTokenizer (some .bytes) Text.bytes
    (fun c => (utf8EncodeCp c).getD []) (fun c => isScalar c = true) := by
  intro ts h
  have key : ∀ ts : List Nat, (∀ c ∈ ts, isScalar c = true) →
      utf8Encode ts = some (ts.flatMap fun c => (utf8EncodeCp c).getD []) := by
    intro ts
    induction ts with
    | nil => intro _; rfl
    | cons c ts ih =>
      intro h
      obtain ⟨b, hb⟩ := utf8EncodeCp_isSome.2 (h c (by simp))
      exact utf8Encode_cons.2 ⟨b, _, hb, ih fun x hx => h x (by simp [hx]), by simp [hb]⟩
  simp only [charTokenizer, charDecode, if_true, charJoinBytes_ok (key ts h), Except.map]

theorem char_diff {src : Option SrcType} {o m : Text} (ho : WellEncoded o) (hm : WellEncoded m)
    (hom : o.type = m.type) (hw : wrongType src o = false) :
    ∃ items, (tokDiff charTokenizer src o m).2 = .ok (items, none) ∧
      Spells m (intoPieces items) ∧ Spells o (fromPieces items) := by
  have e1 := charEncode_good ho hw
  have e2 := charEncode_good (src := some o.type) hm (by simp [wrongType, hom])
  have d1 := charDecode_ok ho
  have d2 := charDecode_ok hm
  have scalar : ∀ {b : Bytes}, WellEncoded (.bytes b) →
      ∀ c ∈ charPoints (.bytes b), isScalar c = true := by
    rintro b ⟨s, hs⟩
    simp only [charPoints, utf8_iff.2 hs, Option.getD_some]
    exact utf8Encode_isSome.1 ⟨b, hs⟩
  obtain ⟨cs, items, k1, k2, k3, k4⟩ := diff_spells (tk := charTokenizer) (st := some o.type) rfl hom
    (eo := charPoints o) (em := charPoints m) d1 (by rw [hom]; exact d2)
    (fun e => by
      refine ⟨_, _, by rw [e]; exact char_hom_bytes, ?_, ?_⟩
      · cases o with
        | bytes b => exact scalar ho
        | str s => simp [Text.type] at e
      · rw [hom] at e
        cases m with
        | bytes b => exact scalar hm
        | str s => simp [Text.type] at e)
    (fun e => by
      refine ⟨_, _, by rw [e]; exact char_hom_str, ?_, ?_⟩
      · cases o with
        | str s => exact ho
        | bytes s => simp [Text.type] at e
      · rw [hom] at e
        cases m with
        | str b => exact hm
        | bytes s => simp [Text.type] at e)
  refine ⟨items, ?_, k3, k4⟩
  unfold tokDiff
  have f1 : charTokenizer.encode src o = (some o.type, .ok (charPoints o)) := e1
  have f2 : charTokenizer.encode (some o.type) m = (some m.type, .ok (charPoints m)) := e2
  rw [hom] at k2
  simp only [f1, f2, k1, k2]

/-! ### `NullTokenizer` -/

theorem null_changes {β : Type _} (wrap : List β → Text) (st : Option SrcType) :
    ∀ (d : List (DiffItem β)),
    ∃ (items : List (Item Text)) (is fs : List (List β)), decodeChanges nullTokenizer st (d.map (DiffItem.toItem wrap)) = (items, none) ∧
      intoPieces items = is.map wrap ∧ is.flatten = intoText d ∧
      fromPieces items = fs.map wrap ∧ fs.flatten = fromText d
  | [] => ⟨[], [], [], rfl, rfl, rfl, rfl, rfl⟩
  | .common p :: d => by
    obtain ⟨items, is, fs, h1, h2, h3, h4, h5⟩ := null_changes wrap st d
    refine ⟨.common (wrap p) :: items, p :: is, p :: fs, ?_, ?_, ?_, ?_, ?_⟩
    · simp only [List.map_cons, DiffItem.toItem, decodeChanges, nullTokenizer] at h1 ⊢
      simp only [h1]
    · simp only [intoPieces, List.map_cons] at h2 ⊢; rw [h2]
    · simp only [intoText, List.flatMap_cons, List.flatten_cons] at h3 ⊢; rw [h3]
    · simp only [fromPieces, List.map_cons] at h4 ⊢; rw [h4]
    · simp only [fromText, List.flatMap_cons, List.flatten_cons] at h5 ⊢; rw [h5]
  | .change a b :: d => by
    obtain ⟨items, is, fs, h1, h2, h3, h4, h5⟩ := null_changes wrap st d
    refine ⟨.change (wrap a) (wrap b) :: items, a :: is, b :: fs, ?_, ?_, ?_, ?_, ?_⟩
    · simp only [List.map_cons, DiffItem.toItem, decodeChanges, nullTokenizer] at h1 ⊢
      simp only [h1]
    · simp only [intoPieces, List.map_cons] at h2 ⊢; rw [h2]
    · simp only [intoText, List.flatMap_cons, List.flatten_cons] at h3 ⊢; rw [h3]
    · simp only [fromPieces, List.map_cons] at h4 ⊢; rw [h4]
    · simp only [fromText, List.flatMap_cons, List.flatten_cons] at h5 ⊢; rw [h5]

theorem nullEncode_good {src : Option SrcType} {x : Text} (hw : wrongType src x = false) :
    nullTokenizer.encode src x = (some x.type, .ok x) := by
  simp [nullTokenizer, nullEncode, hw]

theorem null_diff {src : Option SrcType} {o m : Text}
    (hom : o.type = m.type) (hw : wrongType src o = false) :
    ∃ items, (tokDiff nullTokenizer src o m).2 = .ok (items, none) ∧
      Spells m (intoPieces items) ∧ Spells o (fromPieces items) := by
  have f1 := nullEncode_good hw
  have f2 := nullEncode_good (src := some o.type) (x := m) (by simp [wrongType, hom])
  unfold tokDiff
  simp only [f1, f2]
  cases o with
  | bytes o =>
    cases m with
    | str m => simp [Text.type] at hom
    | bytes m =>
      obtain ⟨d, h, hi, hf⟩ := C09_diff_reconstructs o m
      obtain ⟨items, is, fs, h1, h2, h3, h4, h5⟩ :=
        null_changes Text.bytes (some (Text.bytes m).type) d
      refine ⟨items, ?_, ⟨is, h2, by rw [h3, hi]⟩, ⟨fs, h4, by rw [h5, hf]⟩⟩
      simp only [nullTokenizer, diffTexts, h, Option.map_some]
      exact congrArg _ h1
  | str o =>
    cases m with
    | bytes m => simp [Text.type] at hom
    | str m =>
      obtain ⟨d, h, hi, hf⟩ := C09_diff_reconstructs o m
      obtain ⟨items, is, fs, h1, h2, h3, h4, h5⟩ :=
        null_changes Text.str (some (Text.str m).type) d
      refine ⟨items, ?_, ⟨is, h2, by rw [h3, hi]⟩, ⟨fs, h4, by rw [h5, hf]⟩⟩
      simp only [nullTokenizer, diffTexts, h, Option.map_some]
      exact congrArg _ h1

/-! ### In the version store -/

/-- Valid UTF-8. -/
def Utf8Bytes (b : Bytes) : Prop := ∃ s, utf8Encode s = some b

theorem utf8_flatMap_cp {s : PyStr} (h : ∀ c ∈ s, isScalar c = true) :
    utf8Encode s = some (s.flatMap fun c => (utf8EncodeCp c).getD []) := by
  induction s with
  | nil => rfl
  | cons c s ih =>
    obtain ⟨b, hb⟩ := utf8EncodeCp_isSome.2 (h c (by simp))
    exact utf8Encode_cons.2 ⟨b, _, hb, ih fun x hx => h x (by simp [hx]), by simp [hb]⟩

/-- `CharTokenizer` is lawful on valid UTF-8; pieces are code points. -/
def charLawful : LawfulTok charTokenizer.bytesOps Nat Utf8Bytes where
  text c := (utf8EncodeCp c).getD []
  split b := (utf8Decode b).getD []
  Inv st := st = none ∨ st = some .bytes
  Ready st := st = some .bytes
  den _ c := if isScalar c then some c else none
  init_inv := Or.inl rfl
  encode_ok := by
    rintro st b hst ⟨s, hs⟩
    have hw : wrongType st (.bytes b) = false := by
      rcases hst with rfl | rfl <;> rfl
    have he : charTokenizer.encode st (.bytes b) = (some .bytes, .ok s) := by
      show charEncode st (.bytes b) = _
      simp [charEncode, hw, utf8_iff.2 hs]
    refine ⟨s, some .bytes, by simp [Tokenizer.bytesOps, he], Or.inr rfl, rfl, ?_, fun _ _ h => h⟩
    simp only [utf8_iff.2 hs, Option.getD_some]
    apply List.map_congr_left
    intro c hc
    simp [utf8Encode_isSome.1 ⟨b, hs⟩ c hc]
  decode_ok := by
    intro st toks ps hI hR h
    subst hR
    clear hI
    have hp : toks = ps ∧ ∀ c ∈ toks, isScalar c = true := by
      induction toks generalizing ps with
      | nil => cases ps <;> simp at h ⊢
      | cons c toks ih =>
        cases ps with
        | nil => simp at h
        | cons p ps =>
          simp only [List.map_cons, List.cons.injEq] at h
          obtain ⟨h1, h2⟩ := ih h.2
          have h3 := h.1
          split at h3
          · next hc =>
            cases h3
            exact ⟨by rw [h1], by
              intro x hx
              rcases List.mem_cons.1 hx with rfl | hx
              · exact hc
              · exact h2 x hx⟩
          · cases h3
    obtain ⟨rfl, hs⟩ := hp
    have : charTokenizer.decode (some .bytes) toks = _ := char_hom_bytes toks hs
    simp only [Tokenizer.bytesOps, this]
  split_text := by
    rintro b ⟨s, hs⟩
    simp only [utf8_iff.2 hs, Option.getD_some]
    have := utf8_flatMap_cp (utf8Encode_isSome.1 ⟨b, hs⟩)
    rw [hs] at this
    exact (Option.some.inj this).symm
  text_ne := by
    rintro b p ⟨s, hs⟩ hp
    simp only [utf8_iff.2 hs, Option.getD_some] at hp
    obtain ⟨x, hx⟩ := utf8EncodeCp_isSome.2 (utf8Encode_isSome.1 ⟨b, hs⟩ p hp)
    simp only [hx, Option.getD_some]
    exact utf8EncodeCp_ne_nil hx
  sub_ok := by
    rintro b l m r ⟨s, hs⟩ e
    simp only [utf8_iff.2 hs, Option.getD_some] at e
    have hsc := utf8Encode_isSome.1 ⟨b, hs⟩
    exact ⟨m, utf8_flatMap_cp fun c hc => hsc c (by rw [e]; simp [hc])⟩
  sub_split := by
    rintro b l m r ⟨s, hs⟩ e
    simp only [utf8_iff.2 hs, Option.getD_some] at e
    have hsc := utf8Encode_isSome.1 ⟨b, hs⟩
    have := utf8_flatMap_cp (s := m) fun c hc => hsc c (by rw [e]; simp [hc])
    rw [utf8_iff.2 this]; rfl

/-- The symbols of valid UTF-8, encoded. -/
def symbolBytes (cls : Nat → Bool) (b : Bytes) : List Bytes :=
  (encodeAll (symbols cls ((utf8Decode b).getD []))).getD []

theorem symbolTokens_bytes (cls : Nat → Bool) (b : Bytes) :
    symbolTokens cls (.bytes b) = (symbolBytes cls b).map .bytes := rfl

/-- Cutting a list of encoded pieces. -/
theorem map_split {α β : Type _} {f : α → Option β} : ∀ {qs : List α} {l m r : List β},
    qs.map f = (l ++ m ++ r).map some →
    ∃ ql qm qr, qs = ql ++ qm ++ qr ∧ qm.map f = m.map some := by
  intro qs l m r h
  refine ⟨qs.take l.length, (qs.drop l.length).take m.length, (qs.drop l.length).drop m.length,
    by rw [List.append_assoc, List.take_append_drop, List.take_append_drop], ?_⟩
  rw [List.map_take, List.map_drop, h]
  simp

/-- `SymbolTokenizer` is lawful on valid UTF-8; pieces are encoded symbols. -/
def symbolLawful (cls : Nat → Bool) : LawfulTok (symbolTokenizer cls).bytesOps Bytes Utf8Bytes where
  text p := p
  split := symbolBytes cls
  Inv st := DictInv st ∧ (st.src = none ∨ st.src = some .bytes)
  Ready st := st.decoding = some st.table ∧ st.src = some .bytes
  den st t := (st.table[t]?).map Text.theBytes
  init_inv := ⟨.new, Or.inl rfl⟩
  encode_ok := by
    rintro st b ⟨I, hst⟩ hb
    have hw : wrongType st.src (.bytes b) = false := by
      rcases hst with h | h <;> rw [h] <;> rfl
    obtain ⟨toks, h1, h2, h3, h4, h5⟩ := (symbolLike cls).encode_good I (x := .bytes b) hb hw
    refine ⟨toks, (symbolEncode cls st (.bytes b)).1, ?_, ⟨h2.inv, Or.inr h3⟩, ⟨h4, h3⟩, ?_, ?_⟩
    · simp only [Tokenizer.bytesOps, symbolTokenizer]
      generalize symbolEncode cls st (.bytes b) = r at h1 ⊢
      obtain ⟨r1, r2⟩ := r
      simp only at h1
      subst h1; rfl
    · have := congrArg (List.map (Option.map Text.theBytes)) h5
      simp only [List.map_map, symbolTokens_bytes] at this
      refine Eq.trans this ?_
      apply List.map_congr_left
      intro p _; rfl
    · intro t p hp
      cases hq : st.table[t]? with
      | none => rw [hq] at hp; simp at hp
      | some q => rw [hq] at hp; rw [table_lookup h2.tab hq]; exact hp
  decode_ok := by
    rintro st toks ps ⟨I, _⟩ ⟨hd, hs⟩ h
    have hin : ∀ t ∈ toks, t < st.table.length := by
      intro t ht
      have : (st.table[t]?).map Text.theBytes ∈ ps.map some := by
        rw [← h]; exact List.mem_map.2 ⟨t, ht, rfl⟩
      obtain ⟨p, _, hp⟩ := List.mem_map.1 this
      cases hq : st.table[t]? with
      | none => rw [hq] at hp; simp at hp
      | some q => exact (List.getElem?_eq_some_iff.1 hq).1
    have := dict_hom_bytes I hd hs (tk := symbolTokenizer cls) rfl toks hin
    simp only [Tokenizer.bytesOps, this]
    congr 1
    have e : toks.map (fun t => (st.table[t]?.getD (.bytes [])).theBytes) = ps := by
      apply map_some_inj
      rw [← h, List.map_map]
      apply List.map_congr_left
      intro t ht
      simp [List.getElem?_eq_getElem (hin t ht)]
    rw [List.flatMap_def, e, List.flatMap_def, List.map_id']
  split_text := by
    rintro b ⟨s, hs⟩
    obtain ⟨bs, h1, h2⟩ := symbol_bytes cls hs
    simp [symbolBytes, utf8_iff.2 hs, h1, List.flatMap_def, h2]
  text_ne := by
    rintro b p ⟨s, hs⟩ hp
    obtain ⟨bs, h1, h2⟩ := symbol_bytes cls hs
    simp only [symbolBytes, utf8_iff.2 hs, h1, Option.getD_some] at hp
    have h3 := encodeAll_iff.1 h1
    have : some p ∈ (symbols cls s).map utf8Encode := by
      rw [h3]; exact List.mem_map.2 ⟨p, hp, rfl⟩
    obtain ⟨q, hq, hqp⟩ := List.mem_map.1 this
    have hqne : q ≠ [] := by
      rcases (symbols_spec cls s).2.1 q hq with ⟨c, rfl, _⟩ | ⟨h, _⟩
      · simp
      · exact h
    obtain ⟨c, q', rfl⟩ := List.exists_cons_of_ne_nil hqne
    obtain ⟨x, y, hx, _, rfl⟩ := utf8Encode_cons.1 hqp
    simp [utf8EncodeCp_ne_nil hx]
  sub_ok := by
    rintro b l m r ⟨s, hs⟩ e
    obtain ⟨bs, h1, h2⟩ := symbol_bytes cls hs
    simp only [symbolBytes, utf8_iff.2 hs, h1, Option.getD_some] at e
    have h3 := encodeAll_iff.1 h1
    rw [e] at h3
    obtain ⟨ql, qm, qr, _, hm⟩ := map_split h3
    exact ⟨qm.flatten, by rw [utf8Encode_flatten hm]; simp [List.flatMap_def]⟩
  sub_split := by
    rintro b l m r ⟨s, hs⟩ e
    obtain ⟨bs, h1, h2⟩ := symbol_bytes cls hs
    simp only [symbolBytes, utf8_iff.2 hs, h1, Option.getD_some] at e
    have h3 := encodeAll_iff.1 h1
    rw [e] at h3
    obtain ⟨ql, qm, qr, hq, hm⟩ := map_split h3
    have hsym := symbols_spec cls s
    rw [hq] at hsym
    have hu := symbols_unique cls hsym.infix
    have henc : utf8Encode qm.flatten = some (m.flatMap fun p => p) := by
      rw [utf8Encode_flatten hm]; simp [List.flatMap_def]
    simp only [symbolBytes, utf8_iff.2 henc, Option.getD_some, hu, encodeAll_iff.2 hm]

end Gaspra
