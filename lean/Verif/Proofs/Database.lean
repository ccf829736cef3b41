import Verif.Spec.Database
import Verif.Proofs.Isolate
import Verif.Proofs.VersionsStore

set_option linter.unusedSectionVars false
set_option linter.unusedSimpArgs false
set_option linter.unusedVariables false

/-! # Several stores in one database -/

namespace Gaspra

variable {τ Tok S : Type _} [DecidableEq τ] [DecidableEq Tok] {tk : TokOps Tok S} {P : τ → Prop}

/-! ### Tables -/

theorem tableOf_dset (db : Database τ) (g : Graph τ) (k : PyStr) (rows : Coll τ Bytes) (name : PyStr) :
    tableOf (⟨g, dset db.tables k rows⟩ : Database τ) name =
      if k = tableKey name then rows else tableOf db name := by
  unfold tableOf
  dsimp only
  rw [dget_dset]
  split <;> rfl

theorem tableOf_sharedAdd (db : Database τ) (n : StoreNames) (a : AddOp τ) (name : PyStr) :
    tableOf (sharedAdd tk db n a.tag a.content a.base).1 name =
      if tableKey n.diffs = tableKey name then
        (storeAdd (collOps τ) (dbTree τ) tk (viewStore db n) a.tag a.content a.base).1.diffs
      else if tableKey n.heads = tableKey name then
        (storeAdd (collOps τ) (dbTree τ) tk (viewStore db n) a.tag a.content a.base).1.headVersion
      else tableOf db name := by
  unfold sharedAdd
  dsimp only
  rw [tableOf_dset ⟨db.graph, dset db.tables (tableKey n.heads) _⟩, tableOf_dset db]

/-- What the store itself sees after a call. -/
theorem viewStore_own (db : Database τ) {n : StoreNames} (hn : tableKey n.heads ≠ tableKey n.diffs)
    (a : AddOp τ) : viewStore (sharedAdd tk db n a.tag a.content a.base).1 n =
      (storeAdd (collOps τ) (dbTree τ) tk (viewStore db n) a.tag a.content a.base).1 := by
  unfold viewStore
  rw [tableOf_sharedAdd, tableOf_sharedAdd, if_neg (fun e => hn e.symm), if_pos rfl, if_pos rfl]
  rfl

/-- What another store sees after a call. -/
theorem viewStore_other (db : Database τ) {n m : StoreNames}
    (h1 : tableKey n.heads ≠ tableKey m.heads) (h2 : tableKey n.heads ≠ tableKey m.diffs)
    (h3 : tableKey n.diffs ≠ tableKey m.heads) (h4 : tableKey n.diffs ≠ tableKey m.diffs)
    (a : AddOp τ) : viewStore (sharedAdd tk db n a.tag a.content a.base).1 m =
      ⟨tableOf db m.heads, tableOf db m.diffs,
        (storeAdd (collOps τ) (dbTree τ) tk (viewStore db n) a.tag a.content a.base).1.tree⟩ := by
  unfold viewStore
  rw [tableOf_sharedAdd, tableOf_sharedAdd, if_neg h3, if_neg h1, if_neg h4, if_neg h2]
  rfl

theorem sameTable_iff : ∀ {a b : PyStr}, SameTable a b ↔ tableKey a = tableKey b
  | [], [] => ⟨fun _ => rfl, fun _ => .nil⟩
  | [], _ :: _ => ⟨(fun h => nomatch h), (fun h => by simp [tableKey] at h)⟩
  | _ :: _, [] => ⟨(fun h => nomatch h), (fun h => by simp [tableKey] at h)⟩
  | c :: a, d :: b => by
    have ih := @sameTable_iff a b
    have hA : 'A'.toNat = 65 := rfl
    have hZ : 'Z'.toNat = 90 := rfl
    simp only [tableKey] at ih
    simp only [tableKey, List.map_cons, List.cons.injEq, ← ih]
    constructor
    · intro h
      cases h with
      | same _ h => exact ⟨rfl, h⟩
      | upper h1 h2 h => refine ⟨?_, h⟩; split <;> split <;> omega
      | lower h1 h2 h => refine ⟨?_, h⟩; split <;> split <;> omega
    · rintro ⟨h, hr⟩
      by_cases e : c = d
      · exact e ▸ .same c hr
      · by_cases h1 : 65 ≤ c ∧ c ≤ 90
        · have : d = c + 32 := by split at h <;> split at h <;> omega
          exact this ▸ .upper (by omega) (by omega) hr
        · have : c = d + 32 ∧ 65 ≤ d ∧ d ≤ 90 := by split at h <;> split at h <;> omega
          obtain ⟨rfl, h2, h3⟩ := this
          exact .lower (by omega) (by omega) hr

instance (a b : PyStr) : Decidable (SameTable a b) := decidable_of_iff _ sameTable_iff.symm

instance (stores : List StoreNames) : Decidable (OwnTables stores) :=
  inferInstanceAs (Decidable (List.Pairwise _ _))

theorem OwnTables.nodup {stores : List StoreNames} (H : OwnTables stores) :
    (stores.flatMap fun n => [tableKey n.heads, tableKey n.diffs]).Nodup := by
  have e : (stores.flatMap fun n => [tableKey n.heads, tableKey n.diffs]) =
      (stores.flatMap fun n => [n.heads, n.diffs]).map tableKey := by
    rw [List.map_flatMap]; rfl
  rw [e, List.Nodup, List.pairwise_map]
  exact H.imp fun h => fun k => h (sameTable_iff.2 k)

theorem OwnTables.own {stores : List StoreNames} (H : OwnTables stores) {n : StoreNames}
    (hn : n ∈ stores) : tableKey n.heads ≠ tableKey n.diffs := by
  have H := H.nodup
  rename OwnTables stores => H0
  clear H0
  induction stores with
  | nil => cases hn
  | cons a stores ih =>
    rw [List.flatMap_cons, List.nodup_append] at H
    rcases List.mem_cons.1 hn with rfl | hn
    · simpa using H.1
    · exact ih hn H.2.1

theorem OwnTables.other {stores : List StoreNames} (H : OwnTables stores) {n m : StoreNames}
    (hn : n ∈ stores) (hm : m ∈ stores) (hne : n ≠ m) :
    (tableKey n.heads ≠ tableKey m.heads ∧ tableKey n.heads ≠ tableKey m.diffs) ∧
      tableKey n.diffs ≠ tableKey m.heads ∧ tableKey n.diffs ≠ tableKey m.diffs := by
  suffices ∀ a ∈ [tableKey n.heads, tableKey n.diffs],
      ∀ b ∈ [tableKey m.heads, tableKey m.diffs], a ≠ b from
    ⟨⟨this _ (by simp) _ (by simp), this _ (by simp) _ (by simp)⟩,
      this _ (by simp) _ (by simp), this _ (by simp) _ (by simp)⟩
  have H := H.nodup
  rename OwnTables stores => H0
  clear H0
  induction stores with
  | nil => cases hn
  | cons s stores ih =>
    rw [List.flatMap_cons, List.nodup_append] at H
    rcases List.mem_cons.1 hn with hn' | hn' <;> rcases List.mem_cons.1 hm with hm' | hm'
    · exact absurd (hn'.trans hm'.symm) hne
    · intro a ha b hb
      exact H.2.2 a (hn' ▸ ha) b (List.mem_flatMap.2 ⟨_, hm', hb⟩)
    · intro a ha b hb e
      exact H.2.2 b (hm' ▸ hb) a (List.mem_flatMap.2 ⟨_, hn', ha⟩) e.symm
    · exact ih hn' hm' H.2.1

/-! ### One store among others -/

/-- The tables `hs` and `ds` of a store that uses the tags of `P`, the tree `t` of all stores, and
the store `m` that would exist if this were the only one. -/
structure OwnPart (P : τ → Prop) (t : MTree τ) (hs ds : Coll τ Bytes) (m : Versions τ (MTree τ)) :
    Prop where
  side : StoreSide ⟨hs, ds, t⟩
  same : SamePart P ⟨hs, ds, t⟩ m
  alone : StoreSide m
  outside : ∀ x, ¬ P x → dget hs x = none ∧ dget ds x = none
  nodup : (ds.map Prod.fst).Nodup

theorem OwnPart.joint {t : MTree τ} {g : Graph τ} {hs ds : Coll τ Bytes} {m : Versions τ (MTree τ)}
    (O : OwnPart P t hs ds m) (H : Sim t g) :
    Joint (⟨hs, ds, t⟩ : Versions τ (MTree τ)) (⟨hs, ds, g⟩ : Versions τ (Graph τ)) :=
  ⟨O.side.tree, O.side.nodup, O.side.roots, O.side.absent, rfl, rfl, H⟩

theorem OwnPart.like {t : MTree τ} {g : Graph τ} {hs ds : Coll τ Bytes} {m : Versions τ (MTree τ)}
    (O : OwnPart P t hs ds m) :
    StoreLike (fun m d => m = d ∧ (d.map Prod.fst).Nodup) (⟨hs, ds, g⟩ : Store (Graph τ) (Coll τ Bytes))
      (⟨hs, ds, g⟩ : Versions τ (Graph τ)) := ⟨⟨rfl, O.side.nodup⟩, ⟨rfl, O.nodup⟩, rfl⟩

/-- The tags outside `P` are closed as well. -/
theorem PartTree.outside {t t' : MTree τ} (Q : PartTree P t t') (T : TreeOK t) :
    PartTree (fun x => ¬ P x) t t where
  node := fun _ => rfl
  closed := by
    intro x nd hx h
    refine ⟨fun p hp hP => ?_, fun c hc hP => ?_⟩
    · obtain ⟨np, k1, k2⟩ := T.up h hp
      exact hx ((Q.closed hP k1).2 x k2)
    · obtain ⟨nc, k1, k2⟩ := T.down h hc
      exact hx ((Q.closed hP k1).1 x k2)
  order := fun _ _ _ _ => Iff.rfl

/-- A call to the store itself. -/
theorem OwnPart.ownCall {t : MTree τ} {g : Graph τ} {hs ds : Coll τ Bytes}
    {m : Versions τ (MTree τ)} {a : Versions τ (Graph τ)} (O : OwnPart P t hs ds m) (H : Sim t g)
    (J : Joint m a) {o : AddOp τ} (ht : dget t o.tag = none) (hb : o.base ≠ some o.tag)
    (hPt : P o.tag) (hPb : ∀ b, o.base = some b → P b) :
    let r := storeAdd (collOps τ) (dbTree τ) tk ⟨hs, ds, g⟩ o.tag o.content o.base
    let m' := versionsAdd (memoryTree τ) tk m o.tag o.content o.base
    let a' := versionsAdd (dbTree τ) tk a o.tag o.content o.base
    ∃ t', t' = (versionsAdd (memoryTree τ) tk ⟨hs, ds, t⟩ o.tag o.content o.base).1.tree ∧
      t'.map Prod.fst = t.map Prod.fst ++ [o.tag] ∧ Sim t' r.1.tree ∧
      OwnPart P t' r.1.headVersion r.1.diffs m'.1 ∧ Joint m'.1 a'.1 ∧ r.2 = a'.2 := by
  dsimp only
  obtain ⟨l1, l2⟩ := collOps_like.add (ops := dbTree τ) (tk := tk) (O.like (g := g)) o.tag o.content o.base
  obtain ⟨j1, j2, j3, j4⟩ := (O.joint H).add (tk := tk) ht o.content o.base hb
  have htm : dget m.tree o.tag = none := O.same.tree.unknown hPt ht
  obtain ⟨i1, i2, i3, i4⟩ := J.add (tk := tk) htm o.content o.base hb
  obtain ⟨v', w', e, a1, a2, V', W', Q'⟩ := O.same.addBoth (tk := tk) O.side O.alone ht o.content hb hPt hPb
  have out : SamePart (fun x => ¬ P x) (⟨hs, ds, t⟩ : Versions τ (MTree τ)) ⟨[], [], t⟩ :=
    ⟨fun {x} hx => (O.outside x hx).1.symm, fun {x} hx => (O.outside x hx).2.symm,
      O.same.tree.outside O.side.tree⟩
  obtain ⟨_, out'⟩ := out.addLeft (tk := tk) O.side ht o.content hb (fun h => h hPt)
    (fun b e h => h (hPb b e))
  rw [a1] at j1 j2 j3 j4 out'
  rw [a2] at i1 i2 i3 i4
  dsimp only at j1 j2 j3 j4 i1 i2 i3 i4 out'
  have e1 : (storeAdd (collOps τ) (dbTree τ) tk ⟨hs, ds, g⟩ o.tag o.content o.base).1.headVersion =
      v'.headVersion := l1.heads.1.trans j1.heads
  have e2 : (storeAdd (collOps τ) (dbTree τ) tk ⟨hs, ds, g⟩ o.tag o.content o.base).1.diffs =
      v'.diffs := l1.diffs.1.trans j1.diffs
  refine ⟨v'.tree, by rw [a1], j2, ?_, ?_, ?_, ?_⟩
  · rw [l1.tree]; exact j1.sim
  · rw [e1, e2, a2]
    refine ⟨V', Q', W', fun x hx => ⟨(out'.heads hx).symm, (out'.diffs hx).symm⟩, ?_⟩
    rw [← j1.diffs]; exact l1.diffs.2
  · rw [a2]; exact i1
  · rw [l2]
    cases hbase : o.base with
    | none =>
      rw [hbase] at j4 i4
      rw [j4 (by simp), i4 (by simp)]
    | some b =>
      rw [hbase] at j3 j4 i3 i4
      cases hk : dget t b with
      | none =>
        rw [(j3 b rfl hk).2, (i3 b rfl (O.same.tree.unknown (hPb b hbase) hk)).2]
      | some nb =>
        obtain ⟨nb', hk', _⟩ := O.same.tree.known (hPb b hbase) hk
        rw [j4 (by rintro b' e; cases e; rw [hk]; simp),
          i4 (by rintro b' e; cases e; rw [hk']; simp)]

/-- A call to another store. -/
theorem OwnPart.otherCall {t : MTree τ} {hs ds hs' ds' : Coll τ Bytes}
    {m m' : Versions τ (MTree τ)} {P' : τ → Prop} (O : OwnPart P t hs ds m)
    (O' : OwnPart P' t hs' ds' m') {o : AddOp τ} (ht : dget t o.tag = none)
    (hb : o.base ≠ some o.tag) (hPt : ¬ P o.tag) (hPb : ∀ b, o.base = some b → ¬ P b) :
    OwnPart P (versionsAdd (memoryTree τ) tk ⟨hs', ds', t⟩ o.tag o.content o.base).1.tree hs ds m := by
  have Q : SamePart P (⟨hs', ds', t⟩ : Versions τ (MTree τ)) ⟨hs', ds', m.tree⟩ :=
    ⟨fun _ => rfl, fun _ => rfl, O.same.tree⟩
  obtain ⟨V, Q'⟩ := Q.addLeft (tk := tk) O'.side ht o.content hb hPt hPb
  generalize (versionsAdd (memoryTree τ) tk ⟨hs', ds', t⟩ o.tag o.content o.base).1 = v at V Q'
  have QT : PartTree P v.tree m.tree := Q'.tree
  refine ⟨⟨V.tree, V.ord, O.side.nodup, ?_, ?_⟩, ⟨O.same.heads, O.same.diffs, QT⟩, O.alone,
    O.outside, O.nodup⟩
  · intro x c nd hx hnd
    dsimp only at hx hnd
    by_cases hP : P x
    · obtain ⟨nd', k1, k2, _⟩ := QT.known hP hnd
      rw [← k2]
      exact O.alone.roots ((O.same.heads hP).trans hx) k1
    · rw [(O.outside x hP).1] at hx; cases hx
  · intro x hx
    dsimp only at hx ⊢
    by_cases hP : P x
    · obtain ⟨h1, h2⟩ := O.alone.absent (QT.unknown hP hx)
      exact ⟨(O.same.heads hP).symm.trans h1, (O.same.diffs hP).symm.trans h2⟩
    · exact O.outside x hP

/-! ### All stores -/

theorem resultsTo_cons {β : Type _} (n : StoreNames) (c : StoreCall τ) (calls : List (StoreCall τ))
    (e : β) (r : List β) :
    resultsTo n (c :: calls) (e :: r) =
      if c.1 = n then e :: resultsTo n calls r else resultsTo n calls r := by
  unfold resultsTo
  by_cases h : c.1 = n <;> simp [h]

theorem callsTo_cons (n : StoreNames) (c : StoreCall τ) (calls : List (StoreCall τ)) :
    callsTo n (c :: calls) = if c.1 = n then c.2 :: callsTo n calls else callsTo n calls := by
  unfold callsTo
  by_cases h : c.1 = n <;> simp [h]

theorem sharedRun_spec {stores : List StoreNames} (HT : OwnTables stores)
    {Q : StoreNames → τ → Prop} : ∀ (calls : List (StoreCall τ)) (db : Database τ) (t : MTree τ)
    (ms : StoreNames → Versions τ (MTree τ)) (as : StoreNames → Versions τ (Graph τ)),
    Sim t db.graph →
    (∀ n ∈ stores, OwnPart (Q n) t (tableOf db n.heads) (tableOf db n.diffs) (ms n) ∧
      Joint (ms n) (as n)) →
    (∀ c ∈ calls, c.1 ∈ stores ∧ c.2.base ≠ some c.2.tag ∧ dget t c.2.tag = none ∧
      ∀ n, (c.1 = n → Q n c.2.tag ∧ ∀ b, c.2.base = some b → Q n b) ∧
        (c.1 ≠ n → ¬ Q n c.2.tag ∧ ∀ b, c.2.base = some b → ¬ Q n b)) →
    (addedTags (calls.map Prod.snd)).Nodup →
    ∃ t', Sim t' (sharedRun tk db calls).1.graph ∧
      t'.map Prod.fst = t.map Prod.fst ++ addedTags (calls.map Prod.snd) ∧
      ∀ n ∈ stores,
        OwnPart (Q n) t' (tableOf (sharedRun tk db calls).1 n.heads)
          (tableOf (sharedRun tk db calls).1 n.diffs)
          (runHistory (memoryTree τ) tk (ms n) (callsTo n calls)) ∧
        Joint (runHistory (memoryTree τ) tk (ms n) (callsTo n calls))
          (runHistory (dbTree τ) tk (as n) (callsTo n calls)) ∧
        resultsTo n calls (sharedRun tk db calls).2 =
          runErrors (dbTree τ) tk (as n) (callsTo n calls)
  | [], db, t, ms, as, H, HO, _, _ =>
    ⟨t, H, by simp [addedTags], fun n hn => ⟨(HO n hn).1, (HO n hn).2, rfl⟩⟩
  | (j, o) :: calls, db, t, ms, as, H, HO, HC, HN => by
    obtain ⟨hj, hb, ht, hQ⟩ := HC (j, o) (by simp)
    dsimp only at hj hb ht hQ
    obtain ⟨Oj, Jj⟩ := HO j hj
    obtain ⟨q1, q2⟩ := (hQ j).1 rfl
    obtain ⟨t', e', hk, H', O', J', hr⟩ := Oj.ownCall (tk := tk) H Jj ht hb q1 q2
    have hv := viewStore_own (tk := tk) db (HT.own hj) o
    have hview : viewStore db j = ⟨tableOf db j.heads, tableOf db j.diffs, db.graph⟩ := rfl
    have hnk : ∀ x, dget t x = none → x ≠ o.tag → dget t' x = none := by
      intro x hx hne
      cases h : dget t' x with
      | none => rfl
      | some nd =>
        have := mem_keys_of_dget h
        rw [hk] at this
        rcases List.mem_append.1 this with k | k
        · obtain ⟨z, k1, k2⟩ := List.mem_map.1 k
          exact absurd k2 (dget_eq_none_iff.1 hx z k1)
        · simp at k; exact absurd k hne
    have HN' : o.tag ∉ addedTags (calls.map Prod.snd) ∧ (addedTags (calls.map Prod.snd)).Nodup := by
      simpa [addedTags] using HN
    rw [← hview] at H' O' hr
    obtain ⟨t2, s1, s2, s3⟩ := sharedRun_spec HT calls
      (sharedAdd tk db j o.tag o.content o.base).1 t'
      (fun n => if j = n then (versionsAdd (memoryTree τ) tk (ms n) o.tag o.content o.base).1 else ms n)
      (fun n => if j = n then (versionsAdd (dbTree τ) tk (as n) o.tag o.content o.base).1 else as n)
      H' (by
        intro n hn
        by_cases e : j = n
        · subst e
          simp only [if_true]
          have k1 := congrArg Store.headVersion hv
          have k2 := congrArg Store.diffs hv
          simp only [viewStore] at k1 k2
          rw [k1, k2]
          exact ⟨O', J'⟩
        · simp only [if_neg e]
          have hd := HT.other hj hn e
          have hv' := viewStore_other (tk := tk) db hd.1.1 hd.1.2 hd.2.1 hd.2.2 o
          have k1 := congrArg Store.headVersion hv'
          have k2 := congrArg Store.diffs hv'
          simp only [viewStore] at k1 k2
          rw [k1, k2, e']
          obtain ⟨z1, z2⟩ := (hQ n).2 e
          exact ⟨(HO n hn).1.otherCall Oj ht hb z1 z2, (HO n hn).2⟩)
      (by
        intro c hc
        obtain ⟨c1, c2, c3, c4⟩ := HC c (by simp [hc])
        refine ⟨c1, c2, hnk _ c3 ?_, c4⟩
        intro e
        exact HN'.1 (e ▸ List.mem_map_of_mem (f := AddOp.tag) (List.mem_map_of_mem (f := Prod.snd) hc)))
      HN'.2
    refine ⟨t2, s1, ?_, fun n hn => ?_⟩
    · rw [s2, hk]; simp [addedTags]
    · obtain ⟨y1, y2, y3⟩ := s3 n hn
      rw [callsTo_cons]
      simp only [sharedRun, resultsTo_cons]
      by_cases e : j = n
      · subst e
        simp only [if_true] at y1 y2 y3 ⊢
        refine ⟨y1, y2, ?_⟩
        simp only [runErrors]
        rw [y3, ← hr]
        rfl
      · simp only [if_neg e] at y1 y2 y3 ⊢
        exact ⟨y1, y2, y3⟩

end Gaspra
