import Verif.Spec.Again
import Verif.Props.Stretch

/-!
# C91: merging many branches, and merging a branch again
-/

set_option linter.unusedSimpArgs false

namespace Gaspra

variable {α : Type _} [DecidableEq α]

/-- C91.  A stretch that only one branch changed, or that both replaced altogether by the same text, is no
conflict, whatever the tokens are like elsewhere. -/
theorem C91_settled (kind : Kind) {ss : List (Stretch α)} {last : List α} (h : Divided ss last)
    (hs : ∀ s ∈ ss, s.right = s.old ∨ s.left = s.old ∨ (s.left = s.right ∧ Apart s.old s.left)) :
    mergeTokenSequence kind (stretchText Stretch.old ss last) (stretchText Stretch.left ss last)
      (stretchText Stretch.right ss last) =
      .ok [.common (stretchText (fun s => if s.right = s.old then s.left else s.right) ss last)] :=
  merge_settled kind h hs

/-- C91.  Texts that differ in which of the changes at separate spots they have never conflict: a merge has
a change if the branch has it whose choice differs from the parent's, and undoes it likewise. -/
theorem C91_choices (kind : Kind) {spots : List (Spot α)} {last : List α} (h : Spaced spots last)
    (A S T : Nat → Bool) :
    mergeTokenSequence kind (spotText A spots last) (spotText S spots last) (spotText T spots last) =
      .ok [.common (spotText (fun i => if S i = A i then T i else S i) spots last)] := by
  let f : (Nat → Bool) → Spot α → List α := fun S s => if S s.name then s.new else s.old
  let g : Spot α → Stretch α := fun s => ⟨s.keep, f A s, f S s, f T s⟩
  have mem : ∀ S s t, t ∈ f S s → t ∈ s.old ++ s.new := by
    intro S s t ht
    simp only [f] at ht
    split at ht <;> simp [ht]
  have sub : ∀ s, ∀ t ∈ (g s).all, t ∈ s.all := by
    intro s t ht
    simp only [Stretch.all, g, List.mem_append] at ht
    rcases ht with ((ht | ht) | ht) | ht
    · simp [Spot.all, ht]
    all_goals
      have := mem _ _ _ ht
      simp only [Spot.all, List.append_assoc, List.mem_append] at this ⊢
      exact .inr this
  have hd : Divided (spots.map g) last := by
    refine ⟨?_, ?_, ?_, ?_⟩
    · intro r hr
      rw [← List.map_tail] at hr
      obtain ⟨s, hs, rfl⟩ := List.mem_map.1 hr
      exact h.between s hs
    · intro r hr
      obtain ⟨s, hs, rfl⟩ := List.mem_map.1 hr
      intro t ht hn
      refine h.keep s hs t ht ?_
      simp only [g, List.mem_append] at hn
      rcases hn with (hn | hn) | hn <;> exact mem _ _ _ hn
    · rw [List.pairwise_map]
      exact h.separate.imp fun {a b} hab t ht hn => hab t (sub a t ht) (sub b t hn)
    · intro r hr
      obtain ⟨s, hs, rfl⟩ := List.mem_map.1 hr
      exact fun t ht hn => h.last s hs t ht (sub s t hn)
  have hc : ∀ r ∈ spots.map g, r.right = r.old ∨ r.left = r.old ∨ (r.left = r.right ∧ Apart r.old r.left) := by
    intro r hr
    obtain ⟨s, hs, rfl⟩ := List.mem_map.1 hr
    have ha := h.change s hs
    have hb : Apart s.new s.old := fun t ht hn => ha t hn ht
    simp only [g, f]
    cases A s.name <;> cases S s.name <;> cases T s.name <;> simp [ha, hb]
  have := C91_settled kind hd hc
  have x : ∀ F : Stretch α → List α, stretchText F (spots.map g) last =
      spots.flatMap (fun s => s.keep ++ F (g s)) ++ last := by
    intro F; simp [stretchText, List.flatMap_map, g]
  simp only [x] at this
  rw [show spotText A spots last = spots.flatMap (fun s => s.keep ++ (g s).old) ++ last from rfl,
    show spotText S spots last = spots.flatMap (fun s => s.keep ++ (g s).left) ++ last from rfl,
    show spotText T spots last = spots.flatMap (fun s => s.keep ++ (g s).right) ++ last from rfl, this]
  congr 3
  simp only [spotText]
  congr 1
  congr 1
  funext s
  congr 1
  simp only [g, f]
  by_cases ea : A s.name = true <;> by_cases es : S s.name = true <;> by_cases et : T s.name = true <;>
    simp [ea, es, et] <;> intro e <;> simp [e]

/-- C91.  Merging any number of such branches one after the other gives the text with all their changes, in
whatever order they are merged and however often. -/
theorem C91_many (kind : Kind) {spots : List (Spot α)} {last : List α} (h : Spaced spots last)
    (Ss : List (Nat → Bool)) :
    mergeEach kind (spotText (fun _ => false) spots last) (spotText (fun _ => false) spots last)
        (Ss.map fun S => spotText S spots last) =
      some (spotText (fun i => Ss.any (· i)) spots last) := by
  have go : ∀ (Ss : List (Nat → Bool)) (R : Nat → Bool),
      mergeEach kind (spotText (fun _ => false) spots last) (spotText R spots last)
        (Ss.map fun S => spotText S spots last) =
      some (spotText (fun i => R i || Ss.any (· i)) spots last) := by
    intro Ss
    induction Ss with
    | nil => intro R; simp [mergeEach]
    | cons S Ss ih =>
      intro R
      simp only [List.map_cons, mergeEach, C91_choices kind h]
      rw [ih]
      congr 2
      funext i
      simp only [List.any_cons]
      cases R i <;> cases S i <;> rfl
  simpa using go Ss fun _ => false

/-- C91.  Neither the order nor repetition matters. -/
theorem C91_order (kind : Kind) {spots : List (Spot α)} {last : List α} (h : Spaced spots last)
    {Ss Ts : List (Nat → Bool)} (he : ∀ S, S ∈ Ss ↔ S ∈ Ts) :
    mergeEach kind (spotText (fun _ => false) spots last) (spotText (fun _ => false) spots last)
        (Ss.map fun S => spotText S spots last) =
      mergeEach kind (spotText (fun _ => false) spots last) (spotText (fun _ => false) spots last)
        (Ts.map fun S => spotText S spots last) := by
  rw [C91_many kind h, C91_many kind h]
  congr 2
  funext i
  rw [Bool.eq_iff_iff]
  simp only [List.any_eq_true]
  exact ⟨fun ⟨S, hS, hi⟩ => ⟨S, (he S).1 hS, hi⟩, fun ⟨S, hS, hi⟩ => ⟨S, (he S).2 hS, hi⟩⟩

/-! With a token that occurs twice, a change can be made again each time that it is merged. -/

theorem diff_front {o : α} {X : List α} (hX : X ≠ []) (ho : o ∉ X) :
    diffTokenSequences (o :: X) (o :: o :: X) = some [.change [o] [], .common (o :: X)] := by
  rw [C62_diff_exact]
  have len : ∀ z, CommonSubstring ([] ++ (o :: X) ++ []) ([o] ++ (o :: X) ++ []) z →
      z.length ≤ (o :: X).length ∧ (z.length = (o :: X).length → z = o :: X) := by
    intro z hz
    obtain ⟨⟨_, p, q, e, _⟩, _⟩ := hz
    have l := congrArg List.length e
    simp at l e
    refine ⟨by simp; omega, fun hl => ?_⟩
    simp at hl
    have hp : p = [] := List.eq_nil_of_length_eq_zero (by omega)
    have hq : q = [] := List.eq_nil_of_length_eq_zero (by omega)
    subst hp hq
    simpa using e.symm
  have := IsDiff.split (o1 := []) (o2 := []) (m1 := [o]) (m2 := []) (w := o :: X) (by simp)
    (fun z hz => (len z hz).1)
    (fun z j hz hl hj => by
      have e := (len z hz).2 hl
      subst e
      exact occurs_later hX ho (by simpa using hj))
    (fun i hi => by simp) (IsDiff.change (by simp) (by simp)) IsDiff.empty
  simpa using this

theorem replicate_mem {o : α} {Z : List α} {n : Nat} {t : α} (h : t ∈ List.replicate n o ++ Z) :
    t = o ∨ t ∈ Z := by
  rw [List.mem_append, List.mem_replicate] at h
  rcases h with h | h
  · exact .inl h.2
  · exact .inr h

/-- C91.  The branch `o :: o :: X` puts one `o` in front.  Merging it once more, and again without a
conflict, puts one more `o` in front. -/
theorem C91_grows (kind : Kind) {o : α} {X Z : List α} (hX : X ≠ []) (ho : o ∉ X) (hZ : ∀ t ∈ Z, t ∉ o :: X)
    (n : Nat) :
    mergeTokenSequence kind (o :: X) (List.replicate (n + 1) o ++ Z) (o :: o :: X) =
      .ok [.common (List.replicate (n + 2) o ++ Z)] := by
  have h0 : diffTokenSequences (o :: X) (List.replicate (n + 1) o ++ Z) =
      some [.common [o], .change (List.replicate n o ++ Z) X] := by
    rw [C62_diff_exact]
    have long : ∀ z, CommonSubstring ([] ++ [o] ++ X) ([] ++ [o] ++ (List.replicate n o ++ Z)) z →
        z.length ≤ 1 := by
      intro z hz
      obtain ⟨⟨_, p1, q1, e1, _⟩, ⟨_, p2, q2, e2, _⟩⟩ := hz
      match z, e1, e2 with
      | [], _, _ => simp
      | [_], _, _ => simp
      | a :: b :: z, e1, e2 =>
        exfalso
        have hb : b ∈ X := by
          cases p1 with
          | nil => simp at e1; simp [e1.2]
          | cons y p1 => simp at e1; simp [e1.2]
        have hb2 : b ∈ List.replicate (n + 1) o ++ Z := by
          have : b ∈ [] ++ [o] ++ (List.replicate n o ++ Z) := by rw [e2]; simp
          simpa [List.replicate_succ] using this
        rcases replicate_mem hb2 with rfl | hb2
        · exact ho hb
        · exact hZ b hb2 (by simp [hb])
    have := IsDiff.split (o1 := []) (o2 := X) (m1 := []) (m2 := List.replicate n o ++ Z) (w := [o]) (by simp)
      long (fun _ _ _ _ _ => by simp) (fun _ _ => by simp)
      IsDiff.empty (IsDiff.change (.inl hX) fun t ht hz => by
        rcases replicate_mem hz with rfl | hz
        · exact ho ht
        · exact hZ t hz (by simp [ht]))
    simpa [List.replicate_succ] using this
  have s : SideBySide [.inl o, .inr (List.replicate n o ++ Z, X)]
      (.inr ([o], []) :: .inl o :: tokens X) (o :: X) (o :: o :: (List.replicate n o ++ Z)) := by
    have l := SideBySide.left (a := List.replicate n o ++ Z) (b := X) (by trivial) (by trivial) SideBySide.nil
    simpa using SideBySide.right (a := [o]) (b := []) (by trivial) (by trivial) (SideBySide.token (t := o) l)
  have := SideBySide.merge (kind := kind) h0 (diff_front hX ho) (by simpa [spell, tokens] using s)
  rw [this, List.replicate_succ, List.replicate_succ]
  rfl

/-- C91.  So merging it `n` times gives `n` of them. -/
theorem C91_again (kind : Kind) {o : α} {X Z : List α} (hX : X ≠ []) (ho : o ∉ X) (hZ : ∀ t ∈ Z, t ∉ o :: X)
    (n : Nat) :
    mergeEach kind (o :: X) (o :: Z) (List.replicate n (o :: o :: X)) =
      some (List.replicate n o ++ o :: Z) := by
  have go : ∀ n k, mergeEach kind (o :: X) (List.replicate (k + 1) o ++ Z) (List.replicate n (o :: o :: X)) =
      some (List.replicate (k + 1 + n) o ++ Z) := by
    intro n
    induction n with
    | zero => intro k; simp [mergeEach]
    | succ n ih =>
      intro k
      simp only [List.replicate_succ (n := n), mergeEach, C91_grows kind hX ho hZ]
      rw [ih]
      congr 3
      omega
  have := go n 0
  simp only [Nat.zero_add, List.replicate_one, List.singleton_append] at this
  rw [this, Nat.add_comm, List.replicate_succ', List.append_assoc]
  rfl

/-! Examples. -/

def sampleSpots : List (Spot Char) :=
  [⟨0, "ab".toList, "c".toList, "xy".toList⟩, ⟨1, "d".toList, [], "z".toList⟩, ⟨2, "e".toList, "fg".toList, []⟩]
example : Spaced sampleSpots "h".toList := by
  constructor <;> simp [sampleSpots, Apart, Spot.all] <;> constructor <;> rintro t ((rfl | rfl) | rfl | rfl | rfl) <;>
    decide
example : spotText (fun _ => false) sampleSpots "h".toList = "abcdefgh".toList ∧
    spotText (fun i => i == 0 || i == 2) sampleSpots "h".toList = "abxydeh".toList ∧
    spotText (fun i => i != 2) sampleSpots "h".toList = "abxydzefgh".toList := by decide
-- The first change is made by both branches.
example : mergeTokenSequence .str "abcdefgh".toList "abxydeh".toList "abxydzefgh".toList =
    .ok [.common "abxydzeh".toList] := by decide +kernel
-- One branch undoes the first change, the other one makes the second one.
example : mergeTokenSequence .str "abxydefgh".toList "abcdefgh".toList "abxydzefgh".toList =
    .ok [.common "abcdzefgh".toList] := by decide +kernel
-- A branch merged three times.
example : mergeEach .str "oxy".toList "ozw".toList (List.replicate 3 "ooxy".toList) = some "oooozw".toList := by
  decide +kernel

end Gaspra
