import Verif.Proofs.Changesets
import Verif.Spec.Tiles

/-!
# The slices stored in a changeset tree
-/

set_option linter.unusedSectionVars false
set_option linter.unusedSimpArgs false
set_option linter.unusedVariables false

namespace Gaspra

variable {α : Type _}

theorem Tiles.append {k e : Nat} {stop : Option Nat} {A B : List Slice} (hA : Tiles k (some e) A)
    (hB : Tiles e stop B) : Tiles k stop (A ++ B) := by
  induction A generalizing k with
  | nil => exact hA.elim
  | cons s A ih =>
    cases A with
    | nil =>
      cases B with
      | nil => exact hB.elim
      | cons t B => exact ⟨hA.1, e, hA.2, hB⟩
    | cons t A =>
      obtain ⟨h1, e', h2, h3⟩ := hA
      exact ⟨h1, e', h2, ih h3⟩

theorem Tiles.cons {k e : Nat} {stop : Option Nat} {s : Slice} {B : List Slice} (h1 : s.start = k)
    (h2 : s.stop = some e) (hB : Tiles e stop B) : Tiles k stop (s :: B) :=
  Tiles.append (A := [s]) ⟨h1, h2⟩ hB

theorem Selects.inside {o x : List α} {sl : Slice} {i : Nat} (h : Selects o sl i x) : sl.Inside o.length := by
  obtain ⟨p, q, rfl, hp⟩ := h.occ
  have := h.start
  refine ⟨by simp; omega, fun e he => ?_⟩
  have := h.stop_some e he
  simp
  omega

/-- What the slices of a part of the tree are like. -/
structure Stored (o m : List α) (os ms : Slice) (cs : Changeset α) : Prop where
  tiles_o : Tiles os.start os.stop (cs.slices.map (·.1))
  tiles_m : Tiles ms.start ms.stop (cs.slices.map (·.2))
  inside : ∀ s ∈ cs.slices, s.1.Inside o.length ∧ s.2.Inside m.length
  leaves : ∀ l ∈ cs.leaves, l.1.1 = l.2.1.get o ∧ l.1.2 = l.2.2.get m
  commons : ∀ c ∈ cs.commons, c.1.get o = c.2.get m ∧ c.1.get o ≠ []

variable [DecidableEq α]

theorem findChangesetAux_stored (o m : List α) : ∀ (fuel : Nat) (os ms : Slice) (i j : Nat)
    (x y : List α), Selects o os i x → Selects m ms j y → x.length < fuel →
    ∃ cs, findChangesetAux o m fuel os ms = some cs ∧ Stored o m os ms cs := by
  intro fuel
  induction fuel with
  | zero => intro os ms i j x y _ _ hf; omega
  | succ f ih =>
    intro os ms i j x y ho hm hf
    obtain ⟨a, b, n, w, hl, hwn, hoa, hob, hmax, hfo, hfm⟩ := findLcs_spec x y
    have go := ho.get
    have gm := hm.get
    simp only [findChangesetAux, go, gm, hl]
    by_cases hn : n = 0
    · refine ⟨_, by rw [if_pos hn], ?_, ?_, ?_, ?_, by simp [Changeset.commons]⟩
      · exact ⟨rfl, rfl⟩
      · exact ⟨rfl, rfl⟩
      · intro s hs
        simp only [Changeset.slices, List.mem_singleton] at hs
        subst hs
        exact ⟨ho.inside, hm.inside⟩
      · intro l hl
        simp only [Changeset.leaves, List.mem_singleton] at hl
        subst hl
        exact ⟨go.symm, gm.symm⟩
    · rw [if_neg hn]
      obtain ⟨x1, x2, hx, hx1⟩ := hoa
      obtain ⟨y1, y2, hy, hy1⟩ := hob
      subst hx hy
      have hso := ho.occ
      have hsm := hm.occ
      have s1 := ho.start
      have s2 := hm.start
      have hxlen : (x1 ++ w ++ x2).length = x1.length + w.length + x2.length := by simp; omega
      have hylen : (y1 ++ w ++ y2).length = y1.length + w.length + y2.length := by simp; omega
      obtain ⟨p, hp1, hp2⟩ := ih ⟨os.start, some (os.start + a)⟩ ⟨ms.start, some (ms.start + b)⟩ i j x1 y1
        ⟨s1, hso.left, by intro e he; cases he; omega, by simp⟩
        ⟨s2, hsm.left, by intro e he; cases he; omega, by simp⟩ (by omega)
      obtain ⟨s, hs1, hs2⟩ := ih ⟨os.start + a + n, os.stop⟩ ⟨ms.start + b + n, ms.stop⟩
        (i + x1.length + w.length) (j + y1.length + w.length) x2 y2
        ⟨by simp; omega, hso.right, by intro e he; have := ho.stop_some e he; omega,
          by intro he; have := ho.stop_none he; omega⟩
        ⟨by simp; omega, hsm.right, by intro e he; have := hm.stop_some e he; omega,
          by intro he; have := hm.stop_none he; omega⟩ (by omega)
      have co : Selects o ⟨os.start + a, some (os.start + a + n)⟩ (i + x1.length) w :=
        ⟨by simp; omega, hso.mid, by intro e he; cases he; omega, by simp⟩
      have cm : Selects m ⟨ms.start + b, some (ms.start + b + n)⟩ (j + y1.length) w :=
        ⟨by simp; omega, hsm.mid, by intro e he; cases he; omega, by simp⟩
      have hw : w ≠ [] := by rintro rfl; simp at hwn; omega
      simp only [hp1, hs1]
      refine ⟨_, rfl, ?_, ?_, ?_, ?_, ?_⟩
      · simp only [Changeset.slices, List.map_append, List.map_cons]
        exact hp2.tiles_o.append (.cons rfl rfl hs2.tiles_o)
      · simp only [Changeset.slices, List.map_append, List.map_cons]
        exact hp2.tiles_m.append (.cons rfl rfl hs2.tiles_m)
      · intro t ht
        simp only [Changeset.slices, List.mem_append, List.mem_cons] at ht
        rcases ht with h | rfl | h
        · exact hp2.inside t h
        · exact ⟨co.inside, cm.inside⟩
        · exact hs2.inside t h
      · intro t ht
        simp only [Changeset.leaves, List.mem_append] at ht
        rcases ht with h | h
        · exact hp2.leaves t h
        · exact hs2.leaves t h
      · intro t ht
        simp only [Changeset.commons, List.mem_append, List.mem_cons] at ht
        rcases ht with h | rfl | h
        · exact hp2.commons t h
        · exact ⟨co.get.trans cm.get.symm, by rw [co.get]; exact hw⟩
        · exact hs2.commons t h

theorem findChangeset_stored (o m : List α) :
    ∃ cs, findChangeset o m = some cs ∧ Stored o m ⟨0, none⟩ ⟨0, none⟩ cs := by
  refine findChangesetAux_stored o m _ _ _ 0 0 o m ?_ ?_ (by omega)
  · exact ⟨rfl, OccursAt.whole o, by simp, by simp⟩
  · exact ⟨rfl, OccursAt.whole m, by simp, by simp⟩

end Gaspra
