import Verif.Proofs.ShortChangeset
import Verif.Props.Serialize

/-!
# C115: no changeset can be read from fewer bytes than are written for it

For a single integer this is C24.
-/

namespace Gaspra

/-- C115.  Whatever bytes `deserialize_changeset` reads without an error, the items can be
serialized, in no more bytes, and are read from these bytes again. -/
theorem C115_shortest {bs : List UInt8} {items : List (PatchItem UInt8)}
    (h : deserializeChangeset bs = (items, none)) :
    ∃ bs', serializeChangeset items = .ok bs' ∧ bs'.length ≤ bs.length ∧
      deserializeChangeset bs' = (items, none) := by
  obtain ⟨h1, h2⟩ := deserializeLoop_shortest _ _ _ h
  obtain ⟨bs', k1, k2⟩ := C25_changeset_roundtrip_exact items (fun c hc => (h1 c hc).1)
    fun c hc => (h1 c hc).2
  refine ⟨bs', k1, ?_, k2⟩
  have : serializeChangeset items = .ok (encAll true items) := by
    simpa [serializeChangeset] using serializeLoop_spec items true [] fun c hc => (h1 c hc).1
  rw [this] at k1
  cases k1
  exact h2

/-- C115.  So a changeset without empty items is written in the fewest bytes from which it can be
read. -/
theorem C115_fewest {cs : List (PatchItem UInt8)} {bs other : List UInt8}
    (hs : serializeChangeset cs = .ok bs) (ho : deserializeChangeset other = (cs, none)) :
    bs.length ≤ other.length := by
  obtain ⟨bs', k1, k2, _⟩ := C115_shortest ho
  rw [hs] at k1
  cases k1
  exact k2

/-- C115.  There are other byte strings of the same length (any empty slice between two literals will
do), and longer ones. -/
theorem C115_not_unique :
    deserializeChangeset [1, 7, 0, 0, 1, 8] = deserializeChangeset [1, 7, 5, 5, 1, 8] ∧
    serializeChangeset [.piece [7], .piece [8]] = .ok [1, 7, 0, 0, 1, 8] ∧
    deserializeChangeset [1, 7, 0, 0, 1, 8, 0, 0, 0] = deserializeChangeset [1, 7, 0, 0, 1, 8] := by
  decide +kernel

/-- C54.  `deserialize_int` reads the first four bytes of any stream that has them, which are those
that `serialize_int` writes for the result, and refuses shorter streams. -/
theorem C54_int_read (bs rest : List UInt8) :
    (bs.length = 4 → ∃ v, deserializeInt (bs ++ rest) = .ok (v, rest) ∧ v < 2 ^ 32 ∧
      serializeInt v = .ok bs) ∧
    (bs.length < 4 → deserializeInt bs = .error .runtimeError) := by
  refine ⟨fun h => ⟨fromBytes bs, ?_, ?_, ?_⟩, fun h => by simp [deserializeInt, h]⟩
  · simp only [deserializeInt, List.length_append, h]
    rw [if_neg (by omega), List.take_left' h, List.drop_left' h]
  · have := fromBytes_lt bs
    rw [h] at this
    omega
  · have := fromBytes_lt bs
    rw [h] at this
    rw [serializeInt, toBytes_ok this, ← h, bytesBE_fromBytes]

example : deserializeInt [18, 52, 86, 120, 9] = .ok (305419896, [9]) ∧
    deserializeInt [18, 52, 86] = .error .runtimeError := by decide +kernel

example : deserializeChangeset [0, 251, 0, 0, 0, 2, 4, 0, 9, 9] = ([.slice ⟨2, some 4⟩], none) ∧
    serializeChangeset [.slice ⟨2, some 4⟩] = .ok [0, 2, 4] := by decide +kernel

end Gaspra
