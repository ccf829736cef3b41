import Verif.Model.Changesets

/-!
# Model of `src/gaspra/serialize.py`

`bytes` is `List UInt8`.  The float divisions `excess / 256` of `vserialize_int` have operands
below `2**16` and are exact in binary floating point, so `int(excess / 256)` and
`int(241 + excess / 256)` are modelled by natural number division.
A generator is the list of items it yields together with how it ends
(`none`: it is exhausted, `some e`: it raises `e`).
-/

namespace Gaspra

/-- The big-endian digits `v.to_bytes(n, "big")` produces when `v` fits. -/
def bytesBE : Nat → Nat → List UInt8
  | 0, _ => []
  | n + 1, v => bytesBE n (v / 256) ++ [UInt8.ofNat (v % 256)]

/-- `v.to_bytes(n, "big")`: `OverflowError` for negative `v` and for `v` that does not fit. -/
def toBytes (v : Int) (n : Nat) : Except PyErr (List UInt8) :=
  if v < 0 then .error .overflowError
  else if v.toNat < 256 ^ n then .ok (bytesBE n v.toNat)
  else .error .overflowError

/-- `int.from_bytes(bs, "big")`. -/
def fromBytes (bs : List UInt8) : Nat := bs.foldl (fun acc b => acc * 256 + b.toNat) 0

/-- `vserialize_int` (serialize.py:4-37). -/
def vserializeInt (value : Int) : Except PyErr (List UInt8) :=
  if value ≤ 240 then toBytes value 1
  else if value ≤ 2287 then do
    let excess := value - 240
    let b0 ← toBytes (241 + excess / 256) 1
    let b1 ← toBytes (excess % 256) 1
    return b0 ++ b1
  else if value ≤ 67823 then do
    let excess := value - 2288
    let b0 ← toBytes 249 1
    let b1 ← toBytes (excess / 256) 1
    let b2 ← toBytes (excess % 256) 1
    return b0 ++ b1 ++ b2
  else if value ≤ 16777215 then do
    return (← toBytes 250 1) ++ (← toBytes value 3)
  else if value ≤ 4294967295 then do
    return (← toBytes 251 1) ++ (← toBytes value 4)
  else if value ≤ 1099511627775 then do
    return (← toBytes 252 1) ++ (← toBytes value 5)
  else if value ≤ 281474976710655 then do
    return (← toBytes 253 1) ++ (← toBytes value 6)
  else if value ≤ 72057594037927935 then do
    return (← toBytes 254 1) ++ (← toBytes value 7)
  else do
    return (← toBytes 255 1) ++ (← toBytes value 8)

/-- `vdeserialize_int` (serialize.py:40-60). -/
def vdeserializeInt (stream : List UInt8) : Except PyErr (Nat × List UInt8) :=
  if stream.length < 1 then .error .runtimeError
  else
    let a0 := fromBytes (stream.take 1)
    if a0 ≤ 240 then .ok (a0, stream.drop 1)
    else if 241 ≤ a0 ∧ a0 ≤ 248 then
      let a1 := fromBytes ((stream.take 2).drop 1)
      if stream.length < 2 then .error .runtimeError
      else .ok (240 + 256 * (a0 - 241) + a1, stream.drop 2)
    else if a0 = 249 then
      if stream.length < 3 then .error .runtimeError
      else .ok (2288 + fromBytes ((stream.take 3).drop 1), stream.drop 3)
    else
      let e := a0 - 246
      if stream.length < e then .error .runtimeError
      else .ok (fromBytes ((stream.take e).drop 1), stream.drop e)

/-- `serialize_int` (serialize.py:63-64). -/
def serializeInt (value : Int) : Except PyErr (List UInt8) := toBytes value 4

/-- `deserialize_int` (serialize.py:67-72). -/
def deserializeInt (stream : List UInt8) : Except PyErr (Nat × List UInt8) :=
  if stream.length < 4 then .error .runtimeError
  else .ok (fromBytes (stream.take 4), stream.drop 4)

/-- `vserialize_int(change.stop)`: comparing `None` with an integer is a `TypeError`. -/
def vserializeStop : Option Nat → Except PyErr (List UInt8)
  | none => .error .typeError
  | some e => vserializeInt e

/-- The loop of `serialize_changeset` (serialize.py:81-101), with the loop state
`next_is_bytes` and `serialized`.  Items are `bytes` or `slice` objects; the branch raising
`RuntimeError` for other types is not modelled. -/
def serializeLoop : Bool → List UInt8 → List (PatchItem UInt8) → Except PyErr (List UInt8)
  | _, serialized, [] => .ok serialized
  | nextIsBytes, serialized, .piece b :: rest => do
    let serialized ←
      if nextIsBytes then pure serialized
      else do
        let s ← pure (serialized ++ (← vserializeInt 0))
        pure (s ++ (← vserializeInt 0))
    let serialized := serialized ++ (← vserializeInt b.length)
    let serialized := serialized ++ b
    serializeLoop false serialized rest
  | nextIsBytes, serialized, .slice sl :: rest => do
    let serialized ←
      if nextIsBytes then pure (serialized ++ (← vserializeInt 0)) else pure serialized
    let serialized := serialized ++ (← vserializeInt sl.start)
    let serialized := serialized ++ (← vserializeStop sl.stop)
    serializeLoop true serialized rest

/-- `serialize_changeset` (serialize.py:75-103). -/
def serializeChangeset (changeset : List (PatchItem UInt8)) : Except PyErr (List UInt8) :=
  serializeLoop true [] changeset

/-- The loop of the generator `deserialize_changeset` (serialize.py:109-123); fuel bounds the
number of iterations. -/
def deserializeLoop : Nat → Bool → List UInt8 → List (PatchItem UInt8) × Option PyErr
  | 0, _, stream => if stream.length = 0 then ([], none) else ([], some .diverges)
  | f + 1, nextIsBytes, stream =>
    if stream.length = 0 then ([], none)
    else if nextIsBytes then
      match vdeserializeInt stream with
      | .error e => ([], some e)
      | .ok (length, stream) =>
        if length ≠ 0 then
          if stream.length < length then ([], some .runtimeError)
          else
            let r := deserializeLoop f false (stream.drop length)
            (.piece (stream.take length) :: r.1, r.2)
        else deserializeLoop f false (stream.drop length)
    else
      match vdeserializeInt stream with
      | .error e => ([], some e)
      | .ok (start, stream) =>
        match vdeserializeInt stream with
        | .error e => ([], some e)
        | .ok (stop, stream) =>
          if start ≠ stop then
            let r := deserializeLoop f true stream
            (.slice ⟨start, some stop⟩ :: r.1, r.2)
          else deserializeLoop f true stream

/-- `deserialize_changeset` (serialize.py:106-123).  Every iteration consumes at least one byte,
so the length of the stream is enough fuel. -/
def deserializeChangeset (stream : List UInt8) : List (PatchItem UInt8) × Option PyErr :=
  deserializeLoop stream.length true stream

end Gaspra
