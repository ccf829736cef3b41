import Verif.Model.Py

/-!
# UTF-8

The codec behind `str.encode("utf-8")` and `bytes.decode("utf-8")` (strict error handling) as far
as the tokenizers use it.  Part of the trusted base, like `Verif/Model/Py.lean`.
-/

namespace Gaspra

abbrev Bytes := List UInt8

/-- A Python `str` as its list of code points. -/
abbrev PyStr := List Nat

/-- A code point that UTF-8 can encode: below `0x110000` and no surrogate. -/
def isScalar (c : Nat) : Bool := c < 0xD800 || (0xE000 ≤ c && c < 0x110000)

/-- `chr(c).encode("utf-8")`; `none` is a `UnicodeEncodeError`. -/
def utf8EncodeCp (c : Nat) : Option Bytes :=
  if isScalar c then
    if c < 0x80 then some [UInt8.ofNat c]
    else if c < 0x800 then some [UInt8.ofNat (0xC0 + c / 64), UInt8.ofNat (0x80 + c % 64)]
    else if c < 0x10000 then
      some [UInt8.ofNat (0xE0 + c / 4096), UInt8.ofNat (0x80 + c / 64 % 64),
        UInt8.ofNat (0x80 + c % 64)]
    else
      some [UInt8.ofNat (0xF0 + c / 262144), UInt8.ofNat (0x80 + c / 4096 % 64),
        UInt8.ofNat (0x80 + c / 64 % 64), UInt8.ofNat (0x80 + c % 64)]
  else none

/-- `s.encode("utf-8")`. -/
def utf8Encode : PyStr → Option Bytes
  | [] => some []
  | c :: s =>
    match utf8EncodeCp c, utf8Encode s with
    | some b, some r => some (b ++ r)
    | _, _ => none

/-- A continuation byte `10xxxxxx` and its six bits. -/
def contBits (b : UInt8) : Option Nat :=
  if 0x80 ≤ b.toNat ∧ b.toNat < 0xC0 then some (b.toNat - 0x80) else none

/-- Decode the first code point.  Overlong forms, surrogates and values from `0x110000` on are
errors. -/
def utf8Head : Bytes → Option (Nat × Bytes)
  | [] => none
  | b0 :: r0 =>
    if b0.toNat < 0x80 then some (b0.toNat, r0)
    else if b0.toNat < 0xC0 then none
    else if b0.toNat < 0xE0 then
      match r0 with
      | b1 :: r1 =>
        match contBits b1 with
        | some x1 =>
          let c := (b0.toNat - 0xC0) * 64 + x1
          if 0x80 ≤ c then some (c, r1) else none
        | none => none
      | [] => none
    else if b0.toNat < 0xF0 then
      match r0 with
      | b1 :: b2 :: r2 =>
        match contBits b1, contBits b2 with
        | some x1, some x2 =>
          let c := (b0.toNat - 0xE0) * 4096 + x1 * 64 + x2
          if 0x800 ≤ c ∧ isScalar c then some (c, r2) else none
        | _, _ => none
      | _ => none
    else if b0.toNat < 0xF8 then
      match r0 with
      | b1 :: b2 :: b3 :: r3 =>
        match contBits b1, contBits b2, contBits b3 with
        | some x1, some x2, some x3 =>
          let c := (b0.toNat - 0xF0) * 262144 + x1 * 4096 + x2 * 64 + x3
          if 0x10000 ≤ c ∧ isScalar c then some (c, r3) else none
        | _, _, _ => none
      | _ => none
    else none

/-- `b.decode("utf-8")` with fuel for the number of code points. -/
def utf8DecodeAux : Nat → Bytes → Option PyStr
  | _, [] => some []
  | 0, _ :: _ => none
  | f + 1, b :: r =>
    match utf8Head (b :: r) with
    | none => none
    | some (c, r') =>
      match utf8DecodeAux f r' with
      | none => none
      | some s => some (c :: s)

/-- `b.decode("utf-8")`; `none` is a `UnicodeDecodeError`.  Every code point takes at least one
byte, so the fuel suffices. -/
def utf8Decode (b : Bytes) : Option PyStr := utf8DecodeAux b.length b

end Gaspra
