import Verif.Model.Utf8

/-!
# JSON objects with string values

The grammar of RFC 8259 for such documents, with the meaning of the text, as relations.  Code points
are numbers.
-/

namespace Gaspra

/-- White space between tokens: space, tab, line feed, carriage return. -/
def JsonBlank (w : PyStr) : Prop := ∀ c ∈ w, c = 32 ∨ c = 9 ∨ c = 10 ∨ c = 13

/-- `c` is a hexadecimal digit of value `n`, in either case. -/
def JsonHex (c n : Nat) : Prop :=
  (n < 10 ∧ c = 48 + n) ∨ (10 ≤ n ∧ n < 16 ∧ (c = 65 + (n - 10) ∨ c = 97 + (n - 10)))

/-- `e` is the escape `\uXXXX` of the code unit `u`. -/
def JsonUnit (e : PyStr) (u : Nat) : Prop := ∃ a b c d p q r s, e = [92, 117, a, b, c, d] ∧
  JsonHex a p ∧ JsonHex b q ∧ JsonHex c r ∧ JsonHex d s ∧ u = p * 4096 + q * 256 + r * 16 + s

/-- The escapes of two characters. -/
def jsonShort : List (Nat × Nat) :=
  [(34, 34), (92, 92), (47, 47), (98, 8), (102, 12), (110, 10), (114, 13), (116, 9)]

def JsonHigh (u : Nat) : Prop := 0xD800 ≤ u ∧ u < 0xDC00
def JsonLow (u : Nat) : Prop := 0xDC00 ≤ u ∧ u < 0xE000

/-- `text`, between quotes, means the string `value`. -/
inductive JsonBody : PyStr → PyStr → Prop
  | nil : JsonBody [] []
  | char {c : Nat} {t v : PyStr} (printable : 32 ≤ c) (noQuote : c ≠ 34) (noBackslash : c ≠ 92)
      (rest : JsonBody t v) : JsonBody (c :: t) (c :: v)
  | short {c d : Nat} {t v : PyStr} (e : (c, d) ∈ jsonShort) (rest : JsonBody t v) :
      JsonBody (92 :: c :: t) (d :: v)
  /-- Two code units that belong together. -/
  | pair {e e' t v : PyStr} {u u' : Nat} (hu : JsonUnit e u) (hu' : JsonUnit e' u')
      (high : JsonHigh u) (low : JsonLow u') (rest : JsonBody t v) :
      JsonBody (e ++ (e' ++ t)) ((0x10000 + (u - 0xD800) * 1024 + (u' - 0xDC00)) :: v)
  | unit {e t v : PyStr} {u : Nat} (hu : JsonUnit e u)
      (single : JsonHigh u → ∀ e' t' u', t = e' ++ t' → JsonUnit e' u' → ¬ JsonLow u')
      (rest : JsonBody t v) : JsonBody (e ++ t) (u :: v)

/-- `"key" : "value"`, up to the next comma or brace. -/
inductive JsonMember : PyStr → PyStr × PyStr → Prop
  | mk {k v kt vt w1 w2 w3 : PyStr} (key : JsonBody kt k) (value : JsonBody vt v)
      (h1 : JsonBlank w1) (h2 : JsonBlank w2) (h3 : JsonBlank w3) :
      JsonMember (34 :: (kt ++ 34 :: (w1 ++ 58 :: (w2 ++ 34 :: (vt ++ 34 :: w3))))) (k, v)

/-- One or more members with commas between them. -/
inductive JsonMembers : PyStr → List (PyStr × PyStr) → Prop
  | one {t : PyStr} {p : PyStr × PyStr} (h : JsonMember t p) : JsonMembers t [p]
  | more {t w r : PyStr} {p : PyStr × PyStr} {ps : List (PyStr × PyStr)} (h : JsonMember t p)
      (hw : JsonBlank w) (rest : JsonMembers r ps) : JsonMembers (t ++ 44 :: (w ++ r)) (p :: ps)

/-- A document: an object with the given members, in the order of the text. -/
inductive JsonDoc : PyStr → List (PyStr × PyStr) → Prop
  | empty {w1 w2 w3 : PyStr} (h1 : JsonBlank w1) (h2 : JsonBlank w2) (h3 : JsonBlank w3) :
      JsonDoc (w1 ++ 123 :: (w2 ++ 125 :: w3)) []
  | members {w1 w2 w3 t : PyStr} {ps : List (PyStr × PyStr)} (h1 : JsonBlank w1)
      (h2 : JsonBlank w2) (h3 : JsonBlank w3) (h : JsonMembers t ps) :
      JsonDoc (w1 ++ 123 :: (w2 ++ (t ++ 125 :: w3))) ps

end Gaspra
