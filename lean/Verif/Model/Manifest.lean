import Verif.Model.Versions

/-!
# Model of `src/gaspra/manifest.py`

A manifest is a `dict` from names to tags, both `str` (names and tags of other types do not
survive JSON and are not modelled).  `json.dumps` and `json.loads` are modelled concretely as far
as objects with string values are concerned; `loads` of any other JSON document is reported as
`ValueError` here (the real function would return another kind of value).
-/

namespace Gaspra

/-- `Manifest` (manifest.py:6). -/
abbrev Manifest := List (PyStr × PyStr)

/-! ## JSON (standard library) -/

/-- A hexadecimal digit as `'{:x}'.format` writes it. -/
def hexDigit (n : Nat) : Nat := if n < 10 then 48 + n else 87 + n

/-- `\uXXXX`. -/
def jsonU (n : Nat) : PyStr :=
  [92, 117, hexDigit (n / 4096 % 16), hexDigit (n / 256 % 16), hexDigit (n / 16 % 16), hexDigit (n % 16)]

/-- `json.encoder.py_encode_basestring_ascii` on one character. -/
def jsonEscape (c : Nat) : PyStr :=
  if c = 92 then [92, 92]
  else if c = 34 then [92, 34]
  else if c = 8 then [92, 98]
  else if c = 12 then [92, 102]
  else if c = 10 then [92, 110]
  else if c = 13 then [92, 114]
  else if c = 9 then [92, 116]
  else if 32 ≤ c ∧ c ≤ 126 then [c]
  else if c < 0x10000 then jsonU c
  else jsonU (0xD800 + (c - 0x10000) / 1024) ++ jsonU (0xDC00 + (c - 0x10000) % 1024)

/-- A JSON string with its quotes. -/
def jsonString (s : PyStr) : PyStr := 34 :: (s.flatMap jsonEscape ++ [34])

/-- The items of the object, separated by `",\n"` and `":"`. -/
def jsonPairs : Manifest → PyStr
  | [] => []
  | [(k, v)] => jsonString k ++ 58 :: jsonString v
  | (k, v) :: rest => jsonString k ++ 58 :: jsonString v ++ 44 :: 10 :: jsonPairs rest

/-- `json.dumps(manifest, separators=(",\n", ":"))`. -/
def jsonDumps (m : Manifest) : PyStr := 123 :: (jsonPairs m ++ [125])

/-- `json.decoder.WHITESPACE`. -/
def jsonWs (c : Nat) : Bool := c = 32 || c = 9 || c = 10 || c = 13

def hexVal (c : Nat) : Option Nat :=
  if 48 ≤ c ∧ c ≤ 57 then some (c - 48)
  else if 97 ≤ c ∧ c ≤ 102 then some (c - 87)
  else if 65 ≤ c ∧ c ≤ 70 then some (c - 55)
  else none

/-- `json.decoder._decode_uXXXX`. -/
def hex4 (a b c d : Nat) : Option Nat :=
  match hexVal a, hexVal b, hexVal c, hexVal d with
  | some a, some b, some c, some d => some (((a * 16 + b) * 16 + c) * 16 + d)
  | _, _, _, _ => none

def isHigh (c : Nat) : Bool := 0xD800 ≤ c && c ≤ 0xDBFF
def isLow (c : Nat) : Bool := 0xDC00 ≤ c && c ≤ 0xDFFF

/-- `json.decoder.BACKSLASH`. -/
def jsonBackslash (c : Nat) : Option Nat :=
  if c = 34 then some 34
  else if c = 92 then some 92
  else if c = 47 then some 47
  else if c = 98 then some 8
  else if c = 102 then some 12
  else if c = 110 then some 10
  else if c = 114 then some 13
  else if c = 116 then some 9
  else none

/-- Put a character in front of a scanned string. -/
def scanCons (c : Nat) : Option (PyStr × PyStr) → Option (PyStr × PyStr)
  | some (s, rest) => some (c :: s, rest)
  | none => none

/-- `json.decoder.py_scanstring` (strict), after the opening quote: the string and what follows
the closing quote; `none` is a `JSONDecodeError`. -/
def scanString : PyStr → Option (PyStr × PyStr)
  | [] => none
  | 34 :: rest => some ([], rest)
  | 92 :: 117 :: a :: b :: c :: d :: 92 :: 117 :: a' :: b' :: c' :: d' :: rest =>
    match hex4 a b c d with
    | none => none
    | some u =>
      if isHigh u then
        match hex4 a' b' c' d' with
        | none => none
        | some u' =>
          if isLow u' then scanCons (0x10000 + ((u - 0xD800) * 1024 + (u' - 0xDC00))) (scanString rest)
          else scanCons u (scanString (92 :: 117 :: a' :: b' :: c' :: d' :: rest))
      else scanCons u (scanString (92 :: 117 :: a' :: b' :: c' :: d' :: rest))
  | 92 :: 117 :: a :: b :: c :: d :: rest =>
    match hex4 a b c d with
    | none => none
    | some u =>
      -- `\u` followed by less than four characters is an error in any case
      scanCons u (scanString rest)
  | 92 :: c :: rest =>
    match jsonBackslash c with
    | none => none
    | some c => scanCons c (scanString rest)
  | c :: rest => if c < 32 then none else scanCons c (scanString rest)

/-- The loop of `json.decoder.JSONObject` for string values; the fuel bounds the number of
pairs. -/
def jsonPairLoop : Nat → Manifest → PyStr → Option (Manifest × PyStr)
  | f + 1, acc, 34 :: s =>
    match scanString s with
    | none => none
    | some (k, s) =>
      match s.dropWhile jsonWs with
      | 58 :: s =>
        match s.dropWhile jsonWs with
        | 34 :: s =>
          match scanString s with
          | none => none
          | some (v, s) =>
            match s.dropWhile jsonWs with
            | 125 :: s => some (dset acc k v, s)
            | 44 :: s => jsonPairLoop f (dset acc k v) (s.dropWhile jsonWs)
            | _ => none
        | _ => none
      | _ => none
  | _, _, _ => none

/-- `json.loads(s)`; a byte order mark is an error. -/
def jsonLoads (s : PyStr) : Option Manifest :=
  match s.dropWhile jsonWs with
  | 123 :: s =>
    let r :=
      match s.dropWhile jsonWs with
      | 125 :: s => some ([], s)
      | s => jsonPairLoop s.length [] s
    match r with
    | some (m, s) => if (s.dropWhile jsonWs).isEmpty then some m else none
    | none => none
  | _ => none

/-! ## `manifest.py` -/

/-- `manifest_to_doc` (manifest.py:42-43). -/
def manifestToDoc (m : Manifest) : Except PyErr Bytes :=
  match utf8Encode (jsonDumps m) with
  | some b => .ok b
  | none => .error .unicodeError

/-- `doc_to_manifest` (manifest.py:46-47). -/
def docToManifest (b : Bytes) : Except PyErr Manifest :=
  match utf8Decode b with
  | none => .error .unicodeError
  | some s =>
    match jsonLoads s with
    | none => .error .valueError
    | some m => .ok m

section
variable {T Tok S : Type _} [DecidableEq Tok]
variable (ops : TreeOps PyStr T) (tk : TokOps Tok S)

/-- The base manifest (manifest.py:16-20). -/
def baseManifest (v : Versions PyStr T) : Option PyStr → Except PyErr (Option Manifest)
  | none => .ok none
  | some baseTag =>
    match versionsGet ops tk v baseTag with
    | .error e => .error e
    | .ok none => .ok none
    | .ok (some doc) =>
      match docToManifest doc with
      | .error e => .error e
      | .ok m => .ok (some m)

/-- `base_manifest[name] if base_manifest is not None else None` (manifest.py:27). -/
def baseEntry (bm : Option Manifest) (name : PyStr) : Except PyErr (Option PyStr) :=
  match bm with
  | none => .ok none
  | some m =>
    match dget m name with
    | none => .error .keyError
    | some t => .ok (some t)

/-- The loop of `add_manifest` (manifest.py:22-28). -/
def manifestLoop (contents : List (PyStr × Bytes)) (bm : Option Manifest) :
    Versions PyStr T → Manifest → Versions PyStr T × Option PyErr
  | v, [] => (v, none)
  | v, (name, tag) :: rest =>
    if versionsContains ops v tag then manifestLoop contents bm v rest
    else
      match dget contents tag with
      | none => (v, some .keyError)
      | some content =>
        match baseEntry bm name with
        | .error e => (v, some e)
        | .ok base =>
          match versionsAdd ops tk v tag content base with
          | (v, some e) => (v, some e)
          | (v, none) => manifestLoop contents bm v rest

/-- `add_manifest` (manifest.py:9-35). -/
def addManifest (v : Versions PyStr T) (manifestTag : PyStr) (manifest : Manifest)
    (contents : List (PyStr × Bytes)) (baseTag : Option PyStr) : Versions PyStr T × Option PyErr :=
  match baseManifest ops tk v baseTag with
  | .error e => (v, some e)
  | .ok bm =>
    match manifestLoop ops tk contents bm v manifest with
    | (v, some e) => (v, some e)
    | (v, none) =>
      match manifestToDoc manifest with
      | .error e => (v, some e)
      | .ok doc => versionsAdd ops tk v manifestTag doc baseTag

/-- `get_manifest` (manifest.py:37-39); for an unknown tag `versions.get` returns `None`, which
has no `decode`. -/
def getManifest (v : Versions PyStr T) (tag : PyStr) : Except PyErr Manifest :=
  match versionsGet ops tk v tag with
  | .error e => .error e
  | .ok none => .error .attributeError
  | .ok (some doc) => docToManifest doc

end
end Gaspra
