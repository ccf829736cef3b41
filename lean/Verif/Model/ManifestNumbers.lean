import Verif.Model.Manifest
import Verif.Model.DotFile

/-!
# Manifests with numbers (`src/gaspra/manifest.py`)

`Model/Manifest.lean` again for names and tags that are `str` or `int`.  `json.dumps` writes a name
that is an `int` as a string, because JSON has no other names.  Numbers with a fraction or an exponent,
nested values and literals are errors in this model of `json.loads`, as in `Model/Manifest.lean`; the
limit of 4300 digits for conversions of `int` is not modelled.
-/

namespace Gaspra

/-- A name or a tag. -/
inductive NTag where
  | str (s : PyStr)
  | int (n : Int)
deriving DecidableEq, Repr

/-- `Manifest` (manifest.py:6). -/
abbrev NManifest := List (NTag × NTag)

/-! ## JSON (standard library) -/

/-- `int.__repr__`. -/
def intText (n : Int) : PyStr := if n < 0 then 45 :: decimal n.natAbs else decimal n.natAbs

/-- A name as `json.dumps` writes it. -/
def jsonName : NTag → PyStr
  | .str s => jsonString s
  | .int n => 34 :: (intText n ++ [34])

/-- A value as `json.dumps` writes it. -/
def jsonValue : NTag → PyStr
  | .str s => jsonString s
  | .int n => intText n

/-- The items of the object, separated by `",\n"` and `":"`. -/
def jsonPairsN : NManifest → PyStr
  | [] => []
  | [(k, v)] => jsonName k ++ 58 :: jsonValue v
  | (k, v) :: rest => jsonName k ++ 58 :: jsonValue v ++ 44 :: 10 :: jsonPairsN rest

/-- `json.dumps(manifest, separators=(",\n", ":"))`. -/
def jsonDumpsN (m : NManifest) : PyStr := 123 :: (jsonPairsN m ++ [125])

def isDigit (c : Nat) : Bool := 48 ≤ c && c ≤ 57

/-- `int(s)` for digits. -/
def digitsValue (s : PyStr) : Nat := s.foldl (fun n c => n * 10 + (c - 48)) 0

/-- `0|[1-9][0-9]*` of `json.scanner.NUMBER_RE`: the number and what follows. -/
def scanNat : PyStr → Option (Nat × PyStr)
  | [] => none
  | c :: s =>
    if c = 48 then some (0, s)
    else if isDigit c then some (digitsValue (c :: s.takeWhile isDigit), s.dropWhile isDigit)
    else none

/-- `-?(?:0|[1-9][0-9]*)` of `json.scanner.NUMBER_RE`. -/
def scanInt (s : PyStr) : Option (Int × PyStr) :=
  match s with
  | 45 :: s =>
    match scanNat s with
    | some (n, rest) => some (-(n : Int), rest)
    | none => none
  | s =>
    match scanNat s with
    | some (n, rest) => some ((n : Int), rest)
    | none => none

/-- `json.scanner.scan_once` for strings and integers. -/
def scanValue : PyStr → Option (NTag × PyStr)
  | 34 :: s =>
    match scanString s with
    | some (v, rest) => some (.str v, rest)
    | none => none
  | s =>
    match scanInt s with
    | some (n, rest) => some (.int n, rest)
    | none => none

/-- The loop of `json.decoder.JSONObject`; the fuel bounds the number of pairs. -/
def jsonPairLoopN : Nat → NManifest → PyStr → Option (NManifest × PyStr)
  | f + 1, acc, 34 :: s =>
    match scanString s with
    | none => none
    | some (k, s) =>
      match s.dropWhile jsonWs with
      | 58 :: s =>
        match scanValue (s.dropWhile jsonWs) with
        | none => none
        | some (v, s) =>
          match s.dropWhile jsonWs with
          | 125 :: s => some (dset acc (.str k) v, s)
          | 44 :: s => jsonPairLoopN f (dset acc (.str k) v) (s.dropWhile jsonWs)
          | _ => none
      | _ => none
  | _, _, _ => none

/-- `json.loads(s)`. -/
def jsonLoadsN (s : PyStr) : Option NManifest :=
  match s.dropWhile jsonWs with
  | 123 :: s =>
    let r :=
      match s.dropWhile jsonWs with
      | 125 :: s => some ([], s)
      | s => jsonPairLoopN s.length [] s
    match r with
    | some (m, s) => if (s.dropWhile jsonWs).isEmpty then some m else none
    | none => none
  | _ => none

/-! ## `manifest.py` -/

/-- `manifest_to_doc` (manifest.py:42-43). -/
def manifestToDocN (m : NManifest) : Except PyErr Bytes :=
  match utf8Encode (jsonDumpsN m) with
  | some b => .ok b
  | none => .error .unicodeError

/-- `doc_to_manifest` (manifest.py:46-47). -/
def docToManifestN (b : Bytes) : Except PyErr NManifest :=
  match utf8Decode b with
  | none => .error .unicodeError
  | some s =>
    match jsonLoadsN s with
    | none => .error .valueError
    | some m => .ok m

section
variable {T Tok S : Type _} [DecidableEq Tok]
variable (ops : TreeOps NTag T) (tk : TokOps Tok S)

/-- The base manifest (manifest.py:16-20). -/
def baseManifestN (v : Versions NTag T) : Option NTag → Except PyErr (Option NManifest)
  | none => .ok none
  | some baseTag =>
    match versionsGet ops tk v baseTag with
    | .error e => .error e
    | .ok none => .ok none
    | .ok (some doc) =>
      match docToManifestN doc with
      | .error e => .error e
      | .ok m => .ok (some m)

/-- `base_manifest[name] if base_manifest is not None else None` (manifest.py:27). -/
def baseEntryN (bm : Option NManifest) (name : NTag) : Except PyErr (Option NTag) :=
  match bm with
  | none => .ok none
  | some m =>
    match dget m name with
    | none => .error .keyError
    | some t => .ok (some t)

/-- The loop of `add_manifest` (manifest.py:22-28). -/
def manifestLoopN (contents : List (NTag × Bytes)) (bm : Option NManifest) :
    Versions NTag T → NManifest → Versions NTag T × Option PyErr
  | v, [] => (v, none)
  | v, (name, tag) :: rest =>
    if versionsContains ops v tag then manifestLoopN contents bm v rest
    else
      match dget contents tag with
      | none => (v, some .keyError)
      | some content =>
        match baseEntryN bm name with
        | .error e => (v, some e)
        | .ok base =>
          match versionsAdd ops tk v tag content base with
          | (v, some e) => (v, some e)
          | (v, none) => manifestLoopN contents bm v rest

/-- `add_manifest` (manifest.py:9-35). -/
def addManifestN (v : Versions NTag T) (manifestTag : NTag) (manifest : NManifest)
    (contents : List (NTag × Bytes)) (baseTag : Option NTag) : Versions NTag T × Option PyErr :=
  match baseManifestN ops tk v baseTag with
  | .error e => (v, some e)
  | .ok bm =>
    match manifestLoopN ops tk contents bm v manifest with
    | (v, some e) => (v, some e)
    | (v, none) =>
      match manifestToDocN manifest with
      | .error e => (v, some e)
      | .ok doc => versionsAdd ops tk v manifestTag doc baseTag

/-- `get_manifest` (manifest.py:37-39). -/
def getManifestN (v : Versions NTag T) (tag : NTag) : Except PyErr NManifest :=
  match versionsGet ops tk v tag with
  | .error e => .error e
  | .ok none => .error .attributeError
  | .ok (some doc) => docToManifestN doc

end
end Gaspra
