import Verif.Model.MergeTool

/-!
# Model of reading and writing files (`merge_tool.py`, `markup.py`)

From the bytes of the input files to the bytes of the output file.  Opening files and argument
parsing are not modelled.  On POSIX systems nothing happens to newlines on writing.
-/

namespace Gaspra

/-- Reading in text mode turns `"\r\n"` and `"\r"` into `"\n"` (`open(filename, "rt")`). -/
def universalNewlines : PyStr → PyStr
  | [] => []
  | 13 :: 10 :: rest => 10 :: universalNewlines rest
  | c :: rest => (if c = 13 then 10 else c) :: universalNewlines rest

/-- `bytes.decode("iso-8859-1")`. -/
def latin1Decode (data : Bytes) : PyStr := data.map UInt8.toNat

/-- `get_text` (merge_tool.py:280-291) for one file. -/
def readText (data : Bytes) : PyStr :=
  match utf8Decode data with
  | some s => universalNewlines s
  | none => universalNewlines (latin1Decode data)

/-- What `file.write` has written (markup.py:57-62) when it is called with one string after the
other, and the exception if one of them cannot be encoded. -/
def writeStrings : List PyStr → Bytes × Option PyErr
  | [] => ([], none)
  | s :: rest =>
    match utf8Encode s with
    | none => ([], some .unicodeError)
    | some b =>
      let (data, e) := writeStrings rest
      (b ++ data, e)

/-- The contents of the output file of a run, and the exception that ends it.  The strings are
written as they are produced, so an exception in writing comes first. -/
def writeRun (r : Run) : Bytes × Option PyErr :=
  match writeStrings r.2.1 with
  | (data, some e) => (data, some e)
  | (data, none) => (data, r.2.2)

/-- `diff_cli` (merge_tool.py:252-278) with an output file, from file contents to file contents. -/
def diffFiles (cls sp : Nat → Bool) (args : Args) (originalName modifiedName : PyStr)
    (original modified : Bytes) : Bytes × Option PyErr :=
  writeRun (diffCli cls sp args {} originalName modifiedName (readText original) (readText modified))

/-- `_merge` (merge_tool.py:191-241) with an output file, from file contents to file contents. -/
def mergeFiles (cls sp : Nat → Bool) (args : Args) (parentName currentName otherName : PyStr)
    (parent current other : Bytes) : Bytes × Option PyErr :=
  writeRun (mergeCli cls sp args {} parentName currentName otherName (readText parent)
    (readText current) (readText other))

end Gaspra
