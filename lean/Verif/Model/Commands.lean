import Verif.Model.Files

/-!
# Model of the commands on a file system (`merge_tool.py`, `torture_test.py`)

The commands from the parsed arguments to the files they leave.  `argparse` is not modelled.
-/

namespace Gaspra

/-- What the commands can see of a file system: where a name leads (several names can lead to the
same place), what is there, and which places cannot be opened for reading or writing, for example
directories.  Opening a place where there is nothing for writing creates a file. -/
structure FileSystem where
  place : PyStr → Nat
  data : Nat → Option Bytes
  unreadable : Nat → Bool := fun _ => false
  unwritable : Nat → Bool := fun _ => false

/-- How a command fails: `OSError` from `open` for a name, or another exception. -/
inductive CommandError where
  | cannotOpen (name : PyStr)
  | raised (e : PyErr)
deriving DecidableEq

/-- What a command leaves: the files, what was printed on the console, and the exception. -/
structure Outcome where
  files : FileSystem
  console : List PyStr
  error : Option CommandError

/-- `open(filename, "rt").read()`, before decoding. -/
def FileSystem.read (fs : FileSystem) (name : PyStr) : Option Bytes :=
  if fs.unreadable (fs.place name) then none else fs.data (fs.place name)

/-- `open(filename, "wt")`, writing, and closing. -/
def FileSystem.write (fs : FileSystem) (name : PyStr) (data : Bytes) : FileSystem :=
  { fs with data := fun n => if n = fs.place name then some data else fs.data n }

/-- `get_text` (merge_tool.py:280-291). -/
def getText (fs : FileSystem) : List PyStr → Except CommandError (List PyStr)
  | [] => .ok []
  | name :: rest =>
    match fs.read name with
    | none => .error (.cannotOpen name)
    | some data =>
      match getText fs rest with
      | .error e => .error e
      | .ok texts => .ok (readText data :: texts)

/-- `with get_writer(arguments) as …` (merge_tool.py:164-169, markup.py:57-73) around a run. The
output file is opened first. When the run raises, `file.close()` is not reached; the file is closed,
with what was written, when it is collected. -/
def withWriter (fs : FileSystem) (args : Args) (run : Run) : Outcome :=
  match args.output with
  | none => ⟨fs, run.2.1, run.2.2.map .raised⟩
  | some name =>
    if fs.unwritable (fs.place name) then ⟨fs, [], some (.cannotOpen name)⟩
    else
      let (data, e) := writeRun run
      ⟨fs.write name data, [], e.map .raised⟩

/-- `diff_cli` (merge_tool.py:252-278). -/
def diffCommand (cls sp : Nat → Bool) (args : Args) (fs : FileSystem) (original modified : PyStr) :
    Outcome :=
  match getText fs [original, modified] with
  | .error e => ⟨fs, [], some e⟩
  | .ok [o, m] => withWriter fs args (diffCli cls sp args {} original modified o m)
  | .ok _ => ⟨fs, [], none⟩

/-- `_merge` (merge_tool.py:191-241). The texts are tokenized before the writer is opened; that
cannot raise for texts that were read from files. -/
def mergeNamed (cls sp : Nat → Bool) (args : Args) (fs : FileSystem)
    (parent current other : PyStr) : Outcome :=
  match getText fs [parent, current, other] with
  | .error e => ⟨fs, [], some e⟩
  | .ok [p, c, o] => withWriter fs args (mergeCli cls sp args {} parent current other p c o)
  | .ok _ => ⟨fs, [], none⟩

/-- `merge_cli` (merge_tool.py:81-95, 172-178). The order on the command line is parent,
`from_branch_head`, `into_branch_head`. -/
def mergeCommand (cls sp : Nat → Bool) (args : Args) (fs : FileSystem)
    (parent fromHead intoHead : PyStr) : Outcome :=
  mergeNamed cls sp args fs parent intoHead fromHead

/-- `os.path.join(directory, name)` on POSIX, for a directory that is not empty. -/
def pathJoin (directory name : PyStr) : PyStr :=
  if name.head? = some 47 then name
  else if directory.getLast? = some 47 then directory ++ name
  else directory ++ 47 :: name

/-- `EXCEPTIONS` (torture_test.py:40-52). -/
def tortureExceptions : List (PyStr × PyStr × PyStr × PyStr) :=
  [(lit "chunks", lit "chunks_1_0.c", lit "chunks_1_1.c", lit "chunks_1_2.c"),
   (lit "ReleaseNotes", lit "ReleaseNotes 9_4.html", lit "ReleaseNotes 9_4_1.html",
    lit "ReleaseNotes 9_4_2.html"),
   (lit "Bug_ReporterApp", lit "Bug_ReporterApp_Parent.h", lit "Bug_ReporterApp_BranchA.h",
    lit "Bug_ReporterApp_BranchB.h")]

/-- `get_filenames` (torture_test.py:55-66); `directory` is `TEST_CASE_DIRECTORY`. -/
def getFilenames (directory testCase : PyStr) : PyStr × PyStr × PyStr :=
  let (parent, branch0, branch1) :=
    match dget tortureExceptions testCase with
    | some names => names
    | none => (testCase ++ lit ".parent", testCase ++ lit ".1st", testCase ++ lit ".2nd")
  (pathJoin directory parent, pathJoin directory branch0, pathJoin directory branch1)

/-- `torture_cli` (merge_tool.py:181-188). -/
def tortureCommand (cls sp : Nat → Bool) (args : Args) (fs : FileSystem)
    (directory testCase : PyStr) : Outcome :=
  let names := getFilenames directory testCase
  mergeNamed cls sp args fs names.1 names.2.1 names.2.2

end Gaspra
