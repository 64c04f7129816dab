import Verif.Model.Element

/-!
# Model of `acreate_path`

`src/lionherd_core/ln/_utils.py:26-108`, with the parts of `pathlib` it uses (through `anyio.Path`, which runs the same functions in a
worker thread): joining, `parent`, `mkdir(parents=True, exist_ok=...)`, `exists()`, on a POSIX system. Not modelled: symbolic links,
permissions, roots other than "/" and "//".
-/

namespace Verif.CreatePath

/-- Serves `subDirectory` (`_utils.py:65-67`). -/
abbrev Text := List Char

/-- A `PurePosixPath`: whether it is absolute, and its components. Serves `subDirectory` (`_utils.py:65-67`). -/
structure Path where
  abs : Bool
  parts : List Text
  deriving DecidableEq, Repr

/-- The exceptions raised. Serves `target` (`_utils.py:65-90`). -/
inductive PErr where
  | valueError
  | fileExists
  | notADirectory
  | fileNotFound
  | timeout
  deriving DecidableEq, Repr

/-- Prepending a character to the first piece. Serves the model of `_utils.py:65-67`. -/
def consHead (c : Char) : List Text → List Text
  | [] => [[c]]
  | t :: ts => (c :: t) :: ts

/-- `s.split("/")`. Serves `subDirectory` (`_utils.py:65-67`). -/
def splitSlash : Text → List Text
  | [] => [[]]
  | c :: cs => if c = '/' then [] :: splitSlash cs else consHead c (splitSlash cs)

/-- `"/".join(ts)`. Serves `subDirectory` (`_utils.py:65-67`). -/
def joinSlash : List Text → Text
  | [] => []
  | [t] => t
  | t :: ts => t ++ '/' :: joinSlash ts

/-- Components `pathlib` keeps. Serves the model of `_utils.py:65-67`. -/
def kept (t : Text) : Bool := t != [] && t != ['.']

/-- The components of a path text. Serves the model of `_utils.py:65-67`. -/
def components (s : Text) : List Text := (splitSlash s).filter kept

/-- Whether a path text is absolute. Serves the model of `_utils.py:65-67`. -/
def isAbs : Text → Bool
  | '/' :: _ => true
  | _ => false

/-- `p / s`: an absolute right operand replaces the left one. Serves `subDirectory` (`_utils.py:65-67`). -/
def Path.join (p : Path) (s : Text) : Path :=
  if isAbs s then ⟨true, components s⟩ else ⟨p.abs, p.parts ++ components s⟩

/-- `p.parent`. Serves `claim` (`_utils.py:92-98`). -/
def Path.parent (p : Path) : Path := ⟨p.abs, p.parts.dropLast⟩

/-- The arguments that determine the name: `extension`; the formatted timestamp, if `timestamp`; `time_prefix`; the first digits of a
random hex text, if `random_hash_digits > 0`. Serves `stamped` (`_utils.py:81-84`). -/
structure NameArgs where
  extension : Text
  stamp : Option Text
  stampFirst : Bool
  hash : Option Text

/-- The directory after the subdirectories of the filename are moved to it, `_utils.py:65-67`. -/
def subDirectory (dir : Path) (filename : Text) : Path :=
  if '/' ∈ filename then dir.join (joinSlash (splitSlash filename).dropLast) else dir

/-- The last component of the filename, `_utils.py:65-66`. -/
def lastPart (filename : Text) : Text :=
  if '/' ∈ filename then (splitSlash filename).getLastD [] else filename

/-- `f".{ext.lstrip('.')}" if ext else ""`, `_utils.py:79`. -/
def dotted (ext : Text) : Text := if ext = [] then [] else '.' :: ext.dropWhile (fun c => c == '.')

/-- Name and extension, `_utils.py:74-79`. -/
def nameExt (extension last : Text) : Text × Text :=
  match (Element.rsplit last).1 with
  | some name => (name, dotted (Element.rsplit last).2)
  | none => (last, dotted extension)

/-- `_utils.py:81-84`. -/
def stamped (a : NameArgs) (name : Text) : Text :=
  match a.stamp with
  | none => name
  | some ts => if a.stampFirst then ts ++ '_' :: name else name ++ '_' :: ts

/-- `_utils.py:86-88`. -/
def hashed (a : NameArgs) (name : Text) : Text :=
  match a.hash with
  | none => name
  | some h => name ++ '-' :: h

/-- `full_path`, `_utils.py:65-90`. -/
def target (a : NameArgs) (dir : Path) (filename : Text) : Except PErr Path :=
  if '\\' ∈ lastPart filename then .error .valueError
  else .ok ((subDirectory dir filename).join
    (hashed a (stamped a (nameExt a.extension (lastPart filename)).1) ++ (nameExt a.extension (lastPart filename)).2))

/-! ### The file system -/

/-- Serves the model of `_utils.py:95-98`. -/
inductive Kind where
  | dir
  | file
  deriving DecidableEq, Repr

/-- What exists below the root (or the working directory), by the reversed list of components. Serves `checkFree` (`_utils.py:95-98`). -/
abbrev FS := List Text → Option Kind

/-- What a lookup of a path meets. Serves the model of `_utils.py:92-98`. -/
inductive Status where
  | dir
  | file
  | missing
  | notDir
  deriving DecidableEq, Repr

/-- The entry itself, once its parent is known to be a directory. Serves the model of `_utils.py:92-98`. -/
def entry : Option Kind → Status
  | none => .missing
  | some .dir => .dir
  | some .file => .file

/-- Looking up a path (reversed components). Serves the model of `_utils.py:92-98`. -/
def status (fs : FS) : List Text → Status
  | [] => .dir
  | n :: up =>
    match status fs up with
    | .dir => entry (fs (n :: up))
    | .file => .notDir
    | .notDir => .notDir
    | .missing => .missing

/-- The file system with a new directory. Serves the model of `_utils.py:92-98`. -/
def FS.make (fs : FS) (p : List Text) : FS := fun q => if q = p then some .dir else fs q

/-- `path.mkdir(parents=False, exist_ok=ok)`. Serves the model of `_utils.py:92-98`. -/
def mkdirOne (fs : FS) (ok : Bool) : List Text → FS × Except PErr Unit
  | [] => (fs, if ok then .ok () else .error .fileExists)
  | n :: up =>
    match status fs (n :: up), status fs up with
    | .dir, _ => (fs, if ok then .ok () else .error .fileExists)
    | .file, _ => (fs, .error .fileExists)
    | .notDir, _ => (fs, .error .notADirectory)
    | .missing, .dir => (fs.make (n :: up), .ok ())
    | .missing, _ => (fs, .error .fileNotFound)

/-- `path.mkdir(parents=True, exist_ok=ok)`: when the parent is missing it is made first. Serves `claim` (`_utils.py:92-98`). -/
def mkdirs (fs : FS) (ok : Bool) : List Text → FS × Except PErr Unit
  | [] => mkdirOne fs ok []
  | n :: up =>
    if status fs up = .missing then
      match mkdirs fs true up with
      | (fs', .ok ()) => mkdirOne fs' ok (n :: up)
      | (fs', .error e) => (fs', .error e)
    else mkdirOne fs ok (n :: up)

/-- `path.exists()`. Serves `checkFree` (`_utils.py:95-98`). -/
def present (fs : FS) (p : List Text) : Bool :=
  match status fs p with
  | .dir => true
  | .file => true
  | _ => false

/-- The flags of the call. Serves `checkFree` (`_utils.py:95-98`). -/
structure Flags where
  dirExistOk : Bool
  fileExistOk : Bool

/-- `_utils.py:95-98`. -/
def checkFree (fl : Flags) (fs : FS) (p : Path) : FS × Except PErr Path :=
  if present fs p.parts.reverse && !fl.fileExistOk then (fs, .error .fileExists) else (fs, .ok p)

/-- Whether the deadline has passed when the call reaches its `k`-th await (0: `mkdir`, 1: `exists`), `_utils.py:100-108`: anyio checks for
cancellation before it starts the worker thread, and lets a started one finish. -/
abbrev Late := Nat → Bool

/-- The I/O operations, `_utils.py:92-98`, under the deadline of `_utils.py:103-107`. -/
def claim (fl : Flags) (late : Late) (fs : FS) (p : Path) : FS × Except PErr Path :=
  if late 0 then (fs, .error .timeout)
  else
    match mkdirs fs fl.dirExistOk p.parent.parts.reverse with
    | (fs', .error e) => (fs', .error e)
    | (fs', .ok ()) => if late 1 then (fs', .error .timeout) else checkFree fl fs' p

/-- `acreate_path`, `_utils.py:26-108`. -/
def acreatePath (a : NameArgs) (fl : Flags) (late : Late) (fs : FS) (dir : Path) (filename : Text) : FS × Except PErr Path :=
  match target a dir filename with
  | .error e => (fs, .error e)
  | .ok p => claim fl late fs p

end Verif.CreatePath
