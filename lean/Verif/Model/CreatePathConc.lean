import Verif.Py.Basic

/-!
# Model of concurrent calls of `acreate_path` (`src/lionherd_core/ln/_utils.py:26-108`)

`Verif.Model.CreatePath` models one call. Here any number of calls run together with other programs that create and delete files. A call makes the parent directory (one system call decides whether it was there,
`:94`), asks whether the path exists (`:96`, done in a worker thread), and goes on later with the answer (`:96-99`).
Simplifications: directories are not deleted, and making missing ancestors is part of making the directory; the names are those worked out before; errors of the file system other than an existing directory, and
timeouts, are left out.
-/

namespace Verif.CreatePathConc

/-- A call: the path worked out, its directory, `dir_exist_ok`, `file_exist_ok` (`_utils.py:26-91`). -/
structure Call where
  path : Nat
  dir : Nat
  dirOk : Bool
  fileOk : Bool
  deriving DecidableEq, Repr

/-- Where a call is: begun, directory made, existence known, ended. Serves `Sys` (`_utils.py:94-99`). -/
inductive Phase where
  | begun
  | made
  | asked (exists_ : Bool)
  | returned
  | raised
  deriving DecidableEq, Repr

/-- The existing directories and files, and the calls by number. Serves `step` (`_utils.py:94-99`). -/
structure Sys where
  dirs : List Nat := []
  files : List Nat := []
  phase : Nat → Phase := fun _ => .begun

/-- What happens: steps of call `i`; a program creates or deletes a file, or makes a directory. Serves `step` (`_utils.py:94-99`). -/
inductive Op where
  | mkdir (i : Nat)
  | ask (i : Nat)
  | resume (i : Nat)
  | create (p : Nat)
  | delete (p : Nat)
  | otherDir (d : Nat)
  deriving DecidableEq, Repr

/-- Assignment to one place. Serves `step` (`_utils.py:94-99`). -/
def upd (g : Nat → Phase) (k : Nat) (p : Phase) : Nat → Phase := fun i => if i = k then p else g i

/-- `await full_path.parent.mkdir(parents=True, exist_ok=dir_exist_ok)`, `_utils.py:94`. -/
def mkdir (c : Call) (i : Nat) (s : Sys) : Sys :=
  if c.dir ∈ s.dirs then (if c.dirOk then { s with phase := upd s.phase i .made } else { s with phase := upd s.phase i .raised })
  else { s with dirs := c.dir :: s.dirs, phase := upd s.phase i .made }

/-- The end of the call once the answer is there, `_utils.py:96-99`. -/
def conclude (c : Call) (b : Bool) : Phase := if b && !c.fileOk then .raised else .returned

/-- The call goes on with the answer, `_utils.py:96-99`. -/
def resume (c : Call) (i : Nat) (s : Sys) : Phase → Sys
  | .asked b => { s with phase := upd s.phase i (conclude c b) }
  | _ => s

/-- One step; what is not possible changes nothing (`_utils.py:94-99`). -/
def step (calls : Nat → Call) (s : Sys) : Op → Sys
  | .mkdir i => if s.phase i = .begun then mkdir (calls i) i s else s
  | .ask i => if s.phase i = .made then { s with phase := upd s.phase i (.asked (decide ((calls i).path ∈ s.files))) } else s
  | .resume i => resume (calls i) i s (s.phase i)
  | .create p => { s with files := p :: s.files }
  | .delete p => { s with files := s.files.filter (fun q => !decide (q = p)) }
  | .otherDir d => { s with dirs := d :: s.dirs }

/-- A history (`_utils.py:94-99`). -/
def run (calls : Nat → Call) (s : Sys) (h : List Op) : Sys := h.foldl (step calls) s

end Verif.CreatePathConc
