/-!
# Python semantics used by the models

Small executable fragments of Python's list and dict semantics.  These are *not* code from `/repo`;
they are part of the trusted base (assumed semantics of the Python built-ins that `/repo` calls).
-/

namespace Verif

/-- Exceptions raised by the modelled code, as values.  The `lionherd_core` classes are those of
`src/lionherd_core/errors.py:23-128`; the others are Python built-ins. -/
inductive Exc where
  | notFound        -- errors.NotFoundError
  | exists_         -- errors.ExistsError
  | queueFull       -- errors.QueueFullError
  | validation      -- errors.ValidationError
  | configuration   -- errors.ConfigurationError
  | valueError
  | typeError
  | indexError
  | keyError
  | attributeError
  | runtimeError
  | recursionError
  | overflowError
  deriving DecidableEq, Repr

deriving instance DecidableEq for Except

/-- Result of a method call on a mutable object: the new state together with the returned value or the
raised exception.  The state is present also when an exception is raised. -/
abbrev Res (σ : Type u) (α : Type v) := σ × Except Exc α

namespace Py

/-- Python index normalisation: `l[i]` addresses position `i` if `0 ≤ i < n` and `n + i` if `-n ≤ i < 0`;
`none` means `IndexError`. -/
def normIndex (n : Nat) (i : Int) : Option Nat :=
  let j := if i < 0 then i + n else i
  if 0 ≤ j ∧ j < n then some j.toNat else none

/-- `l[i]` for an integer `i`; `none` means `IndexError`. -/
def getIdx (l : List α) (i : Int) : Option α :=
  match normIndex l.length i with
  | some k => l[k]?
  | none => none

/-- `l.pop(i)`: removed element and remaining list; `none` means `IndexError`. -/
def popIdx (l : List α) (i : Int) : Option (α × List α) :=
  match normIndex l.length i with
  | some k => match l[k]? with
    | some x => some (x, l.eraseIdx k)
    | none => none
  | none => none

/-- `l.insert(i, x)`: Python clamps the index into `[0, len l]` (negative indices count from the end). -/
def insert (l : List α) (i : Int) (x : α) : List α :=
  let n : Int := l.length
  let j := if i < 0 then (if i + n < 0 then 0 else i + n) else (if i > n then n else i)
  l.insertIdx j.toNat x

/-- `l[i] = x`; `none` means `IndexError`. -/
def setIdx (l : List α) (i : Int) (x : α) : Option (List α) :=
  match normIndex l.length i with
  | some k => some (l.set k x)
  | none => none

/-- A `slice(start, stop, step)` object. -/
structure Slice where
  start : Option Int := none
  stop  : Option Int := none
  step  : Option Int := none
  deriving DecidableEq, Repr

/-- `slice.indices(n)` as in CPython (`PySlice_Unpack`/`PySlice_AdjustIndices`), without the
zero-step check: adjusted `(start, stop)` for the given step. -/
def Slice.adjust (s : Slice) (n : Int) (step : Int) : Int × Int :=
  let lo : Int := if step < 0 then -1 else 0
  let hi : Int := if step < 0 then n - 1 else n
  let clamp (v : Int) : Int :=
    if v < 0 then (if v + n < 0 then lo else v + n) else (if v ≥ n then hi else v)
  let start := match s.start with
    | some v => clamp v
    | none => if step < 0 then n - 1 else 0
  let stop := match s.stop with
    | some v => clamp v
    | none => if step < 0 then -1 else n
  (start, stop)

/-- Number of positions selected by the adjusted slice. -/
def Slice.count (start stop step : Int) : Nat :=
  if step < 0 then
    if stop < start then ((start - stop - 1) / (-step) + 1).toNat else 0
  else
    if start < stop then ((stop - start - 1) / step + 1).toNat else 0

/-- The positions selected by slice `s` in a sequence of length `n`, in order; `none` for a zero step
(`ValueError`). -/
def Slice.positions (s : Slice) (n : Nat) : Option (List Nat) :=
  let step := s.step.getD 1
  if step = 0 then none
  else
    let (start, stop) := s.adjust n step
    some ((List.range (Slice.count start stop step)).map (fun k : Nat => (start + (k : Int) * step).toNat))

/-- `l[s]` for a slice `s`; `none` means `ValueError` (zero step). -/
def getSlice (l : List α) (s : Slice) : Option (List α) :=
  (s.positions l.length).map (fun ps => ps.filterMap (fun p => l[p]?))

end Py

end Verif

namespace Verif.Py

/-- `l[s] = vs` for a slice: a step of 1 replaces the addressed range by `vs` (if `stop < start` the
insertion happens at `start`), any other step requires as many values as addressed positions
(`ValueError`, i.e. `none`, otherwise). Assumes `vs` is a list distinct from `l`. -/
def setSlice (l : List α) (s : Slice) (vs : List α) : Option (List α) :=
  let step := s.step.getD 1
  if step = 0 then none
  else
    let (start, stop) := s.adjust l.length step
    if step = 1 then
      let stop' := if stop < start then start else stop
      some (l.take start.toNat ++ vs ++ l.drop stop'.toNat)
    else
      match s.positions l.length with
      | none => none
      | some ps =>
        if ps.length = vs.length then
          some ((ps.zip vs).foldl (fun acc pv => acc.set pv.1 pv.2) l)
        else none

end Verif.Py
