import Verif.Py.Basic

/-!
# Model of the exception-group helpers (`src/lionherd_core/libs/concurrency/_errors.py:52-80`)

A `BaseExceptionGroup` carries a label (its class, message, traceback, notes: whatever
`derive` and the C implementation copy) and its direct members.  The members are a
`Forest` (first-child / next-sibling form), so that recursion is structural.
-/

namespace Verif.ExcGroup

/-- The members of a group, in order: exceptions that are no groups, and sub-groups. Serves the model of `_errors.py:52-68`. -/
inductive Forest (γ ε : Type) where
  | nil
  | leaf (e : ε) (rest : Forest γ ε)
  | group (g : γ) (members rest : Forest γ ε)
  deriving DecidableEq

/-- An exception group. Serves `splitCancellation` (`_errors.py:52-68`). -/
structure Group (γ ε : Type) where
  label : γ
  members : Forest γ ε
  deriving DecidableEq

variable {γ ε : Type}

/-- `BaseExceptionGroup.derive` on a list of members, used by `split` only when the list is not empty (CPython `exceptiongroup_split_recursive`, `exceptiongroup_subset`).
Serves the model of `_errors.py:52-68`. -/
def derive (g : γ) (f rest : Forest γ ε) : Forest γ ε :=
  match f with
  | .nil => rest
  | f => .group g f rest

/-- `BaseExceptionGroup.split(cls)` on the members (CPython `exceptiongroup_split_recursive`): a leaf goes to the left when it is an instance of the class; groups are not instances of the cancellation class and are split recursively, empty halves being dropped. Simplified: the interpreter's recursion limit is not modelled.
Serves `splitCancellation` (`_errors.py:52-68`). -/
def splitMembers (isC : ε → Bool) : Forest γ ε → Forest γ ε × Forest γ ε
  | .nil => (.nil, .nil)
  | .leaf e r =>
    let p := splitMembers isC r
    if isC e then (.leaf e p.1, p.2) else (p.1, .leaf e p.2)
  | .group g m r =>
    let q := splitMembers isC m
    let p := splitMembers isC r
    (derive g q.1 p.1, derive g q.2 p.2)

/-- A half of the split as a group, or `None` when empty. Serves `splitCancellation` (`_errors.py:52-68`). -/
def half (g : γ) (f : Forest γ ε) : Option (Group γ ε) :=
  match f with
  | .nil => none
  | f => some ⟨g, f⟩

/-- `split_cancellation`, `_errors.py:52-68`. `isC` says which exceptions are instances of the backend's cancellation class (`is_cancelled`, `_errors.py:29-31`). -/
def splitCancellation (isC : ε → Bool) (eg : Group γ ε) : Option (Group γ ε) × Option (Group γ ε) :=
  (half eg.label (splitMembers isC eg.members).1, half eg.label (splitMembers isC eg.members).2)

/-- `non_cancel_subgroup`, `_errors.py:71-80`. -/
def nonCancelSubgroup (isC : ε → Bool) (eg : Group γ ε) : Option (Group γ ε) := (splitCancellation isC eg).2

end Verif.ExcGroup
