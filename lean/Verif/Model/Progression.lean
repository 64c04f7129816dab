import Verif.Py.Basic

/-!
# Model of `src/lionherd_core/base/progression.py`

The state of a `Progression` that its methods read or write is the list `order`; `name`, `id`, `metadata`
are never touched by them, so the model state is `List ι` for an arbitrary id type `ι`.
An argument of type `UUID | str | Element` is a `Ref ι`: what `to_uuid` (`base/_utils.py:186-215`) makes
of it, `none` standing for an argument that cannot be coerced (`ValueError`).
-/

namespace Verif

/-- A value passed where an id is expected: the id it is coerced to, or `none` when
`to_uuid` raises `ValueError` (`base/_utils.py:186-215`). -/
abbrev Ref (ι : Type u) := Option ι

namespace Progression

variable {ι : Type} [DecidableEq ι]

/-- Coerce every reference in turn; `none` if one of them fails. Serves `mk` (`progression.py:37-59`). -/
def coerceAll : List (Ref ι) → Option (List ι)
  | [] => some []
  | none :: _ => none
  | some x :: xs => (coerceAll xs).map (x :: ·)

/-- `Progression(order=...)`: `_validate_order`, `progression.py:37-59` (the list case; `None` is `[]`,
a single value is the one-element list). pydantic reports the coercion `ValueError` as a
`ValidationError`, a subclass of `ValueError`. -/
def mk (refs : List (Ref ι)) : Except Exc (List ι) :=
  match coerceAll refs with
  | some l => .ok l
  | none => .error .valueError

/-- `append`, `progression.py:63-66`. -/
def append (o : List ι) (r : Ref ι) : Res (List ι) Unit :=
  match r with
  | none => (o, .error .valueError)
  | some x => (o ++ [x], .ok ())

/-- `insert`, `progression.py:68-71`. -/
def insert (o : List ι) (i : Int) (r : Ref ι) : Res (List ι) Unit :=
  match r with
  | none => (o, .error .valueError)
  | some x => (Py.insert o i x, .ok ())

/-- `remove`, `progression.py:73-76`: `list.remove` deletes the first occurrence, `ValueError` if absent. -/
def remove (o : List ι) (r : Ref ι) : Res (List ι) Unit :=
  match r with
  | none => (o, .error .valueError)
  | some x => if x ∈ o then (o.erase x, .ok ()) else (o, .error .valueError)

/-- `pop`, `progression.py:78-99`; `default = none` models the `...` sentinel, the result `none` models
returning the caller's default. -/
def pop (o : List ι) (i : Int) (hasDefault : Bool) : Res (List ι) (Option ι) :=
  match Py.popIdx o i with
  | some (x, o') => (o', .ok (some x))
  | none => if hasDefault then (o, .ok none) else (o, .error .notFound)

/-- `popleft`, `progression.py:101-109`. -/
def popleft (o : List ι) : Res (List ι) ι :=
  match o with
  | [] => (o, .error .notFound)
  | x :: xs => (xs, .ok x)

/-- `clear`, `progression.py:111-113`. -/
def clear (_ : List ι) : Res (List ι) Unit := ([], .ok ())

/-- `extend`, `progression.py:115-117`: `list.extend` consumes the generator item by item, so items
coerced before a failing one stay appended. -/
def extend (o : List ι) : List (Ref ι) → Res (List ι) Unit
  | [] => (o, .ok ())
  | none :: _ => (o, .error .valueError)
  | some x :: rs => extend (o ++ [x]) rs

/-- `__contains__`, `progression.py:121-126`. -/
def contains (o : List ι) (r : Ref ι) : Bool :=
  match r with
  | none => false
  | some x => decide (x ∈ o)

/-- `__getitem__` with an integer, `progression.py:150-152`. -/
def getitem (o : List ι) (i : Int) : Except Exc ι :=
  match Py.getIdx o i with
  | some x => .ok x
  | none => .error .indexError

/-- `__getitem__` with a slice, `progression.py:150-152`. -/
def getslice (o : List ι) (s : Py.Slice) : Except Exc (List ι) :=
  match Py.getSlice o s with
  | some l => .ok l
  | none => .error .valueError

/-- `__setitem__` with an integer, `progression.py:161-162` (the value is coerced before the store). -/
def setitem (o : List ι) (i : Int) (r : Ref ι) : Res (List ι) Unit :=
  match r with
  | none => (o, .error .valueError)
  | some x => match Py.setIdx o i x with
    | some o' => (o', .ok ())
    | none => (o, .error .indexError)

/-- `__setitem__` with a slice, `progression.py:156-160`; `vs = none` models a value that is not a list. -/
def setslice (o : List ι) (s : Py.Slice) (vs : Option (List (Ref ι))) : Res (List ι) Unit :=
  match vs with
  | none => (o, .error .typeError)
  | some rs => match coerceAll rs with
    | none => (o, .error .valueError)
    | some xs => match Py.setSlice o s xs with
      | some o' => (o', .ok ())
      | none => (o, .error .valueError)

/-- `index`, `progression.py:164-167`. -/
def index (o : List ι) (r : Ref ι) : Except Exc Nat :=
  match r with
  | none => .error .valueError
  | some x => if x ∈ o then .ok (o.idxOf x) else .error .valueError

/-- `_validate_index`, `progression.py:177-206`. -/
def validateIndex (o : List ι) (i : Int) (allowEnd : Bool) : Except Exc Nat :=
  let length : Int := o.length
  if length = 0 ∧ ¬ allowEnd then .error .notFound
  else
    let i := if i < 0 then length + i else i
    let maxIndex := if allowEnd then length else length - 1
    if i < 0 ∨ i > maxIndex then .error .notFound else .ok i.toNat

/-- `move`, `progression.py:210-225`. -/
def move (o : List ι) (fromI toI : Int) : Res (List ι) Unit :=
  match validateIndex o fromI false with
  | .error e => (o, .error e)
  | .ok f =>
    match validateIndex o toI true with
    | .error e => (o, .error e)
    | .ok t =>
      match Py.popIdx o f with
      | none => (o, .error .indexError)
      | some (item, o') =>
        let t' : Int := if f < t then (t : Int) - 1 else t
        (Py.insert o' t' item, .ok ())

/-- `swap`, `progression.py:227-237`: the right-hand tuple is evaluated first, then both stores happen
in order. -/
def swap (o : List ι) (i j : Int) : Res (List ι) Unit :=
  match validateIndex o i false with
  | .error e => (o, .error e)
  | .ok a =>
    match validateIndex o j false with
    | .error e => (o, .error e)
    | .ok b =>
      match o[b]?, o[a]? with
      | some x, some y => ((o.set a x).set b y, .ok ())
      | _, _ => (o, .error .indexError)

/-- `reverse`, `progression.py:239-241`. -/
def reverse (o : List ι) : Res (List ι) Unit := (o.reverse, .ok ())

/-- `include`, `progression.py:245-255`. -/
def include_ (o : List ι) (r : Ref ι) : Res (List ι) Bool :=
  match r with
  | none => (o, .error .valueError)
  | some x => if x ∈ o then (o, .ok false) else (o ++ [x], .ok true)

/-- `exclude`, `progression.py:257-267`. -/
def exclude (o : List ι) (r : Ref ι) : Res (List ι) Bool :=
  match r with
  | none => (o, .error .valueError)
  | some x => if x ∈ o then (o.erase x, .ok true) else (o, .ok false)

/-- `p.extend(q)`, `progression.py:115-117`, for progressions: `items` is iterated with `__iter__`
(`progression.py:136-138`), the live iterator of the list `q.order`, while `list.extend` appends to `p.order`
item by item.  State of the loop: the list being extended and the position of the iterator. -/
structure Loop (ι : Type) where
  order : List ι
  pos : Nat
  deriving DecidableEq

/-- One round of the loop of `p.extend(q)`: `q = none` is `p.extend(p)`, where the iterator reads the list that
grows; `none` when the iterator is exhausted and `extend` returns. Built on `Loop` (`progression.py:115-117`). -/
def extendRound (q : Option (List ι)) (s : Loop ι) : Option (Loop ι) :=
  ((q.getD s.order)[s.pos]?).map (fun x => { order := s.order ++ [x], pos := s.pos + 1 })

/-- `n` rounds of the loop; `.inl` is a loop still running, `.inr` the list when `extend` has returned. Built on `Loop` (`progression.py:115-117`). -/
def extendRun (q : Option (List ι)) : Nat → Loop ι → Loop ι ⊕ List ι
  | 0, s => .inl s
  | n + 1, s => match extendRound q s with
    | none => .inr s.order
    | some s' => extendRun q n s'

/-- The mutating methods of `Progression` as data (`progression.py:63-117, 154-162, 210-267`). -/
inductive Op (ι : Type) where
  | append (r : Ref ι)
  | insert (i : Int) (r : Ref ι)
  | remove (r : Ref ι)
  | pop (i : Int) (hasDefault : Bool)
  | popleft
  | clear
  | extend (rs : List (Ref ι))
  | setitem (i : Int) (r : Ref ι)
  | setslice (s : Py.Slice) (vs : Option (List (Ref ι)))
  | move (i j : Int)
  | swap (i j : Int)
  | reverse
  | include_ (r : Ref ι)
  | exclude (r : Ref ι)

/-- What a mutating call returns. Part of the model of `base/_utils.py:186-215`. -/
inductive Out (ι : Type) where
  | unit
  | id (x : ι)
  | default
  | flag (b : Bool)
  deriving DecidableEq

/-- Run one mutating call. Built on `append` (`progression.py:63-66`). -/
def step (o : List ι) : Op ι → Res (List ι) (Out ι)
  | .append r => let (s, e) := append o r; (s, e.map fun _ => .unit)
  | .insert i r => let (s, e) := insert o i r; (s, e.map fun _ => .unit)
  | .remove r => let (s, e) := remove o r; (s, e.map fun _ => .unit)
  | .pop i d => let (s, e) := pop o i d; (s, e.map fun | some x => .id x | none => .default)
  | .popleft => let (s, e) := popleft o; (s, e.map .id)
  | .clear => let (s, e) := clear o; (s, e.map fun _ => .unit)
  | .extend rs => let (s, e) := extend o rs; (s, e.map fun _ => .unit)
  | .setitem i r => let (s, e) := setitem o i r; (s, e.map fun _ => .unit)
  | .setslice i r => let (s, e) := setslice o i r; (s, e.map fun _ => .unit)
  | .move i j => let (s, e) := move o i j; (s, e.map fun _ => .unit)
  | .swap i j => let (s, e) := swap o i j; (s, e.map fun _ => .unit)
  | .reverse => let (s, e) := reverse o; (s, e.map fun _ => .unit)
  | .include_ r => let (s, e) := include_ o r; (s, e.map .flag)
  | .exclude r => let (s, e) := exclude o r; (s, e.map .flag)

end Progression

end Verif
