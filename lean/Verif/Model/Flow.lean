import Verif.Model.Pile

/-!
# Model of `src/lionherd_core/base/flow.py`

A `Flow` holds a pile of items, a pile of progressions and the private name index `_progression_names`.
Progressions are mutable objects; a progression of the flow is an entry of the progression pile whose `data` is the
progression's current name and order, and mutating the object updates that entry.  A `Progression` instance that is
passed as an argument is either the object stored in the flow (`ProgArg.member`) or some other object
(`ProgArg.foreign`, whose mutation does not touch the flow).
-/

namespace Verif

/-- Mutable content of a progression (`base/progression.py:26-35`). -/
structure ProgData (ι : Type) where
  name : Option String
  order : List ι
  deriving DecidableEq, Repr

/-- State of a `Flow`, `flow.py:38-52`. -/
structure Flow (ι γ δ : Type) where
  items : Pile ι γ δ := {}
  progs : Pile ι Unit (ProgData ι) := {}
  names : Dict String ι := []

namespace Flow

variable {ι γ δ : Type} [DecidableEq ι] [DecidableEq γ]

/-- The progression pile has no type constraint, so its subclass relation never matters. Serves `mk'` (`flow.py:53-152`). -/
abbrev anySub : Unit → Unit → Bool := fun _ _ => true

/-- A progression object as an element: id, (trivial) class, content. Serves `register` (`flow.py:151-152, 200-202`). -/
abbrev Prog (ι : Type) := Item ι Unit (ProgData ι)

/-- `if progression.name:` — the name when it is a non-empty string. Serves `register` (`flow.py:151-152, 200-202`). -/
abbrev truthy (n : Option String) : Option String := Pile.truthyName n

/-- `set(list(prog)) - item_ids` is non-empty, `flow.py:138, 190`. -/
def missing (items : Pile ι γ δ) (order : List ι) : Bool := order.any (fun u => !decide (u ∈ items.keys))

/-- `if progression.name: self._progression_names[progression.name] = progression.id`, `flow.py:151-152, 200-202`. -/
def register (d : Dict String ι) (p : Prog ι) : Dict String ι :=
  match truthy p.data.name with
  | some n => d.set n p.id
  | none => d

/-- `progression.name and progression.name in self._progression_names`, `flow.py:184, 219`. -/
def nameTaken (d : Dict String ι) (p : Prog ι) : Bool :=
  match truthy p.data.name with
  | some n => d.has n
  | none => false

/-- `if prog.name and prog.name in self._progression_names: del ...`, `flow.py:219-220`. -/
def unregister (d : Dict String ι) (p : Prog ι) : Dict String ι :=
  match truthy p.data.name with
  | some n => if d.has n then d.del n else d
  | none => d

/-- `model_post_init`, `flow.py:146-152`: later progressions overwrite earlier ones of the same name. -/
def buildNames (l : List (Prog ι)) : Dict String ι := l.foldl register []

/-- `Flow(items=pile, progressions=[...])`, `flow.py:53-152`: the progressions are added one by one to a fresh pile
(`_validate_piles`), then integrity is validated and the name index is built. -/
def mk' (items : Pile ι γ δ) (progs : List (Prog ι)) : Except Exc (Flow ι γ δ) :=
  match Pile.addAll anySub {} (progs.map some) with
  | .error e => .error e
  | .ok pp =>
    match Pile.iter pp with
    | .error e => .error e
    | .ok l =>
      if l.any (fun p => missing items p.data.order) then .error .notFound
      else .ok { items := items, progs := pp, names := buildNames l }

/-- A string key: the string and what it parses to as a UUID. Serves the model of `flow.py:204-221`. -/
structure StrKey (ι : Type) where
  str : String
  parsed : Ref ι

/-- Argument of `remove_progression` / `get_progression`: a string, or a UUID (for `remove_progression` also a
progression instance, which is coerced to its id; `none` when it cannot be coerced). Serves `removeProgression` (`flow.py:204-221`). -/
inductive FKey (ι : Type) where
  | str (k : StrKey ι)
  | ref (r : Ref ι)

/-- `add_progression`, `flow.py:180-202`. -/
def addProgression (f : Flow ι γ δ) (p : Prog ι) : Res (Flow ι γ δ) Unit :=
  if nameTaken f.names p then (f, .error .exists_)
  else if missing f.items p.data.order then (f, .error .notFound)
  else
    match Pile.add anySub f.progs (some p) with
    | (pp, .error e) => ({ f with progs := pp }, .error e)
    | (pp, .ok ()) => ({ f with progs := pp, names := register f.names p }, .ok ())

/-- `_check_progression_exists(uid)` then `self.progressions.remove(uid)`, `flow.py:167-178, 213, 221`. -/
def dropProgression (f : Flow ι γ δ) (u : ι) : Res (Flow ι γ δ) (Prog ι) :=
  match Pile.remove f.progs (some u) with
  | (pp, .ok p) => ({ f with progs := pp }, .ok p)
  | (pp, .error e) => ({ f with progs := pp }, .error e)

/-- The branch of `remove_progression` for an id, `flow.py:215-221`. -/
def removeById (f : Flow ι γ δ) (r : Ref ι) : Res (Flow ι γ δ) (Prog ι) :=
  match r with
  | none => (f, .error .valueError)
  | some u =>
    match f.progs.items.get? u with
    | none => (f, .error .notFound)
    | some p => dropProgression { f with names := unregister f.names p } u

/-- `remove_progression`, `flow.py:204-221`. -/
def removeProgression (f : Flow ι γ δ) (k : FKey ι) : Res (Flow ι γ δ) (Prog ι) :=
  match k with
  | .str s =>
    match f.names.get? s.str with
    | some u =>
      let f1 := { f with names := f.names.del s.str }
      match f.progs.items.get? u with
      | none => (f1, .error .notFound)
      | some _ => dropProgression f1 u
    | none => removeById f s.parsed
  | .ref r => removeById f r

/-- `get_progression`, `flow.py:223-240`, for a string or UUID key. -/
def getProgression (f : Flow ι γ δ) (k : FKey ι) : Except Exc (Prog ι) :=
  match k with
  | .str s =>
    match f.names.get? s.str with
    | some u => match f.progs.items.get? u with
      | some p => .ok p
      | none => .error .notFound
    | none =>
      match s.parsed with
      | none => .error .keyError
      | some u => match f.progs.items.get? u with
        | some p => .ok p
        | none => .error .notFound
  | .ref r =>
    match r with
    | none => .error .typeError
    | some u => match f.progs.items.get? u with
      | some p => .ok p
      | none => .error .notFound

/-- `get_progression(instance)`, `flow.py:240`: the key reaches `Pile.__getitem__` as a `Progression`, i.e. as a filter by the
ids *listed in* it (`pile.py:413-415`). -/
def getProgressionInstance (f : Flow ι γ δ) (p : Prog ι) : Except Exc (Pile ι Unit (ProgData ι)) :=
  Pile.filterByProgression anySub f.progs p.data.order

/-- Apply a mutation to the progression object with id `u` of the flow. Serves `appendAll` (`flow.py:268-274`). -/
def modify (pp : Pile ι Unit (ProgData ι)) (u : ι) (g : List ι → List ι) : Pile ι Unit (ProgData ι) :=
  match pp.items.get? u with
  | none => pp
  | some p => { pp with items := pp.items.set u { p with data := { p.data with order := g p.data.order } } }

/-- A progression argument of `add_item`. Serves `appendAll` (`flow.py:268-274`). -/
inductive ProgArg (ι : Type) where
  | key (k : FKey ι)
  | member (u : ι)
  | foreign

/-- The loop `for prog in progs: ...append(item)` of `add_item`, `flow.py:268-274`. -/
def appendAll (f : Flow ι γ δ) (x : ι) : List (ProgArg ι) → Res (Flow ι γ δ) Unit
  | [] => (f, .ok ())
  | .foreign :: as => appendAll f x as
  | .member u :: as => appendAll { f with progs := modify f.progs u (· ++ [x]) } x as
  | .key k :: as =>
    match getProgression f k with
    | .error e => (f, .error e)
    | .ok p => appendAll { f with progs := modify f.progs p.id (· ++ [x]) } x as

/-- `add_item`, `flow.py:244-274`. -/
def addItem (sub : γ → γ → Bool) (f : Flow ι γ δ) (a : Pile.Arg ι γ δ) (ps : List (ProgArg ι)) :
    Res (Flow ι γ δ) Unit :=
  match Pile.add sub f.items a with
  | (ip, .error e) => ({ f with items := ip }, .error e)
  | (ip, .ok ()) =>
    match a with
    | none => ({ f with items := ip }, .ok ())
    | some x => appendAll { f with items := ip } x.id ps

/-- `if uid in progression: progression.remove(uid)`, `flow.py:291-293`, for one progression. -/
def dropFrom (uid : ι) (order : List ι) : List ι := if uid ∈ order then order.erase uid else order

/-- The loop over the progressions in `remove_item`, `flow.py:291-293`; `KeyError` when the progression pile is
inconsistent. -/
def dropEverywhere (pp : Pile ι Unit (ProgData ι)) (uid : ι) :
    List ι → Res (Pile ι Unit (ProgData ι)) Unit
  | [] => (pp, .ok ())
  | u :: us =>
    match pp.items.get? u with
    | none => (pp, .error .keyError)
    | some _ => dropEverywhere (modify pp u (dropFrom uid)) uid us

/-- `remove_item`, `flow.py:276-296`. -/
def removeItem (f : Flow ι γ δ) (r : Ref ι) : Res (Flow ι γ δ) (Item ι γ δ) :=
  match r with
  | none => (f, .error .valueError)
  | some uid =>
    match dropEverywhere f.progs uid f.progs.order with
    | (pp, .error e) => ({ f with progs := pp }, .error e)
    | (pp, .ok ()) =>
      match Pile.remove f.items (some uid) with
      | (ip, res) => ({ f with progs := pp, items := ip }, res)

/-- The mutating methods of `Flow` as data. Built on `addProgression` (`flow.py:180-202`). -/
inductive Op (ι γ δ : Type) where
  | addProgression (p : Prog ι)
  | removeProgression (k : FKey ι)
  | addItem (a : Pile.Arg ι γ δ) (ps : List (ProgArg ι))
  | removeItem (r : Ref ι)

/-- What a mutating call returns. Built on `ProgData` (`base/progression.py:26-35`). -/
inductive Out (ι γ δ : Type) where
  | unit
  | prog (p : Prog ι)
  | item (x : Item ι γ δ)

/-- Run one call. Built on `Flow` (`flow.py:38-52`). -/
def step (sub : γ → γ → Bool) (f : Flow ι γ δ) : Op ι γ δ → Res (Flow ι γ δ) (Out ι γ δ)
  | .addProgression p => let (s, e) := addProgression f p; (s, e.map fun _ => .unit)
  | .removeProgression k => let (s, e) := removeProgression f k; (s, e.map .prog)
  | .addItem a ps => let (s, e) := addItem sub f a ps; (s, e.map fun _ => .unit)
  | .removeItem r => let (s, e) := removeItem f r; (s, e.map .item)

/-- State after a history. Built on `Flow` (`flow.py:38-52`). -/
def run (sub : γ → γ → Bool) (f : Flow ι γ δ) (ops : List (Op ι γ δ)) : Flow ι γ δ :=
  ops.foldl (fun g op => (step sub g op).1) f

end Flow

end Verif
