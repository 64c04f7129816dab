import Verif.Py.Dict
import Verif.Model.Progression

/-!
# Model of `src/lionherd_core/base/pile.py`

* An `Element` is an `Item`: an id, its concrete class, and everything else (`data`).  Ids are immutable
  (`Element.id` is a frozen field, `base/element.py`), so `item.id` is a projection.
* `subclass c d` models `issubclass(c, d)`; it is an arbitrary relation.
* `item_type` (`set[type] | None`) is an optional list of classes; only membership matters.
* Locking (`@synchronized`) is not represented here: each method is one atomic step of a sequential history.
  Interleavings of non-atomic methods are in `Verif/Model/PileConc.lean`.
-/

namespace Verif

/-- An `Element` as seen by `Pile`: id, class and remaining content. Serves `Pile` (`pile.py:66-89`). -/
structure Item (ι γ δ : Type) where
  id : ι
  cls : γ
  data : δ
  deriving DecidableEq, Repr

/-- State of a `Pile`, `pile.py:66-89`: `_items`, `_progression.order`, `_progression.name`, `item_type`, `strict_type`. -/
structure Pile (ι γ δ : Type) where
  items : Dict ι (Item ι γ δ) := []
  order : List ι := []
  pname : Option String := none
  itemType : Option (List γ) := none
  strict : Bool := false
  deriving DecidableEq, Repr

namespace Pile

variable {ι γ δ : Type} [DecidableEq ι] [DecidableEq γ]

/-- An argument expected to be an `Element`; `none` models any other object. Serves `add` (`pile.py:213-229`). -/
abbrev Arg (ι γ δ : Type) := Option (Item ι γ δ)

/-- `_validate_type`, `pile.py:645-665`; `true` = accepted, `false` = `TypeError`. -/
def validType (subclass : γ → γ → Bool) (itemType : Option (List γ)) (strict : Bool) (x : Item ι γ δ) : Bool :=
  match itemType with
  | none => true
  | some ts => if strict then decide (x.cls ∈ ts) else ts.any (fun t => subclass x.cls t)

/-- `add`, `pile.py:213-229`. -/
def add (sub : γ → γ → Bool) (p : Pile ι γ δ) (a : Arg ι γ δ) : Res (Pile ι γ δ) Unit :=
  match a with
  | none => (p, .error .typeError)
  | some x =>
    if validType sub p.itemType p.strict x = false then (p, .error .typeError)
    else if p.items.has x.id then (p, .error .exists_)
    else ({ p with items := p.items.set x.id x, order := p.order ++ [x.id] }, .ok ())

/-- `remove`, `pile.py:232-252`: the item is popped from the dict first, then `Progression.remove` runs
(`ValueError` when the id is not in the order). -/
def remove (p : Pile ι γ δ) (r : Ref ι) : Res (Pile ι γ δ) (Item ι γ δ) :=
  match r with
  | none => (p, .error .valueError)
  | some uid =>
    match p.items.get? uid with
    | none => (p, .error .notFound)
    | some x =>
      let p1 := { p with items := p.items.del uid }
      match Progression.remove p1.order (some uid) with
      | (o, .ok ()) => ({ p1 with order := o }, .ok x)
      | (o, .error e) => ({ p1 with order := o }, .error e)

/-- `pop`, `pile.py:255-277`; the result `none` models returning the caller's default. -/
def pop (p : Pile ι γ δ) (r : Ref ι) (hasDefault : Bool) : Res (Pile ι γ δ) (Option (Item ι γ δ)) :=
  match r with
  | none => (p, .error .valueError)
  | some uid =>
    match p.items.get? uid with
    | none => (p, if hasDefault then .ok none else .error .notFound)
    | some x =>
      let p1 := { p with items := p.items.del uid }
      match Progression.remove p1.order (some uid) with
      | (o, .ok ()) => ({ p1 with order := o }, .ok (some x))
      | (o, .error e) => ({ p1 with order := o }, .error e)

/-- `get`, `pile.py:280-300`. -/
def get (p : Pile ι γ δ) (r : Ref ι) (hasDefault : Bool) : Except Exc (Option (Item ι γ δ)) :=
  match r with
  | none => .error .valueError
  | some uid =>
    match p.items.get? uid with
    | some x => .ok (some x)
    | none => if hasDefault then .ok none else .error .notFound

/-- `update`, `pile.py:303-318`. -/
def update (sub : γ → γ → Bool) (p : Pile ι γ δ) (a : Arg ι γ δ) : Res (Pile ι γ δ) Unit :=
  match a with
  | none => (p, .error .typeError)
  | some x =>
    if validType sub p.itemType p.strict x = false then (p, .error .typeError)
    else if p.items.has x.id = false then (p, .error .notFound)
    else ({ p with items := p.items.set x.id x }, .ok ())

/-- `clear`, `pile.py:321-324`. -/
def clear (p : Pile ι γ δ) : Res (Pile ι γ δ) Unit :=
  ({ p with items := [], order := [] }, .ok ())

/-- `include`, `pile.py:328-340`: any exception (also reading `.id` of a non-Element) is suppressed. -/
def include_ (sub : γ → γ → Bool) (p : Pile ι γ δ) (a : Arg ι γ δ) : Res (Pile ι γ δ) Bool :=
  match a with
  | none => (p, .ok false)
  | some x =>
    if p.items.has x.id then (p, .ok true)
    else
      match add sub p (some x) with
      | (p', .ok ()) => (p', .ok true)
      | (p', .error _) => (p', .ok false)

/-- `exclude`, `pile.py:342-355`. -/
def exclude (p : Pile ι γ δ) (r : Ref ι) : Res (Pile ι γ δ) Bool :=
  match r with
  | none => (p, .ok false)
  | some uid =>
    if p.items.has uid then
      match remove p (some uid) with
      | (p', .ok _) => (p', .ok true)
      | (p', .error _) => (p', .ok false)
    else (p, .ok true)

/-- `[self._items[uid] for uid in uids]`: `KeyError` when one is missing. Serves `iter` (`pile.py:612-616`). -/
def lookupAll (d : Dict ι (Item ι γ δ)) : List ι → Except Exc (List (Item ι γ δ))
  | [] => .ok []
  | u :: us =>
    match d.get? u with
    | none => .error .keyError
    | some x =>
      match lookupAll d us with
      | .ok xs => .ok (x :: xs)
      | .error e => .error e

/-- `__iter__` (run to completion), `pile.py:612-616`; also `__list__`, `pile.py:635-637`. -/
def iter (p : Pile ι γ δ) : Except Exc (List (Item ι γ δ)) := lookupAll p.items p.order

/-- `keys()`, `pile.py:618-624`. -/
def keys (p : Pile ι γ δ) : List ι := p.order

/-- `items()`, `pile.py:626-633`. -/
def itemPairs (p : Pile ι γ δ) : Except Exc (List (ι × Item ι γ δ)) :=
  (iter p).map (fun l => l.map (fun x => (x.id, x)))

/-- `__len__`, `pile.py:603-606`. -/
def len (p : Pile ι γ δ) : Nat := p.items.length

/-- `is_empty`, `pile.py:639-641`. -/
def isEmpty (p : Pile ι γ δ) : Bool := p.items.length == 0

/-- `__contains__`, `pile.py:595-601`. -/
def contains (p : Pile ι γ δ) (r : Ref ι) : Bool :=
  match r with
  | none => false
  | some uid => p.items.has uid

/-- The loop `for item in items: self.add(item)` of `__init__`, `pile.py:126-128`. -/
def addAll (sub : γ → γ → Bool) (p : Pile ι γ δ) : List (Arg ι γ δ) → Except Exc (Pile ι γ δ)
  | [] => .ok p
  | a :: as =>
    match add sub p a with
    | (p', .ok ()) => addAll sub p' as
    | (_, .error e) => .error e

/-- `Pile(items, item_type, order, strict_type)`, `pile.py:106-140`.  `order = none` also stands for an
empty (falsy) order argument; a `Progression` argument is represented by its `order` list. -/
def mk' (sub : γ → γ → Bool) (items : List (Arg ι γ δ)) (itemType : Option (List γ)) (strict : Bool)
    (order : Option (List ι)) : Except Exc (Pile ι γ δ) :=
  match addAll sub { itemType := itemType, strict := strict } items with
  | .error e => .error e
  | .ok p =>
    match order with
    | none => .ok p
    | some [] => .ok p
    | some o =>
      if o.all (fun u => p.items.has u) then .ok { p with order := o, pname := none }
      else .error .notFound

/-- The `Pile(items=..., item_type=self.item_type, strict_type=self.strict_type)` at the end of each query.
Serves `getBySlice` (`pile.py:460-471`). -/
def derived (sub : γ → γ → Bool) (p : Pile ι γ δ) (xs : List (Item ι γ δ)) : Except Exc (Pile ι γ δ) :=
  mk' sub (xs.map some) p.itemType p.strict none

/-- `_get_by_index`, `pile.py:453-458`. -/
def getByIndex (p : Pile ι γ δ) (i : Int) : Except Exc (Item ι γ δ) :=
  match Py.getIdx p.order i with
  | none => .error .indexError
  | some u =>
    match p.items.get? u with
    | none => .error .keyError
    | some x => .ok x

/-- `_get_by_slice`, `pile.py:460-471`. -/
def getBySlice (sub : γ → γ → Bool) (p : Pile ι γ δ) (s : Py.Slice) : Except Exc (Pile ι γ δ) :=
  match Py.getSlice p.order s with
  | none => .error .valueError
  | some us =>
    match lookupAll p.items us with
    | .error e => .error e
    | .ok xs => derived sub p xs

/-- `_filter_by_progression`, `pile.py:438-451`. -/
def filterByProgression (sub : γ → γ → Bool) (p : Pile ι γ δ) (prog : List ι) : Except Exc (Pile ι γ δ) :=
  if prog.any (fun u => !p.items.has u) then .error .notFound
  else
    match lookupAll p.items prog with
    | .error e => .error e
    | .ok xs => derived sub p xs

/-- `[self._get_by_index(idx) for idx in keys]`, first error wins (`pile.py:498`). -/
def indexAll (p : Pile ι γ δ) : List Int → Except Exc (List (Item ι γ δ))
  | [] => .ok []
  | i :: is =>
    match getByIndex p i with
    | .error e => .error e
    | .ok x =>
      match indexAll p is with
      | .error e => .error e
      | .ok xs => .ok (x :: xs)

/-- `[self.get(uid) for uid in keys]`, first error wins (`pile.py:506`). -/
def getAll (p : Pile ι γ δ) : List (Ref ι) → Except Exc (List (Item ι γ δ))
  | [] => .ok []
  | r :: rs =>
    match get p r false with
    | .error e => .error e
    | .ok none => .error .notFound
    | .ok (some x) =>
      match getAll p rs with
      | .error e => .error e
      | .ok xs => .ok (x :: xs)

/-- An entry of a list/tuple key: an int, an id (UUID or str; `none` = malformed string), or something else.
Serves `getByList` (`pile.py:473-517`). -/
inductive Key (ι : Type) where
  | int (i : Int)
  | id (r : Ref ι)
  | other

/-- `isinstance(k, int)`. Serves `getByList` (`pile.py:473-517`). -/
def Key.isInt : Key ι → Bool
  | .int _ => true
  | _ => false

/-- `isinstance(k, (UUID, str))`. Serves `getByList` (`pile.py:473-517`). -/
def Key.isId : Key ι → Bool
  | .id _ => true
  | _ => false

/-- The integer of an integer key. Serves `getByList` (`pile.py:473-517`). -/
def Key.toInt? : Key ι → Option Int
  | .int i => some i
  | _ => none

/-- The reference of an id key. Serves `getByList` (`pile.py:473-517`). -/
def Key.toRef? : Key ι → Option (Ref ι)
  | .id r => some r
  | _ => none

/-- `_get_by_list`, `pile.py:473-517`. -/
def getByList (sub : γ → γ → Bool) (p : Pile ι γ δ) (ks : List (Key ι)) : Except Exc (Pile ι γ δ) :=
  match ks with
  | [] => .error .valueError
  | .int _ :: _ =>
    if ks.all Key.isInt then
      match indexAll p (ks.filterMap Key.toInt?) with
      | .error e => .error e
      | .ok xs => derived sub p xs
    else .error .typeError
  | .id _ :: _ =>
    if ks.all Key.isId then
      match getAll p (ks.filterMap Key.toRef?) with
      | .error e => .error e
      | .ok xs => derived sub p xs
    else .error .typeError
  | .other :: _ => .error .typeError

/-- `_filter_by_function`, `pile.py:519-527` (a predicate that does not raise). -/
def filterByFunction (sub : γ → γ → Bool) (p : Pile ι γ δ) (f : Item ι γ δ → Bool) : Except Exc (Pile ι γ δ) :=
  match iter p with
  | .error e => .error e
  | .ok l => derived sub p (l.filter f)

/-- The compatibility check of `filter_by_type`, `pile.py:545-563`. -/
def typesAllowed (sub : γ → γ → Bool) (p : Pile ι γ δ) (ts : List γ) : Bool :=
  match p.itemType with
  | none => true
  | some as =>
    if p.strict then ts.all (fun t => decide (t ∈ as))
    else ts.all (fun t => as.any (fun a => sub t a || sub a t))

/-- `filter_by_type`, `pile.py:529-580`; `isinstance(item, t)` is `issubclass(type(item), t)`. -/
def filterByType (sub : γ → γ → Bool) (p : Pile ι γ δ) (ts : List γ) : Except Exc (Pile ι γ δ) :=
  if typesAllowed sub p ts = false then .error .typeError
  else
    match iter p with
    | .error e => .error e
    | .ok l =>
      let xs := l.filter (fun x => ts.any (fun t => sub x.cls t))
      if xs.isEmpty then .error .notFound else derived sub p xs

/-- The mutating methods of `Pile` as data. Built on `add` (`pile.py:213-229`). -/
inductive Op (ι γ δ : Type) where
  | add (a : Arg ι γ δ)
  | remove (r : Ref ι)
  | pop (r : Ref ι) (hasDefault : Bool)
  | get (r : Ref ι) (hasDefault : Bool)
  | update (a : Arg ι γ δ)
  | clear
  | include_ (a : Arg ι γ δ)
  | exclude (r : Ref ι)
  | contains (r : Ref ι)
  | len
  | iter

/-- What a call returns (methods of `pile.py:213-643`). -/
inductive Out (ι γ δ : Type) where
  | unit
  | item (x : Item ι γ δ)
  | default
  | flag (b : Bool)
  | nat (n : Nat)
  | list (l : List (Item ι γ δ))

/-- An item or the caller's default, as in `pile.py:254-300`. -/
def Out.ofOption : Option (Item ι γ δ) → Out ι γ δ
  | some x => .item x
  | none => .default

/-- Run one call. Built on `Pile` (`pile.py:66-89`). -/
def step (sub : γ → γ → Bool) (p : Pile ι γ δ) : Op ι γ δ → Res (Pile ι γ δ) (Out ι γ δ)
  | .add a => let (s, e) := add sub p a; (s, e.map fun _ => .unit)
  | .remove r => let (s, e) := remove p r; (s, e.map .item)
  | .pop r d => let (s, e) := pop p r d; (s, e.map .ofOption)
  | .get r d => (p, (get p r d).map .ofOption)
  | .update a => let (s, e) := update sub p a; (s, e.map fun _ => .unit)
  | .clear => let (s, e) := clear p; (s, e.map fun _ => .unit)
  | .include_ a => let (s, e) := include_ sub p a; (s, e.map .flag)
  | .exclude r => let (s, e) := exclude p r; (s, e.map .flag)
  | .contains r => (p, .ok (.flag (contains p r)))
  | .len => (p, .ok (.nat (len p)))
  | .iter => (p, (iter p).map .list)

/-- State after a history of calls. Built on `Pile` (`pile.py:66-89`). -/
def run (sub : γ → γ → Bool) (p : Pile ι γ δ) (ops : List (Op ι γ δ)) : Pile ι γ δ :=
  ops.foldl (fun q op => (step sub q op).1) p

/-! ### Serialisation -/

/-- The dict produced by `to_dict`, `pile.py:152-208`, restricted to the keys that matter here: `item_type`,
`strict_type`, the metadata entry `progression_name`, and `items`.  `D` is the type of serialised items. -/
structure PileDict (D : Type) where
  itemType : Option (List String)
  strict : Bool
  progressionName : Option String
  items : List D

/-- `if name:` for an optional string: `None` and `""` are falsy. Serves `toDict` (`pile.py:152-208`). -/
def truthyName (n : Option String) : Option String :=
  match n with
  | some s => if s = "" then none else some s
  | none => none

/-- `to_dict`, `pile.py:152-208`: `clsName` models `f"{t.__module__}.{t.__name__}"` (`pile.py:144-149`), `enc` the
items' own `to_dict`, `metaName` a value that the pile's metadata already holds under `progression_name`. -/
def toDict {D : Type} (clsName : γ → String) (enc : Item ι γ δ → D) (metaName : Option String)
    (p : Pile ι γ δ) : Except Exc (PileDict D) :=
  match iter p with
  | .error e => .error e
  | .ok l => .ok {
      itemType := p.itemType.map (fun ts => ts.map clsName)
      strict := p.strict
      progressionName := (truthyName p.pname).or metaName
      items := l.map enc }

/-- `{load_type_from_string(s) for s in v}` (`_utils.py:81-129`); `none` when one of the names cannot be loaded
(`ValueError`; names starting with a dot, which raise `TypeError`, are left out here, see `Element.importType`). -/
def loadAll (load : String → Option γ) : List String → Option (List γ)
  | [] => some []
  | s :: ss =>
    match load s, loadAll load ss with
    | some c, some cs => some (c :: cs)
    | _, _ => none

/-- The fail-fast class check of `from_dict`, `pile.py:716-741`, for one serialised item. -/
def precheck {D : Type} (sub : γ → γ → Bool) (load : String → Option γ) (lionClass : D → Option String)
    (allowed : List γ) (strict : Bool) (d : D) : Bool :=
  match lionClass d with
  | none => true
  | some s =>
    match load s with
    | none => true
    | some c => if strict then decide (c ∈ allowed) else allowed.any (fun t => sub c t)

/-- The loop `item = Element.from_dict(d); pile.add(item)` of `from_dict`, `pile.py:757-759`. -/
def addDecoded {D : Type} (sub : γ → γ → Bool) (dec : D → Except Exc (Item ι γ δ)) (p : Pile ι γ δ) :
    List D → Except Exc (Pile ι γ δ)
  | [] => .ok p
  | d :: ds =>
    match dec d with
    | .error e => .error e
    | .ok x =>
      match add sub p (some x) with
      | (p', .ok ()) => addDecoded sub dec p' ds
      | (_, .error e) => .error e

/-- `item_type_data = data.get("item_type") or ...`, `pile.py:701`: an empty list is falsy and read as `None`. -/
def itemTypeData : Option (List String) → Option (List String)
  | some [] => none
  | t => t

/-- The types named by `item_type` (`_normalize_item_type`, `pile.py:91-104`); `ValueError` when one cannot be
loaded. -/
def loadTypes (load : String → Option γ) : Option (List String) → Except Exc (Option (List γ))
  | none => .ok none
  | some ss =>
    match loadAll load ss with
    | some cs => .ok (some cs)
    | none => .error .valueError

/-- The fail-fast check over all serialised items, `pile.py:704-741`. -/
def precheckAll {D : Type} (sub : γ → γ → Bool) (load : String → Option γ) (lionClass : D → Option String)
    (types : Option (List γ)) (strict : Bool) (ds : List D) : Bool :=
  match types with
  | none => true
  | some cs => ds.all (precheck sub load lionClass cs strict)

/-- `from_dict`, `pile.py:669-761` (no `item_type` keyword). -/
def fromDict {D : Type} (sub : γ → γ → Bool) (load : String → Option γ) (lionClass : D → Option String)
    (dec : D → Except Exc (Item ι γ δ)) (d : PileDict D) : Except Exc (Pile ι γ δ) :=
  match loadTypes load (itemTypeData d.itemType) with
  | .error e => .error e
  | .ok types =>
    if precheckAll sub load lionClass types d.strict d.items = false then .error .typeError
    else
      addDecoded sub dec
        { itemType := types, strict := d.strict, pname := truthyName d.progressionName } d.items

end Pile

end Verif
