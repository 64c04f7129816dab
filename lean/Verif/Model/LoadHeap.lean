import Verif.Py.Basic
import Verif.Py.Dict

/-! # `from_dict` on a heap: which objects it writes to

`Element.from_dict` (`src/lionherd_core/base/element.py:159-211`), `Node.from_dict` (`node.py:227-286`), `Pile.from_dict` (`pile.py:669-761`), `Graph.from_dict`
(`graph.py:474-517`) and the validators of `Flow` (`flow.py:103-121`), with the identities of the dicts and lists involved.  Objects live at addresses; a new object gets
the next free one. -/

namespace Verif.LoadHeap

/-- A value: `None`, a string, a number, or a reference to an object. Serves `Obj` (`element.py:159-211`). -/
inductive Val where
  | none
  | str (s : String)
  | int (i : Int)
  | ref (a : Nat)
  deriving DecidableEq, Repr

/-- An object: a dict, a list, an element with its fields, a pile with its fields, its items and the name of its progression, or an object of any other class with its
attributes. Serves `M` (`element.py:159-211`,
`pile.py:742-761`). -/
inductive Obj where
  | dict (d : Dict String Val)
  | list (l : List Val)
  | elem (cls : String) (fields : Dict String Val)
  | pile (cls : String) (fields : Dict String Val) (items : List Val) (name : Val)
  | other (cls : String) (attrs : Dict String Val)
  deriving DecidableEq, Repr

abbrev Heap := List Obj

/-- A computation on the heap. Serves `elementFrom` (`element.py:159-211`). -/
abbrev M (α : Type) := Heap → Res Heap α

/-- Return. Serves `elementFrom` (`element.py:159-211`). -/
def ret {α : Type} (x : α) : M α := fun h => (h, .ok x)
/-- Raise. Serves `elementFrom` (`element.py:159-211`). -/
def fail {α : Type} (e : Exc) : M α := fun h => (h, .error e)
/-- Do one thing after another; an exception ends the whole. Serves `elementFrom` (`element.py:159-211`). -/
def andThen {α β : Type} (m : M α) (f : α → M β) : M β := fun h =>
  match m h with
  | (h', .error e) => (h', .error e)
  | (h', .ok x) => f x h'

/-- A new object. Serves `copyDict` (`element.py:171`). -/
def new (o : Obj) : M Nat := fun h => (h ++ [o], .ok h.length)
/-- Write to an object. Serves `restoreMeta` (`element.py:174-179`). -/
def put (a : Nat) (o : Obj) : M Unit := fun h => (h.set a o, .ok ())
/-- The object behind a value. Serves `copyDict` (`element.py:171`). -/
def objOf (h : Heap) : Val → Option Obj
  | .ref a => h[a]?
  | _ => none
/-- Look at the object behind a value. Serves `copyDict` (`element.py:171`). -/
def look (v : Val) : M (Option Obj) := fun h => (h, .ok (objOf h v))
/-- The entries of a dict object. Serves `copyDict` (`element.py:171`). -/
def entries : Option Obj → Option (Dict String Val)
  | some (.dict d) => some d
  | _ => none
/-- The entries of a dict that is known to be one. Serves `restoreMeta` (`element.py:174-179`). -/
def entriesD (o : Option Obj) : Dict String Val := (entries o).getD []
/-- The members of a list object; `none` for anything else. Serves `pileFrom` (`pile.py:704`). -/
def members : Option Obj → Option (List Val)
  | some (.list l) => some l
  | _ => none

/-- Truth value: containers are true when not empty. Serves `ownMeta` (`element.py:62-63`). -/
def truthy (o : Option Obj) : Val → Bool
  | .none => false
  | .str s => s != ""
  | .int i => i != 0
  | .ref _ => o != some (.dict []) && o != some (.list [])

/-- `.copy()` of a dict whose entries are known, or the AttributeError of a value without. Serves `copyDict` (`element.py:171`). -/
def copyOf : Option (Dict String Val) → M Nat
  | none => fail .attributeError
  | some d => new (.dict d)
/-- `data.copy()`, `element.py:171`, `node.py:243`, `pile.py:692`, `graph.py:491`. -/
def copyDict (v : Val) : M Nat := andThen (look v) fun o => copyOf (entries o)

/-- `data["metadata"] = data.pop(k)`, `element.py:175`. -/
def moved (k : String) (d : Dict String Val) : Dict String Val :=
  match d.get? k with
  | some v => (d.del k).set "metadata" v
  | none => d
/-- Where the metadata comes from, `element.py:174-179`, `node.py:262-270`; without `legacy` as in `pile.py:695-696`, `graph.py:494-495`. -/
def restored (key : Option String) (legacy : Bool) (d : Dict String Val) : Dict String Val :=
  if key.getD "" != "" && d.has (key.getD "") then
    if legacy then (moved (key.getD "") d).del "node_metadata" else moved (key.getD "") d
  else if legacy then
    if d.has "node_metadata" && !d.has "metadata" then (moved "node_metadata" d).del "node_metadata" else d.del "node_metadata"
  else d
/-- The same as a write to the dict `a`. Models `element.py:174-179`. -/
def restoreMeta (key : Option String) (legacy : Bool) (a : Nat) : M Unit :=
  andThen (look (.ref a)) fun o => put a (.dict (restored key legacy (entriesD o)))

/-- `metadata = metadata.copy(); data["metadata"] = metadata; lion_class = metadata.pop("lion_class", None)`, `element.py:183-187`: `d` holds the entries of `data` (at
`a`), `m` those of the metadata. -/
def popClass (a : Nat) (d : Dict String Val) : Option (Dict String Val) → M Val
  | none => ret .none
  | some m => andThen (new (.dict m)) fun b => andThen (put a (.dict (d.set "metadata" (.ref b)))) fun _ =>
      andThen (put b (.dict (m.del "lion_class"))) fun _ => ret ((m.get? "lion_class").getD .none)
/-- `metadata = data.get("metadata", {})` and its lion_class, `element.py:182-189`, `node.py:273-279`. -/
def takeClass (a : Nat) : M Val :=
  andThen (look (.ref a)) fun o =>
    match (entriesD o).get? "metadata" with
    | none => popClass a (entriesD o) (some [])
    | some v => andThen (look v) fun om => popClass a (entriesD o) (entries om)

/-- Which `from_dict` a class has: its own of `Node`, `Pile` or `Graph`, or the one of `Element`, which `Flow` inherits. Serves `Cls` (`element.py:203-206`). -/
inductive Kind where
  | element
  | flow
  | node
  | pile
  | graph
  deriving DecidableEq, Repr

structure Cls where
  name : String
  kind : Kind
  deriving DecidableEq, Repr

/-- What is not part of these functions: loading a class by name, the registry of nodes, which data a class accepts, which item a pile accepts, whether the classes of
serialised items fit, `to_dict` of metadata that is no dict, and the content deserializer. Serves `elementFrom` (`element.py:159-211`). -/
structure Env where
  load : String → Option Cls
  registry : String → Option Cls
  accept : Cls → Dict String Val → Bool
  takes : List Val → Val → Bool
  typesFit : Heap → Dict String Val → Bool
  metaOf : Heap → Val → Dict String Val
  deser : Option (Val → M Val)

/-- The keys that `from_dict` is given. Serves `elementFrom` (`element.py:159`). -/
structure Keys where
  meta_ : Option String := none
  item : Option String := none

/-- `Element` itself, and `Pile`, and `Node`. Serves `convertPile` (`flow.py:110-118`). -/
def elementCls : Cls := ⟨"lionherd_core.base.element.Element", .element⟩
def pileCls : Cls := ⟨"lionherd_core.base.pile.Pile", .pile⟩
def nodeCls : Cls := ⟨"lionherd_core.base.node.Node", .node⟩

/-- The recursive call `cls.from_dict(v, meta_key, item_meta_key)`. Serves `elementFrom` (`element.py:209`). -/
abbrev Self := Cls → Keys → Val → M Val

/-- The entries of the new metadata dict: those of a non-empty dict, none for a falsy value, otherwise what `to_dict` makes of the value, `element.py:59-75`. -/
def metaEntries (env : Env) (h : Heap) (v : Val) : Dict String Val :=
  if truthy (objOf h v) v then ((entries (objOf h v)).getD (env.metaOf h v)) else []
/-- The metadata field: validation makes a new dict, `element.py:32-37, 59-75` (pydantic copies a field of type `dict[str, Any]`). -/
def ownMeta (env : Env) (v : Val) : M Nat := fun h => new (.dict (metaEntries env h v)) h

/-- `pile.add(x)` on the pile `p`, `pile.py:213-229`. -/
def addTo (env : Env) (p : Nat) (x : Val) : M Unit :=
  andThen (look (.ref p)) fun o =>
    match o with
    | some (.pile c f l n) => if env.takes l x then put p (.pile c f (l ++ [x]) n) else fail .typeError
    | _ => fail .attributeError

/-- One member of a list given to `Flow`, `flow.py:116-119`: a dict is loaded. -/
def loadMember (self : Self) (x : Val) : M Val :=
  andThen (look x) fun o => if (entries o).isSome then self elementCls {} x else ret x
/-- The loop `for item in v: pile.add(...)`, `flow.py:113-120`. -/
def addMembers (env : Env) (self : Self) (p : Nat) : List Val → M Unit
  | [] => ret ()
  | x :: xs => andThen (loadMember self x) fun y => andThen (addTo env p y) fun _ => addMembers env self p xs
/-- `_validate_piles`, `flow.py:103-121`. -/
def convertPile (env : Env) (self : Self) (v : Val) : M Val :=
  andThen (look v) fun o =>
    match o with
    | some (.dict _) => self pileCls {} v
    | some (.list l) => andThen (new (.dict [])) fun m => andThen (new (.pile pileCls.name [("metadata", .ref m)] [] .none)) fun p =>
        andThen (addMembers env self p l) fun _ => ret (.ref p)
    | _ => ret v
/-- The value of one field of a flow after validation, if it was given. Serves `convertFields` (`flow.py:103-121`). -/
def convertField (env : Env) (self : Self) (k : String) (d : Dict String Val) : M (Dict String Val) :=
  match d.get? k with
  | none => ret d
  | some v => andThen (convertPile env self v) fun w => ret (d.set k w)

/-- The lion_class of serialised content, `node.py:116-118`. -/
def contentClass (h : Heap) (d : Dict String Val) : Val :=
  match d.get? "metadata" with
  | none => .none
  | some v => ((entriesD (objOf h v)).get? "lion_class").getD .none
/-- `_validate_content` for a dict, `node.py:115-123`; a dict without class becomes a new dict (pydantic). -/
def loadContent (env : Env) (self : Self) (v : Val) (d : Dict String Val) : M Val := fun h =>
  match contentClass h d with
  | .none => andThen (new (.dict d)) (fun a => ret (.ref a)) h
  | .str s => if s = "" then andThen (new (.dict d)) (fun a => ret (.ref a)) h
      else if (env.registry s).isSome then self nodeCls {} v h else self elementCls {} v h
  | _ => fail .attributeError h
/-- The content field of a node, `node.py:102-123`. -/
def contentField (env : Env) (self : Self) (d : Dict String Val) : M (Dict String Val) :=
  match d.get? "content" with
  | none => ret d
  | some v => andThen (look v) fun o =>
      match entries o with
      | none => ret d
      | some c => andThen (loadContent env self v c) fun w => ret (d.set "content" w)

/-- The validators of the fields other than metadata, by class. Serves `validate` (`node.py:102-123`, `flow.py:103-121`). -/
def convertFields (env : Env) (self : Self) (cls : Cls) (d : Dict String Val) : M (Dict String Val) :=
  match cls.kind with
  | .node => contentField env self d
  | .flow => andThen (convertField env self "progressions" d) fun d' => convertField env self "items" d'
  | _ => ret d

/-- `cls.model_validate(data)` for the dict at `a`, `element.py:211`: a new element.  Simplified: the other fields are kept as they are. -/
def validate (env : Env) (self : Self) (cls : Cls) (a : Nat) : M Val :=
  andThen (look (.ref a)) fun o => andThen (convertFields env self cls (entriesD o)) fun d =>
    if env.accept cls d then
      andThen (ownMeta env ((d.get? "metadata").getD .none)) fun m =>
        andThen (new (.elem cls.name (d.set "metadata" (.ref m)))) fun b => ret (.ref b)
    else fail .valueError

/-- The target class has the `from_dict` of `Element`, `element.py:203-206`. -/
def sharesFrom (t : Cls) : Bool := t.kind = .element || t.kind = .flow
/-- What follows once the class is known, `element.py:191-211`. -/
def elementDispatch (env : Env) (self : Self) (cls : Cls) (a : Nat) : Val → M Val
  | .str s =>
    if s = "" ∨ s = cls.name then validate env self cls a
    else
      match env.load s with
      | none => fail .valueError
      | some t => if sharesFrom t then validate env self t a else self t {} (.ref a)
  | .none => validate env self cls a
  | _ => fail .typeError
/-- `Element.from_dict`, `element.py:159-211`. -/
def elementFrom (env : Env) (self : Self) (cls : Cls) (k : Keys) (v : Val) : M Val :=
  andThen (copyDict v) fun a => andThen (restoreMeta k.meta_ true a) fun _ => andThen (takeClass a) fun c => elementDispatch env self cls a c

/-- `data["content"] = content_deserializer(data["content"])`, `node.py:246-259`: an exception becomes a ValueError. -/
def applyDeser (a : Nat) (f : Val → M Val) : M Unit :=
  andThen (look (.ref a)) fun o =>
    match (entriesD o).get? "content" with
    | none => ret ()
    | some v => fun h =>
      match f v h with
      | (h', .error _) => (h', .error .valueError)
      | (h', .ok w) => put a (.dict ((entriesD o).set "content" w)) h'
/-- The deserializer, if there is one, `node.py:246-259`. -/
def runDeser (env : Env) (a : Nat) : M Unit :=
  match env.deser with
  | none => ret ()
  | some f => applyDeser a f
/-- What follows once the class is known, `node.py:281-289`. -/
def nodeDispatch (env : Env) (self : Self) (cls : Cls) (a : Nat) : Val → M Val
  | .str s =>
    if s = "" ∨ s = cls.name then validate env self cls a
    else
      match env.registry s with
      | none => validate env self cls a
      | some t => if t = cls then validate env self cls a else self t {} (.ref a)
  | .none => validate env self cls a
  | _ => fail .attributeError
/-- `Node.from_dict`, `node.py:227-289`. -/
def nodeFrom (env : Env) (self : Self) (cls : Cls) (k : Keys) (v : Val) : M Val :=
  andThen (copyDict v) fun a => andThen (runDeser env a) fun _ => andThen (restoreMeta k.meta_ true a) fun _ => andThen (takeClass a) fun c =>
    nodeDispatch env self cls a c

/-- The loop `item = Element.from_dict(item_dict, meta_key=item_meta_key); pile.add(item)`, `pile.py:757-759`. -/
def addLoaded (env : Env) (self : Self) (k : Option String) (p : Nat) : List Val → M Unit
  | [] => ret ()
  | x :: xs => andThen (self elementCls { meta_ := k } x) fun y => andThen (addTo env p y) fun _ => addLoaded env self k p xs
/-- `pile._progression.name = progression_name`, `pile.py:750-754`. -/
def nameIt (p : Nat) (n : Val) : M Unit :=
  andThen (look (.ref p)) fun o =>
    match o with
    | some (.pile c f l _) => if truthy none n then put p (.pile c f l n) else ret ()
    | _ => ret ()
/-- The fields of the new pile, `pile.py:742-748`. -/
def pileFields (d : Dict String Val) : Dict String Val := ((d.del "items").del "item_type").del "strict_type"
/-- Make the pile and fill it, `pile.py:742-761`: `d` are the entries of the copied data, `m` those of its metadata. -/
def pileBuild (env : Env) (self : Self) (cls : Cls) (k : Keys) (d : Dict String Val) (m : Dict String Val) (l : List Val) : M Val :=
  if env.accept cls (pileFields d) then
    andThen (ownMeta env ((d.get? "metadata").getD .none)) fun b =>
      andThen (new (.pile cls.name ((pileFields d).set "metadata" (.ref b)) [] .none)) fun p =>
        andThen (nameIt p ((m.get? "progression_name").getD .none)) fun _ => andThen (addLoaded env self k.item p l) fun _ => ret (.ref p)
  else fail .valueError
/-- `items_data = data.get("items", [])`, `pile.py:704`. -/
def itemsOf (h : Heap) (d : Dict String Val) : Option (List Val) :=
  match d.get? "items" with
  | none => some []
  | some v => members (objOf h v)
/-- The entries of the metadata of a pile, `pile.py:751`. -/
def metadataOf (h : Heap) (d : Dict String Val) : Dict String Val :=
  match d.get? "metadata" with
  | none => []
  | some v => entriesD (objOf h v)
/-- `Pile.from_dict`, `pile.py:669-761`.  Simplified: `items` that are no list are refused with TypeError. -/
def pileFrom (env : Env) (self : Self) (cls : Cls) (k : Keys) (v : Val) : M Val :=
  andThen (copyDict v) fun a => andThen (restoreMeta k.meta_ false a) fun _ => fun h =>
    match itemsOf h (entriesD (objOf h (.ref a))) with
    | none => fail .typeError h
    | some l => if env.typesFit h (entriesD (objOf h (.ref a))) then
        pileBuild env self cls k (entriesD (objOf h (.ref a))) (metadataOf h (entriesD (objOf h (.ref a)))) l h
      else fail .typeError h

/-- One pile of a graph: loaded and put back if truthy, `graph.py:502-509`; `v` is the popped value. -/
def loadPart (self : Self) (k : Keys) (a : Nat) (name : String) : Option Val → M Unit
  | none => ret ()
  | some v => andThen (look v) fun ov =>
      if truthy ov v then
        andThen (self pileCls { meta_ := k.item, item := k.item } v) fun p => andThen (look (.ref a)) fun o =>
          put a (.dict ((entriesD o).set name p))
      else ret ()
/-- `Graph.from_dict`, `graph.py:474-514`. -/
def graphFrom (env : Env) (self : Self) (cls : Cls) (k : Keys) (v : Val) : M Val :=
  andThen (copyDict v) fun a => andThen (restoreMeta k.meta_ false a) fun _ => andThen (look (.ref a)) fun o =>
    andThen (put a (.dict (((entriesD o).del "nodes").del "edges"))) fun _ =>
      andThen (loadPart self k a "nodes" ((entriesD o).get? "nodes")) fun _ =>
        andThen (loadPart self k a "edges" ((entriesD o).get? "edges")) fun _ => validate env self cls a

/-- `cls.from_dict(v, meta_key, item_meta_key)`; the first argument is the recursion limit. Models `element.py:159-211`, `node.py:227-289`, `pile.py:669-761`,
`graph.py:474-514`. -/
def fromDict (env : Env) : Nat → Self
  | 0 => fun _ _ _ => fail .recursionError
  | n + 1 => fun cls k v =>
    match cls.kind with
    | .element => elementFrom env (fromDict env n) cls k v
    | .flow => elementFrom env (fromDict env n) cls k v
    | .node => nodeFrom env (fromDict env n) cls k v
    | .pile => pileFrom env (fromDict env n) cls k v
    | .graph => graphFrom env (fromDict env n) cls k v

end Verif.LoadHeap
