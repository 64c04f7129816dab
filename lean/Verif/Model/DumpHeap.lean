import Verif.Model.LoadHeap

/-! # `to_dict` on a heap: which objects it makes and which it shares

`Element.to_dict` (`src/lionherd_core/base/element.py:94-156`), `Node.to_dict` (`node.py:145-224`), `Pile.to_dict` (`pile.py:151-207`), `Graph.to_dict`
(`graph.py:425-472`) and `Flow.to_dict` (`flow.py:302-338`) on the heap of `Verif.Model.LoadHeap`.  `model_dump` of pydantic rebuilds dicts, lists and models, and hands on
objects of other classes as they are. -/

namespace Verif.DumpHeap

open LoadHeap

/-- What `orjson.loads` reads. Serves `loads` (`element.py:128-129`). -/
inductive Tree where
  | null
  | str (s : String)
  | int (i : Int)
  | list (l : List Tree)
  | dict (d : List (String × Tree))

mutual
/-- The Python value of a JSON value: new lists and dicts. Serves `loads` (`element.py:129`). -/
def build : Tree → M Val
  | .null => ret .none
  | .str s => ret (.str s)
  | .int i => ret (.int i)
  | .list l => andThen (buildAll l) fun vs => andThen (new (.list vs)) fun a => ret (.ref a)
  | .dict d => andThen (buildEntries d) fun es => andThen (new (.dict es)) fun a => ret (.ref a)
/-- The members of a JSON array. Serves `build` (`element.py:129`). -/
def buildAll : List Tree → M (List Val)
  | [] => ret []
  | t :: ts => andThen (build t) fun v => andThen (buildAll ts) fun vs => ret (v :: vs)
/-- The entries of a JSON object. Serves `build` (`element.py:129`). -/
def buildEntries : List (String × Tree) → M (Dict String Val)
  | [] => ret []
  | (k, t) :: ts => andThen (build t) fun v => andThen (buildEntries ts) fun vs => ret ((k, v) :: vs)
end

inductive Mode where
  | python
  | json
  | db
  deriving DecidableEq, Repr

inductive Created where
  | datetime
  | isoformat
  | timestamp
  deriving DecidableEq, Repr

/-- What is not part of these functions: which `to_dict` a class has, the field serializers (`node.py:62-100`, `pile.py:144-149`, `event.py:213-216`), how deep `model_dump`
goes, the JSON text of a dict, and the text of a time. Serves `toDict` (`element.py:105-156`). -/
structure Env where
  kind : String → Kind
  ser : String → String → Option (Val → M Val)
  limit : Nat
  text : Heap → Nat → Except Exc (List (String × Tree))
  time : Created → Option Val → String

/-- The arguments of `to_dict`; `exclude` stands for all that is passed to `model_dump`. Serves `toDict` (`element.py:105-111`, `node.py:145-153`, `pile.py:152-160`). -/
structure Opts where
  mode : Mode := .python
  created : Option Created := none
  metaKey : Option String := none
  itemMeta : Option String := none
  itemCreated : Option Created := none
  exclude : List String := []
  contentSer : Option (Val → M Val) := none

/-- An object that `model_dump` returns as it is: no container and no model (`none`: no object). Serves `dump` (`element.py:96`). -/
def leaf : Option Obj → Bool
  | none => true
  | some (.other _ _) => true
  | _ => false

/-- The serializer of a field, if it has one, `node.py:62-75`. -/
def serOf (env : Env) (cls k : String) (v : Val) : M Val :=
  match env.ser cls k with
  | none => ret v
  | some f => f v
/-- The members of a list, one after the other. Serves `dumpObj` (`element.py:96`). -/
def each (go : Val → M Val) : List Val → M (List Val)
  | [] => ret []
  | v :: vs => andThen (go v) fun w => andThen (each go vs) fun ws => ret (w :: ws)
/-- The entries of a dict, one after the other. Serves `dumpObj` (`element.py:96`). -/
def eachEntry (go : Val → M Val) : Dict String Val → M (Dict String Val)
  | [] => ret []
  | (k, v) :: vs => andThen (go v) fun w => andThen (eachEntry go vs) fun ws => ret ((k, w) :: ws)
/-- The fields of a model, each through its serializer first, whose result is serialised again. Serves `dumpObj` (`element.py:96`, `node.py:62-100`). -/
def eachField (env : Env) (go : Val → M Val) (cls : String) : Dict String Val → M (Dict String Val)
  | [] => ret []
  | (k, v) :: vs => andThen (serOf env cls k v) fun u => andThen (go u) fun w => andThen (eachField env go cls vs) fun ws => ret ((k, w) :: ws)
/-- One level of `model_dump`. Serves `dump` (`element.py:96`). -/
def dumpObj (env : Env) (go : Val → M Val) (v : Val) : Option Obj → M Val
  | some (.dict d) => andThen (eachEntry go d) fun es => andThen (new (.dict es)) fun a => ret (.ref a)
  | some (.list l) => andThen (each go l) fun vs => andThen (new (.list vs)) fun a => ret (.ref a)
  | some (.elem c f) => andThen (eachField env go c f) fun es => andThen (new (.dict es)) fun a => ret (.ref a)
  | some (.pile c f _ _) => andThen (eachField env go c f) fun es => andThen (new (.dict es)) fun a => ret (.ref a)
  | _ => ret v
/-- `model_dump` on a value; the first argument is how deep it may still go, beyond that it raises ValueError (circular reference). Serves `modelDump`
(`element.py:96`). -/
def dump (env : Env) : Nat → Val → M Val
  | 0 => fun v => andThen (look v) fun o => if leaf o then ret v else fail .valueError
  | n + 1 => fun v => andThen (look v) fun o => dumpObj env (dump env n) v o

/-- The fields that are not excluded. Serves `modelDump` (`element.py:96`). -/
def selected (ex : List String) (f : Dict String Val) : Dict String Val := f.filter fun kv => !ex.contains kv.1
/-- `data = self.model_dump(**kwargs)`, `element.py:96`. -/
def modelDump (env : Env) (cls : String) (f : Dict String Val) (ex : List String) : M Nat :=
  andThen (eachField env (dump env env.limit) cls (selected ex f)) fun es => new (.dict es)

/-- `v[name] = s`. Serves `setIn` (`element.py:100`, `pile.py:184`). -/
def setEntry (v : Val) (name s : String) : M Unit := fun h =>
  match v with
  | .ref b =>
    match entries h[b]? with
    | some d => put b (.dict (d.set name (.str s))) h
    | none => fail .typeError h
  | _ => fail .typeError h
/-- `if k in data: data[k][name] = s`, `element.py:99-100`, `pile.py:183-184`. -/
def setIn (a : Nat) (k name s : String) : M Unit :=
  andThen (look (.ref a)) fun o =>
    match (entriesD o).get? k with
    | none => ret ()
    | some v => setEntry v name s
/-- `data[k] = w`, `pile.py:189, 199`, `graph.py:461-470`, `flow.py:331-336`, `node.py:213`. -/
def setKey (a : Nat) (k : String) (w : Val) : M Unit :=
  andThen (look (.ref a)) fun o => put a (.dict ((entriesD o).set k w))

/-- `_to_dict`, `element.py:94-102`. -/
def base (env : Env) (cls : String) (f : Dict String Val) (ex : List String) : M Nat :=
  andThen (modelDump env cls f ex) fun a => andThen (setIn a "metadata" "lion_class" cls) fun _ => ret a
/-- `orjson.loads` of the text of `data`, `element.py:128-129`. -/
def loads (env : Env) (a : Nat) : M Nat := fun h =>
  match env.text h a with
  | .error e => fail e h
  | .ok t => andThen (buildEntries t) (fun es => new (.dict es)) h
/-- The dict before the creation time and the metadata key are adjusted, `element.py:122-131`. -/
def raw (env : Env) (cls : String) (f : Dict String Val) (o : Opts) : M Nat :=
  match o.mode with
  | .python => base env cls f o.exclude
  | _ => andThen (base env cls f o.exclude) fun a => loads env a

/-- `created_at_format`, by default depending on the mode, `element.py:116-117`. -/
def format (o : Opts) : Created := o.created.getD (if o.mode = .json then .isoformat else .datetime)
/-- The text of the creation time, or what the mode left there, `element.py:134-151`. Simplified: a time is a text. -/
def stamped (env : Env) (f : Dict String Val) (o : Opts) (d : Dict String Val) : Except Exc (Dict String Val) :=
  if d.has "created_at" then
    match format o with
    | .isoformat => if o.mode = .python then .ok (d.set "created_at" (.str (env.time .isoformat (f.get? "created_at")))) else .ok d
    | .timestamp => .ok (d.set "created_at" (.str (env.time .timestamp (f.get? "created_at"))))
    | .datetime =>
      match o.mode with
      | .json => .error .valueError
      | .db => .ok (d.set "created_at" (.str (env.time .datetime (f.get? "created_at"))))
      | .python => .ok d
  else .ok d
/-- The metadata key in force, `element.py:119-120`. -/
def keyFor (o : Opts) : String := o.metaKey.getD (if o.mode = .db then "node_metadata" else "")
/-- `if meta_key and "metadata" in data: data[meta_key] = data.pop("metadata")`, `element.py:153-154`. -/
def renamed (k : String) (d : Dict String Val) : Dict String Val :=
  match d.get? "metadata" with
  | none => d
  | some v => if k = "" then d else (d.del "metadata").set k v
/-- Both adjustments on the dict `a`, `element.py:133-154`. -/
def adjust (env : Env) (f : Dict String Val) (o : Opts) (a : Nat) : M Unit :=
  andThen (look (.ref a)) fun ob =>
    match stamped env f o (entriesD ob) with
    | .error e => fail e
    | .ok d => put a (.dict (renamed (keyFor o) d))
/-- `Element.to_dict`, `element.py:105-156`. -/
def elementTo (env : Env) (cls : String) (f : Dict String Val) (o : Opts) : M Nat :=
  andThen (raw env cls f o) fun a => andThen (adjust env f o a) fun _ => ret a

/-- A call of the content serializer whose exception becomes a ValueError, `node.py:189-192`. -/
def testCall (g : Val → M Val) (v : Val) : M Unit := fun h =>
  match g v h with
  | (h', .error _) => (h', .error .valueError)
  | (h', .ok _) => (h', .ok ())
/-- `Node.to_dict` with a content serializer, `node.py:180-214`. -/
def nodeWith (env : Env) (cls : String) (f : Dict String Val) (o : Opts) (g : Val → M Val) : M Nat :=
  andThen (testCall g ((f.get? "content").getD .none)) fun _ =>
    andThen (elementTo env cls f { o with exclude := "content" :: o.exclude }) fun a =>
      andThen (g ((f.get? "content").getD .none)) fun w => andThen (setKey a "content" w) fun _ => ret a
/-- `Node.to_dict`, `node.py:145-224`.  Not modelled: the context dict for `embedding_format` (`node.py:175-178`). -/
def nodeTo (env : Env) (cls : String) (f : Dict String Val) (o : Opts) : M Nat :=
  match o.contentSer with
  | none => elementTo env cls f o
  | some g => nodeWith env cls f o g

/-- The recursive call `x.to_dict(...)`. Serves `pileTo` (`pile.py:190-206`). -/
abbrev Self := Opts → Val → M Val

/-- The key under which the metadata is in the output, `pile.py:178-180`. -/
def actualKey (o : Opts) : String :=
  if o.metaKey.getD "" ≠ "" then o.metaKey.getD "" else if o.mode = .db then "node_metadata" else "metadata"
/-- `data[actual_meta_key]["progression_name"] = self._progression.name`, `pile.py:183-184`. -/
def nameInto (a : Nat) (k : String) : Val → M Unit
  | .str s => if s = "" then ret () else setIn a k "progression_name" s
  | _ => ret ()
/-- The arguments for the items, `pile.py:190-194, 200-204`. -/
def itemOpts (o : Opts) : Opts :=
  { mode := if o.mode = .python then .python else .json, metaKey := o.itemMeta, created := o.itemCreated }
/-- `Pile.to_dict`, `pile.py:152-208`; the items are listed in the order of the progression. -/
def pileTo (env : Env) (self : Self) (cls : String) (f : Dict String Val) (items : List Val) (name : Val) (o : Opts) : M Nat :=
  andThen (elementTo env cls f o) fun a => andThen (nameInto a (actualKey o) name) fun _ =>
    andThen (each (self (itemOpts o)) items) fun l => andThen (new (.list l)) fun b => andThen (setKey a "items" (.ref b)) fun _ => ret a

/-- `data[k] = self.k.to_dict(...)`, `graph.py:461-470`, `flow.py:331-336`. -/
def part (self : Self) (po : Opts) (f : Dict String Val) (a : Nat) (k : String) : M Unit :=
  andThen (self po ((f.get? k).getD .none)) fun x => setKey a k x
/-- `Element.to_dict` without two fields, which are added by their own `to_dict`, `graph.py:445-472`, `flow.py:315-338`. -/
def partsTo (env : Env) (self : Self) (cls : String) (f : Dict String Val) (o po : Opts) (k1 k2 : String) : M Nat :=
  andThen (elementTo env cls f { o with exclude := k1 :: k2 :: o.exclude }) fun a =>
    andThen (part self po f a k1) fun _ => andThen (part self po f a k2) fun _ => ret a
/-- `Graph.to_dict`, `graph.py:425-472`. -/
def graphTo (env : Env) (self : Self) (cls : String) (f : Dict String Val) (o : Opts) : M Nat :=
  partsTo env self cls f o { mode := o.mode, itemMeta := o.itemMeta, itemCreated := o.itemCreated } "nodes" "edges"
/-- `Flow.to_dict`, `flow.py:302-338`. -/
def flowTo (env : Env) (self : Self) (cls : String) (f : Dict String Val) (o : Opts) : M Nat :=
  partsTo env self cls f o { mode := o.mode, created := o.created, metaKey := o.metaKey } "items" "progressions"

/-- The `to_dict` of the class of an object; other objects have none. Serves `toDict` (`element.py:105-156`). -/
def toObj (env : Env) (self : Self) (o : Opts) : Option Obj → M Nat
  | some (.elem c f) =>
    match env.kind c with
    | .node => nodeTo env c f o
    | .graph => graphTo env self c f o
    | .flow => flowTo env self c f o
    | _ => elementTo env c f o
  | some (.pile c f l n) => pileTo env self c f l n o
  | _ => fail .attributeError
/-- `v.to_dict(...)`; the first argument is the recursion limit. Models `element.py:105-156`, `node.py:145-224`, `pile.py:152-208`, `graph.py:425-472`,
`flow.py:302-338`. -/
def toDict (env : Env) : Nat → Self
  | 0 => fun _ _ => fail .recursionError
  | n + 1 => fun o v => andThen (look v) fun ob => andThen (toObj env (toDict env n) o ob) fun a => ret (.ref a)

end Verif.DumpHeap
