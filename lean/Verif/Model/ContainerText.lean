import Verif.Model.ContainerKeys
import Verif.Model.ElementText

/-!
# Model of `to_json` and `from_json` of `Pile`, `Graph` and `Flow`

`Element.to_json` (`src/lionherd_core/base/element.py:224-251`) writes `self._to_dict()`, which is `model_dump` with the class tag (`element.py:95-103`); the
containers override `to_dict` (`pile.py:152-208`, `graph.py:425-472`, `flow.py:302-338`) but not `to_json`.  `Element.from_json` (`element.py:217-222`) is
`cls.from_dict(orjson.loads(text))`.  Texts are those of `Verif.Model.Json`.  The id, the creation time and the metadata are given as JSON data (`Head`);
how they are read back is the subject of `Verif.Model.ElementText` and of `Pile.metaIn`, and left out here.
-/

namespace Verif.ContainerText

open Json
open Element (arrange dictOf)

variable {ι γ δ ν ε : Type} [DecidableEq ι] [DecidableEq γ]

/-- JSON `null`. Serves `typesJ` (`pile.py:144-149`). -/
def jNull : J := .token ['n', 'u', 'l', 'l'] (by decide)

/-- Serves the model of `pile.py:80-89`. -/
def jTrue : J := .token ['t', 'r', 'u', 'e'] (by decide)

/-- Serves the model of `pile.py:80-89`. -/
def jFalse : J := .token ['f', 'a', 'l', 's', 'e'] (by decide)

/-- A Python bool. Serves `pileFields` (`pile.py:80-89`). -/
def jBool (b : Bool) : J := if b then jTrue else jFalse

/-- A dict with string keys; `sort` is the `sort_keys` option. Serves `pileToJson` (`element.py:224-251`). -/
def objJ (sort : Bool) (d : Dict String J) : J := .obj (arrange sort (d.map (fun kv => (kv.1.toList, kv.2))))

/-- A text or `None`. Serves `flowToJson` (`element.py:224-251`). -/
def optJ : Option String → J
  | none => jNull
  | some s => .str s.toList

/-- `_serialize_item_type`, `pile.py:144-149`. -/
def typesJ : Option (List String) → J
  | none => jNull
  | some ts => .arr (ts.map (fun s => .str s.toList))

/-- The fields of `Element` as JSON data, `element.py:47-62`. -/
structure Head where
  id : String
  created : String
  metadata : Dict String J

/-- `data["metadata"]["lion_class"] = ...`, `element.py:99-101`: only for the object whose `to_json` is called, not for the models in its fields. -/
def Head.tag (h : Head) (cls : String) : Head := { h with metadata := h.metadata.set "lion_class" (.str cls.toList) }

/-- The part of `model_dump` that all elements have. Serves `pileFields` (`pile.py:80-89`). -/
def headFields (sort : Bool) (h : Head) : Dict String J :=
  [("id", .str h.id.toList), ("created_at", .str h.created.toList), ("metadata", objJ sort h.metadata)]

/-- `model_dump` of a pile: its fields are those of `Element` and `item_type`, `strict_type` (`pile.py:80-89`); the items and their order are private
attributes (`pile.py:66-69`). -/
def pileFields (clsName : γ → String) (sort : Bool) (h : Head) (p : Pile ι γ δ) : Dict String J :=
  headFields sort h ++ [("item_type", typesJ (p.itemType.map (fun ts => ts.map clsName))), ("strict_type", jBool p.strict)]

/-- `Pile.to_json(pretty=pretty, sort_keys=sort)`, `element.py:224-251`. -/
def pileToJson (clsName : γ → String) (cls : String) (pretty sort : Bool) (h : Head) (p : Pile ι γ δ) : Str :=
  write pretty 0 (objJ sort (pileFields clsName sort (h.tag cls) p))

/-- The metadata with the progression name, `pile.py:182-184`. -/
def Head.named (h : Head) (n : Option String) : Head :=
  match Pile.truthyName n with
  | some s => { h with metadata := h.metadata.set "progression_name" (.str s.toList) }
  | none => h

/-- `json_dumps(pile.to_dict(mode="json"), pretty=pretty, sort_keys=sort)`, `pile.py:152-208`; `enc` is the items' own `to_dict(mode="json")`. -/
def pileDictText (clsName : γ → String) (cls : String) (enc : Item ι γ δ → J) (pretty sort : Bool) (h : Head) (p : Pile ι γ δ) : Except Exc Str :=
  match Pile.iter p with
  | .error e => .error e
  | .ok l => .ok (write pretty 0 (objJ sort (pileFields clsName sort ((h.tag cls).named p.pname) p ++ [("items", .arr (l.map enc))])))

/-- `Graph.to_json`, `element.py:224-251`, with the fields of `graph.py:108-118`; `hn`, `he` are the fields of the two piles. -/
def graphToJson (clsN clsE : Unit → String) (cls : String) (pretty sort : Bool) (h hn he : Head) (g : Graph ι ν ε) : Str :=
  write pretty 0 (objJ sort (headFields sort (h.tag cls) ++
    [("nodes", objJ sort (pileFields clsN sort hn g.nodes)), ("edges", objJ sort (pileFields clsE sort he g.edges))]))

/-- `Flow.to_json`, `element.py:224-251`, with the fields of `flow.py:38-49`. -/
def flowToJson (clsName : γ → String) (cls : String) (pretty sort : Bool) (h hp hi : Head) (name : Option String) (f : Flow ι γ δ) : Str :=
  write pretty 0 (objJ sort (headFields sort (h.tag cls) ++
    [("name", optJ name), ("progressions", objJ sort (pileFields (fun _ => "") sort hp f.progs)), ("items", objJ sort (pileFields clsName sort hi f.items))]))

/-! ### Reading -/

/-- A text. Serves `readProgName` (`pile.py:750-752`). -/
def strOf : J → Option String
  | .str s => some (String.ofList s)
  | _ => none

/-- A list of texts. Serves `readTypes` (`pile.py:701`). -/
def namesOf : List J → Option (List String)
  | [] => some []
  | v :: l => (strOf v).bind fun s => (namesOf l).map fun ss => s :: ss

/-- `data.get("item_type")`, `pile.py:701`.  Simplified: a value that is neither absent, `null` nor a list of texts is refused. -/
def readTypes : Option J → Except Exc (Option (List String))
  | none => .ok none
  | some (.token t _) => if t = ['n', 'u', 'l', 'l'] then .ok none else .error .typeError
  | some (.arr l) =>
    match namesOf l with
    | some ss => .ok (some ss)
    | none => .error .typeError
  | some _ => .error .typeError

/-- `data.get("strict_type", False)`, `pile.py:702`.  Simplified: pydantic's coercions of other values to bool are left out. -/
def readBool : Option J → Except Exc Bool
  | none => .ok false
  | some (.token t _) =>
    if t = ['t', 'r', 'u', 'e'] then .ok true else if t = ['f', 'a', 'l', 's', 'e'] then .ok false else .error .valueError
  | some _ => .error .valueError

/-- `data.get("items", [])`, `pile.py:705`.  Simplified: what is not a list is refused. -/
def readItems : Option J → Except Exc (List J)
  | none => .ok []
  | some (.arr l) => .ok l
  | some _ => .error .attributeError

/-- `data.get("metadata", {}).get("progression_name")`, `pile.py:750-752`, if it is a text. -/
def readProgName : Option J → Option String
  | some (.obj l) => (Dict.get? (dictOf (fun v => v) l) "progression_name").bind strOf
  | _ => none

/-- The parts of the data that `Pile.from_dict` uses, `pile.py:693-755`. -/
def readPile (d : Dict String J) : Except Exc (Pile.PileDict J) :=
  match readTypes (d.get? "item_type") with
  | .error e => .error e
  | .ok t =>
    match readBool (d.get? "strict_type") with
    | .error e => .error e
    | .ok s =>
      match readItems (d.get? "items") with
      | .error e => .error e
      | .ok l => .ok ⟨t, s, readProgName (d.get? "metadata"), l⟩

/-- `Pile.from_dict(data)`, `pile.py:669-761`. -/
def pileFromObj (sub : γ → γ → Bool) (load : String → Option γ) (lionClass : J → Option String) (dec : J → Except Exc (Item ι γ δ)) (l : List (Str × J)) :
    Except Exc (Pile ι γ δ) :=
  match readPile (dictOf (fun v => v) l) with
  | .error e => .error e
  | .ok b => Pile.fromDict sub load lionClass dec b

/-- `Pile.from_json(text)`, `element.py:217-222`: text that is not JSON raises a `ValueError`, anything but an object an `AttributeError`. -/
def pileFromJson (sub : γ → γ → Bool) (load : String → Option γ) (lionClass : J → Option String) (dec : J → Except Exc (Item ι γ δ)) (text : Str) :
    Except Exc (Pile ι γ δ) :=
  match loads text with
  | none => .error .valueError
  | some (.obj l) => pileFromObj sub load lionClass dec l
  | some _ => .error .attributeError

/-- A field that holds a pile: `Pile.from_dict(v)` on an object, the default pile when absent, `graph.py:500-511`, `flow.py:105-125`.  Simplified: other values
are refused. -/
def fieldPile (sub : γ → γ → Bool) (load : String → Option γ) (lionClass : J → Option String) (dec : J → Except Exc (Item ι γ δ)) (dflt : Pile ι γ δ) :
    Option J → Except Exc (Pile ι γ δ)
  | none => .ok dflt
  | some (.obj l) => pileFromObj sub load lionClass dec l
  | some _ => .error .valueError

/-- `Graph.from_dict(data)`, `graph.py:474-516`. -/
def graphFromObj (load : String → Option Unit) (lionClass : J → Option String) (decN : J → Except Exc (Item ι Unit ν))
    (decE : J → Except Exc (Item ι Unit (EdgeData ι ε))) (d : Dict String J) : Except Exc (Graph ι ν ε) :=
  match fieldPile Graph.anySub load lionClass decN { itemType := some [()] } (d.get? "nodes") with
  | .error e => .error e
  | .ok n =>
    match fieldPile Graph.anySub load lionClass decE { itemType := some [()] } (d.get? "edges") with
    | .error e => .error e
    | .ok es => Graph.mk' n es

/-- `Graph.from_json(text)`, `element.py:217-222`. -/
def graphFromJson (load : String → Option Unit) (lionClass : J → Option String) (decN : J → Except Exc (Item ι Unit ν))
    (decE : J → Except Exc (Item ι Unit (EdgeData ι ε))) (text : Str) : Except Exc (Graph ι ν ε) :=
  match loads text with
  | none => .error .valueError
  | some (.obj l) => graphFromObj load lionClass decN decE (dictOf (fun v => v) l)
  | some _ => .error .attributeError

/-- The `name` field, `flow.py:38-41`. -/
def readName : Option J → Except Exc (Option String)
  | none => .ok none
  | some (.str s) => .ok (some (String.ofList s))
  | some (.token t _) => if t = ['n', 'u', 'l', 'l'] then .ok none else .error .valueError
  | some _ => .error .valueError

/-- `Flow.from_dict(data)`: `Element.from_dict`, then the validators of `flow.py:105-152`.  The result is the flow and its name. -/
def flowFromObj (sub : γ → γ → Bool) (load : String → Option γ) (lionClass : J → Option String) (dec : J → Except Exc (Item ι γ δ))
    (decP : J → Except Exc (Flow.Prog ι)) (d : Dict String J) : Except Exc (Flow ι γ δ × Option String) :=
  match readName (d.get? "name") with
  | .error e => .error e
  | .ok name =>
    match fieldPile Flow.anySub (fun _ => some ()) (fun _ => none) decP {} (d.get? "progressions") with
    | .error e => .error e
    | .ok progs =>
      match fieldPile sub load lionClass dec {} (d.get? "items") with
      | .error e => .error e
      | .ok items =>
        match Flow.finish items progs with
        | .error e => .error e
        | .ok f => .ok (f, name)

/-- `Flow.from_json(text)`, `element.py:217-222`. -/
def flowFromJson (sub : γ → γ → Bool) (load : String → Option γ) (lionClass : J → Option String) (dec : J → Except Exc (Item ι γ δ))
    (decP : J → Except Exc (Flow.Prog ι)) (text : Str) : Except Exc (Flow ι γ δ × Option String) :=
  match loads text with
  | none => .error .valueError
  | some (.obj l) => flowFromObj sub load lionClass dec decP (dictOf (fun v => v) l)
  | some _ => .error .attributeError

end Verif.ContainerText
