import Verif.Model.FlowSerial
import Verif.Model.Graph

/-!
# Model of `Pile.to_dict` / `from_dict` and `Graph.to_dict` / `from_dict` with modes and metadata keys

`src/lionherd_core/base/pile.py:152-208, 669-761` and `src/lionherd_core/base/graph.py:425-516`, with `mode`, `meta_key` and
`item_meta_key`.  The contents are those of `Verif.Model.Pile` and `Verif.Model.Graph`; here the key under which each dict keeps its
metadata is added.  Simplified: a metadata key is assumed not to be the name of another field (`id`, `items`, ...).
-/

namespace Verif.Container

open Verif.Flow (KPile metaName metaFound)

variable {ι γ δ ν ε : Type} [DecidableEq ι] [DecidableEq γ]

/-- A serialised item together with the key its metadata is stored under. Serves `encK` (`pile.py:188-206`). -/
structure KItem (D : Type) where
  metaKey : String
  body : D
deriving DecidableEq

/-- `i.to_dict(mode="python" | "json", meta_key=item_meta_key)`, `pile.py:188-206`: items are never written in mode "db". -/
def encK {D : Type} (enc : Item ι γ δ → D) (ikey : Option String) (x : Item ι γ δ) : KItem D :=
  ⟨metaName .json ikey, enc x⟩

/-- `item_dict.get("metadata", {}).get("lion_class")`, `pile.py:719`. -/
def lionClassK {D : Type} (lionClass : D → Option String) (d : KItem D) : Option String :=
  if d.metaKey = "metadata" then lionClass d.body else none

/-- `Element.from_dict(item_dict, meta_key=item_meta_key)`, `pile.py:757-758`, `element.py:160-215`: metadata under a key that is not
found is an extra field. -/
def decK {D : Type} (dec : D → Except Exc (Item ι γ δ)) (ikey : Option String) (d : KItem D) : Except Exc (Item ι γ δ) :=
  if metaFound ikey d.metaKey then dec d.body else .error .valueError

/-- `actual_meta_key` of `Pile.to_dict`, `pile.py:178-180`; `none` selects the default of the mode, and so does "". -/
def nameKey (mode : Element.Mode) (key : Option String) : String :=
  match Pile.truthyName key with
  | some k => k
  | none => metaName mode none

/-- The name is only written if the metadata is stored under `actual_meta_key`, `pile.py:182-184`. -/
def named (mode : Element.Mode) (key : Option String) (p : Pile ι γ δ) : Pile ι γ δ :=
  if nameKey mode key = metaName mode key then p else { p with pname := none }

/-- `Pile.to_dict(mode, meta_key=key, item_meta_key=ikey)`, `pile.py:152-208`; `metaProg` is a value that the pile's metadata already
holds under `progression_name`. -/
def pileToDict {D : Type} (clsName : γ → String) (enc : Item ι γ δ → D) (metaProg : Option String) (mode : Element.Mode)
    (key ikey : Option String) (p : Pile ι γ δ) : Except Exc (KPile (KItem D)) :=
  match Pile.toDict clsName (encK enc ikey) metaProg (named mode key p) with
  | .error e => .error e
  | .ok b => .ok ⟨metaName mode key, b⟩

/-- Whether the constructor accepts the data: `if meta_key and meta_key in data: data["metadata"] = data.pop(meta_key)`,
`pile.py:697-698`, `graph.py:496-497`; metadata left under another key is an extra field, which is forbidden. -/
def readable (key : Option String) (metaKey : String) : Bool := decide (metaKey = "metadata") || decide (key = some metaKey)

/-- What `Pile.from_dict` raises when the constructor does not accept the data: the item types are checked first, `pile.py:704-747`. -/
def refuse {D : Type} (sub : γ → γ → Bool) (load : String → Option γ) (lionClass : D → Option String) (d : Pile.PileDict D) : Exc :=
  match Pile.loadTypes load (Pile.itemTypeData d.itemType) with
  | .error e => e
  | .ok types => if Pile.precheckAll sub load lionClass types d.strict d.items = false then .typeError else .valueError

/-- `Pile.from_dict(data, meta_key=key, item_meta_key=ikey)`, `pile.py:669-761`. -/
def pileFromDict {D : Type} (sub : γ → γ → Bool) (load : String → Option γ) (lionClass : D → Option String)
    (dec : D → Except Exc (Item ι γ δ)) (key ikey : Option String) (d : KPile (KItem D)) : Except Exc (Pile ι γ δ) :=
  if readable key d.metaKey then Pile.fromDict sub load (lionClassK lionClass) (decK dec ikey) d.body
  else .error (refuse sub load (lionClassK lionClass) d.body)

/-- The dict produced by `Graph.to_dict`, `graph.py:425-472`. -/
structure GraphK (D : Type) where
  metaKey : String
  nodes : KPile (KItem D)
  edges : KPile (KItem D)

/-- `Graph.to_dict(mode, meta_key=key, item_meta_key=ikey)`, `graph.py:425-472`: the piles get `mode` and `item_meta_key`, not
`meta_key`. -/
def graphToDict {D : Type} (clsN clsE : Unit → String) (encN : Item ι Unit ν → D) (encE : Item ι Unit (EdgeData ι ε) → D)
    (mode : Element.Mode) (key ikey : Option String) (g : Graph ι ν ε) : Except Exc (GraphK D) :=
  match pileToDict clsN encN none mode none ikey g.nodes with
  | .error e => .error e
  | .ok n =>
    match pileToDict clsE encE none mode none ikey g.edges with
    | .error e => .error e
    | .ok es => .ok ⟨metaName mode key, n, es⟩

/-- `Graph.from_dict(data, meta_key=key, item_meta_key=ikey)`, `graph.py:474-516`: both piles are read with
`meta_key=item_meta_key`. -/
def graphFromDict {D : Type} (load : String → Option Unit) (lionClass : D → Option String)
    (decN : D → Except Exc (Item ι Unit ν)) (decE : D → Except Exc (Item ι Unit (EdgeData ι ε)))
    (key ikey : Option String) (d : GraphK D) : Except Exc (Graph ι ν ε) :=
  match pileFromDict Graph.anySub load lionClass decN ikey ikey d.nodes with
  | .error e => .error e
  | .ok n =>
    match pileFromDict Graph.anySub load lionClass decE ikey ikey d.edges with
    | .error e => .error e
    | .ok es => if readable key d.metaKey then Graph.mk' n es else .error .valueError

end Verif.Container
