import Verif.Model.Flow
import Verif.Model.Element

/-!
# Model of serialisation of `Flow` and of the metadata of a `Pile`

`src/lionherd_core/base/flow.py:103-152, 302-338` and `src/lionherd_core/base/pile.py:152-208, 671-761`.
The flow's own id, creation time and metadata are handled by `Element.to_dict` / `Element.from_dict` (`Verif.Model.Element`);
here only the key under which metadata is stored matters.
-/

namespace Verif.Flow

variable {ι γ δ : Type} [DecidableEq ι] [DecidableEq γ]

/-- The key under which `Element.to_dict` (and `Pile.to_dict`) stores the metadata, `element.py:123-124, 155-156`,
`pile.py:173-175`: only `None` selects the default of mode "db", and an empty key renames nothing. -/
def metaName : Element.Mode → Option String → String
  | .db, none => "node_metadata"
  | _, none => "metadata"
  | _, some k => if k = "" then "metadata" else k

/-- A serialised pile together with the key its metadata is stored under. Serves `FlowDict` (`flow.py:302-338`). -/
structure KPile (D : Type) where
  metaKey : String
  body : Pile.PileDict D

/-- A serialised flow, `flow.py:302-338`: the key of its metadata, its name and the two serialised piles. -/
structure FlowDict (D P : Type) where
  metaKey : String
  name : Option String
  items : KPile D
  progs : KPile P

/-- What the items' and progressions' own `to_dict` / `from_dict` do, and the class names. Serves `toDict` (`flow.py:302-338`). -/
structure Codec (ι γ δ D P : Type) where
  clsName : γ → String
  load : String → Option γ
  lionClass : D → Option String
  enc : Item ι γ δ → D
  dec : D → Except Exc (Item ι γ δ)
  encP : Prog ι → P
  decP : P → Except Exc (Prog ι)

/-- `Flow.to_dict`, `flow.py:302-338`: `mode` and `meta_key` are passed on to both piles. -/
def toDict {D P : Type} (C : Codec ι γ δ D P) (mode : Element.Mode) (key : Option String) (name : Option String)
    (f : Flow ι γ δ) : Except Exc (FlowDict D P) :=
  match Pile.toDict C.clsName C.enc none f.items with
  | .error e => .error e
  | .ok di =>
    match Pile.toDict (fun _ => "") C.encP none f.progs with
    | .error e => .error e
    | .ok dp => .ok ⟨metaName mode key, name, ⟨metaName mode key, di⟩, ⟨metaName mode key, dp⟩⟩

/-- `Pile.from_dict(v)` as `_validate_piles` calls it, without `meta_key` (`flow.py:110-112`, `pile.py:671-761`): metadata under
any key other than "metadata" is an extra field, which the model configuration forbids (`element.py:45`); the validation error
is a `ValueError`.  Simplified: keys that are names of other fields are not considered. -/
def pileFrom {D κ ε : Type} [DecidableEq κ] (sub : κ → κ → Bool) (load : String → Option κ) (lionClass : D → Option String)
    (dec : D → Except Exc (Item ι κ ε)) (d : KPile D) : Except Exc (Pile ι κ ε) :=
  if d.metaKey = "metadata" then Pile.fromDict sub load lionClass dec d.body else .error .valueError

/-- `_validate_referential_integrity` and `model_post_init`, `flow.py:123-152`. -/
def finish (items : Pile ι γ δ) (progs : Pile ι Unit (ProgData ι)) : Except Exc (Flow ι γ δ) :=
  match Pile.iter progs with
  | .error e => .error e
  | .ok l =>
    if l.any (fun p => missing items p.data.order) then .error .notFound
    else .ok { items := items, progs := progs, names := buildNames l }

/-- Whether `Element.from_dict(data, meta_key)` finds the metadata, `element.py:173-180`; otherwise its key is an extra field. -/
def metaFound (key : Option String) (metaKey : String) : Bool :=
  decide (metaKey = "metadata") || decide (metaKey = "node_metadata") || decide (key = some metaKey)

/-- `Flow.from_dict(data, meta_key)`: `Element.from_dict` (`element.py:158-209`), then field validation and the model validators
(`flow.py:103-152`).  The result is the flow and its name. -/
def fromDict {D P : Type} (sub : γ → γ → Bool) (C : Codec ι γ δ D P) (key : Option String) (d : FlowDict D P) :
    Except Exc (Flow ι γ δ × Option String) :=
  if metaFound key d.metaKey = false then .error .valueError
  else
    match pileFrom sub C.load C.lionClass C.dec d.items with
    | .error e => .error e
    | .ok items =>
      match pileFrom anySub (fun _ => some ()) (fun _ => none) C.decP d.progs with
      | .error e => .error e
      | .ok progs =>
        match finish items progs with
        | .error e => .error e
        | .ok f => .ok (f, d.name)

end Verif.Flow

namespace Verif.Pile

/-! ### Metadata of a pile -/

/-- Metadata written by `Pile.to_dict`, `element.py:99-101` (class tag) and `pile.py:182-184` (progression name); `str` makes a
metadata value of a string. -/
def metaOut {V : Type} (str : String → V) (clsName : String) (pname : Option String) (m : Dict String V) : Dict String V :=
  match truthyName pname with
  | some n => (m.set "lion_class" (str clsName)).set "progression_name" (str n)
  | none => m.set "lion_class" (str clsName)

/-- Metadata of the pile built by `Pile.from_dict(data)`, `pile.py:743-755`: whatever the data holds. -/
def metaIn {V : Type} (m : Dict String V) : Dict String V := m

/-- Metadata of the pile built by `Element.from_dict(data)`, `element.py:182-190, 208`: the class tag is removed first. -/
def metaInElement {V : Type} (m : Dict String V) : Dict String V := metaIn (m.del "lion_class")

end Verif.Pile
