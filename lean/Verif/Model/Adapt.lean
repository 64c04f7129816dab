import Verif.Model.ContainerKeys

/-!
# Model of `adapt_to` and `adapt_from` of `Node`, `Pile` and `Graph`

`src/lionherd_core/base/node.py:300-326`, `pile.py:775-829`, `graph.py:530-580`.  The methods choose the arguments that pydapter's dispatcher gets; the
dispatcher calls `to_dict(**adapt_kw)` and hands the dict to the adapter, and `from_dict(data, **adapt_kw)` on what the adapter gives back (behaviour of
the library, as the capturing adapter of `tests/base/test_adapter_defaults.py:20-77` shows).  The asynchronous versions pass the same arguments.  Left out:
`many=True`, other `adapt_meth`.
-/

namespace Verif.Adapt

open Verif.Flow (KPile)
open Verif.Container

variable {ι γ δ ν ε α φ : Type} [DecidableEq ι] [DecidableEq γ]

/-- An adapter between dicts `D` and a foreign format `O`. Serves `nodeAdaptTo` (`node.py:300-304`). -/
structure Adapter (D O : Type) where
  write : D → O
  read : O → Except Exc D

/-- The arguments in `adapt_kw` for `to_dict`. Serves `outKw` (`node.py:303`). -/
structure OutKw where
  mode : Option Element.Mode := none
  metaKey : Option String := none
  itemKey : Option String := none

/-- `kwargs.setdefault("adapt_kw", {"mode": "db"})`, `node.py:303`, `pile.py:786`, `graph.py:539`. -/
def outKw : Option OutKw → OutKw
  | some k => k
  | none => { mode := some .db }

/-- The `mode` argument of `to_dict`, "python" by default. Serves `nodeAdaptTo` (`node.py:300-304`). -/
def OutKw.modeArg (k : OutKw) : Element.Mode := k.mode.getD .python

/-- The arguments in `adapt_kw` for `from_dict`; there is no default. Serves `nodeAdaptFrom` (`node.py:306-310`). -/
structure InKw where
  metaKey : Option String := none
  itemKey : Option String := none

/-- `Node.adapt_to`, `node.py:300-304` (`item_meta_key` is not an argument of a node's `to_dict`). -/
def nodeAdaptTo {O : Type} (A : Adapter (Element.Data ι α) O) (W : Element.World ι γ α φ) (kw : Option OutKw) (x : Element.Elem ι γ α φ) : Except Exc O :=
  match Element.toDict W x (outKw kw).modeArg none (outKw kw).metaKey with
  | .error e => .error e
  | .ok d => .ok (A.write d)

/-- `Node.adapt_from`, `node.py:306-310`. -/
def nodeAdaptFrom {O : Type} (A : Adapter (Element.Data ι α) O) (W : Element.World ι γ α φ) (R : Element.Registry γ) (fresh : Element.Fresh ι) (B : γ)
    (kw : InKw) (o : O) : Except Exc (Element.Elem ι γ α φ) :=
  match A.read o with
  | .error e => .error e
  | .ok d => Element.fromDict W R fresh B kw.metaKey d

/-- `Pile.adapt_to`, `pile.py:775-787`. -/
def pileAdaptTo {D O : Type} (A : Adapter (KPile (KItem D)) O) (clsName : γ → String) (enc : Item ι γ δ → D) (kw : Option OutKw) (p : Pile ι γ δ) :
    Except Exc O :=
  match pileToDict clsName enc none (outKw kw).modeArg (outKw kw).metaKey (outKw kw).itemKey p with
  | .error e => .error e
  | .ok d => .ok (A.write d)

/-- `Pile.adapt_from`, `pile.py:789-802`. -/
def pileAdaptFrom {D O : Type} (A : Adapter (KPile (KItem D)) O) (sub : γ → γ → Bool) (load : String → Option γ) (lionClass : D → Option String)
    (dec : D → Except Exc (Item ι γ δ)) (kw : InKw) (o : O) : Except Exc (Pile ι γ δ) :=
  match A.read o with
  | .error e => .error e
  | .ok d => pileFromDict sub load lionClass dec kw.metaKey kw.itemKey d

/-- `Graph.adapt_to`, `graph.py:530-540`. -/
def graphAdaptTo {D O : Type} (A : Adapter (GraphK D) O) (clsN clsE : Unit → String) (encN : Item ι Unit ν → D) (encE : Item ι Unit (EdgeData ι ε) → D)
    (kw : Option OutKw) (g : Graph ι ν ε) : Except Exc O :=
  match graphToDict clsN clsE encN encE (outKw kw).modeArg (outKw kw).metaKey (outKw kw).itemKey g with
  | .error e => .error e
  | .ok d => .ok (A.write d)

/-- `Graph.adapt_from`, `graph.py:542-553`. -/
def graphAdaptFrom {D O : Type} (A : Adapter (GraphK D) O) (load : String → Option Unit) (lionClass : D → Option String)
    (decN : D → Except Exc (Item ι Unit ν)) (decE : D → Except Exc (Item ι Unit (EdgeData ι ε))) (kw : InKw) (o : O) : Except Exc (Graph ι ν ε) :=
  match A.read o with
  | .error e => .error e
  | .ok d => graphFromDict load lionClass decN decE kw.metaKey kw.itemKey d

end Verif.Adapt
