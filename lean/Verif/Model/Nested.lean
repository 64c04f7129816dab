import Verif.Model.ContainerKeys

/-!
# Model of serialisation of piles inside piles

`src/lionherd_core/base/pile.py:152-208, 669-761` and `src/lionherd_core/base/element.py:160-215`.  A pile is an element, so it can be an
item of another pile, to any depth.  `Body n` are the contents of an element that nests piles at most `n` deep; `α` stands for everything
that an element without items carries.  Simplified: a pile's own creation time and metadata (`Verif.Model.Element`) are left out, and an
item's metadata key is assumed not to be the name of another field.
-/

namespace Verif.Nested

open Verif.Flow (metaName metaFound)

variable {ι γ α D : Type} [DecidableEq ι] [DecidableEq γ]

/-- The contents of an element: plain data, or the private state of a pile of such elements. Serves `write` (`element.py:108-158`). -/
def Body (ι γ α : Type) : Nat → Type
  | 0 => α
  | n + 1 => α ⊕ Pile ι γ (Body ι γ α n)

/-- The dict of an element: the key its metadata is stored under, its id, its `lion_class` and the rest. Serves `write` (`element.py:108-158`). -/
structure Written (ι B : Type) where
  metaKey : String
  id : ι
  cls : String
  body : B

/-- The rest of the dict of an element: of plain data, or of a pile. Serves `write` (`element.py:108-158`). -/
def WBody (ι α : Type) : Nat → Type
  | 0 => α
  | n + 1 => α ⊕ Pile.PileDict (Written ι (WBody ι α n))

/-- `[i.to_dict(...) for i in self]`, `pile.py:188-206`: the first item that raises ends it. -/
def writeAll {β : Type} (f : β → Except Exc D) : List β → Except Exc (List D)
  | [] => .ok []
  | x :: xs =>
    match f x with
    | .error e => .error e
    | .ok d =>
      match writeAll f xs with
      | .error e => .error e
      | .ok ds => .ok (d :: ds)

/-- The fields that `Pile.to_dict` writes besides those of an element, `pile.py:144-149, 182-208`. -/
def writePile {δ : Type} (clsName : γ → String) (f : Item ι γ δ → Except Exc D) (p : Pile ι γ δ) : Except Exc (Pile.PileDict D) :=
  match Pile.iter p with
  | .error e => .error e
  | .ok l =>
    match writeAll f l with
    | .error e => .error e
    | .ok ds => .ok {
        itemType := p.itemType.map (fun ts => ts.map clsName)
        strict := p.strict
        progressionName := Pile.truthyName p.pname
        items := ds }

/-- `to_dict(mode="python" | "json", meta_key=key)` of an item, `element.py:108-158`, `pile.py:152-208`: a nested pile gets no
`item_meta_key`, so its items are written with the default key. -/
def write (clsName : γ → String) : (n : Nat) → Option String → Item ι γ (Body ι γ α n) → Except Exc (Written ι (WBody ι α n))
  | 0, key, x => .ok ⟨metaName .json key, x.id, clsName x.cls, x.data⟩
  | n + 1, key, x =>
    match x.data with
    | .inl a => .ok ⟨metaName .json key, x.id, clsName x.cls, .inl a⟩
    | .inr p =>
      match writePile clsName (write clsName n none) p with
      | .error e => .error e
      | .ok d => .ok ⟨metaName .json key, x.id, clsName x.cls, .inr d⟩

/-- `item_dict.get("metadata", {}).get("lion_class")`, `pile.py:719`. -/
def lionClass {B : Type} (w : Written ι B) : Option String := if w.metaKey = "metadata" then some w.cls else none

/-- The class that `Element.from_dict(data, meta_key=key)` chooses, `element.py:172-203`: metadata under a key that is not found is an
extra field (a validation error); a class that cannot be loaded is a `ValueError`. -/
def readClass {B : Type} (load : String → Option γ) (key : Option String) (w : Written ι B) : Except Exc γ :=
  if metaFound key w.metaKey then
    match load w.cls with
    | some c => .ok c
    | none => .error .valueError
  else .error .valueError

/-- `Element.from_dict(item_dict, meta_key=key)`, `element.py:160-215`: for a pile it delegates to `Pile.from_dict(data)` (`element.py:213`),
which reads its items without a key (`pile.py:757-759`). -/
def read (sub : γ → γ → Bool) (load : String → Option γ) : (n : Nat) → Option String → Written ι (WBody ι α n) →
    Except Exc (Item ι γ (Body ι γ α n))
  | 0, key, w =>
    match readClass load key w with
    | .error e => .error e
    | .ok c => .ok ⟨w.id, c, w.body⟩
  | n + 1, key, w =>
    match readClass load key w with
    | .error e => .error e
    | .ok c =>
      match w.body with
      | .inl a => .ok ⟨w.id, c, .inl a⟩
      | .inr d =>
        match Pile.fromDict sub load lionClass (read sub load n none) d with
        | .error e => .error e
        | .ok p => .ok ⟨w.id, c, .inr p⟩

/-- `Pile.to_dict(mode, meta_key=key, item_meta_key=ikey)`, `pile.py:152-208`, of a pile whose items nest `n` deep. -/
def pileToDict (clsName : γ → String) (n : Nat) (mode : Element.Mode) (key ikey : Option String) (p : Pile ι γ (Body ι γ α n)) :
    Except Exc (Flow.KPile (Written ι (WBody ι α n))) :=
  match writePile clsName (write clsName n ikey) (Container.named mode key p) with
  | .error e => .error e
  | .ok b => .ok ⟨metaName mode key, b⟩

/-- `Pile.from_dict(data, meta_key=key, item_meta_key=ikey)`, `pile.py:669-761`. -/
def pileFromDict (sub : γ → γ → Bool) (load : String → Option γ) (n : Nat) (key ikey : Option String)
    (d : Flow.KPile (Written ι (WBody ι α n))) : Except Exc (Pile ι γ (Body ι γ α n)) :=
  if Container.readable key d.metaKey then Pile.fromDict sub load lionClass (read sub load n ikey) d.body
  else .error (Container.refuse sub load lionClass d.body)

end Verif.Nested
