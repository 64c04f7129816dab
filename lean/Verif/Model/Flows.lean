import Verif.Py.Basic
import Verif.Py.Dict

/-! # Several flows that may share progressions and piles

`Flow` (`src/lionherd_core/base/flow.py:24-300`) keeps the progressions and the items pile it is given as they are, so that two flows can hold the same progression object or the
same pile object (`flow.py:95-122`).  Here progressions and piles are objects of their own, with flows that refer to them.  Simplified: an object is identified with its id, items
are ids, the pile of progressions of one flow is never the items pile of another, a text is never the text of an id, and the type constraints of piles are left out. -/

namespace Verif.Flows

/-- A flow: its items pile, its pile of progressions, and the index of names. Models `flow.py:38-51`. -/
structure F where
  items : Nat
  progs : Nat
  names : Dict String Nat := []
  deriving Repr

/-- All objects: the order of each progression, its name, the ids in each items pile and in each pile of progressions, and the flows. Serves `step` (`flow.py:38-51`). -/
structure World where
  order : Nat → List Nat
  name : Nat → Option String
  items : Nat → List Nat
  progs : Nat → List Nat
  flow : Nat → F

/-- Assignment to one place. Serves `step` (`flow.py:180-296`). -/
def upd {α : Type} (g : Nat → α) (k : Nat) (v : α) : Nat → α := fun i => if i = k then v else g i

/-- How a progression is named in a call: the instance, its id, or a text. Serves `find` (`flow.py:223-240`). -/
inductive Ref where
  | inst (p : Nat)
  | id (p : Nat)
  | text (s : String)
  deriving DecidableEq, Repr

/-- The text is the name of a progression with a non-empty name that the index knows. Serves `addProg` (`flow.py:184`). -/
def taken (f : F) (n : Option String) : Bool := n.getD "" != "" && f.names.has (n.getD "")
/-- Register a name. Serves `addProg` (`flow.py:200-202`). -/
def register (names : Dict String Nat) (n : Option String) (p : Nat) : Dict String Nat := if n.getD "" = "" then names else names.set (n.getD "") p

/-- The items of flow `i`. Serves `step` (`flow.py:46-49`). -/
def World.itemsOf (w : World) (i : Nat) : List Nat := w.items (w.flow i).items
/-- The progressions of flow `i`. Serves `step` (`flow.py:42-45`). -/
def World.progsOf (w : World) (i : Nat) : List Nat := w.progs (w.flow i).progs
/-- Replace the index of names of flow `i`. Serves `addProg` (`flow.py:200-202`). -/
def World.setNames (w : World) (i : Nat) (n : Dict String Nat) : World := { w with flow := upd w.flow i { w.flow i with names := n } }
/-- Replace the progressions in the pile of flow `i`. Serves `addProg` (`flow.py:198`). -/
def World.setProgs (w : World) (i : Nat) (l : List Nat) : World := { w with progs := upd w.progs (w.flow i).progs l }
/-- Replace the items in the pile of flow `i`. Serves `addItem` (`flow.py:259`). -/
def World.setItems (w : World) (i : Nat) (l : List Nat) : World := { w with items := upd w.items (w.flow i).items l }
/-- Append to a progression. Serves `appendAll` (`flow.py:271-274`). -/
def World.append (w : World) (p x : Nat) : World := { w with order := upd w.order p (w.order p ++ [x]) }

/-- `add_progression`, `flow.py:180-202`. -/
def addProg (w : World) (i p : Nat) : Res World Unit :=
  if taken (w.flow i) (w.name p) then (w, .error .exists_)
  else if !(w.order p).all (fun x => (w.itemsOf i).contains x) then (w, .error .notFound)
  else if (w.progsOf i).contains p then (w, .error .exists_)
  else ((w.setProgs i (w.progsOf i ++ [p])).setNames i (register (w.flow i).names (w.name p) p), .ok ())

/-- The entry of the index for a text. Serves `removeProg` (`flow.py:208-209`). -/
def indexed (f : F) : Ref → Option Nat
  | .text s => f.names.get? s
  | _ => none
/-- `_coerce_id`, for a text that is no id a ValueError. Serves `removeProg` (`flow.py:216`). -/
def idOf : Ref → Except Exc Nat
  | .inst p => .ok p
  | .id p => .ok p
  | .text _ => .error .valueError
/-- The index without the name of the progression. Serves `removeProg` (`flow.py:219-220`). -/
def unregister (names : Dict String Nat) (n : Option String) : Dict String Nat := if n.getD "" = "" then names else names.del (n.getD "")
/-- The text of a reference. Serves `removeProg` (`flow.py:208-210`). -/
def textOf : Ref → String
  | .text s => s
  | _ => ""
/-- `self.progressions.remove(uid)`, `flow.py:213, 221`. -/
def World.dropProg (w : World) (i p : Nat) : World := w.setProgs i ((w.progsOf i).filter (fun q => q != p))
/-- `remove_progression` for a name in the index, `flow.py:208-213`. -/
def removeNamed (w : World) (i : Nat) (s : String) (p : Nat) : Res World Unit :=
  if (w.progsOf i).contains p then ((w.dropProg i p).setNames i ((w.flow i).names.del s), .ok ())
  else (w.setNames i ((w.flow i).names.del s), .error .notFound)
/-- `remove_progression` for an id, `flow.py:215-221`. -/
def removeById (w : World) (i p : Nat) : Res World Unit :=
  if (w.progsOf i).contains p then ((w.dropProg i p).setNames i (unregister (w.flow i).names (w.name p)), .ok ())
  else (w, .error .notFound)
/-- `remove_progression`, `flow.py:204-221`. -/
def removeProg (w : World) (i : Nat) (r : Ref) : Res World Unit :=
  match indexed (w.flow i) r with
  | some p => removeNamed w i (textOf r) p
  | none =>
    match idOf r with
    | .error e => (w, .error e)
    | .ok p => removeById w i p

/-- The progression of the flow with that id. Serves `find` (`flow.py:230-240`). -/
def present (w : World) (i p : Nat) : Except Exc Nat := if (w.progsOf i).contains p then .ok p else .error .notFound
/-- `get_progression`, `flow.py:223-240`. -/
def find (w : World) (i : Nat) : Ref → Except Exc Nat
  | .inst p => present w i p
  | .id p => present w i p
  | .text s =>
    match (w.flow i).names.get? s with
    | some p => present w i p
    | none => .error .keyError
/-- The progression that `add_item` appends to: an instance is used as it is, `flow.py:269-274`. -/
def target (w : World) (i : Nat) : Ref → Except Exc Nat
  | .inst p => .ok p
  | r => find w i r
/-- The loop of `add_item`, `flow.py:269-274`. -/
def appendAll (w : World) (i x : Nat) : List Ref → Res World Unit
  | [] => (w, .ok ())
  | r :: rs =>
    match target w i r with
    | .error e => (w, .error e)
    | .ok p => appendAll (w.append p x) i x rs
/-- `add_item`, `flow.py:244-274`. -/
def addItem (w : World) (i x : Nat) (rs : List Ref) : Res World Unit :=
  if (w.itemsOf i).contains x then (w, .error .exists_)
  else appendAll (w.setItems i (w.itemsOf i ++ [x])) i x rs

/-- `for progression in self.progressions: if uid in progression: progression.remove(uid)`, `flow.py:290-293`; `Progression.remove` removes one occurrence
(`progression.py:73-76`). -/
def World.strip (w : World) (x : Nat) (ps : List Nat) : World := { w with order := fun p => if ps.contains p then (w.order p).erase x else w.order p }
/-- `remove_item`, `flow.py:276-296`. -/
def removeItem (w : World) (i x : Nat) : Res World Unit :=
  if (w.itemsOf i).contains x then ((w.strip x (w.progsOf i)).setItems i ((w.itemsOf i).filter (fun y => y != x)), .ok ())
  else (w.strip x (w.progsOf i), .error .notFound)

/-- A call on a flow. Serves `step` (`flow.py:180-296`). -/
inductive Op where
  | addProg (p : Nat)
  | removeProg (r : Ref)
  | addItem (x : Nat) (rs : List Ref)
  | removeItem (x : Nat)
  deriving Repr

/-- The call on flow `i`. Models `flow.py:180-296`. -/
def step (w : World) (i : Nat) : Op → Res World Unit
  | .addProg p => addProg w i p
  | .removeProg r => removeProg w i r
  | .addItem x rs => addItem w i x rs
  | .removeItem x => removeItem w i x

/-- A history of calls on flows. Built on `step` (`flow.py:180-296`). -/
def run (w : World) (h : List (Nat × Op)) : World := h.foldl (fun w c => (step w c.1 c.2).1) w

end Verif.Flows
