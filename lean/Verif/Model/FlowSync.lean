import Verif.Model.PileSync
import Verif.Model.Flow

/-!
# Model of unsynchronized methods next to synchronized ones

The methods of `Flow` (`src/lionherd_core/base/flow.py:180-296`), the neighbour queries of `Graph` (`graph.py:252-268`) and iteration over a `Pile`
(`pile.py:612-616`), cut into single reads and writes, with the locks they take.

* `Flow.add_progression`, `remove_progression` and `get_progression` hold the flow's lock (0); `add_item` and `remove_item` do not.
* `Graph.get_predecessors` and `get_successors` hold no lock of the graph.
* `Pile.__iter__` is a generator: `@synchronized` releases the lock when the generator object has been created, before the first item is read.

Locks of a flow: 0 is the flow, 1 its items, 2 its progressions.
-/

namespace Verif.FlowSync

open Verif.Sync Verif.PileSync

variable {ι γ δ : Type} [DecidableEq ι] [DecidableEq γ]

/-- `self.items`, with lock 1. Serves `addItem` (`flow.py:244-274`). -/
def itemsL : Part (Flow ι γ δ) (Pile ι γ δ) := ⟨1, fun f => f.items, fun p f => { f with items := p }⟩

/-- `self.progressions`, with lock 2. Serves `addProgression` (`flow.py:180-202`). -/
def progsL : Part (Flow ι γ δ) (Pile ι Unit (ProgData ι)) := ⟨2, fun f => f.progs, fun p f => { f with progs := p }⟩

/-- `flow.py:184-187`. -/
def nameCheck (p : Flow.Prog ι) (f : Flow ι γ δ) : Res (Flow ι γ δ) Unit :=
  if Flow.nameTaken f.names p then (f, .error .exists_) else (f, .ok ())

/-- `flow.py:190-195`; simplification: the keys are read at one moment. -/
def missingCheck (p : Flow.Prog ι) (f : Flow ι γ δ) : Res (Flow ι γ δ) Unit :=
  if Flow.missing f.items p.data.order then (f, .error .notFound) else (f, .ok ())

/-- `flow.py:201-202`. -/
def registerName (p : Flow.Prog ι) (f : Flow ι γ δ) : Res (Flow ι γ δ) Unit := ({ f with names := Flow.register f.names p }, .ok ())

/-- The body of `add_progression`, `flow.py:180-202`. -/
def addProgression (p : Flow.Prog ι) : Prog (Flow ι γ δ) (Except Exc Unit) :=
  andThen (act (nameCheck p)) (fun _ => andThen (act (missingCheck p)) (fun _ =>
    andThen (withLock 2 (addBody progsL Flow.anySub (some p))) (fun _ => act (registerName p))))

/-- `if progression_id in self._progression_names: uid = ...; del ...`, `flow.py:208-210`. -/
def takeName (n : String) (f : Flow ι γ δ) : Flow ι γ δ × Option ι :=
  match f.names.get? n with
  | some u => ({ f with names := f.names.del n }, some u)
  | none => (f, none)

/-- `_check_progression_exists(uid)`, `flow.py:166-176`. -/
def needProg (u : ι) (p : Pile ι Unit (ProgData ι)) : Except Exc (Flow.Prog ι) :=
  match p.items.get? u with
  | none => .error .notFound
  | some x => .ok x

/-- `flow.py:219-220`. -/
def dropName (p : Flow.Prog ι) (f : Flow ι γ δ) : Res (Flow ι γ δ) Unit := ({ f with names := Flow.unregister f.names p }, .ok ())

/-- `flow.py:215-221`. -/
def removeById (r : Ref ι) : Prog (Flow ι γ δ) (Except Exc (Flow.Prog ι)) :=
  match r with
  | none => .ret (.error .valueError)
  | some u =>
    andThen (withLock 2 (progsL.act (PileSync.read (needProg u)))) (fun p => andThen (act (dropName p)) (fun _ =>
      withLock 2 (removeBody progsL (some u))))

/-- `flow.py:211-213`, or the rest when the string is no name. -/
def removeNamed (parsed : Ref ι) : Option ι → Prog (Flow ι γ δ) (Except Exc (Flow.Prog ι))
  | some u => andThen (withLock 2 (progsL.act (PileSync.read (needProg u)))) (fun _ => withLock 2 (removeBody progsL (some u)))
  | none => removeById parsed

/-- The body of `remove_progression`, `flow.py:204-221`. -/
def removeProgression : Flow.FKey ι → Prog (Flow ι γ δ) (Except Exc (Flow.Prog ι))
  | .str s => (act (takeName s.str)).bind (removeNamed s.parsed)
  | .ref r => removeById r

/-- The body of `get_progression`, `flow.py:223-240`; simplification: one step, since nothing it reads is written without the flow's lock. -/
def getProg (k : Flow.FKey ι) (f : Flow ι γ δ) : Res (Flow ι γ δ) (Flow.Prog ι) := (f, Flow.getProgression f k)

/-- `prog.append(item)`, `flow.py:272-274`. -/
def appendTo (x u : ι) (f : Flow ι γ δ) : Res (Flow ι γ δ) Unit := ({ f with progs := Flow.modify f.progs u (· ++ [x]) }, .ok ())

/-- The loop of `add_item`, `flow.py:269-274`. -/
def appendAll (x : ι) : List (Flow.ProgArg ι) → Prog (Flow ι γ δ) (Except Exc Unit)
  | [] => .ret (.ok ())
  | .foreign :: as => appendAll x as
  | .member u :: as => andThen (act (appendTo x u)) (fun _ => appendAll x as)
  | .key k :: as => andThen (withLock 0 (act (getProg k))) (fun p => andThen (act (appendTo x p.id)) (fun _ => appendAll x as))

/-- What follows `self.items.add(item)` in `add_item`. Serves `addItem` (`flow.py:244-274`). -/
def addItemRest (a : Pile.Arg ι γ δ) (ps : List (Flow.ProgArg ι)) : Prog (Flow ι γ δ) (Except Exc Unit) :=
  match a with
  | none => .ret (.ok ())
  | some x => appendAll x.id ps

/-- `add_item`, `flow.py:244-274`: no lock of the flow. -/
def addItem (sub : γ → γ → Bool) (a : Pile.Arg ι γ δ) (ps : List (Flow.ProgArg ι)) : Prog (Flow ι γ δ) (Except Exc Unit) :=
  andThen (withLock 1 (addBody itemsL sub a)) (fun _ => addItemRest a ps)

/-- The id at position `k` of the live list of progressions: `for progression in self.progressions` is a generator over this list. Serves `removeItem` (`flow.py:276-296`). -/
def progAt (k : Nat) (f : Flow ι γ δ) : Flow ι γ δ × Option ι := (f, f.progs.order[k]?)

/-- The generator looks the progression up, `pile.py:616`, for `flow.py:291`. -/
def yieldProg (u : ι) (f : Flow ι γ δ) : Res (Flow ι γ δ) Unit :=
  match f.progs.items.get? u with
  | none => (f, .error .keyError)
  | some _ => (f, .ok ())

/-- `uid in progression`, `flow.py:292`; simplification: a progression that has left the flow meanwhile counts as not listing the item (what happens to it is
no longer visible in the flow). -/
def listedIn (uid u : ι) (f : Flow ι γ δ) : Res (Flow ι γ δ) Bool :=
  match f.progs.items.get? u with
  | none => (f, .ok false)
  | some p => (f, .ok (decide (uid ∈ p.data.order)))

/-- `progression.remove(uid)`, `flow.py:293`; raises if another thread has taken it out since the check. -/
def removeFrom (uid u : ι) (f : Flow ι γ δ) : Res (Flow ι γ δ) Unit :=
  match f.progs.items.get? u with
  | none => (f, .ok ())
  | some p => if uid ∈ p.data.order then ({ f with progs := Flow.modify f.progs u (·.erase uid) }, .ok ()) else (f, .error .notFound)

/-- The `if` of `flow.py:292`. -/
def dropIf (uid u : ι) : Bool → Prog (Flow ι γ δ) (Except Exc Unit)
  | true => act (removeFrom uid u)
  | false => .ret (.ok ())

/-- One turn of the loop of `remove_item`, `flow.py:291-293`, and what comes `next`; the loop ends when the list is exhausted. -/
def dropTurn (uid : ι) (next : Prog (Flow ι γ δ) (Except Exc Unit)) : Option ι → Prog (Flow ι γ δ) (Except Exc Unit)
  | none => .ret (.ok ())
  | some u => andThen (act (yieldProg u)) (fun _ => andThen (act (listedIn uid u)) (fun b => andThen (dropIf uid u b) (fun _ => next)))

/-- The loop of `remove_item`, `flow.py:291-293`, from position `k`.  Other threads may add progressions for ever; `fuel` bounds the number of turns, and
the end of the fuel is not an outcome of the code: a schedule of fewer steps than `fuel` does not reach it. -/
def dropLoop (uid : ι) : Nat → Nat → Prog (Flow ι γ δ) (Except Exc Unit)
  | 0, _ => .ret (.error .recursionError)
  | fuel + 1, k => (act (progAt k)).bind (dropTurn uid (dropLoop uid fuel (k + 1)))

/-- `remove_item`, `flow.py:276-296`: no lock of the flow. -/
def removeItem (fuel : Nat) (r : Ref ι) : Prog (Flow ι γ δ) (Except Exc (Item ι γ δ)) :=
  match r with
  | none => .ret (.error .valueError)
  | some uid => andThen (dropLoop uid fuel 0) (fun _ => withLock 1 (removeBody itemsL (some uid)))

/-- No value. Part of the model of `src/lionherd_core/base/flow.py:180-296`. -/
def unitOut (_ : Unit) : Flow.Out ι γ δ := .unit

/-- A call as a thread makes it. Built on `addProgression` (`flow.py:180-202`). -/
def call (sub : γ → γ → Bool) (fuel : Nat) : Flow.Op ι γ δ → Prog (Flow ι γ δ) (Except Exc (Flow.Out ι γ δ))
  | .addProgression p => withLock 0 (mapOk unitOut (addProgression p))
  | .removeProgression k => withLock 0 (mapOk .prog (removeProgression k))
  | .addItem a ps => mapOk unitOut (addItem sub a ps)
  | .removeItem r => mapOk .item (removeItem fuel r)

/-- The synchronized methods of `Flow`. Part of the model of `src/lionherd_core/base/flow.py:180-296`. -/
inductive Call (ι : Type) where
  | add (p : Flow.Prog ι)
  | remove (k : Flow.FKey ι)
  | get (k : Flow.FKey ι)

/-- The body of a synchronized method. Built on `addProgression` (`flow.py:180-202`). -/
def body : Call ι → Prog (Flow ι γ δ) (Except Exc (Flow.Out ι γ δ))
  | .add p => mapOk unitOut (addProgression p)
  | .remove k => mapOk .prog (removeProgression k)
  | .get k => mapOk .prog (act (getProg k))

end Verif.FlowSync

namespace Verif.GraphSync

open Verif.Sync Verif.PileSync

variable {ι ν ε : Type} [DecidableEq ι]

/-- `iter(self._in_edges.get(nid, set()))`: the elements of the set in the order in which they will come, or nothing for the fresh set of the default.
Serves `getPredecessors` (`graph.py:252-259`). -/
def openInn (o : SetOrder ι) (n : ι) (g : Graph ι ν ε) : Res (Graph ι ν ε) (Option (List ι)) :=
  match g.inn.get? n with
  | none => (g, .ok none)
  | some l => (g, .ok (some (o.inn n l)))

/-- `next()` of the iterator over the live set: `RuntimeError: Set changed size during iteration` if the set does not have the size it had at the start.
Simplifications: a set that has changed but has its old size again is walked as it was at the start, and a node that has been removed and added again has
its new set walked.  Serves `headNodes` (`graph.py:256-258`). -/
def nextInn (n : ι) (size : Nat) (g : Graph ι ν ε) : Res (Graph ι ν ε) Unit :=
  if (Graph.adj g.inn n).length = size then (g, .ok ()) else (g, .error .runtimeError)

/-- `[x] + rest`. Serves `headNodes` (`graph.py:256-258`). -/
def consOk {β : Type} (x : β) (l : List β) : Prog (Graph ι ν ε) (Except Exc (List β)) := .ret (.ok (x :: l))

/-- The end of the loop of `get_predecessors`, `graph.py:259`. -/
def emptyOk {β : Type} (_ : Unit) : Prog (Graph ι ν ε) (Except Exc (List β)) := .ret (.ok [])

/-- The loop of `get_predecessors`, `graph.py:256-258`. -/
def headNodes (n : ι) (size : Nat) : List ι → Prog (Graph ι ν ε) (Except Exc (List (Item ι Unit ν)))
  | [] => andThen (act (nextInn n size)) emptyOk
  | e :: es =>
    andThen (act (nextInn n size)) (fun _ =>
    andThen (withLock 2 (edgesL.act (PileSync.read (need e)))) (fun ed =>
    andThen (withLock 1 (nodesL.act (PileSync.read (need ed.data.head)))) (fun x =>
    andThen (headNodes n size es) (consOk x))))

/-- The loop over the set that was found, `graph.py:255-258`. -/
def walkInn (n : ι) : Option (List ι) → Prog (Graph ι ν ε) (Except Exc (List (Item ι Unit ν)))
  | none => .ret (.ok [])
  | some es => headNodes n es.length es

/-- `get_predecessors`, `graph.py:252-259`: no lock of the graph. -/
def getPredecessors (o : SetOrder ι) (r : Ref ι) : Prog (Graph ι ν ε) (Except Exc (List (Item ι Unit ν))) :=
  match r with
  | none => .ret (.error .valueError)
  | some n => andThen (act (openInn o n)) (walkInn n)

/-- What a thread gets from a call: the value of a mutator or the list of a query. Part of the model of `src/lionherd_core/base/flow.py:180-296`. -/
inductive Res2 (ι ν ε : Type) where
  | out (x : Graph.Out ι ν ε)
  | list (l : List (Item ι Unit ν))

/-- A mutator or a query. Part of the model of `src/lionherd_core/base/flow.py:180-296`. -/
inductive Call2 (ι ν ε : Type) where
  | op (c : Graph.Op ι ν ε)
  | predecessors (o : SetOrder ι) (r : Ref ι)

/-- A call as a thread makes it. Built on `getPredecessors` (`graph.py:252-259`). -/
def call2 : Call2 ι ν ε → Prog (Graph ι ν ε) (Except Exc (Res2 ι ν ε))
  | .op c => withLock 0 (mapOk .out (body c))
  | .predecessors o r => mapOk .list (getPredecessors o r)

end Verif.GraphSync

namespace Verif.PileSync

open Verif.Sync

variable {ι γ δ : Type} [DecidableEq ι] [DecidableEq γ]

/-- The id at a position of the live order, if the list still reaches that far. Serves `iterFrom` (`pile.py:615-616`). -/
def idAtPos (k : Nat) (p : Pile ι γ δ) : Pile ι γ δ × Option ι := (p, p.order[k]?)

/-- `yield self._items[uid]`, `pile.py:616`. -/
def yieldItem (u : ι) (p : Pile ι γ δ) : Res (Pile ι γ δ) (Item ι γ δ) := (p, itemOf u p)

/-- What the loop does with the id it has got: stop, or look it up and go on. Serves `iterFrom` (`pile.py:615-616`). -/
def iterBody (next : Item ι γ δ → Prog (Pile ι γ δ) (Except Exc (List (Item ι γ δ)))) (acc : List (Item ι γ δ)) :
    Option ι → Prog (Pile ι γ δ) (Except Exc (List (Item ι γ δ)))
  | none => .ret (.ok acc)
  | some u => andThen (act (yieldItem u)) next

/-- `for uid in self._progression: yield self._items[uid]`, `pile.py:615-616`, from position `k`, for the first `fuel` items (others may append
for ever): the list iterator looks at the live list.  After `fuel` items the consumer stops. -/
def iterFrom : Nat → Nat → List (Item ι γ δ) → Prog (Pile ι γ δ) (Except Exc (List (Item ι γ δ)))
  | 0, _, acc => .ret (.ok acc)
  | fuel + 1, k, acc => (act (idAtPos k)).bind (iterBody (fun x => iterFrom fuel (k + 1) (acc ++ [x])) acc)

/-- A call as a thread makes it: a synchronized method, or `list(pile)` (up to `fuel` items).
Part of the model of `src/lionherd_core/base/flow.py:180-296`. -/
inductive Call2 (ι γ δ : Type) where
  | sync (c : Call ι γ δ)
  | list (fuel : Nat)

/-- The program of a call. Built on `iterFrom` (`pile.py:615-616`). -/
def call2 (sub : γ → γ → Bool) : Call2 ι γ δ → Prog (Pile ι γ δ) (Except Exc (Pile.Out ι γ δ))
  | .sync c => withLock 0 (body (whole 0) sub c)
  | .list fuel => mapOk .list (iterFrom fuel 0 [])

end Verif.PileSync
