import Verif.Model.AsyncCall
import Verif.Model.ToList

/-!
# `alcall` and `bcall` of `src/lionherd_core/ln/_async_call.py`, with input and output normalisation

`Verif/Model/AsyncCall.lean` has the task group for a given list of items; here are the check of `func`, the normalisation of the input, the semaphore,
the normalisation of the result list, and the generator of `bcall`.  Delays are left to the scheduler (`Verif/Model/AlcallTime.lean` has them).  `to_list` is `Verif/Model/ToList.lean`.
-/

namespace Verif.Alcall

open Verif.Fanout Verif.AsyncCall Verif.ToList

variable {α : Type}

/-- The argument `func`: a callable; a non-callable iterable, for each member whether it is callable; something else.
Serves `funcOk` (`_async_call.py:106-118`). -/
inductive Func where
  | callable
  | iterable (callables : List Bool)
  | other
  deriving DecidableEq, Repr

/-- The validation of `func`, `_async_call.py:106-118`. -/
def funcOk : Func → Bool
  | .callable => true
  | .iterable cs => cs == [true]
  | .other => false

/-- The remaining parameters.  `inp` and `out` are the `input_*` and `output_*` flags (`useValues` is not among them and stays off).
Serves `prepare` (`_async_call.py:106-148`). -/
structure Params where
  inp : Opts := {}
  out : Opts := {}
  retryAttempts : Int := 0
  default : Option Nat := none
  maxConcurrent : Option Int := none
  returnExc : Bool := false

/-- What the values and exceptions in outcomes are as Python objects. Serves `finish` (`_async_call.py:218-241`). -/
structure Objects (α : Type) where
  value : Nat → Val α
  exc : Outcome → Val α

/-- `list(input_)` of an iterable that is not a model, else `[input_]`, `_async_call.py:129-142`. -/
def plainInput (keys : List (Val α)) : Input α → List (Val α)
  | .na => [.na]
  | .seq _ l => items l
  | .enumClass ms _ => ms
  | .text _ cs => cs
  | .mapping _ _ => keys
  | .model w _ => [w]
  | .single v => [v]

/-- The items, `_async_call.py:120-142`. -/
def inputItems (H : Hashing α) (inp : Opts) (keys : List (Val α)) (x : Input α) : Except Exc (List (Val α)) :=
  if inp.flatten || inp.dropna then toList H { inp with useValues := false } x else .ok (plainInput keys x)

/-- `Semaphore(max_concurrent) if max_concurrent else None`, `_async_call.py:148`, and `Semaphore.__init__`, `libs/concurrency/_primitives.py:54-57`. -/
def semaphore : Option Int → Except Exc (Option Nat)
  | none => .ok none
  | some k => if k < 0 then .error .valueError else .ok (some k.toNat)

/-- Everything before the task group, `_async_call.py:106-148`: the items and the limit. -/
def prepare (H : Hashing α) (p : Params) (fn : Func) (keys : List (Val α)) (x : Input α) : Except Exc (List (Val α) × Option Nat) :=
  if funcOk fn then
    match inputItems H p.inp keys x with
    | .error e => .error e
    | .ok l =>
      match semaphore p.maxConcurrent with
      | .error e => .error e
      | .ok k => .ok (l, k)
  else .error .valueError

/-- The task group over the items; `script i v k`: how attempt `k` on item `v` at position `i` ends. Serves `alcall` (`_async_call.py:41-241`). -/
def cfg (p : Params) (script : Nat → Val α → Nat → Outcome) (l : List (Val α)) (limit : Option Nat) : Cfg :=
  alcallCfg { retryAttempts := p.retryAttempts, default := p.default, maxConcurrent := limit, returnExc := p.returnExc } l.length
    (fun i => script i (l.getD i .na))

/-- The object in a slot of the result list; a slot never written holds `None`. Serves `finish` (`_async_call.py:218-241`). -/
def slot (O : Objects α) : Option Outcome → Val α
  | none => .na
  | some (.ok v) => O.value v
  | some o => O.exc o

/-- How a call ends. Serves `output` (`_async_call.py:234-241`). -/
inductive End (α : Type) where
  | values (l : List (Val α))
  | failed (e : Exc)
  | group (errs : List (Nat × Outcome))
  | cancelled
  deriving Repr

/-- `to_list(output_list, ...)`, `_async_call.py:234-241`. -/
def output (H : Hashing α) (o : Opts) (l : List (Val α)) : End α :=
  match toList H { o with useValues := false } (.seq .list (ofList l)) with
  | .ok r => .values r
  | .error e => .failed e

/-- After the task group, `_async_call.py:218-241`. -/
def finish (H : Hashing α) (O : Objects α) (o : Opts) : Final → End α
  | .raised errs => .group errs
  | .cancelled => .cancelled
  | .returned l => output H o (l.map (slot O))

/-- `alcall`, `_async_call.py:41-241`, under the schedule `acts` of its task group; `none`: it has not ended. -/
def alcall (H : Hashing α) (O : Objects α) (p : Params) (fn : Func) (script : Nat → Val α → Nat → Outcome) (keys : List (Val α)) (x : Input α)
    (acts : List Act) : Option (End α) :=
  match prepare H p fn keys x with
  | .error e => some (.failed e)
  | .ok (l, k) => (final (cfg p script l k) (run (cfg p script l k) acts)).map (finish H O p.out)

/-- The items on which the function was called. Built on `prepare` (`_async_call.py:106-148`). -/
def called (H : Hashing α) (p : Params) (fn : Func) (script : Nat → Val α → Nat → Outcome) (keys : List (Val α)) (x : Input α) (acts : List Act) :
    List (Val α) :=
  match prepare H p fn keys x with
  | .error _ => []
  | .ok (l, k) => ((List.range l.length).filter (fun i => (run (cfg p script l k) acts).st i != .waiting)).map (fun i => l.getD i .na)

/-! ### `bcall` -/

/-- The batches, `_async_call.py:264-265`: `range` with step 0 raises, with a negative step it is empty. -/
def batchesOf (l : List (Val α)) (size : Int) : Except Exc (List (List (Val α))) :=
  if size = 0 then .error .valueError
  else if size < 0 then .ok []
  else .ok (batches l size.toNat)

/-- How the generator stops. Serves the model of `_async_call.py:264-266`. -/
inductive Stop (α : Type) where
  | exhausted
  | raised (e : End α)
  | waiting            -- the call for some batch has not ended

/-- What iterating the generator gives: the batches handed to `alcall`, the lists yielded, and how it stops.
Serves `loop` (`_async_call.py:264-266`). -/
structure Gen (α : Type) where
  entered : List (List (Val α)) := []
  yielded : List (List (Val α)) := []
  stop : Stop α

/-- One more batch in front. Serves `loop` (`_async_call.py:264-266`). -/
def Gen.push (b r : List (Val α)) (g : Gen α) : Gen α := ⟨b :: g.entered, r :: g.yielded, g.stop⟩

/-- The loop, `_async_call.py:264-266`: a batch whose `alcall` raises ends the generator.  `one k b`: how the call for batch `b`, the `k`-th, ends. -/
def loop (one : Nat → List (Val α) → Option (End α)) : Nat → List (List (Val α)) → Gen α
  | _, [] => ⟨[], [], .exhausted⟩
  | k, b :: bs =>
    match one k b with
    | some (.values r) => (loop one (k + 1) bs).push b r
    | some e => ⟨[b], [], .raised e⟩
    | none => ⟨[b], [], .waiting⟩

/-- The call for one batch; the batch is a list. Serves `bcall` (`_async_call.py:244-266`). -/
def oneBatch (H : Hashing α) (O : Objects α) (p : Params) (fn : Func) (script : Nat → Nat → Val α → Nat → Outcome) (acts : Nat → List Act) (k : Nat)
    (b : List (Val α)) : Option (End α) :=
  alcall H O p fn (script k) [] (.seq .list (ofList b)) (acts k)

/-- `bcall`, `_async_call.py:244-266`, iterated to its end; `acts k`: schedule of the call for batch `k`, `script k`: what the function does in it. -/
def bcall (H : Hashing α) (O : Objects α) (p : Params) (fn : Func) (script : Nat → Nat → Val α → Nat → Outcome) (x : Input α) (size : Int)
    (acts : Nat → List Act) : Gen α :=
  match toList H { flatten := true, dropna := true } x with
  | .error e => ⟨[], [], .raised (.failed e)⟩
  | .ok l =>
    match batchesOf l size with
    | .error e => ⟨[], [], .raised (.failed e)⟩
    | .ok bs => loop (oneBatch H O p fn script acts) 0 bs

end Verif.Alcall
