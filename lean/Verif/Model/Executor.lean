import Verif.Model.Flow
import Verif.Model.Event
import Verif.Model.Processor

/-!
# Model of `Executor` (`src/lionherd_core/base/processor.py:334-545`)

The executor is the real `Flow` model plus the `Processor` transition system.  Events are items of the flow whose content is the
`created_at` timestamp; ids are natural numbers.  `pid` gives the ids of the status progressions.

An event started by `process()` runs until the scheduler ends it (`finish`), at which point the event's own status is whatever the
event ended with (an input: `Event.lean` is about which one), and `_update_progression` files it; or it is
cancelled together with its task group (`vanish`), in which case the `await` in its `finally` block is cancelled too and nothing is filed.
-/

namespace Verif.Executor

open Verif.Event (Status)

/-- `EventStatus` values, `event.py:39-45`. -/
def value : Status → String
  | .pending => "pending"
  | .processing => "processing"
  | .completed => "completed"
  | .failed => "failed"
  | .cancelled => "cancelled"
  | .skipped => "skipped"
  | .aborted => "aborted"

variable {γ : Type} [DecidableEq γ]

/-- The flow of an executor: item content is the event's `created_at`. Serves `addStatuses` (`processor.py:372-373`). -/
abbrev EFlow (γ : Type) := Flow Nat γ Int

/-- An event. Serves `getEvents` (`processor.py:455-466`). -/
abbrev Ev (γ : Type) := Item Nat γ Int

/-- The key by which a status progression is looked up; a status name is not a UUID. Serves `updateProgression` (`processor.py:397-414`). -/
def key (st : Status) : Flow.FKey Nat := .str { str := value st, parsed := none }

/-- `Progression(name=status.value)`. Serves `addStatuses` (`processor.py:372-373`). -/
def statusProg (pid : Status → Nat) (st : Status) : Flow.Prog Nat :=
  { id := pid st, cls := (), data := { name := some (value st), order := [] } }

/-- The loop of `__init__`, `processor.py:372-373` (stops at the first exception). -/
def addStatuses (pid : Status → Nat) (f : EFlow γ) : List Status → EFlow γ
  | [] => f
  | st :: sts => addStatuses pid (Flow.addProgression f (statusProg pid st)).1 sts

/-- `Executor.__init__`, `processor.py:348-373`; `cls` and `strict` are the item constraint of the flow. -/
def initFlow (pid : Status → Nat) (cls : List γ) (strict : Bool) : EFlow γ :=
  addStatuses pid { items := { itemType := some cls, strict := strict } } Status.all

/-- `_update_progression`, `processor.py:397-414` (the body under the lock). -/
def updateProgression (f : EFlow γ) (id : Nat) (st : Status) : Res (EFlow γ) Unit :=
  match Flow.dropEverywhere f.progs id f.progs.order with
  | (pp, .error e) => ({ f with progs := pp }, .error e)
  | (pp, .ok ()) =>
    match Flow.getProgression { f with progs := pp } (key st) with
    | .ok p => ({ f with progs := Flow.modify pp p.id (· ++ [id]) }, .ok ())
    | .error .keyError => ({ f with progs := pp }, .error .configuration)
    | .error e => ({ f with progs := pp }, .error e)

/-- `[self.states.items[uid] for uid in prog]`. Serves `getEvents` (`processor.py:455-466`). -/
def lookupAll (items : Pile Nat γ Int) : List Nat → Except Exc (List (Ev γ))
  | [] => .ok []
  | u :: us =>
    match items.items.get? u with
    | none => .error .notFound
    | some x =>
      match lookupAll items us with
      | .error e => .error e
      | .ok xs => .ok (x :: xs)

/-- `get_events_by_status`, `processor.py:455-466`. -/
def getEvents (f : EFlow γ) (st : Status) : Except Exc (List (Ev γ)) :=
  match Flow.getProgression f (key st) with
  | .error e => .error e
  | .ok p => lookupAll f.items p.data.order

/-- `status_counts`, `processor.py:488-490`. -/
def statusCounts (f : EFlow γ) : Except Exc (List (Option String × Nat)) :=
  match Pile.iter f.progs with
  | .error e => .error e
  | .ok ps => .ok (ps.map (fun p => (p.data.name, p.data.order.length)))

/-- The inner loop of `cleanup_events`, `processor.py:520-525`: the flow, the ids removed so far, and the exception if any. -/
def removeEvents (f : EFlow γ) : List (Ev γ) → EFlow γ × List Nat × Option Exc
  | [] => (f, [], none)
  | ev :: evs =>
    match Flow.removeItem f (some ev.id) with
    | (f', .error e) => (f', [], some e)
    | (f', .ok _) => let r := removeEvents f' evs; (r.1, ev.id :: r.2.1, r.2.2)

/-- `cleanup_events`, `processor.py:492-527`, for a given list of statuses; the number returned is the number of removed ids. -/
def cleanup (f : EFlow γ) : List Status → EFlow γ × List Nat × Option Exc
  | [] => (f, [], none)
  | st :: sts =>
    match getEvents f st with
    | .error e => (f, [], some e)
    | .ok evs =>
      match removeEvents f evs with
      | (f', ids, some e) => (f', ids, some e)
      | (f', ids, none) => let r := cleanup f' sts; (r.1, ids ++ r.2.1, r.2.2)

/-- The default statuses, `processor.py:512-513`. -/
def defaultStatuses : List Status := [.completed, .failed, .aborted]

/-- `append`, first half, `processor.py:450`. -/
def addEvent (sub : γ → γ → Bool) (f : EFlow γ) (ev : Ev γ) : Res (EFlow γ) Unit :=
  Flow.addItem sub f (some ev) [.key (key .pending)]

/-! ### The whole system -/

/-- State: the flow, the processor once created, the executing events (`process()` call, event id), and the ids `start()` has still to enqueue.
Serves `found` (`processor.py:239`). -/
structure Sys (γ : Type) where
  flow : EFlow γ
  proc : Option Processor.Sys := none
  runs : List (Nat × Nat) := []
  backfill : List Nat := []

/-- Scheduler actions. Serves the model of `processor.py:522-523`. -/
inductive Act (γ : Type) where
  | append (ev : Ev γ) (prio : Option Processor.Prio)  -- `append`
  | start                                       -- `start`: create the processor, list the pending events
  | fill                                        -- `start` goes on with the next pending event
  | enqPut (k : Nat)                            -- an `enqueue` call gets the queue's lock
  | forward                                     -- `forward()` or the `execute()` loop call `process()`
  | go (i : Nat) (perm : Processor.Perm)          -- `process()` call `i` runs to its next `await`
  | cancel (i : Nat)                            -- `process()` call `i` is cancelled
  | finish (k : Nat) (st : Status)                -- the `k`-th executing event ends with status `st` and is filed
  | vanish (k : Nat)                            -- the `k`-th executing event is cancelled before it is filed
  | stop                                        -- `stop()`
  | cleanup (sts : List Status)                   -- `cleanup_events(statuses)`

/-- `self.processor.enqueue(event.id, priority=...)`: `created_at` comes from the event pile. Serves the model of `processor.py:522-523`. -/
def enqueue (c : Processor.Cfg) (f : EFlow γ) (p : Processor.Sys) (id : Nat) (prio : Option Processor.Prio) : Processor.Sys :=
  Processor.step c p (.enqueue id prio ((f.items.items.get? id).map (fun x => x.data)))

/-- The flow update that a `process()` call performs when it continues from `pc` (`processor.py:252, 297`). -/
def fileOf : Processor.PC → Option (Nat × Status)
  | .granted e => some (e.2, .processing)
  | .aborting e => some (e.2, .aborted)
  | _ => none

/-- The event a `process()` call starts when it continues from `pc` (`processor.py:268, 279`). -/
def startOf : Processor.PC → Option Nat
  | .granted e => some e.2
  | _ => none

/-- The id that a `process()` call finds next in the queue is in the event pile (`processor.py:239`). -/
def found (f : EFlow γ) (p : Processor.Sys) : Bool :=
  match Heapq.pop Processor.entryLt p.queue with
  | none => false
  | some (e, _) => f.items.items.has e.2

/-- Executing events of call `i` (a task group waits for them, `processor.py:232`). -/
def waitsFor (s : Sys γ) (i : Nat) (cl : Processor.Call) : Bool := (cl.pc == .draining) && s.runs.any (fun r => r.1 == i)

/-- Call `i` continues: files the event if it must, then steps. Serves the model of `processor.py:522-523`. -/
def goOn (c : Processor.Cfg) (s : Sys γ) (p : Processor.Sys) (i : Nat) (cl : Processor.Call) (perm : Processor.Perm) : Sys γ :=
  match fileOf cl.pc with
  | none => { s with proc := some (Processor.step c p (.go i (found s.flow p) perm)) }
  | some (id, st) =>
    match updateProgression s.flow id st with
    | (f, .error _) => { s with flow := f, proc := some (Processor.step c p (.cancel i)) }
    | (f, .ok ()) =>
      { s with
        flow := f, proc := some (Processor.step c p (.go i true perm)),
        runs := s.runs ++ ((startOf cl.pc).map (fun x => (i, x))).toList }

/-- Forget the denial counts of removed events (`processor.py:522-523`). -/
def forgetAll (c : Processor.Cfg) (p : Processor.Sys) (ids : List Nat) : Processor.Sys :=
  ids.foldl (fun q id => Processor.step c q (.forget id)) p

/-- `enqueue` raised. Serves the model of `processor.py:522-523`. -/
def rejected (p q : Processor.Sys) : Bool := p.pending.length == q.pending.length

/-- One step. Serves `forgetAll` (`processor.py:522-523`). -/
def step (sub : γ → γ → Bool) (c : Processor.Cfg) (s : Sys γ) : Act γ → Sys γ
  | .append ev prio =>
    match addEvent sub s.flow ev with
    | (f, .error _) => { s with flow := f }
    | (f, .ok ()) => { s with flow := f, proc := s.proc.map (fun p => enqueue c f p ev.id prio) }
  | .start =>
    match s.proc with
    | some _ => s
    | none =>
      match getEvents s.flow .pending with
      | .error _ => { s with proc := some (Processor.init c) }
      | .ok evs => { s with proc := some (Processor.init c), backfill := evs.map Item.id }
  | .fill =>
    match s.proc, s.backfill with
    | some p, id :: ids =>
      let q := enqueue c s.flow p id none
      { s with proc := some q, backfill := if rejected p q then [] else ids }
    | _, _ => s
  | .enqPut k => { s with proc := s.proc.map (fun p => Processor.step c p (.enqPut k)) }
  | .forward => { s with proc := s.proc.map (fun p => Processor.step c p .process) }
  | .go i perm =>
    match s.proc with
    | none => s
    | some p =>
      match p.calls[i]? with
      | none => s
      | some cl => if waitsFor s i cl then s else goOn c s p i cl perm
  | .cancel i => { s with proc := s.proc.map (fun p => Processor.step c p (.cancel i)) }
  | .finish k st =>
    match s.runs[k]? with
    | none => s
    | some r => { s with flow := (updateProgression s.flow r.2 st).1, runs := s.runs.eraseIdx k }
  | .vanish k => { s with runs := s.runs.eraseIdx k }
  | .stop => { s with proc := s.proc.map (fun p => Processor.step c p .stop) }
  | .cleanup sts =>
    let r := cleanup s.flow sts
    { s with flow := r.1, proc := s.proc.map (fun p => forgetAll c p r.2.1) }

/-- A schedule. Built on `cleanup` (`processor.py:492-527`). -/
def run (sub : γ → γ → Bool) (c : Processor.Cfg) (s : Sys γ) (as : List (Act γ)) : Sys γ := as.foldl (step sub c) s

/-- A new executor. Serves the model of `processor.py:522-523`. -/
def init (pid : Status → Nat) (cls : List γ) (strict : Bool) : Sys γ := { flow := initFlow pid cls strict }

end Verif.Executor
