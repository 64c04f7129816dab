import Verif.Model.Processor

/-!
# Model of `Processor.execute`, `stop`, `start`, `is_stopped`, `execution_mode` and `join`

`src/lionherd_core/base/processor.py:108-126, 168-189, 322-332` on top of the transition system of `Verif.Model.Processor`.  Any number of `execute()` and `join()`
calls run concurrently with everything the processor does; a step of a call runs from one `await` to the next (`start()`, `stop()` and `is_stopped()` do not
wait inside).
-/

namespace Verif.ExecLoop

open Verif.Processor (Cfg)

/-- Where an `execute()` call is. Serves the model of `processor.py:101-107`. -/
inductive LPC where
  | processing (k : Nat)   -- line 328, awaits its `process()` call, number `k`
  | sleeping               -- line 329, `await concurrency.sleep(self.capacity_refresh_time)`
  | returned
  | raised
  deriving DecidableEq, Repr

/-- Where a `join()` call is. Serves `joinTest` (`processor.py:170-171`). -/
inductive JPC where
  | waiting                -- line 171, `await concurrency.sleep(0.1)`
  | returned
  deriving DecidableEq, Repr

/-- The processor with its stop signal, its `execution_mode` and the `execute()` and `join()` calls. Serves `init` (`processor.py:101-107`). -/
structure Sys where
  proc : Processor.Sys
  stopped : Bool := false
  mode : Bool := false
  loops : List LPC := []
  joins : List JPC := []
  deriving DecidableEq

/-- A new processor, `processor.py:101-107`. -/
def init (c : Cfg) : Sys := { proc := Processor.init c }

/-- The loop test and the call of `process()`, `processor.py:327-331`: the new place of the loop. -/
def turn (c : Cfg) (s : Sys) (i : Nat) : Sys :=
  if s.stopped then { s with mode := false, loops := s.loops.set i .returned }
  else { s with proc := Processor.step c s.proc .process, loops := s.loops.set i (.processing s.proc.calls.length) }

/-- `execute()` up to its first `await`, `processor.py:322-328`: the stop signal is cleared. -/
def execute (c : Cfg) (s : Sys) : Sys := turn c { s with mode := true, stopped := false, loops := s.loops ++ [.sleeping] } s.loops.length

/-- The `execute()` call `i` goes on: after its `process()` call it sleeps (or raises what that raised), after its sleep it tests the signal.
Serves the model of `processor.py:327-331`. -/
def resume (c : Cfg) (s : Sys) (i : Nat) : LPC → Sys
  | .processing k =>
    if (s.proc.calls[k]?).any (fun cl => cl.pc == .done) then { s with loops := s.loops.set i .sleeping }
    else if (s.proc.calls[k]?).any (fun cl => cl.pc == .failed) then { s with loops := s.loops.set i .raised }
    else s
  | .sleeping => turn c s i
  | .returned => s
  | .raised => s

/-- The test of `join()`, `processor.py:170-171`. -/
def joinTest (s : Sys) : JPC := if s.proc.queue = [] then .returned else .waiting

/-- A `join()` call goes on. Serves the model of `processor.py:327-331`. -/
def joinNext (s : Sys) : JPC → JPC
  | .waiting => joinTest s
  | .returned => .returned

/-- Scheduler actions. Serves the model of `processor.py:327-331`. -/
inductive Act where
  | proc (a : Processor.Act)   -- anything the processor does, `stop()` included
  | start                      -- `start()`, `processor.py:182-185`
  | execute                    -- a new `execute()` call begins
  | resume (i : Nat)           -- `execute()` call `i` goes on
  | cancel (i : Nat)           -- `execute()` call `i` is cancelled in its sleep
  | join                       -- a new `join()` call
  | poll (j : Nat)             -- `join()` call `j` wakes up
  deriving DecidableEq

/-- A cancelled `execute()` call; in its `process()` call the cancellation comes from there. Serves the model of `processor.py:327-331`. -/
def cancelled : LPC → LPC
  | .sleeping => .raised
  | l => l

/-- One step. Serves `turn` (`processor.py:327-331`). -/
def step (c : Cfg) (s : Sys) : Act → Sys
  | .proc a => { s with proc := Processor.step c s.proc a, stopped := s.stopped || a == .stop }
  | .start => { s with stopped := false }
  | .execute => execute c s
  | .resume i => ((s.loops[i]?).map (resume c s i)).getD s
  | .cancel i => { s with loops := s.loops.modify i cancelled }
  | .join => { s with joins := s.joins ++ [joinTest s] }
  | .poll j => { s with joins := s.joins.modify j (joinNext s) }

/-- A schedule. Built on `execute` (`processor.py:322-328`). -/
def run (c : Cfg) (s : Sys) (as : List Act) : Sys := as.foldl (step c) s

end Verif.ExecLoop
