import Verif.Py.Basic

/-!
# Model of `Queue` (`src/lionherd_core/libs/concurrency/_primitives.py:138-186`)

A queue is the two ends of an AnyIO memory object stream; the behaviour of the stream is the
library's documented one (a buffer, blocked senders, blocked receivers). One task runs at a time
and control changes only at awaits, so every operation below is one atomic step; a blocked `put` or
`get` is resumed or cancelled by a later step. Puts and gets are numbered in the order of the calls.
-/

namespace Verif.Queue

variable {α : Type}

/-- The stream shared by `_send` and `_recv` (`_primitives.py:142-143`). -/
structure State (α : Type) where
  cap : Nat
  buffer : List (Nat × α) := []
  senders : List (Nat × α) := []
  receivers : List Nat := []
  nextPut : Nat := 0
  nextGet : Nat := 0
  sendOpen : Bool := true
  recvOpen : Bool := true
  deriving DecidableEq

/-- `with_maxsize`, `_primitives.py:145-149`. -/
def withMaxsize (n : Nat) : State α := { cap := n }

/-- Calls and happenings: the methods (`_primitives.py:151-170`; `close` is the two steps `closeSend`, `closeRecv` with an await between them), and the cancellation of a task blocked in `put` or `get`. -/
inductive Op (α : Type) where
  | putNowait (x : α)
  | put (x : α)
  | getNowait
  | get
  | cancelPut (k : Nat)
  | cancelGet (k : Nat)
  | closeSend
  | closeRecv
  deriving DecidableEq

/-- What the callers see: a put is accepted (it returned, or is blocked and may still be withdrawn), withdrawn (it was cancelled, or failed because the queue was closed), refused at once; a get returned an item; a get failed; a get is blocked.
Serves `sendNowait` (`_primitives.py:157`). -/
inductive Ev (α : Type) where
  | offered (k : Nat) (x : α)
  | withdrawn (k : Nat)
  | refused (k : Nat)
  | got (g : Nat) (k : Nat) (x : α)
  | getFailed (g : Nat)
  | getBlocked (g : Nat)
  deriving DecidableEq

/-- `send_nowait` where both ends are open, `_primitives.py:157`: to the longest waiting receiver, else into the buffer; `none` is `WouldBlock`. -/
def sendNowait (s : State α) (k : Nat) (x : α) : Option (State α × List (Ev α)) :=
  match s.receivers with
  | g :: gs => some ({ s with receivers := gs }, [.offered k x, .got g k x])
  | [] => if s.buffer.length < s.cap then some ({ s with buffer := s.buffer ++ [(k, x)] }, [.offered k x]) else none

/-- `put_nowait`, `_primitives.py:155-157`. -/
def putNowait (s : State α) (k : Nat) (x : α) : State α × List (Ev α) :=
  if s.sendOpen && s.recvOpen then (sendNowait s k x).getD (s, [.refused k]) else (s, [.refused k])

/-- `put`, `_primitives.py:151-153`: like `put_nowait`, but waits as the last of the blocked senders where that would block. -/
def put (s : State α) (k : Nat) (x : α) : State α × List (Ev α) :=
  if s.sendOpen && s.recvOpen then
    (sendNowait s k x).getD ({ s with senders := s.senders ++ [(k, x)] }, [.offered k x])
  else (s, [.refused k])

/-- The first blocked sender's item moves to the end of the buffer (first step of `receive_nowait`). Serves `receiveNowait` (`_primitives.py:165`). -/
def admit (s : State α) : State α :=
  match s.senders with
  | [] => s
  | p :: ps => { s with senders := ps, buffer := s.buffer ++ [p] }

/-- `receive_nowait` where the receiving end is open, `_primitives.py:165`: `none` is an empty buffer. -/
def receiveNowait (s : State α) (g : Nat) : Option (State α × List (Ev α)) :=
  match (admit s).buffer with
  | [] => none
  | p :: ps => some ({ admit s with buffer := ps }, [.got g p.1 p.2])

/-- `get_nowait`, `_primitives.py:163-165`: `WouldBlock`, `EndOfStream` or `ClosedResourceError` otherwise. -/
def getNowait (s : State α) (g : Nat) : State α × List (Ev α) :=
  if s.recvOpen then (receiveNowait s g).getD (s, [.getFailed g]) else (s, [.getFailed g])

/-- `get`, `_primitives.py:159-161`: waits as the last of the blocked receivers if the buffer is empty and the sending end open. -/
def get (s : State α) (g : Nat) : State α × List (Ev α) :=
  if s.recvOpen then
    (receiveNowait s g).getD
      (if s.sendOpen then ({ s with receivers := s.receivers ++ [g] }, [.getBlocked g]) else (s, [.getFailed g]))
  else (s, [.getFailed g])

/-- The task blocked in the k-th put is cancelled. Serves `Op` (`_primitives.py:151-170`). -/
def cancelPut (s : State α) (k : Nat) : State α × List (Ev α) :=
  if k ∈ s.senders.map Prod.fst then ({ s with senders := s.senders.filter (fun p => p.1 ≠ k) }, [.withdrawn k]) else (s, [])

/-- The task blocked in the k-th get is cancelled. Serves `Op` (`_primitives.py:151-170`). -/
def cancelGet (s : State α) (g : Nat) : State α × List (Ev α) :=
  if g ∈ s.receivers then ({ s with receivers := s.receivers.filter (fun x => x ≠ g) }, [.getFailed g]) else (s, [])

/-- `await self._send.aclose()`, `_primitives.py:169`: blocked receivers get `EndOfStream`. -/
def closeSend (s : State α) : State α × List (Ev α) :=
  ({ s with sendOpen := false, receivers := [] }, s.receivers.map .getFailed)

/-- `await self._recv.aclose()`, `_primitives.py:170`: blocked senders get `BrokenResourceError`. -/
def closeRecv (s : State α) : State α × List (Ev α) :=
  ({ s with recvOpen := false, senders := [] }, s.senders.map (fun p => .withdrawn p.1))

/-- One step. Built on `State` (`_primitives.py:142-143`). -/
def step (s : State α) : Op α → State α × List (Ev α)
  | .putNowait x => putNowait { s with nextPut := s.nextPut + 1 } s.nextPut x
  | .put x => put { s with nextPut := s.nextPut + 1 } s.nextPut x
  | .getNowait => getNowait { s with nextGet := s.nextGet + 1 } s.nextGet
  | .get => get { s with nextGet := s.nextGet + 1 } s.nextGet
  | .cancelPut k => cancelPut s k
  | .cancelGet k => cancelGet s k
  | .closeSend => closeSend s
  | .closeRecv => closeRecv s

/-- A history: the state it leads to and everything the callers have seen. Built on `State` (`_primitives.py:142-143`). -/
def run (s : State α) : List (Op α) → State α × List (Ev α)
  | [] => (s, [])
  | o :: os => ((run (step s o).1 os).1, (step s o).2 ++ (run (step s o).1 os).2)

end Verif.Queue
