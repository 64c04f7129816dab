import Verif.Py.Heapq
import Verif.Py.Basic

/-!
# `PriorityQueue` with items that cannot always be compared

`put`/`get` of `src/lionherd_core/libs/concurrency/_priority_queue.py` call `heapq.heappush` and `heapq.heappop`; comparing two items may raise (tuples with equal
priority and payloads without `<`).  `heapq` is the C implementation (`Modules/_heapqmodule.c`), which moves items by swapping and stops where the comparison
raises.  One call at a time: interleavings are in `Verif/Model/PriorityQueue.lean`.
-/

namespace Verif.HeapRaise

variable {α : Type}

/-- Exchange two entries of the list. Serves the model of `_priority_queue.py:54, 70`. -/
def swap (l : List α) (i j : Nat) : List α :=
  match l[i]?, l[j]? with
  | some a, some b => (l.set i b).set j a
  | _, _ => l

/-- `siftdown(heap, 0, pos)`: the list, and whether a comparison raised. `lt a b = none`: `a < b` raises.  The first number bounds the iterations.
Serves `push` (`_priority_queue.py:54, 70`). -/
def siftdown (lt : α → α → Option Bool) : Nat → List α → Nat → List α × Bool
  | 0, l, _ => (l, false)
  | k + 1, l, pos =>
    if pos = 0 then (l, false)
    else
      match l[pos]?, l[(pos - 1) / 2]? with
      | some x, some p =>
        match lt x p with
        | none => (l, true)
        | some false => (l, false)
        | some true => siftdown lt k (swap l pos ((pos - 1) / 2)) ((pos - 1) / 2)
      | _, _ => (l, false)

/-- The position of the child to move up; `none`: the comparison raised. Serves the model of `_priority_queue.py:85, 102`. -/
def smallerChild (lt : α → α → Option Bool) (l : List α) (pos : Nat) : Option Nat :=
  match l[2 * pos + 1]?, l[2 * pos + 2]? with
  | some a, some b => (lt a b).map (fun r => if r then 2 * pos + 1 else 2 * pos + 2)
  | _, _ => some (2 * pos + 1)

/-- The loop of `siftup(heap, 0)`: the list, the final position and whether a comparison raised. Serves the model of `_priority_queue.py:85, 102`. -/
def siftup (lt : α → α → Option Bool) : Nat → List α → Nat → List α × Nat × Bool
  | 0, l, pos => (l, pos, false)
  | k + 1, l, pos =>
    if 2 * pos + 1 < l.length then
      match smallerChild lt l pos with
      | none => (l, pos, true)
      | some c => siftup lt k (swap l pos c) c
    else (l, pos, false)

/-- `heapq.heappush(self._queue, item)`, `_priority_queue.py:54, 70`. -/
def push (lt : α → α → Option Bool) (l : List α) (x : α) : List α × Bool := siftdown lt l.length (l ++ [x]) l.length

/-- The two phases of restoring the heap after the first item was replaced. Serves `pop` (`_priority_queue.py:85, 102`). -/
def restore (lt : α → α → Option Bool) (l : List α) : List α × Bool :=
  match siftup lt l.length l 0 with
  | (r, _, true) => (r, true)
  | (r, pos, false) => siftdown lt pos r pos

/-- `heapq.heappop(self._queue)`, `_priority_queue.py:85, 102`, on a non-empty list `first :: more`: the list afterwards and the item, or `none` if a
comparison raised. -/
def pop (lt : α → α → Option Bool) (first : α) (more : List α) : List α × Option α :=
  match more.getLast? with
  | none => ([], some first)
  | some last =>
    match restore lt (last :: more.dropLast) with
    | (r, true) => (r, none)
    | (r, false) => (r, some first)

/-- `put_nowait`, `_priority_queue.py:57-72` (`put` does the same once there is space): the queue and the outcome. -/
def put (lt : α → α → Option Bool) (maxsize : Int) (q : List α) (x : α) : Res (List α) Unit :=
  if decide (0 < maxsize) && decide (maxsize ≤ q.length) then (q, .error .queueFull)
  else
    match push lt q x with
    | (r, true) => (r, .error .typeError)
    | (r, false) => (r, .ok ())

/-- `get_nowait`, `_priority_queue.py:91-105` (`get` does the same once there is an item); `QueueEmpty` is `indexError`. -/
def get (lt : α → α → Option Bool) : List α → Res (List α) α
  | [] => ([], .error .indexError)
  | first :: more =>
    match pop lt first more with
    | (r, some x) => (r, .ok x)
    | (r, none) => (r, .error .typeError)

end Verif.HeapRaise
