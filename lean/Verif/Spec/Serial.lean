/-! # Calls made one after the other

`C` is the type of calls (a method with its arguments), `f c s` the state and the result of call `c` in state `s`. -/

namespace Verif.Serial

variable {C σ α : Type}

/-- The state after the calls of a log, made one after the other. -/
def state (f : C → σ → σ × α) (s0 : σ) (log : List (Nat × C)) : σ := log.foldl (fun s c => (f c.2 s).1) s0

/-- The results thread `t` gets when the calls of a log are made one after the other. -/
def results (f : C → σ → σ × α) (t : Nat) : σ → List (Nat × C) → List α
  | _, [] => []
  | s, (u, c) :: log => (if u = t then [(f c s).2] else []) ++ results f t (f c s).1 log

/-- The calls of thread `t` in a log. -/
def callsOf (t : Nat) (log : List (Nat × C)) : List C := (log.filter (fun c => decide (c.1 = t))).map (fun c => c.2)

end Verif.Serial
