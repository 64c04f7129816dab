import Verif.Model.JsonDefault

/-!
# Model of the default functions that `json_dumps`, `json_dumpb` and `json_lines_iter` share

`_cached_default` (`src/lionherd_core/ln/_json_dump.py:170-186`) keeps the last 128 default functions by their flags; each has its own cache of serializers by type (`:136`).
A call of `json_dumpb` (`:252-260`) or `json_lines_iter` (`:317-325`) asks for the function once and applies it to objects that orjson does not write itself, possibly long after other calls have asked for others.
-/

namespace Verif.JsonCached

open JsonDefault (Types Args Choice)

/-- The arguments of `_cached_default`, `_json_dump.py:171-178`. Simplification: flags are booleans and the limit a natural number. -/
structure Flags where
  deterministicSets : Bool := false
  decimalAsFloat : Bool := false
  enumAsName : Bool := false
  passthroughDatetime : Bool := false
  safeFallback : Bool := false
  fallbackClip : Nat := 2048
  deriving DecidableEq, Repr

variable {τ σ : Type} [DecidableEq τ]

/-- The arguments `get_orjson_default` gets, `_json_dump.py:179-186`. -/
def argsOf (f : Flags) : Args τ σ := { enumAsName := f.enumAsName, passthroughDatetime := f.passthroughDatetime, safeFallback := f.safeFallback }

/-- The default functions made so far (flags and type cache, by identity), and the entries of the `lru_cache`, most recently used first, `_json_dump.py:170`. -/
structure Sys (τ σ : Type) where
  fns : List (Flags × Dict τ σ) := []
  lru : List (Flags × Nat) := []

/-- `maxsize`, `_json_dump.py:170`. -/
def maxSize : Nat := 128

/-- `_cached_default(flags)`, `_json_dump.py:170-186`: the state afterwards and the function. -/
def get (s : Sys τ σ) (f : Flags) : Sys τ σ × Nat :=
  match s.lru.find? (fun p => decide (p.1 = f)) with
  | some p => ({ s with lru := p :: s.lru.erase p }, p.2)
  | none => ({ fns := s.fns ++ [(f, [])], lru := ((f, s.fns.length) :: s.lru).take maxSize }, s.fns.length)

/-- What becomes of an object: a serializer is called, or the attempts of `_json_dump.py:149-164` are made with `safe_fallback` and `fallback_clip`. -/
inductive Reply (σ : Type) where
  | by_ (g : σ)
  | duck (safe : Bool) (clip : Nat)
  deriving DecidableEq, Repr

/-- The reply for a choice of the function with these flags. Serves `apply` (`_json_dump.py:139-166`). -/
def reply (f : Flags) : Choice σ → Reply σ
  | .serializer g => .by_ g
  | .fallback => .duck f.safeFallback f.fallbackClip

/-- `default(obj)` for an object of type `t`, `_json_dump.py:139-166`; `builtin f` are the functions of `_default_serializers` (`:60-79`) for the flags. -/
def apply (T : Types τ) (builtin : Flags → τ → σ) (s : Sys τ σ) (i : Nat) (t : τ) : Sys τ σ × Option (Reply σ) :=
  match s.fns[i]? with
  | none => (s, none)
  | some p =>
    ({ s with fns := s.fns.set i (p.1, (JsonDefault.default T (builtin p.1) (argsOf p.1) p.2 t).2) },
      some (reply p.1 (JsonDefault.default T (builtin p.1) (argsOf p.1) p.2 t).1))

/-- What other code does meanwhile: ask for functions, apply functions. Built on `get` and `apply` (`_json_dump.py:139-186`). -/
inductive Op (τ : Type) where
  | get (f : Flags)
  | apply (i : Nat) (t : τ)

/-- One operation (`_json_dump.py:139-186`). -/
def step (T : Types τ) (builtin : Flags → τ → σ) (s : Sys τ σ) : Op τ → Sys τ σ
  | .get f => (get s f).1
  | .apply i t => (apply T builtin s i t).1

/-- A history (`_json_dump.py:139-186`). -/
def run (T : Types τ) (builtin : Flags → τ → σ) (s : Sys τ σ) (h : List (Op τ)) : Sys τ σ := h.foldl (step T builtin) s

end Verif.JsonCached
