import Verif.Model.Processor

/-!
# What an observer may see of a processor

A specification of `process()`/`enqueue()` histories in terms of a bag of queued entries and one slot per `process()` call; it knows nothing of heaps,
program counters or denial counters.
-/

namespace Verif.Processor

/-- What a `process()` call currently has in hand. -/
inductive Slot where
  | free
  | holding (e : Entry)     -- taken from the queue, permission not decided
  | granted (e : Entry)
  | denied (e : Entry)
  | condemned (e : Entry)   -- denied and to be aborted
  deriving DecidableEq

structure St where
  bag : List Entry
  slot : Nat → Slot

def put (f : Nat → Slot) (i : Nat) (x : Slot) : Nat → Slot := fun j => if j = i then x else f j

/-- Neither the bag nor the slots change. -/
def Same (a b : St) : Prop := b.bag = a.bag ∧ b.slot = a.slot

/-- Permitted observations. -/
def TStep (a : St) (b : St) : Obs → Prop
  | .enq e => b.bag.Perm (e :: a.bag) ∧ b.slot = a.slot
  -- a smallest entry leaves the bag
  | .take i e => a.bag.Perm (e :: b.bag) ∧ (∀ y ∈ a.bag, entryLt y e = false) ∧ a.slot i = .free ∧
      b.slot = put a.slot i (.holding e)
  | .skip i id => ∃ p, a.slot i = .holding (p, id) ∧ b.bag = a.bag ∧ b.slot = put a.slot i .free
  | .grant i id => ∃ p, a.slot i = .holding (p, id) ∧ b.bag = a.bag ∧ b.slot = put a.slot i (.granted (p, id))
  | .deny i id => ∃ p, a.slot i = .holding (p, id) ∧ b.bag = a.bag ∧ b.slot = put a.slot i (.denied (p, id))
  | .abort i id => ∃ p, a.slot i = .denied (p, id) ∧ b.bag = a.bag ∧ b.slot = put a.slot i (.condemned (p, id))
  | .aborted i id => ∃ p, a.slot i = .condemned (p, id) ∧ b.bag = a.bag ∧ b.slot = put a.slot i .free
  -- only a granted entry is started, and it leaves the slot
  | .start i e => a.slot i = .granted e ∧ b.bag = a.bag ∧ b.slot = put a.slot i .free
  -- a denied entry goes back with its priority increased by 1 or 2
  | .requeue i e => ∃ p : Int, a.slot i = .denied (p, e.2) ∧ (e.1 = p + 1 ∨ e.1 = p + 2) ∧ b.bag.Perm (e :: a.bag) ∧
      b.slot = put a.slot i .free
  | .full _ => Same a b
  | .badPriority _ => Same a b
  | .missing _ => Same a b
  | .reset _ => Same a b
  | .stop => Same a b
  | .forget _ => Same a b

/-- Permitted histories. -/
def Steps (a : St) : List Obs → St → Prop
  | [], c => a = c
  | o :: l, c => ∃ b, TStep a b o ∧ Steps b l c

theorem Steps.append {a c : St} {l m : List Obs} : Steps a (l ++ m) c ↔ ∃ b, Steps a l b ∧ Steps b m c := by
  induction l generalizing a with
  | nil => exact ⟨fun h => ⟨a, rfl, h⟩, fun ⟨b, hb, h⟩ => by cases hb; exact h⟩
  | cons o l ih =>
    constructor
    · rintro ⟨x, hx, h⟩
      obtain ⟨b, h1, h2⟩ := ih.1 h
      exact ⟨b, ⟨x, hx, h1⟩, h2⟩
    · rintro ⟨b, ⟨x, hx, h1⟩, h2⟩
      exact ⟨x, hx, ih.2 ⟨b, h1, h2⟩⟩

theorem Steps.snoc {a b c : St} {l : List Obs} {o : Obs} (h : Steps a l b) (ht : TStep b c o) : Steps a (l ++ [o]) c :=
  Steps.append.2 ⟨b, h, c, ht, rfl⟩

/-- Nothing queued, nothing in hand. -/
def start : St := ⟨[], fun _ => .free⟩

/-- Number of denials of `id` since it was last granted, skipped, aborted, forgotten or the processor was stopped. -/
def denStep (id : Nat) (n : Nat) : Obs → Nat
  | .deny _ j => if j = id then n + 1 else n
  | .grant _ j => if j = id then 0 else n
  | .skip _ j => if j = id then 0 else n
  | .aborted _ j => if j = id then 0 else n
  | .forget j => if j = id then 0 else n
  | .stop => 0
  | _ => n

def den (id : Nat) (l : List Obs) : Nat := l.foldl (denStep id) 0

theorem den_snoc (id : Nat) (l : List Obs) (o : Obs) : den id (l ++ [o]) = denStep id (den id l) o := by
  simp [den]

def isStart (i : Nat) : Obs → Bool
  | .start j _ => j == i
  | _ => false

/-- Number of events started by call `i`. -/
def starts (i : Nat) (l : List Obs) : Nat := (l.filter (isStart i)).length

end Verif.Processor
