import Verif.Model.Sync

/-! # Lock discipline: locks are used in `with` blocks and taken in rank order -/

namespace Verif.Sync

variable {σ α β : Type}

/-- May a program that holds `h` (innermost first) enter `with lock_l`? Re-entry, or a lock of higher rank than all held ones. -/
def MayTake (B : Nat) (h : List Nat) (l : Nat) : Prop := l < B ∧ (l ∈ h ∨ ∀ l' ∈ h, l' < l)

/-- The program uses locks in `with` blocks, in rank order: it was called holding `b`, has since taken `h` (innermost first), and gives back
exactly `h` before it returns. -/
def Nested (B : Nat) (b : List Nat) : List Nat → Prog σ α → Prop
  | h, .ret _ => h = []
  | h, .atomic _ k => ∀ s, Nested B b h (k s)
  | h, .acquire l k => MayTake B (h ++ b) l ∧ Nested B b (l :: h) k
  | h, .release l k => ∃ h', h = l :: h' ∧ Nested B b h' k

/-- Thread `t` waits for a lock another thread holds. -/
def Waits (m : State σ α) (t : Nat) : Prop :=
  ∃ l k o n, (m.threads t).cur = some (.acquire l k) ∧ m.locks l = some (o, n) ∧ o ≠ t

/-- Thread `t` has made all its calls. -/
def Done (m : State σ α) (t : Nat) : Prop := (m.threads t).cur = none ∧ (m.threads t).todo = []

end Verif.Sync
