import Verif.Lemmas.FlowOwn
import Verif.Props.SyncMixed

/-!
# C288: the name index and the piles of a flow under threads
-/

set_option linter.unusedSectionVars false
set_option linter.unusedVariables false
set_option linter.unusedSimpArgs false

namespace Verif.FlowSync

open Verif.Sync Verif.PileSync

variable {ι γ δ : Type} [DecidableEq ι] [DecidableEq γ]

/-- The progressions can be listed, each once; looking a name up gives the progression that bears it; no two share a name; names nobody bears are unknown. -/
def NamesShown (f : Flow ι γ δ) : Prop :=
  ∃ L, Pile.iter f.progs = .ok L ∧ (L.map Item.id).Nodup ∧ Pile.len f.progs = L.length ∧
    (∀ p ∈ L, Flow.getProgression f (.ref (some p.id)) = .ok p) ∧
    (∀ p ∈ L, ∀ n parsed, p.data.name = some n → n ≠ "" → Flow.getProgression f (.str ⟨n, parsed⟩) = .ok p) ∧
    (∀ p ∈ L, ∀ q ∈ L, ∀ n, n ≠ "" → p.data.name = some n → q.data.name = some n → p = q) ∧
    (∀ n, (∀ p ∈ L, p.data.name ≠ some n) → Flow.getProgression f (.str ⟨n, none⟩) = .error .keyError) ∧
    (∀ n u, (∀ p ∈ L, p.data.name ≠ some n) → (∀ p ∈ L, p.id ≠ u) → Flow.getProgression f (.str ⟨n, some u⟩) = .error .notFound)

/-- The items can be listed, each once, and membership agrees with the list. -/
def ItemsShown (f : Flow ι γ δ) : Prop :=
  ∃ L, Pile.iter f.items = .ok L ∧ (L.map Item.id).Nodup ∧ Pile.len f.items = L.length ∧ Pile.keys f.items = L.map Item.id ∧
    ∀ u, Pile.contains f.items (some u) = true ↔ ∃ x ∈ L, x.id = u

theorem namesShown_of {f : Flow ι γ δ} (hp : Pile.Inv f.progs) (hn : Flow.NamesOK f) : NamesShown f := by
  have hmem : ∀ p, p ∈ Pile.abs f.progs ↔ f.progs.items.get? p.id = some p := Pile.mem_abs hp
  have habsent : ∀ n, (∀ p ∈ Pile.abs f.progs, p.data.name ≠ some n) → f.names.get? n = none := by
    intro n h
    cases hc : f.names.get? n with
    | none => rfl
    | some u =>
      obtain ⟨p, h1, h2⟩ := (hn n u).1 hc
      have hid := hp.ids u p h1
      exact absurd ((Flow.truthy_eq_some_iff _ _).1 h2).1 (h p ((hmem p).2 (by rw [hid]; exact h1)))
  refine ⟨Pile.abs f.progs, Pile.iter_eq hp, ?_, (Pile.abs_length hp).symm, ?_, ?_, ?_, ?_, ?_⟩
  · rw [Pile.abs_ids hp]; exact hp.nodup
  · intro p h
    simp [Flow.getProgression, (hmem p).1 h]
  · intro p h n r h1 hne
    have hp' := (hmem p).1 h
    have := (hn n p.id).2 ⟨p, hp', (Flow.truthy_eq_some_iff _ _).2 ⟨h1, hne⟩⟩
    simp [Flow.getProgression, this, hp']
  · intro p h q hq n hne hpn hqn
    have h1 := (hn n p.id).2 ⟨p, (hmem p).1 h, (Flow.truthy_eq_some_iff _ _).2 ⟨hpn, hne⟩⟩
    have h2 := (hn n q.id).2 ⟨q, (hmem q).1 hq, (Flow.truthy_eq_some_iff _ _).2 ⟨hqn, hne⟩⟩
    rw [h1] at h2
    have h3 := Option.some.inj h2
    have h4 := (hmem p).1 h
    rw [h3, (hmem q).1 hq] at h4
    exact (Option.some.inj h4).symm
  · intro n h
    simp [Flow.getProgression, habsent n h]
  · intro n u h hu
    have : f.progs.items.get? u = none := by
      cases hc : f.progs.items.get? u with
      | none => rfl
      | some p =>
        have hid := hp.ids u p hc
        exact absurd hid (hu p ((hmem p).2 (by rw [hid]; exact hc)))
    simp [Flow.getProgression, habsent n h, this]

theorem itemsShown_of {f : Flow ι γ δ} (hp : Pile.Inv f.items) : ItemsShown f := by
  refine ⟨Pile.abs f.items, Pile.iter_eq hp, ?_, (Pile.abs_length hp).symm, ?_, fun u => ?_⟩
  · rw [Pile.abs_ids hp]; exact hp.nodup
  · rw [Pile.abs_ids hp]; rfl
  · simp only [Pile.contains, Dict.has_iff, ← hp.mem_iff]
    rw [← Pile.abs_ids hp]
    simp only [List.mem_map]

theorem inv0 {f₀ : Flow ι γ δ} (hg : Flow.Good f₀) (sub : γ → γ → Bool) (cs : Nat → List (Flow.Op ι γ δ)) (fuel : Nat) (sched : List Nat) :
    OwnInv 0 SameView AllIn (run (threads sub fuel f₀ cs) sched) := by
  refine OwnInv.run closed_allIn sched _ (OwnInv.init (allIn_iff.2 ⟨hg.piles.progs, hg.namesWF, hg.names⟩) (fun t p hp => ?_))
  obtain ⟨c, -, rfl⟩ := List.mem_map.1 hp
  exact call_own sub fuel c

theorem inv1 {f₀ : Flow ι γ δ} (hi : Pile.Inv f₀.items) (sub : γ → γ → Bool) (cs : Nat → List (Flow.Op ι γ δ)) (fuel : Nat) (sched : List Nat) :
    OwnInv 1 SameItems ItemsIn (run (threads sub fuel f₀ cs) sched) := by
  refine OwnInv.run closed_itemsIn sched _ (OwnInv.init hi (fun t p hp => ?_))
  obtain ⟨c, -, rfl⟩ := List.mem_map.1 hp
  exact call_own1 sub fuel c

/-- **C288**, the names.  Threads make any `add_progression`, `remove_progression`, `add_item` and `remove_item` calls on one flow, constructed with distinct
names: under every schedule, whenever no thread holds the flow's lock, the name index and the progressions agree. -/
theorem C288_names (sub : γ → γ → Bool) (xs : List (Pile.Arg ι γ δ)) (t : Option (List γ)) (s : Bool)
    (ps : List (Flow.Prog ι)) (f₀ : Flow ι γ δ) (h₀ : Flow.Built sub xs t s ps f₀) (hd : Flow.DistinctNames ps)
    (cs : Nat → List (Flow.Op ι γ δ)) (fuel : Nat) (sched : List Nat) (hfree : (run (threads sub fuel f₀ cs) sched).locks 0 = none) :
    NamesShown (run (threads sub fuel f₀ cs) sched).shared := by
  obtain ⟨h1, h2, h3⟩ := allIn_iff.1 ((inv0 (h₀.good hd) sub cs fuel sched).free hfree)
  exact namesShown_of h1 h3

/-- **C288**, the items: whenever no thread holds the lock of the items, they can be listed, each once. -/
theorem C288_items (sub : γ → γ → Bool) (xs : List (Pile.Arg ι γ δ)) (t : Option (List γ)) (s : Bool)
    (ps : List (Flow.Prog ι)) (f₀ : Flow ι γ δ) (h₀ : Flow.Built sub xs t s ps f₀)
    (cs : Nat → List (Flow.Op ι γ δ)) (fuel : Nat) (sched : List Nat) (hfree : (run (threads sub fuel f₀ cs) sched).locks 1 = none) :
    ItemsShown (run (threads sub fuel f₀ cs) sched).shared :=
  itemsShown_of ((inv1 h₀.ok.1.items sub cs fuel sched).free hfree)

/-- **C288**: in particular whenever no call is in progress. -/
theorem C288_at_rest (sub : γ → γ → Bool) (xs : List (Pile.Arg ι γ δ)) (t : Option (List γ)) (s : Bool)
    (ps : List (Flow.Prog ι)) (f₀ : Flow ι γ δ) (h₀ : Flow.Built sub xs t s ps f₀) (hd : Flow.DistinctNames ps)
    (cs : Nat → List (Flow.Op ι γ δ)) (fuel : Nat) (sched : List Nat) (hrest : ∀ t, ((run (threads sub fuel f₀ cs) sched).threads t).cur = none) :
    NamesShown (run (threads sub fuel f₀ cs) sched).shared ∧ ItemsShown (run (threads sub fuel f₀ cs) sched).shared := by
  refine ⟨C288_names sub xs t s ps f₀ h₀ hd cs fuel sched ?_, C288_items sub xs t s ps f₀ h₀ cs fuel sched ?_⟩
  · cases hl : (run (threads sub fuel f₀ cs) sched).locks 0 with
    | none => rfl
    | some od => exact absurd hl ((inv0 (h₀.good hd) sub cs fuel sched).idle od.1 (hrest od.1) od.2)
  · cases hl : (run (threads sub fuel f₀ cs) sched).locks 1 with
    | none => rfl
    | some od => exact absurd hl ((inv1 h₀.ok.1.items sub cs fuel sched).idle od.1 (hrest od.1) od.2)

/-- Thread 0 replaces the progression named "a" and adds an item to it, thread 1 adds one named "a" too, thread 2 removes an item. -/
def busy : Nat → List (Flow.Op Nat Unit Unit)
  | 0 => [.removeProgression (.str ⟨"a", none⟩), .addItem (some ⟨3, (), ()⟩) [.key (.str ⟨"a", none⟩)]]
  | 1 => [.addProgression (Flow.p11 (some "a") [2])]
  | 2 => [.removeItem (some 1)]
  | _ => []

/-- Non-vacuity of C288: the three threads interleave, the flow is built, and in the end all calls have returned, the new progression bears the name. -/
example : Flow.Built (fun _ _ => true) [some Flow.i1, some Flow.i2] none false [Flow.p10 (some "a") [1]] (Flow.flow1 (Flow.p10 (some "a") [1])) ∧
    Flow.DistinctNames [Flow.p10 (some "a") [1]] := by
  refine ⟨Flow.flow1_built _ _ (by simp), ?_⟩
  simp [Flow.DistinctNames, Flow.p10, Flow.truthy, Pile.truthyName]

example :
    let m := run (threads (fun _ _ => true) 9 (Flow.flow1 (Flow.p10 (some "a") [1])) busy) ((List.replicate 60 [0, 2, 1, 0, 2]).flatten)
    m.locks 0 = none ∧ m.locks 1 = none ∧ (m.threads 0).cur.isNone ∧ (m.threads 1).cur.isNone ∧ (m.threads 2).cur.isNone ∧
      ((m.threads 0).out.map (·.toOption.isSome)) = [true, true] ∧ ((m.threads 1).out.map (·.toOption.isSome)) = [true] ∧
      ((m.threads 2).out.map (·.toOption.isSome)) = [true] ∧
      Pile.iter m.shared.progs = .ok [Flow.p11 (some "a") [2, 3]] ∧ Pile.keys m.shared.items = [2, 3] := by
  decide +kernel

end Verif.FlowSync
