import Verif.Model.LeakTracker

/-!
# C82, C136: the leak tracker
-/

set_option linter.unusedSectionVars false
set_option linter.unusedSimpArgs false
set_option linter.unusedVariables false

namespace Verif.Leak

/-! ### Specification -/

/-- The ideal tracker knows objects, not addresses: which objects are alive (with their address, for the default name), and which are tracked. -/
structure Ideal where
  alive : Dict Nat Nat := []
  tracked : Dict Nat Info := []

/-- What is listed for a tracked object: the given name unless missing or empty, else a name made from the address. -/
def entry (name kind : Option String) (time addr : Nat) : Info :=
  { name := if name.getD "" = "" then "obj-" ++ toString addr else name.getD "", kind := kind, createdAt := time }

theorem infoFor_eq (name kind : Option String) (time addr : Nat) : infoFor name kind time addr = entry name kind time addr := by
  unfold infoFor entry nameFor
  cases name with
  | none => rfl
  | some n => simp only [Option.getD_some]

/-- The ideal tracker: `track` records the object, `untrack` and the object's destruction forget it, `clear` forgets everything. -/
def Ideal.step (t : Ideal) : Op → Ideal
  | .create o a => if o ∈ t.alive.keys ∨ a ∈ t.alive.values then t else { t with alive := t.alive.set o a }
  | .destroy o => { alive := t.alive.del o, tracked := t.tracked.del o }
  | .track o name kind time =>
    match t.alive.get? o with
    | none => t
    | some a => { t with tracked := t.tracked.set o (entry name kind time a) }
  | .untrack o => if o ∈ t.alive.keys then { t with tracked := t.tracked.del o } else t
  | .clear => { t with tracked := [] }

def Ideal.run (h : List Op) : Ideal := h.foldl Ideal.step {}

/-! ### Re-keying -/

def rekey (f : Nat → Nat) (d : Dict Nat Info) : Dict Nat Info := d.map (fun p => (f p.1, p.2))

theorem rekey_set (f : Nat → Nat) (o : Nat) (i : Info) : ∀ d : Dict Nat Info, (∀ k ∈ d.keys, f k = f o → k = o) → rekey f (d.set o i) = (rekey f d).set (f o) i
  | [], _ => rfl
  | (k, v) :: d, h => by
    have ih := rekey_set f o i d (fun k' hk' => h k' (List.mem_cons_of_mem _ hk'))
    by_cases e : k = o
    · subst e; simp [Dict.set, rekey]
    · have e' : f k ≠ f o := fun hc => e (h k List.mem_cons_self hc)
      simp only [Dict.set, if_neg e, rekey, List.map_cons, if_neg e']
      exact congrArg _ ih

theorem rekey_del (f : Nat → Nat) (o : Nat) : ∀ d : Dict Nat Info, (∀ k ∈ d.keys, f k = f o → k = o) → rekey f (d.del o) = (rekey f d).del (f o)
  | [], _ => rfl
  | (k, v) :: d, h => by
    have ih := rekey_del f o d (fun k' hk' => h k' (List.mem_cons_of_mem _ hk'))
    by_cases e : k = o
    · subst e; simp [Dict.del, rekey]
    · have e' : f k ≠ f o := fun hc => e (h k List.mem_cons_self hc)
      simp only [Dict.del, if_neg e, rekey, List.map_cons, if_neg e']
      exact congrArg _ ih

theorem rekey_congr {f g : Nat → Nat} {d : Dict Nat Info} (h : ∀ k ∈ d.keys, f k = g k) : rekey f d = rekey g d := by
  unfold rekey
  apply List.map_congr_left
  intro p hp
  rw [h p.1 (List.mem_map.2 ⟨p, hp, rfl⟩)]

theorem keys_rekey (f : Nat → Nat) (d : Dict Nat Info) : (rekey f d).keys = d.keys.map f := by
  simp [rekey, Dict.keys]

theorem values_rekey (f : Nat → Nat) (d : Dict Nat Info) : (rekey f d).values = d.values := by
  simp [rekey, Dict.values]

/-! ### Invariant -/

def addrOf (alive : Dict Nat Nat) (o : Nat) : Nat := (alive.get? o).getD 0

structure Inv (s : State) (t : Ideal) : Prop where
  alive : s.alive = t.alive
  wf : s.alive.WF
  twf : t.tracked.WF
  inj : ∀ o o' a, s.alive.get? o = some a → s.alive.get? o' = some a → o = o'
  sub : ∀ o ∈ t.tracked.keys, o ∈ s.alive.keys
  fins : ∀ p ∈ s.fins, s.alive.get? p.1 = some p.2
  has : ∀ o ∈ t.tracked.keys, ∃ k, (o, k) ∈ s.fins
  live : s.live = rekey (addrOf s.alive) t.tracked

theorem Inv.addr_inj {s : State} {t : Ideal} (h : Inv s t) {o : Nat} (ho : o ∈ s.alive.keys) : ∀ k ∈ t.tracked.keys, addrOf s.alive k = addrOf s.alive o → k = o := by
  intro k hk he
  obtain ⟨a, ha⟩ := Option.isSome_iff_exists.1 ((Dict.get?_isSome_iff _ _).2 (h.sub k hk))
  obtain ⟨b, hb⟩ := Option.isSome_iff_exists.1 ((Dict.get?_isSome_iff _ _).2 ho)
  simp only [addrOf, ha, hb, Option.getD_some] at he
  subst he
  exact h.inj _ _ _ ha hb

theorem runFins_same {live : Dict Nat Info} (wf : live.WF) (a : Nat) : ∀ l : List Nat, (∀ k ∈ l, k = a) → l ≠ [] → runFins live l = live.del a := by
  have stay : ∀ (l : List Nat) (d : Dict Nat Info), (∀ k ∈ l, k = a) → a ∉ d.keys → runFins d l = d := by
    intro l
    induction l with
    | nil => intro d _ _; rfl
    | cons k l ih =>
      intro d hk hd
      have := hk k List.mem_cons_self
      subst this
      unfold runFins
      rw [List.foldl_cons, Dict.del_of_notMem hd]
      exact ih d (fun k' hk' => hk k' (List.mem_cons_of_mem _ hk')) hd
  intro l hl hne
  cases l with
  | nil => exact absurd rfl hne
  | cons k l =>
    have := hl k List.mem_cons_self
    subst this
    unfold runFins
    rw [List.foldl_cons]
    exact stay l (live.del k) (fun k' hk' => hl k' (List.mem_cons_of_mem _ hk')) (by rw [Dict.mem_keys_del wf]; simp)

theorem mem_finsOf {fins : List (Nat × Nat)} {o k : Nat} : k ∈ finsOf fins o ↔ (o, k) ∈ fins := by
  unfold finsOf
  constructor
  · intro h
    obtain ⟨p, hp, he⟩ := List.mem_map.1 h
    obtain ⟨h1, h2⟩ := List.mem_filter.1 hp
    have h2 : p.1 = o := by simpa using h2
    subst h2; subst he; exact h1
  · intro h
    exact List.mem_map.2 ⟨(o, k), List.mem_filter.2 ⟨h, by simp⟩, rfl⟩

theorem live_wf {s : State} {t : Ideal} (h : Inv s t) : s.live.WF := by
  unfold Dict.WF
  rw [h.live, keys_rekey]
  have : ∀ (l : List Nat), l.Nodup → (∀ o ∈ l, o ∈ s.alive.keys) → (l.map (addrOf s.alive)).Nodup := by
    intro l
    induction l with
    | nil => intro _ _; simp
    | cons o l ih =>
      intro hn hs
      rw [List.map_cons, List.nodup_cons]
      rw [List.nodup_cons] at hn
      refine ⟨fun hm => ?_, ih hn.2 (fun o ho => hs o (List.mem_cons_of_mem _ ho))⟩
      obtain ⟨o', ho', he⟩ := List.mem_map.1 hm
      obtain ⟨a, ha⟩ := Option.isSome_iff_exists.1 ((Dict.get?_isSome_iff _ _).2 (hs o List.mem_cons_self))
      obtain ⟨b, hb⟩ := Option.isSome_iff_exists.1 ((Dict.get?_isSome_iff _ _).2 (hs o' (List.mem_cons_of_mem _ ho')))
      simp only [addrOf, ha, hb, Option.getD_some] at he
      subst he
      exact hn.1 (h.inj _ _ _ ha hb ▸ ho')
  exact this _ h.twf h.sub

theorem step_inv {weak : Nat → Bool} {s : State} {t : Ideal} (h : Inv s t) (op : Op) (hw : ∀ o n k tm, op = .track o n k tm → weak o = true) : Inv (step weak s op) (t.step op) := by
  cases op with
  | create o a =>
    simp only [step, Ideal.step, ← h.alive]
    split
    · exact h
    · next hc =>
      have ho : o ∉ s.alive.keys := fun h => hc (Or.inl h)
      have ha : a ∉ s.alive.values := fun h => hc (Or.inr h)
      have hval : ∀ o' b, s.alive.get? o' = some b → b ∈ s.alive.values := fun o' b hb => List.mem_map.2 ⟨_, Dict.mem_of_get? hb, rfl⟩
      have hget : ∀ o', o' ∈ s.alive.keys → (s.alive.set o a).get? o' = s.alive.get? o' := by
        intro o' ho'
        rw [Dict.get?_set, if_neg (fun e => ho (by rw [e]; exact ho'))]
      refine ⟨rfl, Dict.set_wf h.wf _ _, h.twf, ?_, ?_, ?_, h.has, ?_⟩
      · intro o1 o2 b h1 h2
        rw [Dict.get?_set] at h1 h2
        split at h1 <;> split at h2
        · next e1 e2 => rw [← e1, ← e2]
        · cases h1; exact absurd (hval _ _ h2) ha
        · cases h2; exact absurd (hval _ _ h1) ha
        · exact h.inj _ _ _ h1 h2
      · intro o' ho'
        exact (Dict.mem_keys_set _ _ _ _).2 (Or.inr (h.sub o' ho'))
      · intro p hp
        have := h.fins p hp
        rw [hget p.1 (Dict.mem_keys_of_get? this)]; exact this
      · show s.live = rekey (addrOf (s.alive.set o a)) t.tracked
        rw [h.live]
        apply rekey_congr
        intro k hk
        unfold addrOf
        rw [hget k (h.sub k hk)]
  | destroy o =>
    simp only [step, Ideal.step]
    have hkeys : ∀ k, k ∈ (t.tracked.del o).keys → k ∈ t.tracked.keys ∧ k ≠ o := fun k hk => by
      rw [Dict.mem_keys_del h.twf] at hk; grind
    have hget : ∀ k, k ≠ o → (s.alive.del o).get? k = s.alive.get? k := fun k hk => by
      rw [Dict.get?_del h.wf, if_neg (by grind)]
    refine ⟨by rw [h.alive], Dict.del_wf h.wf _, Dict.del_wf h.twf _, ?_, ?_, ?_, ?_, ?_⟩
    · intro o1 o2 b h1 h2
      rw [Dict.get?_del h.wf] at h1 h2
      split at h1
      · cases h1
      · split at h2
        · cases h2
        · exact h.inj _ _ _ h1 h2
    · intro k hk
      obtain ⟨h1, h2⟩ := hkeys k hk
      rw [Dict.mem_keys_del h.wf]
      have := h.sub k h1
      grind
    · intro p hp
      obtain ⟨h1, h2⟩ := List.mem_filter.1 hp
      have h2 : p.1 ≠ o := by simpa using h2
      show (s.alive.del o).get? p.1 = _
      rw [hget _ h2]; exact h.fins p h1
    · intro k hk
      obtain ⟨h1, h2⟩ := hkeys k hk
      obtain ⟨a, ha⟩ := h.has k h1
      exact ⟨a, List.mem_filter.2 ⟨ha, by simpa using h2⟩⟩
    · show runFins s.live (finsOf s.fins o) = rekey (addrOf (s.alive.del o)) (t.tracked.del o)
      have hr : rekey (addrOf (s.alive.del o)) (t.tracked.del o) = rekey (addrOf s.alive) (t.tracked.del o) := by
        apply rekey_congr
        intro k hk
        unfold addrOf
        rw [hget k (hkeys k hk).2]
      rw [hr]
      by_cases hn : finsOf s.fins o = []
      · have hnt : o ∉ t.tracked.keys := fun hc => by
          obtain ⟨k, hk⟩ := h.has o hc
          have := mem_finsOf.2 hk
          rw [hn] at this; cases this
        rw [hn, Dict.del_of_notMem hnt]; exact h.live
      · obtain ⟨k, hk⟩ := List.exists_mem_of_ne_nil _ hn
        have hk' := h.fins _ (mem_finsOf.1 hk)
        have ho : o ∈ s.alive.keys := Dict.mem_keys_of_get? hk'
        have hall : ∀ k' ∈ finsOf s.fins o, k' = addrOf s.alive o := by
          intro k' hk''
          have := h.fins _ (mem_finsOf.1 hk'')
          unfold addrOf
          rw [this]; rfl
        rw [runFins_same (live_wf h) _ _ hall hn, rekey_del _ _ _ (h.addr_inj ho), ← h.live]
  | track o n k tm =>
    simp only [step, Ideal.step, ← h.alive]
    cases ha : s.alive.get? o with
    | none => exact h
    | some a =>
      simp only [track, hw o n k tm rfl, if_true]
      have ho : o ∈ s.alive.keys := Dict.mem_keys_of_get? ha
      refine ⟨rfl, h.wf, Dict.set_wf h.twf _ _, h.inj, ?_, ?_, ?_, ?_⟩
      · intro o' ho'
        rcases (Dict.mem_keys_set _ _ _ _).1 ho' with h' | h'
        · first | exact h.sub _ h' | (rw [h']; exact ho)
        · first | exact h.sub _ h' | (rw [h']; exact ho)
      · intro p hp
        rcases List.mem_append.1 hp with hp | hp
        · exact h.fins p hp
        · rw [List.mem_singleton.1 hp]; exact ha
      · intro o' ho'
        by_cases e : o' = o
        · exact ⟨a, List.mem_append.2 (Or.inr (by rw [e]; simp))⟩
        · have : o' ∈ t.tracked.keys := by
            rcases (Dict.mem_keys_set _ _ _ _).1 ho' with h' | h'
            · first | exact h' | exact absurd h' e
            · first | exact h' | exact absurd h' e
          obtain ⟨k, hk⟩ := h.has o' this
          exact ⟨k, List.mem_append.2 (Or.inl hk)⟩
      · show s.live.set a _ = rekey (addrOf s.alive) (t.tracked.set o _)
        rw [rekey_set _ _ _ _ (h.addr_inj ho), ← h.live]
        simp only [addrOf, ha, Option.getD_some, infoFor_eq]
  | untrack o =>
    simp only [step, Ideal.step, ← h.alive]
    cases ha : s.alive.get? o with
    | none => rw [if_neg ((Dict.get?_eq_none_iff _ _).1 ha)]; exact ⟨h.1, h.2, h.3, h.4, h.5, h.6, h.7, h.8⟩
    | some a =>
      have ho : o ∈ s.alive.keys := Dict.mem_keys_of_get? ha
      rw [if_pos ho]
      have hk : ∀ k, k ∈ (t.tracked.del o).keys → k ∈ t.tracked.keys := fun k hk => by
        rw [Dict.mem_keys_del h.twf] at hk; grind
      refine ⟨rfl, h.wf, Dict.del_wf h.twf _, h.inj, fun k hk' => h.sub k (hk k hk'), h.fins, fun k hk' => h.has k (hk k hk'), ?_⟩
      show s.live.del a = rekey (addrOf s.alive) (t.tracked.del o)
      rw [rekey_del _ _ _ (h.addr_inj ho), ← h.live]
      simp only [addrOf, ha, Option.getD_some]
  | clear =>
    exact ⟨h.alive, h.wf, List.nodup_nil, h.inj, (fun _ hk => by cases hk), h.fins, (fun _ hk => by cases hk), rfl⟩

/-- **C82**. If every object passed to `track` can be weakly referenced, then after every history — objects created and destroyed at any time, addresses reused, objects tracked repeatedly, untracked, the tracker cleared — `live()` lists exactly the entries of the tracked, not untracked, still alive objects, in order. Not covered: objects that cannot be weakly referenced, see `C82_slots_limit`. -/
theorem C82_live (weak : Nat → Bool) (h : List Op) (hw : ∀ o n k tm, .track o n k tm ∈ h → weak o = true) :
    live (run weak h) = (Ideal.run h).tracked.values := by
  have : ∀ (h : List Op) s t, Inv s t → (∀ o n k tm, .track o n k tm ∈ h → weak o = true) → Inv (h.foldl (step weak) s) (h.foldl Ideal.step t) := by
    intro h
    induction h with
    | nil => intro s t hi _; exact hi
    | cons op h ih =>
      intro s t hi hw
      exact ih _ _ (step_inv hi op (fun o n k tm e => hw o n k tm (by rw [e]; exact List.mem_cons_self))) (fun o n k tm hm => hw o n k tm (List.mem_cons_of_mem _ hm))
  have hinv := this h {} {} ⟨rfl, List.nodup_nil, List.nodup_nil, (by intro _ _ _ h; cases h), (by intro _ h; cases h), (by intro _ h; cases h), (by intro _ h; cases h), rfl⟩ hw
  unfold live
  show Dict.values (h.foldl (step weak) {}).live = _
  rw [hinv.live, values_rekey]; rfl

/-- The ideal tracker only lists objects that are alive. -/
theorem ideal_alive (h : List Op) : ∀ o ∈ (Ideal.run h).tracked.keys, o ∈ (Ideal.run h).alive.keys := by
  intro o ho
  have : ∀ (h : List Op) s t, Inv s t → Inv (h.foldl (step (fun _ => true)) s) (h.foldl Ideal.step t) := by
    intro h
    induction h with
    | nil => intro s t hi; exact hi
    | cons op h ih => intro s t hi; exact ih _ _ (step_inv hi op (fun _ _ _ _ _ => rfl))
  have hinv := this h {} {} ⟨rfl, List.nodup_nil, List.nodup_nil, (by intro _ _ _ h; cases h), (by intro _ h; cases h), (by intro _ h; cases h), (by intro _ h; cases h), rfl⟩
  have := hinv.sub o ho
  rw [hinv.alive] at this
  exact this

/-- **C82**. An object that cannot be weakly referenced (an `int`, a `tuple`, an instance with `__slots__`): `track` raises `TypeError`, but the entry stays, even after the object is gone. -/
theorem C82_slots_limit : (track (fun _ => false) { alive := [(1, 100)] } 1 100 (some "x") none 0).2 = .error .typeError ∧
    live (run (fun _ => false) [.create 1 100, .track 1 (some "x") none 0, .destroy 1]) = [⟨"x", none, 0⟩] := by decide

/-- Address 100 is reused: the finalizer of the first object does not touch the entry of the second. -/
example : live (run (fun _ => true) [.create 1 100, .track 1 (some "x") none 0, .track 1 (some "y") none 1, .destroy 1, .create 2 100, .track 2 (some "z") none 2, .create 3 101, .track 3 none none 3, .destroy 3]) = [⟨"z", none, 2⟩] := by decide

/-! ### C136 -/

/-- The schedule never collects finalizable garbage between `enter` and `exit`, and calls do not nest. -/
def Quiet : Bool → List LockOp → Prop
  | _, [] => True
  | held, .enter :: r => held = false ∧ Quiet true r
  | _, .exit :: r => Quiet false r
  | held, .collect n :: r => (held = true → n = 0) ∧ Quiet held r

/-- **C136** (partial). A thread whose collections of tracked cyclic garbage all happen outside of tracker calls is never blocked by the tracker's lock. Missing: collections inside a call, see the violation. -/
theorem C136_never_stuck_partial (h : List LockOp) (hq : Quiet false h) : (lockRun h).stuck = false := by
  have : ∀ (h : List LockOp) (s : LockState), s.stuck = false → Quiet s.held h → (h.foldl lockStep s).stuck = false := by
    intro h
    induction h with
    | nil => intro s hs _; exact hs
    | cons op h ih =>
      intro s hs hq
      rw [List.foldl_cons]
      obtain ⟨held, stuck⟩ := s
      simp only at hs; subst hs
      cases op with
      | enter =>
        obtain ⟨h1, h2⟩ := hq
        simp only at h1; subst h1
        exact ih _ rfl h2
      | exit => exact ih _ rfl hq
      | collect n =>
        obtain ⟨h1, h2⟩ := hq
        have e : lockStep ⟨held, false⟩ (.collect n) = ⟨held, false⟩ := by
          simp only [lockStep]
          rw [if_neg (by decide), if_neg]
          rintro ⟨a, b⟩
          have := h1 a
          omega
        rw [e]
        exact ih _ rfl h2
  exact this h {} rfl hq

/-- **C136** (violation). If the collector runs while a tracker call holds the lock and destroys one tracked object that was part of a reference cycle, the thread waits for a lock it holds itself; nothing that happens afterwards unblocks it. -/
theorem C136_gc_violation (rest : List LockOp) (n : Nat) (hn : 0 < n) : (lockRun (.enter :: .collect n :: rest)).stuck = true := by
  have : ∀ (h : List LockOp) (s : LockState), s.stuck = true → (h.foldl lockStep s).stuck = true := by
    intro h
    induction h with
    | nil => intro s hs; exact hs
    | cons op h ih =>
      intro s hs
      refine ih _ ?_
      cases op <;> simp [lockStep, hs]
  refine this rest _ ?_
  simp [lockStep, hn]

example : Quiet false [.enter, .collect 0, .exit, .collect 3, .enter, .exit] ∧ (lockRun [.enter, .collect 0, .exit, .collect 3, .enter, .exit]).stuck = false := by
  refine ⟨?_, by decide⟩
  simp [Quiet]

/-- **C136** exactly: a thread is not blocked by the tracker's lock exactly if its tracker calls do not nest and no tracked cyclic garbage is collected inside one. -/
theorem C136_exact_partial (h : List LockOp) : (lockRun h).stuck = false ↔ Quiet false h := by
  have stays : ∀ (h : List LockOp) (s : LockState), s.stuck = true → (h.foldl lockStep s).stuck = true := by
    intro h
    induction h with
    | nil => intro s hs; exact hs
    | cons op h ih =>
      intro s hs
      refine ih _ ?_
      cases op <;> simp [lockStep, hs]
  have key : ∀ (h : List LockOp) (held : Bool), (h.foldl lockStep ⟨held, false⟩).stuck = false → Quiet held h := by
    intro h
    induction h with
    | nil => intro _ _; trivial
    | cons op h ih =>
      intro held hs
      rw [List.foldl_cons] at hs
      cases op with
      | enter =>
        cases held with
        | false => exact ⟨rfl, ih true hs⟩
        | true =>
          have := stays h (lockStep ⟨true, false⟩ .enter) rfl
          rw [this] at hs; cases hs
      | exit => exact ih false hs
      | collect n =>
        by_cases hn : held = true ∧ 0 < n
        · have e : lockStep ⟨held, false⟩ (.collect n) = ⟨held, true⟩ := by
            simp only [lockStep]
            rw [if_neg (by decide), if_pos hn]
          have := stays h (lockStep ⟨held, false⟩ (.collect n)) (by rw [e])
          rw [this] at hs; cases hs
        · have e : lockStep ⟨held, false⟩ (.collect n) = ⟨held, false⟩ := by
            simp only [lockStep]
            rw [if_neg (by decide), if_neg hn]
          rw [e] at hs
          refine ⟨fun hh => ?_, ih held hs⟩
          have : ¬ 0 < n := fun h0 => hn ⟨hh, h0⟩
          omega
  exact ⟨key h false, C136_never_stuck_partial h⟩

end Verif.Leak
