import Verif.Model.BroadcastRefs
import Verif.Props.RunAsync

set_option linter.unusedSimpArgs false
set_option linter.unusedVariables false

/-!
# C321, C322: weak references of a broadcaster, and the bodies a broadcast runs
-/

namespace Verif.BroadcastRefs

open Broadcaster (Cb Hub Behaviour)
open RunAsync (Callable coroBody IsAsync OnFunction)

/-! ### Specification -/

/-- One of the results reports that the body of `c` ran. -/
def Called (outs : List Out) (c : Cb) : Prop := ∃ cs b, Out.ran cs b ∈ outs ∧ c ∈ cs

/-- The object no longer exists. -/
def Collected (s : Sys) (h : Nat) : Prop := h ∈ s.hub.dead

/-- Callbacks are functions, bound methods or partials of them, which are equal only to themselves. -/
structure Ordinary (w : World) : Prop where
  fn : ∀ c, OnFunction (w.kind c)
  ident : ∀ a b, w.same a b = true ↔ a = b
  eqv : ∀ a b, w.eqv a b = true → a = b

/-- What a broadcast runs completely: hashable callables that do not return a coroutine, and `async def` functions, methods or partials of them. -/
def Runs (k : Callable) : Prop := k.hashable = true ∧ (IsAsync k → OnFunction k)

/-! ### The loop -/

theorem mem_remember {w : World} {cache : List Cb} {c k : Cb} (h : k ∈ remember w cache c) : k ∈ cache ∨ k = c := by
  unfold remember at h
  by_cases e : (entry w cache c).isSome = true
  · rw [if_pos e] at h; exact .inl h
  · rw [if_neg e] at h; simpa using h

theorem remember_keeps {w : World} {cache : List Cb} {c k : Cb} (h : k ∈ cache) : k ∈ remember w cache c := by
  unfold remember
  by_cases e : (entry w cache c).isSome = true
  · rw [if_pos e]; exact h
  · rw [if_neg e]; simp [h]

theorem remember_self {w : World} (hi : ∀ a b, w.same a b = true ↔ a = b) (cache : List Cb) (c : Cb) : c ∈ remember w cache c := by
  unfold remember
  by_cases e : (entry w cache c).isSome = true
  · rw [if_pos e]
    obtain ⟨x, hx⟩ := Option.isSome_iff_exists.1 e
    have h1 := List.find?_some hx
    have h2 := List.mem_of_find?_eq_some hx
    have := (hi x c).1 h1
    rw [← this]; exact h2
  · rw [if_neg e]; simp

theorem answer_eq {w : World} (hi : ∀ a b, w.same a b = true ↔ a = b) (cache : List Cb) (c : Cb) : answer w cache c = coroBody (w.kind c) := by
  unfold answer
  cases e : entry w cache c with
  | none => rfl
  | some x =>
    have h1 : w.same x c = true := by
      unfold entry at e
      have h2 := List.find?_some e
      exact h2
    rw [(hi x c).1 h1]; rfl

theorem loop_cache (w : World) (beh : Cb → Behaviour) : ∀ (cs cache : List Cb) (k : Cb), k ∈ (loop w beh cache cs).1 → k ∈ cache ∨ k ∈ cs
  | [], cache, k, h => .inl h
  | c :: cs, cache, k, h => by
    have down : ∀ cache', k ∈ (loop w beh cache' cs).1 → (∀ k, k ∈ cache' → k ∈ cache ∨ k = c) → k ∈ cache ∨ k ∈ c :: cs := by
      intro cache' h1 h2
      rcases loop_cache w beh cs cache' k h1 with h3 | h3
      · rcases h2 k h3 with h4 | h4
        · exact .inl h4
        · exact .inr (by simp [h4])
      · exact .inr (by simp [h3])
    unfold loop at h
    by_cases h1 : (w.kind c).hashable = true
    · rw [if_pos h1] at h
      by_cases h2 : bodyRuns w cache c = true
      · rw [if_pos h2] at h
        by_cases h3 : beh c = .aborts
        · rw [if_pos h3] at h
          rcases mem_remember h with h4 | h4
          · exact .inl h4
          · exact .inr (by simp [h4])
        · rw [if_neg h3] at h; exact down _ h (fun k => mem_remember)
      · rw [if_neg h2] at h; exact down _ h (fun k => mem_remember)
    · rw [if_neg h1] at h; exact down _ h (fun k hk => .inl hk)

theorem loop_keeps (w : World) (beh : Cb → Behaviour) : ∀ (cs cache : List Cb) (k : Cb), k ∈ cache → k ∈ (loop w beh cache cs).1
  | [], cache, k, h => h
  | c :: cs, cache, k, h => by
    unfold loop
    by_cases h1 : (w.kind c).hashable = true
    · rw [if_pos h1]
      by_cases h2 : bodyRuns w cache c = true
      · rw [if_pos h2]
        by_cases h3 : beh c = .aborts
        · rw [if_pos h3]; exact remember_keeps h
        · rw [if_neg h3]; exact loop_keeps w beh cs _ k (remember_keeps h)
      · rw [if_neg h2]; exact loop_keeps w beh cs _ k (remember_keeps h)
    · rw [if_neg h1]; exact loop_keeps w beh cs _ k h

theorem loop_sub (w : World) (beh : Cb → Behaviour) : ∀ (cs cache : List Cb), (loop w beh cache cs).2.1.Sublist cs
  | [], cache => .slnil
  | c :: cs, cache => by
    unfold loop
    by_cases h1 : (w.kind c).hashable = true
    · rw [if_pos h1]
      by_cases h2 : bodyRuns w cache c = true
      · rw [if_pos h2]
        by_cases h3 : beh c = .aborts
        · rw [if_pos h3]; exact List.Sublist.cons_cons c (List.nil_sublist cs)
        · rw [if_neg h3]; exact List.Sublist.cons_cons c (loop_sub w beh cs _)
      · rw [if_neg h2]; exact List.Sublist.cons c (loop_sub w beh cs _)
    · rw [if_neg h1]; exact List.Sublist.cons c (loop_sub w beh cs _)

theorem givesCoro_iff (k : Callable) : givesCoro k = true ↔ IsAsync k := by
  unfold givesCoro
  induction k with
  | fn a =>
    cases a
    · exact ⟨fun h => absurd h (by decide), fun h => by cases h⟩
    · exact ⟨fun _ => .fn, fun _ => rfl⟩
  | obj a h =>
    cases a
    · exact ⟨fun h => absurd h (by simp [Callable.unwrap, Callable.isCoroFn, Callable.asyncObj]), fun h => by cases h⟩
    · exact ⟨fun _ => .obj h, fun _ => rfl⟩
  | partial_ f ih =>
    constructor
    · intro h; exact .partial_ (ih.1 h)
    · intro h; cases h with
      | partial_ h => exact ih.2 h

theorem coro_onFunction {k : Callable} (h : coroBody k = true) : OnFunction k := by
  unfold coroBody at h
  induction k with
  | fn a => exact .fn a
  | obj a b => simp [Callable.unwrap, Callable.isCoroFn] at h
  | partial_ f ih => exact .partial_ (ih h)

theorem runs_iff {w : World} (hi : ∀ a b, w.same a b = true ↔ a = b) (cache : List Cb) (c : Cb) :
    Runs (w.kind c) ↔ (w.kind c).hashable = true ∧ bodyRuns w cache c = true := by
  unfold Runs bodyRuns
  rw [answer_eq hi]
  constructor
  · rintro ⟨h1, h2⟩
    refine ⟨h1, ?_⟩
    cases e : givesCoro (w.kind c) with
    | false => rfl
    | true =>
      have ha := (givesCoro_iff _).1 e
      simp [(RunAsync.coroBody_iff (h2 ha)).2 ha]
  · rintro ⟨h1, h2⟩
    refine ⟨h1, fun ha => ?_⟩
    rw [(givesCoro_iff _).2 ha] at h2
    exact coro_onFunction (by simpa using h2)

theorem loop_ran {w : World} (hi : ∀ a b, w.same a b = true ↔ a = b) (beh : Cb → Behaviour) : ∀ (cs cache : List Cb),
    (loop w beh cache cs).2.2 = true → ∀ c, c ∈ (loop w beh cache cs).2.1 ↔ c ∈ cs ∧ Runs (w.kind c)
  | [], cache, _, c => by simp [loop]
  | d :: cs, cache, h, c => by
    have hr := runs_iff hi cache d
    unfold loop at h ⊢
    by_cases h1 : (w.kind d).hashable = true
    · rw [if_pos h1] at h ⊢
      by_cases h2 : bodyRuns w cache d = true
      · rw [if_pos h2] at h ⊢
        by_cases h3 : beh d = .aborts
        · rw [if_pos h3] at h; exact absurd h (by simp)
        · rw [if_neg h3] at h ⊢
          have ih := loop_ran hi beh cs _ h c
          show c ∈ d :: _ ↔ _
          rw [List.mem_cons, List.mem_cons, ih]
          constructor
          · rintro (rfl | ⟨h4, h5⟩)
            · exact ⟨.inl rfl, hr.2 ⟨h1, h2⟩⟩
            · exact ⟨.inr h4, h5⟩
          · rintro ⟨rfl | h4, h5⟩
            · exact .inl rfl
            · exact .inr ⟨h4, h5⟩
      · rw [if_neg h2] at h ⊢
        rw [loop_ran hi beh cs _ h c, List.mem_cons]
        constructor
        · rintro ⟨h4, h5⟩; exact ⟨.inr h4, h5⟩
        · rintro ⟨rfl | h4, h5⟩
          · exact absurd (hr.1 h5).2 h2
          · exact ⟨h4, h5⟩
    · rw [if_neg h1] at h ⊢
      rw [loop_ran hi beh cs _ h c, List.mem_cons]
      constructor
      · rintro ⟨h4, h5⟩; exact ⟨.inr h4, h5⟩
      · rintro ⟨rfl | h4, h5⟩
        · exact absurd h5.1 h1
        · exact ⟨h4, h5⟩

/-- If not every callback had its turn, the last body that ran raised a `BaseException` and nothing after it ran. -/
theorem loop_stops {w : World} (hi : ∀ a b, w.same a b = true ↔ a = b) (beh : Cb → Behaviour) : ∀ (cs cache : List Cb),
    (loop w beh cache cs).2.2 = false → ∃ pre d post, cs = pre ++ d :: post ∧ beh d = .aborts ∧ Runs (w.kind d) ∧
      (∀ c ∈ pre, Runs (w.kind c) → beh c ≠ .aborts) ∧ ∃ ran, (loop w beh cache cs).2.1 = ran ++ [d] ∧ ran.Sublist pre ∧ ∀ c, c ∈ ran ↔ c ∈ pre ∧ Runs (w.kind c)
  | [], cache, h => by simp [loop] at h
  | d :: cs, cache, h => by
    have hr := runs_iff hi cache d
    unfold loop at h ⊢
    by_cases h1 : (w.kind d).hashable = true
    · rw [if_pos h1] at h ⊢
      by_cases h2 : bodyRuns w cache d = true
      · rw [if_pos h2] at h ⊢
        by_cases h3 : beh d = .aborts
        · rw [if_pos h3]
          exact ⟨[], d, cs, rfl, h3, hr.2 ⟨h1, h2⟩, by simp, [], rfl, .slnil, by simp⟩
        · rw [if_neg h3] at h ⊢
          obtain ⟨pre, e, post, h4, h5, h6, h7, ran, h8, h9, h10⟩ := loop_stops hi beh cs _ h
          refine ⟨d :: pre, e, post, by rw [h4]; rfl, h5, h6, ?_, d :: ran, by rw [h8]; rfl, List.Sublist.cons_cons d h9, ?_⟩
          · intro c hc
            rcases List.mem_cons.1 hc with rfl | hc
            · exact fun _ => h3
            · exact h7 c hc
          · intro c
            rw [List.mem_cons, List.mem_cons, h10]
            constructor
            · rintro (rfl | ⟨h4, h5⟩)
              · exact ⟨.inl rfl, hr.2 ⟨h1, h2⟩⟩
              · exact ⟨.inr h4, h5⟩
            · rintro ⟨rfl | h4, h5⟩
              · exact .inl rfl
              · exact .inr ⟨h4, h5⟩
      · rw [if_neg h2] at h ⊢
        obtain ⟨pre, e, post, h4, h5, h6, h7, ran, h8, h9, h10⟩ := loop_stops hi beh cs _ h
        refine ⟨d :: pre, e, post, by rw [h4]; rfl, h5, h6, ?_, ran, h8, List.Sublist.cons d h9, ?_⟩
        · intro c hc hrun
          rcases List.mem_cons.1 hc with rfl | hc
          · exact absurd (hr.1 hrun).2 h2
          · exact h7 c hc hrun
        · intro c
          rw [List.mem_cons, h10]
          constructor
          · rintro ⟨h4, h5⟩; exact ⟨.inr h4, h5⟩
          · rintro ⟨rfl | h4, h5⟩
            · exact absurd (hr.1 h5).2 h2
            · exact ⟨h4, h5⟩
    · rw [if_neg h1] at h ⊢
      obtain ⟨pre, e, post, h4, h5, h6, h7, ran, h8, h9, h10⟩ := loop_stops hi beh cs _ h
      refine ⟨d :: pre, e, post, by rw [h4]; rfl, h5, h6, ?_, ran, h8, List.Sublist.cons d h9, ?_⟩
      · intro c hc hrun
        rcases List.mem_cons.1 hc with rfl | hc
        · exact absurd hrun.1 h1
        · exact h7 c hc hrun
      · intro c
        rw [List.mem_cons, h10]
        constructor
        · rintro ⟨h4, h5⟩; exact ⟨.inr h4, h5⟩
        · rintro ⟨rfl | h4, h5⟩
          · exact absurd h5.1 h1
          · exact ⟨h4, h5⟩

theorem Ordinary.runs {w : World} (o : Ordinary w) (c : Cb) : Runs (w.kind c) := ⟨(o.fn c).hashable, fun _ => o.fn c⟩

/-- With ordinary callbacks the cache grows by the callbacks whose body ran. -/
theorem loop_called {w : World} (o : Ordinary w) (beh : Cb → Behaviour) : ∀ (cs cache : List Cb) (k : Cb),
    k ∈ (loop w beh cache cs).1 ↔ k ∈ cache ∨ k ∈ (loop w beh cache cs).2.1
  | [], cache, k => by simp [loop]
  | d :: cs, cache, k => by
    have hr := (runs_iff o.ident cache d).1 (o.runs d)
    have hm : ∀ k, k ∈ remember w cache d ↔ k ∈ cache ∨ k = d := fun k =>
      ⟨mem_remember, fun h => h.elim remember_keeps (fun e => e ▸ remember_self o.ident cache d)⟩
    unfold loop
    rw [if_pos hr.1, if_pos hr.2]
    by_cases h3 : beh d = .aborts
    · rw [if_pos h3]; simp [hm]
    · rw [if_neg h3]
      show k ∈ (loop w beh (remember w cache d) cs).1 ↔ _ ∨ k ∈ d :: _
      rw [loop_called o beh cs, hm, List.mem_cons]
      exact or_assoc

/-! ### The invariant -/

theorem pinned_iff (s : Sys) (h : Nat) : pinned s h = true ↔ ∃ k ∈ s.cache, h ∈ k.needs := by
  simp [pinned]

theorem alive_iff (b : Hub) (c : Cb) : Broadcaster.alive b c = true ↔ ∀ h ∈ c.needs, h ∉ b.dead := by
  simp [Broadcaster.alive]

theorem holds_iff (s : Sys) (c : Cb) : holds s c = true ↔ ∀ h ∈ c.needs, h ∉ s.dropped := by
  simp [holds]

theorem mem_live {w : World} {s : Sys} {c : Nat} {k : Cb} : k ∈ live w s c ↔ k ∈ s.hub.lists (w.owner c) ∧ ∀ h ∈ k.needs, h ∉ s.hub.dead := by
  unfold live Broadcaster.cleanup
  rw [List.mem_filter, alive_iff]

/-- A dropped object is collected exactly if no key of the cache refers to it; others are not. -/
structure Inv (s : Sys) : Prop where
  sub : ∀ h, h ∈ s.hub.dead → h ∈ s.dropped
  kept : ∀ h, h ∈ s.dropped → h ∉ s.hub.dead → pinned s h = true
  gone : ∀ h, h ∈ s.hub.dead → ¬ pinned s h = true

theorem inv_init : Inv {} := ⟨by simp, by simp, by simp⟩

theorem subscribe_dead (b : Hub) (o : Nat) (cb : Cb) : (Broadcaster.subscribe b o cb).dead = b.dead := by
  unfold Broadcaster.subscribe
  by_cases h : (b.lists o).any (fun r => Broadcaster.alive b r && Broadcaster.isSame r cb) = true
  · rw [if_pos h]
  · rw [if_neg h]; rfl

theorem unsubscribe_dead (b : Hub) (eqv : Nat → Nat → Bool) (o : Nat) (cb : Cb) : (Broadcaster.unsubscribe b eqv o cb).dead = b.dead := by
  unfold Broadcaster.unsubscribe
  by_cases h : (b.lists o).any (fun r => Broadcaster.alive b r && Broadcaster.isSame r cb) = true
  · rw [if_pos h]; rfl
  · rw [if_neg h]

/-- What one operation does to the collected objects, the dropped objects and the cache. -/
theorem step_cases (w : World) (s : Sys) (op : Op) :
    ((step w s op).1.hub.dead = s.hub.dead ∧ (step w s op).1.dropped = s.dropped ∧ (step w s op).1.cache = s.cache ∧
      (∀ h, op ≠ .drop h) ∧ ∀ cs b, (step w s op).2 ≠ .ran cs b) ∨
    (∃ h, op = .drop h ∧ (step w s op).1.dropped = h :: s.dropped ∧ (step w s op).1.cache = s.cache ∧ (∀ cs b, (step w s op).2 ≠ .ran cs b) ∧
      ((pinned s h = true ∧ (step w s op).1.hub.dead = s.hub.dead) ∨ (¬ pinned s h = true ∧ (step w s op).1.hub.dead = h :: s.hub.dead))) ∨
    (∃ c beh, op = .broadcast c true beh ∧ (step w s op).1.hub.dead = s.hub.dead ∧ (step w s op).1.dropped = s.dropped ∧
      (step w s op).1.cache = (loop w beh s.cache (live w s c)).1 ∧ (∀ h, op ≠ .drop h) ∧
      (step w s op).2 = .ran (loop w beh s.cache (live w s c)).2.1 (loop w beh s.cache (live w s c)).2.2) := by
  cases op with
  | subscribe c cb =>
    left
    by_cases h : holds s cb = true
    · simp [step, h, subscribe_dead]
    · simp [step, h]
  | unsubscribe c cb =>
    left
    by_cases h : holds s cb = true
    · simp [step, h, unsubscribe_dead]
    · simp [step, h]
  | drop h =>
    right; left
    by_cases hp : pinned s h = true
    · exact ⟨h, rfl, by simp [step, hp], by simp [step, hp], by simp [step, hp], .inl ⟨hp, by simp [step, hp]⟩⟩
    · exact ⟨h, rfl, by simp [step, hp], by simp [step, hp], by simp [step, hp], .inr ⟨hp, by simp [step, hp, collect]⟩⟩
  | broadcast c a beh =>
    cases a with
    | false => left; simp [step]
    | true => right; right; exact ⟨c, beh, rfl, rfl, rfl, rfl, by simp, rfl⟩
  | count c => left; exact ⟨rfl, rfl, rfl, by simp, by simp [step]⟩

theorem Inv.step {s : Sys} (i : Inv s) (w : World) (op : Op) : Inv (step w s op).1 := by
  rcases step_cases w s op with ⟨h1, h2, h3, _, _⟩ | ⟨h, _, h2, h3, _, h4⟩ | ⟨c, beh, _, h1, h2, h3, _, _⟩
  · constructor
    · intro x hx; rw [h1] at hx; rw [h2]; exact i.sub x hx
    · intro x hx hn
      rw [h2] at hx; rw [h1] at hn
      have := i.kept x hx hn
      rw [pinned_iff] at this ⊢; rw [h3]; exact this
    · intro x hx; rw [h1] at hx
      have := i.gone x hx
      rw [pinned_iff] at this ⊢; rw [h3]; exact this
  · have hp : ∀ x, pinned (BroadcastRefs.step w s op).1 x = true ↔ pinned s x = true := by
      intro x; rw [pinned_iff, pinned_iff, h3]
    rcases h4 with ⟨h4, h5⟩ | ⟨h4, h5⟩
    · constructor
      · intro x hx; rw [h5] at hx; rw [h2]; exact List.mem_cons_of_mem _ (i.sub x hx)
      · intro x hx hn
        rw [h5] at hn; rw [h2] at hx; rw [hp]
        rcases List.mem_cons.1 hx with rfl | hx
        · exact h4
        · exact i.kept x hx hn
      · intro x hx; rw [h5] at hx; rw [hp]; exact i.gone x hx
    · constructor
      · intro x hx; rw [h5] at hx; rw [h2]
        rcases List.mem_cons.1 hx with rfl | hx
        · simp
        · exact List.mem_cons_of_mem _ (i.sub x hx)
      · intro x hx hn
        rw [h5] at hn; rw [h2] at hx; rw [hp]
        rcases List.mem_cons.1 hx with rfl | hx
        · exact absurd (by simp) hn
        · exact i.kept x hx (fun e => hn (List.mem_cons_of_mem _ e))
      · intro x hx; rw [h5] at hx; rw [hp]
        rcases List.mem_cons.1 hx with rfl | hx
        · exact h4
        · exact i.gone x hx
  · constructor
    · intro x hx; rw [h1] at hx; rw [h2]; exact i.sub x hx
    · intro x hx hn
      rw [h2] at hx; rw [h1] at hn
      have := i.kept x hx hn
      rw [pinned_iff] at this ⊢; rw [h3]
      obtain ⟨k, hk, hkx⟩ := this
      exact ⟨k, loop_keeps w beh _ _ k hk, hkx⟩
    · intro x hx; rw [h1] at hx
      rw [pinned_iff, h3]
      rintro ⟨k, hk, hkx⟩
      rcases loop_cache w beh _ _ k hk with hk | hk
      · exact i.gone x hx ((pinned_iff s x).2 ⟨k, hk, hkx⟩)
      · exact (mem_live.1 hk).2 x hkx hx

theorem Inv.run {w : World} : ∀ (ops : List Op) {s : Sys}, Inv s → Inv (run w s ops).1
  | [], s, i => i
  | op :: ops, s, i => Inv.run ops (i.step w op)

theorem dropped_run {w : World} : ∀ (ops : List Op) (s : Sys) (h : Nat), h ∈ (run w s ops).1.dropped ↔ h ∈ s.dropped ∨ Op.drop h ∈ ops
  | [], s, h => by simp [run]
  | op :: ops, s, h => by
    show h ∈ (run w (step w s op).1 ops).1.dropped ↔ _
    rw [dropped_run ops, List.mem_cons]
    rcases step_cases w s op with ⟨_, h2, _, h4, _⟩ | ⟨x, rfl, h2, _, _, _⟩ | ⟨c, beh, _, _, h2, _, h4, _⟩
    · rw [h2]
      exact ⟨fun e => e.elim .inl (fun e => .inr (.inr e)), fun e => e.elim .inl (fun e => e.elim (fun e => absurd e.symm (h4 h)) .inr)⟩
    · rw [h2, List.mem_cons]
      constructor
      · rintro ((rfl | e) | e)
        · exact .inr (.inl rfl)
        · exact .inl e
        · exact .inr (.inr e)
      · rintro (e | e | e)
        · exact .inl (.inr e)
        · cases e; exact .inl (.inl rfl)
        · exact .inr e
    · rw [h2]
      exact ⟨fun e => e.elim .inl (fun e => .inr (.inr e)), fun e => e.elim .inl (fun e => e.elim (fun e => absurd e.symm (h4 h)) .inr)⟩

theorem called_cons (o : Out) (outs : List Out) (c : Cb) : Called (o :: outs) c ↔ (∃ cs b, o = .ran cs b ∧ c ∈ cs) ∨ Called outs c := by
  constructor
  · rintro ⟨cs, b, h1, h2⟩
    rcases List.mem_cons.1 h1 with h1 | h1
    · exact .inl ⟨cs, b, h1.symm, h2⟩
    · exact .inr ⟨cs, b, h1, h2⟩
  · rintro (⟨cs, b, rfl, h2⟩ | ⟨cs, b, h1, h2⟩)
    · exact ⟨cs, b, by simp, h2⟩
    · exact ⟨cs, b, by simp [h1], h2⟩

theorem cache_run {w : World} (o : Ordinary w) : ∀ (ops : List Op) (s : Sys) (k : Cb), k ∈ (run w s ops).1.cache ↔ k ∈ s.cache ∨ Called (run w s ops).2 k
  | [], s, k => by simp [run, Called]
  | op :: ops, s, k => by
    show k ∈ (run w (step w s op).1 ops).1.cache ↔ _ ∨ Called ((step w s op).2 :: (run w (step w s op).1 ops).2) k
    rw [cache_run o ops, called_cons]
    rcases step_cases w s op with ⟨_, _, h3, _, h5⟩ | ⟨x, rfl, _, h3, h5, _⟩ | ⟨c, beh, _, _, _, h3, _, h5⟩
    · rw [h3]
      exact ⟨fun e => e.elim .inl (fun e => .inr (.inr e)), fun e => e.elim .inl (fun e => e.elim (fun ⟨cs, b, e, _⟩ => absurd e (h5 cs b)) .inr)⟩
    · rw [h3]
      exact ⟨fun e => e.elim .inl (fun e => .inr (.inr e)), fun e => e.elim .inl (fun e => e.elim (fun ⟨cs, b, e, _⟩ => absurd e (h5 cs b)) .inr)⟩
    · rw [h3, h5, loop_called o]
      constructor
      · rintro ((e | e) | e)
        · exact .inl e
        · exact .inr (.inl ⟨_, _, rfl, e⟩)
        · exact .inr (.inr e)
      · rintro (e | ⟨cs, b, e1, e2⟩ | e)
        · exact .inl (.inl e)
        · cases e1; exact .inl (.inr e2)
        · exact .inr e

theorem dead_mono {w : World} : ∀ (ops : List Op) (s : Sys) (h : Nat), h ∈ s.hub.dead → h ∈ (run w s ops).1.hub.dead
  | [], s, h, hd => hd
  | op :: ops, s, h, hd => by
    refine dead_mono ops _ h ?_
    rcases step_cases w s op with ⟨h1, _⟩ | ⟨x, _, _, _, _, ⟨_, h1⟩ | ⟨_, h1⟩⟩ | ⟨c, beh, _, h1, _⟩
    · rw [h1]; exact hd
    · rw [h1]; exact hd
    · rw [h1]; simp [hd]
    · rw [h1]; exact hd

/-- Nothing that needs a collected object runs. -/
theorem dead_silent {w : World} : ∀ (ops : List Op) (s : Sys) (h : Nat), h ∈ s.hub.dead → ∀ c, h ∈ c.needs → ¬ Called (run w s ops).2 c
  | [], s, h, hd, c, hc => by simp [run, Called]
  | op :: ops, s, h, hd, c, hc => by
    show ¬ Called ((step w s op).2 :: (run w (step w s op).1 ops).2) c
    rw [called_cons]
    rintro (⟨cs, b, e1, e2⟩ | e)
    · rcases step_cases w s op with ⟨_, _, _, _, h5⟩ | ⟨x, rfl, _, _, h5, _⟩ | ⟨d, beh, _, _, _, _, _, h5⟩
      · exact h5 cs b e1
      · exact h5 cs b e1
      · rw [h5] at e1; cases e1
        exact (mem_live.1 ((loop_sub w beh _ _).subset e2)).2 h hc hd
    · refine dead_silent ops _ h ?_ c hc e
      exact dead_mono [op] s h hd

/-! ### C321 -/

/-- Everything is a plain function; the class is 0. -/
def simple : World where
  owner := id
  eqv := fun a b => a == b
  kind := fun _ => .fn false
  same := fun a b => decide (a = b)

def fine : Cb → Behaviour := fun _ => .returns

theorem simple_ordinary : Ordinary simple := ⟨fun _ => .fn false, by simp [simple], by simp [simple]⟩

/-- C321 fails: after one broadcast a callback stays subscribed, is counted and is called although the program has given up every reference to it; without the broadcast it is released. -/
theorem C321_violation :
    (run simple {} [.subscribe 0 (.plain 1), .broadcast 0 true fine, .drop 1, .count 0, .broadcast 0 true fine]).2 =
      [.unit, .ran [.plain 1] true, .unit, .count 1, .ran [.plain 1] true] ∧
    (run simple {} [.subscribe 0 (.plain 1), .drop 1, .count 0, .broadcast 0 true fine]).2 = [.unit, .unit, .count 0, .ran [] true] := by decide

/-- C321, the exact condition: an object to which the program has given up every reference is collected exactly if no broadcast has called a callback that needs it. -/
theorem C321_exact_partial {w : World} (o : Ordinary w) (ops : List Op) (h : Nat) :
    Collected (run w {} ops).1 h ↔ Op.drop h ∈ ops ∧ ∀ c, h ∈ c.needs → ¬ Called (run w {} ops).2 c := by
  have i := inv_init.run (w := w) ops
  have hc := cache_run o ops {}
  have hd := dropped_run (w := w) ops {} h
  simp only [List.not_mem_nil, false_or] at hc hd
  unfold Collected
  constructor
  · intro e
    refine ⟨hd.1 (i.sub h e), fun c hn hcall => i.gone h e ?_⟩
    exact (pinned_iff _ _).2 ⟨c, (hc c).2 hcall, hn⟩
  · rintro ⟨e, hn⟩
    apply Decidable.byContradiction
    intro hdead
    obtain ⟨k, hk, hkh⟩ := (pinned_iff _ _).1 (i.kept h (hd.2 e) hdead)
    exact hn k hkh ((hc k).1 hk)

/-- C321, released: once collected, a callback is never called again, whatever happens, and is not among those a broadcast or `get_subscriber_count` finds. Holds for callbacks of every kind. -/
theorem C321_released_partial (w : World) (before after : List Op) (h : Nat) (hd : Collected (run w {} before).1 h) (c : Cb) (hc : h ∈ c.needs) :
    ¬ Called (run w (run w {} before).1 after).2 c ∧ ∀ cls, c ∉ live w (run w (run w {} before).1 after).1 cls :=
  ⟨dead_silent after _ h hd c hc, fun _ hm => (mem_live.1 hm).2 h hc (dead_mono after _ h hd)⟩

theorem removeRef_keeps {b : Hub} {eqv : Nat → Nat → Bool} (hid : ∀ x y, eqv x y = true → x = y) {h : Nat} {cb : Cb} (hne : cb.holder ≠ h) :
    ∀ {l : List Cb}, cb ∈ l → cb ∈ Broadcaster.removeRef b eqv h l
  | r :: rs, hm => by
    unfold Broadcaster.removeRef
    by_cases e : Broadcaster.refEq b eqv r h = true
    · rw [if_pos e]
      rcases List.mem_cons.1 hm with rfl | hm
      · refine absurd ?_ hne
        cases cb with
        | plain a =>
          simp only [Broadcaster.refEq, Bool.or_eq_true, beq_iff_eq, Bool.and_eq_true] at e
          exact e.elim id (fun e => hid _ _ e.2)
        | method a f =>
          simp only [Broadcaster.refEq, Bool.or_eq_true, beq_iff_eq, Bool.and_eq_true] at e
          exact e.2.elim id (fun e => hid _ _ e)
      · exact hm
    · rw [if_neg e]
      rcases List.mem_cons.1 hm with rfl | hm
      · simp
      · exact List.mem_cons_of_mem _ (removeRef_keeps hid hne hm)

theorem holder_needs (c : Cb) : c.holder ∈ c.needs := by cases c <;> simp [Cb.holder, Cb.needs]

/-- An operation does not take a live callback out of a list when the program does not refer to it. -/
theorem step_listed {w : World} (hid : ∀ x y, w.eqv x y = true → x = y) {s : Sys} (op : Op) (o : Nat) (cb : Cb) (hm : cb ∈ s.hub.lists o)
    (hl : Broadcaster.alive s.hub cb = true) (hd : cb.holder ∈ s.dropped) : cb ∈ (step w s op).1.hub.lists o := by
  have hclean : ∀ c, cb ∈ (Broadcaster.cleanup s.hub c).1.lists o := by
    intro c
    unfold Broadcaster.cleanup Broadcaster.setList
    dsimp only
    by_cases e : o = c
    · rw [if_pos e, List.mem_filter]; subst e; exact ⟨hm, hl⟩
    · rw [if_neg e]; exact hm
  cases op with
  | subscribe c cb' =>
    by_cases h : holds s cb' = true
    · simp only [step, h, if_true]
      unfold Broadcaster.subscribe
      by_cases h2 : (s.hub.lists (w.owner c)).any (fun r => Broadcaster.alive s.hub r && Broadcaster.isSame r cb') = true
      · rw [if_pos h2]; exact hm
      · rw [if_neg h2]
        unfold Broadcaster.setList
        dsimp only
        by_cases e : o = w.owner c
        · rw [if_pos e]; subst e; simp [hm]
        · rw [if_neg e]; exact hm
    · simp only [step, h]; exact hm
  | unsubscribe c cb' =>
    by_cases h : holds s cb' = true
    · simp only [step, h, if_true]
      unfold Broadcaster.unsubscribe
      by_cases h2 : (s.hub.lists (w.owner c)).any (fun r => Broadcaster.alive s.hub r && Broadcaster.isSame r cb') = true
      · rw [if_pos h2]
        unfold Broadcaster.setList
        dsimp only
        by_cases e : o = w.owner c
        · rw [if_pos e]; subst e
          refine removeRef_keeps hid ?_ hm
          intro e
          exact (holds_iff s cb').1 h _ (holder_needs cb') (e ▸ hd)
        · rw [if_neg e]; exact hm
      · rw [if_neg h2]; exact hm
    · simp only [step, h]; exact hm
  | drop h =>
    by_cases hp : pinned s h = true
    · simp only [step, hp, if_true]; exact hm
    · simp only [step, hp]; exact hm
  | broadcast c a beh =>
    cases a with
    | false => exact hm
    | true => exact hclean _
  | count c => exact hclean _

theorem kept_run {w : World} (hid : ∀ x y, w.eqv x y = true → x = y) : ∀ (ops : List Op) {s : Sys} (i : Inv s) (o : Nat) (cb : Cb), cb ∈ s.hub.lists o →
    cb ∈ s.cache → cb.holder ∈ s.dropped → cb ∈ (run w s ops).1.hub.lists o ∧ cb ∈ (run w s ops).1.cache
  | [], s, i, o, cb, hm, hc, hd => ⟨hm, hc⟩
  | op :: ops, s, i, o, cb, hm, hc, hd => by
    have hl : Broadcaster.alive s.hub cb = true := (alive_iff _ _).2 (fun h hn he => i.gone h he ((pinned_iff _ _).2 ⟨cb, hc, hn⟩))
    refine kept_run hid ops (i.step w op) o cb (step_listed hid op o cb hm hl hd) ?_ ?_
    · rcases step_cases w s op with ⟨_, _, h3, _⟩ | ⟨x, _, _, h3, _⟩ | ⟨c, beh, _, _, _, h3, _⟩
      · rw [h3]; exact hc
      · rw [h3]; exact hc
      · rw [h3]; exact loop_keeps w beh _ _ _ hc
    · exact (dropped_run [op] s _).2 (.inl hd)

/-- C321, kept: a subscribed callback that a broadcast has called and whose object the program then gives up stays subscribed for ever: whatever is done afterwards (no call of `unsubscribe` can remove it), it is counted
and every broadcast that is not aborted calls it. -/
theorem C321_kept_partial {w : World} (o : Ordinary w) (before after : List Op) (cls : Nat) (cb : Cb) (hm : cb ∈ live w (run w {} before).1 cls)
    (hc : Called (run w {} before).2 cb) (hd : Op.drop cb.holder ∈ before) (beh : Cb → Behaviour) (hb : ∀ c, beh c ≠ .aborts) :
    cb ∈ live w (run w (run w {} before).1 after).1 cls ∧
    ∃ cs, (step w (run w (run w {} before).1 after).1 (.broadcast cls true beh)).2 = .ran cs true ∧ cb ∈ cs := by
  have i := inv_init.run (w := w) before
  obtain ⟨h1, h2⟩ := kept_run o.eqv after i (w.owner cls) cb (mem_live.1 hm).1 ((cache_run o before {} cb).2 (.inr hc)) ((dropped_run before {} _).2 (.inr hd))
  have i' := i.run (w := w) after
  have hl : cb ∈ live w (run w (run w {} before).1 after).1 cls := mem_live.2 ⟨h1, fun h hn he => i'.gone h he ((pinned_iff _ _).2 ⟨cb, h2, hn⟩)⟩
  refine ⟨hl, ?_⟩
  generalize (run w (run w {} before).1 after).1 = s at hl
  cases e : (loop w beh s.cache (live w s cls)).2.2 with
  | false =>
    obtain ⟨_, d, _, _, h5, _⟩ := loop_stops o.ident beh _ _ e
    exact absurd h5 (hb d)
  | true =>
    refine ⟨(loop w beh s.cache (live w s cls)).2.1, ?_, (loop_ran o.ident beh _ _ e cb).2 ⟨hl, o.runs cb⟩⟩
    show Out.ran _ _ = _
    rw [e]

/-- Non-vacuity: a bound method, called once; its receiver is given up and `unsubscribe` is tried for another method. -/
example : Cb.method 1 2 ∈ live simple (run simple {} [.subscribe 0 (.method 1 2), .broadcast 0 true fine, .drop 1]).1 0 ∧
    Op.drop (Cb.method 1 2).holder ∈ [Op.subscribe 0 (.method 1 2), .broadcast 0 true fine, .drop 1] ∧
    (run simple {} [.subscribe 0 (.method 1 2), .broadcast 0 true fine, .drop 1]).2 = [.unit, .ran [.method 1 2] true, .unit] ∧
    (run simple {} [.subscribe 0 (.method 1 2), .broadcast 0 true fine, .drop 1, .unsubscribe 0 (.method 1 2), .broadcast 0 true fine]).2 =
      [.unit, .ran [.method 1 2] true, .unit, .unit, .ran [.method 1 2] true] := by
  refine ⟨by decide, List.mem_cons_of_mem _ (List.mem_cons_of_mem _ (List.mem_cons_self ..)), by decide, by decide⟩

/-- Non-vacuity of `C321_exact_partial`: of two dropped subscribers only the one subscribed after the broadcast is collected. -/
example : Collected (run simple {} [.subscribe 0 (.plain 1), .broadcast 0 true fine, .subscribe 0 (.plain 2), .drop 1, .drop 2]).1 2 ∧
    ¬ Collected (run simple {} [.subscribe 0 (.plain 1), .broadcast 0 true fine, .subscribe 0 (.plain 2), .drop 1, .drop 2]).1 1 := by
  unfold Collected; decide

/-! ### C322 -/

/-- Callback 1 is an object with an `async def __call__`, 2 an object that is not hashable, all others are functions. -/
def mixed : World := { simple with kind := fun c => if c = .plain 1 then .obj true true else if c = .plain 2 then .obj false false else .fn true }

/-- C322 fails: the body of an object with an async `__call__` is not run (its coroutine is dropped), and an object that is not hashable is not called at all. -/
theorem C322_violation :
    (run mixed {} [.subscribe 0 (.plain 1), .subscribe 0 (.plain 2), .subscribe 0 (.plain 3), .broadcast 0 true fine]).2 = [.unit, .unit, .unit, .ran [.plain 3] true] := by decide

/-- C322, the exact condition: a broadcast that is not aborted runs the body of exactly those live subscribers that are hashable and either do not return a coroutine or are `async def` functions, methods or partials of
them, in the order of subscription.  An aborted one does so up to and including the callback that raised. -/
theorem C322_exact_partial {w : World} (hi : ∀ a b, w.same a b = true ↔ a = b) (ops : List Op) (cls : Nat) (beh : Cb → Behaviour) (cs : List Cb) (complete : Bool)
    (h : (step w (run w {} ops).1 (.broadcast cls true beh)).2 = .ran cs complete) :
    cs.Sublist (live w (run w {} ops).1 cls) ∧
    (complete = true → ∀ c, c ∈ cs ↔ c ∈ live w (run w {} ops).1 cls ∧ Runs (w.kind c)) ∧
    (complete = false → ∃ pre d post, live w (run w {} ops).1 cls = pre ++ d :: post ∧ beh d = .aborts ∧ Runs (w.kind d) ∧
      ∃ ran, cs = ran ++ [d] ∧ ran.Sublist pre ∧ ∀ c, c ∈ ran ↔ c ∈ pre ∧ Runs (w.kind c)) := by
  generalize (run w {} ops).1 = s at h ⊢
  have h' : Out.ran (loop w beh s.cache (live w s cls)).2.1 (loop w beh s.cache (live w s cls)).2.2 = .ran cs complete := h
  injection h' with h1 h2
  subst h1 h2
  refine ⟨loop_sub w beh _ _, fun e => loop_ran hi beh _ _ e, fun e => ?_⟩
  obtain ⟨pre, d, post, h4, h5, h6, _, ran, h8, h9, h10⟩ := loop_stops hi beh _ _ e
  exact ⟨pre, d, post, h4, h5, h6, ran, h8, h9, h10⟩

/-- C322 for functions, methods and partials of them: a broadcast runs all live subscribers in the order of subscription, unless one of them aborts it; exceptions do not stop it. -/
theorem C322_functions_partial {w : World} (o : Ordinary w) (ops : List Op) (cls : Nat) (beh : Cb → Behaviour) (hb : ∀ c ∈ live w (run w {} ops).1 cls, beh c ≠ .aborts) :
    (step w (run w {} ops).1 (.broadcast cls true beh)).2 = .ran (live w (run w {} ops).1 cls) true := by
  generalize (run w {} ops).1 = s at hb ⊢
  show Out.ran (loop w beh s.cache (live w s cls)).2.1 (loop w beh s.cache (live w s cls)).2.2 = _
  have main : ∀ (cs cache : List Cb), (∀ c ∈ cs, beh c ≠ .aborts) → (loop w beh cache cs).2 = (cs, true) := by
    intro cs
    induction cs with
    | nil => intro _ _; rfl
    | cons c cs ih =>
      intro cache hb
      have hr := (runs_iff o.ident cache c).1 (o.runs c)
      unfold loop
      rw [if_pos hr.1, if_pos hr.2, if_neg (hb c (by simp))]
      simp only [ih (remember w cache c) (fun c hc => hb c (by simp [hc]))]
  rw [main _ _ hb]

example : (step mixed (run mixed {} [.subscribe 0 (.plain 3), .subscribe 0 (.plain 1), .subscribe 0 (.plain 4), .subscribe 0 (.plain 5)]).1
    (.broadcast 0 true (fun c => if c = .plain 4 then .aborts else .fails))).2 = .ran [.plain 3, .plain 4] false := by decide

end Verif.BroadcastRefs
