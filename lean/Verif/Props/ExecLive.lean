import Verif.Props.ExecJoin

set_option linter.unusedSectionVars false
set_option linter.unusedSimpArgs false
set_option linter.unusedVariables false

/-!
# A running `execute()` gets through the queue: C255
-/

namespace Verif.ExecLoop

open Verif.Processor (Cfg Obs Entry Call PC Perm)

/-! ## The schedules -/

/-- What may happen while one `execute()` call runs: it goes on to its next `await` (the event pile and `request_permission` answer as they like, but do not raise), or somebody calls
`enqueue()` or `join()`. -/
inductive Ev where
  | tick (found : Bool) (granted : Bool)
  | enqueue (id : Nat) (prio : Option Processor.Prio) (created : Option Int)
  | put (k : Nat)
  | join
  | poll (j : Nat)
  deriving DecidableEq

/-- The answer of the permission check. -/
def answer (granted : Bool) : Perm := if granted then .grant else .deny

/-- `process()` call `k` has returned. -/
def isDone (s : Sys) (k : Nat) : Bool := (s.proc.calls[k]?).any (fun cl => cl.pc == .done)

/-- What the `execute()` call does next: a step of its `process()` call, or its own. -/
def next (s : Sys) (found granted : Bool) : LPC → Act
  | .processing k => if isDone s k then .resume 0 else .proc (.go k found (answer granted))
  | _ => .resume 0

/-- The action of a schedule entry. -/
def act (s : Sys) : Ev → Act
  | .tick f g => next s f g ((s.loops[0]?).getD .returned)
  | .enqueue id prio created => .proc (.enqueue id prio created)
  | .put k => .proc (.enqPut k)
  | .join => .join
  | .poll j => .poll j

def move (c : Cfg) (s : Sys) (ev : Ev) : Sys := step c s (act s ev)

def moves (c : Cfg) (s : Sys) (evs : List Ev) : Sys := evs.foldl (move c) s

def isTick : Ev → Bool
  | .tick _ _ => true
  | _ => false

def isPut : Ev → Bool
  | .put _ => true
  | _ => false

/-! ## The dict of denial counts -/

/-- Sum of the counts. -/
def total (d : Dict Nat Nat) : Nat := (d.map Prod.snd).sum

theorem total_set (d : Dict Nat Nat) (k v : Nat) : total (d.set k v) + (d.get? k).getD 0 = total d + v := by
  induction d with
  | nil => simp [Dict.set, total]
  | cons kv d ih =>
    obtain ⟨a, b⟩ := kv
    simp only [Dict.set, Dict.get?_cons]
    split
    · simp [total]; omega
    · simp [total] at ih ⊢; omega

theorem total_del (d : Dict Nat Nat) (k : Nat) : total (d.del k) + (d.get? k).getD 0 = total d := by
  induction d with
  | nil => simp [Dict.del, total]
  | cons kv d ih =>
    obtain ⟨a, b⟩ := kv
    simp only [Dict.del, Dict.get?_cons]
    split
    · simp [total]; omega
    · simp [total] at ih ⊢; omega

theorem total_le {d : Dict Nat Nat} (wf : d.WF) (h : ∀ k v, d.get? k = some v → v ≤ 3) : total d ≤ 3 * d.keys.length := by
  have hmem : ∀ kv ∈ d, kv.2 ≤ 3 := fun kv hkv => h kv.1 kv.2 (Dict.get?_of_mem wf hkv)
  clear h wf
  induction d with
  | nil => simp [total]
  | cons kv d ih =>
    have h1 := hmem kv List.mem_cons_self
    have h2 := ih (fun x hx => hmem x (List.mem_cons_of_mem _ hx))
    simp [total, Dict.keys] at h2 ⊢
    omega

theorem nodup_length_le {l m : List Nat} (hn : l.Nodup) (h : ∀ x ∈ l, x ∈ m) : l.length ≤ m.length := by
  induction l generalizing m with
  | nil => simp
  | cons x l ih =>
    have hx : x ∈ m := h x List.mem_cons_self
    rw [List.nodup_cons] at hn
    have : l.length ≤ (m.erase x).length := by
      refine ih hn.2 (fun y hy => ?_)
      have hne : y ≠ x := by rintro rfl; exact hn.1 hy
      exact (List.mem_erase_of_ne hne).mpr (h y (List.mem_cons_of_mem _ hy))
    rw [List.length_erase_of_mem hx] at this
    have hpos : 0 < m.length := List.length_pos_of_mem hx
    simp only [List.length_cons]
    omega

/-! ## The invariant -/

/-- Events a `process()` call has taken and not yet got permission for. -/
def owed : PC → List Nat
  | .asking e => [e.2]
  | .requeueing e _ => [e.2]
  | .aborting e => [e.2]
  | _ => []

/-- Events still to be decided about. -/
def copies (s : Processor.Sys) (pc : PC) : List Nat := s.queue.map Prod.snd ++ owed pc

structure Good (c : Cfg) (s : Sys) (old : List Call) (cl : Call) : Prop where
  heap : Heapq.IsHeap Processor.entryLt s.proc.queue
  calls : s.proc.calls = old ++ [cl]
  oldDone : ∀ x ∈ old, x.pc = .done
  go : s.stopped = false
  loop : s.loops = [.processing old.length] ∨ (s.loops = [.sleeping] ∧ cl.pc = .done)
  cap : cl.pc ≠ .done → (cl.processed : Int) + s.proc.cap = c.queueCapacity
  capDone : cl.pc = .done → s.proc.cap = c.queueCapacity
  nofail : cl.pc ≠ .failed
  getq : cl.pc = .getting → s.proc.queue ≠ []
  wf : s.proc.denials.WF
  cnt : ∀ k v, s.proc.denials.get? k = some v → v ≤ 3 ∧ (v = 3 → ∃ e : Entry, cl.pc = .aborting e ∧ e.2 = k)
  abo : ∀ e, cl.pc = .aborting e → s.proc.denials.get? e.2 = some 3
  copy : ∀ k ∈ s.proc.denials.keys, k ∈ copies s.proc cl.pc

/-- How far the loop is in its turn. -/
def pcStage (cap : Int) : PC → Int
  | .check => if 0 < cap then 3 else 8
  | .getting => 2
  | .asking _ => 1
  | .granted _ => 9
  | .aborting _ => 8
  | .requeueing _ _ => 8
  | .draining => 7
  | .done => 6
  | .failed => 0

def stage (s : Sys) (cl : Call) : Int := if s.loops = [.sleeping] then 5 else pcStage s.proc.cap cl.pc

theorem stage_nonneg (s : Sys) (cl : Call) : 0 ≤ stage s cl := by
  unfold stage pcStage
  split
  · omega
  · split <;> (try split) <;> omega

/-- Work left. -/
def mu (s : Sys) (cl : Call) : Int := 30 * ((copies s.proc cl.pc).length : Int) - 10 * (total s.proc.denials : Int) + stage s cl

/-- Nothing is queued and the current call holds nothing. -/
def Idle (s : Sys) (cl : Call) : Prop := s.proc.queue = [] ∧ cl.held = none

theorem Good.keys_le {c : Cfg} {s : Sys} {old : List Call} {cl : Call} (h : Good c s old cl) : s.proc.denials.keys.length ≤ (copies s.proc cl.pc).length :=
  nodup_length_le h.wf h.copy

theorem Good.mu_nonneg {c : Cfg} {s : Sys} {old : List Call} {cl : Call} (h : Good c s old cl) : 0 ≤ mu s cl := by
  have h1 := h.keys_le
  have h2 := total_le h.wf (fun k v hk => (h.cnt k v hk).1)
  have h3 := stage_nonneg s cl
  simp only [mu]
  omega

theorem set_last (old : List Call) (cl cl' : Call) : (old ++ [cl]).set old.length cl' = old ++ [cl'] := by
  simp [List.set_append]

theorem mem_erase_keys {d : Dict Nat Nat} {k x : Nat} (h : x ∈ (d.del k).keys) (wf : d.WF) : x ∈ d.keys ∧ x ≠ k := by
  rw [Dict.keys_del] at h
  refine ⟨List.mem_of_mem_erase h, ?_⟩
  rintro rfl
  exact (List.Nodup.not_mem_erase wf) h

theorem Good.get_le {c : Cfg} {s : Sys} {old : List Call} {cl : Call} (h : Good c s old cl) (hn : ∀ e, cl.pc ≠ .aborting e) (k : Nat) :
    (s.proc.denials.get? k).getD 0 ≤ 2 := by
  cases hk : s.proc.denials.get? k with
  | none => simp
  | some v =>
    obtain ⟨h1, h2⟩ := h.cnt k v hk
    simp only [Option.getD_some]
    by_cases h3 : v = 3
    · obtain ⟨e, he, _⟩ := h2 h3
      exact absurd he (hn e)
    · omega

theorem Good.sleep {c : Cfg} {s : Sys} {old : List Call} {cl : Call} (h : Good c s old cl) (hs : s.loops = [.sleeping]) (hpc : cl.pc = .done) (hv : 0 < c.queueCapacity) :
    ∃ cl', Good c (step c s (.resume 0)) (old ++ [cl]) cl' ∧ mu (step c s (.resume 0)) cl' ≤ mu s cl - 1 ∧
      (copies (step c s (.resume 0)).proc cl'.pc).length ≤ (copies s.proc cl.pc).length := by
  have e : step c s (.resume 0) = { s with proc := Processor.step c s.proc .process, loops := [.processing s.proc.calls.length] } := by
    simp [step, hs, resume, turn, h.go]
  have hlen : s.proc.calls.length = (old ++ [cl]).length := by rw [h.calls]
  refine ⟨{}, ?_, ?_, ?_⟩
  · rw [e]
    constructor
    · exact h.heap
    · simp [Processor.step, h.calls]
    · intro x hx
      rcases List.mem_append.mp hx with hx | hx
      · exact h.oldDone x hx
      · rw [List.mem_singleton] at hx; rw [hx]; exact hpc
    · exact h.go
    · exact .inl (by simp [hlen])
    · intro _
      have := h.capDone hpc
      simp [Processor.step, this]
    · intro hf; simp at hf
    · simp
    · intro hf; simp at hf
    · exact h.wf
    · intro k v hk
      obtain ⟨h1, h2⟩ := h.cnt k v hk
      refine ⟨h1, fun h3 => ?_⟩
      obtain ⟨e', he, _⟩ := h2 h3
      rw [hpc] at he; simp at he
    · intro e' he; simp at he
    · intro k hk
      have := h.copy k hk
      simp [copies, owed, hpc] at this ⊢
      exact this
  · rw [e]
    have hc := h.capDone hpc
    have hcp : copies (Processor.step c s.proc .process) PC.check = copies s.proc cl.pc := by rw [hpc]; rfl
    have hst : stage s cl = 5 := by simp [stage, hs]
    have hst' : stage { s with proc := Processor.step c s.proc .process, loops := [.processing s.proc.calls.length] } {} = 3 := by
      simp only [stage]
      rw [if_neg (by simp)]
      have : (Processor.step c s.proc .process).cap = c.queueCapacity := hc
      simp [pcStage, this, hv]
    have hd : (Processor.step c s.proc .process).denials = s.proc.denials := rfl
    simp only [mu, hst, hst', hd]
    rw [hcp]
    omega
  · rw [e]
    have hcp : copies (Processor.step c s.proc .process) PC.check = copies s.proc cl.pc := by rw [hpc]; rfl
    simp only
    rw [hcp]
    exact Nat.le_refl _

/-- The current call moves on; the loop still waits for it. -/
theorem Good.moved {c : Cfg} {s t : Sys} {old : List Call} {cl : Call} (h : Good c s old cl) (cl' : Call) (hloop : s.loops = [.processing old.length])
    (hl : t.loops = s.loops) (hg : t.stopped = s.stopped)
    (hcalls : t.proc.calls = s.proc.calls.set old.length cl')
    (heap : Heapq.IsHeap Processor.entryLt t.proc.queue)
    (cap : cl'.pc ≠ .done → (cl'.processed : Int) + t.proc.cap = c.queueCapacity)
    (capDone : cl'.pc = .done → t.proc.cap = c.queueCapacity)
    (nofail : cl'.pc ≠ .failed)
    (getq : cl'.pc = .getting → t.proc.queue ≠ [])
    (wf : t.proc.denials.WF)
    (cnt : ∀ k v, t.proc.denials.get? k = some v → v ≤ 3 ∧ (v = 3 → ∃ e : Entry, cl'.pc = .aborting e ∧ e.2 = k))
    (abo : ∀ e, cl'.pc = .aborting e → t.proc.denials.get? e.2 = some 3)
    (copy : ∀ k ∈ t.proc.denials.keys, k ∈ copies t.proc cl'.pc) : Good c t old cl' :=
  ⟨heap, by rw [hcalls, h.calls, set_last], h.oldDone, by rw [hg]; exact h.go, .inl (by rw [hl, hloop]), cap, capDone, nofail, getq, wf, cnt, abo, copy⟩

theorem cnt_del {c : Cfg} {s : Sys} {old : List Call} {cl : Call} (h : Good c s old cl) (k : Nat) (hk : ∀ e : Entry, cl.pc = .aborting e → e.2 = k) (pc : PC) :
    ∀ x v, (s.proc.denials.del k).get? x = some v → v ≤ 3 ∧ (v = 3 → ∃ e : Entry, pc = .aborting e ∧ e.2 = x) := by
  intro x v hx
  rw [Dict.get?_del h.wf] at hx
  split at hx
  · simp at hx
  · next hne =>
    obtain ⟨h1, h2⟩ := h.cnt x v hx
    refine ⟨h1, fun h3 => ?_⟩
    obtain ⟨e, he, hex⟩ := h2 h3
    exact absurd ((hk e he).symm.trans hex) hne

theorem cnt_same {c : Cfg} {s : Sys} {old : List Call} {cl : Call} (h : Good c s old cl) (hn : ∀ e : Entry, cl.pc ≠ .aborting e) (pc : PC) :
    ∀ x v, s.proc.denials.get? x = some v → v ≤ 3 ∧ (v = 3 → ∃ e : Entry, pc = .aborting e ∧ e.2 = x) := by
  intro x v hx
  obtain ⟨h1, h2⟩ := h.cnt x v hx
  refine ⟨h1, fun h3 => ?_⟩
  obtain ⟨e, he, hex⟩ := h2 h3
  exact absurd he (hn e)

/-- The system after a processor step. -/
def withProc (s : Sys) (p : Processor.Sys) : Sys := { s with proc := p }

theorem stage_proc {s : Sys} {old : List Call} (hl : s.loops = [.processing old.length]) (p : Processor.Sys) (cl : Call) :
    stage (withProc s p) cl = pcStage p.cap cl.pc := by
  simp [stage, withProc, hl]

theorem stage_self {s : Sys} {old : List Call} (hl : s.loops = [.processing old.length]) (cl : Call) : stage s cl = pcStage s.proc.cap cl.pc := by
  simp [stage, hl]

theorem Good.advance {c : Cfg} {s : Sys} {old : List Call} {cl : Call} (h : Good c s old cl) (hl : s.loops = [.processing old.length]) (hd : cl.pc ≠ .done)
    (hidle : ¬ Idle s cl) (hmax : (copies s.proc cl.pc).length < c.maxDenial) (found granted : Bool) :
    ∃ cl', Good c (withProc s (Processor.advance c s.proc old.length cl found (answer granted))) old cl' ∧
      mu (withProc s (Processor.advance c s.proc old.length cl found (answer granted))) cl' ≤ mu s cl - 1 ∧
      (copies (Processor.advance c s.proc old.length cl found (answer granted)) cl'.pc).length ≤ (copies s.proc cl.pc).length := by
  have hcap := h.cap hd
  cases hpc : cl.pc with
  | check =>
    have hq : s.proc.queue ≠ [] := fun hq => hidle ⟨hq, by simp [Call.held, hpc]⟩
    have hno : ∀ e : Entry, cl.pc ≠ .aborting e := by rw [hpc]; simp
    have hcopy := h.copy
    rw [hpc] at hcopy
    by_cases hc : 0 < s.proc.cap
    · have e : Processor.advance c s.proc old.length cl found (answer granted) = Processor.setCall s.proc old.length { cl with pc := .getting } := by
        simp [Processor.advance, hpc, hc, hq]
      rw [e]
      refine ⟨{ cl with pc := .getting }, h.moved _ hl rfl rfl rfl h.heap (fun _ => hcap) nofun nofun (fun _ => hq) h.wf (cnt_same h hno _) nofun hcopy, ?_, ?_⟩
      · simp only [mu, stage_proc hl, stage_self hl]
        simp only [withProc, Processor.setCall, copies, owed, hpc, pcStage, hc, if_true]
        omega
      · exact Nat.le_refl _
    · have e : Processor.advance c s.proc old.length cl found (answer granted) = Processor.setCall s.proc old.length { cl with pc := .draining } := by
        simp [Processor.advance, hpc, hc]
      rw [e]
      refine ⟨{ cl with pc := .draining }, h.moved _ hl rfl rfl rfl h.heap (fun _ => hcap) nofun nofun nofun h.wf (cnt_same h hno _) nofun hcopy, ?_, ?_⟩
      · simp only [mu, stage_proc hl, stage_self hl]
        simp only [withProc, Processor.setCall, copies, owed, hpc, pcStage, hc, if_false]
        omega
      · exact Nat.le_refl _
  | getting =>
    have hq := h.getq hpc
    have hno : ∀ e : Entry, cl.pc ≠ .aborting e := by rw [hpc]; simp
    cases hp : Heapq.pop Processor.entryLt s.proc.queue with
    | none => rw [Heapq.pop_none] at hp; exact absurd hp hq
    | some r =>
      obtain ⟨e, q⟩ := r
      obtain ⟨p1, p2, p3⟩ := Heapq.pop_spec Processor.entryOrder h.heap hp
      have hmap : (s.proc.queue.map Prod.snd).Perm (e.2 :: q.map Prod.snd) := p1.map Prod.snd
      have hlen := p1.length_eq
      simp only [List.length_cons] at hlen
      have hcopy := h.copy
      simp only [hpc, copies, owed, List.append_nil] at hcopy
      cases found with
      | true =>
        have ea : Processor.advance c s.proc old.length cl true (answer granted) =
            (Processor.setCall { s.proc with queue := q } old.length { cl with pc := .asking e }).obs (.take old.length e) := by
          simp [Processor.advance, hpc, hp]
        rw [ea]
        refine ⟨{ cl with pc := .asking e }, h.moved _ hl rfl rfl rfl p2 (fun _ => hcap) nofun nofun nofun h.wf (cnt_same h hno _) nofun ?_, ?_, ?_⟩
        · intro k hk
          have := hmap.mem_iff.mp (hcopy k hk)
          simp only [withProc, Processor.setCall, Processor.Sys.obs, copies, owed, List.mem_append, List.mem_singleton]
          rcases List.mem_cons.mp this with h1 | h1
          · exact .inr h1
          · exact .inl h1
        · simp only [mu, stage_proc hl, stage_self hl]
          simp only [withProc, Processor.setCall, Processor.Sys.obs, copies, owed, hpc, pcStage, List.length_append, List.length_map, List.length_cons, List.length_nil]
          omega
        · simp only [mu, stage_proc hl, stage_self hl]
          simp only [withProc, Processor.setCall, Processor.Sys.obs, copies, owed, hpc, pcStage, List.length_append, List.length_map, List.length_cons, List.length_nil]
          omega
      | false =>
        have ea : Processor.advance c s.proc old.length cl false (answer granted) =
            ((Processor.setCall { s.proc with queue := q, denials := s.proc.denials.del e.2 } old.length { cl with pc := .check }).obs (.take old.length e)).obs
              (.skip old.length e.2) := by
          simp [Processor.advance, hpc, hp]
        rw [ea]
        have hdel := total_del s.proc.denials e.2
        have hle := h.get_le hno e.2
        refine ⟨{ cl with pc := .check }, h.moved _ hl rfl rfl rfl p2 (fun _ => hcap) nofun nofun nofun (Dict.del_wf h.wf _) (cnt_del h e.2 (fun e' he => absurd he (hno e')) _) nofun ?_, ?_, ?_⟩
        · intro k hk
          obtain ⟨h1, h2⟩ := mem_erase_keys hk h.wf
          have := hmap.mem_iff.mp (hcopy k h1)
          simp only [withProc, Processor.setCall, Processor.Sys.obs, copies, owed, List.append_nil]
          rcases List.mem_cons.mp this with h3 | h3
          · exact absurd h3 h2
          · exact h3
        · have hst : pcStage s.proc.cap .check ≤ 8 := by simp only [pcStage]; split <;> omega
          simp only [mu, stage_proc hl, stage_self hl]
          simp only [withProc, Processor.setCall, Processor.Sys.obs, copies, owed, hpc, List.length_append, List.length_map, List.length_nil]
          have h2 : pcStage s.proc.cap .getting = 2 := rfl
          rw [h2]
          omega
        · simp only [mu, stage_proc hl, stage_self hl]
          simp only [withProc, Processor.setCall, Processor.Sys.obs, copies, owed, hpc, pcStage, List.length_append, List.length_map, List.length_cons, List.length_nil]
          omega
  | asking e =>
    have hno : ∀ e' : Entry, cl.pc ≠ .aborting e' := by rw [hpc]; simp
    have hle := h.get_le hno e.2
    have hcopy := h.copy
    simp only [hpc, copies, owed] at hcopy
    cases granted with
    | true =>
      have ea : Processor.advance c s.proc old.length cl found (answer true) =
          (Processor.setCall { s.proc with denials := s.proc.denials.del e.2 } old.length { cl with pc := .granted e }).obs (.grant old.length e.2) := by
        simp [Processor.advance, hpc, answer]
      rw [ea]
      have hdel := total_del s.proc.denials e.2
      refine ⟨{ cl with pc := .granted e }, h.moved _ hl rfl rfl rfl h.heap (fun _ => hcap) nofun nofun nofun (Dict.del_wf h.wf _) (cnt_del h e.2 (fun e' he => absurd he (hno e')) _) nofun ?_, ?_, ?_⟩
      · intro k hk
        obtain ⟨h1, h2⟩ := mem_erase_keys hk h.wf
        have := hcopy k h1
        rw [List.mem_append, List.mem_singleton] at this
        simp only [withProc, Processor.setCall, Processor.Sys.obs, copies, owed, List.append_nil]
        rcases this with h3 | h3
        · exact h3
        · exact absurd h3 h2
      · simp only [mu, stage_proc hl, stage_self hl]
        simp only [withProc, Processor.setCall, Processor.Sys.obs, copies, owed, hpc, pcStage, List.length_append, List.length_map, List.length_cons, List.length_nil]
        omega
      · simp only [withProc, Processor.setCall, Processor.Sys.obs, copies, owed, hpc, List.length_append, List.length_map, List.length_cons, List.length_nil]
        omega
    | false =>
      have hkl := h.keys_le
      have hev : Processor.evict c s.proc.denials = s.proc.denials := by
        unfold Processor.evict
        rw [if_neg]
        have : s.proc.denials.length = s.proc.denials.keys.length := by simp [Dict.keys]
        omega
      have hnc : Processor.nextCount c s.proc.denials e.2 = (s.proc.denials.get? e.2).getD 0 + 1 := by simp [Processor.nextCount, hev]
      have hset := total_set s.proc.denials e.2 ((s.proc.denials.get? e.2).getD 0 + 1)
      have hks : ∀ k ∈ (s.proc.denials.set e.2 ((s.proc.denials.get? e.2).getD 0 + 1)).keys, k ∈ s.proc.queue.map Prod.snd ++ [e.2] := by
        intro k hk
        rw [Dict.mem_keys_set] at hk
        rcases hk with rfl | hk
        · simp
        · exact hcopy k hk
      by_cases h3 : 3 ≤ (s.proc.denials.get? e.2).getD 0 + 1
      · have ea : Processor.advance c s.proc old.length cl found (answer false) =
            ((Processor.setCall { s.proc with denials := s.proc.denials.set e.2 ((s.proc.denials.get? e.2).getD 0 + 1) } old.length { cl with pc := .aborting e }).obs (.deny old.length e.2)).obs
              (.abort old.length e.2) := by
          simp only [Processor.advance, hpc, answer, Processor.deny, hnc, hev]
          simp [h3]
        rw [ea]
        have h2 : (s.proc.denials.get? e.2).getD 0 + 1 = 3 := by omega
        refine ⟨{ cl with pc := .aborting e }, h.moved _ hl rfl rfl rfl h.heap (fun _ => hcap) nofun nofun nofun (Dict.set_wf h.wf _ _) ?_ ?_ hks, ?_, ?_⟩
        · intro x v hx
          simp only [withProc, Processor.setCall, Processor.Sys.obs, Dict.get?_set] at hx
          split at hx
          · next he => cases hx; exact ⟨by omega, fun _ => ⟨e, rfl, he⟩⟩
          · obtain ⟨g1, g2⟩ := h.cnt x v hx
            refine ⟨g1, fun g3 => ?_⟩
            obtain ⟨e', he, _⟩ := g2 g3
            exact absurd he (hno e')
        · intro e' he
          cases he
          simp only [withProc, Processor.setCall, Processor.Sys.obs, Dict.get?_set, if_true, h2]
        · simp only [mu, stage_proc hl, stage_self hl]
          simp only [withProc, Processor.setCall, Processor.Sys.obs, copies, owed, hpc, pcStage, List.length_append, List.length_map, List.length_cons, List.length_nil]
          omega
        · simp only [withProc, Processor.setCall, Processor.Sys.obs, copies, owed, hpc, List.length_append, List.length_map, List.length_cons, List.length_nil]
          omega
      · have ea : Processor.advance c s.proc old.length cl found (answer false) =
            (Processor.setCall { s.proc with denials := s.proc.denials.set e.2 ((s.proc.denials.get? e.2).getD 0 + 1) } old.length
              { cl with pc := .requeueing e ((s.proc.denials.get? e.2).getD 0 + 1) }).obs (.deny old.length e.2) := by
          simp only [Processor.advance, hpc, answer, Processor.deny, hnc, hev]
          simp [h3]
        rw [ea]
        refine ⟨{ cl with pc := .requeueing e ((s.proc.denials.get? e.2).getD 0 + 1) }, h.moved _ hl rfl rfl rfl h.heap (fun _ => hcap) nofun nofun nofun (Dict.set_wf h.wf _ _) ?_ nofun hks, ?_, ?_⟩
        · intro x v hx
          simp only [withProc, Processor.setCall, Processor.Sys.obs, Dict.get?_set] at hx
          split at hx
          · next he => cases hx; exact ⟨by omega, fun hf => by omega⟩
          · obtain ⟨g1, g2⟩ := h.cnt x v hx
            refine ⟨g1, fun g3 => ?_⟩
            obtain ⟨e', he, _⟩ := g2 g3
            exact absurd he (hno e')
        · simp only [mu, stage_proc hl, stage_self hl]
          simp only [withProc, Processor.setCall, Processor.Sys.obs, copies, owed, hpc, pcStage, List.length_append, List.length_map, List.length_cons, List.length_nil]
          omega
        · simp only [withProc, Processor.setCall, Processor.Sys.obs, copies, owed, hpc, List.length_append, List.length_map, List.length_cons, List.length_nil]
          omega
  | granted e =>
    have hno : ∀ e' : Entry, cl.pc ≠ .aborting e' := by rw [hpc]; simp
    have hcopy := h.copy
    simp only [hpc, copies, owed] at hcopy
    have ea : Processor.advance c s.proc old.length cl found (answer granted) =
        (Processor.setCall { s.proc with cap := s.proc.cap - 1 } old.length { processed := cl.processed + 1, pc := .check }).obs (.start old.length e) := by
      simp [Processor.advance, hpc]
    rw [ea]
    refine ⟨{ processed := cl.processed + 1, pc := .check }, h.moved _ hl rfl rfl rfl h.heap (fun _ => ?_) nofun nofun nofun h.wf (cnt_same h hno _) nofun hcopy, ?_, ?_⟩
    · simp only [withProc, Processor.setCall, Processor.Sys.obs]
      omega
    · have hst : pcStage (s.proc.cap - 1) .check ≤ 8 := by simp only [pcStage]; split <;> omega
      simp only [mu, stage_proc hl, stage_self hl]
      simp only [withProc, Processor.setCall, Processor.Sys.obs, copies, owed, hpc]
      have h2 : pcStage s.proc.cap (.granted e) = 9 := rfl
      rw [h2]
      omega
    · exact Nat.le_refl _
  | aborting e =>
    have hget := h.abo e hpc
    have hcopy := h.copy
    simp only [hpc, copies, owed] at hcopy
    have ea : Processor.advance c s.proc old.length cl found (answer granted) =
        (Processor.setCall { s.proc with denials := s.proc.denials.del e.2 } old.length { cl with pc := .draining }).obs (.aborted old.length e.2) := by
      simp [Processor.advance, hpc]
    rw [ea]
    have hdel := total_del s.proc.denials e.2
    rw [hget] at hdel
    simp only [Option.getD_some] at hdel
    refine ⟨{ cl with pc := .draining }, h.moved _ hl rfl rfl rfl h.heap (fun _ => hcap) nofun nofun nofun (Dict.del_wf h.wf _)
      (cnt_del h e.2 (fun e' he => by rw [hpc] at he; cases he; rfl) _) nofun ?_, ?_, ?_⟩
    · intro k hk
      obtain ⟨h1, h2⟩ := mem_erase_keys hk h.wf
      have := hcopy k h1
      rw [List.mem_append, List.mem_singleton] at this
      simp only [withProc, Processor.setCall, Processor.Sys.obs, copies, owed, List.append_nil]
      rcases this with h3 | h3
      · exact h3
      · exact absurd h3 h2
    · simp only [mu, stage_proc hl, stage_self hl]
      simp only [withProc, Processor.setCall, Processor.Sys.obs, copies, owed, hpc, pcStage, List.length_append, List.length_map, List.length_cons, List.length_nil]
      omega
    · simp only [withProc, Processor.setCall, Processor.Sys.obs, copies, owed, hpc, List.length_append, List.length_map, List.length_cons, List.length_nil]
      omega
  | requeueing e n =>
    have hno : ∀ e' : Entry, cl.pc ≠ .aborting e' := by rw [hpc]; simp
    have hcopy := h.copy
    simp only [hpc, copies, owed] at hcopy
    have hp := Heapq.push_perm Processor.entryLt s.proc.queue (e.1 + n, e.2)
    have hmap : ((Heapq.push Processor.entryLt s.proc.queue (e.1 + n, e.2)).map Prod.snd).Perm (e.2 :: s.proc.queue.map Prod.snd) := hp.map Prod.snd
    have hlen := hp.length_eq
    simp only [List.length_cons] at hlen
    have ea : Processor.advance c s.proc old.length cl found (answer granted) =
        (Processor.setCall { s.proc with queue := Heapq.push Processor.entryLt s.proc.queue (e.1 + n, e.2) } old.length { cl with pc := .draining }).obs (.requeue old.length (e.1 + n, e.2)) := by
      simp [Processor.advance, hpc]
    rw [ea]
    refine ⟨{ cl with pc := .draining }, h.moved _ hl rfl rfl rfl (Heapq.push_heap Processor.entryOrder h.heap _) (fun _ => hcap) nofun nofun nofun h.wf (cnt_same h hno _) nofun ?_, ?_, ?_⟩
    · intro k hk
      have := hcopy k hk
      rw [List.mem_append, List.mem_singleton] at this
      simp only [withProc, Processor.setCall, Processor.Sys.obs, copies, owed, List.append_nil]
      refine hmap.mem_iff.mpr ?_
      rcases this with h3 | h3
      · exact List.mem_cons_of_mem _ h3
      · rw [h3]; exact List.mem_cons_self
    · simp only [mu, stage_proc hl, stage_self hl]
      simp only [withProc, Processor.setCall, Processor.Sys.obs, copies, owed, hpc, pcStage, List.length_append, List.length_map, List.length_cons, List.length_nil]
      omega
    · simp only [withProc, Processor.setCall, Processor.Sys.obs, copies, owed, hpc, List.length_append, List.length_map, List.length_cons, List.length_nil]
      omega
  | draining =>
    have hno : ∀ e' : Entry, cl.pc ≠ .aborting e' := by rw [hpc]; simp
    have hcopy := h.copy
    simp only [hpc, copies, owed] at hcopy
    by_cases hp : 0 < cl.processed
    · have ea : Processor.advance c s.proc old.length cl found (answer granted) =
          (Processor.setCall { s.proc with cap := c.queueCapacity } old.length { cl with pc := .done }).obs (.reset old.length) := by
        simp [Processor.advance, hpc, hp]
      rw [ea]
      refine ⟨{ cl with pc := .done }, h.moved _ hl rfl rfl rfl h.heap (fun hf => absurd rfl hf) (fun _ => rfl) nofun nofun h.wf (cnt_same h hno _) nofun hcopy, ?_, ?_⟩
      · simp only [mu, stage_proc hl, stage_self hl]
        simp only [withProc, Processor.setCall, Processor.Sys.obs, copies, owed, hpc, pcStage]
        omega
      · exact Nat.le_refl _
    · have ea : Processor.advance c s.proc old.length cl found (answer granted) = Processor.setCall s.proc old.length { cl with pc := .done } := by
        simp [Processor.advance, hpc, hp]
      rw [ea]
      refine ⟨{ cl with pc := .done }, h.moved _ hl rfl rfl rfl h.heap (fun hf => absurd rfl hf) (fun _ => ?_) nofun nofun h.wf (cnt_same h hno _) nofun hcopy, ?_, ?_⟩
      · simp only [withProc, Processor.setCall]
        omega
      · simp only [mu, stage_proc hl, stage_self hl]
        simp only [withProc, Processor.setCall, Processor.Sys.obs, copies, owed, hpc, pcStage]
        omega
      · exact Nat.le_refl _
  | done => exact absurd hpc hd
  | failed => exact absurd hpc h.nofail

/-- A step of the `execute()` call: work is done, unless there is none. -/
theorem Good.tick {c : Cfg} (hv : c.Valid) {s : Sys} {old : List Call} {cl : Call} (h : Good c s old cl) (hidle : ¬ Idle s cl)
    (hmax : (copies s.proc cl.pc).length < c.maxDenial) (f g : Bool) :
    ∃ old' cl', Good c (move c s (.tick f g)) old' cl' ∧ mu (move c s (.tick f g)) cl' ≤ mu s cl - 1 ∧
      (copies (move c s (.tick f g)).proc cl'.pc).length ≤ (copies s.proc cl.pc).length := by
  rcases h.loop with hl | ⟨hl, hpc⟩
  · have hget : s.proc.calls[old.length]? = some cl := by rw [h.calls]; simp
    by_cases hd : cl.pc = .done
    · have e : move c s (.tick f g) = { s with loops := [.sleeping] } := by
        simp [move, act, hl, next, isDone, hget, hd, step, resume]
      rw [e]
      refine ⟨old, cl, ⟨h.heap, h.calls, h.oldDone, h.go, .inr ⟨rfl, hd⟩, h.cap, h.capDone, h.nofail, h.getq, h.wf, h.cnt, h.abo, h.copy⟩, ?_, Nat.le_refl _⟩
      have h1 : stage s cl = 6 := by rw [stage_self hl, hd]; rfl
      have h2 : stage { s with loops := [.sleeping] } cl = 5 := by simp [stage]
      simp only [mu, h1, h2]
      omega
    · have e : move c s (.tick f g) = withProc s (Processor.advance c s.proc old.length cl f (answer g)) := by
        have hne : (cl.pc == .done) = false := by simpa using hd
        have hstop : ∀ p : Perm, (Processor.Act.go old.length f p == Processor.Act.stop) = false := fun p => by simp
        simp [move, act, hl, next, isDone, hget, hne, step, Processor.step, withProc, hstop]
      rw [e]
      obtain ⟨cl', k1, k2, k3⟩ := h.advance hl hd hidle hmax f g
      exact ⟨old, cl', k1, k2, k3⟩
  · have e : move c s (.tick f g) = step c s (.resume 0) := by simp [move, act, hl, next]
    rw [e]
    obtain ⟨cl', k1, k2, k3⟩ := h.sleep hl hpc (by have := hv.1; omega)
    exact ⟨_, cl', k1, k2, k3⟩

theorem noStop (id : Nat) (prio : Option Processor.Prio) (created : Option Int) : (Processor.Act.enqueue id prio created == Processor.Act.stop) = false := by simp

theorem noStop' (k : Nat) : (Processor.Act.enqPut k == Processor.Act.stop) = false := by simp

/-- A step of somebody else: at most one event is added. -/
theorem Good.other {c : Cfg} {s : Sys} {old : List Call} {cl : Call} (h : Good c s old cl) (ev : Ev) (ht : isTick ev = false) :
    Good c (move c s ev) old cl ∧ mu (move c s ev) cl ≤ mu s cl + (if isPut ev then 30 else 0) ∧
      (copies (move c s ev).proc cl.pc).length ≤ (copies s.proc cl.pc).length + (if isPut ev then 1 else 0) := by
  have hsame : ∀ t : Sys, t.proc.queue = s.proc.queue → t.proc.calls = s.proc.calls → t.proc.cap = s.proc.cap → t.proc.denials = s.proc.denials →
      t.stopped = s.stopped → t.loops = s.loops → Good c t old cl ∧ mu t cl ≤ mu s cl + 0 ∧ (copies t.proc cl.pc).length ≤ (copies s.proc cl.pc).length + 0 := by
    intro t e1 e2 e3 e4 e5 e6
    have hc : copies t.proc cl.pc = copies s.proc cl.pc := by simp [copies, e1]
    refine ⟨⟨by rw [e1]; exact h.heap, by rw [e2]; exact h.calls, h.oldDone, by rw [e5]; exact h.go, by rw [e6]; exact h.loop, by rw [e3]; exact h.cap,
      by rw [e3]; exact h.capDone, h.nofail, by rw [e1]; exact h.getq, by rw [e4]; exact h.wf, by rw [e4]; exact h.cnt, by rw [e4]; exact h.abo, by rw [e4, hc]; exact h.copy⟩, ?_, ?_⟩
    · simp only [mu, stage, e3, e4, e6, hc]; omega
    · rw [hc]; exact Nat.le_refl _
  cases ev with
  | tick f g => simp [isTick] at ht
  | enqueue id prio created =>
    refine hsame _ ?_ ?_ ?_ ?_ (by simp [move, act, step, noStop]) rfl
    all_goals
      simp only [move, act, step, Processor.step, Processor.enqueue]
      split
      · simp [Processor.Sys.obs]
      · split
        · simp [Processor.Sys.obs]
        · simp [Processor.Sys.obs]
        · split <;> simp [Processor.Sys.obs]
  | put k =>
    cases hk : s.proc.pending[k]? with
    | none =>
      have e : move c s (.put k) = s := by simp [move, act, step, Processor.step, Processor.enqPut, hk, noStop']
      rw [e]
      have := hsame s rfl rfl rfl rfl rfl rfl
      refine ⟨this.1, ?_, ?_⟩
      · simp only [isPut, if_true]; omega
      · simp only [isPut, if_true]; omega
    | some e =>
      have em : move c s (.put k) = withProc s { s.proc with queue := Heapq.push Processor.entryLt s.proc.queue e, pending := s.proc.pending.eraseIdx k, log := s.proc.log ++ [.enq e] } := by
        simp [move, act, step, Processor.step, Processor.enqPut, hk, withProc, noStop']
      have hp := Heapq.push_perm Processor.entryLt s.proc.queue e
      have hmap : ((Heapq.push Processor.entryLt s.proc.queue e).map Prod.snd).Perm (e.2 :: s.proc.queue.map Prod.snd) := hp.map Prod.snd
      have hlen := hp.length_eq
      simp only [List.length_cons] at hlen
      rw [em]
      refine ⟨⟨Heapq.push_heap Processor.entryOrder h.heap e, h.calls, h.oldDone, h.go, h.loop, h.cap, h.capDone, h.nofail, fun _ hq => ?_, h.wf, h.cnt, h.abo, ?_⟩, ?_, ?_⟩
      · have hq' : Heapq.push Processor.entryLt s.proc.queue e = [] := hq
        rw [hq'] at hlen
        simp at hlen
      · intro x hx
        have := h.copy x hx
        simp only [copies, List.mem_append, withProc] at this ⊢
        rcases this with h1 | h1
        · exact .inl (hmap.mem_iff.mpr (List.mem_cons_of_mem _ h1))
        · exact .inr h1
      · have hst : ∀ p : Processor.Sys, p.cap = s.proc.cap → stage (withProc s p) cl = stage s cl := fun p e => by simp only [stage, withProc, e]
        simp only [mu]
        rw [hst { s.proc with queue := Heapq.push Processor.entryLt s.proc.queue e, pending := s.proc.pending.eraseIdx k, log := s.proc.log ++ [.enq e] } rfl]
        simp only [withProc, copies, List.length_append, List.length_map, hlen, isPut, if_true]
        omega
      · simp only [withProc, copies, List.length_append, List.length_map, hlen, isPut, if_true]
        omega
  | join => exact hsame _ rfl rfl rfl rfl rfl rfl
  | poll j => exact hsame _ rfl rfl rfl rfl rfl rfl

/-! ## Getting through the queue -/

def ticks (evs : List Ev) : Nat := evs.countP isTick
def puts (evs : List Ev) : Nat := evs.countP isPut

theorem idle_reached {c : Cfg} (hv : c.Valid) (evs : List Ev) {s : Sys} {old : List Call} {cl : Call} (h : Good c s old cl)
    (hmax : (copies s.proc cl.pc).length + puts evs < c.maxDenial) (hmu : mu s cl + 30 * (puts evs : Int) < ticks evs) :
    ∃ pre post old' cl', evs = pre ++ post ∧ Good c (moves c s pre) old' cl' ∧ Idle (moves c s pre) cl' := by
  induction evs generalizing s old cl with
  | nil =>
    have := h.mu_nonneg
    simp [puts, ticks] at hmu
    omega
  | cons ev evs ih =>
    by_cases hidle : Idle s cl
    · exact ⟨[], ev :: evs, old, cl, rfl, h, hidle⟩
    · cases ht : isTick ev with
      | true =>
        cases ev with
        | tick f g =>
          obtain ⟨old', cl', k1, k2, k3⟩ := h.tick hv hidle (by omega) f g
          have hp : puts (.tick f g :: evs) = puts evs := by simp [puts, isPut]
          have htk : ticks (.tick f g :: evs) = ticks evs + 1 := by simp [ticks, List.countP_cons, isTick]
          rw [hp] at hmax hmu
          rw [htk] at hmu
          obtain ⟨pre, post, o2, c2, e, g1, g2⟩ := ih k1 (by omega) (by omega)
          exact ⟨.tick f g :: pre, post, o2, c2, by rw [e]; rfl, g1, g2⟩
        | enqueue _ _ _ => simp [isTick] at ht
        | put _ => simp [isTick] at ht
        | join => simp [isTick] at ht
        | poll _ => simp [isTick] at ht
      | false =>
        obtain ⟨k1, k2, k3⟩ := h.other ev ht
        have hp : puts (ev :: evs) = puts evs + (if isPut ev then 1 else 0) := by simp [puts, List.countP_cons]
        have htk : ticks (ev :: evs) = ticks evs := by simp [ticks, ht]
        rw [hp] at hmax hmu
        rw [htk] at hmu
        obtain ⟨pre, post, o2, c2, e, g1, g2⟩ := ih k1 (by cases hb : isPut ev <;> simp [hb] at * <;> omega) (by cases hb : isPut ev <;> simp [hb] at * <;> omega)
        exact ⟨ev :: pre, post, o2, c2, by rw [e]; rfl, g1, g2⟩

/-! ### Before `execute()` -/

theorem before_execute (c : Cfg) (pre : List Ev) (hp : ticks pre = 0) :
    Heapq.IsHeap Processor.entryLt (moves c (init c) pre).proc.queue ∧ (moves c (init c) pre).proc.calls = [] ∧ (moves c (init c) pre).loops = [] ∧
      (moves c (init c) pre).proc.denials = [] ∧ (moves c (init c) pre).proc.cap = c.queueCapacity ∧ (moves c (init c) pre).proc.queue.length ≤ puts pre := by
  suffices h : ∀ (pre : List Ev) (s : Sys) (n : Nat), ticks pre = 0 → Heapq.IsHeap Processor.entryLt s.proc.queue → s.proc.calls = [] → s.loops = [] → s.proc.denials = [] →
      s.proc.cap = c.queueCapacity → s.proc.queue.length ≤ n → Heapq.IsHeap Processor.entryLt (moves c s pre).proc.queue ∧ (moves c s pre).proc.calls = [] ∧ (moves c s pre).loops = [] ∧
      (moves c s pre).proc.denials = [] ∧ (moves c s pre).proc.cap = c.queueCapacity ∧ (moves c s pre).proc.queue.length ≤ n + puts pre by
    have := h pre (init c) 0 hp (Heapq.heap_nil _) rfl rfl rfl rfl (Nat.le_refl _)
    rw [Nat.zero_add] at this
    exact this
  intro pre
  induction pre with
  | nil => intro s n _ h1 h2 h3 h4 h5 h6; exact ⟨h1, h2, h3, h4, h5, by simpa [moves, puts] using h6⟩
  | cons ev evs ih =>
    intro s n ht h1 h2 h3 h4 h5 h6
    have hev : isTick ev = false := by
      cases hb : isTick ev with
      | false => rfl
      | true => simp [ticks, hb] at ht
    have ht' : ticks evs = 0 := by simpa [ticks, hev] using ht
    have hput : puts (ev :: evs) = puts evs + (if isPut ev then 1 else 0) := by simp [puts, List.countP_cons]
    have hcons : moves c s (ev :: evs) = moves c (move c s ev) evs := rfl
    rw [hcons]
    rw [hput]
    cases ev with
    | tick f g => simp [isTick] at hev
    | enqueue id prio created =>
      have hq : (move c s (.enqueue id prio created)).proc.queue = s.proc.queue ∧ (move c s (.enqueue id prio created)).proc.calls = s.proc.calls ∧
          (move c s (.enqueue id prio created)).loops = s.loops ∧ (move c s (.enqueue id prio created)).proc.denials = s.proc.denials ∧
          (move c s (.enqueue id prio created)).proc.cap = s.proc.cap := by
        simp only [move, act, step, Processor.step, Processor.enqueue]
        split
        · simp [Processor.Sys.obs]
        · split
          · simp [Processor.Sys.obs]
          · simp [Processor.Sys.obs]
          · split <;> simp [Processor.Sys.obs]
      obtain ⟨q1, q2, q3, q4, q5⟩ := hq
      obtain ⟨g1, g2, g3, g4, g5, g6⟩ := ih (move c s (.enqueue id prio created)) n ht' (by rw [q1]; exact h1) (by rw [q2]; exact h2) (by rw [q3]; exact h3) (by rw [q4]; exact h4)
        (by rw [q5]; exact h5) (by rw [q1]; exact h6)
      exact ⟨g1, g2, g3, g4, g5, by omega⟩
    | put k =>
      cases hk : s.proc.pending[k]? with
      | none =>
        have e : move c s (.put k) = s := by simp [move, act, step, Processor.step, Processor.enqPut, hk, noStop']
        rw [e]
        obtain ⟨g1, g2, g3, g4, g5, g6⟩ := ih s n ht' h1 h2 h3 h4 h5 h6
        exact ⟨g1, g2, g3, g4, g5, by omega⟩
      | some e =>
        have em : move c s (.put k) = withProc s { s.proc with queue := Heapq.push Processor.entryLt s.proc.queue e, pending := s.proc.pending.eraseIdx k, log := s.proc.log ++ [.enq e] } := by
          simp [move, act, step, Processor.step, Processor.enqPut, hk, withProc, noStop']
        have hlen := (Heapq.push_perm Processor.entryLt s.proc.queue e).length_eq
        simp only [List.length_cons] at hlen
        rw [em]
        obtain ⟨g1, g2, g3, g4, g5, g6⟩ := ih (withProc s { s.proc with queue := Heapq.push Processor.entryLt s.proc.queue e, pending := s.proc.pending.eraseIdx k, log := s.proc.log ++ [.enq e] })
          (n + 1) ht' (Heapq.push_heap Processor.entryOrder h1 e) h2 h3 h4 h5 (by simp only [withProc, hlen]; omega)
        refine ⟨g1, g2, g3, g4, g5, Nat.le_trans g6 ?_⟩
        simp only [isPut, if_true]; omega
    | join =>
      obtain ⟨g1, g2, g3, g4, g5, g6⟩ := ih (move c s .join) n ht' h1 h2 h3 h4 h5 h6
      exact ⟨g1, g2, g3, g4, g5, by omega⟩
    | poll j =>
      obtain ⟨g1, g2, g3, g4, g5, g6⟩ := ih (move c s (.poll j)) n ht' h1 h2 h3 h4 h5 h6
      exact ⟨g1, g2, g3, g4, g5, by omega⟩

theorem good_execute {c : Cfg} (hv : c.Valid) (pre : List Ev) (hp : ticks pre = 0) :
    Good c (execute c (moves c (init c) pre)) [] {} ∧ mu (execute c (moves c (init c) pre)) {} ≤ 30 * (puts pre : Int) + 3 ∧
      (copies (execute c (moves c (init c) pre)).proc PC.check).length ≤ puts pre := by
  obtain ⟨h1, h2, h3, h4, h5, h6⟩ := before_execute c pre hp
  generalize moves c (init c) pre = s at *
  have e : execute c s = { s with proc := Processor.step c s.proc .process, mode := true, stopped := false, loops := [.processing 0] } := by
    simp [execute, turn, h3, h2]
  rw [e]
  have hcap := hv.1
  refine ⟨⟨h1, by simp [Processor.step, h2], nofun, rfl, .inl rfl, fun _ => ?_, nofun, nofun, nofun, ?_, ?_, nofun, ?_⟩, ?_, ?_⟩
  · simp [Processor.step, h5]
  · show Dict.WF s.proc.denials
    rw [h4]; simp [Dict.WF]
  · intro k v hk
    have hk' : s.proc.denials.get? k = some v := hk
    rw [h4] at hk'; simp at hk'
  · intro k hk
    have hk' : k ∈ s.proc.denials.keys := hk
    rw [h4] at hk'; simp at hk'
  · simp only [mu, stage, copies, owed, pcStage, Processor.step, h4, h5, total]
    rw [if_neg (by simp), if_pos (by omega)]
    simp
    omega
  · simpa [copies, owed, Processor.step] using h6

/-! ### The theorem -/

/-- Entries of a schedule never make a `process()` call fail. -/
theorem act_not_failing (s : Sys) (ev : Ev) : failing (act s ev) = false := by
  cases ev with
  | tick f g =>
    simp only [act]
    cases hl : (s.loops[0]?).getD .returned with
    | processing k =>
      simp only [next]
      split
      · rfl
      · cases g <;> rfl
    | sleeping => rfl
    | returned => rfl
    | raised => rfl
  | enqueue id prio created => rfl
  | put k => rfl
  | join => rfl
  | poll j => rfl

theorem book_moves {c : Cfg} (evs : List Ev) {s : Sys} {id lost : Nat} (h : Book id lost s.proc) : Book id lost (moves c s evs).proc := by
  induction evs generalizing s with
  | nil => exact h
  | cons ev evs ih =>
    obtain ⟨l, h1, h2, h3⟩ := book_step (c := c) h (act s ev)
    rw [h2 (act_not_failing s ev)] at h3
    exact ih (s := move c s ev) h3

theorem idle_ended {s : Sys} {c : Cfg} {old : List Call} {cl : Call} (h : Good c s old cl) (hi : Idle s cl) (hb : ∀ id, Book id 0 s.proc) : AllEnded s := by
  intro id
  have := (hb id).sum
  have h1 : queued id s.proc = 0 := by simp [queued, hi.1]
  have h2 : inHand id s.proc = 0 := by
    rw [inHand, List.countP_eq_zero, h.calls]
    intro x hx
    rcases List.mem_append.mp hx with hx | hx
    · simp [holds, Call.held, h.oldDone x hx]
    · rw [List.mem_singleton] at hx
      rw [hx]
      simp [holds, hi.2]
  omega

/-- C255.  `pre` is any history of `enqueue()`/`join()` calls before `execute()` begins, `evs` any schedule of its steps and of further calls, with any answers of the event pile and of `request_permission`.  If
`execute()` gets 30 steps for every event accepted and 4 more (and fewer events are accepted than denial counts can be kept), there is a moment at which every event accepted until then has been started, found missing from the
pile, or aborted. -/
theorem C255_progress {c : Cfg} (hv : c.Valid) (pre evs : List Ev) (hp : ticks pre = 0) (hmax : puts pre + puts evs < c.maxDenial)
    (ht : 30 * (puts pre + puts evs) + 4 ≤ ticks evs) :
    ∃ evs1 evs2, evs = evs1 ++ evs2 ∧ AllEnded (moves c (execute c (moves c (init c) pre)) evs1) ∧
      (moves c (execute c (moves c (init c) pre)) evs1).proc.queue = [] := by
  obtain ⟨g1, g2, g3⟩ := good_execute hv pre hp
  have g3' : (copies (execute c (moves c (init c) pre)).proc ({} : Call).pc).length ≤ puts pre := g3
  obtain ⟨p, q, o, cl, e, k1, k2⟩ := idle_reached hv evs g1 (by omega) (by omega)
  refine ⟨p, q, e, idle_ended k1 k2 (fun id => ?_), k2.1⟩
  refine book_moves p ?_
  obtain ⟨l, h1, h2, h3⟩ := book_step (c := c) (s := moves c (init c) pre) (book_moves pre (book_init c id)) .execute
  rw [h2 rfl] at h3
  exact h3

/-- The hypotheses are met: two events enqueued, one of them denied every time, a third event enqueued while the loop runs. -/
example : ticks [.enqueue 1 (some (.finite 1)) none, .put 0, .enqueue 2 (some (.finite 2)) none, .put 0] = 0 ∧
    30 * (puts [.enqueue 1 (some (.finite 1)) none, .put 0, .enqueue 2 (some (.finite 2)) none, .put 0] + puts (.enqueue 3 (some (.finite 0)) none :: .put 0 :: List.replicate 100 (.tick true true))) + 4 ≤
      ticks (.enqueue 3 (some (.finite 0)) none :: .put 0 :: List.replicate 100 (.tick true true)) ∧
    (moves ⟨1, 10, 10⟩ (execute ⟨1, 10, 10⟩ (moves ⟨1, 10, 10⟩ (init ⟨1, 10, 10⟩) [.enqueue 1 (some (.finite 1)) none, .put 0, .enqueue 2 (some (.finite 2)) none, .put 0]))
      (.enqueue 3 (some (.finite 0)) none :: .put 0 :: List.replicate 40 (.tick true true))).proc.log.filter (fun o => isEnd 1 o || isEnd 2 o || isEnd 3 o) =
      [.start 0 (0, 3), .start 1 (1, 1), .start 2 (2, 2)] := by
  refine ⟨by decide, by decide +kernel, by decide +kernel⟩

/-- … and an event that is denied three times is aborted. -/
example : (moves ⟨1, 10, 10⟩ (execute ⟨1, 10, 10⟩ (moves ⟨1, 10, 10⟩ (init ⟨1, 10, 10⟩) [.enqueue 1 (some (.finite 1)) none, .put 0]))
      (List.replicate 40 (.tick true false))).proc.log.filter (isEnd 1) = [.aborted 2 1] := by
  decide +kernel

end Verif.ExecLoop
