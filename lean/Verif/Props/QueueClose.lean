import Verif.Props.Queue

/-!
# C225: every call on a `Queue` ends at most once, and a closed queue keeps nobody waiting
-/

set_option linter.unusedSectionVars false
set_option linter.unusedSimpArgs false
set_option linter.unusedVariables false

namespace Verif.Queue

variable {α : Type}

/-! ### Specification -/

/-- The event ends the get number `g`. -/
def ends (g : Nat) : Ev α → Bool
  | .got g' _ _ => g' == g
  | .getFailed g' => g' == g
  | _ => false

/-- The op is a get. -/
def isGet : Op α → Bool
  | .get => true
  | .getNowait => true
  | _ => false

/-- The op is a put. -/
def isPut : Op α → Bool
  | .put _ => true
  | .putNowait _ => true
  | _ => false

/-- How many of the ops are gets. -/
def gets (os : List (Op α)) : Nat := os.countP isGet

/-- The op closes the sending end, the receiving end. -/
def closesSend : Op α → Bool
  | .closeSend => true
  | _ => false

def closesRecv : Op α → Bool
  | .closeRecv => true
  | _ => false

/-! ### Lemmas -/

/-- What one step does to the counters, flags and the gets it ends. -/
structure Stepped (s : State α) (o : Op α) (r : State α × List (Ev α)) : Prop where
  gets : r.1.nextGet = s.nextGet + (if isGet o then 1 else 0)
  puts : r.1.nextPut = s.nextPut + (if isPut o then 1 else 0)
  send : r.1.sendOpen = (s.sendOpen && !closesSend o)
  recv : r.1.recvOpen = (s.recvOpen && !closesRecv o)
  ended : ∀ g, r.2.countP (ends g) + r.1.receivers.count g = s.receivers.count g + (if isGet o = true ∧ g = s.nextGet then 1 else 0)
  senders : s.recvOpen = false → s.senders = [] → r.1.senders = []
  closed : closesRecv o = true → r.1.senders = []

theorem count_filter_ne (l : List Nat) (a g : Nat) : (l.filter (fun x => decide (x ≠ a))).count g = if g = a then 0 else l.count g := by
  induction l with
  | nil => simp
  | cons b l ih =>
    rw [List.filter_cons]
    by_cases hb : b = a
    · rw [if_neg (by simpa using hb), ih, List.count_cons]
      by_cases hg : g = a
      · rw [if_pos hg, if_pos hg]
      · rw [if_neg hg, if_neg hg, if_neg]
        · omega
        · simp only [beq_iff_eq]; omega
    · rw [if_pos (by simpa using hb), List.count_cons, ih, List.count_cons]
      by_cases hg : g = a
      · rw [if_pos hg, if_pos hg, if_neg]
        simp only [beq_iff_eq]; omega
      · rw [if_neg hg, if_neg hg]

theorem countP_failed (l : List Nat) (g : Nat) : (l.map (Ev.getFailed (α := α))).countP (ends g) = l.count g := by
  induction l with
  | nil => rfl
  | cons a l ih => simp only [List.map_cons, List.countP_cons, List.count_cons, ih, ends]; rfl

theorem countP_withdrawn (l : List (Nat × α)) (g : Nat) : (l.map (fun p => Ev.withdrawn (α := α) p.1)).countP (ends g) = 0 := by
  induction l with
  | nil => rfl
  | cons a l ih => simp only [List.map_cons, List.countP_cons, ih, ends]; rfl

theorem count_one {l : List Nat} {a : Nat} (hp : l.Pairwise (· < ·)) (h : a ∈ l) : l.count a = 1 := by
  have hn : l.Nodup := hp.imp (fun h => Nat.ne_of_lt h)
  exact Nat.le_antisymm (List.nodup_iff_count.1 hn a) (List.count_pos_iff.2 h)

/-- An op that is a put. -/
theorem stepped_put {s : State α} {o : Op α} (hp : isPut o = true) (h1 : isGet o = false) (h2 : closesSend o = false) (h3 : closesRecv o = false)
    (x : α) (d : State α × List (Ev α))
    (hd : d = ({ s with nextPut := s.nextPut + 1 }, [.refused s.nextPut]) ∨
      (d = ({ s with nextPut := s.nextPut + 1, senders := s.senders ++ [(s.nextPut, x)] }, [.offered s.nextPut x]))) :
    Stepped s o (if s.sendOpen && s.recvOpen then (sendNowait { s with nextPut := s.nextPut + 1 } s.nextPut x).getD d else ({ s with nextPut := s.nextPut + 1 }, [.refused s.nextPut])) := by
  have base : Stepped s o ({ s with nextPut := s.nextPut + 1 }, [.refused s.nextPut]) :=
    ⟨by simp [h1], by simp [hp], by simp [h2], by simp [h3], fun g => by simp [h1, ends], fun _ h => h, fun h => by rw [h3] at h; cases h⟩
  by_cases ho : (s.sendOpen && s.recvOpen) = true
  · rw [if_pos ho]
    simp only [Bool.and_eq_true] at ho
    apply getD_some_or
    · intro r hr
      rcases sendNowait_cases { s with nextPut := s.nextPut + 1 } s.nextPut x with ⟨g, gs, h4, h5⟩ | ⟨_, _, h5⟩ | ⟨_, _, h5⟩ <;> rw [h5] at hr
      · obtain rfl := Option.some.inj hr
        simp only at h4
        refine ⟨by simp [h1], by simp [hp], by simp [h2], by simp [h3], fun g' => ?_, fun _ h => h, fun h => by rw [h3] at h; cases h⟩
        simp only [h1, h4, List.countP_cons, List.countP_nil, ends, List.count_cons]
        simp; omega
      · obtain rfl := Option.some.inj hr
        exact ⟨by simp [h1], by simp [hp], by simp [h2], by simp [h3], fun g' => by simp [h1, ends], fun _ h => h, fun h => by rw [h3] at h; cases h⟩
      · cases hr
    · intro _
      rcases hd with rfl | rfl
      · exact base
      · exact ⟨by simp [h1], by simp [hp], by simp [h2], by simp [h3], fun g' => by simp [h1, ends], fun h => (by rw [ho.2] at h; cases h), fun h => by rw [h3] at h; cases h⟩
  · rw [if_neg ho]; exact base

/-- An op that is a get. -/
theorem stepped_get {s : State α} {o : Op α} (hp : isPut o = false) (h1 : isGet o = true) (h2 : closesSend o = false) (h3 : closesRecv o = false)
    (d : State α × List (Ev α))
    (hd : d = ({ s with nextGet := s.nextGet + 1 }, [.getFailed s.nextGet]) ∨
      (d = ({ s with nextGet := s.nextGet + 1, receivers := s.receivers ++ [s.nextGet] }, [.getBlocked s.nextGet]))) :
    Stepped s o (if s.recvOpen then (receiveNowait { s with nextGet := s.nextGet + 1 } s.nextGet).getD d else ({ s with nextGet := s.nextGet + 1 }, [.getFailed s.nextGet])) := by
  have base : Stepped s o ({ s with nextGet := s.nextGet + 1 }, [.getFailed s.nextGet]) := by
    refine ⟨by simp [h1], by simp [hp], by simp [h2], by simp [h3], fun g => ?_, fun _ h => h, fun h => by rw [h3] at h; cases h⟩
    simp only [h1, ends, List.countP_cons, List.countP_nil, beq_iff_eq, true_and, @eq_comm _ s.nextGet g]; omega
  by_cases ho : s.recvOpen = true
  · rw [if_pos ho]
    apply getD_some_or
    · intro r hr
      rcases receiveNowait_cases { s with nextGet := s.nextGet + 1 } s.nextGet with ⟨_, _, h5⟩ | ⟨p, ps, _, _, h5⟩ | ⟨p, ps, _, _, _, _, h5⟩ | ⟨p, ps, b, bs, _, _, h5⟩ <;> rw [h5] at hr
      · cases hr
      all_goals
        obtain rfl := Option.some.inj hr
        refine ⟨by simp [h1], by simp [hp], by simp [h2], by simp [h3], fun g => ?_, fun h => (by rw [ho] at h; cases h), fun h => by rw [h3] at h; cases h⟩
        simp only [h1, ends, List.countP_cons, List.countP_nil, beq_iff_eq, true_and, @eq_comm _ s.nextGet g]; omega
    · intro _
      rcases hd with rfl | rfl
      · exact base
      · refine ⟨by simp [h1], by simp [hp], by simp [h2], by simp [h3], fun g => ?_, fun h => (by rw [ho] at h; cases h), fun h => by rw [h3] at h; cases h⟩
        simp only [h1, ends, List.countP_cons, List.countP_nil, Bool.false_eq_true, if_false, List.count_append, List.count_cons, List.count_nil, beq_iff_eq, true_and, @eq_comm _ s.nextGet g]; omega
  · rw [if_neg ho]; exact base

theorem stepped {s : State α} {t : List (Ev α)} (hi : Inv s t) (o : Op α) : Stepped s o (step s o) := by
  cases o with
  | putNowait x => exact stepped_put rfl rfl rfl rfl x _ (Or.inl rfl)
  | put x => exact stepped_put rfl rfl rfl rfl x _ (Or.inr rfl)
  | getNowait => exact stepped_get rfl rfl rfl rfl _ (Or.inl rfl)
  | get =>
    refine stepped_get rfl rfl rfl rfl _ ?_
    simp only
    split
    · exact Or.inr rfl
    · exact Or.inl rfl
  | cancelPut k =>
    simp only [step, cancelPut]
    split
    · exact ⟨rfl, rfl, by simp [closesSend], by simp [closesRecv], fun g => by simp [isGet, ends], fun _ h => by simp [h], fun h => by cases h⟩
    · exact ⟨rfl, rfl, by simp [closesSend], by simp [closesRecv], fun g => by simp [isGet, ends], fun _ h => h, fun h => by cases h⟩
  | cancelGet k =>
    simp only [step, cancelGet]
    split
    · next hk =>
      refine ⟨rfl, rfl, by simp [closesSend], by simp [closesRecv], fun g => ?_, fun _ h => h, fun h => by cases h⟩
      simp only [count_filter_ne]
      by_cases hg : g = k
      · subst hg
        rw [count_one hi.rkeys.1 hk]; simp [isGet, ends]
      · simp [isGet, ends, hg, Ne.symm hg]
    · exact ⟨rfl, rfl, by simp [closesSend], by simp [closesRecv], fun g => by simp [isGet, ends], fun _ h => h, fun h => by cases h⟩
  | closeSend =>
    refine ⟨rfl, rfl, by simp [step, closeSend, closesSend], by simp [step, closeSend, closesRecv], fun g => ?_, fun _ h => h, fun h => by cases h⟩
    simp only [step, closeSend, countP_failed, isGet]; simp
  | closeRecv =>
    refine ⟨rfl, rfl, by simp [step, closeRecv, closesSend], by simp [step, closeRecv, closesRecv], fun g => ?_, fun _ h => rfl, fun h => rfl⟩
    simp only [step, closeRecv, countP_withdrawn, isGet]; simp

/-- The whole history. -/
structure Ran (s : State α) (os : List (Op α)) (r : State α × List (Ev α)) : Prop where
  gets : r.1.nextGet = s.nextGet + gets os
  send : r.1.sendOpen = (s.sendOpen && !os.any closesSend)
  recv : r.1.recvOpen = (s.recvOpen && !os.any closesRecv)
  ended : ∀ g, r.2.countP (ends g) + r.1.receivers.count g = s.receivers.count g + (if s.nextGet ≤ g ∧ g < s.nextGet + Queue.gets os then 1 else 0)
  senders : (s.recvOpen = false ∧ s.senders = []) ∨ os.any closesRecv = true → r.1.senders = []

theorem ran : ∀ (os : List (Op α)) (s : State α) (t : List (Ev α)), Inv s t → Ran s os (run s os)
  | [], s, t, h => ⟨rfl, by simp [run], by simp [run], fun g => by
      have : ¬ (s.nextGet ≤ g ∧ g < s.nextGet + Queue.gets ([] : List (Op α))) := by simp [Queue.gets]
      rw [if_neg this]; simp [run], fun h => by
      rcases h with h | h
      · exact h.2
      · simp at h⟩
  | o :: os, s, t, h => by
    have h1 := stepped h o
    have h2 := ran os (step s o).1 _ (h.step o)
    have hg : Queue.gets (o :: os) = Queue.gets os + if isGet o then 1 else 0 := List.countP_cons
    refine ⟨?_, ?_, ?_, fun g => ?_, ?_⟩
    · simp only [run]; rw [h2.gets, h1.gets, hg]; omega
    · simp only [run]; rw [h2.send, h1.send, List.any_cons]
      cases closesSend o <;> simp
    · simp only [run]; rw [h2.recv, h1.recv, List.any_cons]
      cases closesRecv o <;> simp
    · simp only [run, List.countP_append]
      have a := h1.ended g
      have b := h2.ended g
      rw [h1.gets] at b
      rw [hg]
      cases hog : isGet o
      · simp only [hog, Bool.false_eq_true, if_false, false_and, Nat.add_zero] at a b ⊢
        omega
      · simp only [hog, if_true, true_and] at a b ⊢
        by_cases c1 : g = s.nextGet
        · rw [if_pos c1] at a
          rw [if_neg (by omega)] at b
          rw [if_pos (by omega)]; omega
        · rw [if_neg c1] at a
          by_cases c2 : s.nextGet + 1 ≤ g ∧ g < s.nextGet + 1 + Queue.gets os
          · rw [if_pos c2] at b; rw [if_pos (by omega)]; omega
          · rw [if_neg c2] at b; rw [if_neg (by omega)]; omega
    · intro hc
      simp only [run]
      apply h2.senders
      rcases hc with ⟨c1, c2⟩ | hc
      · left; refine ⟨?_, h1.senders c1 c2⟩
        rw [h1.recv, c1]; rfl
      · rw [List.any_cons, Bool.or_eq_true] at hc
        rcases hc with hc | hc
        · left; exact ⟨by rw [h1.recv, hc]; simp, h1.closed hc⟩
        · right; exact hc

/-! ### C225 -/

/-- C225: the calls of `get` and `get_nowait` so far are numbered 0, 1, ...; each of them has ended exactly once (with an item or a failure), or is still
waiting and has not ended; numbers not yet used have not ended. -/
theorem C225_once (n : Nat) (os : List (Op α)) (s : State α) (t : List (Ev α)) (hr : run (withMaxsize n) os = (s, t)) (g : Nat) :
    (g < gets os → (t.countP (ends g) = 1 ∧ g ∉ waiting [] t) ∨ (t.countP (ends g) = 0 ∧ g ∈ waiting [] t)) ∧
    (gets os ≤ g → t.countP (ends g) = 0 ∧ g ∉ waiting [] t) := by
  have h := Inv.run os (inv_init (α := α) n)
  have h2 := ran os _ _ (inv_init (α := α) n)
  rw [List.nil_append, hr] at h
  rw [hr] at h2
  simp only at h
  have he := h2.ended g
  rw [h.wait]
  have he : t.countP (ends g) + s.receivers.count g = 0 + (if 0 ≤ g ∧ g < 0 + gets os then 1 else 0) := he
  simp only [Nat.zero_le, true_and, Nat.zero_add] at he
  constructor
  · intro hg
    rw [if_pos hg] at he
    by_cases hm : g ∈ s.receivers
    · right; have := List.count_pos_iff.2 hm; exact ⟨by omega, hm⟩
    · left; have := List.count_eq_zero.2 hm; exact ⟨by omega, hm⟩
  · intro hg
    rw [if_neg (by omega)] at he
    exact ⟨by omega, fun hm => by have := List.count_pos_iff.2 hm; omega⟩

/-- C225: cancelling a waiting get ends that get, with a failure; cancelling any other number does nothing. -/
theorem C225_cancel (n : Nat) (os : List (Op α)) (s : State α) (t : List (Ev α)) (hr : run (withMaxsize n) os = (s, t)) (g : Nat) :
    (g ∈ waiting [] t → (step s (.cancelGet g)).2 = [.getFailed g]) ∧ (g ∉ waiting [] t → step s (.cancelGet g) = (s, [])) := by
  have h := Inv.run os (inv_init (α := α) n)
  rw [List.nil_append, hr] at h
  rw [h.wait]
  simp only [step, cancelGet]
  constructor
  · intro hm; rw [if_pos hm]
  · intro hm; rw [if_neg hm]

/-- C225: once either end has been closed every put is refused; once the sending end has been closed no get waits, and none will; once the receiving end has
been closed every get fails and no put waits. -/
theorem C225_closed (n : Nat) (os : List (Op α)) (s : State α) (t : List (Ev α)) (hr : run (withMaxsize n) os = (s, t)) :
    ((os.any closesSend = true ∨ os.any closesRecv = true) → ∀ x, (step s (.put x)).2 = [.refused s.nextPut] ∧ (step s (.putNowait x)).2 = [.refused s.nextPut]) ∧
    (os.any closesSend = true → waiting [] t = [] ∧ ∀ k, Ev.getBlocked k ∉ (step s .get).2) ∧
    (os.any closesRecv = true → (step s .get).2 = [.getFailed s.nextGet] ∧ (step s .getNowait).2 = [.getFailed s.nextGet] ∧ s.senders = []) := by
  have h := Inv.run os (inv_init (α := α) n)
  have h2 := ran os _ _ (inv_init (α := α) n)
  rw [List.nil_append, hr] at h
  rw [hr] at h2
  simp only at h
  have hs := h2.send
  have hv := h2.recv
  simp only [withMaxsize, Bool.true_and] at hs hv
  refine ⟨fun hc x => ?_, fun hc => ?_, fun hc => ?_⟩
  · have : (s.sendOpen && s.recvOpen) = false := by
      rcases hc with hc | hc
      · rw [hs, hc]; rfl
      · rw [hv, hc]; simp
    simp only [step, put, putNowait]
    rw [if_neg (by simp only [this]; simp), if_neg (by simp only [this]; simp)]
    exact ⟨rfl, rfl⟩
  · rw [hc] at hs
    refine ⟨by rw [h.wait]; exact h.closed hs, fun k => ?_⟩
    simp only [step, get]
    split
    · refine getD_some_or _ _ (fun r : State α × List (Ev α) => Ev.getBlocked k ∉ r.2) ?_ ?_
      · intro r hr
        rcases receiveNowait_cases { s with nextGet := s.nextGet + 1 } s.nextGet with ⟨_, _, h5⟩ | ⟨p, ps, _, _, h5⟩ | ⟨p, ps, _, _, _, _, h5⟩ | ⟨p, ps, b, bs, _, _, h5⟩ <;> rw [h5] at hr
        · cases hr
        all_goals obtain rfl := Option.some.inj hr; simp
      · intro _
        have hso : s.sendOpen = false := hs
        simp [hso]
    · simp
  · rw [hc] at hv
    have hro : s.recvOpen = false := hv
    simp only [step, get, getNowait, hro, Bool.false_eq_true, if_false]
    exact ⟨trivial, trivial, h2.senders (Or.inr hc)⟩

example : (run (withMaxsize 1) ([.get, .get, .put 3, .closeSend, .get] : List (Op Nat))).2 =
    [.getBlocked 0, .getBlocked 1, .offered 0 3, .got 0 0 3, .getFailed 1, .getFailed 2] := by decide

end Verif.Queue
