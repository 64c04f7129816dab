import Verif.Model.Queue

/-!
# C156, C157: the async FIFO queue
-/

set_option linter.unusedSectionVars false
set_option linter.unusedSimpArgs false
set_option linter.unusedVariables false

namespace Verif.Queue

variable {α : Type}

/-! ### Specification (over what the callers see) -/

/-- The items put so far, in the order of the calls, without those whose put was withdrawn. -/
def live : List (Nat × α) → List (Ev α) → List (Nat × α)
  | acc, [] => acc
  | acc, .offered k x :: t => live (acc ++ [(k, x)]) t
  | acc, .withdrawn k :: t => live (acc.filter (fun p => p.1 ≠ k)) t
  | acc, _ :: t => live acc t

/-- The items received so far, in order. -/
def received : List (Ev α) → List (Nat × α)
  | [] => []
  | .got _ k x :: t => (k, x) :: received t
  | _ :: t => received t

/-- The numbers of the gets that have been blocked and are still waiting. -/
def waiting : List Nat → List (Ev α) → List Nat
  | acc, [] => acc
  | acc, .getBlocked g :: t => waiting (acc ++ [g]) t
  | acc, .got g _ _ :: t => waiting (acc.filter (· ≠ g)) t
  | acc, .getFailed g :: t => waiting (acc.filter (· ≠ g)) t
  | acc, _ :: t => waiting acc t

/-! ### Lemmas -/

theorem live_append (t u : List (Ev α)) : ∀ acc, live acc (t ++ u) = live (live acc t) u := by
  induction t with
  | nil => intro acc; rfl
  | cons e t ih => intro acc; cases e <;> exact ih _

theorem received_append (t u : List (Ev α)) : received (t ++ u) = received t ++ received u := by
  induction t with
  | nil => rfl
  | cons e t ih => cases e <;> simp [received, ih]

theorem waiting_append (t u : List (Ev α)) : ∀ acc, waiting acc (t ++ u) = waiting (waiting acc t) u := by
  induction t with
  | nil => intro acc; rfl
  | cons e t ih => intro acc; cases e <;> exact ih _

/-- What a state and the trace so far satisfy. -/
structure Inv (s : State α) (t : List (Ev α)) : Prop where
  fifo : live [] t = received t ++ s.buffer ++ s.senders
  keys : (((received t ++ s.buffer ++ s.senders).map Prod.fst).Pairwise (· < ·)) ∧ ∀ k ∈ (received t ++ s.buffer ++ s.senders).map Prod.fst, k < s.nextPut
  cap : s.buffer.length ≤ s.cap
  full : s.senders ≠ [] → s.buffer.length = s.cap
  idle : s.receivers ≠ [] → s.buffer = [] ∧ s.senders = []
  closed : s.sendOpen = false → s.receivers = []
  wait : waiting [] t = s.receivers
  rkeys : s.receivers.Pairwise (· < ·) ∧ ∀ g ∈ s.receivers, g < s.nextGet

theorem filter_ne_self {β : Type} (l : List β) (p : β → Bool) (h : ∀ x ∈ l, p x = true) : l.filter p = l := List.filter_eq_self.2 h

/-- The items in order: received, stored, blocked. -/
def items (t : List (Ev α)) (s : State α) : List (Nat × α) := received t ++ s.buffer ++ s.senders

theorem pairwise_snoc {l : List Nat} {n : Nat} (h : l.Pairwise (· < ·)) (hn : ∀ k ∈ l, k < n) : (l ++ [n]).Pairwise (· < ·) := by
  rw [List.pairwise_append]
  exact ⟨h, by simp, fun a ha b hb => by rw [List.mem_singleton.1 hb]; exact hn a ha⟩

theorem keys_snoc {l : List (Nat × α)} {n : Nat} {x : α} (h : (l.map Prod.fst).Pairwise (· < ·) ∧ ∀ k ∈ l.map Prod.fst, k < n) :
    ((l ++ [(n, x)]).map Prod.fst).Pairwise (· < ·) ∧ ∀ k ∈ (l ++ [(n, x)]).map Prod.fst, k < n + 1 := by
  rw [List.map_append]
  refine ⟨pairwise_snoc h.1 h.2, fun k hk => ?_⟩
  rcases List.mem_append.1 hk with hk | hk
  · have := h.2 k hk; omega
  · simp at hk; omega

theorem keys_weaken {l : List (Nat × α)} {n : Nat} (h : (l.map Prod.fst).Pairwise (· < ·) ∧ ∀ k ∈ l.map Prod.fst, k < n) :
    (l.map Prod.fst).Pairwise (· < ·) ∧ ∀ k ∈ l.map Prod.fst, k < n + 1 := ⟨h.1, fun k hk => Nat.lt_succ_of_lt (h.2 k hk)⟩

/-- Putting a fresh number only. -/
theorem Inv.tick {s : State α} {t : List (Ev α)} (h : Inv s t) : Inv { s with nextPut := s.nextPut + 1 } t :=
  { h with keys := keys_weaken h.keys }

theorem Inv.tickGet {s : State α} {t : List (Ev α)} (h : Inv s t) : Inv { s with nextGet := s.nextGet + 1 } t :=
  { h with rkeys := ⟨h.rkeys.1, fun g hg => Nat.lt_succ_of_lt (h.rkeys.2 g hg)⟩ }

/-- Events that say nothing about items or waiting gets. -/
theorem Inv.silent {s : State α} {t u : List (Ev α)} (h : Inv s t) (hl : ∀ acc, live acc u = acc) (hr : received u = []) (hw : ∀ acc, waiting acc u = acc) :
    Inv s (t ++ u) := by
  refine { h with fifo := ?_, keys := ?_, wait := ?_ }
  · rw [live_append, hl, received_append, hr, List.append_nil]; exact h.fifo
  · rw [received_append, hr, List.append_nil]; exact h.keys
  · rw [waiting_append, hw]; exact h.wait

theorem sendNowait_cases (s : State α) (k : Nat) (x : α) :
    (∃ g gs, s.receivers = g :: gs ∧ sendNowait s k x = some ({ s with receivers := gs }, [.offered k x, .got g k x])) ∨
    (s.receivers = [] ∧ s.buffer.length < s.cap ∧ sendNowait s k x = some ({ s with buffer := s.buffer ++ [(k, x)] }, [.offered k x])) ∨
    (s.receivers = [] ∧ s.cap ≤ s.buffer.length ∧ sendNowait s k x = none) := by
  unfold sendNowait
  cases hr : s.receivers with
  | cons g gs => exact .inl ⟨g, gs, rfl, rfl⟩
  | nil =>
    by_cases hb : s.buffer.length < s.cap
    · exact .inr (.inl ⟨rfl, hb, by simp [hb]⟩)
    · exact .inr (.inr ⟨rfl, by omega, by simp [hb]⟩)

theorem filter_head {g : Nat} {gs : List Nat} (h : (g :: gs).Pairwise (· < ·)) : (g :: gs).filter (fun x => decide (x ≠ g)) = gs := by
  rw [List.filter_cons]
  simp only [ne_eq, not_true_eq_false, decide_false, Bool.false_eq_true, if_false]
  refine filter_ne_self _ _ (fun x hx => ?_)
  have := (List.pairwise_cons.1 h).1 x hx
  simp; omega

/-- A send that does not block, of the next number. -/
theorem Inv.send {s : State α} {t : List (Ev α)} (h : Inv s t) {x : α} {r : State α × List (Ev α)}
    (hr : sendNowait { s with nextPut := s.nextPut + 1 } s.nextPut x = some r) : Inv r.1 (t ++ r.2) := by
  have hk := keys_snoc (x := x) h.keys
  rcases sendNowait_cases { s with nextPut := s.nextPut + 1 } s.nextPut x with ⟨g, gs, h1, h2⟩ | ⟨h1, h2, h3⟩ | ⟨_, _, h3⟩
  · rw [h2] at hr
    obtain rfl := Option.some.inj hr
    simp only at h1
    obtain ⟨hb, hs⟩ := h.idle (by rw [h1]; simp)
    have hf := h.fifo
    rw [hb, hs, List.append_nil, List.append_nil] at hf hk
    refine { fifo := ?_, keys := ?_, cap := h.cap, full := h.full, idle := fun _ => ⟨hb, hs⟩, closed := ?_, wait := ?_, rkeys := ?_ }
    · simp only [live_append, received_append, hf, live, received, hb, hs, List.append_nil]
    · simp only [received_append, received, hb, hs, List.append_nil]; exact hk
    · intro hc; have := h.closed hc; rw [h1] at this; exact absurd this (by simp)
    · simp only [waiting_append, h.wait, waiting, h1]
      exact filter_head (h1 ▸ h.rkeys.1)
    · have := h.rkeys; rw [h1] at this
      exact ⟨(List.pairwise_cons.1 this.1).2, fun g' hg' => this.2 g' (List.mem_cons_of_mem _ hg')⟩
  · rw [h3] at hr
    obtain rfl := Option.some.inj hr
    simp only at h1 h2
    have hs : s.senders = [] := by
      cases hs : s.senders with
      | nil => rfl
      | cons a b => have := h.full (by rw [hs]; simp); omega
    have hf := h.fifo
    rw [hs, List.append_nil] at hf hk
    refine { fifo := ?_, keys := ?_, cap := ?_, full := fun hn => absurd hs hn, idle := fun hn => absurd h1 hn, closed := fun _ => h1, wait := ?_, rkeys := h.rkeys }
    · simp only [live_append, received_append, hf, live, received, hs, List.append_nil, List.append_assoc]
    · simp only [received_append, received, hs, List.append_nil, List.append_assoc] at hk ⊢; exact hk
    · simp only [List.length_append, List.length_cons, List.length_nil]; omega
    · simp only [waiting_append, h.wait, waiting]
  · rw [h3] at hr; exact absurd hr (by simp)

/-- A put that blocks. -/
theorem Inv.block {s : State α} {t : List (Ev α)} (h : Inv s t) {x : α}
    (hr : sendNowait { s with nextPut := s.nextPut + 1 } s.nextPut x = none) :
    Inv { s with nextPut := s.nextPut + 1, senders := s.senders ++ [(s.nextPut, x)] } (t ++ [.offered s.nextPut x]) := by
  have hk := keys_snoc (x := x) h.keys
  rcases sendNowait_cases { s with nextPut := s.nextPut + 1 } s.nextPut x with ⟨g, gs, h1, h2⟩ | ⟨h1, h2, h3⟩ | ⟨h1, h2, h3⟩
  · rw [h2] at hr; exact absurd hr (by simp)
  · rw [h3] at hr; exact absurd hr (by simp)
  · simp only at h1 h2
    refine { fifo := ?_, keys := ?_, cap := h.cap, full := ?_, idle := fun hn => absurd h1 hn, closed := fun _ => h1, wait := ?_, rkeys := h.rkeys }
    · simp only [live_append, received_append, h.fifo, live, received, List.append_nil, List.append_assoc]
    · simp only [received_append, received, List.append_nil, List.append_assoc] at hk ⊢; exact hk
    · intro _; have := h.cap; simp only; omega
    · simp only [waiting_append, h.wait, waiting]

theorem receiveNowait_cases (s : State α) (g : Nat) :
    (s.buffer = [] ∧ s.senders = [] ∧ receiveNowait s g = none) ∨
    (∃ p ps, s.senders = [] ∧ s.buffer = p :: ps ∧ receiveNowait s g = some ({ s with buffer := ps }, [.got g p.1 p.2])) ∨
    (∃ p ps q, s.senders = p :: ps ∧ s.buffer = [] ∧ q = ([] : List (Nat × α)) ∧ receiveNowait s g = some ({ s with senders := ps, buffer := [] }, [.got g p.1 p.2])) ∨
    (∃ p ps b bs, s.senders = p :: ps ∧ s.buffer = b :: bs ∧ receiveNowait s g = some ({ s with senders := ps, buffer := bs ++ [p] }, [.got g b.1 b.2])) := by
  obtain ⟨cap, buffer, senders, receivers, np, ng, so, ro⟩ := s
  cases senders with
  | nil =>
    cases buffer with
    | nil => exact .inl ⟨rfl, rfl, rfl⟩
    | cons p ps => exact .inr (.inl ⟨p, ps, rfl, rfl, rfl⟩)
  | cons p ps =>
    cases buffer with
    | nil => exact .inr (.inr (.inl ⟨p, ps, [], rfl, rfl, rfl, rfl⟩))
    | cons b bs => exact .inr (.inr (.inr ⟨p, ps, b, bs, rfl, rfl, rfl⟩))

theorem Inv.recv {s : State α} {t : List (Ev α)} (h : Inv s t) {r : State α × List (Ev α)}
    (hr : receiveNowait { s with nextGet := s.nextGet + 1 } s.nextGet = some r) : Inv r.1 (t ++ r.2) := by
  have hrec : s.buffer ≠ [] ∨ s.senders ≠ [] → s.receivers = [] := by
    intro hne
    cases hc : s.receivers with
    | nil => rfl
    | cons a b => obtain ⟨h1, h2⟩ := h.idle (by rw [hc]; simp); rcases hne with hne | hne <;> contradiction
  have hf := h.fifo
  have hk := h.keys
  have hcap := h.cap
  have hfull := h.full
  have hrk : s.receivers.Pairwise (· < ·) ∧ ∀ g ∈ s.receivers, g < s.nextGet + 1 := ⟨h.rkeys.1, fun g hg => Nat.lt_succ_of_lt (h.rkeys.2 g hg)⟩
  rcases receiveNowait_cases { s with nextGet := s.nextGet + 1 } s.nextGet with ⟨_, _, h3⟩ | ⟨p, ps, h1, h2, h3⟩ | ⟨p, ps, _, h1, h2, _, h3⟩ | ⟨p, ps, b, bs, h1, h2, h3⟩
  · rw [h3] at hr; exact absurd hr (by simp)
  all_goals
    rw [h3] at hr
    obtain rfl := Option.some.inj hr
    simp only at h1 h2
    have hz : s.receivers = [] := hrec (by simp [h1, h2])
    rw [h1, h2] at hf hk
    rw [h2] at hcap
    rw [h1, h2] at hfull
    refine { fifo := ?_, keys := ?_, cap := ?_, full := ?_, idle := fun hn => absurd hz hn, closed := fun _ => hz, wait := ?_, rkeys := hrk }
    · simp only [live_append, received_append, hf, live, received, List.append_nil, List.append_assoc, List.cons_append, List.nil_append, h1]
    · simpa only [received_append, received, List.append_nil, List.append_assoc, List.cons_append, List.nil_append, h1] using hk
    · simp only [List.length_append, List.length_cons, List.length_nil] at hcap hfull ⊢; omega
    · intro hn
      simp only [List.length_append, List.length_cons, List.length_nil, ne_eq, reduceCtorEq, not_false_eq_true, forall_const] at hcap hfull hn ⊢
      first | exact absurd h1 hn | omega
    · simp only [waiting_append, h.wait, waiting, hz, List.filter_nil]

theorem filter_key {l : List (Nat × α)} (k : Nat) (h : k ∉ l.map Prod.fst) : l.filter (fun p => decide (p.1 ≠ k)) = l := by
  refine filter_ne_self _ _ (fun p hp => ?_)
  simp only [ne_eq, decide_not, Bool.not_eq_eq_eq_not, Bool.not_true, decide_eq_false_iff_not]
  intro hc; exact h (hc ▸ List.mem_map_of_mem hp)

theorem Inv.cancelPut {s : State α} {t : List (Ev α)} (h : Inv s t) (k : Nat) :
    Inv (cancelPut s k).1 (t ++ (cancelPut s k).2) := by
  unfold Queue.cancelPut
  split
  · rename_i hm
    have hk := h.keys
    simp only [List.map_append, List.pairwise_append, List.mem_append] at hk
    have hn : k ∉ (received t ++ s.buffer).map Prod.fst := by
      intro hc
      rw [List.map_append] at hc
      have := hk.1.2.2 k (List.mem_append.1 hc) k hm
      omega
    have hsub : ((received t ++ s.buffer ++ s.senders).filter (fun p => decide (p.1 ≠ k))) = received t ++ s.buffer ++ s.senders.filter (fun p => decide (p.1 ≠ k)) := by
      rw [List.filter_append, filter_key k hn]
    refine { fifo := ?_, keys := ?_, cap := h.cap, full := ?_, idle := ?_, closed := h.closed, wait := ?_, rkeys := h.rkeys }
    · simp only [live_append, received_append, h.fifo, live, received, List.append_nil]; exact hsub
    · simp only [received_append, received, List.append_nil]
      rw [← hsub]
      refine ⟨h.keys.1.sublist (List.filter_sublist.map _), fun k' hk' => h.keys.2 k' ((List.filter_sublist.map _).subset hk')⟩
    · intro hn'; exact h.full (by intro hc; apply hn'; simp only; rw [hc]; rfl)
    · intro hr; obtain ⟨h1, h2⟩ := h.idle hr; exact ⟨h1, by simp only; rw [h2]; rfl⟩
    · simp only [waiting_append, h.wait, waiting]
  · simpa using h

theorem Inv.cancelGet {s : State α} {t : List (Ev α)} (h : Inv s t) (g : Nat) :
    Inv (cancelGet s g).1 (t ++ (cancelGet s g).2) := by
  unfold Queue.cancelGet
  split
  · rename_i hm
    refine { fifo := ?_, keys := ?_, cap := h.cap, full := h.full, idle := ?_, closed := ?_, wait := ?_, rkeys := ?_ }
    · simp only [live_append, received_append, h.fifo, live, received, List.append_nil]
    · simp only [received_append, received, List.append_nil]; exact h.keys
    · intro hr; exact h.idle (by intro hc; apply hr; simp only; rw [hc]; rfl)
    · intro hc; simp only; rw [h.closed hc]; rfl
    · simp only [waiting_append, h.wait, waiting]
    · exact ⟨h.rkeys.1.sublist List.filter_sublist, fun g' hg' => h.rkeys.2 g' (List.filter_sublist.subset hg')⟩
  · simpa using h

theorem live_failed (l : List Nat) : ∀ acc : List (Nat × α), live acc (l.map .getFailed) = acc := by
  induction l with
  | nil => intro acc; rfl
  | cons g l ih => intro acc; exact ih acc

theorem received_failed (l : List Nat) : received (l.map (.getFailed (α := α))) = [] := by
  induction l with
  | nil => rfl
  | cons g l ih => exact ih

theorem waiting_failed (l : List Nat) : ∀ acc, (∀ g ∈ acc, g ∈ l) → waiting acc (l.map (.getFailed (α := α))) = [] := by
  induction l with
  | nil => intro acc h; cases acc with
    | nil => rfl
    | cons a b => exact absurd (h a List.mem_cons_self) (by simp)
  | cons g l ih =>
    intro acc h
    refine ih _ (fun x hx => ?_)
    rw [List.mem_filter] at hx
    rcases List.mem_cons.1 (h x hx.1) with rfl | hm
    · simp at hx
    · exact hm

theorem Inv.closeSend {s : State α} {t : List (Ev α)} (h : Inv s t) : Inv (closeSend s).1 (t ++ (closeSend s).2) := by
  unfold Queue.closeSend
  refine { fifo := ?_, keys := ?_, cap := h.cap, full := h.full, idle := fun hn => absurd rfl hn, closed := fun _ => rfl, wait := ?_, rkeys := ?_ }
  · simp only [live_append, received_append, h.fifo, live_failed, received_failed, List.append_nil]
  · simp only [received_append, received_failed, List.append_nil]; exact h.keys
  · simp only [waiting_append, h.wait]; exact waiting_failed _ _ (fun g hg => hg)
  · exact ⟨List.Pairwise.nil, by simp⟩

theorem live_withdrawn (l : List (Nat × α)) : ∀ acc : List (Nat × α), live acc (l.map (fun p => .withdrawn p.1)) = acc.filter (fun p => decide (p.1 ∉ l.map Prod.fst)) := by
  induction l with
  | nil => intro acc; exact (filter_ne_self _ _ (by simp)).symm
  | cons q l ih =>
    intro acc
    simp only [List.map_cons, live, ih, List.filter_filter]
    congr 1; funext p; rw [Bool.eq_iff_iff]; simp [and_comm]

theorem received_withdrawn (l : List (Nat × α)) : received (l.map (fun p => .withdrawn p.1 : _ → Ev α)) = [] := by
  induction l with
  | nil => rfl
  | cons g l ih => exact ih

theorem waiting_withdrawn (l : List (Nat × α)) : ∀ acc, waiting acc (l.map (fun p => .withdrawn p.1 : _ → Ev α)) = acc := by
  induction l with
  | nil => intro acc; rfl
  | cons g l ih => intro acc; exact ih acc

theorem Inv.closeRecv {s : State α} {t : List (Ev α)} (h : Inv s t) : Inv (closeRecv s).1 (t ++ (closeRecv s).2) := by
  unfold Queue.closeRecv
  have hk := h.keys
  simp only [List.map_append, List.pairwise_append, List.mem_append] at hk
  have e : (received t ++ s.buffer ++ s.senders).filter (fun p => decide (p.1 ∉ s.senders.map Prod.fst)) = received t ++ s.buffer := by
    rw [List.filter_append, filter_ne_self (received t ++ s.buffer), List.filter_eq_nil_iff.2, List.append_nil]
    · intro p hp; simp only [decide_eq_true_eq, Decidable.not_not]; exact List.mem_map_of_mem hp
    · intro p hp
      rw [decide_eq_true_eq]
      intro hc
      have hp' : p.1 ∈ (received t ++ s.buffer).map Prod.fst := List.mem_map_of_mem hp
      rw [List.map_append] at hp'
      have := hk.1.2.2 _ (List.mem_append.1 hp') _ hc
      omega
  refine { fifo := ?_, keys := ?_, cap := h.cap, full := fun hn => absurd rfl hn, idle := ?_, closed := h.closed, wait := ?_, rkeys := h.rkeys }
  · simp only [live_append, received_append, h.fifo, live_withdrawn, received_withdrawn, List.append_nil, e]
  · simp only [received_append, received_withdrawn, List.append_nil]
    have := h.keys
    rw [List.map_append] at this
    exact ⟨(List.pairwise_append.1 this.1).1, fun k hk => this.2 k (List.mem_append_left _ hk)⟩
  · intro hr; exact ⟨(h.idle hr).1, rfl⟩
  · simp only [waiting_append, h.wait, waiting_withdrawn]

theorem getD_some_or {β : Type} (o : Option β) (d : β) (P : β → Prop) (h1 : ∀ r, o = some r → P r) (h2 : o = none → P d) : P (o.getD d) := by
  cases o with
  | none => exact h2 rfl
  | some r => exact h1 r rfl

theorem Inv.step {s : State α} {t : List (Ev α)} (h : Inv s t) (o : Op α) : Inv (step s o).1 (t ++ (step s o).2) := by
  cases o with
  | putNowait x =>
    simp only [Queue.step, Queue.putNowait]
    split
    · refine getD_some_or _ _ (fun r => Inv r.1 (t ++ r.2)) (fun r hr => h.send hr) (fun _ => ?_)
      exact h.tick.silent (fun _ => rfl) rfl (fun _ => rfl)
    · exact h.tick.silent (fun _ => rfl) rfl (fun _ => rfl)
  | put x =>
    simp only [Queue.step, Queue.put]
    split
    · refine getD_some_or _ _ (fun r => Inv r.1 (t ++ r.2)) (fun r hr => h.send hr) (fun hn => ?_)
      exact h.block hn
    · exact h.tick.silent (fun _ => rfl) rfl (fun _ => rfl)
  | getNowait =>
    have fail : Inv { s with nextGet := s.nextGet + 1 } (t ++ [.getFailed s.nextGet]) := by
      refine { h.tickGet with fifo := ?_, keys := ?_, wait := ?_ }
      · simp only [live_append, received_append, h.fifo, live, received, List.append_nil]
      · simp only [received_append, received, List.append_nil]; exact h.keys
      · simp only [waiting_append, h.wait, waiting]
        exact filter_ne_self _ _ (fun g hg => by have := h.rkeys.2 g hg; simp; omega)
    simp only [Queue.step, Queue.getNowait]
    split
    · refine getD_some_or _ _ (fun r => Inv r.1 (t ++ r.2)) (fun r hr => h.recv hr) (fun _ => ?_)
      exact fail
    · exact fail
  | get =>
    have fail : Inv { s with nextGet := s.nextGet + 1 } (t ++ [.getFailed s.nextGet]) := by
      refine { h.tickGet with fifo := ?_, keys := ?_, wait := ?_ }
      · simp only [live_append, received_append, h.fifo, live, received, List.append_nil]
      · simp only [received_append, received, List.append_nil]; exact h.keys
      · simp only [waiting_append, h.wait, waiting]
        exact filter_ne_self _ _ (fun g hg => by have := h.rkeys.2 g hg; simp; omega)
    simp only [Queue.step, Queue.get]
    split
    · refine getD_some_or _ _ (fun r => Inv r.1 (t ++ r.2)) (fun r hr => h.recv hr) (fun hn => ?_)
      split
      · rename_i hro hso
        have he : s.buffer = [] ∧ s.senders = [] := by
          rcases receiveNowait_cases { s with nextGet := s.nextGet + 1 } s.nextGet with ⟨h1, h2, _⟩ | ⟨p, ps, _, _, h3⟩ | ⟨p, ps, _, _, _, _, h3⟩ | ⟨p, ps, b, bs, _, _, h3⟩
          · exact ⟨h1, h2⟩
          all_goals rw [h3] at hn; exact absurd hn (by simp)
        refine { fifo := ?_, keys := ?_, cap := h.cap, full := h.full, idle := fun _ => he, closed := fun hc => ?_, wait := ?_, rkeys := ?_ }
        · simp only [live_append, received_append, h.fifo, live, received, List.append_nil]
        · simp only [received_append, received, List.append_nil]; exact h.keys
        · simp only at hc hso; rw [hc] at hso; exact absurd hso (by simp)
        · simp only [waiting_append, h.wait, waiting]
        · refine ⟨pairwise_snoc h.rkeys.1 h.rkeys.2, fun g hg => ?_⟩
          rcases List.mem_append.1 hg with hg | hg
          · have := h.rkeys.2 g hg; simp only; omega
          · simp only [List.mem_singleton] at hg; simp only; omega
      · exact fail
    · exact fail
  | cancelPut k => exact h.cancelPut k
  | cancelGet g => exact h.cancelGet g
  | closeSend => exact h.closeSend
  | closeRecv => exact h.closeRecv

theorem Inv.run {s : State α} : ∀ {t : List (Ev α)} (os : List (Op α)), Inv s t → Inv (run s os).1 (t ++ (run s os).2)
  | t, [], h => by simpa [Queue.run] using h
  | t, o :: os, h => by
    have := Inv.run os (h.step o)
    simp only [Queue.run]
    rw [← List.append_assoc]; exact this

theorem inv_init (n : Nat) : Inv (withMaxsize n : State α) [] where
  fifo := rfl
  keys := ⟨List.Pairwise.nil, by simp [received, withMaxsize]⟩
  cap := Nat.zero_le _
  full := fun h => absurd rfl h
  idle := fun h => absurd rfl h
  closed := fun _ => rfl
  wait := rfl
  rkeys := ⟨List.Pairwise.nil, by simp [withMaxsize]⟩

theorem cap_step (s : State α) (o : Op α) : (step s o).1.cap = s.cap := by
  have hd : ∀ (o : Option (State α × List (Ev α))) (d : State α × List (Ev α)) (c : Nat), (∀ r, o = some r → r.1.cap = c) → d.1.cap = c → (o.getD d).1.cap = c := by
    intro o d c h1 h2; cases o with
    | none => exact h2
    | some r => exact h1 r rfl
  have hs : ∀ (s : State α) k x r, sendNowait s k x = some r → r.1.cap = s.cap := by
    intro s k x r hr
    rcases sendNowait_cases s k x with ⟨g, gs, _, h2⟩ | ⟨_, _, h2⟩ | ⟨_, _, h2⟩ <;> rw [h2] at hr
    · obtain rfl := Option.some.inj hr; rfl
    · obtain rfl := Option.some.inj hr; rfl
    · exact absurd hr (by simp)
  have hr' : ∀ (s : State α) g r, receiveNowait s g = some r → r.1.cap = s.cap := by
    intro s g r hr
    rcases receiveNowait_cases s g with ⟨_, _, h2⟩ | ⟨p, ps, _, _, h2⟩ | ⟨p, ps, _, _, _, _, h2⟩ | ⟨p, ps, b, bs, _, _, h2⟩ <;> rw [h2] at hr
    · exact absurd hr (by simp)
    all_goals obtain rfl := Option.some.inj hr; rfl
  cases o with
  | putNowait x => simp only [step, putNowait]; split <;> first | rfl | exact hd _ _ _ (fun r hr => (hs _ _ _ _ hr).trans rfl) rfl
  | put x => simp only [step, put]; split <;> first | rfl | exact hd _ _ _ (fun r hr => (hs _ _ _ _ hr).trans rfl) rfl
  | getNowait => simp only [step, getNowait]; split <;> first | rfl | exact hd _ _ _ (fun r hr => (hr' _ _ _ hr).trans rfl) rfl
  | get =>
    simp only [step, get]; split
    · refine hd _ _ _ (fun r hr => (hr' _ _ _ hr).trans rfl) ?_
      split <;> rfl
    · rfl
  | cancelPut k => simp only [step, cancelPut]; split <;> rfl
  | cancelGet k => simp only [step, cancelGet]; split <;> rfl
  | closeSend => rfl
  | closeRecv => rfl

theorem cap_run : ∀ (os : List (Op α)) (s : State α), (run s os).1.cap = s.cap
  | [], s => rfl
  | o :: os, s => by simp only [run]; rw [cap_run os, cap_step]

theorem getNowait_open (s : State α) (h : s.recvOpen = true) : step s .getNowait =
    (receiveNowait { s with nextGet := s.nextGet + 1 } s.nextGet).getD ({ s with nextGet := s.nextGet + 1 }, [.getFailed s.nextGet]) := by
  simp only [step, getNowait]; rw [if_pos h]

theorem get_open (s : State α) (h : s.recvOpen = true) : step s .get =
    (receiveNowait { s with nextGet := s.nextGet + 1 } s.nextGet).getD
      (if s.sendOpen then ({ s with nextGet := s.nextGet + 1, receivers := s.receivers ++ [s.nextGet] }, [.getBlocked s.nextGet]) else ({ s with nextGet := s.nextGet + 1 }, [.getFailed s.nextGet])) := by
  simp only [step, get]; rw [if_pos h]

theorem putNowait_open (s : State α) (x : α) (h : s.sendOpen = true) (h' : s.recvOpen = true) : step s (.putNowait x) =
    (sendNowait { s with nextPut := s.nextPut + 1 } s.nextPut x).getD ({ s with nextPut := s.nextPut + 1 }, [.refused s.nextPut]) := by
  simp only [step, putNowait]; rw [if_pos (by rw [h, h']; rfl)]

theorem put_open (s : State α) (x : α) (h : s.sendOpen = true) (h' : s.recvOpen = true) : step s (.put x) =
    (sendNowait { s with nextPut := s.nextPut + 1 } s.nextPut x).getD ({ s with nextPut := s.nextPut + 1, senders := s.senders ++ [(s.nextPut, x)] }, [.offered s.nextPut x]) := by
  simp only [step, put]; rw [if_pos (by rw [h, h']; rfl)]

/-! ### C156 -/

/-- C156: for every history of puts, gets, cancellations and closing, in any order and with any number of blocked tasks, the received items are, in order, the first of the items put (without withdrawn ones): nothing is lost, duplicated, invented or reordered; and what is not yet received is exactly what is stored plus what is offered by blocked puts, at most `maxsize` stored. -/
theorem C156_fifo (n : Nat) (os : List (Op α)) :
    live [] (run (withMaxsize n) os).2 = received (run (withMaxsize n) os).2 ++ ((run (withMaxsize n) os).1.buffer ++ (run (withMaxsize n) os).1.senders) ∧
    (run (withMaxsize n : State α) os).1.buffer.length ≤ n := by
  have h := Inv.run os (inv_init (α := α) n)
  rw [List.nil_append] at h
  refine ⟨by rw [h.fifo, List.append_assoc], ?_⟩
  have hc := h.cap
  rwa [cap_run] at hc

/-- The items put and neither withdrawn nor received. -/
def pending (t : List (Ev α)) : List (Nat × α) := (live [] t).drop (received t).length

/-- C156: a get on an open queue receives the oldest pending item at once, if there is one, and is blocked only if there is none; while a get is blocked nothing is pending. -/
theorem C156_get (n : Nat) (os : List (Op α)) (s : State α) (t : List (Ev α)) (hr : run (withMaxsize n) os = (s, t)) (ho : s.recvOpen = true) :
    (∀ k x rest, pending t = (k, x) :: rest → (step s .get).2 = [.got s.nextGet k x] ∧ (step s .getNowait).2 = [.got s.nextGet k x]) ∧
    (pending t = [] → (step s .getNowait).2 = [.getFailed s.nextGet] ∧ ∀ k x, .got s.nextGet k x ∉ (step s .get).2) ∧
    (waiting [] t ≠ [] → pending t = []) := by
  have h := Inv.run os (inv_init (α := α) n)
  rw [List.nil_append, hr] at h
  simp only at h
  have hp : pending t = s.buffer ++ s.senders := by
    unfold pending; rw [h.fifo, List.append_assoc, List.drop_left]
  refine ⟨?_, ?_, ?_⟩
  · intro k x rest hq
    rw [hp] at hq
    rw [getNowait_open s ho, get_open s ho]
    rcases receiveNowait_cases { s with nextGet := s.nextGet + 1 } s.nextGet with ⟨h1, h2, _⟩ | ⟨p, ps, h1, h2, h3⟩ | ⟨p, ps, _, h1, h2, _, h3⟩ | ⟨p, ps, b, bs, h1, h2, h3⟩
    · simp only at h1 h2; rw [h1, h2] at hq; exact absurd hq (by simp)
    all_goals
      simp only at h1 h2
      rw [h1, h2] at hq
      have hq' := (List.cons.inj hq).1
      rw [h3]
      subst hq'
      exact ⟨rfl, rfl⟩
  · intro hq
    rw [hp] at hq
    obtain ⟨h1, h2⟩ := List.append_eq_nil_iff.1 hq
    rw [getNowait_open s ho, get_open s ho]
    rcases receiveNowait_cases { s with nextGet := s.nextGet + 1 } s.nextGet with ⟨_, _, h3⟩ | ⟨p, ps, _, h2', _⟩ | ⟨p, ps, _, h1', _, _, _⟩ | ⟨p, ps, b, bs, _, h2', _⟩
    · rw [h3]
      refine ⟨rfl, fun k x => ?_⟩
      simp only [Option.getD_none]
      split <;> simp
    · simp only at h2'; rw [h1] at h2'; exact absurd h2' (by simp)
    · simp only at h1'; rw [h2] at h1'; exact absurd h1' (by simp)
    · simp only at h2'; rw [h1] at h2'; exact absurd h2' (by simp)
  · intro hw
    rw [h.wait] at hw
    obtain ⟨h1, h2⟩ := h.idle hw
    rw [hp, h1, h2]; rfl

/-- C156: a put on an open queue goes to the longest waiting get, if any; otherwise it is stored if fewer than `maxsize` items are pending, and else `put_nowait` is refused and `put` waits. -/
theorem C156_put (n : Nat) (os : List (Op α)) (s : State α) (t : List (Ev α)) (hr : run (withMaxsize n) os = (s, t)) (ho : s.sendOpen = true) (ho' : s.recvOpen = true) (x : α) :
    (∀ g gs, waiting [] t = g :: gs → (step s (.put x)).2 = [.offered s.nextPut x, .got g s.nextPut x] ∧ (step s (.putNowait x)).2 = [.offered s.nextPut x, .got g s.nextPut x]) ∧
    (waiting [] t = [] → (pending t).length < n →
      (step s (.putNowait x)).2 = [.offered s.nextPut x] ∧ step s (.put x) = step s (.putNowait x) ∧ (step s (.put x)).1.senders = s.senders) ∧
    (waiting [] t = [] → n ≤ (pending t).length →
      (step s (.putNowait x)).2 = [.refused s.nextPut] ∧ (step s (.put x)).1.senders = s.senders ++ [(s.nextPut, x)] ∧ (step s (.put x)).2 = [.offered s.nextPut x]) := by
  have h := Inv.run os (inv_init (α := α) n)
  have hcap := cap_run os (withMaxsize n : State α)
  rw [hr] at hcap
  rw [List.nil_append, hr] at h
  simp only at h hcap
  have hcap' : s.cap = n := hcap
  have hp : pending t = s.buffer ++ s.senders := by
    unfold pending; rw [h.fifo, List.append_assoc, List.drop_left]
  have hc := h.cap
  have hfull := h.full
  rw [putNowait_open s x ho ho', put_open s x ho ho', h.wait]
  rcases sendNowait_cases { s with nextPut := s.nextPut + 1 } s.nextPut x with ⟨g, gs, h1, h2⟩ | ⟨h1, h2, h3⟩ | ⟨h1, h2, h3⟩
  · simp only at h1
    rw [h2]
    refine ⟨?_, ?_, ?_⟩
    · intro g' gs' hg; rw [h1] at hg; obtain ⟨rfl, rfl⟩ := List.cons.inj hg; exact ⟨rfl, rfl⟩
    · intro hg; rw [h1] at hg; exact absurd hg (by simp)
    · intro hg; rw [h1] at hg; exact absurd hg (by simp)
  · simp only at h1 h2
    rw [h3]
    refine ⟨?_, ?_, ?_⟩
    · intro g' gs' hg; rw [h1] at hg; exact absurd hg (by simp)
    · intro _ _; exact ⟨rfl, rfl, rfl⟩
    · intro _ hl
      rw [hp, List.length_append] at hl
      have hs : s.senders = [] := by
        cases hs : s.senders with
        | nil => rfl
        | cons a b => have := hfull (by rw [hs]; simp); omega
      rw [hs] at hl; simp at hl; omega
  · simp only at h1 h2
    rw [h3]
    refine ⟨?_, ?_, ?_⟩
    · intro g' gs' hg; rw [h1] at hg; exact absurd hg (by simp)
    · intro _ hl; rw [hp, List.length_append] at hl; omega
    · intro _ _; exact ⟨rfl, rfl, rfl⟩

/-- A history with a full buffer, two blocked puts of which one is cancelled, and blocked gets. -/
def hist : List (Op Nat) := [.put 10, .put 11, .put 12, .cancelPut 1, .get, .get, .get, .get, .put 13, .getNowait]

example : received (run (withMaxsize 1) hist).2 = [(0, 10), (2, 12), (3, 13)] ∧ waiting [] (run (withMaxsize 1) hist).2 = [3] ∧
    live [] (run (withMaxsize 1) hist).2 = [(0, 10), (2, 12), (3, 13)] := by decide

/-! ### C157 -/

/-- C157: items accepted by the queue before `close()` can still be received. This fails: `close()` also closes the receiving end, so items already stored are lost and their puts have long returned. -/
theorem C157_violation : ∃ os : List (Op Nat), received (run (withMaxsize 2) (os ++ [.closeSend, .closeRecv, .getNowait, .get])).2 = [] ∧
    live [] (run (withMaxsize 2) (os ++ [.closeSend, .closeRecv, .getNowait, .get])).2 = [(0, 7), (1, 8)] :=
  ⟨[.putNowait 7, .putNowait 8], by decide⟩

/-- Draining: as many `get_nowait` as items are pending. -/
theorem drain_events : ∀ (m : Nat) (s : State α), s.recvOpen = true → (s.buffer ++ s.senders).length = m →
    received (run s (List.replicate m .getNowait)).2 = s.buffer ++ s.senders
  | 0, s, _, hm => by
    rw [List.length_eq_zero_iff] at hm; rw [hm]; rfl
  | m + 1, s, ho, hm => by
    simp only [List.replicate, run, received_append]
    rw [getNowait_open s ho]
    rcases receiveNowait_cases { s with nextGet := s.nextGet + 1 } s.nextGet with ⟨h1, h2, _⟩ | ⟨p, ps, h1, h2, h3⟩ | ⟨p, ps, _, h1, h2, _, h3⟩ | ⟨p, ps, b, bs, h1, h2, h3⟩
    · simp only at h1 h2; rw [h1, h2] at hm; exact absurd hm (by simp)
    all_goals
      simp only at h1 h2
      rw [h3]
      rw [h1, h2] at hm
      simp only [Option.getD_some]
      rw [drain_events m _ (by simpa using ho) (by simp [h1] at hm ⊢; omega)]
      simp [received, h1, h2]

/-- C157 (partial): missing: the receiving end stays open. If only the sending end is closed, everything pending is still received, in order. -/
theorem C157_drain_partial (n : Nat) (os : List (Op α)) (s : State α) (t : List (Ev α)) (hr : run (withMaxsize n) os = (s, t)) (ho : s.recvOpen = true) :
    received (run s (.closeSend :: List.replicate (pending t).length .getNowait)).2 = pending t := by
  have h := Inv.run os (inv_init (α := α) n)
  rw [List.nil_append, hr] at h
  simp only at h
  have hp : pending t = s.buffer ++ s.senders := by
    unfold pending; rw [h.fifo, List.append_assoc, List.drop_left]
  simp only [run, received_append, step, closeSend, received_failed, List.nil_append]
  exact (drain_events _ { s with sendOpen := false, receivers := [] } ho (by rw [hp])).trans hp.symm

example : received (run (run (withMaxsize 1) [.put 1, .put 2]).1 (.closeSend :: List.replicate 2 .getNowait)).2 = [(0, 1), (1, 2)] := by decide

end Verif.Queue
