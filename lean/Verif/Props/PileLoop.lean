import Verif.Model.PileLoop
import Verif.Props.Pile

/-!
# C285: a loop over a pile whose body changes the pile
-/

set_option linter.unusedSectionVars false
set_option linter.unusedSimpArgs false
set_option linter.unusedVariables false

namespace Verif.PileLoop

open Verif.Pile (Op Inv)

variable {ι γ δ : Type} [DecidableEq ι] [DecidableEq γ]

/-! ### Specification -/

/-- Calls that may take the item `u` out of the pile. -/
def Removes (u : ι) : Op ι γ δ → Prop
  | .remove (some v) => v = u
  | .pop (some v) _ => v = u
  | .exclude (some v) => v = u
  | .clear => True
  | _ => False

/-- The loop body never takes the item `u` out. -/
def Keeps (u : ι) (body : List (Item ι γ δ) → Item ι γ δ → List (Op ι γ δ)) : Prop := ∀ l x, ∀ op ∈ body l x, ¬ Removes u op

/-- Piles made by the constructor and then changed by calls. -/
def Built (sub : γ → γ → Bool) (p : Pile ι γ δ) : Prop := ∃ xs t s q ops, Pile.mk' sub xs t s none = .ok q ∧ p = Pile.run sub q ops

/-- The position of an item in the pile. -/
def place (p : Pile ι γ δ) (u : ι) : Nat := (Pile.keys p).idxOf u

/-- The body of turn `j` (which visited position `j`) has moved the item `u` from a position not yet visited to one already visited. -/
def Crossed (sub : γ → γ → Bool) (body : List (Item ι γ δ) → Item ι γ δ → List (Op ι γ δ)) (p : Pile ι γ δ) (u : ι) (j : Nat) : Prop :=
  j < place (turns sub body p j).pile u ∧ place (turns sub body p (j + 1)).pile u ≤ j

theorem Built.inv {sub : γ → γ → Bool} {p : Pile ι γ δ} (h : Built sub p) : Inv p := by
  obtain ⟨xs, t, s, q, ops, h1, h2⟩ := h
  rw [h2]
  exact Pile.run_inv sub (Pile.mk'_inv sub xs t s q h1).1 ops

/-! ### The order under single calls -/

theorem order_step (sub : γ → γ → Bool) {p : Pile ι γ δ} (h : Inv p) (op : Op ι γ δ) :
    (Pile.step sub p op).1.order = p.order ∨ (∃ v, v ∉ p.order ∧ (Pile.step sub p op).1.order = p.order ++ [v]) ∨
      (∃ v, Removes v op ∧ (Pile.step sub p op).1.order = p.order.erase v) ∨ (op = .clear ∧ (Pile.step sub p op).1.order = []) := by
  have hrem : ∀ v, (Pile.remove p (some v)).1.order = p.order ∨ (Pile.remove p (some v)).1.order = p.order.erase v := by
    intro v
    cases hg : p.items.get? v with
    | none => rw [Pile.remove_absent hg]; exact Or.inl rfl
    | some x => rw [Pile.remove_ok h hg]; exact Or.inr rfl
  have hadd : ∀ a, (Pile.add sub p a).1.order = p.order ∨ ∃ v, v ∉ p.order ∧ (Pile.add sub p a).1.order = p.order ++ [v] := by
    intro a
    rcases Pile.add_cases sub p a with ⟨e, he⟩ | ⟨x, _, hx, he⟩
    · rw [he]; exact Or.inl rfl
    · rw [he]; exact Or.inr ⟨x.id, fun hm => hx ((h.mem_iff _).1 hm), rfl⟩
  cases op with
  | add a =>
    rcases hadd a with h | h
    · exact Or.inl h
    · exact Or.inr (Or.inl h)
  | remove r =>
    cases r with
    | none => exact Or.inl rfl
    | some v =>
      rcases hrem v with h | h
      · exact Or.inl h
      · exact Or.inr (Or.inr (Or.inl ⟨v, rfl, h⟩))
  | pop r d =>
    cases r with
    | none => exact Or.inl rfl
    | some v =>
      simp only [Pile.step, Pile.pop]
      cases hg : p.items.get? v with
      | none => exact Or.inl rfl
      | some x =>
        have hu : v ∈ p.order := (h.mem_iff v).2 (Dict.mem_keys_of_get? hg)
        refine Or.inr (Or.inr (Or.inl ⟨v, rfl, ?_⟩))
        simp [Progression.remove, hu]
  | get r d => exact Or.inl rfl
  | update a =>
    cases a with
    | none => exact Or.inl rfl
    | some x =>
      refine Or.inl ?_
      simp only [Pile.step, Pile.update]
      split
      · rfl
      · split <;> rfl
  | clear => exact Or.inr (Or.inr (Or.inr ⟨rfl, rfl⟩))
  | include_ a =>
    cases a with
    | none => exact Or.inl rfl
    | some x =>
      simp only [Pile.step, Pile.include_]
      split
      · exact Or.inl rfl
      · have hx := hadd (some x)
        cases ha : Pile.add sub p (some x) with
        | mk q r =>
          rw [ha] at hx
          cases r with
          | ok _ =>
            rcases hx with h | h
            · exact Or.inl h
            · exact Or.inr (Or.inl h)
          | error _ =>
            rcases hx with h | h
            · exact Or.inl h
            · exact Or.inr (Or.inl h)
  | exclude r =>
    cases r with
    | none => exact Or.inl rfl
    | some v =>
      simp only [Pile.step, Pile.exclude]
      split
      · have hx := hrem v
        cases ha : Pile.remove p (some v) with
        | mk q r =>
          rw [ha] at hx
          cases r with
          | ok _ =>
            rcases hx with h | h
            · exact Or.inl h
            · exact Or.inr (Or.inr (Or.inl ⟨v, rfl, h⟩))
          | error _ =>
            rcases hx with h | h
            · exact Or.inl h
            · exact Or.inr (Or.inr (Or.inl ⟨v, rfl, h⟩))
      · exact Or.inl rfl
  | contains r => exact Or.inl rfl
  | len => exact Or.inl rfl
  | iter => exact Or.inl rfl

theorem idxOf_cons_other {a u : ι} (l : List ι) (h : a ≠ u) : (a :: l).idxOf u = l.idxOf u + 1 := by
  rw [List.idxOf_cons, show (a == u) = false from beq_eq_false_iff_ne.2 h]
  rfl

theorem idxOf_erase_le {u v : ι} (hne : v ≠ u) : ∀ l : List ι, u ∈ l → (l.erase v).idxOf u ≤ l.idxOf u := by
  intro l
  induction l with
  | nil => intro h; cases h
  | cons a l ih =>
    intro h
    by_cases hav : a = v
    · subst hav
      rw [List.erase_cons_head, idxOf_cons_other _ hne]
      omega
    · rw [List.erase_cons_tail (by simpa using hav)]
      by_cases hau : a = u
      · subst hau; simp
      · rw [idxOf_cons_other _ hau, idxOf_cons_other _ hau]
        have := ih (by
          rcases List.mem_cons.1 h with h | h
          · exact absurd h.symm hau
          · exact h)
        omega

/-- A call that does not take `u` out leaves it in the pile, at the same place or further to the front. -/
theorem step_keeps (sub : γ → γ → Bool) {p : Pile ι γ δ} (h : Inv p) (op : Op ι γ δ) {u : ι} (hk : ¬ Removes u op) (hu : u ∈ p.order) :
    u ∈ (Pile.step sub p op).1.order ∧ (Pile.step sub p op).1.order.idxOf u ≤ p.order.idxOf u := by
  rcases order_step sub h op with e | ⟨v, hv, e⟩ | ⟨v, hr, e⟩ | ⟨e, _⟩
  · rw [e]; exact ⟨hu, Nat.le_refl _⟩
  · rw [e]; exact ⟨List.mem_append_left _ hu, by rw [List.idxOf_append, if_pos hu]; exact Nat.le_refl _⟩
  · have hne : v ≠ u := by intro e; subst e; exact hk hr
    rw [e]
    exact ⟨(List.mem_erase_of_ne (fun e => hne e.symm)).2 hu, idxOf_erase_le hne _ hu⟩
  · subst e; exact absurd trivial hk

theorem step_inv (sub : γ → γ → Bool) {p : Pile ι γ δ} (h : Inv p) (op : Op ι γ δ) : Inv (Pile.step sub p op).1 := Pile.run_inv sub h [op]

theorem run_keeps (sub : γ → γ → Bool) {u : ι} : ∀ (ops : List (Op ι γ δ)) {p : Pile ι γ δ}, Inv p → (∀ op ∈ ops, ¬ Removes u op) → u ∈ p.order →
    u ∈ (Pile.run sub p ops).order ∧ (Pile.run sub p ops).order.idxOf u ≤ p.order.idxOf u := by
  intro ops
  induction ops with
  | nil => intro p _ _ hu; exact ⟨hu, Nat.le_refl _⟩
  | cons op ops ih =>
    intro p h hk hu
    obtain ⟨h1, h2⟩ := step_keeps sub h op (hk op List.mem_cons_self) hu
    obtain ⟨h3, h4⟩ := ih (step_inv sub h op) (fun o ho => hk o (List.mem_cons_of_mem _ ho)) h1
    exact ⟨h3, Nat.le_trans h4 h2⟩

/-- Calls that take nothing out only append. -/
theorem run_prefix (sub : γ → γ → Bool) : ∀ (ops : List (Op ι γ δ)) {p : Pile ι γ δ}, Inv p → (∀ op ∈ ops, ∀ u, ¬ Removes u op) → (∀ op ∈ ops, op ≠ .clear) →
    p.order <+: (Pile.run sub p ops).order := by
  intro ops
  induction ops with
  | nil => intro p _ _ _; exact List.prefix_refl _
  | cons op ops ih =>
    intro p h hk hc
    have h1 : p.order <+: (Pile.step sub p op).1.order := by
      rcases order_step sub h op with e | ⟨v, hv, e⟩ | ⟨v, hr, e⟩ | ⟨e, _⟩
      · rw [e]; exact List.prefix_refl _
      · rw [e]; exact List.prefix_append _ _
      · exact absurd hr (hk op List.mem_cons_self v)
      · exact absurd e (hc op List.mem_cons_self)
    exact h1.trans (ih (step_inv sub h op) (fun o ho => hk o (List.mem_cons_of_mem _ ho)) (fun o ho => hc o (List.mem_cons_of_mem _ ho)))

/-! ### Turns -/

/-- What holds at every turn. -/
structure Ok (s : Loop ι γ δ) (n : Nat) : Prop where
  inv : Inv s.pile
  fine : s.phase = .running ∧ s.seen.length = n ∨ s.phase = .finished ∧ s.pile.order.length ≤ s.seen.length

theorem turn_cases (sub : γ → γ → Bool) (body : List (Item ι γ δ) → Item ι γ δ → List (Op ι γ δ)) {s : Loop ι γ δ} {n : Nat} (h : Ok s n) :
    (s.phase = .running ∧ s.seen.length = n ∧ ∃ x, s.pile.order[n]? = some x.id ∧ s.pile.items.get? x.id = some x ∧
      turn sub body s = { s with pile := Pile.run sub s.pile (body s.seen x), seen := s.seen ++ [x] }) ∨
    (turn sub body s = { s with phase := .finished } ∧ s.pile.order.length ≤ s.seen.length) := by
  rcases h.fine with ⟨h1, h2⟩ | ⟨h1, h2⟩
  · cases hg : s.pile.order[s.seen.length]? with
    | none =>
      refine Or.inr ⟨by simp only [turn, h1, hg], List.getElem?_eq_none_iff.1 hg⟩
    | some u =>
      have hu : u ∈ s.pile.order := List.mem_of_getElem? hg
      obtain ⟨x, hx⟩ := Option.isSome_iff_exists.1 (Pile.isSome_of_order h.inv u hu)
      have he := h.inv.ids u x hx
      refine Or.inl ⟨h1, h2, x, ?_, ?_, ?_⟩
      · rw [← h2, hg, he]
      · rw [he]; exact hx
      · simp only [turn, h1, hg, visit, hx]
  · refine Or.inr ⟨?_, h2⟩
    simp only [turn, h1]
    rw [← h1]

theorem ok_turns (sub : γ → γ → Bool) (body : List (Item ι γ δ) → Item ι γ δ → List (Op ι γ δ)) {p : Pile ι γ δ} (h : Inv p) : ∀ n, Ok (turns sub body p n) n := by
  intro n
  induction n with
  | zero => exact ⟨h, Or.inl ⟨rfl, rfl⟩⟩
  | succ n ih =>
    rw [show turns sub body p (n + 1) = turn sub body (turns sub body p n) from rfl]
    rcases turn_cases sub body ih with ⟨h1, h2, x, h3, h4, h5⟩ | ⟨h1, h2⟩
    · rw [h5]
      exact ⟨Pile.run_inv sub ih.inv _, Or.inl ⟨h1, by simp only [List.length_append, List.length_singleton, h2]⟩⟩
    · rw [h1]
      exact ⟨ih.inv, Or.inr ⟨rfl, h2⟩⟩

/-- The loop raises nothing, whatever its body does. -/
theorem C285_no_error {sub : γ → γ → Bool} {body : List (Item ι γ δ) → Item ι γ δ → List (Op ι γ δ)} {p : Pile ι γ δ} (hb : Built sub p) (n : Nat) (e : Exc) :
    (turns sub body p n).phase ≠ .raised e := by
  have h := hb.inv
  intro hr
  rcases (ok_turns sub body h n).fine with ⟨h1, _⟩ | ⟨h1, _⟩ <;> rw [hr] at h1 <;> cases h1

/-! ### Visits of an item that stays -/

theorem idxOf_of_get {u : ι} : ∀ {l : List ι} {n : Nat}, l.Nodup → l[n]? = some u → l.idxOf u = n := by
  intro l
  induction l with
  | nil => intro n _ h; cases h
  | cons a l ih =>
    intro n hn h
    cases n with
    | zero => simp only [List.getElem?_cons_zero, Option.some.injEq] at h; subst h; simp
    | succ n =>
      rw [List.getElem?_cons_succ] at h
      have hm : u ∈ l := List.mem_of_getElem? h
      have hne : a ≠ u := by intro e; subst e; exact (List.nodup_cons.1 hn).1 hm
      rw [idxOf_cons_other l hne, ih (List.nodup_cons.1 hn).2 h]

theorem get_idxOf {u : ι} : ∀ {l : List ι}, u ∈ l → l[l.idxOf u]? = some u := by
  intro l
  induction l with
  | nil => intro h; cases h
  | cons a l ih =>
    intro h
    by_cases hau : a = u
    · subst hau; simp
    · rw [idxOf_cons_other l hau, List.getElem?_cons_succ]
      rcases List.mem_cons.1 h with h | h
      · exact absurd h.symm hau
      · exact ih h

/-- How often the loop has visited the item. -/
def visits (s : Loop ι γ δ) (u : ι) : Nat := (s.seen.map (·.id)).count u

/-- What holds at every turn for an item that the body never takes out. -/
structure Track (sub : γ → γ → Bool) (body : List (Item ι γ δ) → Item ι γ δ → List (Op ι γ δ)) (p : Pile ι γ δ) (u : ι) (n : Nat) : Prop where
  stays : u ∈ (turns sub body p n).pile.order
  cases : (visits (turns sub body p n) u = 1 ∧ place (turns sub body p n).pile u < (turns sub body p n).seen.length ∧ ¬ ∃ j < n, Crossed sub body p u j) ∨
    (visits (turns sub body p n) u = 0 ∧ place (turns sub body p n).pile u < (turns sub body p n).seen.length ∧ ∃ j < n, Crossed sub body p u j) ∨
    (visits (turns sub body p n) u = 0 ∧ (turns sub body p n).seen.length ≤ place (turns sub body p n).pile u ∧ ¬ ∃ j < n, Crossed sub body p u j)

theorem track {sub : γ → γ → Bool} {body : List (Item ι γ δ) → Item ι γ δ → List (Op ι γ δ)} {p : Pile ι γ δ} (h : Inv p) {u : ι} (hk : Keeps u body) (hu : u ∈ p.order) :
    ∀ n, Track sub body p u n := by
  intro n
  induction n with
  | zero =>
    exact ⟨hu, Or.inr (Or.inr ⟨rfl, Nat.zero_le _, by rintro ⟨j, hj, _⟩; exact absurd hj (Nat.not_lt_zero j)⟩)⟩
  | succ n ih =>
    have hok := ok_turns sub body h n
    have hT : turns sub body p (n + 1) = turn sub body (turns sub body p n) := rfl
    have hex : (∃ j < n + 1, Crossed sub body p u j) ↔ (∃ j < n, Crossed sub body p u j) ∨ Crossed sub body p u n := by
      constructor
      · rintro ⟨j, hj, hc⟩
        rcases Nat.lt_succ_iff_lt_or_eq.1 hj with hj | hj
        · exact Or.inl ⟨j, hj, hc⟩
        · subst hj; exact Or.inr hc
      · rintro (⟨j, hj, hc⟩ | hc)
        · exact ⟨j, Nat.lt_succ_of_lt hj, hc⟩
        · exact ⟨n, Nat.lt_succ_self n, hc⟩
    rcases turn_cases sub body hok with ⟨_, h2, x, h3, _, h5⟩ | ⟨h1, _⟩
    · have hrun := run_keeps sub (body (turns sub body p n).seen x) hok.inv (hk _ _) ih.stays
      have hpile : (turns sub body p (n + 1)).pile = Pile.run sub (turns sub body p n).pile (body (turns sub body p n).seen x) := by rw [hT, h5]
      have hseen : (turns sub body p (n + 1)).seen = (turns sub body p n).seen ++ [x] := by rw [hT, h5]
      have hle : place (turns sub body p (n + 1)).pile u ≤ place (turns sub body p n).pile u := by rw [hpile]; exact hrun.2
      have hlen : (turns sub body p (n + 1)).seen.length = n + 1 := by rw [hseen, List.length_append, h2]; rfl
      have hat : x.id = u ↔ place (turns sub body p n).pile u = n := by
        constructor
        · intro e; rw [e] at h3; exact idxOf_of_get hok.inv.nodup h3
        · intro e
          have := get_idxOf ih.stays
          rw [show (turns sub body p n).pile.order.idxOf u = n from e, h3] at this
          exact Option.some.inj this
      have hvis : visits (turns sub body p (n + 1)) u = visits (turns sub body p n) u + (if x.id = u then 1 else 0) := by
        simp only [visits, hseen, List.map_append, List.count_append, List.map_cons, List.map_nil, List.count_singleton]
        by_cases hx : x.id = u <;> simp [hx]
      have hc := ih.cases
      rw [h2] at hc
      refine ⟨by rw [hpile]; exact hrun.1, ?_⟩
      rw [hvis, hlen, hex]
      have hcr : Crossed sub body p u n ↔ n < place (turns sub body p n).pile u ∧ place (turns sub body p (n + 1)).pile u ≤ n := Iff.rfl
      rw [hcr]
      generalize place (turns sub body p n).pile u = a at *
      generalize place (turns sub body p (n + 1)).pile u = b at *
      generalize (∃ j < n, Crossed sub body p u j) = E at *
      by_cases hx : x.id = u
      · have ha := hat.1 hx
        rw [if_pos hx]
        rcases hc with ⟨_, c2, _⟩ | ⟨_, c2, _⟩ | ⟨c1, c2, c3⟩
        · omega
        · omega
        · refine Or.inl ⟨by omega, by omega, ?_⟩
          rintro (hE | ⟨h, _⟩)
          · exact c3 hE
          · omega
      · have ha : a ≠ n := fun e => hx (hat.2 e)
        rw [if_neg hx]
        rcases hc with ⟨c1, c2, c3⟩ | ⟨c1, c2, c3⟩ | ⟨c1, c2, c3⟩
        · refine Or.inl ⟨by omega, by omega, ?_⟩
          rintro (hE | ⟨h, _⟩)
          · exact c3 hE
          · omega
        · exact Or.inr (Or.inl ⟨by omega, by omega, Or.inl c3⟩)
        · by_cases hb : b ≤ n
          · exact Or.inr (Or.inl ⟨by omega, by omega, Or.inr ⟨by omega, hb⟩⟩)
          · refine Or.inr (Or.inr ⟨by omega, by omega, ?_⟩)
            rintro (hE | ⟨_, h⟩)
            · exact c3 hE
            · omega
    · have hpile : (turns sub body p (n + 1)).pile = (turns sub body p n).pile := by rw [hT, h1]
      have hseen : (turns sub body p (n + 1)).seen = (turns sub body p n).seen := by rw [hT, h1]
      have hnc : ¬ Crossed sub body p u n := by
        rintro ⟨c1, c2⟩
        rw [hpile] at c2
        omega
      have hvis : visits (turns sub body p (n + 1)) u = visits (turns sub body p n) u := by simp only [visits, hseen]
      refine ⟨by rw [hpile]; exact ih.stays, ?_⟩
      rw [hvis, hpile, hseen, hex]
      simp only [hnc, or_false]
      exact ih.cases

/-- An item that the body never takes out is visited at most once, and when the loop has ended it has been visited exactly unless some turn moved it from a position still to come to one already passed. -/
theorem C285_exact_partial {sub : γ → γ → Bool} {body : List (Item ι γ δ) → Item ι γ δ → List (Op ι γ δ)} {p : Pile ι γ δ} (hb : Built sub p) {u : ι} (hk : Keeps u body)
    (hu : u ∈ Pile.keys p) {n : Nat} (hf : (turns sub body p n).phase = .finished) :
    u ∈ Pile.keys (turns sub body p n).pile ∧ visits (turns sub body p n) u ≤ 1 ∧
      (visits (turns sub body p n) u = 1 ↔ ¬ ∃ j < n, Crossed sub body p u j) := by
  have h := hb.inv
  have ht := track (sub := sub) h hk hu n
  have hlt : place (turns sub body p n).pile u < (turns sub body p n).seen.length := by
    rcases (ok_turns sub body h n).fine with ⟨h1, _⟩ | ⟨_, h2⟩
    · rw [hf] at h1; cases h1
    · exact Nat.lt_of_lt_of_le (List.idxOf_lt_length_of_mem ht.stays) h2
  refine ⟨ht.stays, ?_⟩
  rcases ht.cases with ⟨c1, c2, c3⟩ | ⟨c1, c2, c3⟩ | ⟨c1, c2, c3⟩
  · exact ⟨by omega, fun _ => c3, fun _ => c1⟩
  · exact ⟨by omega, fun h => by omega, fun h => absurd c3 h⟩
  · omega

/-- A body that takes nothing out: when the loop has ended it has visited the items of the final pile (the added ones too), each once and in order. -/
theorem C285_kept_partial {sub : γ → γ → Bool} {body : List (Item ι γ δ) → Item ι γ δ → List (Op ι γ δ)} {p : Pile ι γ δ} (hb : Built sub p)
    (hk : ∀ l x, ∀ op ∈ body l x, op ≠ .clear ∧ ∀ u, ¬ Removes u op) {n : Nat} (hf : (turns sub body p n).phase = .finished) :
    (turns sub body p n).seen.map (·.id) = Pile.keys (turns sub body p n).pile ∧ Pile.keys p <+: Pile.keys (turns sub body p n).pile := by
  have h := hb.inv
  have hpre : ∀ n, p.order <+: (turns sub body p n).pile.order ∧ (turns sub body p n).seen.map (·.id) <+: (turns sub body p n).pile.order := by
    intro n
    induction n with
    | zero => exact ⟨List.prefix_refl _, List.nil_prefix⟩
    | succ n ih =>
      have hok := ok_turns sub body h n
      rw [show turns sub body p (n + 1) = turn sub body (turns sub body p n) from rfl]
      rcases turn_cases sub body hok with ⟨_, h2, x, h3, _, h5⟩ | ⟨h1, _⟩
      · rw [h5]
        have hp := run_prefix sub (body (turns sub body p n).seen x) hok.inv (fun op ho => (hk _ _ op ho).2) (fun op ho => (hk _ _ op ho).1)
        refine ⟨ih.1.trans hp, List.IsPrefix.trans ?_ hp⟩
        obtain ⟨t, ht⟩ := ih.2
        have hl : ((turns sub body p n).seen.map (·.id)).length = n := by rw [List.length_map, h2]
        rw [← ht, List.getElem?_append_right (by omega), hl, Nat.sub_self] at h3
        cases t with
        | nil => cases h3
        | cons a t =>
          simp only [List.getElem?_cons_zero, Option.some.injEq] at h3
          refine ⟨t, ?_⟩
          simp only [List.map_append, List.map_cons, List.map_nil, List.append_assoc, List.singleton_append]
          rw [← h3, ht]
      · rw [h1]; exact ih
  refine ⟨?_, (hpre n).1⟩
  rcases (ok_turns sub body h n).fine with ⟨h1, _⟩ | ⟨_, h2⟩
  · rw [hf] at h1; cases h1
  · refine List.IsPrefix.eq_of_length (hpre n).2 ?_
    have := (hpre n).2.length_le
    rw [List.length_map] at *
    simp only [Pile.keys]
    omega

/-! ### Taking out every visited item -/

/-- The elements at even positions. -/
def evens {α : Type} : List α → List α
  | [] => []
  | [a] => [a]
  | a :: _ :: l => a :: evens l

/-- The elements at odd positions. -/
def odds {α : Type} : List α → List α
  | [] => []
  | [_] => []
  | _ :: b :: l => b :: odds l

/-- `for item in pile: pile.remove(item.id)`. -/
def removeEach : List (Item ι γ δ) → Item ι γ δ → List (Op ι γ δ) := fun _ x => [.remove (some x.id)]

theorem evens_append {α : Type} : ∀ (a b : List α), a.length % 2 = 0 → evens (a ++ b) = evens a ++ evens b
  | [], b, _ => rfl
  | [x], b, h => by simp at h
  | x :: y :: a, b, h => by
    simp only [List.cons_append, evens]
    rw [evens_append a b (by simp only [List.length_cons] at h; omega)]

theorem odds_append {α : Type} : ∀ (a b : List α), a.length % 2 = 0 → odds (a ++ b) = odds a ++ odds b
  | [], b, _ => rfl
  | [x], b, h => by simp at h
  | x :: y :: a, b, h => by
    simp only [List.cons_append, odds]
    rw [odds_append a b (by simp only [List.length_cons] at h; omega)]

theorem halves {α : Type} : ∀ (a : List α), 2 * (odds a).length ≤ a.length ∧ a.length ≤ 2 * (evens a).length ∧ 2 * (evens a).length ≤ a.length + 1 ∧ a.length ≤ 2 * (odds a).length + 1
  | [] => by simp [odds, evens]
  | [x] => by simp [odds, evens]
  | x :: y :: a => by
    have := halves a
    simp only [odds, evens, List.length_cons]
    omega

/-- The state of the loop that takes out every item it visits. -/
def Sieve (l : List ι) (s : Loop ι γ δ) (n : Nat) : Prop :=
  (s.phase = .finished ∧ s.seen.map (·.id) = evens l ∧ s.pile.order = odds l) ∨
  (s.phase = .running ∧ ∃ a b, l = a ++ b ∧ s.seen.map (·.id) = evens a ∧ s.pile.order = odds a ++ b ∧ (a.length = 2 * n ∨ b = []))

theorem sieve {sub : γ → γ → Bool} {p : Pile ι γ δ} (h : Inv p) : ∀ n, Sieve p.order (turns sub removeEach p n) n := by
  intro n
  induction n with
  | zero => exact Or.inr ⟨rfl, [], p.order, rfl, rfl, rfl, Or.inl rfl⟩
  | succ n ih =>
    have hok := ok_turns sub removeEach h n
    rw [show turns sub removeEach p (n + 1) = turn sub removeEach (turns sub removeEach p n) from rfl]
    rcases ih with ⟨h1, h2, h3⟩ | ⟨h1, a, b, hl, h2, h3, h4⟩
    · refine Or.inl ?_
      have : turn sub removeEach (turns sub removeEach p n) = turns sub removeEach p n := by simp only [turn, h1]
      rw [this]
      exact ⟨h1, h2, h3⟩
    · have hsl : (turns sub removeEach p n).seen.length = (evens a).length := by rw [← h2, List.length_map]
      have hh := halves a
      rcases turn_cases sub removeEach hok with ⟨_, h6, x, h7, h8, h9⟩ | ⟨h9, h10⟩
      · rw [h9]
        refine Or.inr ⟨h1, ?_⟩
        have hn := hok.inv.nodup
        have hrun : (Pile.run sub (turns sub removeEach p n).pile (removeEach (turns sub removeEach p n).seen x)).order = (turns sub removeEach p n).pile.order.erase x.id := by
          show (Pile.remove (turns sub removeEach p n).pile (some x.id)).1.order = _
          rw [Pile.remove_ok hok.inv h8]
        simp only [hrun, List.map_append, List.map_cons, List.map_nil, h2]
        rw [h3] at h7 hn
        rw [h3]
        rcases h4 with h4 | h4
        · have hod : (odds a).length = n := by omega
          rw [List.getElem?_append_right (by omega), hod, Nat.sub_self] at h7
          have hev : a.length % 2 = 0 := by omega
          cases b with
          | nil => cases h7
          | cons c b =>
            simp only [List.getElem?_cons_zero, Option.some.injEq] at h7
            subst h7
            have hnot : x.id ∉ odds a := fun hm => (List.nodup_append.1 hn).2.2 _ hm _ List.mem_cons_self rfl
            rw [List.erase_append_right _ hnot, List.erase_cons_head]
            cases b with
            | nil => exact ⟨a ++ [x.id], [], by rw [hl, List.append_nil], by rw [evens_append _ _ hev]; rfl, by rw [odds_append _ _ hev]; simp [odds], Or.inr rfl⟩
            | cons d b =>
              refine ⟨a ++ [x.id, d], b, by rw [hl]; simp, by rw [evens_append _ _ hev]; rfl, by rw [odds_append _ _ hev]; simp [odds], Or.inl ?_⟩
              rw [List.length_append, h4]
              simp only [List.length_cons, List.length_nil]
              omega
        · subst h4
          rw [List.append_nil, List.getElem?_eq_none_iff.2 (by omega)] at h7
          cases h7
      · rw [h9]
        refine Or.inl ⟨rfl, ?_⟩
        have hb : b = [] := by
          rcases h4 with h4 | h4
          · rw [h3, List.length_append, hsl] at h10
            exact List.length_eq_zero_iff.1 (by omega)
          · exact h4
        subst hb
        rw [List.append_nil] at hl h3
        rw [hl]
        exact ⟨h2, h3⟩

/-- A loop that takes out every item it visits ends, has visited the items at the even positions and leaves those at the odd positions. -/
theorem C285_remove_each_partial {sub : γ → γ → Bool} {p : Pile ι γ δ} (hb : Built sub p) {n : Nat} (hn : Pile.len p < n) :
    (turns sub removeEach p n).phase = .finished ∧ (turns sub removeEach p n).seen.map (·.id) = evens (Pile.keys p) ∧ Pile.keys (turns sub removeEach p n).pile = odds (Pile.keys p) := by
  have h := hb.inv
  rcases sieve (sub := sub) h n with hs | ⟨h1, a, b, hl, h2, h3, h4⟩
  · exact hs
  · exfalso
    rcases (ok_turns sub removeEach h n).fine with ⟨_, h6⟩ | ⟨h6, _⟩
    · have hh := halves a
      have : (turns sub removeEach p n).seen.length = (evens a).length := by rw [← h2, List.length_map]
      have hlen : p.order.length = a.length + b.length := by rw [hl, List.length_append]
      have hpl : Pile.len p = p.order.length := ((Pile.order_length h).trans (Pile.abs_length h)).symm
      omega
    · rw [h1] at h6; cases h6

/-- So such a loop empties the pile exactly if it has at most one item. -/
theorem C285_remove_all_partial {sub : γ → γ → Bool} {p : Pile ι γ δ} (hb : Built sub p) {n : Nat} (hn : Pile.len p < n) :
    Pile.keys (turns sub removeEach p n).pile = [] ↔ Pile.len p ≤ 1 := by
  rw [(C285_remove_each_partial hb hn).2.2]
  have hpl : Pile.len p = p.order.length := ((Pile.order_length hb.inv).trans (Pile.abs_length hb.inv)).symm
  have := halves (Pile.keys p)
  simp only [Pile.keys] at *
  constructor
  · intro h
    rw [h] at this
    simp only [List.length_nil] at this
    omega
  · intro h
    exact List.length_eq_zero_iff.1 (by omega)

/-! ### Concrete cases -/

/-- A pile of three items. -/
def pile3 : Pile Nat Nat Nat := Pile.run (fun a b => a == b) {} [.add (some ⟨1, 0, 0⟩), .add (some ⟨2, 0, 0⟩), .add (some ⟨3, 0, 0⟩)]

/-- `for item in pile: if item is the first: pile.remove(item.id)`. -/
def dropFirst : List (Item Nat Nat Nat) → Item Nat Nat Nat → List (Op Nat Nat Nat) := fun _ x => if x.id = 1 then [.remove (some 1)] else []

theorem pile3_built : Built (fun a b => a == b) pile3 := ⟨[], none, false, {}, _, rfl, rfl⟩

/-- The full claim fails: the body takes out item 1 only, item 2 is in the pile throughout, and the loop ends without having visited it. -/
theorem C285_violation : Keeps 2 dropFirst ∧ 2 ∈ Pile.keys pile3 ∧ (turns (fun a b => a == b) dropFirst pile3 3).phase = .finished ∧
    Pile.keys (turns (fun a b => a == b) dropFirst pile3 3).pile = [2, 3] ∧ (turns (fun a b => a == b) dropFirst pile3 3).seen.map (·.id) = [1, 3] := by
  refine ⟨?_, by decide, by decide, by decide, by decide⟩
  intro l x op ho
  simp only [dropFirst] at ho
  split at ho
  · rw [List.mem_singleton] at ho; subst ho; intro h; cases h
  · cases ho

/-- The hypotheses of `C285_exact_partial` for an item that is visited: a body that takes out the item just passed. -/
example : (turns (fun a b => a == b) (fun l x => if x.id = 3 then [.remove (some 1)] else []) pile3 4).phase = .finished ∧
    visits (turns (fun a b => a == b) (fun l x => if x.id = 3 then [.remove (some 1)] else []) pile3 4) 2 = 1 := by decide

/-- The hypotheses of `C285_kept_partial`: the body adds an item in the first turn, and the loop visits it too. -/
example : (turns (fun a b => a == b) (fun l x => if x.id = 1 then [.add (some ⟨4, 0, 0⟩)] else []) pile3 5).phase = .finished ∧
    (turns (fun a b => a == b) (fun l x => if x.id = 1 then [.add (some ⟨4, 0, 0⟩)] else []) pile3 5).seen.map (·.id) = [1, 2, 3, 4] := by decide

/-- The hypotheses of `C285_remove_each_partial`. -/
example : Pile.len pile3 < 4 ∧ Pile.keys (turns (fun a b => a == b) removeEach pile3 4).pile = [2] := by decide

end Verif.PileLoop
