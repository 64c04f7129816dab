import Verif.Model.Errors

/-!
# C280: an error carries what it was constructed with

The specification: `Given` are the arguments of the constructor, and for each attribute the value that the documentation promises: the
argument, or, for an argument left out, the default of the nearest class that sets one.
-/

set_option linter.unusedSectionVars false
set_option linter.unusedSimpArgs false
set_option linter.unusedVariables false

namespace Verif.Errors

variable {ω χ : Type}

/-- `x` is the value that attribute lookup finds: the first class of `mro` that sets it, or else the one of `LionherdError`. -/
def Nearest {β : Type} (own : Cls → Option β) (base : β) (mro : List Cls) (x : β) : Prop :=
  (∃ (pre post : List Cls) (c : Cls), mro = pre ++ c :: post ∧ (∀ d ∈ pre, own d = none) ∧ own c = some x) ∨
  ((∀ d ∈ mro, own d = none) ∧ x = base)

/-- The message the documentation promises: the argument, the default if it is `None`. -/
def PromisedMessage (mro : List Cls) (given : Option String) (m : String) : Prop :=
  given = some m ∨ (given = none ∧ Nearest Cls.message "Lionherd error" mro m)

/-- Likewise for `retryable`. -/
def PromisedRetryable (mro : List Cls) (given : Option Bool) (b : Bool) : Prop :=
  given = some b ∨ (given = none ∧ Nearest Cls.retryable true mro b)

theorem nearest_unique {β : Type} {own : Cls → Option β} {base : β} : ∀ {mro : List Cls} {x y : β},
    Nearest own base mro x → Nearest own base mro y → x = y := by
  intro mro x y hx hy
  rcases hx with ⟨p, q, c, h1, h2, h3⟩ | ⟨h1, h2⟩
  · rcases hy with ⟨p', q', c', k1, k2, k3⟩ | ⟨k1, k2⟩
    · have h : p ++ c :: q = p' ++ c' :: q' := by rw [← h1, ← k1]
      rcases List.append_eq_append_iff.mp h with ⟨a, ha, hb⟩ | ⟨a, ha, hb⟩
      · cases a with
        | nil =>
          simp only [List.nil_append, List.cons.injEq] at hb
          rw [hb.1, k3] at h3
          exact (Option.some.inj h3).symm
        | cons d a =>
          simp only [List.cons_append, List.cons.injEq] at hb
          have := k2 c (by rw [ha, hb.1]; simp)
          rw [this] at h3; cases h3
      · cases a with
        | nil =>
          simp only [List.nil_append, List.cons.injEq] at hb
          rw [← hb.1, k3] at h3
          exact (Option.some.inj h3).symm
        | cons d a =>
          simp only [List.cons_append, List.cons.injEq] at hb
          have := h2 c' (by rw [ha, hb.1]; simp)
          rw [this] at k3; cases k3
    · have := k1 c (by rw [h1]; simp)
      rw [this] at h3; cases h3
  · rcases hy with ⟨p', q', c', k1, k2, k3⟩ | ⟨k1, k2⟩
    · have := h1 c' (by rw [k1]; simp)
      rw [this] at k3; cases k3
    · rw [h2, k2]

theorem nearest_cons_some {β : Type} {own : Cls → Option β} {base : β} {c : Cls} {cs : List Cls} {x : β} (h : own c = some x) :
    Nearest own base (c :: cs) x := Or.inl ⟨[], cs, c, rfl, (by simp), h⟩

theorem nearest_cons_none {β : Type} {own : Cls → Option β} {base : β} {c : Cls} {cs : List Cls} {x : β} (h : own c = none)
    (hn : Nearest own base cs x) : Nearest own base (c :: cs) x := by
  rcases hn with ⟨p, q, d, h1, h2, h3⟩ | ⟨h1, h2⟩
  · refine Or.inl ⟨c :: p, q, d, by rw [h1]; rfl, ?_, h3⟩
    intro e he
    rcases List.mem_cons.mp he with he | he
    · rw [he]; exact h
    · exact h2 e he
  · refine Or.inr ⟨?_, h2⟩
    intro e he
    rcases List.mem_cons.mp he with he | he
    · rw [he]; exact h
    · exact h1 e he

theorem defaultMessage_nearest : ∀ mro : List Cls, Nearest Cls.message "Lionherd error" mro (defaultMessage mro)
  | [] => Or.inr ⟨by simp, rfl⟩
  | c :: cs => by
    cases h : c.message with
    | some s => simp only [defaultMessage, h]; exact nearest_cons_some h
    | none => simp only [defaultMessage, h]; exact nearest_cons_none h (defaultMessage_nearest cs)

theorem defaultRetryable_nearest : ∀ mro : List Cls, Nearest Cls.retryable true mro (defaultRetryable mro)
  | [] => Or.inr ⟨by simp, rfl⟩
  | c :: cs => by
    cases h : c.retryable with
    | some s => simp only [defaultRetryable, h]; exact nearest_cons_some h
    | none => simp only [defaultRetryable, h]; exact nearest_cons_none h (defaultRetryable_nearest cs)

/-- C280: `retryable` is the argument (also `False`), or the default of the nearest class that sets one; the details have the contents of
the dict that was passed. -/
theorem C280_retryable_and_details (truthy : χ → Bool) (mro : List Cls) (msg : Option String) (det : Option (Dict String ω))
    (ret : Option Bool) (cause : Option χ) :
    PromisedRetryable mro ret (init truthy mro msg det ret cause).retryable ∧
    (init truthy mro msg det ret cause).details = det.getD [] := by
  constructor
  · cases ret with
    | some b => exact Or.inl rfl
    | none => exact Or.inr ⟨rfl, defaultRetryable_nearest mro⟩
  · cases det <;> rfl

/-- C280, exactly when all is as promised: the message is promised unless it is empty (and the default is not), the cause is kept unless it
is an exception with a false truth value, and the details are the very dict passed unless that is empty. -/
theorem C280_exact_partial (truthy : χ → Bool) (mro : List Cls) (msg : Option String) (det : Option (Dict String ω))
    (ret : Option Bool) (cause : Option χ) :
    (PromisedMessage mro msg (init truthy mro msg det ret cause).message ↔ (msg ≠ some "" ∨ Nearest Cls.message "Lionherd error" mro "")) ∧
    ((init truthy mro msg det ret cause).cause = cause ↔ ∀ c, cause = some c → truthy c = true) ∧
    ((init truthy mro msg det ret cause).same = true ↔ ∃ d, det = some d ∧ d ≠ []) := by
  refine ⟨?_, ?_, ?_⟩
  · cases msg with
    | none =>
      refine ⟨fun _ => Or.inl nofun, fun _ => Or.inr ⟨rfl, defaultMessage_nearest mro⟩⟩
    | some s =>
      by_cases hs : s = ""
      · subst hs
        constructor
        · intro h
          refine Or.inr ?_
          rcases h with h | ⟨h, _⟩
          · have : defaultMessage mro = "" := (Option.some.inj h).symm
            rw [← this]; exact defaultMessage_nearest mro
          · cases h
        · intro h
          rcases h with h | h
          · exact absurd rfl h
          · have : defaultMessage mro = "" := nearest_unique (defaultMessage_nearest mro) h
            refine Or.inl ?_
            show some "" = some (defaultMessage mro)
            rw [this]
      · refine ⟨fun _ => Or.inl (fun h => hs (Option.some.inj h)), fun _ => Or.inl ?_⟩
        show some s = some (if s = "" then defaultMessage mro else s)
        rw [if_neg hs]
  · cases cause with
    | none => exact ⟨fun _ => nofun, fun _ => rfl⟩
    | some c =>
      cases hc : truthy c with
      | true => simp [init, pickCause, hc]
      | false => simp [init, pickCause, hc]
  · cases det with
    | none => simp [init, keepsDict]
    | some d => cases d <;> simp [init, keepsDict]

/-- C280: the dict of an error names its class, message and retryability, has an entry `details` exactly if there are any, and nothing else;
two errors with the same dict agree on all of these. -/
theorem C280_to_dict (e e' : Err ω χ) :
    (∀ c cs, e.mro = c :: cs → (toDict e).get? "error" = some (.text c.name)) ∧
    (e.mro = [] → (toDict e).get? "error" = some (.text "LionherdError")) ∧
    (toDict e).get? "message" = some (.text e.message) ∧
    (toDict e).get? "retryable" = some (.flag e.retryable) ∧
    (∀ f, (toDict e).get? "details" = some f ↔ e.details ≠ [] ∧ f = .dict e.details) ∧
    (∀ k ∈ (toDict e).keys, k = "error" ∨ k = "message" ∨ k = "retryable" ∨ k = "details") ∧
    (toDict e = toDict e' → (e.mro.head?.map Cls.name).getD "LionherdError" = (e'.mro.head?.map Cls.name).getD "LionherdError" ∧ e.message = e'.message ∧ e.retryable = e'.retryable ∧ e.details = e'.details) := by
  have hn : ∀ m : List Cls, clsName m = (m.head?.map Cls.name).getD "LionherdError" := by intro m; cases m <;> rfl
  rw [← hn, ← hn]
  refine ⟨fun c cs h => (by simp only [toDict, h]; rfl), fun h => (by simp only [toDict, h]; rfl), rfl, rfl, ?_, ?_, ?_⟩
  · intro f
    cases hd : e.details with
    | nil =>
      simp [toDict, hd, detailsField, Dict.get?]
    | cons a l =>
      simp [toDict, hd, detailsField, Dict.get?]
      exact ⟨fun h => h.symm, fun h => h.symm⟩
  · intro k hk
    cases hd : e.details with
    | nil => simp [toDict, hd, detailsField, Dict.keys] at hk; rcases hk with h | h | h <;> simp [h]
    | cons a l => simp [toDict, hd, detailsField, Dict.keys] at hk; rcases hk with h | h | h | h <;> simp [h]
  · intro h
    cases hd : e.details with
    | nil =>
      cases hd' : e'.details with
      | nil => simp [toDict, hd, hd', detailsField] at h; simp [h]
      | cons a l => simp [toDict, hd, hd', detailsField] at h
    | cons a l =>
      cases hd' : e'.details with
      | nil => simp [toDict, hd, hd', detailsField] at h
      | cons a l => simp [toDict, hd, hd', detailsField] at h; simp [h]

theorem defaultRetryable_append {own : List Cls} (h : ∀ c ∈ own, c.retryable = none) (l : List Cls) :
    defaultRetryable (own ++ l) = defaultRetryable l := by
  induction own with
  | nil => rfl
  | cons c cs ih =>
    have hc := h c (List.mem_cons_self ..)
    rw [List.cons_append]
    simp only [defaultRetryable, hc]
    exact ih (fun d hd => h d (List.mem_cons_of_mem _ hd))

/-- C280, for the classes of the library and every class derived from them that sets no default of its own: without the argument, validation,
configuration, not-found and exists errors cannot be retried; execution, connection, timeout and queue-full errors, and plain ones, can. -/
theorem C280_library (truthy : χ → Bool) (own : List Cls) (h : ∀ c ∈ own, c.retryable = none) (msg : Option String)
    (det : Option (Dict String ω)) (cause : Option χ) :
    (∀ k ∈ [validationError, configurationError, notFoundError, existsError], (init truthy (own ++ [k]) msg det none cause).retryable = false) ∧
    (∀ k ∈ [executionError, connectionError, timeoutError, queueFullError], (init truthy (own ++ [k]) msg det none cause).retryable = true) ∧
    (init truthy own msg det none cause).retryable = true := by
  refine ⟨fun k hk => ?_, fun k hk => ?_, ?_⟩
  · rw [show (init truthy (own ++ [k]) msg det none cause).retryable = defaultRetryable (own ++ [k]) from rfl, defaultRetryable_append h]
    simp only [List.mem_cons, List.not_mem_nil, or_false] at hk
    rcases hk with rfl | rfl | rfl | rfl <;> rfl
  · rw [show (init truthy (own ++ [k]) msg det none cause).retryable = defaultRetryable (own ++ [k]) from rfl, defaultRetryable_append h]
    simp only [List.mem_cons, List.not_mem_nil, or_false] at hk
    rcases hk with rfl | rfl | rfl | rfl <;> rfl
  · have := defaultRetryable_append h []
    rw [List.append_nil] at this
    exact this

/-- The message `""` is replaced by the default, although the documentation says that only `None` is. -/
theorem C280_empty_message_violation :
    (init (ω := Nat) (χ := Nat) (fun _ => true) [notFoundError] (some "") none none none).message = "Item not found" ∧
    ¬ PromisedMessage [notFoundError] (some "") (init (ω := Nat) (χ := Nat) (fun _ => true) [notFoundError] (some "") none none none).message := by
  refine ⟨rfl, ?_⟩
  intro h
  rcases h with h | ⟨h, _⟩
  · exact absurd h (by decide)
  · cases h

/-- A cause whose truth value is false (an exception class with `__len__`, say) is forgotten. -/
theorem C280_cause_violation :
    (init (ω := Nat) (χ := Nat) (fun n => n ≠ 0) [executionError] (some "failed") none none (some 0)).cause = none := rfl

/-- The defaults of the hierarchy: what can be retried. -/
example : [[], [validationError], [configurationError], [executionError], [connectionError], [timeoutError], [notFoundError], [existsError],
    [queueFullError]].map defaultRetryable = [true, false, false, true, true, true, false, false, true] := rfl

/-- A subclass that sets only the message inherits the retryability of its parent. -/
example : (init (ω := Nat) (χ := Nat) (fun _ => true) [⟨"MissingKey", some "no key", none⟩, notFoundError] none (some [("k", 1)]) none (some 3)).retryable = false ∧
    (init (ω := Nat) (χ := Nat) (fun _ => true) [⟨"MissingKey", some "no key", none⟩, notFoundError] none (some [("k", 1)]) none (some 3)).message = "no key" := ⟨rfl, rfl⟩

end Verif.Errors
