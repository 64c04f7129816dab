import Verif.Props.EventSerial

set_option linter.unusedSectionVars false
set_option linter.unusedSimpArgs false
set_option linter.unusedVariables false

/-!
# What the serialised error of an event shows: C271
-/

namespace Verif.EventSerial

/-- Entry of a dictionary under a text key. -/
def lookupKV (k : Key) : List (Key × V) → Option V
  | [] => none
  | (k', v) :: kvs => if k' = k then some v else lookupKV k kvs

/-- `v[name]`. -/
def entry (v : V) (name : String) : Option V :=
  match v with
  | .dict kvs => lookupKV (.text (lit name)) kvs
  | _ => none

/-- The value shows the exception: class and message, the retry flag and the details of an error of the package, and the members of a group, each shown, in order. -/
def Shown : Exn → V → Prop
  | .plain c m, v => entry v "error" = some (.str c) ∧ entry v "message" = some (.str m)
  | .lion c m r d, v => entry v "error" = some (.str c) ∧ entry v "message" = some (.str m) ∧ entry v "retryable" = some (.bool r) ∧
      ∀ kvs, d = some kvs → kvs ≠ [] → entry v "details" = some (.dict kvs)
  | .group c m ms, v => entry v "error" = some (.str c) ∧ entry v "message" = some (.str m) ∧ ∃ vs, entry v "exceptions" = some (.list vs) ∧ ShownAll ms vs
  | .baseGroup c m ms, v => entry v "error" = some (.str c) ∧ entry v "message" = some (.str m) ∧ ∃ vs, entry v "exceptions" = some (.list vs) ∧ ShownAll ms vs
where
  ShownAll : List Exn → List V → Prop
    | [], [] => True
    | e :: es, v :: vs => Shown e v ∧ ShownAll es vs
    | _, _ => False

/-- How deep groups are nested. -/
def Exn.depth : Exn → Nat
  | .plain _ _ => 0
  | .lion _ _ _ _ => 0
  | .group _ _ ms => depthAll ms + 1
  | .baseGroup _ _ ms => depthAll ms + 1
where
  depthAll : List Exn → Nat
    | [] => 0
    | e :: es => max e.depth (depthAll es)

/-- No group in it holds an exception that is no `Exception`. -/
def Exn.NoBase : Exn → Prop
  | .plain _ _ => True
  | .lion _ _ _ _ => True
  | .group _ _ ms => NoBaseAll ms
  | .baseGroup _ _ _ => False
where
  NoBaseAll : List Exn → Prop
    | [] => True
    | e :: es => e.NoBase ∧ NoBaseAll es

theorem entry_error (c m : Text) (more : List (Key × V)) : entry (errEntry c m more) "error" = some (.str c) := rfl

theorem entry_message (c m : Text) (more : List (Key × V)) : entry (errEntry c m more) "message" = some (.str m) := by
  have e : ¬ (Key.text (lit "error") = .text (lit "message")) := by decide
  simp [entry, errEntry, lookupKV, e]

theorem entry_more (c m : Text) (more : List (Key × V)) (name : String) (h1 : ¬ (Key.text (lit "error") = .text (lit name))) (h2 : ¬ (Key.text (lit "message") = .text (lit name))) :
    entry (errEntry c m more) name = lookupKV (.text (lit name)) more := by
  simp only [entry, errEntry, lookupKV]
  rw [if_neg h1, if_neg h2]

theorem shown_lion (c m : Text) (r : Bool) (d : Option (List (Key × V))) : Shown (.lion c m r d) (lionEntry c m r d) := by
  refine ⟨entry_error _ _ _, entry_message _ _ _, ?_, ?_⟩
  · rw [lionEntry, entry_more _ _ _ _ (by decide) (by decide)]
    rfl
  · intro kvs hd hne
    subst hd
    rw [lionEntry, entry_more _ _ _ _ (by decide) (by decide)]
    cases kvs with
    | nil => exact absurd rfl hne
    | cons kv kvs =>
      have e : ¬ (Key.text (lit "retryable") = .text (lit "details")) := by decide
      simp only [lookupKV, detailsEntry]
      rw [if_neg e, if_pos trivial]

theorem entry_exceptions (c m : Text) (vs : List V) : entry (errEntry c m [(.text (lit "exceptions"), .list vs)]) "exceptions" = some (.list vs) := by
  rw [entry_more _ _ _ _ (by decide) (by decide)]
  simp [lookupKV]

mutual
theorem shown_iff : (e : Exn) → (k : Nat) → (Shown e (errDict k e.seen) ↔ e.NoBase ∧ e.depth ≤ k)
  | .plain c m, k => by
    have : errDict k (Exn.plain c m).seen = errEntry c m [] := by cases k <;> rfl
    rw [this]
    simp [Shown, Exn.NoBase, Exn.depth, entry_error, entry_message]
  | .lion c m r d, k => by
    have : errDict k (Exn.lion c m r d).seen = lionEntry c m r d := by cases k <;> rfl
    rw [this]
    simp [Exn.NoBase, Exn.depth, shown_lion]
  | .baseGroup c m ms, k => by
    have : errDict k (Exn.baseGroup c m ms).seen = errEntry c m [] := by cases k <;> rfl
    rw [this]
    constructor
    · rintro ⟨_, _, vs, h, _⟩
      rw [entry_more _ _ _ _ (by decide) (by decide)] at h
      cases h
    · rintro ⟨h, _⟩
      exact h.elim
  | .group c m ms, 0 => by
    have : errDict 0 (Exn.group c m ms).seen = deepEntry (Exn.seen.seenAll ms).length := rfl
    rw [this]
    constructor
    · rintro ⟨_, _, vs, h, _⟩
      rw [deepEntry, entry_more _ _ _ _ (by decide) (by decide)] at h
      have e : ¬ (Key.text (lit "nested_count") = .text (lit "exceptions")) := by decide
      simp only [lookupKV] at h
      rw [if_neg e] at h
      cases h
    · rintro ⟨_, h⟩
      simp only [Exn.depth] at h
      omega
  | .group c m ms, k + 1 => by
    have : errDict (k + 1) (Exn.group c m ms).seen = errEntry c m [(.text (lit "exceptions"), .list (errDict.members k (Exn.seen.seenAll ms)))] := rfl
    rw [this]
    have ih := shownAll_iff ms k
    simp only [Shown, entry_error, entry_message, entry_exceptions, Exn.NoBase, Exn.depth, true_and, Option.some.injEq, V.list.injEq, exists_eq_left', ih, Nat.add_le_add_iff_right]
theorem shownAll_iff : (es : List Exn) → (k : Nat) →
    (Shown.ShownAll es (errDict.members k (Exn.seen.seenAll es)) ↔ Exn.NoBase.NoBaseAll es ∧ Exn.depth.depthAll es ≤ k)
  | [], k => by simp [Shown.ShownAll, errDict.members, Exn.seen.seenAll, Exn.NoBase.NoBaseAll, Exn.depth.depthAll]
  | e :: es, k => by
    simp only [Shown.ShownAll, errDict.members, Exn.seen.seenAll, Exn.NoBase.NoBaseAll, Exn.depth.depthAll, shown_iff e k, shownAll_iff es k, Nat.max_le]
    constructor
    · rintro ⟨⟨h1, h2⟩, h3, h4⟩; exact ⟨⟨h1, h3⟩, h2, h4⟩
    · rintro ⟨⟨h1, h2⟩, h3, h4⟩; exact ⟨⟨h1, h3⟩, h2, h4⟩
end

/-- C271: the serialised error of an event shows its error, with every exception nested in it.  This fails for an exception group that holds an exception which is no `Exception` (a `BaseExceptionGroup`):
its members are left out. -/
theorem C271_violation (c m : Text) (ms : List Exn) : ¬ Shown (.baseGroup c m ms) (errorEntry (.exc (Exn.baseGroup c m ms).seen)) := by
  intro h
  exact ((shown_iff (.baseGroup c m ms) 101).1 h).1

/-- C271, the exact condition: everything is shown iff no group in it is a `BaseExceptionGroup` and groups are nested at most 101 deep. -/
theorem C271_exact_partial (e : Exn) : Shown e (errorEntry (.exc e.seen)) ↔ e.NoBase ∧ e.depth ≤ 101 := shown_iff e 101

/-- A group of a plain error, an error of the package with details and another group. -/
example : (Exn.group [69] [1] [.plain [65] [2], .lion [66] [3] true (some [(.text [7], .int 1)]), .group [69] [4] [.plain [67] []]]).NoBase ∧
    (Exn.group [69] [1] [.plain [65] [2], .lion [66] [3] true (some [(.text [7], .int 1)]), .group [69] [4] [.plain [67] []]]).depth = 2 := by
  refine ⟨?_, by decide⟩
  simp [Exn.NoBase, Exn.NoBase.NoBaseAll]

end Verif.EventSerial
