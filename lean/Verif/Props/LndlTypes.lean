import Verif.Model.LndlTypes

/-!
# Pending actions in models: C54, C55, C111, C116
-/

set_option linter.unusedVariables false
set_option linter.unusedSimpArgs false

namespace Verif.LndlTypes

open Verif.Parser (Str)

/-- The action `n` occurs in the value, at this path: anywhere inside of fields of models, sequences and values of dictionaries. -/
inductive At (n : Str) : Val → List Str → Prop where
  | here : At n (.action n) []
  | field (c : Nat) (fs e : Val) (p : List Str) : At n fs p → At n (.model c fs e) p
  | item (l : Val) (p : List Str) : At n l p → At n (.seq l) p
  | value (l : Val) (p : List Str) : At n l p → At n (.map l) p
  | head (k : Str) (h t : Val) (p : List Str) : At n h p → At n (.cons k h t) (k :: p)
  | tail (k : Str) (h t : Val) (p : List Str) : At n t p → At n (.cons k h t) p

theorem check_iff (v : Val) : check v = true ↔ ∃ n p, At n v p := by
  induction v with
  | atom s => exact ⟨fun h => by simp [check] at h, fun ⟨n, p, h⟩ => by cases h⟩
  | action m => exact ⟨fun _ => ⟨m, [], At.here⟩, fun _ => rfl⟩
  | model c fs e ih _ =>
    rw [check, ih]
    exact ⟨fun ⟨n, p, h⟩ => ⟨n, p, At.field c fs e p h⟩, fun ⟨n, p, h⟩ => by cases h with | field _ _ _ _ h => exact ⟨n, p, h⟩⟩
  | seq l ih =>
    rw [check, ih]
    exact ⟨fun ⟨n, p, h⟩ => ⟨n, p, At.item l p h⟩, fun ⟨n, p, h⟩ => by cases h with | item _ _ h => exact ⟨n, p, h⟩⟩
  | map l ih =>
    rw [check, ih]
    exact ⟨fun ⟨n, p, h⟩ => ⟨n, p, At.value l p h⟩, fun ⟨n, p, h⟩ => by cases h with | value _ _ h => exact ⟨n, p, h⟩⟩
  | nil => exact ⟨fun h => by simp [check] at h, fun ⟨n, p, h⟩ => by cases h⟩
  | cons k h t ih1 ih2 =>
    rw [check, Bool.or_eq_true, ih1, ih2]
    constructor
    · rintro (⟨n, p, h'⟩ | ⟨n, p, h'⟩)
      · exact ⟨n, k :: p, At.head k h t p h'⟩
      · exact ⟨n, p, At.tail k h t p h'⟩
    · rintro ⟨n, p, h'⟩
      cases h' with
      | head _ _ _ p h' => exact Or.inl ⟨n, p, h'⟩
      | tail _ _ _ _ h' => exact Or.inr ⟨n, p, h'⟩

theorem findPaths_iff (v : Val) (q r : List Str) : r ∈ findPaths q v ↔ ∃ n p, At n v p ∧ r = q ++ p := by
  induction v generalizing q r with
  | atom s => exact ⟨fun h => by simp [findPaths] at h, fun ⟨n, p, h, _⟩ => by cases h⟩
  | action m =>
    rw [findPaths, List.mem_singleton]
    exact ⟨fun e => ⟨m, [], At.here, by simp [e]⟩, fun ⟨n, p, h, e⟩ => by cases h; simpa using e⟩
  | model c fs e ih _ =>
    rw [findPaths, ih]
    exact ⟨fun ⟨n, p, h, e'⟩ => ⟨n, p, At.field c fs e p h, e'⟩, fun ⟨n, p, h, e'⟩ => by cases h with | field _ _ _ _ h => exact ⟨n, p, h, e'⟩⟩
  | seq l ih =>
    rw [findPaths, ih]
    exact ⟨fun ⟨n, p, h, e⟩ => ⟨n, p, At.item l p h, e⟩, fun ⟨n, p, h, e⟩ => by cases h with | item _ _ h => exact ⟨n, p, h, e⟩⟩
  | map l ih =>
    rw [findPaths, ih]
    exact ⟨fun ⟨n, p, h, e⟩ => ⟨n, p, At.value l p h, e⟩, fun ⟨n, p, h, e⟩ => by cases h with | value _ _ h => exact ⟨n, p, h, e⟩⟩
  | nil => exact ⟨fun h => by simp [findPaths] at h, fun ⟨n, p, h, _⟩ => by cases h⟩
  | cons k h t ih1 ih2 =>
    rw [findPaths, List.mem_append, ih1, ih2]
    constructor
    · rintro (⟨n, p, h', e⟩ | ⟨n, p, h', e⟩)
      · exact ⟨n, k :: p, At.head k h t p h', by simp [e]⟩
      · exact ⟨n, p, At.tail k h t p h', e⟩
    · rintro ⟨n, p, h', e⟩
      cases h' with
      | head _ _ _ p h' => exact Or.inl ⟨n, p, h', by simp [e]⟩
      | tail _ _ _ _ h' => exact Or.inr ⟨n, p, h', e⟩

/-- C54: pending actions are detected exactly when one occurs anywhere inside the fields. -/
theorem C54_detects (fields : Val) : hasActionCalls fields = true ↔ ∃ n p, At n fields p := check_iff fields

/-- C54: the guard raises exactly in that case and otherwise returns the model unchanged; the paths it reports are exactly those of the actions. -/
theorem C54_guard (cls : Nat) (fields extra : Val) :
    ((∃ n p, At n fields p) → ∃ ps, ensure cls fields extra = .error ps ∧ ∀ p, p ∈ ps ↔ ∃ n, At n fields p) ∧
    ((¬ ∃ n p, At n fields p) → ensure cls fields extra = .ok (.model cls fields extra)) := by
  unfold ensure
  refine ⟨fun h => ?_, fun h => ?_⟩
  · rw [if_pos ((C54_detects fields).2 h)]
    refine ⟨_, rfl, fun p => ?_⟩
    rw [findPaths_iff]
    exact ⟨fun ⟨n, p', h, e⟩ => ⟨n, by simpa [e] using h⟩, fun ⟨n, h⟩ => ⟨n, p, h, by simp⟩⟩
  · rw [if_neg (fun h' => h ((C54_detects fields).1 h'))]

/-- Non-vacuity: an action in a dictionary in a list in a nested model. -/
example : ensure 0 (.cons ['a'] (.atom ['1']) (.cons ['b'] (.model 1 (.cons ['c'] (.seq (.cons ['0'] (.map (.cons ['d'] (.action ['n']) .nil)) .nil)) .nil) .nil) .nil)) .nil =
    .error [[['b'], ['c'], ['0'], ['d']]] := by decide

example : ensure 0 (.cons ['a'] (.atom ['1']) .nil) .nil = .ok (.model 0 (.cons ['a'] (.atom ['1']) .nil) .nil) := by decide

/-! ### C111: extra fields -/

/-- C111 fails: an action among the extra fields of a model (`extra="allow"`) is not seen by the guard. -/
theorem C111_extra_violation : ensure 0 (.cons ['a'] (.atom ['1']) .nil) (.cons ['x'] (.action ['n']) .nil) =
    .ok (.model 0 (.cons ['a'] (.atom ['1']) .nil) (.cons ['x'] (.action ['n']) .nil)) := by decide

/-- The value occurs anywhere, extra fields included. -/
inductive Inside (n : Str) : Val → Prop where
  | here : Inside n (.action n)
  | field (c : Nat) (fs e : Val) : Inside n fs → Inside n (.model c fs e)
  | extra (c : Nat) (fs e : Val) : Inside n e → Inside n (.model c fs e)
  | item (l : Val) : Inside n l → Inside n (.seq l)
  | value (l : Val) : Inside n l → Inside n (.map l)
  | head (k : Str) (h t : Val) : Inside n h → Inside n (.cons k h t)
  | tail (k : Str) (h t : Val) : Inside n t → Inside n (.cons k h t)

/-- No model in the value has extra fields. -/
inductive NoExtra : Val → Prop where
  | atom (s : Str) : NoExtra (.atom s)
  | action (n : Str) : NoExtra (.action n)
  | model (c : Nat) (fs : Val) : NoExtra fs → NoExtra (.model c fs .nil)
  | seq (l : Val) : NoExtra l → NoExtra (.seq l)
  | map (l : Val) : NoExtra l → NoExtra (.map l)
  | nil : NoExtra .nil
  | cons (k : Str) (h t : Val) : NoExtra h → NoExtra t → NoExtra (.cons k h t)

/-- C111 for models without extra fields: a model that passes the guard has no action anywhere. -/
theorem C111_guard_partial (cls : Nat) (fields : Val) (hne : NoExtra fields) (m : Val) (h : ensure cls fields .nil = .ok m) : m = .model cls fields .nil ∧ ∀ n, ¬ Inside n m := by
  have key : ∀ v, NoExtra v → ∀ n, Inside n v → ∃ p, At n v p := by
    intro v hv
    induction hv with
    | atom s => intro n h; cases h
    | action m => intro n h; cases h; exact ⟨[], At.here⟩
    | model c fs _ ih =>
      intro n h
      cases h with
      | field _ _ _ h => obtain ⟨p, h⟩ := ih n h; exact ⟨p, At.field c fs .nil p h⟩
      | extra _ _ _ h => cases h
    | seq l _ ih => intro n h; cases h with | item _ h => obtain ⟨p, h⟩ := ih n h; exact ⟨p, At.item l p h⟩
    | map l _ ih => intro n h; cases h with | value _ h => obtain ⟨p, h⟩ := ih n h; exact ⟨p, At.value l p h⟩
    | nil => intro n h; cases h
    | cons k h t _ _ ih1 ih2 =>
      intro n h'
      cases h' with
      | head _ _ _ h' => obtain ⟨p, h'⟩ := ih1 n h'; exact ⟨k :: p, At.head k h t p h'⟩
      | tail _ _ _ h' => obtain ⟨p, h'⟩ := ih2 n h'; exact ⟨p, At.tail k h t p h'⟩
  unfold ensure at h
  split at h
  · cases h
  · next hh =>
    cases h
    refine ⟨rfl, fun n hn => ?_⟩
    cases hn with
    | field _ _ _ hn => obtain ⟨p, hp⟩ := key fields hne n hn; exact hh ((C54_detects fields).2 ⟨n, p, hp⟩)
    | extra _ _ _ hn => cases hn

/-! ### C55: revalidation -/

theorem inside_app (n : Str) (a b : Val) (h : Inside n (app a b)) : Inside n a ∨ Inside n b := by
  induction a with
  | cons k h' t _ ih =>
    rw [app] at h
    cases h with
    | head _ _ _ h => exact Or.inl (Inside.head k h' t h)
    | tail _ _ _ h =>
      rcases ih h with h | h
      · exact Or.inl (Inside.tail k h' t h)
      · exact Or.inr h
  | atom s => exact Or.inr h
  | action s => exact Or.inr h
  | model c f e => exact Or.inr h
  | seq l => exact Or.inr h
  | map l => exact Or.inr h
  | nil => exact Or.inr h

/-- A dump holds no `ActionCall`. -/
theorem dump_clean (excluded : Nat → Str → Bool) (v : Val) (ex : Str → Bool) (n : Str) : ¬ Inside n (dump excluded ex v) := by
  induction v generalizing ex with
  | atom s => intro h; simp only [dump] at h; cases h
  | action m =>
    intro h
    simp only [dump] at h
    cases h with
    | value _ h =>
      cases h with
      | head _ _ _ h => cases h
      | tail _ _ _ h => cases h
  | model c fs e ih1 ih2 =>
    intro h
    simp only [dump] at h
    cases h with
    | value _ h =>
      rcases inside_app n _ _ h with h | h
      · exact ih1 _ h
      · exact ih2 _ h
  | seq l ih => intro h; simp only [dump] at h; cases h with | item _ h => exact ih _ h
  | map l ih => intro h; simp only [dump] at h; cases h with | value _ h => exact ih _ h
  | nil => intro h; simp only [dump] at h; cases h
  | cons k h t ih1 ih2 =>
    intro h'
    rw [dump] at h'
    split at h'
    · exact ih2 _ h'
    · cases h' with
      | head _ _ _ h' => exact ih1 _ h'
      | tail _ _ _ h' => exact ih2 _ h'

theorem setItem_clean (n k : Str) (v d : Val) (h : Inside n (setItem k v d)) : Inside n v ∨ Inside n d := by
  induction d with
  | cons k' h' t _ ih =>
    rw [setItem] at h
    split at h
    · cases h with
      | head _ _ _ h => exact Or.inl h
      | tail _ _ _ h => exact Or.inr (Inside.tail k' h' t h)
    · cases h with
      | head _ _ _ h => exact Or.inr (Inside.head k' h' t h)
      | tail _ _ _ h =>
        rcases ih h with h | h
        · exact Or.inl h
        · exact Or.inr (Inside.tail k' h' t h)
  | atom s => simp only [setItem] at h; cases h with | head _ _ _ h => exact Or.inl h | tail _ _ _ h => cases h
  | action s => simp only [setItem] at h; cases h with | head _ _ _ h => exact Or.inl h | tail _ _ _ h => cases h
  | model c f e => simp only [setItem] at h; cases h with | head _ _ _ h => exact Or.inl h | tail _ _ _ h => cases h
  | seq l => simp only [setItem] at h; cases h with | head _ _ _ h => exact Or.inl h | tail _ _ _ h => cases h
  | map l => simp only [setItem] at h; cases h with | head _ _ _ h => exact Or.inl h | tail _ _ _ h => cases h
  | nil => simp only [setItem] at h; cases h with | head _ _ _ h => exact Or.inl h | tail _ _ _ h => cases h

theorem substTop_clean (results : Str → Option Val) (hres : ∀ a r n, results a = some r → ¬ Inside n r) (fs kw kw' : Val) (hkw : ∀ n, ¬ Inside n kw) (h : substTop results fs kw = .ok kw') :
    ∀ n, ¬ Inside n kw' := by
  induction fs generalizing kw with
  | cons k h' t _ ih =>
    rw [substTop] at h
    split at h
    · exact ih kw hkw h
    · next a _ =>
      split at h
      · cases h
      · next r hr => exact ih _ (fun n hn => by rcases setItem_clean n k r kw hn with h | h; exact hres a r n hr h; exact hkw n h) h
  | atom s => simp only [substTop] at h; cases h; exact hkw
  | action s => simp only [substTop] at h; cases h; exact hkw
  | model c f e => simp only [substTop] at h; cases h; exact hkw
  | seq l => simp only [substTop] at h; cases h; exact hkw
  | map l => simp only [substTop] at h; cases h; exact hkw
  | nil => simp only [substTop] at h; cases h; exact hkw

/-- C55: the data validated again holds no pending action anywhere.  So if the results hold none and validation makes none, neither does the result. -/
theorem C55_no_actions (excluded : Nat → Str → Bool) (validate : Nat → Val → Option Val) (hval : ∀ c d m, (∀ n, ¬ Inside n d) → validate c d = some m → ∀ n, ¬ Inside n m)
    (results : Str → Option Val) (hres : ∀ a r n, results a = some r → ¬ Inside n r) (cls : Nat) (fields extra m : Val)
    (h : revalidate excluded validate results cls fields extra = .ok m) (n : Str) : ¬ Inside n m := by
  unfold revalidate at h
  split at h
  · cases h
  · next kw hkw =>
    split at h
    · cases h
    · next m' hm =>
      cases h
      refine hval cls kw m (substTop_clean results hres fields _ kw ?_ hkw) hm n
      intro n hn
      unfold dumpTop at hn
      rcases inside_app n _ _ hn with h | h
      · exact dump_clean excluded _ _ n h
      · exact dump_clean excluded _ _ n h

/-- The fields of a model, as a list. -/
def items : Val → List (Str × Val)
  | .cons k h t => (k, h) :: items t
  | _ => []

theorem getItem_setItem (k j : Str) (v d : Val) : getItem j (setItem k v d) = if k = j then some v else getItem j d := by
  induction d with
  | cons k' h t _ ih =>
    rw [setItem]
    split
    · next e =>
      subst e
      rw [getItem, getItem]
      split <;> rfl
    · next e =>
      rw [getItem, getItem, ih]
      by_cases h1 : k' = j
      · subst h1; simp [Ne.symm e]
      · simp [h1]
  | atom s => simp [setItem, getItem]
  | action s => simp [setItem, getItem]
  | model c f e => simp [setItem, getItem]
  | seq l => simp [setItem, getItem]
  | map l => simp [setItem, getItem]
  | nil => simp [setItem, getItem]

theorem substTop_spec (results : Str → Option Val) (fs kw kw' : Val) (hnd : ((items fs).map (·.1)).Nodup) (h : substTop results fs kw = .ok kw') :
    (∀ k n, (k, Val.action n) ∈ items fs → ∃ r, results n = some r ∧ getItem k kw' = some r) ∧
    (∀ k, (∀ n, (k, Val.action n) ∉ items fs) → getItem k kw' = getItem k kw) := by
  induction fs generalizing kw with
  | cons k h' t _ ih =>
    rw [items, List.map_cons, List.nodup_cons] at hnd
    rw [substTop] at h
    split at h
    · next hna =>
      obtain ⟨i1, i2⟩ := ih kw hnd.2 h
      refine ⟨fun j n hj => ?_, fun j hj => i2 j (fun n hn => hj n (by rw [items]; exact List.mem_cons_of_mem _ hn))⟩
      rw [items, List.mem_cons] at hj
      rcases hj with e | hj
      · cases e; simp [actionName] at hna
      · exact i1 j n hj
    · next a ha =>
      have : h' = .action a := by cases h' <;> simp_all [actionName]
      subst this
      split at h
      · cases h
      · next r hr =>
        obtain ⟨i1, i2⟩ := ih _ hnd.2 h
        refine ⟨fun j n hj => ?_, fun j hj => ?_⟩
        · rw [items, List.mem_cons] at hj
          rcases hj with e | hj
          · cases e
            refine ⟨r, hr, ?_⟩
            rw [i2 k (fun n hn => hnd.1 (List.mem_map.2 ⟨_, hn, rfl⟩)), getItem_setItem, if_pos rfl]
          · exact i1 j n hj
        · have hkj : k ≠ j := fun e => hj a (by rw [items, ← e]; simp)
          rw [i2 j (fun n hn => hj n (by rw [items]; exact List.mem_cons_of_mem _ hn)), getItem_setItem, if_neg hkj]
  | atom s => simp only [substTop] at h; cases h; exact ⟨by simp [items], fun _ _ => rfl⟩
  | action s => simp only [substTop] at h; cases h; exact ⟨by simp [items], fun _ _ => rfl⟩
  | model c f e => simp only [substTop] at h; cases h; exact ⟨by simp [items], fun _ _ => rfl⟩
  | seq l => simp only [substTop] at h; cases h; exact ⟨by simp [items], fun _ _ => rfl⟩
  | map l => simp only [substTop] at h; cases h; exact ⟨by simp [items], fun _ _ => rfl⟩
  | nil => simp only [substTop] at h; cases h; exact ⟨by simp [items], fun _ _ => rfl⟩

theorem getItem_app (k : Str) (a b : Val) : getItem k (app a b) = (getItem k a).or (match getItem k a with | none => getItem k b | some _ => none) := by
  induction a with
  | cons k' h t _ ih =>
    rw [app, getItem, getItem]
    by_cases e : k' = k
    · simp [e]
    · simp only [e, if_false]; exact ih
  | atom s => simp [app, getItem]
  | action s => simp [app, getItem]
  | model c f e => simp [app, getItem]
  | seq l => simp [app, getItem]
  | map l => simp [app, getItem]
  | nil => simp [app, getItem]

theorem getItem_dump (excluded : Nat → Str → Bool) (ex : Str → Bool) (fs : Val) (k : Str) (v : Val) (hnd : ((items fs).map (·.1)).Nodup) (hk : (k, v) ∈ items fs) (hex : ex k = false) :
    getItem k (dump excluded ex fs) = some (dump excluded (fun _ => false) v) := by
  induction fs with
  | cons k' h t _ ih =>
    rw [items, List.map_cons, List.nodup_cons] at hnd
    rw [items, List.mem_cons] at hk
    rw [dump]
    rcases hk with e | hk
    · cases e
      rw [if_neg (by simp [hex]), getItem, if_pos rfl]
    · have hne : k' ≠ k := fun e => hnd.1 (List.mem_map.2 ⟨_, hk, e.symm⟩)
      split
      · exact ih hnd.2 hk
      · rw [getItem, if_neg hne]; exact ih hnd.2 hk
  | atom s => simp [items] at hk
  | action s => simp [items] at hk
  | model c f e => simp [items] at hk
  | seq l => simp [items] at hk
  | map l => simp [items] at hk
  | nil => simp [items] at hk

/-- C55, for actions that are the value of a field of the model itself: the data validated has the result of each such action in its field, and the dump of its value in each other field (not declared with
`exclude`); a missing result is an error. -/
theorem C55_top_partial (excluded : Nat → Str → Bool) (validate : Nat → Val → Option Val) (results : Str → Option Val) (cls : Nat) (fields extra m : Val) (hnd : ((items fields).map (·.1)).Nodup)
    (h : revalidate excluded validate results cls fields extra = .ok m) :
    ∃ data, validate cls data = some m ∧ (∀ k n, (k, Val.action n) ∈ items fields → ∃ r, results n = some r ∧ getItem k data = some r) ∧
      (∀ k v, (k, v) ∈ items fields → (∀ n, v ≠ .action n) → excluded cls k = false → getItem k data = some (dump excluded (fun _ => false) v)) := by
  unfold revalidate at h
  split at h
  · cases h
  · next kw hkw =>
    split at h
    · cases h
    · next m' hm =>
      cases h
      obtain ⟨h1, h2⟩ := substTop_spec results fields _ kw hnd hkw
      refine ⟨kw, hm, h1, ?_⟩
      intro k v hv hna hex
      rw [h2 k (fun n hn => ?_)]
      · unfold dumpTop
        rw [getItem_app, getItem_dump excluded (excluded cls) fields k v hnd hv hex]
        rfl
      · have : v = .action n := by
          clear h1 h2 hkw hm hex
          induction fields with
          | cons k' h t _ ih =>
            rw [items, List.map_cons, List.nodup_cons] at hnd
            rw [items, List.mem_cons] at hv hn
            rcases hv with e | hv
            · rcases hn with e' | hn
              · cases e; cases e'; rfl
              · cases e; exact absurd (List.mem_map.2 ⟨_, hn, rfl⟩) hnd.1
            · rcases hn with e' | hn
              · cases e'; exact absurd (List.mem_map.2 ⟨_, hv, rfl⟩) hnd.1
              · exact ih hnd.2 hv hn
          | atom s => simp [items] at hv
          | action s => simp [items] at hv
          | model c f e => simp [items] at hv
          | seq l => simp [items] at hv
          | map l => simp [items] at hv
          | nil => simp [items] at hv
        exact hna n this

/-- Validation that accepts everything. -/
def acceptAll (c : Nat) (d : Val) : Option Val := some (.model c d .nil)

/-- C55 fails for an action inside a list: it is replaced by a dictionary describing the call instead of its result, and the guard is satisfied. -/
theorem C55_nested_violation :
    revalidate (fun _ _ => false) acceptAll (fun _ => some (.atom ['r'])) 0 (.cons ['a'] (.seq (.cons ['0'] (.action ['n']) .nil)) .nil) .nil =
      .ok (.model 0 (.cons ['a'] (.seq (.cons ['0'] (.map (.cons "name".toList (.atom ['n']) .nil)) .nil)) .nil) .nil) := by decide

/-- Non-vacuity of the partial statement. -/
example : revalidate (fun _ _ => false) acceptAll (fun _ => some (.atom ['r'])) 0 (.cons ['a'] (.action ['n']) (.cons ['b'] (.atom ['v']) .nil)) .nil =
    .ok (.model 0 (.cons ['a'] (.atom ['r']) (.cons ['b'] (.atom ['v']) .nil)) .nil) := by decide

example : revalidate (fun _ _ => false) acceptAll (fun _ => none) 0 (.cons ['a'] (.action ['n']) .nil) .nil = .error () := by decide

/-! ### C116: other fields survive revalidation -/

/-- C116 fails: a field declared with `exclude=True` is not part of the data validated again. -/
theorem C116_excluded_violation :
    revalidate (fun _ k => decide (k = ['b'])) acceptAll (fun _ => some (.atom ['r'])) 0 (.cons ['a'] (.action ['n']) (.cons ['b'] (.atom ['v']) .nil)) .nil =
      .ok (.model 0 (.cons ['a'] (.atom ['r']) .nil) .nil) := by decide

/-- C116 without excluded fields: every field without action is passed on. -/
theorem C116_kept_partial (validate : Nat → Val → Option Val) (results : Str → Option Val) (cls : Nat) (fields extra m : Val) (hnd : ((items fields).map (·.1)).Nodup)
    (h : revalidate (fun _ _ => false) validate results cls fields extra = .ok m) :
    ∃ data, validate cls data = some m ∧ ∀ k v, (k, v) ∈ items fields → (∀ n, v ≠ .action n) → getItem k data = some (dump (fun _ _ => false) (fun _ => false) v) := by
  obtain ⟨d, h1, _, h3⟩ := C55_top_partial (fun _ _ => false) validate results cls fields extra m hnd h
  exact ⟨d, h1, fun k v hv hna => h3 k v hv hna rfl⟩

end Verif.LndlTypes
