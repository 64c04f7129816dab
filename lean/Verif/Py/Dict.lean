/-!
# Insertion-ordered dictionaries

Python `dict` as an association list in insertion order.  A real dict never has two entries with the
same key; that well-formedness (`Dict.WF`) is a separate predicate preserved by every operation.
-/

namespace Verif

/-- A Python dict: entries in insertion order. -/
abbrev Dict (κ : Type u) (ν : Type v) := List (κ × ν)

namespace Dict

set_option linter.unusedSectionVars false

variable {κ : Type u} {ν : Type v} [DecidableEq κ]

/-- `list(d)` / `d.keys()`. -/
def keys (d : Dict κ ν) : List κ := d.map Prod.fst

/-- `list(d.values())`. -/
def values (d : Dict κ ν) : List ν := d.map Prod.snd

/-- `d[k]` / `d.get(k)`; `none` when the key is absent. -/
def get? : Dict κ ν → κ → Option ν
  | [], _ => none
  | (k', v) :: d, k => if k' = k then some v else get? d k

/-- `k in d`. -/
def has (d : Dict κ ν) (k : κ) : Bool := (d.get? k).isSome

/-- `d[k] = v`: replace in place, or append at the end. -/
def set : Dict κ ν → κ → ν → Dict κ ν
  | [], k, v => [(k, v)]
  | (k', v') :: d, k, v => if k' = k then (k', v) :: d else (k', v') :: set d k v

/-- `del d[k]` / `d.pop(k, None)` (no effect when absent). -/
def del : Dict κ ν → κ → Dict κ ν
  | [], _ => []
  | (k', v') :: d, k => if k' = k then d else (k', v') :: del d k

/-- `d.update(e)`. -/
def update (d e : Dict κ ν) : Dict κ ν := e.foldl (fun acc kv => acc.set kv.1 kv.2) d

/-- No two entries share a key. -/
def WF (d : Dict κ ν) : Prop := d.keys.Nodup

/-! ### Lemmas -/

@[simp] theorem keys_nil : keys ([] : Dict κ ν) = [] := rfl
@[simp] theorem keys_cons (kv : κ × ν) (d : Dict κ ν) : keys (kv :: d) = kv.1 :: keys d := rfl
@[simp] theorem get?_nil (k : κ) : get? ([] : Dict κ ν) k = none := rfl
theorem get?_cons (k' : κ) (v : ν) (d : Dict κ ν) (k : κ) :
    get? ((k', v) :: d) k = if k' = k then some v else get? d k := rfl

@[simp] theorem keys_append (d e : Dict κ ν) : keys (d ++ e : List (κ × ν)) = keys d ++ keys e := by
  simp [keys]

theorem get?_isSome_iff (d : Dict κ ν) (k : κ) : (d.get? k).isSome = true ↔ k ∈ d.keys := by
  induction d with
  | nil => simp
  | cons kv d ih =>
    obtain ⟨k', v⟩ := kv
    simp only [get?_cons, keys_cons, List.mem_cons]
    split
    · next h => simp [h]
    · next h => rw [ih]; constructor
                · exact Or.inr
                · rintro (h' | h')
                  · exact absurd h'.symm h
                  · exact h'

@[simp] theorem has_iff (d : Dict κ ν) (k : κ) : d.has k = true ↔ k ∈ d.keys := by
  simp only [has]; exact get?_isSome_iff d k

theorem has_eq_false_iff (d : Dict κ ν) (k : κ) : d.has k = false ↔ k ∉ d.keys := by
  rw [← has_iff]; cases d.has k <;> simp

theorem get?_eq_none_iff (d : Dict κ ν) (k : κ) : d.get? k = none ↔ k ∉ d.keys := by
  rw [← get?_isSome_iff]; cases d.get? k <;> simp

theorem mem_keys_of_get? {d : Dict κ ν} {k : κ} {v : ν} (h : d.get? k = some v) : k ∈ d.keys := by
  rw [← get?_isSome_iff, h]; rfl

theorem mem_of_get? {d : Dict κ ν} {k : κ} {v : ν} (h : d.get? k = some v) : (k, v) ∈ d := by
  induction d with
  | nil => simp at h
  | cons kv d ih =>
    obtain ⟨k', v'⟩ := kv
    rw [get?_cons] at h
    split at h
    · next hk => simp_all
    · next hk => exact List.mem_cons_of_mem _ (ih h)

theorem get?_of_mem {d : Dict κ ν} (wf : d.WF) {k : κ} {v : ν} (h : (k, v) ∈ d) :
    d.get? k = some v := by
  induction d with
  | nil => simp at h
  | cons kv d ih =>
    obtain ⟨k', v'⟩ := kv
    rw [get?_cons]
    simp only [WF, keys_cons, List.nodup_cons] at wf
    rcases List.mem_cons.1 h with h | h
    · injection h with h1 h2; subst h1; subst h2; simp
    · have : k ∈ keys d := by
        simp only [keys, List.mem_map]; exact ⟨_, h, rfl⟩
      have hne : k' ≠ k := by rintro rfl; exact wf.1 this
      simp only [hne, if_false]
      exact ih wf.2 h

theorem get?_iff_mem {d : Dict κ ν} (wf : d.WF) (k : κ) (v : ν) :
    d.get? k = some v ↔ (k, v) ∈ d := ⟨mem_of_get?, get?_of_mem wf⟩

theorem get?_append (d e : Dict κ ν) (k : κ) :
    get? (d ++ e : List (κ × ν)) k = (d.get? k).or (get? e k) := by
  induction d with
  | nil => simp
  | cons kv d ih =>
    obtain ⟨k', v'⟩ := kv
    show get? ((k', v') :: (d ++ e : List (κ × ν))) k = _
    rw [get?_cons, get?_cons]
    split
    · simp
    · exact ih

theorem set_of_notMem {d : Dict κ ν} {k : κ} (v : ν) (h : k ∉ d.keys) :
    d.set k v = d ++ [(k, v)] := by
  induction d with
  | nil => rfl
  | cons kv d ih =>
    obtain ⟨k', v'⟩ := kv
    simp only [keys_cons, List.mem_cons, not_or] at h
    simp only [set, if_neg (Ne.symm h.1), List.cons_append]
    rw [ih h.2]

theorem keys_set_of_mem {d : Dict κ ν} {k : κ} (v : ν) (h : k ∈ d.keys) :
    (d.set k v).keys = d.keys := by
  induction d with
  | nil => simp at h
  | cons kv d ih =>
    obtain ⟨k', v'⟩ := kv
    simp only [set]
    split
    · rfl
    · next hk =>
      simp only [keys_cons, List.mem_cons] at h ⊢
      rcases h with h | h
      · exact absurd h.symm hk
      · rw [ih h]

theorem keys_set (d : Dict κ ν) (k : κ) (v : ν) :
    (d.set k v).keys = if k ∈ d.keys then d.keys else d.keys ++ [k] := by
  split
  · next h => exact keys_set_of_mem v h
  · next h => rw [set_of_notMem v h]; simp [keys]

theorem mem_keys_set (d : Dict κ ν) (k k' : κ) (v : ν) :
    k' ∈ (d.set k v).keys ↔ k' = k ∨ k' ∈ d.keys := by
  rw [keys_set]; split
  · next h => constructor
              · exact Or.inr
              · rintro (rfl | h') <;> assumption
  · simp [or_comm]

theorem get?_set (d : Dict κ ν) (k k' : κ) (v : ν) :
    (d.set k v).get? k' = if k = k' then some v else d.get? k' := by
  induction d with
  | nil => simp [set, get?_cons]
  | cons kv d ih =>
    obtain ⟨a, b⟩ := kv
    simp only [set]
    split
    · next h => subst h; simp only [get?_cons]; split <;> rfl
    · next h =>
      simp only [get?_cons]
      rw [ih]
      split
      · next h2 => split
                   · next h3 => exact absurd (h2.trans h3.symm) h
                   · rfl
      · rfl

theorem set_wf {d : Dict κ ν} (wf : d.WF) (k : κ) (v : ν) : (d.set k v).WF := by
  unfold WF at *
  rw [keys_set]
  split
  · exact wf
  · next h => rw [List.nodup_append]; refine ⟨wf, by simp, ?_⟩
              intro a ha b hb; simp at hb; subst hb; rintro rfl; exact h ha

@[simp] theorem keys_del (d : Dict κ ν) (k : κ) : (d.del k).keys = d.keys.erase k := by
  induction d with
  | nil => rfl
  | cons kv d ih =>
    obtain ⟨k', v'⟩ := kv
    simp only [del, keys_cons]
    by_cases h : k' = k
    · subst h; simp
    · rw [if_neg h, List.erase_cons_tail (by simpa using h)]; simp [ih]

theorem del_wf {d : Dict κ ν} (wf : d.WF) (k : κ) : (d.del k).WF := by
  unfold WF at *; rw [keys_del]; exact wf.erase k

theorem get?_del {d : Dict κ ν} (wf : d.WF) (k k' : κ) :
    (d.del k).get? k' = if k = k' then none else d.get? k' := by
  induction d with
  | nil => simp [del]
  | cons kv d ih =>
    obtain ⟨a, b⟩ := kv
    simp only [WF, keys_cons, List.nodup_cons] at wf
    simp only [del]
    by_cases h : a = k
    · subst h
      rw [if_pos rfl]
      split
      · next h2 => subst h2; exact (get?_eq_none_iff _ _).2 wf.1
      · next h2 => rw [get?_cons, if_neg h2]
    · rw [if_neg h, get?_cons, get?_cons, ih wf.2]
      by_cases h2 : a = k'
      · subst h2; rw [if_pos rfl, if_neg (Ne.symm h), if_pos rfl]
      · rw [if_neg h2, if_neg h2]

theorem del_of_notMem {d : Dict κ ν} {k : κ} (h : k ∉ d.keys) : d.del k = d := by
  induction d with
  | nil => rfl
  | cons kv d ih =>
    obtain ⟨a, b⟩ := kv
    simp only [keys_cons, List.mem_cons, not_or] at h
    simp only [del, if_neg (Ne.symm h.1), ih h.2]

theorem mem_keys_del {d : Dict κ ν} (wf : d.WF) (k k' : κ) :
    k' ∈ (d.del k).keys ↔ k' ≠ k ∧ k' ∈ d.keys := by
  rw [keys_del]; exact List.Nodup.mem_erase_iff wf

theorem set_append_right {d e : Dict κ ν} {k : κ} (v : ν) (h : k ∉ d.keys) :
    set (d ++ e : List (κ × ν)) k v = (d ++ set e k v : List (κ × ν)) := by
  induction d with
  | nil => rfl
  | cons kv d ih =>
    obtain ⟨a, b⟩ := kv
    simp only [keys_cons, List.mem_cons, not_or] at h
    show set ((a, b) :: (d ++ e : List (κ × ν))) k v = _
    simp only [set, if_neg (Ne.symm h.1), List.cons_append, ih h.2]

/-- A dict with unique keys is determined by its key order and its lookup function. -/
theorem ext_of_keys_get? {d e : Dict κ ν} (wd : d.WF) (hk : d.keys = e.keys)
    (hg : ∀ k, d.get? k = e.get? k) : d = e := by
  induction d generalizing e with
  | nil => cases e with
    | nil => rfl
    | cons kv e => simp at hk
  | cons kv d ih =>
    cases e with
    | nil => simp at hk
    | cons kv' e =>
      obtain ⟨a, b⟩ := kv; obtain ⟨a', b'⟩ := kv'
      simp only [keys_cons, List.cons.injEq] at hk
      obtain ⟨rfl, hk⟩ := hk
      simp only [WF, keys_cons, List.nodup_cons] at wd
      have hb : b = b' := by
        have := hg a; simp [get?_cons] at this; exact this
      subst hb
      congr 1
      apply ih wd.2 hk
      intro k
      by_cases h : a = k
      · subst h
        rw [(get?_eq_none_iff _ _).2 wd.1, (get?_eq_none_iff _ _).2 (hk ▸ wd.1)]
      · have := hg k; simp [get?_cons, h] at this; exact this

theorem foldl_set_get?_of_notMem (e d : Dict κ ν) (k : κ) (h : k ∉ e.keys) :
    (e.foldl (fun acc kv => acc.set kv.1 kv.2) d).get? k = d.get? k := by
  induction e generalizing d with
  | nil => rfl
  | cons kv e ih =>
    simp only [keys_cons, List.mem_cons, not_or] at h
    rw [List.foldl_cons, ih _ h.2, get?_set, if_neg (Ne.symm h.1)]

theorem get?_update {e : Dict κ ν} (we : e.WF) (d : Dict κ ν) (k : κ) :
    (d.update e).get? k = (e.get? k).or (d.get? k) := by
  unfold update
  induction e generalizing d with
  | nil => simp
  | cons kv e ih =>
    obtain ⟨a, b⟩ := kv
    simp only [WF, keys_cons, List.nodup_cons] at we
    rw [List.foldl_cons]
    by_cases h : a = k
    · subst h
      rw [foldl_set_get?_of_notMem _ _ _ we.1, get?_set, get?_cons]; simp
    · rw [ih we.2, get?_set, get?_cons, if_neg h, if_neg h]

theorem update_wf {d : Dict κ ν} (wd : d.WF) (e : Dict κ ν) : (d.update e).WF := by
  unfold update
  induction e generalizing d with
  | nil => exact wd
  | cons kv e ih => exact ih (set_wf wd _ _)

theorem mem_keys_update (d e : Dict κ ν) (k : κ) :
    k ∈ (d.update e).keys ↔ k ∈ d.keys ∨ k ∈ e.keys := by
  unfold update
  induction e generalizing d with
  | nil => simp
  | cons kv e ih =>
    rw [List.foldl_cons, ih, mem_keys_set]
    simp only [keys_cons, List.mem_cons]
    constructor
    · rintro ((h | h) | h)
      · exact Or.inr (Or.inl h)
      · exact Or.inl h
      · exact Or.inr (Or.inr h)
    · rintro (h | h | h)
      · exact Or.inl (Or.inr h)
      · exact Or.inl (Or.inl h)
      · exact Or.inr h

end Dict

end Verif
