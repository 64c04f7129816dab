import Verif.Model.YamlText
import Verif.Props.Json

/-!
# C283: what `minimal_yaml` shows for a text

The specification is the JSON grammar (`Doc`, `Props/Json.lean`).
-/

set_option linter.unusedSectionVars false
set_option linter.unusedSimpArgs false
set_option linter.unusedVariables false

namespace Verif.Prune
open Verif.Json

/-- The text `t` is a JSON document that denotes `v`, perhaps with white space around it. -/
def Denotes (t : Str) (v : J) : Prop := ∃ w u w', AllWs w ∧ Doc v u ∧ AllWs w' ∧ t = w ++ (u ++ w')

theorem loads_iff (t : Str) (v : J) : loads t = some v ↔ Denotes t v := C218_grammar t v

theorem written_len {e : Str} {c : Char} (h : Written e c) : 1 ≤ e.length := by cases h <;> simp

theorem chars_len {e s : Str} (h : Chars e s) : s.length ≤ e.length := by
  induction h with
  | nil => simp
  | cons e c r s h _ ih => have := written_len h; simp only [List.length_append, List.length_cons]; omega

theorem denotes_str_len {t s : Str} (h : Denotes t (.str s)) : s.length + 2 ≤ t.length := by
  obtain ⟨w, u, w', _, hd, _, rfl⟩ := h
  simp only [Doc] at hd
  obtain ⟨e, he, rfl⟩ := hd
  have := chars_len he
  simp only [List.length_append, List.length_cons, List.length_nil]; omega

theorem toVal_str {v : J} {s : Str} (h : toVal v = .str s) : v = .str s := by
  cases v with
  | token t ht => 
    simp only [toVal] at h
    by_cases k : t = ['n', 'u', 'l', 'l']
    · rw [if_pos k] at h; cases h
    · rw [if_neg k] at h; cases h
  | str x => simp only [toVal, Val.str.injEq] at h; rw [h]
  | arr l => simp only [toVal] at h; cases h
  | obj l => simp only [toVal] at h; cases h

theorem prune_str {v : Val Str Str} {s : Str} (h : prune v = .str s) (hv : ∃ j, v = toVal j) : v = .str s := by
  obtain ⟨j, rfl⟩ := hv
  cases j with
  | token t ht => 
    simp only [toVal] at h ⊢
    by_cases k : t = ['n', 'u', 'l', 'l']
    · rw [if_pos k] at h; cases h
    · rw [if_neg k] at h; cases h
  | str x => simpa only [toVal, prune] using h
  | arr l => simp only [toVal, prune] at h; cases h
  | obj l => simp only [toVal, prune] at h; cases h

/-- A JSON text is dumped as the value it denotes. -/
theorem data_of_json (drop : Bool) {t : Str} {v : J} (h : Denotes t v) :
    yamlData drop (.str t) = if drop then prune (toVal v) else toVal v := by
  have := (loads_iff t v).2 h
  simp only [yamlData, parsed, this, Option.map_some, Option.getD_some]

/-- A text that is not JSON is dumped as it is. -/
theorem data_of_text (drop : Bool) {t : Str} (h : ∀ v, ¬ Denotes t v) : yamlData drop (.str t) = .str t := by
  have : loads t = none := by
    cases hl : loads t with
    | none => rfl
    | some v => exact absurd ((loads_iff t v).1 hl) (h v)
  simp only [yamlData, parsed, this, Option.map_none, Option.getD_none]
  cases drop <;> simp [prune]

/-- **C283** (partial, exact): a text is shown as that text exactly if it is not a JSON document; otherwise what it denotes is shown (and,
with `drop_empties`, pruned). -/
theorem C283_exact_partial (drop : Bool) (t : Str) :
    (yamlData drop (.str t) = .str t ↔ ∀ v, ¬ Denotes t v) ∧
    (∀ v, Denotes t v → yamlData drop (.str t) = if drop then prune (toVal v) else toVal v) := by
  refine ⟨⟨?_, data_of_text drop⟩, fun v h => data_of_json drop h⟩
  intro h v hv
  rw [data_of_json drop hv] at h
  have hs : toVal v = .str t := by
    cases drop with
    | true => exact prune_str h ⟨v, rfl⟩
    | false => exact h
  have := toVal_str hs
  subst this
  have := denotes_str_len hv
  omega

/-- **C283**: the JSON text of a value gives the same output as the value itself, exactly if the value is not a text that is JSON again. -/
theorem C283_json_text (drop : Bool) (indent : Bool) (v : J) :
    yamlData drop (.str (write indent 0 v)) = yamlData drop (toVal v) ↔ ∀ s, v = .str s → ∀ u, ¬ Denotes s u := by
  have hd : Denotes (write indent 0 v) v :=
    ⟨[], write indent 0 v, [], (by simp [AllWs]), write_doc indent 0 v, (by simp [AllWs]), by simp⟩
  rw [data_of_json drop hd]
  cases v with
  | token t ht =>
    refine ⟨fun _ s hs => (by cases hs), fun _ => ?_⟩
    simp only [yamlData, toVal]
    by_cases k : t = ['n', 'u', 'l', 'l']
    · rw [if_pos k]; rfl
    · rw [if_neg k]; rfl
  | str s =>
    have e : (if drop = true then prune (toVal (.str s)) else toVal (.str s)) = .str s := by cases drop <;> simp [toVal, prune]
    rw [e]
    simp only [toVal]
    constructor
    · intro h s' hs'
      cases hs'
      exact ((C283_exact_partial drop s).1).1 h.symm
    · intro h
      exact (((C283_exact_partial drop s).1).2 (h s rfl)).symm
  | arr l => exact ⟨fun _ s hs => (by cases hs), fun _ => by simp only [yamlData, toVal, parsed]⟩
  | obj l => exact ⟨fun _ s hs => (by cases hs), fun _ => by simp only [yamlData, toVal, parsed]⟩

/-- The values that stand under `k` in the chain of a dict. -/
def under (k : Str) : Val Str Str → List (Val Str Str)
  | .kcons k' h t => if k' = k then h :: under k t else under k t
  | _ => []

/-- A chain of entries with different keys. -/
def KChain : Val Str Str → Prop
  | .kcons k _ t => under k t = [] ∧ KChain t
  | .nil => True
  | _ => False

theorem under_kset (k j : Str) (v : Val Str Str) : ∀ (t : Val Str Str), KChain t →
    under j (kset k v t) = (if k = j then [v] else under j t) ∧ KChain (kset k v t)
  | .kcons k' h t, ⟨h1, h2⟩ => by
    obtain ⟨i1, i2⟩ := under_kset k j v t h2
    obtain ⟨i3, _⟩ := under_kset k k' v t h2
    simp only [kset]
    by_cases e : k' = k
    · subst e
      rw [if_pos rfl]
      refine ⟨?_, h1, h2⟩
      simp only [under]
      by_cases ej : k' = j
      · subst ej; rw [if_pos rfl, if_pos rfl, h1]
      · rw [if_neg ej, if_neg ej, if_neg ej]
    · rw [if_neg e]
      refine ⟨?_, ?_, i2⟩
      · simp only [under]
        rw [i1]
        by_cases ej : k' = j
        · subst ej; rw [if_pos rfl, if_pos rfl, if_neg (Ne.symm e), h1, if_neg (Ne.symm e)]
        · rw [if_neg ej, if_neg ej]
      · rw [i3, if_neg (Ne.symm e), h1]
  | .nil, _ => by
    refine ⟨?_, rfl, trivial⟩
    simp only [kset, under]
  | .none, h => absurd h (by simp [KChain])
  | .str _, h => absurd h (by simp [KChain])
  | .other _, h => absurd h (by simp [KChain])
  | .coll _ _, h => absurd h (by simp [KChain])
  | .cons _ _, h => absurd h (by simp [KChain])
  | .scons _ _, h => absurd h (by simp [KChain])

theorem under_toFields (j : Str) : ∀ (l : List (Str × J)) (acc : Val Str Str), KChain acc →
    KChain (toFields acc l) ∧
    under j (toFields acc l) = ((((l.filter (fun p => decide (p.1 = j))).getLast?).map (fun p => [toVal p.2])).getD (under j acc))
  | [], acc, h => ⟨h, rfl⟩
  | (k, v) :: l, acc, h => by
    obtain ⟨h1, h2⟩ := under_kset k j (toVal v) acc h
    obtain ⟨i1, i2⟩ := under_toFields j l _ h2
    refine ⟨i1, ?_⟩
    simp only [toFields]
    rw [i2, h1]
    by_cases e : k = j
    · subst e
      rw [if_pos rfl, List.filter_cons_of_pos (by simp)]
      cases hl : l.filter (fun p => decide (p.1 = k)) with
      | nil => rfl
      | cons x xs => rw [List.getLast?_cons_cons, List.getLast?_cons]; rfl
    · rw [if_neg e, List.filter_cons_of_neg (by simp [e])]

/-- The items of a chain. -/
def listed : Val Str Str → List (Val Str Str)
  | .cons h t => h :: listed t
  | _ => []

/-- A chain of list items. -/
def Chain : Val Str Str → Prop
  | .cons _ t => Chain t
  | .nil => True
  | _ => False

theorem listed_toItems : ∀ (l : List J), Chain (toItems l) ∧ listed (toItems l) = l.map toVal
  | [] => ⟨by simp only [toItems, Chain], by simp only [toItems, listed, List.map_nil]⟩
  | v :: l => by
    obtain ⟨h1, h2⟩ := listed_toItems l
    exact ⟨by simp only [toItems, Chain]; exact h1, by simp only [toItems, listed, h2, List.map_cons]⟩

/-- What is shown for the text of an array: its items, in order. -/
theorem C283_list (l : List J) : ∃ t, toVal (.arr l) = .coll .list t ∧ Chain t ∧ listed t = l.map toVal :=
  ⟨toItems l, by simp only [toVal], (listed_toItems l).1, (listed_toItems l).2⟩

/-- What is shown for the text of an object: each of its keys once, with the last value given for it. -/
theorem C283_object (l : List (Str × J)) : ∃ t, toVal (.obj l) = .coll .dict t ∧ KChain t ∧
    ∀ j, (under j t = [] ↔ ∀ p ∈ l, p.1 ≠ j) ∧
      ∀ pre v post, l = pre ++ (j, v) :: post → (∀ p ∈ post, p.1 ≠ j) → under j t = [toVal v] := by
  refine ⟨_, by simp only [toVal], (under_toFields [] l .nil trivial).1, fun j => ?_⟩
  have h := (under_toFields j l .nil trivial).2
  rw [h]
  constructor
  · constructor
    · intro hu p hp e
      have hm : p ∈ l.filter (fun p => decide (p.1 = j)) := List.mem_filter.2 ⟨hp, by simp [e]⟩
      cases hl : (l.filter (fun p => decide (p.1 = j))).getLast? with
      | none => rw [List.getLast?_eq_none_iff] at hl; rw [hl] at hm; cases hm
      | some x => rw [hl] at hu; simp at hu
    · intro hn
      have : l.filter (fun p => decide (p.1 = j)) = [] := List.filter_eq_nil_iff.2 (fun p hp => by simpa using hn p hp)
      rw [this]; rfl
  · intro pre v post e hp
    have : post.filter (fun p => decide (p.1 = j)) = [] := List.filter_eq_nil_iff.2 (fun p hpp => by simpa using hp p hpp)
    rw [e, List.filter_append, List.filter_cons_of_pos (by simp), this]
    simp

/-- **C283** (violation): the text "0123" is shown as itself, the text "123" as a number. -/
theorem C283_number_violation (drop : Bool) :
    yamlData drop (.str ['0', '1', '2', '3']) = .str ['0', '1', '2', '3'] ∧ yamlData drop (.str ['1', '2', '3']) = .other ['1', '2', '3'] := by
  cases drop <;> exact ⟨by decide +kernel, by decide +kernel⟩

/-- **C283** (violation): a text that denotes a text that is JSON: `"1"` is shown as the text 1, and the text 1 as a number. -/
theorem C283_text_violation (drop : Bool) :
    yamlData drop (.str ['"', '1', '"']) = .str ['1'] ∧ yamlData drop (.str ['1']) = .other ['1'] := by
  cases drop <;> exact ⟨by decide +kernel, by decide +kernel⟩

/-- A document with an empty list and a repeated key. -/
example : yamlData true (.str "{\"a\": [], \"b\": [1, null], \"b\": [\"x\", \" \"]}".toList) =
    .coll .dict (.kcons ['b'] (.coll .list (.cons (.str ['x']) .nil)) .nil) := by decide +kernel

end Verif.Prune
