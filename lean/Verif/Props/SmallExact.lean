import Verif.Props.Params
import Verif.Props.Element
import Verif.Props.Operable
import Verif.Props.KeyMatch
import Verif.Props.Embedding
import Verif.Props.CreatePath
import Verif.Props.ToList
import Verif.Props.Event

set_option linter.unusedSectionVars false
set_option linter.unusedSimpArgs false
set_option linter.unusedVariables false

/-!
# Exactly when: C66, C78, C107, C108, C117, C118, C119, C122, C178, C179, C180, C191, C197

For properties that the code only meets partly: necessary and sufficient conditions.
-/

namespace Verif.Params

variable {φ ν : Type} [DecidableEq φ]

/-- C66, exactly: equal metadata entries whose values are not callable hash alike, whatever strings hash to, iff both values are hashable with
the same hash, or neither is hashable and their texts agree. -/
theorem C66_exact_partial (V : Values ν) (m m' : φ × ν) (hc : V.callable m.2 = false) (hc' : V.callable m'.2 = false)
    (h : metaEq V m m' = true) :
    (∀ strHash : List Char → Int, metaHashed V strHash m = metaHashed V strHash m') ↔
      ((∃ n, V.hash m.2 = some n ∧ V.hash m'.2 = some n) ∨ (V.hash m.2 = none ∧ V.hash m'.2 = none ∧ V.str m.2 = V.str m'.2)) := by
  have hk : m.1 = m'.1 := by
    simp only [metaEq] at h
    split at h
    · cases h
    · rename_i hk; exact Classical.not_not.1 hk
  simp only [metaHashed, hc, hc', Bool.false_eq_true, if_false]
  cases h1 : V.hash m.2 with
  | none =>
    cases h2 : V.hash m'.2 with
    | none =>
      simp only [hk, Prod.mk.injEq, true_and, reduceCtorEq, false_and, exists_false, false_or]
      refine ⟨fun hs => ?_, fun hs s => by rw [hs]⟩
      have := hs (fun t => if t = V.str m.2 then 1 else 0)
      simp only [if_true] at this
      by_cases e : V.str m'.2 = V.str m.2
      · exact e.symm
      · rw [if_neg e] at this; exact absurd this (by decide)
    | some n =>
      simp only [hk, Prod.mk.injEq, true_and, reduceCtorEq, false_and, exists_false, false_or, and_false, iff_false]
      intro hs
      have := hs (fun _ => n + 1)
      omega
  | some n =>
    cases h2 : V.hash m'.2 with
    | none =>
      simp only [hk, Prod.mk.injEq, true_and, reduceCtorEq, false_and, exists_false, or_false, and_false, iff_false]
      intro hs
      have := hs (fun _ => n + 1)
      omega
    | some k =>
      simp only [hk, Prod.mk.injEq, true_and, reduceCtorEq, false_and, or_false, Option.some.injEq]
      refine ⟨fun hs => ⟨n, rfl, (hs (fun _ => 0)).symm⟩, ?_⟩
      rintro ⟨j, rfl, rfl⟩ _
      rfl

example : metaEq demoValues ("k", LV.listInt) ("k", LV.listFloat) = true ∧ demoValues.callable LV.listInt = false ∧ demoValues.callable LV.listFloat = false := by decide

/-- C122, exactly: an attribute that is set and not updated reads the value that the dictionary form has for it; it is unchanged iff that is the value
itself. -/
theorem C122_exact_partial (cfg : Cfg ν) (keys : List φ) (hk : keys.Nodup) (a : Attrs φ ν) (kw : Dict φ ν) (hkw : kw.WF)
    {a' : Attrs φ ν} (h : withUpdates cfg keys a kw = .ok a') {k : φ} (hkk : k ∈ keys) (hm : k ∉ kw.keys) {v : ν} (hv : a.get? k = some v)
    (hs : cfg.sentinel v = false) (hund : cfg.undefined (cfg.norm v) = false) :
    a'.get? k = some (cfg.norm v) ∧ (a'.get? k = some v ↔ cfg.norm v = v) := by
  have key : a'.get? k = some (cfg.norm v) := by
    simp only [withUpdates, init] at h
    split at h
    · split at h
      · cases h
      · injection h with h
        subst h
        have hg : ((toDict cfg keys a).update kw).get? k = some (cfg.norm v) := by
          rw [Dict.get?_update hkw, (Dict.get?_eq_none_iff kw k).2 hm, get?_toDict]
          simp [value, hkk, hv, hs]
        rcases get?_prefill cfg keys ((toDict cfg keys a).update kw) k with e | ⟨e1, _, _⟩
        · rw [e, hg]
        · simp only [undefinedAttr, hg] at e1
          rw [hund] at e1; cases e1
    · cases h
  exact ⟨key, by rw [key, Option.some.injEq]⟩

end Verif.Params

namespace Verif.Element

/-- C78, exactly: what is accepted as a creation time has no time zone iff it is a text that is not a usable number and stands, in ISO format,
for a time without zone. -/
theorem C78_exact_partial (L : TimeLib) (v : TimeArg) (t : DateTime) (h : coerceCreatedAt L v = .ok t) :
    t.offset = none ↔
      ∃ s, v = .str s ∧ L.fromIso s = some t ∧ t.offset = none ∧ (∀ n, L.parseFloat s = some n → fromTimestamp L n = .error .valueError) := by
  constructor
  · intro ht
    cases v with
    | other => cases h
    | num n => simp only [coerceCreatedAt] at h; rw [fromTimestamp_aware h] at ht; cases ht
    | dt u =>
      simp only [coerceCreatedAt] at h
      split at h
      · rename_i hu
        cases h; rw [ht] at hu; cases hu
      · cases h; cases ht
    | str s =>
      have iso : coerceIso L s = .ok t → L.fromIso s = some t := by
        intro hi
        unfold coerceIso at hi
        cases he : L.fromIso s with
        | none => rw [he] at hi; cases hi
        | some u => rw [he] at hi; cases hi; rfl
      simp only [coerceCreatedAt, coerceStr] at h
      cases hp : L.parseFloat s with
      | none => rw [hp] at h; exact ⟨s, rfl, iso h, ht, fun n hn => by rw [hp] at hn; cases hn⟩
      | some n =>
        rw [hp] at h
        simp only at h
        cases hf : fromTimestamp L n with
        | ok u => rw [hf] at h; cases h; rw [fromTimestamp_aware hf] at ht; cases ht
        | error e =>
          rw [hf] at h
          cases e with
          | valueError => exact ⟨s, rfl, iso h, ht, fun k hk => by rw [hp] at hk; cases hk; exact hf⟩
          | _ => cases h
  · rintro ⟨_, _, _, ht, _⟩
    exact ht

end Verif.Element

namespace Verif.Operable

variable {σ ν : Type} [DecidableEq σ] [DecidableEq ν]

/-- C107, exactly: only names asked for are returned iff some name was asked for or there are no specs. -/
theorem C107_exact_partial (name : σ → Option ν) (specs : List σ) (h : make name specs = .ok specs) (inc : List ν) (r : List σ)
    (hr : getSpecs name specs (some inc) none = .ok r) : (∀ s ∈ r, ∃ k ∈ inc, name s = some k) ↔ (inc ≠ [] ∨ specs = []) := by
  by_cases hne : inc = []
  · subst hne
    have : r = specs := by
      simp [getSpecs] at hr
      exact hr.symm
    subst this
    simp only [List.not_mem_nil, false_and, exists_false, ne_eq, not_true_eq_false, false_or]
    cases r with
    | nil => simp
    | cons x xs => exact ⟨fun hf => (hf x List.mem_cons_self).elim, fun e => (by cases e)⟩
  · exact ⟨fun _ => Or.inl hne, fun _ s hs => C107_include_partial name specs h inc hne r hr s hs⟩

/-- C108, exactly: two calls with sets of names return the same sequence iff the sets are iterated in the same order. -/
theorem C108_exact_partial (name : σ → Option ν) (specs : List σ) (h : make name specs = .ok specs) (inc inc' : List ν) (hne : inc ≠ []) (hne' : inc' ≠ [])
    (r r' : List σ) (hr : getSpecs name specs (some inc) none = .ok r) (hr' : getSpecs name specs (some inc') none = .ok r') :
    r = r' ↔ inc = inc' := by
  constructor
  · intro e
    subst e
    have h1 := ((C65_include name specs h inc hne).2 r hr).1
    have h2 := ((C65_include name specs h inc' hne').2 r hr').1
    rw [h1] at h2
    exact (List.map_inj_right (fun _ _ e => Option.some.inj e)).1 h2
  · intro e
    subst e
    rw [hr] at hr'
    cases hr'; rfl

end Verif.Operable

namespace Verif.ToList

variable {α : Type}

/-- C118, exactly: without flattening and dropping, the elements that `func` is called with are those of the argument, in order and with repetitions,
whatever `input_unique` says; so every element is passed once iff the argument has no repetition. -/
theorem C118_exact_partial [DecidableEq (Val α)] (H : Hashing α) (inp : Opts) (keys : List (Val α)) (l : List (Val α)) (k : Kind)
    (hf : inp.flatten = false) (hd : inp.dropna = false) :
    (∃ m, lcallInput H inp keys (.seq k (ofList l)) = .ok m ∧ m.Nodup) ↔ l.Nodup := by
  rw [C58_plain_input H inp keys l k ⟨hf, hd⟩]
  refine ⟨?_, fun h => ⟨l, rfl, h⟩⟩
  rintro ⟨m, hm, hn⟩
  cases hm; exact hn

theorem uniqueDirect_none_iff (H : Hashing α) : ∀ (l out : List (Val α)), uniqueDirect H out l = none ↔ ∃ v ∈ l, H.hash v = none
  | [], out => by simp [uniqueDirect]
  | v :: vs, out => by
    simp only [uniqueDirect]
    cases hv : H.hash v with
    | none => simp [hv]
    | some n =>
      simp only [List.mem_cons, exists_eq_or_imp, hv, reduceCtorEq, false_or]
      split
      · exact uniqueDirect_none_iff H vs out
      · exact uniqueDirect_none_iff H vs _

theorem uniqueHash_error (H : Hashing α) : ∀ (l : List (Val α)) (seen : List Int) (out : List (Val α)),
    (∃ e, uniqueHash H seen out l = .error e) ↔ ∃ v ∈ l, H.hash v = none ∧ H.hashMap v = none
  | [], seen, out => by simp [uniqueHash]
  | v :: vs, seen, out => by
    simp only [uniqueHash, fallbackKey]
    cases hv : H.hash v with
    | none =>
      cases hm : H.hashMap v with
      | none => simp [hv, hm]
      | some n =>
        simp only [List.mem_cons, exists_eq_or_imp, hv, hm, reduceCtorEq, and_false, false_or]
        split
        · exact uniqueHash_error H vs _ _
        · exact uniqueHash_error H vs _ _
    | some n =>
      simp only [List.mem_cons, exists_eq_or_imp, hv, reduceCtorEq, false_and, false_or]
      split
      · exact uniqueHash_error H vs _ _
      · exact uniqueHash_error H vs _ _

/-- Removing duplicates fails iff some element is neither hashable nor a mapping (or model). -/
theorem unique_error (H : Hashing α) (l : List (Val α)) :
    (∃ e, unique H l = .error e) ↔ ∃ v ∈ l, H.hash v = none ∧ H.hashMap v = none := by
  simp only [unique]
  cases hd : uniqueDirect H [] l with
  | some out =>
    simp only [reduceCtorEq, exists_false, false_iff]
    rintro ⟨v, hv, h1, _⟩
    have := (uniqueDirect_none_iff H l []).2 ⟨v, hv, h1⟩
    rw [hd] at this
    cases this
  | none => exact uniqueHash_error H l [] []

/-- C179, exactly: when the function returns on everything and the options pass the validation, the call fails iff `output_unique` is set and either
`output_flatten` is not, or one of the leaves to be returned is neither hashable nor a mapping. -/
theorem C179_exact_partial (H : Hashing α) (inp out : Opts) (keys : List (Val α)) (x : Input α) (f : Val α → Call α) (g : Val α → Val α)
    {l : List (Val α)} (hl : lcallInput H inp keys x = .ok l) (hg : ∀ v ∈ l, f v = .returns (g v))
    (ho : out.unique = true → out.flatten = true ∨ out.dropna = true) (hv : ∀ v ∈ l, wf false (g v)) (huv : out.useValues = false) :
    (∃ e, lcall H inp out keys f x = .error e) ↔
      (out.unique = true ∧ (out.flatten = false ∨
        ∃ v ∈ (leaves out.fts (ofList (l.map g))).filter (fun v => !(out.dropna && isNa v)), H.hash v = none ∧ H.hashMap v = none)) := by
  by_cases hu : out.unique = true
  · by_cases hf : out.flatten = true
    · rw [C58_output H inp out keys x f g hl hg (fun _ => hf) hv huv, if_pos hu, unique_error]
      simp [hu, hf]
    · have hd : out.dropna = true := (ho hu).resolve_left hf
      have hf' : out.flatten = false := by simpa using hf
      have hc := callLoop_append f g l [] [] hg
      simp only [List.append_nil, List.nil_append, callLoop] at hc
      simp [lcall, hl, lcallRun, hc, lcallOutput, hu, hf', hd, toList]
  · rw [C58_output H inp out keys x f g hl hg (fun h => absurd h hu) hv huv, if_neg hu]
    have hu' : out.unique = false := by simpa using hu
    simp only [hu', Bool.false_eq_true, false_and, iff_false]
    rintro ⟨e, he⟩
    split at he
    · cases he
    · split at he
      · cases he
      · cases he

/-- C117, exactly: an interrupted call returns the results so far as they are, whatever the output options; so the options are respected iff applying
them to these results would change nothing. -/
theorem C117_exact_partial (H : Hashing α) (inp out : Opts) (keys : List (Val α)) (x : Input α) (f : Val α → Call α) (g : Val α → Val α)
    {pre post : List (Val α)} {v : Val α} (hl : lcallInput H inp keys x = .ok (pre ++ v :: post))
    (hg : ∀ w ∈ pre, f w = .returns (g w)) (hv : f v = .interrupted) (ho : out.unique = true → out.flatten = true ∨ out.dropna = true) :
    lcall H inp out keys f x = .ok (pre.map g) ∧
    (lcall H inp out keys f x = lcallOutput H out (pre.map g) ↔ lcallOutput H out (pre.map g) = .ok (pre.map g)) := by
  have hc := callLoop_append f g pre (v :: post) [] hg
  simp only [List.nil_append, callLoop, hv] at hc
  have key : lcall H inp out keys f x = .ok (pre.map g) := by
    simp only [lcall, hl, lcallRun, hc]
    rw [if_neg]
    cases h1 : out.unique with
    | false => simp
    | true => rcases ho h1 with h2 | h2 <;> simp [h2]
  exact ⟨key, by rw [key, @eq_comm _ _ (Except.ok (pre.map g))]⟩

end Verif.ToList

namespace Verif.KeyMatch

variable {κ ν : Type} [DecidableEq κ]

/-- What the modes ask for when no key is expected: to refuse, drop or keep the keys that are there. -/
def noKeys (m : Mode) (d : Dict κ ν) : Except Exc (Dict κ ν) → Prop := fun r =>
  (m = .raise → d ≠ [] → r = .error .valueError) ∧ (m = .raise → d = [] → r = .ok []) ∧
  (m = .remove ∨ m = .force → r = .ok []) ∧ (m = .ignore ∨ m = .fill → r = .ok d)

/-- C119, exactly: with no expected keys the modes do what they say iff the mode is one that keeps keys or there is no key. -/
theorem C119_exact_partial (c : Cfg κ ν) (d : Dict κ ν) :
    noKeys c.mode d (fuzzyMatchKeys c [] d) ↔ (c.mode = .ignore ∨ c.mode = .fill ∨ d = []) := by
  have hr : fuzzyMatchKeys c [] d = .ok d := rfl
  rw [hr]
  constructor
  · rintro ⟨h1, h2, h3, h4⟩
    by_cases hd : d = []
    · exact Or.inr (Or.inr hd)
    · cases hm : c.mode with
      | ignore => simp
      | fill => simp
      | raise => exact absurd (h1 hm hd) (by simp)
      | remove => exact absurd (h3 (Or.inl hm)) (by simpa using hd)
      | force => exact absurd (h3 (Or.inr hm)) (by simpa using hd)
  · rintro (h | h | h)
    · exact ⟨by simp [h], by simp [h], by simp [h], by simp⟩
    · exact ⟨by simp [h], by simp [h], by simp [h], by simp⟩
    · subst h; exact ⟨by simp, by simp, by simp, by simp⟩

/-- C180, exactly: no bin is empty iff the first string is shorter than the bound (or there is none). -/
theorem C180_exact_partial (lens : List Nat) (upper : Int) :
    (∀ b ∈ getBins lens upper, b ≠ []) ↔ (∀ len, lens.head? = some len → (len : Int) < upper) := by
  refine ⟨fun h len hl => ?_, C180_nonempty_partial lens upper⟩
  cases lens with
  | nil => cases hl
  | cons x xs =>
    cases hl
    apply Classical.byContradiction
    intro hn
    have hne : ¬ ((0 : Int) + len < upper) := by omega
    apply h [] ?_ rfl
    simp only [getBins, binLoop, if_neg hne]
    rw [binLoop_bins]
    simp

end Verif.KeyMatch

namespace Verif.Embedding

variable {τ : Type}

theorem toFloats_cases (L : Lib τ) (xs : List Scalar) (hn : xs.all Scalar.isNumber = true) :
    (∃ ys, toFloats L xs = .ok ys) ∨ (toFloats L xs = .error .overflowError ∧ ∃ n, .int n ∈ xs ∧ L.ofInt n = none) := by
  induction xs with
  | nil => exact Or.inl ⟨[], rfl⟩
  | cons x xs ih =>
    simp only [List.all_cons, Bool.and_eq_true] at hn
    have hx : (∃ y, toFloat L x = .ok y) ∨ (toFloat L x = .error .overflowError ∧ ∃ n, x = .int n ∧ L.ofInt n = none) := by
      cases x with
      | bool b => exact Or.inl ⟨_, rfl⟩
      | int n =>
        cases h : L.ofInt n with
        | none => exact Or.inr ⟨by simp only [toFloat, ofIntE, h], n, rfl, h⟩
        | some q => exact Or.inl ⟨.fin q, by simp only [toFloat, ofIntE, h]⟩
      | float x => exact Or.inl ⟨_, rfl⟩
      | other => simp [Scalar.isNumber] at hn
    rcases hx with ⟨y, hy⟩ | ⟨hy, n, rfl, h0⟩
    · rcases ih hn.2 with ⟨ys, hys⟩ | ⟨hys, n, hm, h0⟩
      · exact Or.inl ⟨y :: ys, by simp only [toFloats, hy, hys, consE]⟩
      · exact Or.inr ⟨by simp only [toFloats, hy, hys, consE], n, List.mem_cons_of_mem _ hm, h0⟩
    · exact Or.inr ⟨by simp only [toFloats, hy], n, List.mem_cons_self, h0⟩

/-- The argument is a list of numbers, or the text of one, with an int that does not fit a float. -/
def TooLarge (L : Lib τ) (v : Val τ) : Prop :=
  ∃ xs, Denotes L v xs ∧ xs.all Scalar.isNumber = true ∧ ∃ n, .int n ∈ xs ∧ L.ofInt n = none

theorem toFloats_tooLarge (L : Lib τ) {n : Int} (h0 : L.ofInt n = none) : ∀ (xs : List Scalar), .int n ∈ xs → ∀ ys, toFloats L xs ≠ .ok ys
  | [], h, _ => by cases h
  | x :: xs, h, ys => by
    intro he
    simp only [toFloats] at he
    rcases List.mem_cons.1 h with rfl | h
    · simp only [toFloat, ofIntE, h0] at he; cases he
    · cases hx : toFloat L x with
      | error e => rw [hx] at he; cases he
      | ok y =>
        rw [hx] at he
        cases ht : toFloats L xs with
        | ok zs => exact toFloats_tooLarge L h0 xs h zs ht
        | error e => rw [ht] at he; cases he

theorem validateList_exact (L : Lib τ) (w : Val τ) (e : Exc) (h : pydantic (validateList L w) = .error e) :
    (e = .validation ∧ ¬ ∃ xs, w = .list xs ∧ xs.all Scalar.isNumber = true ∧ ∃ n, .int n ∈ xs ∧ L.ofInt n = none) ∨
    (e = .overflowError ∧ ∃ xs, w = .list xs ∧ xs.all Scalar.isNumber = true ∧ ∃ n, .int n ∈ xs ∧ L.ofInt n = none) := by
  cases w with
  | none => simp only [validateList, pydantic, Except.error.injEq] at h; exact Or.inl ⟨h.symm, by rintro ⟨xs, hx, _⟩; cases hx⟩
  | text t => simp only [validateList, pydantic, Except.error.injEq] at h; exact Or.inl ⟨h.symm, by rintro ⟨xs, hx, _⟩; cases hx⟩
  | other => simp only [validateList, pydantic, Except.error.injEq] at h; exact Or.inl ⟨h.symm, by rintro ⟨xs, hx, _⟩; cases hx⟩
  | list xs =>
    cases xs with
    | nil =>
      simp only [validateList, pydantic, Except.error.injEq] at h
      exact Or.inl ⟨h.symm, by rintro ⟨xs, hx, _, n, hn, _⟩; cases hx; cases hn⟩
    | cons x xs =>
      simp only [validateList] at h
      split at h
      · rename_i hn
        rcases toFloats_cases L _ hn with ⟨ys, hys⟩ | ⟨hys, n, hm, h0⟩
        · rw [hys] at h; simp [pydantic] at h
        · rw [hys] at h
          simp only [pydantic, Except.error.injEq] at h
          exact Or.inr ⟨h.symm, _, rfl, hn, n, hm, h0⟩
      · rename_i hn
        simp only [pydantic, Except.error.injEq] at h
        exact Or.inl ⟨h.symm, by rintro ⟨ys, hx, hy, _⟩; cases hx; exact hn hy⟩

/-- C191, exactly: a refused embedding is refused with a ValidationError, except that a list of numbers with an int that does not fit a float is
refused with an OverflowError. -/
theorem C191_exact_partial (L : Lib τ) (v : Val τ) (e : Exc) (h : accept L v = .error e) :
    (e = .validation ↔ ¬ TooLarge L v) ∧ (e = .overflowError ↔ TooLarge L v) := by
  have key : (e = .validation ∧ ¬ TooLarge L v) ∨ (e = .overflowError ∧ TooLarge L v) := by
    cases v with
    | none => simp [accept, validate, pydantic] at h
    | other =>
      simp only [accept, validate, validateList, pydantic, Except.error.injEq] at h
      exact Or.inl ⟨h.symm, by rintro ⟨xs, hx, _⟩; exact hx⟩
    | list xs =>
      simp only [accept, validate] at h
      rcases validateList_exact L _ e h with ⟨he, hn⟩ | ⟨he, ys, hy, h1, h2⟩
      · exact Or.inl ⟨he, by rintro ⟨ys, hy, h2⟩; exact hn ⟨xs, rfl, by simp only [Denotes] at hy; rw [hy]; exact h2⟩⟩
      · cases hy; exact Or.inr ⟨he, xs, rfl, h1, h2⟩
    | text t =>
      simp only [accept, validate] at h
      cases hl : L.loads t with
      | none =>
        rw [hl] at h
        simp only [pydantic, Except.error.injEq] at h
        exact Or.inl ⟨h.symm, by rintro ⟨ys, hy, _⟩; simp only [Denotes] at hy; rw [hl] at hy; cases hy⟩
      | some w =>
        rw [hl] at h
        rcases validateList_exact L _ e h with ⟨he, hn⟩ | ⟨he, ys, hy, h1, h2⟩
        · refine Or.inl ⟨he, ?_⟩
          rintro ⟨ys, hy, h2⟩
          simp only [Denotes] at hy; rw [hl] at hy; cases hy
          exact hn ⟨ys, rfl, h2⟩
        · subst hy; exact Or.inr ⟨he, ys, hl, h1, h2⟩
  rcases key with ⟨rfl, hn⟩ | ⟨rfl, hy⟩
  · exact ⟨by simp [hn], by simp [hn]⟩
  · exact ⟨by simp [hy], by simp [hy]⟩

/-- A list of numbers with an int that does not fit is refused. -/
theorem C191_overflow_partial (L : Lib τ) (v : Val τ) (h : TooLarge L v) : accept L v = .error .overflowError := by
  cases ha : accept L v with
  | error e => rw [((C191_exact_partial L v e ha).2.2 h)]
  | ok r =>
    exfalso
    rcases h with ⟨xs, hd, hn, n, hm, h0⟩
    have key : ∀ w, w = Val.list xs → pydantic (validateList L w) ≠ .ok r := by
      rintro _ rfl he
      cases xs with
      | nil => cases hm
      | cons x xs =>
        simp only [validateList, if_pos hn] at he
        rcases toFloats_cases L _ hn with ⟨ys, hys⟩ | ⟨hys, _⟩
        · exact toFloats_tooLarge L h0 _ hm ys hys
        · rw [hys] at he; simp [pydantic] at he
    cases v with
    | none => exact hd
    | other => exact hd
    | list ys =>
      simp only [Denotes] at hd
      subst hd
      exact key _ rfl (by simpa only [accept, validate] using ha)
    | text t =>
      simp only [Denotes] at hd
      simp only [accept, validate, hd] at ha
      exact key _ rfl ha

example : TooLarge sampleLib (.list [.float (.fin 1), .int (2 ^ 1024)]) :=
  ⟨_, rfl, by decide, 2 ^ 1024, List.mem_cons_of_mem _ List.mem_cons_self, by decide +kernel⟩

end Verif.Embedding

namespace Verif.CreatePath

/-- C197, exactly: a filename is refused for its characters iff its last component has a backslash. -/
theorem C197_exact_partial (a : NameArgs) (dir : Path) (filename : Text) :
    (target a dir filename = .error .valueError ↔ '\\' ∈ Last filename) ∧ ((∃ p, target a dir filename = .ok p) ↔ '\\' ∉ Last filename) := by
  simp only [target, lastPart_eq]
  by_cases h : '\\' ∈ Last filename
  · simp [if_pos h, h]
  · simp [if_neg h, h]

end Verif.CreatePath

namespace Verif.Event

/-- C178, exactly: a fresh copy is never streaming, so it agrees with the original iff that is not streaming either. -/
theorem C178_exact_partial {ι ν ε α : Type} (again : ν → ν) (dflt : String → ν) (original : ι → Int → ν) (freshId : ι) (now : Int)
    (copyMeta : Bool) (ev : Ev ι ν ε α) :
    (asFresh again dflt original freshId now copyMeta ev).streaming = ev.streaming ↔ ev.streaming = false := by
  simp only [asFresh]
  exact eq_comm

end Verif.Event
