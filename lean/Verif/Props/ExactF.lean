import Verif.Props.FlowSerial
import Verif.Props.ProgressionApi
import Verif.Props.Queue
import Verif.Props.Element
import Verif.Props.Field
import Verif.Props.Spec
import Verif.Props.Fuzzy

/-!
# Exact conditions for partly met properties: C53, C124, C125, C130, C140, C157, C175, C176, C220
-/

set_option linter.unusedSectionVars false
set_option linter.unusedSimpArgs false
set_option linter.unusedVariables false

/-! ### C220 -/

namespace Verif.Progression

variable {ι : Type} [DecidableEq ι]

/-- C220, exactly: `p.extend(q)` (`none`: `q` is `p` itself) returns if and only if `q` is another progression or empty, and then the ids of `q` are added. -/
theorem C220_exact_partial (o : List ι) (q : Option (List ι)) :
    ((∃ n r, extendRun q n ⟨o, 0⟩ = .inr r) ↔ q ≠ none ∨ o = []) ∧ ∀ n r, extendRun q n ⟨o, 0⟩ = .inr r → r = o ++ q.getD o := by
  cases q with
  | some q =>
    refine ⟨⟨fun _ => Or.inl (by simp), fun _ => ?_⟩, ?_⟩
    · obtain ⟨n, h⟩ := (C220_other_partial o q).1
      exact ⟨n, _, h⟩
    · have gen : ∀ (n : Nat) (o : List ι) (k : Nat) (r : List ι), k ≤ q.length → extendRun (some q) n ⟨o, k⟩ = .inr r → r = o ++ q.drop k := by
        intro n
        induction n with
        | zero => intro o k r _ h; cases h
        | succ n ih =>
          intro o k r hk h
          simp only [extendRun, extendRound, Option.getD_some] at h
          by_cases hlt : k < q.length
          · rw [List.getElem?_eq_getElem hlt] at h
            simp only [Option.map_some] at h
            rw [ih _ _ _ (by omega) h, List.append_assoc, List.singleton_append, ← List.drop_eq_getElem_cons hlt]
          · rw [List.getElem?_eq_none (by omega)] at h
            simp only [Option.map_none] at h
            cases h
            rw [List.drop_eq_nil_of_le (by omega), List.append_nil]
      intro n r h
      exact gen n o 0 r (Nat.zero_le _) h
  | none =>
    by_cases ho : o = []
    · subst ho
      refine ⟨⟨fun _ => Or.inr rfl, fun _ => ⟨1, [], rfl⟩⟩, ?_⟩
      intro n r h
      cases n with
      | zero => cases h
      | succ n => cases h; rfl
    · have : ∀ n r, extendRun none n (⟨o, 0⟩ : Loop ι) ≠ .inr r := by
        intro n r h
        obtain ⟨o', h', _⟩ := C220_violation o ho n
        rw [h'] at h
        cases h
      exact ⟨⟨fun ⟨n, r, h⟩ => absurd h (this n r), fun h => absurd h (by simp [ho])⟩, fun n r h => absurd h (this n r)⟩

end Verif.Progression

/-! ### C140 -/

namespace Verif.Pile

/-- C140, exactly: the metadata come back unchanged through `Pile.from_dict` if and only if they already hold the class tag and, for a named pile, the progression
name; through `Element.from_dict` if and only if they hold no class tag and, for a named pile, already the progression name. -/
theorem C140_exact_partial {V : Type} (str : String → V) (cls : String) (pname : Option String) (m : Dict String V) (wf : m.WF) :
    ((∀ k, (metaIn (metaOut str cls pname m)).get? k = m.get? k) ↔
      m.get? "lion_class" = some (str cls) ∧ ∀ n, pname = some n → n ≠ "" → m.get? "progression_name" = some (str n)) ∧
    ((∀ k, (metaInElement (metaOut str cls pname m)).get? k = m.get? k) ↔
      m.get? "lion_class" = none ∧ ∀ n, pname = some n → n ≠ "" → m.get? "progression_name" = some (str n)) := by
  have ht : (truthyName pname = none ∧ ∀ n, pname = some n → n = "") ∨ ∃ n, truthyName pname = some n ∧ pname = some n ∧ n ≠ "" := by
    cases pname with
    | none => exact Or.inl ⟨rfl, fun n h => by cases h⟩
    | some n =>
      by_cases hn : n = ""
      · subst hn; exact Or.inl ⟨rfl, fun n h => by cases h; rfl⟩
      · exact Or.inr ⟨n, by simp [truthyName, hn], rfl, hn⟩
  rcases ht with ⟨h1, h2⟩ | ⟨n, h1, h2, h3⟩
  · simp only [metaIn, metaInElement, metaOut, h1]
    have hv : ∀ n, pname = some n → n ≠ "" → m.get? "progression_name" = some (str n) := fun n hn he => absurd (h2 n hn) he
    refine ⟨⟨fun H => ⟨?_, hv⟩, fun H k => ?_⟩, ⟨fun H => ⟨?_, hv⟩, fun H k => ?_⟩⟩
    · have := H "lion_class"
      rw [Dict.get?_set, if_pos rfl] at this
      exact this.symm
    · rw [Dict.get?_set]
      split
      · next e => rw [← e, H.1]
      · rfl
    · have := H "lion_class"
      rw [Dict.get?_del (Dict.set_wf wf _ _), if_pos rfl] at this
      exact this.symm
    · rw [Dict.get?_del (Dict.set_wf wf _ _)]
      split
      · next e => rw [← e, H.1]
      · next e => rw [Dict.get?_set, if_neg e]
  · simp only [metaIn, metaInElement, metaOut, h1]
    have hne : ¬ ("progression_name" = "lion_class") := by decide
    refine ⟨⟨fun H => ⟨?_, ?_⟩, fun H k => ?_⟩, ⟨fun H => ⟨?_, ?_⟩, fun H k => ?_⟩⟩
    · have := H "lion_class"
      rw [Dict.get?_set, if_neg hne, Dict.get?_set, if_pos rfl] at this
      exact this.symm
    · intro n' hn' _
      rw [h2] at hn'
      cases hn'
      have := H "progression_name"
      rw [Dict.get?_set, if_pos rfl] at this
      exact this.symm
    · rw [Dict.get?_set]
      split
      · next e => rw [← e, H.2 n h2 h3]
      · rw [Dict.get?_set]
        split
        · next e => rw [← e, H.1]
        · rfl
    · have := H "lion_class"
      rw [Dict.get?_del (Dict.set_wf (Dict.set_wf wf _ _) _ _), if_pos rfl] at this
      exact this.symm
    · intro n' hn' _
      rw [h2] at hn'
      cases hn'
      have := H "progression_name"
      rw [Dict.get?_del (Dict.set_wf (Dict.set_wf wf _ _) _ _), if_neg (by decide), Dict.get?_set, if_pos rfl] at this
      exact this.symm
    · rw [Dict.get?_del (Dict.set_wf (Dict.set_wf wf _ _) _ _)]
      split
      · next e => rw [← e, H.1]
      · next e0 =>
        rw [Dict.get?_set]
        split
        · next e => rw [← e, H.2 n h2 h3]
        · rw [Dict.get?_set, if_neg e0]

end Verif.Pile

/-! ### C157 -/

namespace Verif.Queue

variable {α : Type}

theorem closed_step (s : State α) (hr : s.recvOpen = false) (hw : s.receivers = []) (o : Op α) :
    received (step s o).2 = [] ∧ (step s o).1.recvOpen = false ∧ (step s o).1.receivers = [] := by
  cases o with
  | putNowait x => simp [step, putNowait, hr, hw, received]
  | put x => simp [step, put, hr, hw, received]
  | getNowait => simp [step, getNowait, hr, hw, received]
  | get => simp [step, get, hr, hw, received]
  | cancelPut k =>
    simp only [step, cancelPut]
    split <;> simp [hr, hw, received]
  | cancelGet k => simp [step, cancelGet, hr, hw, received]
  | closeSend => simp [step, closeSend, hr, hw, received]
  | closeRecv =>
    refine ⟨?_, rfl, hw⟩
    simp only [step, closeRecv]
    induction s.senders with
    | nil => rfl
    | cons p ps ih => simpa [received] using ih

theorem closed_run (os : List (Op α)) (s : State α) (hr : s.recvOpen = false) (hw : s.receivers = []) : received (run s os).2 = [] := by
  induction os generalizing s with
  | nil => rfl
  | cons o os ih =>
    obtain ⟨h1, h2, h3⟩ := closed_step s hr hw o
    simp only [run, received_append, h1, ih _ h2 h3, List.append_nil]

/-- C157, exactly: what is in the queue when `close()` is called can be received afterwards if and only if there is nothing. -/
theorem C157_exact_partial (n : Nat) (os : List (Op α)) (s : State α) (t : List (Ev α)) (hr : run (withMaxsize n) os = (s, t)) :
    (∃ later, received (run s (.closeSend :: .closeRecv :: later)).2 = pending t) ↔ pending t = [] := by
  have key : ∀ later, received (run s (.closeSend :: .closeRecv :: later)).2 = [] := by
    intro later
    have h1 : received (step s .closeSend).2 = [] := by simp only [step, closeSend, received_failed]
    have h2 : received (step (step s .closeSend).1 .closeRecv).2 = [] := by
      simp only [step, closeRecv, closeSend]
      induction s.senders with
      | nil => rfl
      | cons p ps ih => simpa [received] using ih
    simp only [run, received_append, h1, h2, List.nil_append]
    exact closed_run later _ rfl rfl
  constructor
  · rintro ⟨later, h⟩
    rw [key] at h
    exact h.symm
  · intro h
    exact ⟨[], by rw [key, h]⟩

end Verif.Queue

/-! ### C130 -/

namespace Verif.Element

variable {ι γ α φ : Type} [DecidableEq ι] [DecidableEq γ]

instance (W : World ι γ α φ) (k : List Char) (c : γ) : Decidable (Claims W k c) := by unfold Claims; infer_instance

/-- `c` is the last of these classes with property `p`. -/
def LastWith (p : γ → Prop) (cs : List γ) (c : γ) : Prop := ∃ l r, cs = l ++ c :: r ∧ p c ∧ ∀ x ∈ r, ¬ p x

theorem registered_iff (W : World ι γ α φ) (k : List Char) : ∀ (cs : List γ) (R : Registry γ) (c : γ),
    (cs.foldl (registerClass W) R).get? k = some c ↔ LastWith (Claims W k) cs c ∨ ((∀ x ∈ cs, ¬ Claims W k x) ∧ R.get? k = some c)
  | [], R, c => by
    refine ⟨fun h => Or.inr ⟨by simp, h⟩, ?_⟩
    rintro (⟨l, r, h, _⟩ | h)
    · exact absurd h (by simp)
    · exact h.2
  | c0 :: cs, R, c => by
    rw [List.foldl_cons, registered_iff W k cs]
    have hg : (registerClass W R c0).get? k = if Claims W k c0 then some c0 else R.get? k := by
      rw [get?_registerClass]
      by_cases h1 : W.module c0 ++ '.' :: W.name c0 = k
      · rw [if_pos h1, if_pos (show Claims W k c0 from Or.inl h1)]
      · by_cases h2 : W.name c0 = k
        · rw [if_neg h1, if_pos h2, if_pos (show Claims W k c0 from Or.inr h2)]
        · rw [if_neg h1, if_neg h2, if_neg (fun h => h.elim h1 h2)]
    rw [hg]
    constructor
    · rintro (⟨l, r, h1, h2, h3⟩ | ⟨h1, h2⟩)
      · exact Or.inl ⟨c0 :: l, r, by rw [h1]; rfl, h2, h3⟩
      · split at h2
        · next hc => cases h2; exact Or.inl ⟨[], cs, rfl, hc, h1⟩
        · next hc => exact Or.inr ⟨fun x hx => (List.mem_cons.1 hx).elim (fun e => e ▸ hc) (h1 x), h2⟩
    · rintro (⟨l, r, h1, h2, h3⟩ | ⟨h1, h2⟩)
      · cases l with
        | nil =>
          rw [List.nil_append, List.cons.injEq] at h1
          obtain ⟨rfl, rfl⟩ := h1
          exact Or.inr ⟨h3, by rw [if_pos h2]⟩
        | cons a l =>
          rw [List.cons_append, List.cons.injEq] at h1
          exact Or.inl ⟨l, r, h1.2, h2, h3⟩
      · exact Or.inr ⟨fun x hx => h1 x (List.mem_cons_of_mem _ hx), by rw [if_neg (h1 c0 List.mem_cons_self)]; exact h2⟩

/-- C130, exactly: the tag of a class nested in another one leads back to it if and only if it is the last class whose short or full name is the tag, or no class has
that name and it is the last one whose short or full name is the last part of the tag. -/
theorem C130_exact_partial (W : World ι γ α φ) (cs : List γ) (c : γ) (o n : List Char) (hn : '.' ∉ n) (hb : '[' ∉ o ++ '.' :: n) (hq : W.qualname c = o ++ '.' :: n) :
    lookupTag (registerAll W cs) (fullName W c) = some c ↔
      LastWith (Claims W (fullName W c)) cs c ∨ ((∀ x ∈ cs, ¬ Claims W (fullName W c) x) ∧ LastWith (Claims W n) cs c) := by
  have hf : fullName W c = (W.module c ++ '.' :: o) ++ '.' :: n := by
    unfold fullName
    rw [hq, stripGeneric_eq _ hb]; simp
  have hr : (rsplit (fullName W c)).2 = n := by rw [hf, rsplit_append _ _ hn]
  have key : ∀ k d, (registerAll W cs).get? k = some d ↔ LastWith (Claims W k) cs d := by
    intro k d
    unfold registerAll
    rw [registered_iff]
    simp
  unfold lookupTag
  rw [hr]
  cases h : (registerAll W cs).get? (fullName W c) with
  | some d =>
    have hd := (key _ d).1 h
    constructor
    · intro e
      cases e
      exact Or.inl hd
    · rintro (h' | ⟨h', _⟩)
      · rw [← (key _ c).2 h', h]
      · obtain ⟨l, r, e1, e2, _⟩ := hd
        exact absurd e2 (h' d (by rw [e1]; simp))
  | none =>
    simp only []
    rw [key]
    have hno : ∀ x ∈ cs, ¬ Claims W (fullName W c) x := by
      have gen : ∀ (cs : List γ) (R : Registry γ), (cs.foldl (registerClass W) R).get? (fullName W c) = none → ∀ x ∈ cs, ¬ Claims W (fullName W c) x := by
        intro cs
        induction cs with
        | nil => intro R _ x hx; cases hx
        | cons c0 cs ih =>
          intro R hR
          have ih' := ih (registerClass W R c0) hR
          intro x hx
          rcases List.mem_cons.1 hx with rfl | hx
          · intro hc
            have : (cs.foldl (registerClass W) (registerClass W R x)).get? (fullName W c) = some x := by
              refine (registered_iff W _ cs _ x).2 (Or.inr ⟨ih', ?_⟩)
              rw [get?_registerClass]
              rcases hc with h | h
              · rw [if_pos h]
              · split
                · rfl
                · first | rfl | rw [if_pos h]
            rw [List.foldl_cons] at hR
            rw [this] at hR
            cases hR
          · exact ih' x hx
      exact gen cs [] h
    constructor
    · intro h'; exact Or.inr ⟨hno, h'⟩
    · rintro (⟨l, r, e1, e2, _⟩ | h')
      · exact absurd e2 (hno c (by rw [e1]; simp))
      · exact h'.2

end Verif.Element

/-! ### C124, C125 -/

namespace Verif.Spec

variable {ν τ : Type}

/-- C124, exactly: `annotated()` is right for a spec after every history if and only if every spec whose cache key equals its own has the same annotated type. -/
theorem C124_exact_partial (V : Values ν) (keq : Spec ν τ → Spec ν τ → Bool) (maxSize : Nat) (hm : 0 < maxSize) (s : Spec ν τ) :
    (∀ hist, (annotated V keq maxSize (afterCalls V keq maxSize hist) s).1 = fresh V s) ↔ ∀ s', keq s' s = true → fresh V s' = fresh V s := by
  constructor
  · intro H s' hk
    have h := H [s']
    have hc : afterCalls V keq maxSize [s'] = [(s', fresh V s')] := by
      simp only [afterCalls, List.foldl_cons, List.foldl_nil, annotated, List.find?_nil, List.nil_append, evict, List.length_cons, List.length_nil]
      rw [show 0 + 1 - maxSize = 0 by omega]
      rfl
    rw [hc] at h
    simp only [annotated, List.find?_cons, hk] at h
    exact h
  · intro H hist
    unfold annotated
    cases hf : (afterCalls V keq maxSize hist).find? (fun e => keq e.1 s) with
    | none => rfl
    | some e =>
      simp only []
      rw [cache_entries V keq maxSize hist e (List.mem_of_find?_eq_some hf)]
      exact H e.1 (List.find?_some (p := fun e : Spec ν τ × (Ty τ × Metas ν) => keq e.1 s) hf)

/-- C125, exactly: for a spec with a base type the two types agree if and only if it is not listable and its `nullable` entry, if any, is truthy only if it is `True`. -/
theorem C125_exact_partial (V : Values ν) (s : Spec ν τ) (t : τ) (hb : s.base = some t) (hwf : (s.metas.map Prod.fst).Nodup) :
    (fresh V s).1 = annotation V s ↔ flag V s .listable = false ∧ ∀ v, get s.metas .nullable = some v → V.truthy v = V.isTrue v := by
  constructor
  · intro h
    have hany : s.metas.any (fun m => decide (m.1 = .nullable) && V.truthy m.2) = (get s.metas .nullable).any V.truthy := by
      rw [Bool.eq_iff_iff, List.any_eq_true]
      constructor
      · rintro ⟨m, hm, h⟩
        simp only [Bool.and_eq_true, decide_eq_true_eq] at h
        have : get s.metas .nullable = some m.2 := Dict.get?_of_mem hwf (by rw [← h.1]; exact hm)
        simp only [this, Option.any_some]
        exact h.2
      · intro h
        cases hg : get s.metas .nullable with
        | none => rw [hg] at h; simp at h
        | some v =>
          rw [hg] at h
          simp only [Option.any_some] at h
          exact ⟨(.nullable, v), Dict.mem_of_get? hg, by simp [h]⟩
    have hfl : ∀ v, get s.metas .nullable = some v → flag V s .nullable = V.isTrue v := fun v hv => by simp only [flag, hv, Option.any_some]
    simp only [fresh, annotation, hb, baseTy, hany, applyIf] at h
    cases hl : flag V s .listable with
    | true =>
      simp only [hl, if_true] at h
      exfalso
      revert h
      cases (get s.metas .nullable).any V.truthy <;> cases flag V s .nullable <;> simp
    | false =>
      simp only [hl, Bool.false_eq_true, if_false] at h
      refine ⟨rfl, fun v hv => ?_⟩
      have ha : (get s.metas .nullable).any V.truthy = V.truthy v := by rw [hv]; rfl
      rw [← hfl v hv, ← ha]
      revert h
      cases (get s.metas .nullable).any V.truthy <;> cases flag V s .nullable <;> simp
  · rintro ⟨hl, hn⟩
    exact C125_agree_partial V s t hb hwf hl hn

end Verif.Spec

/-! ### C175, C176 -/

namespace Verif.Field

open Verif.Spec

variable {ν τ : Type}

/-- C175, exactly, for a spec without `json_schema_extra`: a further entry reaches the field if and only if `Field` has a parameter of that name or its value is no type. -/
theorem C175_exact_partial (W : Values ν) (M : More ν) (P : Key → Bool) (hP : ∀ k, P k = true → ¬ Common k ∧ k ≠ extraKey)
    (s : Spec ν τ) (hn : (s.metas.map Prod.fst).Nodup) (he : get s.metas extraKey = none) (f : FieldInfo ν τ) (h : createField W M P s = .ok f)
    (k : Key) (hk : ¬ Common k) (v : ν) (hv : get s.metas k = some v) :
    (f.params.get? k = some v ∨ extraGet f.extra k = some v) ↔ P k = true ∨ M.isType v = false := by
  unfold createField at h
  split at h
  · cases h
  · injection h with h
    subst h
    simp only [collect]
    rw [fold_params W M P hP s.metas .empty hn k, fold_extra W M P s.metas .empty hn ((Dict.get?_eq_none_iff _ _).1 he) k, hv]
    have hm : k ∈ s.metas.map Prod.fst := Dict.mem_keys_of_get? hv
    by_cases hp : P k = true
    · simp [hp, hm]
    · cases ht : M.isType v with
      | true => simp [hp, ht, Acc.empty, extraGet]
      | false => simp [hp, ht, hk, Acc.empty, extraGet]

theorem set_same {κ ν : Type} [DecidableEq κ] (d : Dict κ ν) (k : κ) (v : ν) (h : d.get? k = some v) : d.set k v = d := by
  induction d with
  | nil => cases h
  | cons kv d ih =>
    obtain ⟨k', v'⟩ := kv
    rw [Dict.get?_cons] at h
    rw [Dict.set]
    split at h
    · next e => cases h; subst e; simp
    · next e => rw [if_neg e, ih h]

theorem fold_keep' (W : Values ν) (M : More ν) (P : Key → Bool) (d : Dict Key ν) : ∀ (ms : Metas ν) (a : Acc ν), a.extra = some d → extraKey ∉ ms.map Prod.fst →
    (∀ m ∈ ms, Common m.1 ∨ P m.1 = true ∨ M.isType m.2 = true ∨ d.get? m.1 = some m.2) → (ms.foldl (step W M P) a).extra = some d
  | [], a, ha, _, _ => ha
  | (k, v) :: ms, a, ha, he, h => by
    simp only [List.map_cons, List.mem_cons, not_or] at he
    rw [List.foldl_cons]
    refine fold_keep' W M P d ms _ ?_ he.2 (fun m hm => h m (List.mem_cons_of_mem _ hm))
    rw [step_extra W M P a k v (fun e => he.1 e.symm)]
    split
    · exact ha
    · next hc =>
      rcases h (k, v) List.mem_cons_self with h' | h' | h' | h'
      · exact absurd (Or.inl h') hc
      · exact absurd (Or.inr (Or.inl h')) hc
      · exact absurd (Or.inr (Or.inr h')) hc
      · rw [ha, Option.getD_some, set_same d k v h']

theorem fold_shared (W : Values ν) (M : More ν) (P : Key → Bool) : ∀ (ms : Metas ν) (a : Acc ν), extraKey ∉ ms.map Prod.fst → (ms.foldl (step W M P) a).shared = a.shared := by
  intro ms
  induction ms with
  | nil => intro a _; rfl
  | cons m ms ih =>
    intro a he
    simp only [List.map_cons, List.mem_cons, not_or] at he
    rw [List.foldl_cons, ih _ he.2]
    unfold step
    rw [if_neg (c := m.1 = extraKey) (fun e => he.1 e.symm)]
    repeat' split
    all_goals rfl

/-- C176, exactly: the dict given as `json_schema_extra` stays as it is if and only if every entry after it is a common one, a parameter, a type, or in the dict already. -/
theorem C176_exact_partial (W : Values ν) (M : More ν) (P : Key → Bool) (s : Spec ν τ) (ms ms' : Metas ν) (v : ν)
    (hs : s.metas = ms ++ (extraKey, v) :: ms') (hn : (s.metas.map Prod.fst).Nodup) :
    extraAfter W M P s = some (M.entries v) ↔
      ∀ m ∈ ms', Common m.1 ∨ P m.1 = true ∨ M.isType m.2 = true ∨ Dict.get? (M.entries v) m.1 = some m.2 := by
  rw [hs, List.map_append, List.map_cons] at hn
  have hn2 := List.nodup_cons.1 (List.nodup_append.1 hn).2.1
  have he := hn2.1
  have hst : ∀ a : Acc ν, step W M P a (extraKey, v) = { a with extra := some (M.entries v), shared := true } := by
    intro a
    unfold step
    simp [extraKey]
  unfold extraAfter collect
  rw [hs, List.foldl_append, List.foldl_cons, hst, fold_shared W M P ms' _ he, if_pos rfl]
  constructor
  · intro h m hm
    have hg : get ms' m.1 = some m.2 := Dict.get?_of_mem hn2.2 hm
    have hf := fold_extra W M P ms' { (ms.foldl (step W M P) .empty) with extra := some (M.entries v), shared := true } hn2.2 he m.1
    rw [h, hg] at hf
    simp only [extraGet, Option.getD_some] at hf
    by_cases hc : M.isType m.2 = true ∨ Common m.1 ∨ P m.1 = true
    · rcases hc with h | h | h
      · exact Or.inr (Or.inr (Or.inl h))
      · exact Or.inl h
      · exact Or.inr (Or.inl h)
    · rw [if_neg hc] at hf
      exact Or.inr (Or.inr (Or.inr hf))
  · intro h
    exact fold_keep' W M P (M.entries v) ms' _ rfl he h

end Verif.Field

/-! ### C53 -/

namespace Verif.Fuzzy

open Verif.Parser (Str OutVal)
open Verif.Resolver (Ext Spec Output)

variable {ν κ μ : Type}

theorem fixOut_keys (env : Env) (th : Thresholds) (names : List Str) : ∀ (l : List (Str × OutVal)) (d d' : Dict Str OutVal), fixOut env th names l d = .ok d' →
    d'.keys.length ≤ d.keys.length + l.length ∧
    (d'.keys.length = d.keys.length + l.length ↔
      (l.Pairwise (fun a b => correctName env.lower env.score th.spec a.1 names ≠ correctName env.lower env.score th.spec b.1 names)) ∧
      ∀ kv ∈ l, ∀ k', correctName env.lower env.score th.spec kv.1 names = .ok k' → k' ∉ d.keys)
  | [], d, d', h => by rw [fixOut] at h; cases h; simp
  | (k, v) :: r, d, d', h => by
    rw [fixOut] at h
    split at h
    · cases h
    · next k' hk' =>
      obtain ⟨h1, h2⟩ := fixOut_keys env th names r (d.set k' v) d' h
      rw [Dict.keys_set] at h1 h2
      rw [List.length_cons]
      by_cases hm : k' ∈ d.keys
      · rw [if_pos hm] at h1 h2
        refine ⟨by omega, fun e => by omega, fun hh => ?_⟩
        exact absurd hm (hh.2 (k, v) List.mem_cons_self k' hk')
      · rw [if_neg hm] at h1 h2
        rw [List.length_append, List.length_singleton] at h1 h2
        refine ⟨by omega, ?_⟩
        rw [show d.keys.length + (r.length + 1) = d.keys.length + 1 + r.length by omega, h2, List.pairwise_cons]
        constructor
        · rintro ⟨a1, a2⟩
          refine ⟨⟨fun b hb e => ?_, a1⟩, ?_⟩
          · refine a2 b hb k' ?_ (by simp)
            rw [← e]; exact hk'
          · intro kv hkv j hj
            rcases List.mem_cons.1 hkv with rfl | hkv
            · rw [hk'] at hj; cases hj; exact hm
            · exact fun hd => a2 kv hkv j hj (by simp [hd])
        · rintro ⟨⟨a1, a2⟩, a3⟩
          refine ⟨a2, fun kv hkv j hj hd => ?_⟩
          rw [List.mem_append, List.mem_singleton] at hd
          rcases hd with hd | rfl
          · exact a3 kv (List.mem_cons_of_mem _ hkv) j hj hd
          · exact a1 kv hkv (hk'.trans hj.symm)

/-- C53, exactly: with correction, the result has as many fields as the OUT block if and only if no two of its names are corrected to one. -/
theorem C53_exact_partial (env : Env) (ext : Ext ν κ μ) (th : Thresholds) (hm : th.main < 1) (specs : List Spec) (names : List Str) (x : Fixed) (o : Output ν κ μ)
    (h : fuzzyCore env ext th specs names x = .ok o) :
    o.fields.keys.length = x.out.length ↔
      x.out.Pairwise (fun a b => correctName env.lower env.score th.spec a.1 names ≠ correctName env.lower env.score th.spec b.1 names) := by
  unfold fuzzyCore at h
  rw [if_neg (by grind)] at h
  split at h
  · cases h
  · next y hy =>
    have hr := runStrict_ok h
    obtain ⟨out1, h1, h2⟩ := correctAll_out hy
    have hwf1 := (fixOut_spec env th names x.out [] out1 (by simp [Dict.WF]) h1).1
    have hywf : y.out.WF := by unfold Dict.WF; rw [h2]; exact hwf1
    have hk := (Resolver.C50_sound ext y.out hywf y.lvars y.lacts specs o hr).2.2.2.2.1
    rw [hk, h2]
    have := (fixOut_keys env th names x.out [] out1 h1).2
    simpa using this

end Verif.Fuzzy
