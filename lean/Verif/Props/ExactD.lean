import Verif.Props.Event
import Verif.Props.Broadcaster
import Verif.Props.EventBus
import Verif.Props.CallArgs
import Verif.Props.Params
import Verif.Props.TypeScript

/-!
# Exact conditions for partly met properties of events, buses, call arguments, parameter classes and schema texts
-/

set_option linter.unusedSectionVars false
set_option linter.unusedSimpArgs false
set_option linter.unusedVariables false

namespace Verif.Event

variable {τ ε α : Type} [DecidableEq τ]

/-- The exception itself (if it is no group), or a direct member of the group, is marked non-retryable. -/
def Direct (heap : ε → ExcObj ε) (e : ε) : Prop :=
  ((heap e).group = none ∧ NonRetryable heap e) ∨ ∃ ms m, (heap e).group = some ms ∧ m ∈ ms ∧ NonRetryable heap m

theorem failedRetryable_iff (heap : ε → ExcObj ε) (e : ε) : failedRetryable heap e = false ↔ Direct heap e := by
  unfold failedRetryable Direct NonRetryable
  cases hg : (heap e).group with
  | none =>
    cases hl : (heap e).lion with
    | none => simp
    | some b => simp
  | some ms =>
    simp only [Bool.not_eq_false', List.any_eq_true, nonRetryableLion, beq_iff_eq, reduceCtorEq, false_and, false_or]
    constructor
    · rintro ⟨m, hm, hr⟩; exact ⟨ms, m, rfl, hm, hr⟩
    · rintro ⟨ms', m, h, hm, hr⟩; injection h with h; subst h; exact ⟨m, hm, hr⟩

/-- C23, exactly: after a failed `invoke()`, whatever the exception, `retryable` is `False` exactly when the exception itself (no group) or a direct member of the group
is marked non-retryable.  So the claim — `False` exactly when some exception in it is so marked — holds exactly for the exceptions in which a marked exception at any
depth implies one at the top level. -/
theorem C23_exact_partial (heap : ε → ExcObj ε) (as : List (Act τ ε α)) (t : τ) (e : ε)
    (hf : (t, .raise e) ∈ finishes (run heap ({} : Sys τ ε α) as).log) (hx : (heap e).isTimeout = false ∧ (heap e).isException = true) :
    ((run heap ({} : Sys τ ε α) as).exec.retryable = some false ↔ Direct heap e) ∧
    ((run heap ({} : Sys τ ε α) as).exec.retryable = some true ↔ ¬ Direct heap e) ∧
    (((run heap ({} : Sys τ ε α) as).exec.retryable = some false ↔ ∃ x, Under heap e x ∧ NonRetryable heap x) ↔
      ((∃ x, Under heap e x ∧ NonRetryable heap x) → Direct heap e)) := by
  have key : (run heap ({} : Sys τ ε α) as).exec.retryable = some (failedRetryable heap e) := by
    cases (run_inv heap as (inv_init heap)).phase with
    | fresh h1 h2 h3 h4 h5 => rw [h3] at hf; cases hf
    | running u st h1 h2 h3 h4 h5 h6 => rw [h3] at hf; cases hf
    | ended u o' el h1 h2 h3 h4 h5 =>
      rw [h3] at hf
      simp only [List.mem_singleton, Prod.mk.injEq] at hf
      obtain ⟨rfl, rfl⟩ := hf
      rw [h1]; simp [settle, handle, hx.1, hx.2, onException]
  have h1 : (run heap ({} : Sys τ ε α) as).exec.retryable = some false ↔ Direct heap e := by
    rw [key, ← failedRetryable_iff]; simp
  have h2 : Direct heap e → ∃ x, Under heap e x ∧ NonRetryable heap x := by
    rintro (⟨_, h⟩ | ⟨ms, m, hg, hm, h⟩)
    · exact ⟨e, .self e, h⟩
    · exact ⟨m, .member hg hm (.self m), h⟩
  refine ⟨h1, ?_, ?_⟩
  · rw [key, ← failedRetryable_iff]; simp
  · rw [h1]
    exact ⟨fun h => h.2, fun h => ⟨h2, h⟩⟩

/-- A group with a marked exception one level down, and a marked one at the top: the claim holds. -/
example :
    let heap : Nat → ExcObj Nat := fun
      | 0 => { cls := "ExceptionGroup", text := "outer", group := some [1, 2] }
      | 1 => { cls := "ExceptionGroup", text := "inner", group := some [2] }
      | _ => { cls := "ValidationError", text := "bad", lion := some false }
    (run heap ({} : Sys Nat Nat Unit) [.call 0, .acquire 0, .enter 0 0, .finish 0 1 (.raise 0)]).exec.retryable = some false := by decide

end Verif.Event

namespace Verif.Broadcaster

/-- C38, exactly: after any history, a callback newly subscribed on class `d` is called by the next broadcast of class `c` exactly when the two classes share the list
(attribute lookup of the subscriber list ends at the same class), unless it was already subscribed there. -/
theorem C38_exact_partial (owner : Nat → Nat) (eqv : Nat → Nat → Bool) (ops : List Op) (c d h : Nat) (beh : Cb → Behaviour)
    (hb : ∀ x, beh x ≠ .aborts) (ha : alive (run owner eqv {} ops).1 (.plain h) = true)
    (hn : ∀ cs b, (step owner eqv (run owner eqv {} ops).1 (.broadcast c true beh)).2 = .called cs b → Cb.plain h ∉ cs) :
    (∃ cs b, (step owner eqv (step owner eqv (run owner eqv {} ops).1 (.subscribe d (.plain h))).1 (.broadcast c true beh)).2 = .called cs b ∧ Cb.plain h ∈ cs) ↔
      owner c = owner d := by
  generalize (run owner eqv {} ops).1 = b at *
  have hd : ∀ l, deliver beh l = (l, true) := fun l => deliver_all (fun x _ => hb x)
  have hn' : Cb.plain h ∉ (b.lists (owner c)).filter (alive b) := by
    apply hn _ true
    simp only [step, if_true, cleanup, hd]
  constructor
  · rintro ⟨cs, fl, he, hm⟩
    by_cases e : owner c = owner d
    · exact e
    · exfalso
      rw [C38_isolated_partial owner eqv b c d e _ (Or.inl ⟨_, rfl⟩)] at he
      exact hn _ _ he hm
  · intro e
    have hs : (b.lists (owner d)).any (fun r => alive b r && isSame r (.plain h)) = false := by
      rw [List.any_eq_false]
      intro x hx hc
      cases x with
      | method o f => simp [isSame] at hc
      | plain a =>
        simp only [isSame, Bool.and_eq_true, beq_iff_eq] at hc
        obtain ⟨h1, rfl⟩ := hc
        exact hn' (List.mem_filter.2 ⟨e ▸ hx, h1⟩)
    refine ⟨((b.lists (owner c)) ++ [Cb.plain h]).filter (alive b), true, ?_, ?_⟩
    · simp only [step, if_true, cleanup, ha, subscribe, hs, Bool.false_eq_true, if_false, hd]
      have : alive (setList b (owner d) (b.lists (owner d) ++ [Cb.plain h])) = alive b := alive_congr rfl
      rw [this]
      simp [setList, e]
    · rw [List.mem_filter]
      exact ⟨by simp, ha⟩

/-- Classes 1 and 2 share the list of class 0, class 3 has its own. -/
example : (run (fun c => if c = 3 then 3 else 0) byId {} [.subscribe 1 (.plain 7), .broadcast 2 true (fun _ => .returns), .broadcast 3 true (fun _ => .returns)]).2 =
    [.unit, .called [.plain 7] true, .called [] true] := by decide

/-- The class whose `_instance` is found first. -/
def Declares (own : Nat → Attr) (l : List Nat) (a : Nat) : Prop :=
  ∃ pre post, l = pre ++ a :: post ∧ own a ≠ .missing ∧ ∀ x ∈ pre, own x = .missing

theorem lookup_declares {own : Nat → Attr} {a : Nat} : ∀ {l : List Nat}, Declares own l a → lookup own l = own a
  | l, ⟨[], post, hl, ha, _⟩ => by subst hl; simp [lookup, ha]
  | l, ⟨x :: pre, post, hl, ha, hp⟩ => by
    subst hl
    simp only [List.cons_append, lookup, if_pos (hp x List.mem_cons_self)]
    exact lookup_declares ⟨pre, post, rfl, ha, fun y hy => hp y (List.mem_cons_of_mem _ hy)⟩

/-- C99, exactly: after any constructions, constructing a class returns an instance of that class exactly when the class that holds the `_instance` found for it is the class
itself, or holds `None`. -/
theorem C99_exact_partial (mro : Nat → List Nat) (s0 : Insts) (g : Good s0) (before : List Nat) (c a : Nat)
    (hd : Declares (constructs mro s0 before).1.own (mro c) a) :
    (∃ n, (construct mro (constructs mro s0 before).1 c).2 = .inst c n) ↔ (a = c ∨ (constructs mro s0 before).1.own a = .none_) := by
  have hg : ∀ (l : List Nat) (s : Insts), Good s → Good (constructs mro s l).1 := by
    intro l
    induction l with
    | nil => intro s h; exact h
    | cons x l ih => intro s h; exact ih _ (construct_good h x)
  have g' := hg before s0 g
  generalize (constructs mro s0 before).1 = s at *
  have hl := lookup_declares hd
  have hne : s.own a ≠ .missing := by obtain ⟨_, _, _, h, _⟩ := hd; exact h
  unfold construct
  rw [hl]
  cases ho : s.own a with
  | missing => exact absurd ho hne
  | none_ => simp
  | inst d n =>
    obtain ⟨rfl, _⟩ := g'.own a d n ho
    simp

/-- The base class constructed first: its instance is found for the subclass 1, so 1 never gets one of its own; subclass 2 declares its own attribute and does. -/
example :
    let mro : Nat → List Nat := fun c => if c = 0 then [0] else [c, 0]
    let s : Insts := { own := fun c => if c = 0 ∨ c = 2 then .none_ else .missing }
    (constructs mro s [0, 1, 2]).2 = [.inst 0 0, .inst 0 0, .inst 2 1] := by decide

end Verif.Broadcaster

namespace Verif.EventBus

/-- C97, exactly: after any history, `emit` runs every live handler of the topic once and does not raise exactly when no call of a live handler raises at once; otherwise it raises
and runs none. -/
theorem C97_exact_partial {eqv : Nat → Nat → Bool} (hid : ∀ x y, eqv x y = true → x = y) (ops : List Op) (t : String) (beh : Nat → Behaviour) :
    ((emit (run eqv {} ops).1 beh t).2 = .ran ((({} : Spec).after ops).live t) ↔ ∀ h ∈ (({} : Spec).after ops).live t, beh h ≠ .raises) ∧
    ((emit (run eqv {} ops).1 beh t).2 = .raised ↔ ∃ h ∈ (({} : Spec).after ops).live t, beh h = .raises) := by
  by_cases hx : ∃ h ∈ (({} : Spec).after ops).live t, beh h = .raises
  · obtain ⟨h, hm, hr⟩ := hx
    have := C97_call_raises_violation hid ops t beh h hm hr
    refine ⟨⟨fun h' => ?_, fun h' => absurd hr (h' h hm)⟩, ⟨fun _ => ⟨h, hm, hr⟩, fun _ => this⟩⟩
    rw [this] at h'; cases h'
  · have hb : ∀ h ∈ (({} : Spec).after ops).live t, beh h = .awaitable := by
      intro h hm
      cases hbh : beh h with
      | awaitable => rfl
      | raises => exact absurd ⟨h, hm, hbh⟩ hx
    have := C35_delivery hid ops t beh hb
    refine ⟨⟨fun _ h hm hr => hx ⟨h, hm, hr⟩, fun _ => this⟩, ⟨fun h' => ?_, fun h' => absurd h' hx⟩⟩
    rw [this] at h'; cases h'

example : (run (fun x y => x == y) {} [.subscribe "a" 1, .subscribe "a" 2, .emit (fun h => if h = 2 then .raises else .awaitable) "a"]).2 = [.unit, .unit, .raised] := by decide

theorem removeRef_split (b : Bus) (eqv : Nat → Nat → Bool) (h : Nat) (ha : alive b h = true) (post : List Nat) : ∀ pre : List Nat, h ∉ pre →
    (removeRef b eqv h (pre ++ h :: post) = pre ++ post ↔ ∀ r ∈ pre, ¬ (alive b r = true ∧ eqv r h = true))
  | [], _ => by simp [removeRef]
  | r :: pre, hn => by
    have hr : ¬ r = h := fun e => hn (by simp [e])
    have hp : h ∉ pre := fun hm => hn (by simp [hm])
    simp only [List.cons_append, removeRef, ha, true_and, hr, false_or, List.mem_cons, forall_eq_or_imp]
    by_cases hc : alive b r = true ∧ eqv r h = true
    · rw [if_pos hc]
      constructor
      · intro e
        exfalso
        have := congrArg (List.count h) e
        rw [List.count_append, List.count_cons_self, List.count_cons_of_ne hr, List.count_append] at this
        omega
      · intro h'; exact absurd hc h'.1
    · rw [if_neg hc]
      simp only [List.cons.injEq, true_and, hc, not_false_eq_true]
      exact removeRef_split b eqv h ha post pre hp

/-- C95, exactly: unsubscribing a live handler removes its own (first) subscription exactly when no live handler before it in the topic compares equal to it. -/
theorem C95_exact_partial (eqv : Nat → Nat → Bool) (b : Bus) (t : String) (h : Nat) (pre post : List Nat) (ha : alive b h = true)
    (hs : refs b t = pre ++ h :: post) (hp : h ∉ pre) :
    refs (unsubscribe b eqv t h).1 t = pre ++ post ↔ ∀ r ∈ pre, ¬ (alive b r = true ∧ eqv r h = true) := by
  have hm : h ∈ refs b t := by rw [hs]; simp
  have hh : ¬ b.subs.has t = false := by
    intro e
    rw [refs_of_not_has e] at hm; cases hm
  have ha' : (refs b t).any (fun r => alive b r && r == h) = true := by
    rw [List.any_eq_true]; exact ⟨h, hm, by simp [ha]⟩
  unfold unsubscribe
  rw [if_neg hh, if_pos ha', refs_set, if_pos rfl, hs]
  exact removeRef_split b eqv h ha post pre hp

example : (run (fun x y => x % 10 == y % 10) {} [.subscribe "a" 11, .subscribe "a" 1, .unsubscribe "a" 11, .emit (fun _ => .awaitable) "a"]).2 =
    [.unit, .unit, .bool true, .ran [1]] := by decide

end Verif.EventBus

namespace Verif.CallArgs

variable {κ ν : Type} [DecidableEq κ]

theorem mapLoop_wf (params : List κ) : ∀ (l : Dict (Key κ) ν) (n : Nat) (out d : Dict κ ν), out.WF → mapLoop params n l out = .ok d → d.WF
  | [], n, out, d, w, h => by simp only [mapLoop] at h; injection h with h; exact h ▸ w
  | (.pos _, v) :: l, n, out, d, w, h => by
    simp only [mapLoop] at h
    cases hp : params[n]? with
    | none => rw [hp] at h; cases h
    | some p => rw [hp] at h; exact mapLoop_wf params l _ _ d (Dict.set_wf w _ _) h
  | (.name k, v) :: l, n, out, d, w, h => by
    simp only [mapLoop] at h
    exact mapLoop_wf params l _ _ d (Dict.set_wf w _ _) h

/-- C74, positional arguments, exactly: a call with distinct keywords and not more positional arguments than parameters is never rejected, and keeps every argument exactly when no
keyword repeats a parameter already given by position. -/
theorem C74_mapping_exact_partial (params : List κ) (vs : List ν) (kws : List (κ × ν)) (hp : params.Nodup) (hk : (kws.map Prod.fst).Nodup)
    (hlen : vs.length ≤ params.length) :
    mapCall params (callOf vs kws) = .ok (params.zip vs ++ kws) ↔ ∀ k ∈ kws.map Prod.fst, k ∉ params.take vs.length := by
  refine ⟨fun h k hk1 hk2 => ?_, fun h => C74_mapping_partial params vs kws hp hk hlen h⟩
  simp only [mapCall, parse_callOf vs kws hk, mapPositional] at h
  have w := mapLoop_wf params _ 0 [] _ (by simp [Dict.WF, Dict.keys]) h
  simp only [Dict.WF, Dict.keys, List.map_append, map_fst_zip_take] at w
  exact (List.nodup_append.1 w).2.2 k hk2 k hk1 rfl

/-- C74, nesting, exactly: every argument is found in the result exactly when no argument belongs to a nested field that is itself given. -/
theorem C74_nesting_exact_partial (S : Schema κ) (args : Dict κ ν) (wf : args.WF) (hsub : ∀ f ∈ S.nested.keys, f ∈ S.fields) :
    (∀ k v, args.get? k = some v → Kept (nest S args) k v) ↔ ∀ k ∈ args.keys, ∀ f, Belongs S k f → f ∉ args.keys := by
  refine ⟨fun h k hk f hb hf => ?_, fun h k v hv => (C74_nesting_partial S args wf h k v hv).1⟩
  have hgk : goes S k = some f := by
    simp only [goes, if_neg hb.1]; exact (owner_iff k f _).2 hb.2
  have hff : f ∈ S.fields := by
    obtain ⟨_, before, ks, behind, e, _⟩ := hb
    apply hsub; rw [e]; simp [Dict.keys]
  have hgf : goes S f = none := by simp only [goes, if_pos hff]
  obtain ⟨w, hw⟩ := Option.isSome_iff_exists.1 ((Dict.get?_isSome_iff _ _).2 hf)
  obtain ⟨d, hd, _⟩ := (nest_get? S args wf f).1 ⟨k, hk, hgk⟩
  rcases h f w hw with h1 | ⟨f', d', h1, h2⟩
  · rw [hd] at h1; cases h1
  · by_cases hx : ∃ j ∈ args.keys, goes S j = some f'
    · obtain ⟨d2, h3, h4⟩ := (nest_get? S args wf f').1 hx
      rw [h3] at h1
      injection h1 with h1; injection h1 with h1; subst h1
      rw [h4, hgf] at h2
      simp at h2
    · rw [(nest_get? S args wf f').2 hx] at h1
      split at h1
      · cases hga : args.get? f' with
        | none => rw [hga] at h1; cases h1
        | some x => rw [hga] at h1; injection h1 with h1; cases h1
      · cases h1

example : mapCall ["a", "b"] (callOf [(1 : Nat)] [("b", 2)]) = .ok [("a", 1), ("b", 2)] := by decide

end Verif.CallArgs

namespace Verif.Params

variable {γ φ ν : Type} [DecidableEq γ] [DecidableEq φ]

theorem lookup_congr {c1 c2 : Cache γ φ} : ∀ {l : List γ}, (∀ x ∈ l, c1.get? x = c2.get? x) → lookup c1 l = lookup c2 l
  | [], _ => rfl
  | x :: l, h => by
    simp only [lookup, h x List.mem_cons_self]
    cases c2.get? x with
    | some _ => rfl
    | none => exact lookup_congr (fun y hy => h y (List.mem_cons_of_mem _ hy))

theorem lookup_append {ca : Cache γ φ} (r : List γ) : ∀ p : List γ, (∀ x ∈ p, ca.get? x = none) → lookup ca (p ++ r) = lookup ca r
  | [], _ => rfl
  | x :: p, h => by
    simp only [List.cons_append, lookup, h x List.mem_cons_self]
    exact lookup_append r p (fun y hy => h y (List.mem_cons_of_mem _ hy))

/-- An entry in the first part decides. -/
theorem lookup_append_some {ca : Cache γ φ} (r : List γ) : ∀ p : List γ, (∃ x ∈ p, ca.get? x ≠ none) → lookup ca (p ++ r) = lookup ca p
  | [], h => by obtain ⟨x, hx, _⟩ := h; cases hx
  | x :: p, h => by
    simp only [List.cons_append, lookup]
    cases hx : ca.get? x with
    | some _ => rfl
    | none =>
      simp only []
      apply lookup_append_some r p
      obtain ⟨y, hy, hyn⟩ := h
      rcases List.mem_cons.1 hy with rfl | hy
      · exact absurd hx hyn
      · exact ⟨y, hy, hyn⟩

/-- Single inheritance: the classes above a class `a` of the chain are the ones behind it, and a class has fields if one above it has. -/
structure Chain (C : Classes γ φ) (c : γ) (anc : List γ) : Prop where
  mro : C.mro c = c :: anc
  nodup : (c :: anc).Nodup
  above : ∀ p u q, anc = p ++ u :: q → C.mro u = u :: q
  inherit : ∀ p u q, anc = p ++ u :: q → C.fields u ≠ [] → ∀ x ∈ p, C.fields x ≠ []

/-- What the cache says about `c`: nothing yet, its own fields, or those of a class above. -/
inductive Phase (C : Classes γ φ) (c : γ) (anc : List γ) (ca : Cache γ φ) : Bool → Bool → Prop
  | open_ : ca.get? c = none → (∀ a ∈ anc, ca.get? a = none ∨ ca.get? a = some []) → Phase C c anc ca false false
  | own : ca.get? c = some (C.fields c) → Phase C c anc ca true false
  | blocked : ca.get? c = none → lookup ca anc ≠ [] → Phase C c anc ca false true

theorem phase_own_step {C : Classes γ φ} {c : γ} {ca : Cache γ φ} (h : ca.get? c = some (C.fields c)) (u : γ) :
    (allowed C ca u).2.get? c = some (C.fields c) := by
  simp only [allowed]
  split
  · rw [Dict.get?_set]
    split
    · next e => rw [e]
    · exact h
  · exact h

theorem phase_blocked_step {C : Classes γ φ} {c : γ} {anc : List γ} (ch : Chain C c anc) {ca : Cache γ φ} (h : ca.get? c = none) (hl : lookup ca anc ≠ []) (u : γ) :
    (allowed C ca u).2.get? c = none ∧ lookup (allowed C ca u).2 anc ≠ [] := by
  simp only [allowed]
  split
  · next he =>
    have he : lookup ca (C.mro u) = [] := by simpa using he
    have huc : u ≠ c := by
      rintro rfl
      rw [ch.mro, lookup, h] at he
      exact hl he
    simp only
    refine ⟨by rw [Dict.get?_set, if_neg huc]; exact h, ?_⟩
    by_cases hu : u ∈ anc
    · obtain ⟨p, q, e⟩ := List.append_of_mem hu
      rw [ch.above p u q e] at he
      have hp : ∃ x ∈ p, ca.get? x ≠ none := by
        apply Classical.byContradiction
        intro hx
        apply hl
        rw [e, lookup_append _ p (fun x hx' => Classical.byContradiction (fun h' => hx ⟨x, hx', h'⟩))]
        exact he
      have hup : ∀ x ∈ p, u ≠ x := by
        rintro x hx rfl
        have := ch.nodup
        rw [e] at this
        simp only [List.nodup_cons, List.nodup_append] at this
        exact this.2.2.2 u hx u List.mem_cons_self rfl
      have hg : ∀ x ∈ p, (ca.set u (C.fields u)).get? x = ca.get? x := fun x hx => by rw [Dict.get?_set, if_neg (hup x hx)]
      rw [e, lookup_append_some _ p (by obtain ⟨x, hx, h'⟩ := hp; exact ⟨x, hx, by rw [hg x hx]; exact h'⟩), lookup_congr hg]
      rw [e, lookup_append_some _ p hp] at hl
      exact hl
    · rw [lookup_congr (c2 := ca) (fun x hx => by rw [Dict.get?_set, if_neg (by rintro rfl; exact hu hx)])]
      exact hl
  · exact ⟨h, hl⟩

/-- Using a class while nothing is decided. -/
theorem phase_open_step {C : Classes γ φ} {c : γ} {anc : List γ} (ch : Chain C c anc) {ca : Cache γ φ} (hent : ∀ x ks, ca.get? x = some ks → ks = C.fields x)
    (h : ca.get? c = none) (ha : ∀ a ∈ anc, ca.get? a = none ∨ ca.get? a = some []) (u : γ) :
    (u = c → (allowed C ca u).2.get? c = some (C.fields c)) ∧
    (u ≠ c → (allowed C ca u).2.get? c = none ∧
      (u ∈ anc → C.fields u ≠ [] → lookup (allowed C ca u).2 anc ≠ []) ∧
      (¬ (u ∈ anc ∧ C.fields u ≠ []) → ∀ a ∈ anc, (allowed C ca u).2.get? a = none ∨ (allowed C ca u).2.get? a = some [])) := by
  refine ⟨?_, ?_⟩
  · rintro rfl
    have : lookup ca (C.mro u) = [] := by
      rw [ch.mro, lookup, h]; exact lookup_of_none anc ha
    simp only [allowed, this, List.isEmpty_nil, if_true, Dict.get?_set]
  · intro huc
    refine ⟨?_, ?_, ?_⟩
    · simp only [allowed]
      split
      · rw [Dict.get?_set, if_neg huc]; exact h
      · exact h
    · intro hu hf
      obtain ⟨p, q, e⟩ := List.append_of_mem hu
      have he : lookup ca (C.mro u) = [] := by
        rw [ch.above p u q e]
        exact lookup_of_none _ (fun x hx => ha x (by rw [e]; exact List.mem_append_right _ hx))
      simp only [allowed, he, List.isEmpty_nil, if_true]
      have hp : ∀ x ∈ p, (ca.set u (C.fields u)).get? x = none := by
        intro x hx
        have hxu : u ≠ x := by
          rintro rfl
          have := ch.nodup
          rw [e] at this
          simp only [List.nodup_cons, List.nodup_append] at this
          exact this.2.2.2 u hx u List.mem_cons_self rfl
        rw [Dict.get?_set, if_neg hxu]
        rcases ha x (by rw [e]; exact List.mem_append_left _ hx) with h' | h'
        · exact h'
        · exact absurd (hent x _ h').symm (ch.inherit p u q e hf x hx)
      rw [e, lookup_append _ p hp]
      simp only [lookup, Dict.get?_set, if_true]
      exact hf
    · intro hnu a hin
      simp only [allowed]
      split
      · rw [Dict.get?_set]
        split
        · next e =>
          right
          cases hf : C.fields u with
          | nil => rfl
          | cons x xs => exact absurd ⟨by rw [e]; exact hin, by rw [hf]; simp⟩ hnu
        · exact ha a hin
      · exact ha a hin

/-- The uses before the first use of `c`. -/
def before (c : γ) (uses : List γ) : List γ := uses.takeWhile (fun u => decide (u ≠ c))

theorem phase_fold {C : Classes γ φ} {c : γ} {anc : List γ} (ch : Chain C c anc) : ∀ (uses : List γ) (ca : Cache γ φ), (∀ x ks, ca.get? x = some ks → ks = C.fields x) →
    ca.get? c = none → (∀ a ∈ anc, ca.get? a = none ∨ ca.get? a = some []) →
    ((∃ a ∈ anc, C.fields a ≠ [] ∧ a ∈ before c uses) → ∃ ca', ca' = uses.foldl (fun cache c => (allowed C cache c).2) ca ∧ ca'.get? c = none ∧ lookup ca' anc ≠ []) ∧
    ((¬ ∃ a ∈ anc, C.fields a ≠ [] ∧ a ∈ before c uses) → ∃ ca', ca' = uses.foldl (fun cache c => (allowed C cache c).2) ca ∧
      (ca'.get? c = some (C.fields c) ∨ (ca'.get? c = none ∧ ∀ a ∈ anc, ca'.get? a = none ∨ ca'.get? a = some []))) := by
  have hown : ∀ (us : List γ) (ca : Cache γ φ), ca.get? c = some (C.fields c) → (us.foldl (fun cache c => (allowed C cache c).2) ca).get? c = some (C.fields c) := by
    intro us
    induction us with
    | nil => intro ca h; exact h
    | cons u us ih => intro ca h; exact ih _ (phase_own_step h u)
  have hbl : ∀ (us : List γ) (ca : Cache γ φ), ca.get? c = none → lookup ca anc ≠ [] →
      (us.foldl (fun cache c => (allowed C cache c).2) ca).get? c = none ∧ lookup (us.foldl (fun cache c => (allowed C cache c).2) ca) anc ≠ [] := by
    intro us
    induction us with
    | nil => intro ca h h'; exact ⟨h, h'⟩
    | cons u us ih => intro ca h h'; obtain ⟨h1, h2⟩ := phase_blocked_step ch h h' u; exact ih _ h1 h2
  intro uses
  induction uses with
  | nil =>
    intro ca hent h ha
    refine ⟨?_, fun _ => ⟨ca, rfl, Or.inr ⟨h, ha⟩⟩⟩
    rintro ⟨a, _, _, hx⟩; cases hx
  | cons u us ih =>
    intro ca hent h ha
    obtain ⟨h1, h2⟩ := phase_open_step ch hent h ha u
    by_cases huc : u = c
    · have hb : before c (u :: us) = [] := by simp [before, huc]
      rw [hb]
      refine ⟨?_, fun _ => ⟨_, rfl, Or.inl (hown us _ (h1 huc))⟩⟩
      rintro ⟨a, _, _, hx⟩; cases hx
    · obtain ⟨h3, h4, h5⟩ := h2 huc
      have hb : before c (u :: us) = u :: before c us := by simp [before, huc]
      rw [hb]
      by_cases hu : u ∈ anc ∧ C.fields u ≠ []
      · obtain ⟨h6, h7⟩ := hbl us _ h3 (h4 hu.1 hu.2)
        exact ⟨fun _ => ⟨_, rfl, h6, h7⟩, fun hn => absurd ⟨u, hu.1, hu.2, List.mem_cons_self⟩ hn⟩
      · have hent' : ∀ x ks, (allowed C ca u).2.get? x = some ks → ks = C.fields x := by
          intro x ks
          simp only [allowed]
          split
          · rw [Dict.get?_set]
            split
            · next e => intro e'; injection e' with e'; rw [← e', e]
            · exact hent x ks
          · exact hent x ks
        obtain ⟨h6, h7⟩ := ih _ hent' h3 (h5 hu)
        refine ⟨?_, ?_⟩
        · rintro ⟨a, ha1, ha2, ha3⟩
          rcases List.mem_cons.1 ha3 with rfl | ha3
          · exact absurd ⟨ha1, ha2⟩ hu
          · exact h6 ⟨a, ha1, ha2, ha3⟩
        · intro hn
          exact h7 (fun ⟨a, ha1, ha2, ha3⟩ => hn ⟨a, ha1, ha2, List.mem_cons_of_mem _ ha3⟩)

/-- C63, exactly, for single inheritance: after any history of uses, a class accepts its own fields exactly when no class above it that has fields was used before the first use of the class. -/
theorem C63_history_exact_partial (C : Classes γ φ) (uses : List γ) (c : γ) (anc : List γ) (ch : Chain C c anc) (hd : ∀ a ∈ anc, C.fields a ≠ C.fields c) :
    (allowed C (history C uses) c).1 = C.fields c ↔ ∀ a ∈ anc, C.fields a ≠ [] → a ∉ before c uses := by
  obtain ⟨h1, h2⟩ := phase_fold ch uses [] (by simp) (by simp) (by simp)
  have he := history_entries C uses
  by_cases hx : ∃ a ∈ anc, C.fields a ≠ [] ∧ a ∈ before c uses
  · obtain ⟨ca, e, h3, h4⟩ := h1 hx
    have e : ca = history C uses := e
    subst e
    refine ⟨fun h => ?_, fun h => ?_⟩
    · exfalso
      have hl : lookup (history C uses) (C.mro c) = lookup (history C uses) anc := by rw [ch.mro, lookup, h3]
      have hne : ¬ (lookup (history C uses) (C.mro c)).isEmpty = true := by
        rw [hl]; simpa using h4
      rw [allowed, if_neg hne] at h
      simp only [hl] at h
      have gen : ∀ l : List γ, lookup (history C uses) l = [] ∨ ∃ c' ∈ l, lookup (history C uses) l = C.fields c' := by
        intro l
        induction l with
        | nil => exact Or.inl rfl
        | cons a l ih =>
          simp only [lookup]
          cases h : (history C uses).get? a with
          | some ks => exact Or.inr ⟨a, by simp, he a ks h⟩
          | none =>
            rcases ih with ih | ⟨c', hc', e⟩
            · exact Or.inl ih
            · exact Or.inr ⟨c', by simp [hc'], e⟩
      rcases gen anc with hg | ⟨c', hc', hg⟩
      · exact h4 hg
      · exact hd c' hc' (hg ▸ h)
    · obtain ⟨a, ha1, ha2, ha3⟩ := hx
      exact absurd ha3 (h a ha1 ha2)
  · obtain ⟨ca, e, h3⟩ := h2 hx
    have e : ca = history C uses := e
    subst e
    refine ⟨fun _ a ha1 ha2 ha3 => hx ⟨a, ha1, ha2, ha3⟩, fun _ => ?_⟩
    rcases h3 with h3 | ⟨h3, h4⟩
    · simp only [allowed, ch.mro, lookup, h3]
      cases C.fields c <;> simp
    · have : lookup (history C uses) (C.mro c) = [] := by rw [ch.mro, lookup, h3]; exact lookup_of_none anc h4
      simp [allowed, this]

/-- The chain of class 2 of the demo classes. -/
example : Chain demoClasses 2 [1, 0] := by
  refine ⟨rfl, by decide, ?_, ?_⟩
  · intro p u q e
    match p, e with
    | [], e => injection e with e1 e2; subst e1; subst e2; rfl
    | [x], e => injection e with e1 e2; injection e2 with e3 e4; subst e3; subst e4; rfl
    | x :: y :: p, e => injection e with e1 e2; injection e2 with e3 e4; cases p <;> cases e4
  · intro p u q e hf
    match p, e with
    | [], e => intro x hx; cases hx
    | [x], e => injection e with e1 e2; injection e2 with e3 e4; subst e3; exact absurd rfl hf
    | x :: y :: p, e => injection e with e1 e2; injection e2 with e3 e4; cases p <;> cases e4

end Verif.Params

namespace Verif.TypeScript

/-- The item schema has a list of type names. -/
def ManyItem (i : Option Item) : Prop := ∃ x l, i = some x ∧ x.type = some (.many l)

/-- A member of `anyOf` is read through a list of type names. -/
def ManyOpt (o : Opt) : Prop := (∃ l, o.type = some (.many l)) ∨ (o.type = some (.one "array") ∧ ManyItem o.items)

/-- The property is read through a list of type names: it has no `enum`, and either a member of `anyOf` has such a list, or, without `anyOf`, its own type is one (and
there is no `$ref`) or that of its items. -/
def ManyRead (s : Spec) : Prop :=
  s.enum = none ∧ ((∃ os, s.anyOf = some os ∧ ∃ o ∈ os, ManyOpt o) ∨
    (s.anyOf = none ∧ (((∃ l, s.type = some (.many l)) ∧ s.ref = none) ∨ (s.type = some (.one "array") ∧ ManyItem s.items))))

theorem typeMap_iff (t : Ty) : (∃ e, typeMap t = .error e) ↔ ∃ l, t = .many l := by
  cases t <;> simp [typeMap]

theorem isArray_iff (t : Ty) : isArray t = true ↔ t = .one "array" := by simp [isArray]

theorem map_error_iff {ε α β : Type} (f : α → β) (x : Except ε α) : (∃ e, x.map f = .error e) ↔ ∃ e, x = .error e := by
  cases x <;> simp [Except.map]

theorem optItemType_iff (i : Item) : (∃ e, optItemType i = .error e) ↔ ∃ l, i.type = some (.many l) := by
  obtain ⟨ty, ref, en⟩ := i
  cases ty with
  | none => cases ref <;> simp [optItemType, typeMap]
  | some t => cases t <;> cases ref <;> simp [optItemType, typeMap]

theorem optText_iff (o : Opt) : (∃ e, optText o = .error e) ↔ ManyOpt o := by
  obtain ⟨ty, items, ref, en⟩ := o
  cases ty with
  | none => cases ref <;> cases en <;> simp [optText, ManyOpt]
  | some t =>
    simp only [optText, map_error_iff, ManyOpt, Option.some.injEq]
    cases items with
    | none => simp [optTyped, typeMap_iff, ManyItem]
    | some i =>
      simp only [optTyped]
      by_cases ha : isArray t = true
      · rw [if_pos ha, map_error_iff, optItemType_iff]
        rw [isArray_iff] at ha
        subst ha
        simp [ManyItem]
      · rw [if_neg ha, typeMap_iff]
        rw [isArray_iff] at ha
        simp [ha]

theorem optParts_iff : ∀ os : List Opt, (∃ e, optParts os = .error e) ↔ ∃ o ∈ os, ManyOpt o
  | [] => by simp [optParts]
  | o :: os => by
    have ih := optParts_iff os
    simp only [optParts, List.mem_cons, exists_eq_or_imp]
    by_cases hn : isNullOpt o = true
    · rw [if_pos hn, ih]
      have : ¬ ManyOpt o := by
        simp only [isNullOpt, decide_eq_true_eq] at hn
        simp [ManyOpt, hn]
      simp [this]
    · rw [if_neg hn]
      cases ho : optText o with
      | error e =>
        have := (optText_iff o).1 ⟨e, ho⟩
        simp [this]
      | ok t =>
        have h1 : ¬ ManyOpt o := by
          intro h; obtain ⟨e, h⟩ := (optText_iff o).2 h; rw [ho] at h; cases h
        simp only [h1, false_or, ← ih]
        cases optParts os <;> simp

theorem arrayItemType_iff (i : Option Item) : (∃ e, arrayItemType i = .error e) ↔ ManyItem i := by
  cases i with
  | none => simp [arrayItemType, ManyItem]
  | some i =>
    obtain ⟨ty, ref, en⟩ := i
    cases ty with
    | none => cases ref <;> cases en <;> simp [arrayItemType, ManyItem]
    | some t => simp [arrayItemType, ManyItem, typeMap_iff]

theorem signature_iff (s : Spec) (required : Bool) : (∃ e, signature s required = .error e) ↔ ManyRead s := by
  obtain ⟨en, anyOf, ty, items, ref, df, ds⟩ := s
  cases en with
  | some l => simp [signature, ManyRead]
  | none =>
    cases anyOf with
    | some os => simp [signature, ManyRead, map_error_iff, optParts_iff]
    | none =>
      simp only [signature, plainSignature, ManyRead, true_and, reduceCtorEq, false_and, exists_false, false_or]
      cases ty with
      | none => cases ref <;> simp
      | some t =>
        simp only [Option.some.injEq]
        by_cases ha : isArray t = true
        · rw [if_pos ha, map_error_iff, arrayItemType_iff]
          rw [isArray_iff] at ha
          subst ha
          simp
        · rw [if_neg ha]
          rw [isArray_iff] at ha
          cases ref with
          | some r => simp [ha]
          | none => cases t <;> simp [simpleType, typeMap, Except.map, ha]

theorem linesOf_iff (indent : Nat) (required : List String) : ∀ ps : Dict String Spec, (∃ e, linesOf indent required ps = .error e) ↔ ∃ p ∈ ps, ManyRead p.2
  | [] => by simp [linesOf]
  | (n, s) :: ps => by
    have ih := linesOf_iff indent required ps
    have hs := signature_iff s (required.contains n)
    simp only [linesOf, line, List.mem_cons, exists_eq_or_imp]
    cases h : signature s (required.contains n) with
    | error e =>
      have := hs.1 ⟨e, h⟩
      simp [this]
    | ok r =>
      have h1 : ¬ ManyRead s := by
        intro h'; obtain ⟨e, h'⟩ := hs.2 h'; rw [h] at h'; cases h'
      simp only [h1, false_or, ← ih]
      cases linesOf indent required ps <;> simp

/-- C137, exactly: rendering a schema fails exactly when some property is read through a list of type names. -/
theorem C137_exact_partial (sch : Schema) (indent : Nat) :
    (∃ t, typescriptSchema sch indent = .ok t) ↔ ∀ ps, sch.properties = some ps → ∀ p ∈ ps, ¬ ManyRead p.2 := by
  unfold typescriptSchema
  cases hp : sch.properties with
  | none => simp
  | some ps =>
    have := linesOf_iff indent sch.required ps
    simp only [Option.some.injEq, forall_eq']
    cases hl : linesOf indent sch.required ps with
    | error e =>
      obtain ⟨p, hp1, hp2⟩ := this.1 ⟨e, hl⟩
      simp only [Except.map, reduceCtorEq, exists_false, false_iff]
      exact fun h => h p hp1 hp2
    | ok ls =>
      simp only [Except.map, Except.ok.injEq, exists_eq', true_iff]
      intro p hp1 hp2
      obtain ⟨e, he⟩ := this.2 ⟨p, hp1, hp2⟩
      rw [hl] at he; cases he

/-- A list of type names that is not looked at: the property has an `enum`. -/
example : typescriptSchema { properties := some [("x", { enum := some [.str "a", .null], type := some (.many ["string", "null"]) })] } 0 = .ok "x?: \"a\" | null" := by decide

end Verif.TypeScript
