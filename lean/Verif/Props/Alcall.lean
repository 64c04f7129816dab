import Verif.Model.Alcall
import Verif.Props.AsyncCall
import Verif.Props.ToList

set_option linter.unusedSectionVars false
set_option linter.unusedSimpArgs false
set_option linter.unusedVariables false

/-!
# `alcall` and `bcall` end to end: C44, C236 to C240
-/

namespace Verif.Alcall

open Verif.Fanout Verif.AsyncCall Verif.ToList

variable {α : Type}

/-! ## Specification -/

/-- Python objects: values are proper values, exceptions are not iterable. -/
structure Proper (O : Objects α) : Prop where
  value : ∀ v, wf false (O.value v)
  exc : ∀ o, ∃ a, O.exc o = .atom a

/-- How the task of item `i` ends (C43 says how this comes from the attempts). -/
def itemEnd (p : Params) (script : Nat → Val α → Nat → Outcome) (l : List (Val α)) (i : Nat) : Outcome :=
  taskOutcome { retryAttempts := p.retryAttempts, default := p.default } (fun i => script i (l.getD i .na)) i

/-- The object the task of an item ends with: the value, or the exception itself. -/
def object (O : Objects α) : Outcome → Val α
  | .ok v => O.value v
  | o => O.exc o

/-- The objects of all items, in input order. -/
def objects (O : Objects α) (p : Params) (script : Nat → Val α → Nat → Outcome) (l : List (Val α)) : List (Val α) :=
  (List.range l.length).map (fun i => object O (itemEnd p script l i))

/-- Every item ends with a value, or exceptions are to be returned. -/
def Calm (p : Params) (script : Nat → Val α → Nat → Outcome) (l : List (Val α)) : Prop :=
  (∀ i, i < l.length → (itemEnd p script l i).isOk = true) ∨ p.returnExc = true

/-- The value with the iterables in it that are neither tuples nor sets read into lists. -/
def listed : Val α → Val α
  | .seq .tupleSet l => .seq .tupleSet l
  | .seq .list l => .seq .list (listed l)
  | .seq .iter l => .seq .list (listed l)
  | .cons h t => .cons (listed h) (listed t)
  | .atom a => .atom a
  | .na => .na
  | .nil => .nil

/-- No iterable other than lists, tuples and sets in it (not looking into tuples and sets). -/
def ListsOnly : Val α → Prop
  | .seq .tupleSet _ => True
  | .seq .list l => ListsOnly l
  | .seq .iter _ => False
  | .cons h t => ListsOnly h ∧ ListsOnly t
  | _ => True

/-! ## Lemmas -/

theorem slot_some (O : Objects α) (o : Outcome) : slot O (some o) = object O o := by cases o <;> rfl

theorem itemEnd_eq (p : Params) (script : Nat → Val α → Nat → Outcome) (l : List (Val α)) (k : Option Nat) (i : Nat) :
    (cfg p script l k).res i = itemEnd p script l i := rfl

theorem object_wf {O : Objects α} (hO : Proper O) (o : Outcome) : wf false (object O o) := by
  cases o with
  | ok v => exact hO.value v
  | exc e => obtain ⟨a, h⟩ := hO.exc (.exc e); simp only [object, h, wf]
  | base e => obtain ⟨a, h⟩ := hO.exc (.base e); simp only [object, h, wf]
  | cancelled => obtain ⟨a, h⟩ := hO.exc .cancelled; simp only [object, h, wf]

theorem objects_wf {O : Objects α} (hO : Proper O) (p : Params) (script : Nat → Val α → Nat → Outcome) (l : List (Val α)) :
    ∀ v ∈ objects O p script l, wf false v := by
  intro v hv
  obtain ⟨i, _, rfl⟩ := List.mem_map.1 hv
  exact object_wf hO _

theorem alcall_ok {H : Hashing α} {O : Objects α} {p : Params} {fn : Func} {script : Nat → Val α → Nat → Outcome} {keys : List (Val α)} {x : Input α}
    {acts : List Act} {l : List (Val α)} {k : Option Nat} {e : End α} (hp : prepare H p fn keys x = .ok (l, k))
    (h : alcall H O p fn script keys x acts = some e) :
    ∃ f, final (cfg p script l k) (run (cfg p script l k) acts) = some f ∧ e = finish H O p.out f := by
  simp only [alcall, hp, Option.map_eq_some_iff] at h
  obtain ⟨f, h1, h2⟩ := h
  exact ⟨f, h1, h2.symm⟩

/-- The list before output processing. -/
theorem alcall_calm {H : Hashing α} {O : Objects α} {p : Params} {fn : Func} {script : Nat → Val α → Nat → Outcome} {keys : List (Val α)} {x : Input α}
    {acts : List Act} {l : List (Val α)} {k : Option Nat} {e : End α} (hp : prepare H p fn keys x = .ok (l, k)) (hu : Undisturbed acts)
    (hc : Calm p script l) (h : alcall H O p fn script keys x acts = some e) : e = output H p.out (objects O p script l) := by
  obtain ⟨f, h1, h2⟩ := alcall_ok hp h
  have hq : ∀ i, i < (cfg p script l k).n → ((cfg p script l k).res i).isOk = true ∨ (cfg p script l k).returnExc = true := by
    intro i hi
    rcases hc with hc | hc
    · exact Or.inl (hc i hi)
    · exact Or.inr hc
  rw [ordered _ hq acts hu h1] at h2
  rw [h2]
  have hn : (cfg p script l k).n = l.length := rfl
  simp only [finish, hn, objects, List.map_map]
  congr 1
  apply List.map_congr_left
  intro i _
  simp only [Function.comp, slot_some, itemEnd_eq]

theorem process_listed : ∀ l : Val α, wf true l → ofList (process false false false l) = listed l := by
  intro l
  induction l using process.induct (flatten := false) (dropna := false) (fts := false) with
  | case1 t hd ih => exact absurd hd (by simp)
  | case2 t hd ih => intro h; simp only [process, Bool.false_eq_true, if_false, ofList, listed]; rw [ih h.2]
  | case3 k l t hs ih =>
    intro h
    simp only [process, if_pos hs, ofList, listed]
    rw [ih h.2]
    cases k with
    | tupleSet => rfl
    | list => simp [skips] at hs
    | iter => simp [skips] at hs
  | case4 k l t hs hf ih1 ih2 => exact absurd hf (by simp)
  | case5 k l t hs hf ih1 ih2 =>
    intro h
    simp only [process, if_neg hs, Bool.false_eq_true, if_false, ofList, listed]
    rw [ih1 h.1, ih2 h.2]
    cases k with
    | tupleSet => simp [skips] at hs
    | list => rfl
    | iter => rfl
  | case6 hh t hna hseq ih =>
    intro h
    simp only [process, ofList, listed]
    rw [ih h.2]
    cases hh with
    | na => exact absurd rfl hna
    | seq k l => exact absurd rfl (hseq k l)
    | atom a => rfl
    | nil => rfl
    | cons a b => exact absurd h.1 (by simp [wf])
  | case7 v h1 h2 h3 =>
    intro h
    cases v with
    | nil => rfl
    | cons a b => simp_all
    | _ => simp [wf] at h

theorem ofList_inj : ∀ a b : List (Val α), ofList a = ofList b → a = b
  | [], [], _ => rfl
  | [], b :: bs, h => by cases h
  | a :: as, [], h => by cases h
  | a :: as, b :: bs, h => by
    simp only [ofList, Val.cons.injEq] at h
    rw [h.1, ofList_inj as bs h.2]

theorem listed_ofList : ∀ vs : List (Val α), listed (ofList vs) = ofList (vs.map listed)
  | [] => rfl
  | v :: vs => by simp only [ofList, listed, List.map_cons, listed_ofList vs]

theorem process_map (vs : List (Val α)) (h : ∀ v ∈ vs, wf false v) : process false false false (ofList vs) = vs.map listed := by
  apply ofList_inj
  rw [process_listed _ (wf_ofList vs h), listed_ofList]

theorem listed_fixed : ∀ v : Val α, listed v = v ↔ ListsOnly v
  | .seq .tupleSet l => by simp [listed, ListsOnly]
  | .seq .list l => by simp only [listed, ListsOnly, Val.seq.injEq, true_and]; exact listed_fixed l
  | .seq .iter l => by simp [listed, ListsOnly]
  | .cons h t => by simp only [listed, ListsOnly, Val.cons.injEq]; rw [listed_fixed h, listed_fixed t]
  | .atom a => by simp [listed, ListsOnly]
  | .na => by simp [listed, ListsOnly]
  | .nil => by simp [listed, ListsOnly]

theorem leaves_ofList (fts : Bool) : ∀ vs : List (Val α), leaves fts (ofList vs) = vs.flatMap (leaves fts)
  | [] => rfl
  | v :: vs => by simp only [ofList, leaves, List.flatMap_cons, leaves_ofList fts vs]

theorem map_eq_self {β : Type} (f : β → β) : ∀ l : List β, l.map f = l ↔ ∀ x ∈ l, f x = x
  | [] => by simp
  | x :: xs => by simp [map_eq_self f xs]

/-! ## C236: results without output options -/

/-- C236: without output options every completed call returns one object per item, in input order: what the item's task ended with, with iterables other than
tuples and sets read into lists. -/
theorem C236_results {H : Hashing α} {O : Objects α} (hO : Proper O) {p : Params} (ho : p.out = {}) {fn : Func} {script : Nat → Val α → Nat → Outcome}
    {keys : List (Val α)} {x : Input α} {acts : List Act} (hu : Undisturbed acts) {l : List (Val α)} {k : Option Nat}
    (hp : prepare H p fn keys x = .ok (l, k)) (hc : Calm p script l) {e : End α} (h : alcall H O p fn script keys x acts = some e) :
    e = .values ((objects O p script l).map listed) := by
  rw [alcall_calm hp hu hc h, output, ho]
  simp only [toList, Bool.false_and, Bool.false_eq_true, if_false, initial]
  rw [process_map _ (objects_wf hO p script l)]

/-- C236, exactly: these are the very objects if and only if none of them has an iterable other than a list, tuple or set in it. -/
theorem C236_exact_partial {H : Hashing α} {O : Objects α} (hO : Proper O) {p : Params} (ho : p.out = {}) {fn : Func} {script : Nat → Val α → Nat → Outcome}
    {keys : List (Val α)} {x : Input α} {acts : List Act} (hu : Undisturbed acts) {l : List (Val α)} {k : Option Nat}
    (hp : prepare H p fn keys x = .ok (l, k)) (hc : Calm p script l) {e : End α} (h : alcall H O p fn script keys x acts = some e) :
    e = .values (objects O p script l) ↔ ∀ v ∈ objects O p script l, ListsOnly v := by
  rw [C236_results hO ho hu hp hc h, End.values.injEq, map_eq_self]
  constructor
  · intro h v hv; exact (listed_fixed v).1 (h v hv)
  · intro h v hv; exact (listed_fixed v).2 (h v hv)

/-- Objects for the examples: value 0 is `range(2)`, value 1 is `[5, None]`, value `n + 2` is the number `n`; exceptions are negative. -/
def demoObj : Objects Int where
  value
    | 0 => .seq .iter (ofList [.atom 0, .atom 1])
    | 1 => .seq .list (ofList [.atom 5, .na])
    | n + 2 => .atom n
  exc
    | .exc e => .atom (-1 - e)
    | _ => .atom (-1000)

theorem demoObj_proper : Proper demoObj := by
  refine ⟨fun v => ?_, fun o => ?_⟩
  · match v with
    | 0 => simp [demoObj, ofList, wf]
    | 1 => simp [demoObj, ofList, wf]
    | n + 2 => simp [demoObj, wf]
  · cases o <;> exact ⟨_, rfl⟩

/-- `lambda x: range(2) if x == 1 else 10`. -/
def demoScript : Nat → Val Int → Nat → Outcome := fun _ v _ => if v = .atom 1 then .ok 0 else .ok 12

/-- A schedule in which two tasks run to their end. -/
def demoActs : List Act := [.start 1, .start 0, .finish 0, .finish 1]

/-- `alcall([1, 2], f)` where `f(1)` returns `range(2)`: the caller gets `[[0, 1], 10]`, not `[range(0, 2), 10]`. -/
theorem C236_iterable_violation :
    alcall demoH demoObj {} .callable demoScript [] (.seq .list (ofList [.atom 1, .atom 2])) demoActs
        = some (.values [.seq .list (ofList [.atom 0, .atom 1]), .atom 10])
      ∧ objects demoObj {} demoScript [.atom 1, .atom 2] = [.seq .iter (ofList [.atom 0, .atom 1]), .atom 10] := ⟨rfl, rfl⟩

example : prepare demoH {} .callable [] (.seq .list (ofList [.atom 1, .atom 2])) = .ok ([.atom 1, .atom 2], none) := rfl
example : Calm {} demoScript [.atom 1, .atom 2] := by
  left
  intro i hi
  match i, hi with
  | 0, _ => rfl
  | 1, _ => rfl
  | n + 2, h => simp only [List.length_cons, List.length_nil] at h; omega

/-! ## C237: input and output options -/

/-- C237, input: without input options the items of a list, tuple, set or other iterable are its members as they are. -/
theorem C237_plain_input (H : Hashing α) (p : Params) (hi : p.inp.flatten = false ∧ p.inp.dropna = false) (fn : Func) (hf : fn = .callable ∨ fn = .iterable [true])
    (hm : ∀ k, p.maxConcurrent = some k → 0 ≤ k) (keys vs : List (Val α)) (kd : Kind) :
    ∃ k, prepare H p fn keys (.seq kd (ofList vs)) = .ok (vs, k) := by
  have hok : funcOk fn = true := by rcases hf with h | h <;> subst h <;> rfl
  have hit : ∀ vs : List (Val α), items (ofList vs) = vs := by
    intro vs
    induction vs with
    | nil => rfl
    | cons v vs ih => simp only [ofList, items, ih]
  have hin : inputItems H p.inp keys (.seq kd (ofList vs)) = .ok vs := by
    simp only [inputItems, hi.1, hi.2, Bool.or_self, Bool.false_eq_true, if_false, plainInput, hit]
  cases hmc : p.maxConcurrent with
  | none => exact ⟨none, by simp only [prepare, hok, if_true, hin, hmc, semaphore]⟩
  | some k =>
    have := hm k hmc
    exact ⟨some k.toNat, by simp only [prepare, hok, if_true, hin, hmc, semaphore]; rw [if_neg (by omega)]⟩

/-- What the members of an input are: those of an iterable, the characters of a text, the keys of a mapping, the members of an enum class; a model, `None` and anything that cannot be
iterated is one item. -/
inductive Members (keys : List (Val α)) : Input α → List (Val α) → Prop where
  | iterable (kd vs) : Members keys (.seq kd (ofList vs)) vs
  | text (w chars) : Members keys (.text w chars) chars
  | mapping (w vs) : Members keys (.mapping w vs) keys
  | enumClass (ms vs) : Members keys (.enumClass ms vs) ms
  | model (w ps) : Members keys (.model w ps) [w]
  | none : Members keys .na [.na]
  | single (v) : Members keys (.single v) [v]

/-- C237, input: without input options the items are the members of the input, whatever kind of object it is. -/
theorem C237_members (H : Hashing α) (p : Params) (hi : p.inp.flatten = false ∧ p.inp.dropna = false) (fn : Func) (hf : fn = .callable ∨ fn = .iterable [true])
    (hm : ∀ k, p.maxConcurrent = some k → 0 ≤ k) (keys vs : List (Val α)) (x : Input α) (hx : Members keys x vs) : ∃ k, prepare H p fn keys x = .ok (vs, k) := by
  have hok : funcOk fn = true := by rcases hf with h | h <;> subst h <;> rfl
  have key : inputItems H p.inp keys x = .ok vs → ∃ k, prepare H p fn keys x = .ok (vs, k) := by
    intro hin
    cases hmc : p.maxConcurrent with
    | none => exact ⟨none, by simp only [prepare, hok, if_true, hin, hmc, semaphore]⟩
    | some k =>
      have := hm k hmc
      exact ⟨some k.toNat, by simp only [prepare, hok, if_true, hin, hmc, semaphore]; rw [if_neg (by omega)]⟩
  cases hx with
  | iterable kd vs => exact C237_plain_input H p hi fn hf hm keys vs kd
  | text w chars => exact key (by simp only [inputItems, hi.1, hi.2, Bool.or_self, Bool.false_eq_true, if_false, plainInput])
  | mapping w vs => exact key (by simp only [inputItems, hi.1, hi.2, Bool.or_self, Bool.false_eq_true, if_false, plainInput])
  | enumClass ms vs => exact key (by simp only [inputItems, hi.1, hi.2, Bool.or_self, Bool.false_eq_true, if_false, plainInput])
  | model w ps => exact key (by simp only [inputItems, hi.1, hi.2, Bool.or_self, Bool.false_eq_true, if_false, plainInput])
  | none => exact key (by simp only [inputItems, hi.1, hi.2, Bool.or_self, Bool.false_eq_true, if_false, plainInput])
  | single v => exact key (by simp only [inputItems, hi.1, hi.2, Bool.or_self, Bool.false_eq_true, if_false, plainInput])

/-- C237, input: with `input_flatten` (and without `input_unique`) the items are the leaves of the input from left to right, without the undefined ones if
`input_dropna`. -/
theorem C237_flat_input (H : Hashing α) (p : Params) (hi : p.inp.flatten = true ∧ p.inp.unique = false) (fn : Func) (hf : fn = .callable ∨ fn = .iterable [true])
    (hm : ∀ k, p.maxConcurrent = some k → 0 ≤ k) (keys : List (Val α)) (x : Input α) (hx : WfInput x) :
    ∃ k, prepare H p fn keys x = .ok ((leaves p.inp.fts (initial false x)).filter (fun v => !(p.inp.dropna && isNa v)), k) := by
  have hok : funcOk fn = true := by rcases hf with h | h <;> subst h <;> rfl
  have hin : inputItems H p.inp keys x = .ok ((leaves p.inp.fts (initial false x)).filter (fun v => !(p.inp.dropna && isNa v))) := by
    rcases hpi : p.inp with ⟨f, d, u, uv, fts⟩
    rw [hpi] at hi
    simp only at hi
    obtain ⟨rfl, rfl⟩ := hi
    simp only [inputItems, Bool.true_or, if_true]
    exact C56_leaves H d fts false x hx
  cases hmc : p.maxConcurrent with
  | none => exact ⟨none, by simp only [prepare, hok, if_true, hin, hmc, semaphore]⟩
  | some k =>
    have := hm k hmc
    exact ⟨some k.toNat, by simp only [prepare, hok, if_true, hin, hmc, semaphore]; rw [if_neg (by omega)]⟩

/-- C237, input: with `input_flatten` and `input_unique`, for hashable leaves, the first of each group of equal leaves. -/
theorem C237_unique_input (H : Hashing α) (he : IsEquiv H.eq) (p : Params) (hi : p.inp.flatten = true ∧ p.inp.unique = true) (fn : Func)
    (hf : fn = .callable ∨ fn = .iterable [true]) (hm : ∀ k, p.maxConcurrent = some k → 0 ≤ k) (keys : List (Val α)) (x : Input α) (hx : WfInput x)
    (hh : ∀ v ∈ (leaves p.inp.fts (initial false x)).filter (fun v => !(p.inp.dropna && isNa v)), (H.hash v).isSome) :
    ∃ k, prepare H p fn keys x = .ok (firsts H.eq ((leaves p.inp.fts (initial false x)).filter (fun v => !(p.inp.dropna && isNa v))), k) := by
  have hok : funcOk fn = true := by rcases hf with h | h <;> subst h <;> rfl
  have hin : inputItems H p.inp keys x = .ok (firsts H.eq ((leaves p.inp.fts (initial false x)).filter (fun v => !(p.inp.dropna && isNa v)))) := by
    rw [inputItems, if_pos (by simp [hi.1])]
    exact C57_hashable_partial H he { p.inp with useValues := false } x hx hi.2 hi.1 hh
  cases hmc : p.maxConcurrent with
  | none => exact ⟨none, by simp only [prepare, hok, if_true, hin, hmc, semaphore]⟩
  | some k =>
    have := hm k hmc
    exact ⟨some k.toNat, by simp only [prepare, hok, if_true, hin, hmc, semaphore]; rw [if_neg (by omega)]⟩

/-- C237, output: with `output_flatten` (and without `output_unique`) every completed call returns the leaves of the items' objects, in input order, without the
undefined ones if `output_dropna`. -/
theorem C237_flat_output {H : Hashing α} {O : Objects α} (hO : Proper O) {p : Params} (ho : p.out.flatten = true ∧ p.out.unique = false) {fn : Func}
    {script : Nat → Val α → Nat → Outcome} {keys : List (Val α)} {x : Input α} {acts : List Act} (hu : Undisturbed acts) {l : List (Val α)} {k : Option Nat}
    (hp : prepare H p fn keys x = .ok (l, k)) (hc : Calm p script l) {e : End α} (h : alcall H O p fn script keys x acts = some e) :
    e = .values (((objects O p script l).flatMap (leaves p.out.fts)).filter (fun v => !(p.out.dropna && isNa v))) := by
  rw [alcall_calm hp hu hc h, output]
  rcases hpo : p.out with ⟨f, d, u, uv, fts⟩
  rw [hpo] at ho
  simp only at ho
  obtain ⟨rfl, rfl⟩ := ho
  have hw : WfInput (.seq .list (ofList (objects O p script l)) : Input α) := wf_ofList _ (objects_wf hO p script l)
  simp only [C56_leaves H d fts false _ hw, initial, leaves_ofList]

/-- C237, output: with `output_flatten` and `output_unique`, for hashable leaves, the first of each group of equal ones. -/
theorem C237_unique_output {H : Hashing α} (he : IsEquiv H.eq) {O : Objects α} (hO : Proper O) {p : Params} (ho : p.out.flatten = true ∧ p.out.unique = true) {fn : Func}
    {script : Nat → Val α → Nat → Outcome} {keys : List (Val α)} {x : Input α} {acts : List Act} (hu : Undisturbed acts) {l : List (Val α)} {k : Option Nat}
    (hp : prepare H p fn keys x = .ok (l, k)) (hc : Calm p script l)
    (hh : ∀ v ∈ ((objects O p script l).flatMap (leaves p.out.fts)).filter (fun v => !(p.out.dropna && isNa v)), (H.hash v).isSome)
    {e : End α} (h : alcall H O p fn script keys x acts = some e) :
    e = .values (firsts H.eq (((objects O p script l).flatMap (leaves p.out.fts)).filter (fun v => !(p.out.dropna && isNa v)))) := by
  rw [alcall_calm hp hu hc h, output]
  have hw : WfInput (.seq .list (ofList (objects O p script l)) : Input α) := wf_ofList _ (objects_wf hO p script l)
  have hk : kept { p.out with useValues := false } (.seq .list (ofList (objects O p script l)))
      = ((objects O p script l).flatMap (leaves p.out.fts)).filter (fun v => !(p.out.dropna && isNa v)) := by
    simp only [kept, initial, leaves_ofList]
  rw [C57_hashable_partial H he { p.out with useValues := false } _ hw ho.2 ho.1 (by rw [hk]; exact hh), hk]

/-- C237: whatever the options, when an item fails for good and exceptions are not to be returned, the call ends in an exception group that begins with the failure
of some item. -/
theorem C237_raises {H : Hashing α} {O : Objects α} {p : Params} (hr : p.returnExc = false) {fn : Func} {script : Nat → Val α → Nat → Outcome}
    {keys : List (Val α)} {x : Input α} {acts : List Act} (hu : Undisturbed acts) {l : List (Val α)} {k : Option Nat}
    (hp : prepare H p fn keys x = .ok (l, k)) (hn : ∀ i, i < l.length → itemEnd p script l i ≠ .cancelled)
    (hx : ∃ i, i < l.length ∧ (itemEnd p script l i).isOk = false) {e : End α} (h : alcall H O p fn script keys x acts = some e) :
    ∃ i rest, e = .group ((i, itemEnd p script l i) :: rest) ∧ i < l.length ∧ (itemEnd p script l i).isOk = false := by
  obtain ⟨f, h1, h2⟩ := alcall_ok hp h
  obtain ⟨i, rest, h3, h4, h5, _⟩ := failing (cfg p script l k) hr hn hx acts hu h1
  subst h3
  exact ⟨i, rest, h2, h4, h5⟩

/-- `alcall(((1, [2]), None), f, input_flatten=True, input_dropna=True, input_flatten_tuple_set=True, output_flatten=True)`. -/
example : alcall demoH demoObj { inp := { flatten := true, dropna := true, fts := true }, out := { flatten := true } } (.iterable [true]) demoScript []
    (.seq .tupleSet (ofList [.seq .tupleSet (ofList [.atom 1, .seq .list (ofList [.atom 2])]), .na])) demoActs
    = some (.values [.atom 0, .atom 1, .atom 10]) := rfl

/-- A function that fails on 2. -/
def demoFail : Nat → Val Int → Nat → Outcome := fun _ v k => if v = .atom 2 then .exc k else .ok 12

example : alcall demoH demoObj { retryAttempts := 1 } .callable demoFail [] (.seq .list (ofList [.atom 1, .atom 2])) [.start 0, .finish 0, .start 1, .finish 1]
    = some (.group [(1, .exc 1)]) := rfl

/-! ## C238: rejection of arguments -/

/-- Hashing that never meets a value without any hash. -/
def Total (H : Hashing α) : Prop := ∀ v, (fallbackKey H v).isSome

theorem uniqueHash_total {H : Hashing α} (ht : Total H) : ∀ (l : List (Val α)) (seen : List Int) (out : List (Val α)), ∃ r, uniqueHash H seen out l = .ok r
  | [], seen, out => ⟨out, rfl⟩
  | v :: vs, seen, out => by
    have hv := ht v
    cases hk : fallbackKey H v with
    | none => rw [hk] at hv; cases hv
    | some h =>
      simp only [uniqueHash, hk]
      by_cases hs : h ∈ seen
      · rw [if_pos hs]; exact uniqueHash_total ht vs _ _
      · rw [if_neg hs]; exact uniqueHash_total ht vs _ _

theorem toList_total {H : Hashing α} (ht : Total H) (o : Opts) (x : Input α) :
    (∃ r, toList H o x = .ok r) ∨ (o.unique = true ∧ o.flatten = false ∧ toList H o x = .error .valueError) := by
  rcases o with ⟨f, d, u, uv, fts⟩
  cases u with
  | false => exact Or.inl ⟨_, by simp only [toList, Bool.false_and, Bool.false_eq_true, if_false]; rfl⟩
  | true =>
    cases f with
    | false => exact Or.inr ⟨rfl, rfl, rfl⟩
    | true =>
      left
      simp only [toList, Bool.not_true, Bool.and_false, Bool.false_eq_true, if_false, if_true, unique]
      cases uniqueDirect H [] (process true d fts (initial uv x)) with
      | some out => exact ⟨out, rfl⟩
      | none => exact uniqueHash_total ht _ _ _

/-- Arguments that make `prepare` fail. -/
theorem prepare_error_iff {H : Hashing α} (ht : Total H) (p : Params) (fn : Func) (keys : List (Val α)) (x : Input α) :
    (∃ e, prepare H p fn keys x = .error e) ↔
      (fn = .other ∨ ∃ cs, fn = .iterable cs ∧ cs ≠ [true]) ∨ (∃ k, p.maxConcurrent = some k ∧ k < 0) ∨
        (p.inp.dropna = true ∧ p.inp.unique = true ∧ p.inp.flatten = false) := by
  have hfn : funcOk fn = false ↔ (fn = .other ∨ ∃ cs, fn = .iterable cs ∧ cs ≠ [true]) := by
    cases fn with
    | callable => simp [funcOk]
    | other => simp [funcOk]
    | iterable cs => simp [funcOk]
  have hin : (∃ e, inputItems H p.inp keys x = .error e) ↔ (p.inp.dropna = true ∧ p.inp.unique = true ∧ p.inp.flatten = false) := by
    rcases hi : p.inp with ⟨f, d, u, uv, fts⟩
    simp only [inputItems]
    by_cases hfd : (f || d) = true
    · rw [if_pos hfd]
      rcases toList_total ht ⟨f, d, u, false, fts⟩ x with ⟨r, hr⟩ | ⟨h1, h2, h3⟩
      · simp only [hr]
        constructor
        · rintro ⟨e, he⟩; cases he
        · rintro ⟨rfl, rfl, rfl⟩
          simp [toList] at hr
      · simp only at h1 h2
        subst h1; subst h2
        simp only [Bool.false_or] at hfd
        subst hfd
        simp [h3]
    · rw [if_neg hfd]
      simp only [Bool.or_eq_true, not_or, Bool.not_eq_true] at hfd
      obtain ⟨rfl, rfl⟩ := hfd
      simp
  have hsem : (∃ e, semaphore p.maxConcurrent = .error e) ↔ ∃ k, p.maxConcurrent = some k ∧ k < 0 := by
    cases hm : p.maxConcurrent with
    | none => simp [semaphore]
    | some k =>
      simp only [semaphore]
      by_cases hk : k < 0
      · rw [if_pos hk]; simp [hk]
      · rw [if_neg hk]; simp [hk]
  rw [← hfn, ← hin, ← hsem]
  simp only [prepare]
  cases hf : funcOk fn with
  | false => simp
  | true =>
    simp only [if_true]
    cases hii : inputItems H p.inp keys x with
    | error e => simp
    | ok l =>
      simp only
      cases hs : semaphore p.maxConcurrent with
      | error e => simp
      | ok k => simp

theorem prepare_error_value {H : Hashing α} (p : Params) (fn : Func) (keys : List (Val α)) (x : Input α) {e : Exc} (h : prepare H p fn keys x = .error e) :
    e = .valueError := by
  have hu : ∀ (l : List (Val α)) (seen : List Int) (out : List (Val α)) (e : Exc), uniqueHash H seen out l = .error e → e = .valueError := by
    intro l
    induction l with
    | nil => intro seen out e h; simp [uniqueHash] at h
    | cons v vs ih =>
      intro seen out e h
      simp only [uniqueHash] at h
      cases hk : fallbackKey H v with
      | none => rw [hk] at h; injection h with h; exact h.symm
      | some hv =>
        rw [hk] at h
        simp only at h
        by_cases hs : hv ∈ seen
        · rw [if_pos hs] at h; exact ih _ _ _ h
        · rw [if_neg hs] at h; exact ih _ _ _ h
  have ht : ∀ (o : Opts) (e : Exc), toList H o x = .error e → e = .valueError := by
    intro o e h
    simp only [toList] at h
    split at h
    · injection h with h; exact h.symm
    · split at h
      · simp only [unique] at h
        split at h
        · cases h
        · exact hu _ _ _ _ h
      · cases h
  simp only [prepare] at h
  cases hf : funcOk fn with
  | false => rw [hf] at h; injection h with h; exact h.symm
  | true =>
    rw [hf] at h
    simp only [if_true] at h
    cases hi : inputItems H p.inp keys x with
    | error e' =>
      rw [hi] at h
      injection h with h
      subst h
      simp only [inputItems] at hi
      split at hi
      · exact ht _ _ hi
      · cases hi
    | ok l =>
      rw [hi] at h
      simp only at h
      cases hs : semaphore p.maxConcurrent with
      | error e' =>
        rw [hs] at h
        injection h with h
        subst h
        cases hm : p.maxConcurrent with
        | none => rw [hm] at hs; cases hs
        | some k =>
          rw [hm] at hs
          simp only [semaphore] at hs
          split at hs
          · injection hs with hs; exact hs.symm
          · cases hs
      | ok k => rw [hs] at h; cases h

/-- C238: for an input with at least one item, the arguments that are rejected with `ValueError` before the function is called, whatever it would do and however the
call is scheduled, are exactly these: not one callable, a negative `max_concurrent`, `input_dropna` with `input_unique` but without `input_flatten`. -/
theorem C238_exact_partial {H : Hashing α} (ht : Total H) (O : Objects α) (p : Params) (fn : Func) (keys : List (Val α)) (x : Input α)
    (hx : ∀ l k, prepare H p fn keys x = .ok (l, k) → l ≠ []) :
    (∀ script acts, alcall H O p fn script keys x acts = some (.failed .valueError) ∧ called H p fn script keys x acts = []) ↔
      (fn = .other ∨ ∃ cs, fn = .iterable cs ∧ cs ≠ [true]) ∨ (∃ k, p.maxConcurrent = some k ∧ k < 0) ∨
        (p.inp.dropna = true ∧ p.inp.unique = true ∧ p.inp.flatten = false) := by
  rw [← prepare_error_iff ht p fn keys x]
  constructor
  · intro h
    cases hp : prepare H p fn keys x with
    | error e => exact ⟨e, rfl⟩
    | ok r =>
      obtain ⟨l, k⟩ := r
      have hne := hx l k hp
      have h1 := (h (fun _ _ _ => .ok 0) []).1
      obtain ⟨f, h2, _⟩ := alcall_ok hp h1
      cases l with
      | nil => exact absurd rfl hne
      | cons a as =>
        have h3 := final_ended h2 0 (by show 0 < (a :: as).length; simp)
        cases h3
  · rintro ⟨e, he⟩ script acts
    have hv := prepare_error_value p fn keys x he
    subst hv
    exact ⟨by simp only [alcall, he], by simp only [called, he]⟩

/-- C238: `output_unique` without `output_flatten`: every call that completes, whatever the items did otherwise, ends in `ValueError`, although all items were run. -/
theorem C238_output_unique_violation {H : Hashing α} {O : Objects α} {p : Params} (ho : p.out.unique = true ∧ p.out.flatten = false) {fn : Func}
    {script : Nat → Val α → Nat → Outcome} {keys : List (Val α)} {x : Input α} {acts : List Act} (hu : Undisturbed acts) {l : List (Val α)} {k : Option Nat}
    (hp : prepare H p fn keys x = .ok (l, k)) (hc : Calm p script l) {e : End α} (h : alcall H O p fn script keys x acts = some e) :
    e = .failed .valueError ∧ called H p fn script keys x acts = l := by
  refine ⟨?_, ?_⟩
  · rw [alcall_calm hp hu hc h, output]
    simp only [toList, ho.1, ho.2, Bool.not_false, Bool.and_self, if_true]
  · obtain ⟨f, h1, _⟩ := alcall_ok hp h
    have he := final_ended h1
    simp only [called, hp]
    have hf : (List.range l.length).filter (fun i => (run (cfg p script l k) acts).st i != .waiting) = List.range l.length := by
      apply List.filter_eq_self.2
      intro i hi
      have := he i (List.mem_range.1 hi)
      rw [this]; rfl
    rw [hf]
    apply List.ext_getElem?
    intro i
    rw [List.getElem?_map]
    by_cases hi : i < l.length
    · rw [List.getElem?_range hi, List.getElem?_eq_getElem hi]
      simp [List.getD_eq_getElem?_getD, List.getElem?_eq_getElem hi]
    · rw [List.getElem?_eq_none (by simpa using hi), List.getElem?_eq_none (by simpa using hi)]; rfl

/-- The case: `alcall([1, 2], f, output_unique=True)`; and `alcall([2, 2], f, input_unique=True)` calls the function twice. -/
theorem C238_unique_violation :
    (alcall demoH demoObj { out := { unique := true } } .callable demoScript [] (.seq .list (ofList [.atom 1, .atom 2])) demoActs = some (.failed .valueError)
        ∧ called demoH { out := { unique := true } } .callable demoScript [] (.seq .list (ofList [.atom 1, .atom 2])) demoActs = [.atom 1, .atom 2])
      ∧ called demoH { inp := { unique := true } } .callable demoScript [] (.seq .list (ofList [.atom 2, .atom 2])) demoActs = [.atom 2, .atom 2] :=
  ⟨⟨rfl, rfl⟩, rfl⟩

example : prepare demoH { maxConcurrent := some (-1) } .callable [] (.seq .list (ofList [.atom 1, .atom 2])) = .error .valueError := rfl

/-! ## `bcall`: C44, C239, C240 -/

/-- The items `bcall` works on: the leaves of the input, without the undefined ones. -/
def bcallItems (x : Input α) : List (Val α) := (leaves false (initial false x)).filter (fun v => !isNa v)

theorem bcall_items (H : Hashing α) (x : Input α) (hx : WfInput x) : toList H { flatten := true, dropna := true } x = .ok (bcallItems x) := by
  have := C56_leaves H true false false x hx
  rw [this]
  simp [bcallItems]

theorem bcall_eq (H : Hashing α) (O : Objects α) (p : Params) (fn : Func) (script : Nat → Nat → Val α → Nat → Outcome) (x : Input α) (hx : WfInput x)
    (size : Nat) (hs : 0 < size) (acts : Nat → List Act) :
    bcall H O p fn script x size acts = loop (oneBatch H O p fn script acts) 0 (batches (bcallItems x) size) := by
  simp only [bcall, bcall_items H x hx, batchesOf]
  rw [if_neg (by omega), if_neg (by omega)]
  simp

/-- How the loop goes: either all batches give lists, or the first that does not, at `j`, ends it. -/
theorem loop_spec (one : Nat → List (Val α) → Option (End α)) : ∀ (bs : List (List (Val α))) (k : Nat),
    ((∀ j b, bs[j]? = some b → ∃ r, one (k + j) b = some (.values r)) ∧ (loop one k bs).entered = bs ∧ (∃ rs, (loop one k bs).yielded = rs ∧ rs.length = bs.length ∧
        ∀ j b r, bs[j]? = some b → rs[j]? = some r → one (k + j) b = some (.values r)) ∧ (loop one k bs).stop = .exhausted) ∨
    (∃ j b, bs[j]? = some b ∧ (∀ r, one (k + j) b ≠ some (.values r)) ∧ (loop one k bs).entered = bs.take (j + 1) ∧ (loop one k bs).yielded.length = j ∧
        (∀ i b' r, i < j → bs[i]? = some b' → (loop one k bs).yielded[i]? = some r → one (k + i) b' = some (.values r)) ∧
        ((∃ e, one (k + j) b = some e ∧ (loop one k bs).stop = .raised e) ∨ (one (k + j) b = none ∧ (loop one k bs).stop = .waiting)))
  | [], k => Or.inl ⟨fun j b h => by simp at h, rfl, ⟨[], rfl, rfl, fun j b r h => by simp at h⟩, rfl⟩
  | b :: bs, k => by
    have hbad : ∀ e : Option (End α), one k b = e → (∀ r, e ≠ some (.values r)) →
        (loop one k (b :: bs)).entered = [b] ∧ (loop one k (b :: bs)).yielded = [] ∧
          ((∃ e', e = some e' ∧ (loop one k (b :: bs)).stop = .raised e') ∨ (e = none ∧ (loop one k (b :: bs)).stop = .waiting)) := by
      intro e he hne
      cases e with
      | none => simp [loop, he]
      | some e =>
        cases e with
        | values r => exact absurd rfl (hne r)
        | failed e => simp [loop, he]
        | group e => simp [loop, he]
        | cancelled => simp [loop, he]
    by_cases hv : ∃ r, one k b = some (.values r)
    · obtain ⟨r, hr⟩ := hv
      have e : loop one k (b :: bs) = (loop one (k + 1) bs).push b r := by simp only [loop, hr]
      rw [e]
      rcases loop_spec one bs (k + 1) with ⟨h1, h2, ⟨rs, h3, h4, h5⟩, h6⟩ | ⟨j, b', h1, h2, h3, h4, h5, h6⟩
      · left
        refine ⟨?_, by simp only [Gen.push, h2], ⟨r :: rs, by simp only [Gen.push, h3], by simp [h4], ?_⟩, h6⟩
        · intro j b' hb
          cases j with
          | zero => simp only [List.getElem?_cons_zero, Option.some.injEq] at hb; subst hb; exact ⟨r, hr⟩
          | succ j =>
            rw [List.getElem?_cons_succ] at hb
            obtain ⟨r', hr'⟩ := h1 j b' hb
            exact ⟨r', by rw [show k + (j + 1) = k + 1 + j by omega]; exact hr'⟩
        · intro j b' r' hb hr'
          cases j with
          | zero =>
            simp only [List.getElem?_cons_zero, Option.some.injEq] at hb hr'
            subst hb; subst hr'; exact hr
          | succ j =>
            rw [List.getElem?_cons_succ] at hb hr'
            rw [show k + (j + 1) = k + 1 + j by omega]
            exact h5 j b' r' hb hr'
      · right
        have hkj : k + (j + 1) = k + 1 + j := by omega
        refine ⟨j + 1, b', by rw [List.getElem?_cons_succ]; exact h1, by rw [hkj]; exact h2, by simp only [Gen.push, h3, List.take_succ_cons],
          by simp [Gen.push, h4], ?_, by rw [hkj]; exact h6⟩
        intro i b'' r' hi hb hr'
        cases i with
        | zero =>
          simp only [Gen.push, List.getElem?_cons_zero, Option.some.injEq] at hb hr'
          subst hb; subst hr'; exact hr
        | succ i =>
          simp only [Gen.push, List.getElem?_cons_succ] at hb hr'
          rw [show k + (i + 1) = k + 1 + i by omega]
          exact h5 i b'' r' (by omega) hb hr'
    · right
      have hne : ∀ r, one k b ≠ some (.values r) := fun r hr => hv ⟨r, hr⟩
      obtain ⟨h1, h2, h3⟩ := hbad _ rfl hne
      exact ⟨0, b, rfl, hne, by rw [h1]; rfl, by rw [h2]; rfl, fun i b' r hi => by omega, h3⟩

/-- C44, end to end: the batches handed to `alcall` are, in order and from the first on, batches of the leaves of the input without the undefined ones; if the
generator runs to its end they are all of them, so that together they are the leaves. -/
theorem C44_bcall (H : Hashing α) (O : Objects α) (p : Params) (fn : Func) (script : Nat → Nat → Val α → Nat → Outcome) (x : Input α) (hx : WfInput x)
    (size : Nat) (hs : 0 < size) (acts : Nat → List Act) :
    (∃ n, (bcall H O p fn script x size acts).entered = (batches (bcallItems x) size).take n) ∧
      ((bcall H O p fn script x size acts).stop = .exhausted → (bcall H O p fn script x size acts).entered.flatten = bcallItems x) := by
  rw [bcall_eq H O p fn script x hx size hs acts]
  rcases loop_spec (oneBatch H O p fn script acts) (batches (bcallItems x) size) 0 with ⟨h1, h2, _, h6⟩ | ⟨j, b, h1, h2, h3, h4, h5, h6⟩
  · refine ⟨⟨_, h2.trans (List.take_length).symm⟩, fun _ => ?_⟩
    rw [h2, C44_concat _ size hs]
  · refine ⟨⟨_, h3⟩, fun he => ?_⟩
    rcases h6 with ⟨e, _, h⟩ | ⟨_, h⟩ <;> rw [h] at he <;> cases he

/-- C239: if the calls for all batches complete and every item ends with a value, or exceptions are to be returned, then without options the generator yields one
list per batch, in order, with the items' objects, and is then exhausted. -/
theorem C239_all {H : Hashing α} {O : Objects α} (hO : Proper O) {p : Params} (hi : p.inp = {}) (ho : p.out = {}) (hm : ∀ k, p.maxConcurrent = some k → 0 ≤ k)
    (script : Nat → Nat → Val α → Nat → Outcome) (x : Input α) (hx : WfInput x) (size : Nat) (hs : 0 < size) (acts : Nat → List Act)
    (hu : ∀ k, Undisturbed (acts k)) (hc : ∀ k b, (batches (bcallItems x) size)[k]? = some b → Calm p (script k) b)
    (hw : (bcall H O p .callable script x size acts).stop ≠ .waiting) :
    (bcall H O p .callable script x size acts).stop = .exhausted ∧
      (bcall H O p .callable script x size acts).yielded.length = (batches (bcallItems x) size).length ∧
      ∀ (k : Nat) (b r : List (Val α)), (batches (bcallItems x) size)[k]? = some b → (bcall H O p .callable script x size acts).yielded[k]? = some r →
        r = (objects O p (script k) b).map listed := by
  have hone : ∀ (k : Nat) (b : List (Val α)) (e : End α), (batches (bcallItems x) size)[k]? = some b →
      oneBatch H O p .callable script acts k b = some e → e = .values ((objects O p (script k) b).map listed) := by
    intro k b e hb he
    obtain ⟨kk, hp⟩ := C237_plain_input H p (by rw [hi]; exact ⟨rfl, rfl⟩) .callable (Or.inl rfl) hm [] b .list
    exact C236_results hO ho (hu k) hp (hc k b hb) he
  rw [bcall_eq H O p .callable script x hx size hs acts] at hw ⊢
  rcases loop_spec (oneBatch H O p .callable script acts) (batches (bcallItems x) size) 0 with ⟨h1, h2, ⟨rs, h3, h4, h5⟩, h6⟩ | ⟨j, b, h1, h2, h3, h4, h5, h6⟩
  · refine ⟨h6, by rw [h3, h4], ?_⟩
    intro k b r hb hr
    rw [h3] at hr
    have h7 := h5 k b r hb hr
    rw [Nat.zero_add] at h7
    have h8 := hone k b _ hb h7
    injection h8
  · rw [Nat.zero_add] at h6 h2
    rcases h6 with ⟨e, he, h⟩ | ⟨_, h⟩
    · have h8 := hone j b e h1 he
      subst h8
      exact absurd he (h2 _)
    · exact absurd h hw

/-- C239: whatever the options, when the call for batch `j` is the first that raises, the generator has yielded exactly the lists of the earlier batches, raises what the
call raised, and hands no later batch to `alcall`. -/
theorem C239_first_failure (H : Hashing α) (O : Objects α) (p : Params) (fn : Func) (script : Nat → Nat → Val α → Nat → Outcome) (x : Input α) (hx : WfInput x)
    (size : Nat) (hs : 0 < size) (acts : Nat → List Act) (j : Nat) (b : List (Val α)) (hb : (batches (bcallItems x) size)[j]? = some b) (e : End α)
    (he : oneBatch H O p fn script acts j b = some e) (hne : ∀ r, e ≠ .values r)
    (hok : ∀ i b', i < j → (batches (bcallItems x) size)[i]? = some b' → ∃ r, oneBatch H O p fn script acts i b' = some (.values r)) :
    (bcall H O p fn script x size acts).stop = .raised e ∧
      (bcall H O p fn script x size acts).entered = (batches (bcallItems x) size).take (j + 1) ∧
      (bcall H O p fn script x size acts).yielded.length = j ∧
      ∀ i b' r, i < j → (batches (bcallItems x) size)[i]? = some b' → (bcall H O p fn script x size acts).yielded[i]? = some r →
        oneBatch H O p fn script acts i b' = some (.values r) := by
  rw [bcall_eq H O p fn script x hx size hs acts]
  rcases loop_spec (oneBatch H O p fn script acts) (batches (bcallItems x) size) 0 with ⟨h1, _⟩ | ⟨j', b', h1, h2, h3, h4, h5, h6⟩
  · obtain ⟨r, hr⟩ := h1 j b hb
    rw [Nat.zero_add, he] at hr
    injection hr with hr
    exact absurd hr (hne r)
  · rw [Nat.zero_add] at h2 h6
    have hjj : j' = j := by
      rcases Nat.lt_trichotomy j' j with h | h | h
      · obtain ⟨r, hr⟩ := hok j' b' h h1
        exact absurd hr (h2 r)
      · exact h
      · exfalso
        have hlt : j < (loop (oneBatch H O p fn script acts) 0 (batches (bcallItems x) size)).yielded.length := by rw [h4]; exact h
        have h7 := h5 j b _ h hb (List.getElem?_eq_getElem hlt)
        rw [Nat.zero_add, he] at h7
        injection h7 with h7
        exact hne _ h7
    subst hjj
    rw [hb] at h1
    injection h1 with h1
    subst h1
    refine ⟨?_, h3, h4, ?_⟩
    · rcases h6 with ⟨e', he', h⟩ | ⟨hn, _⟩
      · rw [he] at he'
        injection he' with he'
        subst he'
        exact h
      · rw [he] at hn; cases hn
    · intro i b' r hi hb' hr
      have := h5 i b' r hi hb' hr
      rwa [Nat.zero_add] at this

/-- Three batches; the second fails. -/
example :
    let g := bcall demoH demoObj {} .callable (fun _ => demoFail) (.seq .tupleSet (ofList [.atom 1, .na, .seq .list (ofList [.atom 3, .atom 2]), .atom 4, .atom 5])) 2
      (fun _ => [.start 0, .finish 0, .start 1, .finish 1])
    g.yielded = [[.atom 10, .atom 10]] ∧ g.entered = [[.atom 1, .atom 3], [.atom 2, .atom 4]] := ⟨rfl, rfl⟩

/-- C240: `bcall` raises because of its batch size exactly if that is 0; and nothing is called then. -/
theorem C240_exact_partial (H : Hashing α) (O : Objects α) (p : Params) (fn : Func) (script : Nat → Nat → Val α → Nat → Outcome) (x : Input α) (hx : WfInput x)
    (size : Int) (hs : size ≤ 0) (acts : Nat → List Act) :
    (bcall H O p fn script x size acts).entered = [] ∧
      (bcall H O p fn script x size acts).stop = if size = 0 then .raised (.failed .valueError) else .exhausted := by
  simp only [bcall, bcall_items H x hx, batchesOf]
  by_cases h0 : size = 0
  · rw [if_pos h0, if_pos h0]; exact ⟨rfl, rfl⟩
  · rw [if_neg h0, if_neg h0, if_pos (by omega)]; exact ⟨rfl, rfl⟩

/-- `bcall([1, 2], f, -1)` yields nothing, calls nothing and raises nothing. -/
theorem C240_negative_violation (acts : Nat → List Act) :
    bcall demoH demoObj {} .callable (fun _ => demoScript) (.seq .list (ofList [.atom 1, .atom 2])) (-1) acts = ⟨[], [], .exhausted⟩ := rfl

end Verif.Alcall
