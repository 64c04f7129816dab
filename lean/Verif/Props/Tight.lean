import Verif.Props.FlowExact
import Verif.Props.ToList
import Verif.Props.Patterns
import Verif.Props.Processor

/-!
# Further exact statements

Outcomes that earlier theorems left open: adding a progression (C12), the members of an input (C56), the elements lcall works on (C58),
the errors of `to_list` (C57), leaving a stream (C101).
-/

set_option linter.unusedSectionVars false
set_option linter.unusedSimpArgs false
set_option linter.unusedVariables false

namespace Verif.Flow

variable {ι γ δ : Type} [DecidableEq ι] [DecidableEq γ]

theorem modify_untyped (pp : Pile ι Unit (ProgData ι)) (u : ι) (g : List ι → List ι) : (modify pp u g).itemType = pp.itemType := by
  unfold modify; split <;> rfl

theorem dropEverywhere_untyped (uid : ι) (us : List ι) : ∀ pp : Pile ι Unit (ProgData ι), (dropEverywhere pp uid us).1.itemType = pp.itemType := by
  induction us with
  | nil => intro pp; rfl
  | cons u us ih =>
    intro pp
    simp only [dropEverywhere]
    split
    · rfl
    · rw [ih, modify_untyped]

theorem appendAll_untyped (x : ι) (as : List (ProgArg ι)) : ∀ f : Flow ι γ δ, (appendAll f x as).1.progs.itemType = f.progs.itemType := by
  induction as with
  | nil => intro f; rfl
  | cons a as ih =>
    intro f
    cases a with
    | foreign => exact ih f
    | member u => simp only [appendAll]; rw [ih]; exact modify_untyped _ _ _
    | key k =>
      simp only [appendAll]
      split
      · rfl
      · rw [ih]; exact modify_untyped _ _ _

theorem remove_untyped (pp : Pile ι Unit (ProgData ι)) (r : Ref ι) : (Pile.remove pp r).1.itemType = pp.itemType := by
  cases r with
  | none => rfl
  | some u =>
    simp only [Pile.remove]
    split
    · rfl
    · split <;> rfl

theorem dropProgression_untyped (f : Flow ι γ δ) (u : ι) : (dropProgression f u).1.progs.itemType = f.progs.itemType := by
  have h := remove_untyped f.progs (some u)
  unfold dropProgression
  split
  · next hp => rw [hp] at h; exact h
  · next hp => rw [hp] at h; exact h

theorem removeById_untyped (f : Flow ι γ δ) (r : Ref ι) : (removeById f r).1.progs.itemType = f.progs.itemType := by
  unfold removeById
  split
  · rfl
  · split
    · rfl
    · rw [dropProgression_untyped]

theorem step_untyped (sub : γ → γ → Bool) (f : Flow ι γ δ) (op : Op ι γ δ) : (step sub f op).1.progs.itemType = f.progs.itemType := by
  cases op with
  | addProgression p =>
    simp only [step]
    rcases addProgression_cases f p with ⟨e, he⟩ | ⟨_, _, _, he⟩ <;> rw [he]
  | removeProgression k =>
    simp only [step]
    cases k with
    | ref r => exact removeById_untyped f r
    | str k =>
      simp only [removeProgression]
      split
      · split
        · rfl
        · rw [dropProgression_untyped]
      · exact removeById_untyped f _
  | addItem a as =>
    simp only [step, addItem]
    split
    · rfl
    · split
      · rfl
      · rw [appendAll_untyped]
  | removeItem r =>
    simp only [step]
    cases r with
    | none => rfl
    | some u =>
      have h := dropEverywhere_untyped u f.progs.order f.progs
      simp only [removeItem]
      split
      · next hp => rw [hp] at h; exact h
      · next hp => rw [hp] at h; exact h

theorem run_untyped (sub : γ → γ → Bool) (ops : List (Op ι γ δ)) : ∀ f : Flow ι γ δ, (run sub f ops).progs.itemType = f.progs.itemType := by
  induction ops with
  | nil => intro f; rfl
  | cons op ops ih =>
    intro f
    show (run sub (step sub f op).1 ops).progs.itemType = _
    rw [ih, step_untyped]

theorem Built.untyped {sub : γ → γ → Bool} {xs : List (Pile.Arg ι γ δ)} {t : Option (List γ)} {s : Bool}
    {ps : List (Prog ι)} {f0 : Flow ι γ δ} (h : Built sub xs t s ps f0) : f0.progs.itemType = none := by
  obtain ⟨items, _, h2⟩ := h
  simp only [mk'] at h2
  split at h2
  · cases h2
  · next pp hp =>
    have := (Pile.addAll_spec anySub (Pile.inv_empty none false none) (ps.map some))
    split at h2
    · cases h2
    · split at h2
      · cases h2
      · cases h2
        exact (this pp hp).2.1

/-- **C12**, adding a progression: it is accepted exactly when its id is new, no progression of the flow bears its name (if it has one), and
all the ids it lists are stored; it then comes last and nothing else changes. -/
theorem C12_add_exact (sub : γ → γ → Bool) (xs : List (Pile.Arg ι γ δ)) (t : Option (List γ)) (s : Bool)
    (ps : List (Prog ι)) (f0 : Flow ι γ δ) (h : Built sub xs t s ps f0) (hd : DistinctNames ps) (ops : List (Op ι γ δ))
    (L : List (Prog ι)) (I : List (Item ι γ δ)) (hL : Pile.iter (run sub f0 ops).progs = .ok L) (hI : Pile.iter (run sub f0 ops).items = .ok I)
    (p : Prog ι) :
    ((addProgression (run sub f0 ops) p).2 = .ok () ↔
      (∀ q ∈ L, q.id ≠ p.id) ∧ (∀ n, p.data.name = some n → n ≠ "" → ∀ q ∈ L, q.data.name ≠ some n) ∧ ∀ u ∈ p.data.order, ∃ x ∈ I, x.id = u) ∧
    ((addProgression (run sub f0 ops) p).2 = .ok () →
      Pile.iter (addProgression (run sub f0 ops) p).1.progs = .ok (L ++ [p]) ∧ (addProgression (run sub f0 ops) p).1.items = (run sub f0 ops).items) ∧
    ((addProgression (run sub f0 ops) p).2 ≠ .ok () → (addProgression (run sub f0 ops) p).1 = run sub f0 ops) := by
  have hg := (h.good hd).run sub ops
  have hu : (run sub f0 ops).progs.itemType = none := by rw [run_untyped, h.untyped]
  generalize run sub f0 ops = f at hg hL hI hu ⊢
  rw [Pile.iter_eq hg.piles.progs] at hL; cases hL
  rw [Pile.iter_eq hg.piles.items] at hI; cases hI
  have hid : (∀ q ∈ Pile.abs f.progs, q.id ≠ p.id) ↔ p.id ∉ f.progs.items.keys := by
    rw [← hg.piles.progs.mem_iff, ← Pile.abs_ids hg.piles.progs]
    simp only [List.mem_map, not_exists, not_and]
  have hname : (∀ n, p.data.name = some n → n ≠ "" → ∀ q ∈ Pile.abs f.progs, q.data.name ≠ some n) ↔ nameTaken f.names p = false := by
    unfold nameTaken
    cases hn : truthy p.data.name with
    | none =>
      refine ⟨fun _ => rfl, fun _ n h1 h2 => ?_⟩
      rw [(truthy_eq_some_iff _ _).2 ⟨h1, h2⟩] at hn; cases hn
    | some n =>
      have hn' := (truthy_eq_some_iff _ _).1 hn
      simp only
      constructor
      · intro H
        cases hh : f.names.has n with
        | false => rfl
        | true =>
          have hk := (Dict.has_iff _ _).1 hh
          obtain ⟨u, hu'⟩ := Option.isSome_iff_exists.1 ((Dict.get?_isSome_iff _ _).2 hk)
          obtain ⟨q, hq, hqn⟩ := (hg.names n u).1 hu'
          have hid := hg.piles.progs.ids u q hq
          exact absurd ((truthy_eq_some_iff _ _).1 hqn).1 (H n hn'.1 hn'.2 q ((Pile.mem_abs hg.piles.progs q).2 (by rw [hid]; exact hq)))
      · intro H m hm hm2 q hq hqm
        rw [hn'.1] at hm; cases hm
        have h1 := (hg.names n q.id).2 ⟨q, (Pile.mem_abs hg.piles.progs q).1 hq, (truthy_eq_some_iff _ _).2 ⟨hqm, hm2⟩⟩
        have := (Dict.has_iff _ _).2 (Dict.mem_keys_of_get? h1)
        rw [H] at this; cases this
  have hmiss : (∀ u ∈ p.data.order, ∃ x ∈ Pile.abs f.items, x.id = u) ↔ missing f.items p.data.order = false := by
    have e : ∀ u, (∃ x ∈ Pile.abs f.items, x.id = u) ↔ u ∈ f.items.order := by
      intro u; rw [← Pile.abs_ids hg.piles.items]; simp only [List.mem_map]
    simp only [e]
    unfold missing
    rw [List.any_eq_false]
    simp only [Pile.keys, Bool.not_eq_true', decide_eq_false_iff_not, Decidable.not_not, Bool.not_eq_false]
    exact ⟨fun H x hx => decide_eq_true (H x hx), fun H x hx => of_decide_eq_true (H x hx)⟩
  have hval : Pile.validType anySub f.progs.itemType f.progs.strict p = true := by rw [hu]; rfl
  rw [hid, hname, hmiss]
  rcases addProgression_cases f p with ⟨e, he⟩ | ⟨h1, h2, h3, he⟩
  · rw [he]
    refine ⟨⟨fun h' => (by cases h'), ?_⟩, fun h' => (by cases h'), fun _ => rfl⟩
    rintro ⟨h1, h2, h3⟩
    rw [addProgression, if_neg (by rw [h2]; simp), if_neg (by rw [h3]; simp), Pile.add, if_neg (by rw [hval]; simp),
      if_neg (by rw [Dict.has_iff]; exact h1)] at he
    exact absurd (congrArg Prod.snd he) (by simp)
  · rw [he]
    refine ⟨⟨fun _ => ⟨h3, h1, h2⟩, fun _ => rfl⟩, fun _ => ⟨?_, rfl⟩, fun h' => absurd rfl h'⟩
    have := Pile.abs_add hg.piles.progs p h3
    exact (Pile.iter_eq this.1).trans (congrArg _ this.2)

end Verif.Flow

namespace Verif.ToList

variable {α : Type}

/-! ## Members of an input -/

/-- What `to_list` takes as the members of an input: nothing for an undefined one, the members of a sequence, the members or values of an
enumeration class, the whole of a text or mapping or its characters or values, the whole of any other value. -/
inductive Members : Bool → Input α → List (Val α) → Prop
  | na (uv : Bool) : Members uv .na []
  | seq (uv : Bool) (k : Kind) (l : List (Val α)) : Members uv (.seq k (ofList l)) l
  | enumMembers (ms vs : List (Val α)) : Members false (.enumClass ms vs) ms
  | enumValues (ms vs : List (Val α)) : Members true (.enumClass ms vs) vs
  | text (w : Val α) (cs : List (Val α)) : Members false (.text w cs) [w]
  | textChars (w : Val α) (cs : List (Val α)) : Members true (.text w cs) cs
  | mapping (w : Val α) (vs : List (Val α)) : Members false (.mapping w vs) [w]
  | mappingValues (w : Val α) (vs : List (Val α)) : Members true (.mapping w vs) vs
  | model (uv : Bool) (w : Val α) (ps : List (Val α)) : Members uv (.model w ps) [w]
  | single (uv : Bool) (v : Val α) : Members uv (.single v) [v]

/-- C56, inputs of every kind: `to_list` gives the same as for the list of the members of the input. -/
theorem C56_members (H : Hashing α) (o : Opts) (x : Input α) (l : List (Val α)) (h : Members o.useValues x l) :
    toList H o x = toList H o (.seq .list (ofList l)) := by
  have key : initial o.useValues x = ofList l := by
    generalize o.useValues = uv at h ⊢
    cases h <;> rfl
  have key2 : initial o.useValues (.seq .list (ofList l) : Input α) = ofList l := rfl
  simp only [toList, key, key2]

/-- Every input whose sequence is a proper list of members has members. -/
theorem C56_members_exist (uv : Bool) (x : Input α) (h : ∀ k v, x = .seq k v → ∃ l, v = ofList l) : ∃ l, Members uv x l := by
  cases x with
  | na => exact ⟨_, .na uv⟩
  | seq k v => obtain ⟨l, rfl⟩ := h k v rfl; exact ⟨l, .seq uv k l⟩
  | enumClass ms vs => cases uv <;> exact ⟨_, by constructor⟩
  | text w cs => cases uv <;> exact ⟨_, by constructor⟩
  | mapping w vs => cases uv <;> exact ⟨_, by constructor⟩
  | model w ps => exact ⟨_, .model uv w ps⟩
  | single v => exact ⟨_, .single uv v⟩

/-- Values of an enumeration class, flattened. -/
example : toList demoH { flatten := true, useValues := true } (.enumClass [.atom 1, .atom 2] [.atom 7, .seq .list (ofList [.atom 8])]) = .ok [.atom 7, .atom 8] ∧
    toList demoH { flatten := true } (.enumClass [.atom 1, .atom 2] [.atom 7, .seq .list (ofList [.atom 8])]) = .ok [.atom 1, .atom 2] := by decide

/-- C57: asking for distinct values without flattening raises ValueError, whatever the input. -/
theorem C57_needs_flatten (H : Hashing α) (o : Opts) (x : Input α) (hu : o.unique = true) (hf : o.flatten = false) : toList H o x = .error .valueError := by
  simp only [toList, hu, hf, Bool.not_false, Bool.and_true, if_true]

theorem uniqueHash_unhashable (H : Hashing α) (l : List (Val α)) : ∀ (seen : List Int) (out : List (Val α)),
    (∃ v ∈ l, H.hash v = none ∧ H.hashMap v = none) → uniqueHash H seen out l = .error .valueError := by
  induction l with
  | nil => rintro seen out ⟨v, hv, _⟩; cases hv
  | cons w l ih =>
    rintro seen out ⟨v, hv, h1, h2⟩
    rw [uniqueHash]
    cases hk : fallbackKey H w with
    | none => rfl
    | some k =>
      have hl : ∃ v ∈ l, H.hash v = none ∧ H.hashMap v = none := by
        rcases List.mem_cons.1 hv with rfl | hv
        · simp only [fallbackKey, h1, h2] at hk; cases hk
        · exact ⟨v, hv, h1, h2⟩
      simp only
      split <;> exact ih _ _ hl

theorem uniqueDirect_unhashable (H : Hashing α) (l : List (Val α)) : ∀ out : List (Val α), (∃ v ∈ l, H.hash v = none) → uniqueDirect H out l = none := by
  induction l with
  | nil => rintro out ⟨v, hv, _⟩; cases hv
  | cons w l ih =>
    rintro out ⟨v, hv, h1⟩
    rw [uniqueDirect]
    cases hk : H.hash w with
    | none => rfl
    | some k =>
      have hl : ∃ v ∈ l, H.hash v = none := by
        rcases List.mem_cons.1 hv with rfl | hv
        · rw [h1] at hk; cases hk
        · exact ⟨v, hv, h1⟩
      simp only
      split <;> exact ih _ hl

/-- C57: when a remaining value has no hash at all, the call raises ValueError. -/
theorem C57_unhashable (H : Hashing α) (o : Opts) (x : Input α) (hx : WfInput x) (hu : o.unique = true) (hf : o.flatten = true)
    (h : ∃ v ∈ kept o x, H.hash v = none ∧ H.hashMap v = none) : toList H o x = .error .valueError := by
  have hp := process_leaves o.dropna o.fts _ (wf_initial o.useValues x hx)
  simp only [toList, hu, hf, Bool.not_true, Bool.and_false, Bool.false_eq_true, if_false, if_true]
  rw [hp]
  change unique H (kept o x) = _
  obtain ⟨v, hv, h1, h2⟩ := h
  rw [unique, uniqueDirect_unhashable H _ [] ⟨v, hv, h1⟩]
  exact uniqueHash_unhashable H _ [] [] ⟨v, hv, h1, h2⟩

/-! ## The elements lcall works on -/

/-- What iterating an input gives: members of a sequence or enumeration class, characters of a text, keys of a mapping, field pairs of a
model; a value that cannot be iterated is itself the only element. -/
inductive Elements (keys : List (Val α)) : Input α → List (Val α) → Prop
  | na : Elements keys .na [.na]
  | seq (k : Kind) (l : List (Val α)) : Elements keys (.seq k (ofList l)) l
  | enum (ms vs : List (Val α)) : Elements keys (.enumClass ms vs) ms
  | text (w : Val α) (cs : List (Val α)) : Elements keys (.text w cs) cs
  | mapping (w : Val α) (vs : List (Val α)) : Elements keys (.mapping w vs) keys
  | model (w : Val α) (ps : List (Val α)) : Elements keys (.model w ps) ps
  | single (v : Val α) : Elements keys (.single v) [v]

theorem items_ofList (l : List (Val α)) : items (ofList l) = l := by
  induction l with
  | nil => rfl
  | cons v l ih => rw [ofList, items, ih]

/-- C58, inputs of every kind: without input options the function is applied to the elements that iterating the input gives, and the
results come in that order. -/
theorem C58_elements (H : Hashing α) (inp out : Opts) (keys : List (Val α)) (x : Input α) (l : List (Val α)) (h : Elements keys x l)
    (hi : inp.flatten = false ∧ inp.dropna = false) (ho : out.flatten = false ∧ out.dropna = false ∧ out.unique = false)
    (f : Val α → Call α) (g : Val α → Val α) (hg : ∀ v ∈ l, f v = .returns (g v)) :
    lcall H inp out keys f x = .ok (l.map g) := by
  refine C58_map H inp out keys x f g ?_ hg ho
  simp only [lcallInput, hi.1, hi.2, Bool.or_self, Bool.false_eq_true, if_false]
  congr 1
  cases h with
  | seq k => exact items_ofList l
  | _ => rfl

/-- C58: output_unique without output_flatten and output_dropna raises ValueError before the function is called on anything. -/
theorem C58_output_unique (H : Hashing α) (inp out : Opts) (keys : List (Val α)) (x : Input α) (hu : out.unique = true)
    (ho : out.flatten = false ∧ out.dropna = false) (f : Val α → Call α) : lcall H inp out keys f x = .error .valueError := by
  simp only [lcall, hu, ho.1, ho.2, Bool.or_self, Bool.not_false, Bool.and_true, if_true]

example : lcall demoH {} {} [.atom 5, .atom 6] demoDouble (.mapping .na [.atom 1, .atom 2]) = .ok [.atom 10, .atom 12] := by decide

end Verif.ToList

namespace Verif.Patterns

theorem Stream.left_run (cfg : SCfg) (acts : List SAct) : (Stream.run cfg acts).left = true ↔ .leave ∈ acts := by
  have key : ∀ (acts : List SAct) (s : Stream), (acts.foldl (Stream.step cfg) s).left = true ↔ s.left = true ∨ .leave ∈ acts := by
    intro acts
    induction acts with
    | nil => intro s; simp
    | cons a acts ih =>
      intro s
      rw [List.foldl_cons, ih]
      cases a with
      | start i =>
        have : (s.step cfg (.start i)).left = s.left := by simp only [Stream.step]; split <;> rfl
        rw [this]; simp
      | finish i =>
        have : (s.step cfg (.finish i)).left = s.left := by simp only [Stream.step]; split <;> rfl
        rw [this]; simp
      | next =>
        have : (s.step cfg .next).left = s.left := by
          simp only [Stream.step]
          split
          · split <;> rfl
          · rfl
        rw [this]; simp
      | leave => simp [Stream.step]
  have := key acts {}
  simpa [Stream.run] using this

/-- C101, when leaving the block is over: exactly when the block was left and every awaitable has run to its end (so leaving cancels nothing,
whatever was consumed before). -/
theorem C101_exact_partial (cfg : SCfg) (acts : List SAct) :
    (Stream.run cfg acts).exited cfg = true ↔ .leave ∈ acts ∧ ∀ i, i < cfg.n → (i, cfg.val i) ∈ (Stream.run cfg acts).log := by
  have h := sinv_run cfg acts
  simp only [Stream.exited, Bool.and_eq_true, List.all_eq_true, List.mem_range, beq_iff_eq, Stream.left_run]
  refine and_congr_right fun _ => forall_congr' fun i => ?_
  exact ⟨fun H hi => (h.mem i).2 ⟨hi, H hi⟩, fun H hi => ((h.mem i).1 (H hi)).2⟩

end Verif.Patterns

namespace Verif.Processor

/-- The limits of the constructor's parameters: the smallest and largest accepted values and their neighbours. -/
example : Cfg.Valid ⟨1, 1, 1⟩ ∧ Cfg.Valid ⟨10000, 1, 1⟩ ∧ ¬ Cfg.Valid ⟨0, 1, 1⟩ ∧ ¬ Cfg.Valid ⟨10001, 1, 1⟩ ∧ ¬ Cfg.Valid ⟨1, 0, 1⟩ ∧ ¬ Cfg.Valid ⟨1, 1, 0⟩ := by
  simp only [Cfg.Valid]
  omega

end Verif.Processor
