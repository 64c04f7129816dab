import Verif.Props.Fanout
import Verif.Props.Lexer
import Verif.Props.Resolver
import Verif.Props.LndlTypes

/-!
# Exact conditions for partly met properties: C100, C103, C110, C111, C116
-/

set_option linter.unusedSectionVars false
set_option linter.unusedSimpArgs false
set_option linter.unusedVariables false

/-! ### C103 -/

namespace Verif.Lexer

/-- C103, exactly: the reported column is right if and only if the token is on the first line. -/
theorem C103_exact_partial {cc : CharClass} (ok : cc.Ok) (text : List Char) :
    ∃ (ts : List Token) (offs : List Nat), tokenize cc text = some ts ∧ offs.length = ts.length ∧ offs.Pairwise (· < ·) ∧
      ∀ (i : Nat) tok o, ts[i]? = some tok → offs[i]? = some o → SpelledAt text tok o ∧ (tok.column = columnOf text o ↔ lineOf text o = 1) := by
  obtain ⟨ts, offs, h1, h2, h3, h4⟩ := C103_columns_partial ok text
  refine ⟨ts, offs, h1, h2, h3, fun i tok o hi ho => ?_⟩
  obtain ⟨a, b, c⟩ := h4 i tok o hi ho
  refine ⟨a, fun e => ?_, b⟩
  apply Classical.byContradiction
  intro hl
  have := c hl
  omega

end Verif.Lexer

/-! ### C110 -/

namespace Verif.Resolver

open Verif.Parser (Str OutVal)

variable {ν κ μ : Type}

theorem refMeans_unique {ext : Ext ν κ μ} {lvars : Dict Str LvarMeta} {lacts : Dict Str LactMeta} {c n f g : Str} {x y : Arg ν κ}
    (h : RefMeans ext lvars lacts c n f x) (h' : RefMeans ext lvars lacts c n g y) : f = g ∧ x = y := by
  cases h with
  | action m a h1 h2 h3 h4 =>
    cases h' with
    | action m' a' h1' h2' h3' h4' =>
      rw [h1] at h1'; cases h1'
      rw [h3] at h3'; cases h3'
      obtain ⟨m1, e1, e2, e3, e4⟩ := h4
      obtain ⟨m2, e1', e2', e3', e4'⟩ := h4'
      rw [e1] at e1'; cases e1'
      have hc := Option.some.inj (e2.symm.trans e2')
      have hr := e3.trans e3'.symm
      have hn := e4.trans e4'.symm
      obtain ⟨an, ac, ar⟩ := a
      obtain ⟨bn, bc, br⟩ := a'
      simp only at hc hr hn
      subst hc; subst hr; subst hn
      exact ⟨rfl, rfl⟩
    | var l _ h1' _ _ => rw [h1] at h1'; cases h1'
  | var l v h1 h2 h3 h4 =>
    cases h' with
    | action m' a' h1' _ _ _ => rw [h1] at h1'; cases h1'
    | var l' v' h1' h2' h3' h4' =>
      rw [h2] at h2'; cases h2'
      rw [h3] at h3'; cases h3'
      rw [h4] at h4'; cases h4'
      exact ⟨rfl, rfl⟩

theorem refsMean_names {ext : Ext ν κ μ} {lvars : Dict Str LvarMeta} {lacts : Dict Str LactMeta} {c : Str} {ns : List Str} {as : List (Str × Arg ν κ)}
    (h : RefsMean ext lvars lacts c ns as) : ∀ f x, (f, x) ∈ as → ∃ n ∈ ns, RefMeans ext lvars lacts c n f x := by
  induction h with
  | nil => intro f x h; cases h
  | cons n ns f x as h1 h2 ih =>
    intro g y hg
    rcases List.mem_cons.1 hg with e | hg
    · cases e; exact ⟨n, List.mem_cons_self, h1⟩
    · obtain ⟨k, hk, hr⟩ := ih g y hg
      exact ⟨k, List.mem_cons_of_mem _ hk, hr⟩

theorem find_some {as : List (Str × Arg ν κ)} {f : Str} {x : Arg ν κ} (h : ((as.reverse).find? (fun a => decide (a.1 = f))).map (·.2) = some x) : (f, x) ∈ as := by
  cases hf : (as.reverse).find? (fun a => decide (a.1 = f)) with
  | none => rw [hf] at h; cases h
  | some a =>
    rw [hf] at h
    have h1 := List.find?_some hf
    have h2 := List.mem_of_find?_eq_some hf
    obtain ⟨g, y⟩ := a
    simp only [decide_eq_true_eq] at h1
    simp only [Option.map_some, Option.some.injEq] at h
    subst h1; subst h
    exact List.mem_reverse.1 h2

/-- C110, exactly: every reference arrives if and only if no two references give different arguments for one field. -/
theorem C110_exact_partial (ext : Ext ν κ μ) (lvars : Dict Str LvarMeta) (lacts : Dict Str LactMeta) (c : Str) (ns : List Str) (as : List (Str × Arg ν κ))
    (h : RefsMean ext lvars lacts c ns as) (kw : Dict Str (Arg ν κ)) (hkw : IsKwargs as kw) :
    (∀ n ∈ ns, ∃ f x, kw.get? f = some x ∧ RefMeans ext lvars lacts c n f x) ↔
      ∀ n ∈ ns, ∀ n' ∈ ns, ∀ f x y, RefMeans ext lvars lacts c n f x → RefMeans ext lvars lacts c n' f y → x = y := by
  constructor
  · intro H n hn n' hn' f x y hx hy
    obtain ⟨g, z, h1, h2⟩ := H n hn
    obtain ⟨g', z', h1', h2'⟩ := H n' hn'
    obtain ⟨e1, e2⟩ := refMeans_unique h2 hx
    obtain ⟨e1', e2'⟩ := refMeans_unique h2' hy
    rw [e1, e2] at h1
    rw [e1', e2'] at h1'
    exact Option.some.inj (h1.symm.trans h1')
  · intro H n hn
    obtain ⟨f, x, hm, hr⟩ := refsMean_fields h n hn
    refine ⟨f, x, ?_, hr⟩
    have hk : f ∈ kw.keys := by
      rw [hkw.2.1, List.mem_eraseDups]
      exact List.mem_map.2 ⟨_, hm, rfl⟩
    obtain ⟨y, hy⟩ := Option.isSome_iff_exists.1 ((Dict.get?_isSome_iff _ _).2 hk)
    rw [hy]
    rw [hkw.2.2] at hy
    obtain ⟨n', hn', hr'⟩ := refsMean_names h f y (find_some hy)
    rw [H n hn n' hn' f x y hr hr']

end Verif.Resolver

/-! ### C111, C116 -/

namespace Verif.LndlTypes

open Verif.Parser (Str)

/-- The action occurs in the extra fields of a model, at any depth. -/
inductive InExtra (n : Str) : Val → Prop where
  | here (c : Nat) (fs e : Val) : Inside n e → InExtra n (.model c fs e)
  | field (c : Nat) (fs e : Val) : InExtra n fs → InExtra n (.model c fs e)
  | item (l : Val) : InExtra n l → InExtra n (.seq l)
  | value (l : Val) : InExtra n l → InExtra n (.map l)
  | head (k : Str) (h t : Val) : InExtra n h → InExtra n (.cons k h t)
  | tail (k : Str) (h t : Val) : InExtra n t → InExtra n (.cons k h t)

theorem inside_cases (n : Str) (v : Val) (h : Inside n v) : (∃ p, At n v p) ∨ InExtra n v := by
  induction h with
  | here => exact Or.inl ⟨[], .here⟩
  | field c fs e _ ih =>
    rcases ih with ⟨p, h⟩ | h
    · exact Or.inl ⟨p, .field c fs e p h⟩
    · exact Or.inr (.field c fs e h)
  | extra c fs e h _ => exact Or.inr (.here c fs e h)
  | item l _ ih =>
    rcases ih with ⟨p, h⟩ | h
    · exact Or.inl ⟨p, .item l p h⟩
    · exact Or.inr (.item l h)
  | value l _ ih =>
    rcases ih with ⟨p, h⟩ | h
    · exact Or.inl ⟨p, .value l p h⟩
    · exact Or.inr (.value l h)
  | head k h t _ ih =>
    rcases ih with ⟨p, h'⟩ | h'
    · exact Or.inl ⟨k :: p, .head k h t p h'⟩
    · exact Or.inr (.head k h t h')
  | tail k h t _ ih =>
    rcases ih with ⟨p, h'⟩ | h'
    · exact Or.inl ⟨p, .tail k h t p h'⟩
    · exact Or.inr (.tail k h t h')

theorem inExtra_inside {n : Str} {v : Val} (h : InExtra n v) : Inside n v := by
  induction h with
  | here c fs e h => exact .extra c fs e h
  | field c fs e _ ih => exact .field c fs e ih
  | item l _ ih => exact .item l ih
  | value l _ ih => exact .value l ih
  | head k h t _ ih => exact .head k h t ih
  | tail k h t _ ih => exact .tail k h t ih

/-- C111, exactly: a model that passes the guard holds no action if and only if none is in the extra fields of a model (itself included). -/
theorem C111_exact_partial (cls : Nat) (fields extra m : Val) (h : ensure cls fields extra = .ok m) :
    m = .model cls fields extra ∧ ((∀ n, ¬ Inside n m) ↔ ∀ n, ¬ InExtra n m) := by
  unfold ensure at h
  split at h
  · cases h
  · next hh =>
    cases h
    refine ⟨rfl, fun H n hn => H n (inExtra_inside hn), fun H n hn => ?_⟩
    rcases inside_cases n _ hn with ⟨p, hp⟩ | he
    · cases hp with
      | field _ _ _ _ hp => exact hh ((C54_detects fields).2 ⟨n, p, hp⟩)
    · exact H n he

theorem getItem_dump_excluded (excluded : Nat → Str → Bool) (ex : Str → Bool) (fs : Val) (k : Str) (hex : ex k = true) :
    getItem k (dump excluded ex fs) = none := by
  induction fs with
  | cons k' h t _ ih =>
    rw [dump]
    split
    · exact ih
    · next hk =>
      rw [getItem, if_neg (fun e => hk (by rw [e]; exact hex))]
      exact ih
  | _ => rfl

theorem getItem_dump_absent (excluded : Nat → Str → Bool) (ex : Str → Bool) (fs : Val) (k : Str) (h : k ∉ (items fs).map (·.1)) :
    getItem k (dump excluded ex fs) = none := by
  induction fs with
  | cons k' h' t _ ih =>
    rw [items, List.map_cons, List.mem_cons, not_or] at h
    rw [dump]
    split
    · exact ih h.2
    · rw [getItem, if_neg (fun e => h.1 e.symm)]
      exact ih h.2
  | _ => rfl

theorem items_unique {fs : Val} (hnd : ((items fs).map (·.1)).Nodup) {k : Str} {v w : Val} (hv : (k, v) ∈ items fs) (hw : (k, w) ∈ items fs) : v = w := by
  have : ∀ l : List (Str × Val), (l.map (·.1)).Nodup → (k, v) ∈ l → (k, w) ∈ l → v = w := by
    intro l
    induction l with
    | nil => intro _ h; cases h
    | cons a l ih =>
      intro hn h1 h2
      rw [List.map_cons, List.nodup_cons] at hn
      rcases List.mem_cons.1 h1 with e1 | h1b
      · subst e1
        rcases List.mem_cons.1 h2 with e | h2b
        · cases e; rfl
        · exact absurd (List.mem_map.2 ⟨(k, w), h2b, rfl⟩) hn.1
      · rcases List.mem_cons.1 h2 with e2 | h2b
        · subst e2
          have hk : k ∈ l.map (·.1) := List.mem_map.2 ⟨(k, v), h1b, rfl⟩
          exact absurd hk hn.1
        · exact ih hn.2 h1b h2b
  exact this _ hnd hv hw

/-- C116, exactly: the value of a field without action is part of the data validated again if and only if the field is not declared with
`exclude=True` (extra fields have other names than declared ones). -/
theorem C116_exact_partial (excluded : Nat → Str → Bool) (validate : Nat → Val → Option Val) (results : Str → Option Val) (cls : Nat) (fields extra m : Val)
    (hnd : ((items fields).map (·.1)).Nodup) (hex : ∀ k ∈ (items fields).map (·.1), k ∉ (items extra).map (·.1))
    (h : revalidate excluded validate results cls fields extra = .ok m) :
    ∃ data, validate cls data = some m ∧ ∀ k v, (k, v) ∈ items fields → (∀ n, v ≠ .action n) →
      (getItem k data = some (dump excluded (fun _ => false) v) ↔ excluded cls k = false) ∧ (getItem k data = none ↔ excluded cls k = true) := by
  unfold revalidate at h
  split at h
  · cases h
  · next kw hkw =>
    split at h
    · cases h
    · next m' hm =>
      cases h
      obtain ⟨h1, h2⟩ := substTop_spec results fields _ kw hnd hkw
      refine ⟨kw, hm, fun k v hv hna => ?_⟩
      have hget : getItem k kw = getItem k (dumpTop excluded cls fields extra) :=
        h2 k (fun n hn => hna n (items_unique hnd hv hn))
      cases he : excluded cls k with
      | false =>
        have : getItem k kw = some (dump excluded (fun _ => false) v) := by
          rw [hget, dumpTop, getItem_app, getItem_dump excluded (excluded cls) fields k v hnd hv he]
          rfl
        rw [this]
        simp
      | true =>
        have : getItem k kw = none := by
          rw [hget, dumpTop, getItem_app, getItem_dump_excluded _ _ _ _ he]
          simp only [Option.none_or]
          exact getItem_dump_absent _ _ _ _ (hex k (List.mem_map.2 ⟨_, hv, rfl⟩))
        rw [this]
        simp

end Verif.LndlTypes

/-! ### C100 -/

namespace Verif.Fanout

theorem cancel_rest (cfg : Cfg) (hr : cfg.returnExc = false) : ∀ (js : List Nat) (s : Sys), s.scope = true → s.errs = [] → s.ext = false →
    ∃ s', (js.map (fun j => Act.cancel j .cancelled)).foldl (step cfg) s = s' ∧ s'.scope = true ∧ s'.errs = [] ∧ s'.ext = false ∧
      (∀ i, s.st i = .ended → s'.st i = .ended ∧ s'.out i = s.out i) ∧ ∀ j ∈ js, j < cfg.n → s'.st j = .ended := by
  intro js
  induction js with
  | nil => intro s h1 h2 h3; exact ⟨s, rfl, h1, h2, h3, fun i hi => ⟨hi, rfl⟩, fun j hj => by cases hj⟩
  | cons j js ih =>
    intro s h1 h2 h3
    have key : (step cfg s (.cancel j .cancelled)).scope = true ∧ (step cfg s (.cancel j .cancelled)).errs = [] ∧ (step cfg s (.cancel j .cancelled)).ext = false ∧
        (∀ i, s.st i = .ended → (step cfg s (.cancel j .cancelled)).st i = .ended ∧ (step cfg s (.cancel j .cancelled)).out i = s.out i) ∧
        (j < cfg.n → (step cfg s (.cancel j .cancelled)).st j = .ended) := by
      simp only [step]
      by_cases hj : j < cfg.n
      · rw [if_pos ⟨hj, h1⟩]
        have hrec : record cfg s j .cancelled = { s with st := upd s.st j .ended, out := upd s.out j (some .cancelled), scope := true } := by
          simp [record, hr, Outcome.isOk]
        cases hst : s.st j with
        | running =>
          rw [if_pos rfl, hrec]
          refine ⟨rfl, h2, h3, ?_, fun _ => by simp [upd]⟩
          intro i hi
          have : i ≠ j := fun e => by rw [e, hst] at hi; cases hi
          simp [upd, this, hi]
        | waiting =>
          rw [if_neg (by simp), if_pos rfl]
          have hne : ∀ i, s.st i = .ended → i ≠ j := fun i hi e => by rw [e, hst] at hi; cases hi
          split
          · rw [hrec]
            refine ⟨rfl, h2, h3, ?_, fun _ => by simp [upd]⟩
            intro i hi
            simp [upd, hne i hi, hi]
          · refine ⟨h1, h2, h3, ?_, fun _ => by simp [upd]⟩
            intro i hi
            simp [upd, hne i hi, hi]
        | ended =>
          rw [if_neg (by simp), if_neg (by simp)]
          exact ⟨h1, h2, h3, fun i hi => ⟨hi, rfl⟩, fun _ => hst⟩
      · rw [if_neg (fun h => hj h.1)]
        exact ⟨h1, h2, h3, fun i hi => ⟨hi, rfl⟩, fun h => absurd h hj⟩
    obtain ⟨k1, k2, k3, k4, k5⟩ := key
    obtain ⟨s', e, a1, a2, a3, a4, a5⟩ := ih (step cfg s (.cancel j .cancelled)) k1 k2 k3
    refine ⟨s', by rw [List.map_cons, List.foldl_cons]; exact e, a1, a2, a3, ?_, ?_⟩
    · intro i hi
      obtain ⟨b1, b2⟩ := k4 i hi
      obtain ⟨c1, c2⟩ := a4 i b1
      exact ⟨c1, c2.trans b2⟩
    · intro i hi hn
      rcases List.mem_cons.1 hi with rfl | hi
      · exact (a4 i (k5 hn)).1
      · exact a5 i hi hn

/-- C100, exactly: `gather` can return normally with an entry that is no result if and only if some awaitable ends with a cancellation of its own. -/
theorem C100_exact_partial (outs : List Outcome) :
    (∃ acts l, Undisturbed acts ∧ final (gatherCfg outs false) (run (gatherCfg outs false) acts) = some (.returned l) ∧
      ∃ i : Nat, i < outs.length ∧ ∀ v, l[i]? ≠ some (some (.ok v))) ↔ .cancelled ∈ outs := by
  constructor
  · rintro ⟨acts, l, hu, hf, hl⟩
    exact C100_self_cancelled_partial outs acts hu hf hl
  · intro hm
    obtain ⟨i, hi, he⟩ := List.mem_iff_getElem.1 hm
    have hres : (gatherCfg outs false).res i = .cancelled := by
      simp [gatherCfg, List.getD, List.getElem?_eq_getElem hi, he]
    have hfree : ∀ s, slotFree (gatherCfg outs false) s = true := fun s => rfl
    have hn : (gatherCfg outs false).n = outs.length := rfl
    let s2 : Sys := { st := upd (upd (fun _ => St.waiting) i .running) i .ended, out := upd (fun _ => none) i (some .cancelled), errs := [], scope := true, ext := false }
    have h2 : run (gatherCfg outs false) [.start i, .finish i] = s2 := by
      have hstart : step (gatherCfg outs false) {} (.start i) = { st := upd (fun _ => St.waiting) i .running } := by
        have hc : i < (gatherCfg outs false).n ∧ True ∧ slotFree (gatherCfg outs false) {} = true := ⟨hi, trivial, hfree _⟩
        simp only [step]
        rw [if_pos hc]
      simp only [run, List.foldl_cons, List.foldl_nil]
      rw [hstart]
      simp only [step]
      have hc : i < (gatherCfg outs false).n ∧ upd (fun _ => St.waiting) i St.running i = St.running := ⟨hi, by simp [upd]⟩
      rw [if_pos hc, hres]
      simp [record, gatherCfg, Outcome.isOk, s2]
    obtain ⟨s', e, a1, a2, a3, a4, a5⟩ := cancel_rest (gatherCfg outs false) rfl (List.range outs.length) s2 rfl rfl rfl
    refine ⟨[.start i, .finish i] ++ (List.range outs.length).map (fun j => Act.cancel j .cancelled), (List.range outs.length).map s'.out, ?_, ?_, i, hi, ?_⟩
    · intro a ha
      simp only [List.cons_append, List.nil_append, List.mem_cons, List.mem_map] at ha
      rcases ha with rfl | rfl | ⟨j, _, rfl⟩ <;> simp
    · have hrun : run (gatherCfg outs false) ([.start i, .finish i] ++ (List.range outs.length).map (fun j => Act.cancel j .cancelled)) = s' := by
        rw [← e, ← h2]; unfold run; rw [List.foldl_append]
      rw [hrun, final, if_pos]
      · rw [if_neg (by rw [a2]; simp), if_neg (by rw [a3]; simp), hn]
      · rw [List.all_eq_true]
        intro j hj
        rw [beq_iff_eq]
        exact a5 j hj (List.mem_range.1 hj)
    · intro v
      have hend : s2.st i = .ended := by simp [s2, upd]
      have hout := (a4 i hend).2
      rw [List.getElem?_map, List.getElem?_range hi, Option.map_some, hout]
      simp [s2, upd]

end Verif.Fanout
