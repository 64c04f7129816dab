import Verif.Lemmas.SyncGrow

/-! # Flows where an item is removed and nobody adds references to it -/

set_option linter.unusedSectionVars false
set_option linter.unusedVariables false
set_option linter.unusedSimpArgs false

namespace Verif.FlowSync.Dropping

open Verif.Sync Verif.PileSync Verif.FlowSync

variable {ι γ δ : Type} [DecidableEq ι] [DecidableEq γ]

/-- The progression stored under `u` lists `x`. -/
def Lists (x u : ι) (f : Flow ι γ δ) : Prop := ∃ p, f.progs.items.get? u = some p ∧ x ∈ p.data.order

/-- A stored progression lists `x` at most once, and only if `x` is an item; it is in the list of the progressions then. -/
structure Sound (x : ι) (f : Flow ι γ δ) : Prop where
  wfi : f.items.items.WF
  once : ∀ u p, f.progs.items.get? u = some p → p.data.order.count x ≤ 1
  refs : ∀ u, Lists x u f → x ∈ f.items.items.keys ∧ u ∈ f.progs.order

/-- No progression leaves the list, and no progression gets `x`. -/
def Shrinks (x : ι) (f f' : Flow ι γ δ) : Prop := f.progs.order <+: f'.progs.order ∧ ∀ u, Lists x u f' → Lists x u f

variable {x : ι}

theorem Shrinks.refl (f : Flow ι γ δ) : Shrinks x f f := ⟨List.prefix_refl _, fun _ h => h⟩

theorem okTrue {β : Type} : ∀ r : Except Exc β, Stable (σ := Flow ι γ δ) (Sound x) (Shrinks x) (okPost (fun _ _ => True) True r) :=
  okPost_stable (fun _ => stable_true)

/-- A step that leaves the progressions alone and keeps `x` among the items. -/
theorem sound_same {f f' : Flow ι γ δ} (h : Sound x f) (hp : f'.progs = f.progs) (hw : f'.items.items.WF) (hk : x ∈ f.items.items.keys → x ∈ f'.items.items.keys) :
    Sound x f' ∧ Shrinks x f f' := by
  have hl : ∀ u, Lists x u f' ↔ Lists x u f := by intro u; simp only [Lists, hp]
  refine ⟨⟨hw, by rw [hp]; exact h.once, fun u hu => ?_⟩, by rw [hp]; exact List.prefix_refl _, fun u hu => (hl u).1 hu⟩
  obtain ⟨h1, h2⟩ := h.refs u ((hl u).1 hu)
  rw [hp]
  exact ⟨hk h1, h2⟩

theorem same_rg {β : Type} {A : Flow ι γ δ → Prop} {h : Flow ι γ δ → Res (Flow ι γ δ) β} (hi : ∀ f, (h f).1.items = f.items)
    (hp : ∀ f, (h f).1.progs = f.progs) : RG (Sound x) (Shrinks x) (okPost (fun _ _ => True) True) A (act h) := by
  refine RG.act okTrue (fun f hf _ => ?_)
  obtain ⟨h1, h2⟩ := sound_same (f' := (h f).1) hf (hp f) (by rw [hi]; exact hf.wfi) (by rw [hi]; exact fun h => h)
  exact ⟨h1, h2, okTrue_any _ _⟩

/-- The progression under `u` is replaced by one that lists `x` not more often. -/
theorem sound_set {f : Flow ι γ δ} (h : Sound x f) (u : ι) (p : Flow.Prog ι) (hc : p.data.order.count x ≤ 1) (hl : x ∈ p.data.order → Lists x u f) :
    Sound x { f with progs := { f.progs with items := f.progs.items.set u p } } ∧ Shrinks x f { f with progs := { f.progs with items := f.progs.items.set u p } } := by
  have hl' : ∀ v, Lists x v { f with progs := { f.progs with items := f.progs.items.set u p } } → Lists x v f := by
    rintro v ⟨q, hq, hx⟩
    simp only [Dict.get?_set] at hq
    by_cases e : u = v
    · rw [if_pos e] at hq
      simp only [Option.some.injEq] at hq
      subst e hq
      exact hl hx
    · rw [if_neg e] at hq; exact ⟨q, hq, hx⟩
  refine ⟨⟨h.wfi, fun v q hq => ?_, fun v hv => h.refs v (hl' v hv)⟩, List.prefix_refl _, hl'⟩
  simp only [Dict.get?_set] at hq
  by_cases e : u = v
  · rw [if_pos e] at hq; simp only [Option.some.injEq] at hq; rw [← hq]; exact hc
  · rw [if_neg e] at hq; exact h.once v q hq

theorem addProgression_rg {A : Flow ι γ δ → Prop} (p : Flow.Prog ι) (hx : x ∉ p.data.order) :
    RG (Sound x) (Shrinks x) (okPost (fun _ _ => True) True) A (addProgression p) := by
  have hmc : ∀ f : Flow ι γ δ, (missingCheck p f).1 = f := by intro f; simp only [missingCheck]; split <;> rfl
  refine RG.andThen (Qm := fun _ _ => True) (fun _ => stable_true) (same_rg (fun f => by rw [nameCheck_fst]) (fun f => by rw [nameCheck_fst])) (fun _ => ?_)
  refine RG.andThen (Qm := fun _ _ => True) (fun _ => stable_true) (same_rg (fun f => by rw [hmc]) (fun f => by rw [hmc])) (fun _ => ?_)
  refine RG.andThen (Qm := fun _ _ => True) (fun _ => stable_true) (RG.withLock okTrue ?_) (fun _ => same_rg (fun _ => rfl) (fun _ => rfl))
  refine RG.andThen (Qm := fun y _ => y = p) (fun y => fun _ _ _ ha _ => ha) ?_ (fun y => RG.andThen (Qm := fun _ _ => True) (fun _ => stable_true) ?_ (fun _ => ?_))
  · refine RG.look Shrinks.refl (okPost_stable (fun y => fun _ _ _ ha _ => ha)) (fun f => ?_) (fun f hf ha => ?_)
    · show ({ f with progs := (addCheck Flow.anySub (some p) f.progs).1 } : Flow ι γ δ) = f
      rw [addCheck_fst]
    · show okPost _ _ (addCheck Flow.anySub (some p) f.progs).2 f
      cases hc : (addCheck Flow.anySub (some p) f.progs).2 with
      | error e => trivial
      | ok y => exact (Option.some.inj (addCheck_ok hc)).symm
  · refine RG.act okTrue (fun f hf ha => ?_)
    subst ha
    obtain ⟨h1, h2⟩ := sound_set hf y.id y (by rw [List.count_eq_zero_of_not_mem hx]; omega) (fun h => absurd h hx)
    exact ⟨h1, h2, trivial⟩
  · refine RG.act okTrue (fun f hf ha => ?_)
    simp only [progs_lift, appendId, okPost, and_true]
    refine ⟨⟨hf.wfi, hf.once, fun u hu => ?_⟩, List.prefix_append _ _, fun u hu => hu⟩
    obtain ⟨h1, h2⟩ := hf.refs u hu
    exact ⟨h1, List.mem_append_left _ h2⟩

theorem appendTo_rg {A : Flow ι γ δ → Prop} (y u : ι) (hy : y ≠ x) : RG (Sound x) (Shrinks x) (okPost (fun _ _ => True) True) A (act (appendTo y u)) := by
  refine RG.act okTrue (fun f hf _ => ?_)
  simp only [appendTo, Flow.modify]
  cases hu : f.progs.items.get? u with
  | none => exact ⟨hf, Shrinks.refl f, trivial⟩
  | some p =>
    have hc : (p.data.order ++ [y]).count x = p.data.order.count x := by
      rw [List.count_append, List.count_singleton]; simp [hy]
    obtain ⟨h1, h2⟩ := sound_set hf u { p with data := { p.data with order := p.data.order ++ [y] } } (by simp only [hc]; exact hf.once u p hu) (by
      intro h
      rcases List.mem_append.1 h with h | h
      · exact ⟨p, hu, h⟩
      · exact absurd (List.mem_singleton.1 h).symm hy)
    exact ⟨h1, h2, trivial⟩

theorem appendAll_rg (y : ι) (hy : y ≠ x) : ∀ (ps : List (Flow.ProgArg ι)) {A : Flow ι γ δ → Prop}, RG (Sound x) (Shrinks x) (okPost (fun _ _ => True) True) A (appendAll y ps)
  | [], _ => fun _ _ _ => trivial
  | .foreign :: as, _ => appendAll_rg y hy as
  | .member u :: as, _ => RG.andThen (Qm := fun _ _ => True) (fun _ => stable_true) (appendTo_rg y u hy) (fun _ => appendAll_rg y hy as)
  | .key k :: as, _ => by
    refine RG.andThen (Qm := fun _ _ => True) (fun _ => stable_true) (RG.withLock okTrue ?_) (fun p => ?_)
    · exact RG.look Shrinks.refl okTrue (fun _ => rfl) (fun f hf ha => okTrue_any _ _)
    · exact RG.andThen (Qm := fun _ _ => True) (fun _ => stable_true) (appendTo_rg y p.id hy) (fun _ => appendAll_rg y hy as)

theorem appendAll_foreign (y : ι) : ∀ (ps : List (Flow.ProgArg ι)), (∀ a ∈ ps, a = .foreign) → (appendAll y ps : Prog (Flow ι γ δ) _) = .ret (.ok ())
  | [], _ => rfl
  | a :: as, h => by
    have := h a List.mem_cons_self
    subst this
    exact appendAll_foreign y as (fun b hb => h b (List.mem_cons_of_mem _ hb))

theorem addItem_rg {A : Flow ι γ δ → Prop} (sub : γ → γ → Bool) (a : Pile.Arg ι γ δ) (ps : List (Flow.ProgArg ι))
    (ha : ∀ y, a = some y → y.id = x → ∀ b ∈ ps, b = .foreign) : RG (Sound x) (Shrinks x) (okPost (fun _ _ => True) True) A (addItem sub a ps) := by
  refine RG.andThen (Qm := fun _ _ => True) (fun _ => stable_true) (RG.withLock okTrue ?_) (fun _ => ?_)
  · refine RG.andThen (Qm := fun _ _ => True) (fun _ => stable_true) (same_rg (fun f => ?_) (fun f => rfl)) (fun y => RG.andThen (Qm := fun _ _ => True) (fun _ => stable_true) ?_ (fun _ => ?_))
    · show (addCheck sub a f.items).1 = f.items
      rw [addCheck_fst]
    · refine RG.act okTrue (fun f hf _ => ?_)
      obtain ⟨h1, h2⟩ := sound_same (f' := (itemsL.lift (putItem y) f).1) hf rfl (Dict.set_wf hf.wfi _ _) (fun h => by
        show x ∈ (f.items.items.set y.id y).keys
        rw [Dict.mem_keys_set]; exact Or.inr h)
      exact ⟨h1, h2, okTrue_any _ _⟩
    · refine RG.act okTrue (fun f hf _ => ?_)
      obtain ⟨h1, h2⟩ := sound_same (f' := (itemsL.lift (appendId y) f).1) hf rfl hf.wfi (fun h => h)
      exact ⟨h1, h2, okTrue_any _ _⟩
  · cases a with
    | none => exact fun _ _ _ => trivial
    | some y =>
      simp only [addItemRest]
      by_cases hy : y.id = x
      · rw [appendAll_foreign y.id ps (ha y rfl hy)]; exact fun _ _ _ => trivial
      · exact appendAll_rg y.id hy ps

/-- From position `k` on: the progressions that still list `x`. -/
def From (x : ι) (k : Nat) (f : Flow ι γ δ) : Prop := ∀ u, Lists x u f → u ∈ f.progs.order.drop k

/-- The same in the middle of the turn for `v`. -/
def At (x : ι) (k : Nat) (v : ι) (f : Flow ι γ δ) : Prop := ∀ u, Lists x u f → u = v ∨ u ∈ f.progs.order.drop (k + 1)

/-- No progression lists `x`. -/
def Free (x : ι) (f : Flow ι γ δ) : Prop := ∀ u, ¬ Lists x u f

theorem drop_mono {l l' : List ι} (h : l <+: l') (k : Nat) : ∀ u ∈ l.drop k, u ∈ l'.drop k := by
  obtain ⟨t, rfl⟩ := h
  intro u hu
  rw [List.drop_append]
  exact List.mem_append_left _ hu

theorem stable_from (k : Nat) : Stable (σ := Flow ι γ δ) (Sound x) (Shrinks x) (From x k) := fun _ _ _ ha hr u hu => drop_mono hr.1 k u (ha u (hr.2 u hu))
theorem stable_at (k : Nat) (v : ι) : Stable (σ := Flow ι γ δ) (Sound x) (Shrinks x) (At x k v) := by
  intro _ _ _ ha hr u hu
  rcases ha u (hr.2 u hu) with h | h
  · exact Or.inl h
  · exact Or.inr (drop_mono hr.1 _ u h)
theorem stable_free : Stable (σ := Flow ι γ δ) (Sound x) (Shrinks x) (Free x) := fun _ _ _ ha hr u hu => ha u (hr.2 u hu)

/-- After the list has been asked for position `k`. -/
def Asked (x : ι) (k : Nat) : Option ι → Flow ι γ δ → Prop
  | none => Free x
  | some u => At x k u

/-- After the check. -/
def Checked (x : ι) (k : Nat) (u : ι) : Bool → Flow ι γ δ → Prop
  | true => At x k u
  | false => From x (k + 1)

theorem stable_asked (k : Nat) (r : Option ι) : Stable (σ := Flow ι γ δ) (Sound x) (Shrinks x) (Asked x k r) := by
  cases r with
  | none => exact stable_free
  | some u => exact stable_at k u

theorem stable_checked (k : Nat) (u : ι) (b : Bool) : Stable (σ := Flow ι γ δ) (Sound x) (Shrinks x) (Checked x k u b) := by
  cases b with
  | false => exact stable_from _
  | true => exact stable_at k u

theorem removeOwn_rg (k : Nat) (u : ι) : RG (Sound x) (Shrinks x) (okPost (fun _ => From x (k + 1)) True) (At x k u : Flow ι γ δ → Prop) (act (removeFrom x u)) := by
  refine RG.act (okPost_stable (fun _ => stable_from _)) (fun f hf ha => ?_)
  simp only [removeFrom]
  cases hu : f.progs.items.get? u with
  | none =>
    refine ⟨hf, Shrinks.refl f, fun v hv => ?_⟩
    rcases ha v hv with h | h
    · subst h
      obtain ⟨p, hp, _⟩ := hv
      rw [hu] at hp; cases hp
    · exact h
  | some p =>
    by_cases hm : x ∈ p.data.order
    · have hnot : x ∉ p.data.order.erase x := by
        intro h
        have h1 := List.count_pos_iff.2 h
        rw [List.count_erase_self] at h1
        have := hf.once u p hu
        omega
      simp only [if_pos hm, Flow.modify, hu]
      obtain ⟨h1, h2⟩ := sound_set hf u { p with data := { p.data with order := p.data.order.erase x } } (by
        show List.count x (p.data.order.erase x) ≤ 1
        rw [List.count_eq_zero_of_not_mem hnot]; omega) (fun h => absurd h hnot)
      refine ⟨h1, h2, fun v hv => ?_⟩
      rcases ha v (h2.2 v hv) with h | h
      · subst h
        obtain ⟨q, hq, hx⟩ := hv
        simp only [Dict.get?_set, if_pos, Option.some.injEq] at hq
        rw [← hq] at hx
        exact absurd hx hnot
      · exact h
    · simp only [if_neg hm]
      exact ⟨hf, Shrinks.refl f, trivial⟩

theorem dropOwn_rg : ∀ (fuel k : Nat), RG (Sound x) (Shrinks x) (okPost (fun _ => Free x) True) (From x k : Flow ι γ δ → Prop) (dropLoop x fuel k) := by
  intro fuel
  induction fuel with
  | zero => intro k; exact fun _ _ _ => trivial
  | succ fuel ih =>
    intro k
    refine RG.bind (Q' := Asked x k) (stable_asked k) ?_ _ _ (RG.look Shrinks.refl (stable_asked k) (fun _ => rfl) (fun f hf ha => ?_))
    · intro r
      cases r with
      | none => exact fun _ _ ha => ha
      | some u =>
        refine RG.andThen (Qm := fun _ => At x k u) (fun _ => stable_at k u) (RG.look Shrinks.refl (okPost_stable (fun _ => stable_at k u)) (yieldProg_fst u) (fun f _ ha => ?_)) (fun _ => ?_)
        · simp only [yieldProg]
          cases f.progs.items.get? u with
          | none => trivial
          | some p => exact ha
        refine RG.andThen (Qm := Checked x k u) (stable_checked k u) (RG.look Shrinks.refl (okPost_stable (stable_checked k u)) (listedIn_fst x u) (fun f _ ha => ?_)) (fun b => ?_)
        · have hskip : ¬ Lists x u f → From x (k + 1) f := by
            intro hn v hv
            rcases ha v hv with h | h
            · subst h; exact absurd hv hn
            · exact h
          simp only [listedIn]
          cases hu : f.progs.items.get? u with
          | none =>
            refine hskip ?_
            rintro ⟨p, hp, _⟩
            rw [hu] at hp; cases hp
          | some p =>
            by_cases hm : x ∈ p.data.order
            · simp only [decide_eq_true hm]; exact ha
            · simp only [decide_eq_false hm]
              refine hskip ?_
              rintro ⟨q, hq, hx⟩
              rw [hu] at hq; cases hq; exact hm hx
        refine RG.andThen (Qm := fun _ => From x (k + 1)) (fun _ => stable_from _) ?_ (fun _ => ih (k + 1))
        cases b with
        | true => exact removeOwn_rg k u
        | false => exact fun _ _ ha => ha
    · simp only [progAt]
      cases hk : f.progs.order[k]? with
      | none =>
        intro u hu
        have := ha u hu
        rw [List.drop_eq_nil_of_le (List.getElem?_eq_none_iff.1 hk)] at this
        cases this
      | some v =>
        intro u hu
        have h := ha u hu
        obtain ⟨hlt, hv⟩ := List.getElem?_eq_some_iff.1 hk
        rw [List.drop_eq_getElem_cons hlt, hv] at h
        exact List.mem_cons.1 h

theorem dropOther_rg (y : ι) (hy : y ≠ x) : ∀ (fuel k : Nat) {A : Flow ι γ δ → Prop}, RG (Sound x) (Shrinks x) (okPost (fun _ _ => True) True) A (dropLoop y fuel k) := by
  intro fuel
  induction fuel with
  | zero => intro k A; exact fun _ _ _ => trivial
  | succ fuel ih =>
    intro k A
    refine RG.bind (Q' := fun _ _ => True) (fun _ => stable_true) ?_ _ _ (RG.look Shrinks.refl (fun _ => stable_true) (fun _ => rfl) (fun _ _ _ => trivial))
    intro r
    cases r with
    | none => exact fun _ _ _ => trivial
    | some u =>
      refine RG.andThen (Qm := fun _ _ => True) (fun _ => stable_true) (RG.look Shrinks.refl okTrue (yieldProg_fst u) (fun f _ _ => okTrue_any _ _)) (fun _ => ?_)
      refine RG.andThen (Qm := fun _ _ => True) (fun _ => stable_true) (RG.look Shrinks.refl okTrue (listedIn_fst y u) (fun f _ _ => okTrue_any _ _)) (fun b => ?_)
      refine RG.andThen (Qm := fun _ _ => True) (fun _ => stable_true) ?_ (fun _ => ih (k + 1))
      cases b with
      | false => exact fun _ _ _ => trivial
      | true =>
        refine RG.act okTrue (fun f hf _ => ?_)
        simp only [removeFrom]
        cases hu : f.progs.items.get? u with
        | none => exact ⟨hf, Shrinks.refl f, trivial⟩
        | some p =>
          by_cases hm : y ∈ p.data.order
          · simp only [if_pos hm, Flow.modify, hu]
            obtain ⟨h1, h2⟩ := sound_set hf u { p with data := { p.data with order := p.data.order.erase y } }
              (Nat.le_trans (List.Sublist.count_le x List.erase_sublist) (hf.once u p hu)) (fun h => ⟨p, hu, List.mem_of_mem_erase h⟩)
            exact ⟨h1, h2, trivial⟩
          · simp only [if_neg hm]
            exact ⟨hf, Shrinks.refl f, trivial⟩

theorem removeItem_rg {A : Flow ι γ δ → Prop} (fuel : Nat) (r : Ref ι) : RG (Sound x) (Shrinks x) (okPost (fun _ _ => True) True) A (removeItem fuel r) := by
  cases r with
  | none => exact fun _ _ _ => trivial
  | some uid =>
    simp only [removeItem]
    -- the part that takes the item out, under an assumption that makes this harmless
    have hend : ∀ B : Flow ι γ δ → Prop, Stable (Sound x) (Shrinks x) B → (∀ f, B f → uid = x → Free x f) →
        RG (Sound x) (Shrinks x) (okPost (fun _ _ => True) True) B (withLock 1 (removeBody itemsL (some uid))) := by
      intro B hB hfree
      refine RG.withLock okTrue (RG.andThen (Qm := fun _ _ => True) (fun _ => stable_true) ?_ (fun u => ?_))
      · refine RG.act okTrue (fun f hf ha => ?_)
        rw [items_lift]
        simp only [popItem]
        cases hg : f.items.items.get? uid with
        | none => exact ⟨hf, Shrinks.refl f, trivial⟩
        | some z =>
          refine ⟨⟨Dict.del_wf hf.wfi _, hf.once, fun u hu => ?_⟩, Shrinks.refl _, trivial⟩
          obtain ⟨h1, h2⟩ := hf.refs u hu
          refine ⟨?_, h2⟩
          rw [Dict.mem_keys_del hf.wfi]
          exact ⟨fun e => hfree f ha e.symm u hu, h1⟩
      · refine RG.act okTrue (fun f hf _ => ?_)
        have hp : (itemsL.lift (removeId u) f).1.progs = f.progs := rfl
        have hi : (removeId u f.items).1.items = f.items.items := by
          simp only [removeId]
          rcases Progression.remove f.items.order (some u.1) with ⟨o, e | ⟨⟩⟩ <;> rfl
        obtain ⟨h1, h2⟩ := sound_same (f' := (itemsL.lift (removeId u) f).1) hf hp (by rw [items_lift]; simp only [hi]; exact hf.wfi) (by rw [items_lift]; simp only [hi]; exact fun h => h)
        exact ⟨h1, h2, okTrue_any _ _⟩
    by_cases hx : uid = x
    · subst hx
      refine RG.andThen (Qm := fun _ => Free uid) (fun _ => stable_free) ?_ (fun _ => hend _ stable_free (fun f h _ => h))
      refine RG.weaken _ _ _ (fun f hf _ u hu => ?_) (dropOwn_rg fuel 0)
      exact (hf.refs u hu).2
    · exact RG.andThen (Qm := fun _ _ => True) (fun _ => stable_true) (dropOther_rg uid hx fuel 0) (fun _ => hend _ stable_true (fun f _ h => absurd h hx))

end Verif.FlowSync.Dropping
