import Verif.Lemmas.SyncGrow

/-! # Piles where the items at the front stay -/

set_option linter.unusedSectionVars false
set_option linter.unusedVariables false
set_option linter.unusedSimpArgs false

namespace Verif.PileSync.Staying

open Verif.Sync Verif.PileSync

variable {ι γ δ : Type} [DecidableEq ι] [DecidableEq γ]

/-- The order begins with the ids `pre`, which have items; items are stored under their ids and satisfy `S`. -/
structure Stays (pre : List ι) (S : Item ι γ δ → Prop) (p : Pile ι γ δ) : Prop where
  order : pre <+: p.order
  keys : ∀ u ∈ pre, u ∈ p.items.keys
  wf : p.items.WF
  ids : ∀ u x, p.items.get? u = some x → x.id = u
  source : ∀ u x, p.items.get? u = some x → S x

/-- Other threads may do anything that keeps the invariant. -/
def AnyStep (_ _ : Pile ι γ δ) : Prop := True

variable {pre : List ι} {S : Item ι γ δ → Prop}

theorem stable_pure (P : Prop) : Stable (σ := Pile ι γ δ) (Stays pre S) AnyStep (fun _ => P) := fun _ _ _ h _ => h

theorem rg_false {σ α : Type} {I : σ → Prop} {R : σ → σ → Prop} {Q : α → σ → Prop} : ∀ q : Prog σ α, RG I R Q (fun _ => False) q := by
  intro q
  induction q with
  | ret a => exact fun _ _ h => h.elim
  | atomic f k ih => exact fun _ _ h => h.elim
  | acquire l k ih => exact ih
  | release l k ih => exact ih

theorem any_stable {β : Type} (Qm : β → Prop) (r : Except Exc β) :
    Stable (σ := Pile ι γ δ) (Stays pre S) AnyStep (okPost (fun b _ => Qm b) True r) := okPost_stable (fun b => stable_pure (Qm b)) r

theorem act_any {β : Type} {A : Pile ι γ δ → Prop} {f : Pile ι γ δ → Res (Pile ι γ δ) β} (Qm : β → Prop)
    (h : ∀ p, Stays pre S p → A p → Stays pre S (f p).1 ∧ ∀ b, (f p).2 = .ok b → Qm b) :
    RG (Stays pre S) AnyStep (okPost (fun b _ => Qm b) True) A ((whole 0).act f) := by
  refine RG.act (any_stable Qm) (fun p hi ha => ?_)
  obtain ⟨h1, h2⟩ := h p hi ha
  refine ⟨h1, trivial, ?_⟩
  show okPost _ _ (f p).2 _
  cases hf : (f p).2 with
  | ok b => exact h2 b hf
  | error e => trivial

theorem put_stays {x : Item ι γ δ} (hx : S x) {p : Pile ι γ δ} (h : Stays pre S p) : Stays pre S { p with items := p.items.set x.id x } := by
  refine ⟨h.order, fun u hu => ?_, Dict.set_wf h.wf _ _, fun u y hy => ?_, fun u y hy => ?_⟩
  · rw [Dict.mem_keys_set]; exact Or.inr (h.keys u hu)
  · rw [Dict.get?_set] at hy
    by_cases e : x.id = u
    · rw [if_pos e] at hy; simp only [Option.some.injEq] at hy; rw [← e, hy]
    · rw [if_neg e] at hy; exact h.ids u y hy
  · rw [Dict.get?_set] at hy
    by_cases e : x.id = u
    · rw [if_pos e] at hy; simp only [Option.some.injEq] at hy; rw [← hy]; exact hx
    · rw [if_neg e] at hy; exact h.source u y hy

theorem del_stays {u : ι} (hu : u ∉ pre) {p : Pile ι γ δ} (h : Stays pre S p) : Stays pre S { p with items := p.items.del u } := by
  refine ⟨h.order, fun v hv => ?_, Dict.del_wf h.wf _, fun v y hy => ?_, fun v y hy => ?_⟩
  · rw [Dict.mem_keys_del h.wf]; exact ⟨fun e => hu (e ▸ hv), h.keys v hv⟩
  · rw [Dict.get?_del h.wf] at hy
    by_cases e : u = v
    · rw [if_pos e] at hy; simp at hy
    · rw [if_neg e] at hy; exact h.ids v y hy
  · rw [Dict.get?_del h.wf] at hy
    by_cases e : u = v
    · rw [if_pos e] at hy; simp at hy
    · rw [if_neg e] at hy; exact h.source v y hy

theorem erase_stays {u : ι} (hu : u ∉ pre) {p : Pile ι γ δ} (h : Stays pre S p) : Stays pre S { p with order := p.order.erase u } := by
  refine ⟨?_, h.keys, h.wf, h.ids, h.source⟩
  obtain ⟨rest, hr⟩ := h.order
  refine ⟨rest.erase u, ?_⟩
  show pre ++ rest.erase u = p.order.erase u
  rw [← hr, List.erase_append_right _ hu]

/-- Calls that do not take out an item of `pre`. -/
def Spares (pre : List ι) : Call ι γ δ → Prop
  | .add _ => True
  | .get _ _ => True
  | .update _ => True
  | .contains _ => True
  | .len => True
  | .index _ => True
  | .remove r => ∀ u, r = some u → u ∉ pre
  | .pop r _ => ∀ u, r = some u → u ∉ pre
  | .clear => pre = []

theorem removeId_rg (u : ι × Item ι γ δ) (hu : u.1 ∉ pre) {A : Pile ι γ δ → Prop} :
    RG (Stays pre S) AnyStep (okPost (fun _ _ => True) True) A ((whole 0).act (removeId u)) := by
  refine act_any (fun _ => True) (fun p hi _ => ⟨?_, fun _ _ => trivial⟩)
  simp only [removeId, Progression.remove]
  by_cases h : u.1 ∈ p.order
  · simp only [if_pos h]; exact erase_stays hu hi
  · simp only [if_neg h]; exact hi

theorem read_rg {β : Type} {A : Pile ι γ δ → Prop} (f : Pile ι γ δ → Except Exc β) :
    RG (Stays pre S) AnyStep (okPost (fun _ _ => True) True) A ((whole 0).act (PileSync.read f)) :=
  act_any (fun _ => True) (fun p hi _ => ⟨hi, fun _ _ => trivial⟩)

theorem spares_rg {A : Pile ι γ δ → Prop} (sub : γ → γ → Bool) (c : Call ι γ δ) (hc : Spares pre c)
    (hadd : ∀ x, c = .add (some x) → S x) (hupd : ∀ x, c = .update (some x) → S x) :
    RG (Stays pre S) AnyStep (fun _ _ => True) A (withLock 0 (body (whole 0) sub c)) := by
  have sT : ∀ {β : Type} (b : β), Stable (σ := Pile ι γ δ) (Stays pre S) AnyStep (fun _ => True) := fun _ => stable_pure True
  refine RG.withLock (fun _ => stable_pure True) ?_
  cases c with
  | add a =>
    refine RG.mapOk (E := True) (Qm := fun _ _ => True) (fun _ => stable_pure True) ?_ (fun _ _ _ _ => trivial) (fun _ _ _ => trivial)
    refine RG.andThen (Qm := fun x _ => S x) (fun x => stable_pure (S x)) ?_ (fun x => ?_)
    · refine act_any S (fun p hi _ => ⟨by rw [addCheck_fst]; exact hi, fun y hy => hadd y ?_⟩)
      rw [addCheck_ok hy]
    · refine RG.andThen (Qm := fun _ _ => True) (fun _ => stable_pure True) ?_ (fun _ => ?_)
      · exact act_any (fun _ => True) (fun p hi hx => ⟨put_stays hx hi, fun _ _ => trivial⟩)
      · refine act_any (fun _ => True) (fun p hi _ => ⟨⟨?_, hi.keys, hi.wf, hi.ids, hi.source⟩, fun _ _ => trivial⟩)
        exact hi.order.trans (List.prefix_append _ _)
  | get r d => exact RG.mapOk (E := True) (Qm := fun _ _ => True) (fun _ => stable_pure True) (read_rg _) (fun _ _ _ _ => trivial) (fun _ _ _ => trivial)
  | update a =>
    refine RG.mapOk (E := True) (Qm := fun _ _ => True) (fun _ => stable_pure True) ?_ (fun _ _ _ _ => trivial) (fun _ _ _ => trivial)
    refine RG.andThen (Qm := fun x _ => S x) (fun x => stable_pure (S x)) ?_ (fun x => ?_)
    · refine act_any S (fun p hi _ => ⟨by rw [updateCheck_fst]; exact hi, fun y hy => hupd y ?_⟩)
      cases a with
      | none => simp [updateCheck] at hy
      | some z =>
        simp only [updateCheck] at hy
        split at hy
        · simp at hy
        · split at hy
          · simp at hy
          · simp only [Except.ok.injEq] at hy; rw [hy]
    · exact act_any (fun _ => True) (fun p hi hx => ⟨put_stays hx hi, fun _ _ => trivial⟩)
  | contains r => exact RG.post (fun _ _ _ _ => trivial) _ _ (read_rg _)
  | len => exact RG.post (fun _ _ _ _ => trivial) _ _ (read_rg _)
  | index i =>
    refine RG.mapOk (E := True) (Qm := fun _ _ => True) (fun _ => stable_pure True) ?_ (fun _ _ _ _ => trivial) (fun _ _ _ => trivial)
    exact RG.andThen (Qm := fun _ _ => True) (fun _ => stable_pure True) (read_rg _) (fun x => read_rg _)
  | remove r =>
    refine RG.mapOk (E := True) (Qm := fun _ _ => True) (fun _ => stable_pure True) ?_ (fun _ _ _ _ => trivial) (fun _ _ _ => trivial)
    refine RG.andThen (Qm := fun u _ => u.1 ∉ pre) (fun u => stable_pure (u.1 ∉ pre)) ?_ (fun u => ?_)
    · refine act_any (fun u : ι × Item ι γ δ => u.1 ∉ pre) (fun p hi _ => ?_)
      cases r with
      | none => exact ⟨hi, fun _ h => by simp [popItem] at h⟩
      | some uid =>
        have hu := hc uid rfl
        simp only [popItem]
        cases p.items.get? uid with
        | none => exact ⟨hi, fun _ h => by simp at h⟩
        | some x =>
          refine ⟨del_stays hu hi, fun b hb => ?_⟩
          simp only [Except.ok.injEq] at hb
          rw [← hb]; exact hu
    · by_cases hu : u.1 ∉ pre
      · exact removeId_rg u hu
      · exact RG.weaken _ _ (fun _ => False) (fun _ _ h => hu h) (act_any (fun _ => True) (fun _ _ h => h.elim))
  | pop r d =>
    refine RG.mapOk (E := True) (Qm := fun _ _ => True) (fun _ => stable_pure True) ?_ (fun _ _ _ _ => trivial) (fun _ _ _ => trivial)
    refine RG.andThen (Qm := fun o _ => ∀ u, o = some u → u.1 ∉ pre) (fun o => stable_pure (∀ u, o = some u → u.1 ∉ pre)) ?_ (fun o => ?_)
    · refine act_any (fun o : Option (ι × Item ι γ δ) => ∀ u, o = some u → u.1 ∉ pre) (fun p hi _ => ?_)
      cases r with
      | none => exact ⟨hi, fun _ h => by simp [popItemD] at h⟩
      | some uid =>
        have hu := hc uid rfl
        simp only [popItemD]
        cases p.items.get? uid with
        | none =>
          refine ⟨hi, fun b hb u hbu => ?_⟩
          cases d with
          | false => simp at hb
          | true => simp only [if_true, Except.ok.injEq] at hb; rw [← hb] at hbu; simp at hbu
        | some x =>
          refine ⟨del_stays hu hi, fun b hb u hbu => ?_⟩
          simp only [Except.ok.injEq] at hb
          rw [← hb] at hbu
          simp only [Option.some.injEq] at hbu
          rw [← hbu]; exact hu
    · cases o with
      | none => exact fun _ _ _ => trivial
      | some u =>
        refine RG.andThen (Qm := fun _ _ => True) (fun _ => stable_pure True) ?_ (fun _ => fun _ _ _ => trivial)
        by_cases hu : u.1 ∉ pre
        · exact removeId_rg u hu
        · exact RG.weaken _ _ (fun _ => False) (fun _ _ h => hu (h u rfl)) (act_any (fun _ => True) (fun _ _ h => h.elim))
  | clear =>
    have hp : pre = [] := hc
    refine RG.mapOk (E := True) (Qm := fun _ _ => True) (fun _ => stable_pure True) ?_ (fun _ _ _ _ => trivial) (fun _ _ _ => trivial)
    refine RG.andThen (Qm := fun _ _ => True) (fun _ => stable_pure True) ?_ (fun _ => ?_)
    · refine act_any (fun _ => True) (fun p hi _ => ⟨⟨hi.order, ?_, ?_, ?_, ?_⟩, fun _ _ => trivial⟩)
      · intro u hu; rw [hp] at hu; simp at hu
      · exact List.nodup_nil
      · intro u x h; simp [clearItems] at h
      · intro u x h; simp [clearItems] at h
    · refine act_any (fun _ => True) (fun p hi _ => ⟨⟨?_, hi.keys, hi.wf, hi.ids, hi.source⟩, fun _ _ => trivial⟩)
      rw [hp]; exact List.nil_prefix

/-- What is known of the items that have been yielded. -/
def Got (pre : List ι) (S : Item ι γ δ → Prop) (n : Nat) (l : List (Item ι γ δ)) : Prop :=
  pre.take n <+: l.map Item.id ∧ l.length ≤ n ∧ ∀ x ∈ l, S x

theorem iterFrom_rg (n : Nat) :
    ∀ (fuel : Nat) (acc : List (Item ι γ δ)), acc.length + fuel = n → pre.take acc.length <+: acc.map Item.id → (∀ x ∈ acc, S x) →
      RG (Stays pre S) AnyStep (postE (fun l _ => Got pre S n l) (fun e => e = .keyError)) (fun _ => True) (iterFrom fuel acc.length acc)
  | 0, acc, hn, h1, h2 => by
    intro s hi _
    exact ⟨by rw [← hn]; exact h1, by omega, h2⟩
  | fuel + 1, acc, hn, h1, h2 => by
    refine RG.bind (Q' := fun o _ => (o = none → pre.length ≤ acc.length) ∧ ∀ u, o = some u → ∀ v, pre[acc.length]? = some v → u = v)
      (fun o => stable_pure _) ?_ _ _ ?_
    · intro o
      cases o with
      | none =>
        intro s hi ha
        refine ⟨?_, by omega, h2⟩
        have := ha.1 rfl
        rw [List.take_of_length_le (by omega)]
        rwa [List.take_of_length_le (by omega)] at h1
      | some u =>
        by_cases hu : ∀ v, pre[acc.length]? = some v → u = v
        · refine RG.andThenE (Qm := fun x _ => x.id = u ∧ S x) (fun x => stable_pure _) ?_ (fun x => ?_)
          · refine RG.look (fun _ => trivial) (postE_stable (fun x => stable_pure _)) (fun _ => rfl) (fun s hi ha => ?_)
            simp only [yieldItem, itemOf]
            cases hg : s.items.get? u with
            | none => rfl
            | some x => exact ⟨hi.ids u x hg, hi.source u x hg⟩
          · by_cases hx : x.id = u ∧ S x
            · have := iterFrom_rg n fuel (acc ++ [x]) (by simp; omega) ?_ ?_
              · refine RG.weaken _ _ (fun _ => True) (fun _ _ _ => trivial) ?_
                simpa using this
              · rw [List.length_append, List.length_singleton, List.map_append, List.map_singleton, List.take_add_one]
                obtain ⟨r, hr⟩ := h1
                cases hv : pre[acc.length]? with
                | none =>
                  rw [Option.toList_none, List.append_nil]
                  exact ⟨r ++ [x.id], by rw [← List.append_assoc, hr]⟩
                | some v =>
                  have hl := (List.getElem?_eq_some_iff.1 hv).1
                  have hr0 : r = [] := by
                    have := congrArg List.length hr
                    simp only [List.length_append, List.length_take, List.length_map] at this
                    exact List.eq_nil_of_length_eq_zero (by omega)
                  rw [hr0, List.append_nil] at hr
                  rw [hr, Option.toList_some, hx.1, hu v hv]
                  exact List.prefix_refl _
              · intro y hy
                rcases List.mem_append.1 hy with h | h
                · exact h2 y h
                · simp only [List.mem_singleton] at h; rw [h]; exact hx.2
            · exact RG.weaken _ _ (fun _ => False) (fun _ _ h => hx h) (rg_false _)
        · exact RG.weaken _ _ (fun _ => False) (fun _ _ h => hu (h.2 u rfl)) (rg_false _)
    · refine RG.look (fun _ => trivial) (fun o => stable_pure _) (fun _ => rfl) (fun s hi _ => ?_)
      simp only [idAtPos]
      obtain ⟨rest, hr⟩ := hi.order
      refine ⟨fun h => ?_, fun u hu v hv => ?_⟩
      · have h3 := List.getElem?_eq_none_iff.1 h
        rw [← hr, List.length_append] at h3; omega
      · have hl := (List.getElem?_eq_some_iff.1 hv).1
        rw [← hr, List.getElem?_append_left hl, hv] at hu
        exact (Option.some.inj hu).symm

end Verif.PileSync.Staying
