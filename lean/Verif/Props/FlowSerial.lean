import Verif.Props.Flow
import Verif.Model.FlowSerial

/-!
# Properties C139, C140: serialisation of `Flow`, metadata of a `Pile`
-/

set_option linter.unusedSectionVars false
set_option linter.unusedSimpArgs false

namespace Verif.Flow

variable {ι γ δ : Type} [DecidableEq ι] [DecidableEq γ]

/-! ## C139 — round trip of a flow -/

/-- What a flow shows: its items, its progressions, the constraint on the items. -/
structure Same (f g : Flow ι γ δ) : Prop where
  items : ∃ I, Pile.iter f.items = .ok I ∧ Pile.iter g.items = .ok I
  progs : ∃ L, Pile.iter f.progs = .ok L ∧ Pile.iter g.progs = .ok L
  itemType : g.items.itemType = f.items.itemType
  strict : g.items.strict = f.items.strict
  lookup : ∀ k, getProgression g k = getProgression f k

/-- The items of a flow form a pile reachable by pile calls. -/
theorem items_step (sub : γ → γ → Bool) (f : Flow ι γ δ) (op : Op ι γ δ) :
    ∃ pops, (step sub f op).1.items = Pile.run sub f.items pops := by
  cases op with
  | addProgression p =>
    refine ⟨[], ?_⟩
    show (Flow.addProgression f p).1.items = _
    rcases addProgression_cases f p with ⟨e, he⟩ | ⟨_, _, _, he⟩ <;> rw [he] <;> rfl
  | removeProgression k =>
    refine ⟨[], ?_⟩
    show (Flow.removeProgression f k).1.items = f.items
    have hd : ∀ (f : Flow ι γ δ) u, (dropProgression f u).1.items = f.items := by
      intro f u; unfold dropProgression; split <;> rfl
    have hr : ∀ r, (removeById f r).1.items = f.items := by
      intro r
      unfold removeById
      split
      · rfl
      · split
        · rfl
        · rw [hd]
    unfold Flow.removeProgression
    split
    · split
      · dsimp only
        split
        · rfl
        · rw [hd]
      · exact hr _
    · exact hr _
  | addItem a ps =>
    refine ⟨[.add a], ?_⟩
    show (Flow.addItem sub f a ps).1.items = _
    have happ : ∀ (x : ι) (ps : List (ProgArg ι)) (f : Flow ι γ δ), (appendAll f x ps).1.items = f.items := by
      intro x ps
      induction ps with
      | nil => intro f; rfl
      | cons q qs ih =>
        intro f
        cases q with
        | foreign => exact ih f
        | member u => exact ih _
        | key k =>
          simp only [appendAll]
          cases getProgression f k with
          | error e => rfl
          | ok p => exact ih _
    unfold Flow.addItem
    show _ = (Pile.step sub f.items (.add a)).1
    simp only [Pile.step]
    cases h : Pile.add sub f.items a with
    | mk ip r =>
      cases r with
      | error e => rfl
      | ok u =>
        cases a with
        | none => rfl
        | some x => simp only [happ]
  | removeItem r =>
    show ∃ pops, (Flow.removeItem f r).1.items = _
    unfold Flow.removeItem
    cases r with
    | none => exact ⟨[], rfl⟩
    | some uid =>
      dsimp only
      cases dropEverywhere f.progs uid f.progs.order with
      | mk pp res =>
        cases res with
        | error e => exact ⟨[], rfl⟩
        | ok u =>
          refine ⟨[.remove (some uid)], ?_⟩
          show _ = (Pile.step sub f.items (.remove (some uid))).1
          simp only [Pile.step]

/-- Same configuration of a pile. -/
def SameCfg {κ ε : Type} (p q : Pile ι κ ε) : Prop := q.itemType = p.itemType ∧ q.strict = p.strict ∧ q.pname = p.pname

theorem SameCfg.refl {κ ε : Type} (p : Pile ι κ ε) : SameCfg p p := ⟨rfl, rfl, rfl⟩

theorem SameCfg.trans {κ ε : Type} {p q r : Pile ι κ ε} (h : SameCfg p q) (g : SameCfg q r) : SameCfg p r :=
  ⟨g.1.trans h.1, g.2.1.trans h.2.1, g.2.2.trans h.2.2⟩

theorem cfg_add {κ ε : Type} [DecidableEq κ] (sub : κ → κ → Bool) (p : Pile ι κ ε) (a : Pile.Arg ι κ ε) :
    SameCfg p (Pile.add sub p a).1 := by
  rcases Pile.add_cases sub p a with ⟨e, he⟩ | ⟨x, _, _, he⟩ <;> rw [he] <;> exact ⟨rfl, rfl, rfl⟩

theorem cfg_remove {κ ε : Type} (p : Pile ι κ ε) (r : Ref ι) : SameCfg p (Pile.remove p r).1 := by
  unfold Pile.remove
  split
  · exact SameCfg.refl p
  · split
    · exact SameCfg.refl p
    · dsimp only
      split <;> exact ⟨rfl, rfl, rfl⟩

theorem cfg_modify (pp : Pile ι Unit (ProgData ι)) (u : ι) (g : List ι → List ι) : SameCfg pp (modify pp u g) := by
  unfold modify
  split
  · exact SameCfg.refl pp
  · exact ⟨rfl, rfl, rfl⟩

theorem cfg_drop (uid : ι) (us : List ι) (pp : Pile ι Unit (ProgData ι)) : SameCfg pp (dropEverywhere pp uid us).1 := by
  induction us generalizing pp with
  | nil => exact SameCfg.refl pp
  | cons u us ih =>
    simp only [dropEverywhere]
    split
    · exact SameCfg.refl pp
    · exact (cfg_modify pp u _).trans (ih _)

theorem cfg_append (x : ι) (ps : List (ProgArg ι)) (f : Flow ι γ δ) : SameCfg f.progs (appendAll f x ps).1.progs := by
  induction ps generalizing f with
  | nil => exact SameCfg.refl _
  | cons q qs ih =>
    cases q with
    | foreign => exact ih f
    | member u => exact (cfg_modify f.progs u _).trans (ih _)
    | key k =>
      simp only [appendAll]
      cases getProgression f k with
      | error e => exact SameCfg.refl _
      | ok p => exact (cfg_modify f.progs p.id _).trans (ih _)

theorem cfg_dropProgression (f : Flow ι γ δ) (u : ι) : SameCfg f.progs (dropProgression f u).1.progs := by
  have := cfg_remove f.progs (some u)
  unfold dropProgression
  split <;> next h => rw [h] at this; exact this

theorem cfg_removeById (f : Flow ι γ δ) (r : Ref ι) : SameCfg f.progs (removeById f r).1.progs := by
  unfold removeById
  split
  · exact SameCfg.refl _
  · split
    · exact SameCfg.refl _
    · next u p _ => exact cfg_dropProgression { f with names := unregister f.names p } _

theorem cfg_step (sub : γ → γ → Bool) (f : Flow ι γ δ) (op : Op ι γ δ) :
    SameCfg f.progs (step sub f op).1.progs ∧ SameCfg f.items (step sub f op).1.items := by
  cases op with
  | addProgression p =>
    show SameCfg f.progs (Flow.addProgression f p).1.progs ∧ SameCfg f.items (Flow.addProgression f p).1.items
    rcases addProgression_cases f p with ⟨e, he⟩ | ⟨_, _, _, he⟩ <;> rw [he] <;> exact ⟨⟨rfl, rfl, rfl⟩, ⟨rfl, rfl, rfl⟩⟩
  | removeProgression k =>
    refine ⟨?_, ?_⟩
    · show SameCfg f.progs (Flow.removeProgression f k).1.progs
      unfold Flow.removeProgression
      split
      · split
        · dsimp only
          split
          · exact SameCfg.refl _
          · exact (cfg_dropProgression ({ f with names := _ } : Flow ι γ δ) _ :)
        · exact cfg_removeById f _
      · exact cfg_removeById f _
    · obtain ⟨pops, h⟩ := items_step sub f (.removeProgression k)
      have hd : ∀ (f : Flow ι γ δ) u, (dropProgression f u).1.items = f.items := by
        intro f u; unfold dropProgression; split <;> rfl
      have hr : ∀ r, (removeById f r).1.items = f.items := by
        intro r
        unfold removeById
        split
        · rfl
        · split
          · rfl
          · rw [hd]
      have : (Flow.removeProgression f k).1.items = f.items := by
        unfold Flow.removeProgression
        split
        · split
          · dsimp only
            split
            · rfl
            · rw [hd]
          · exact hr _
        · exact hr _
      show SameCfg f.items (Flow.removeProgression f k).1.items
      rw [this]; exact SameCfg.refl _
  | addItem a ps =>
    have happ : ∀ (x : ι) (ps : List (ProgArg ι)) (f : Flow ι γ δ), (appendAll f x ps).1.items = f.items := by
      intro x ps
      induction ps with
      | nil => intro f; rfl
      | cons q qs ih =>
        intro f
        cases q with
        | foreign => exact ih f
        | member u => exact ih _
        | key k =>
          simp only [appendAll]
          cases getProgression f k with
          | error e => rfl
          | ok p => exact ih _
    have ha := cfg_add sub f.items a
    show SameCfg f.progs (Flow.addItem sub f a ps).1.progs ∧ SameCfg f.items (Flow.addItem sub f a ps).1.items
    unfold Flow.addItem
    cases h : Pile.add sub f.items a with
    | mk ip r =>
      rw [h] at ha
      cases r with
      | error e => exact ⟨SameCfg.refl _, ha⟩
      | ok u =>
        cases a with
        | none => exact ⟨SameCfg.refl _, ha⟩
        | some x =>
          refine ⟨cfg_append x.id ps { f with items := ip }, ?_⟩
          show SameCfg f.items (appendAll { f with items := ip } x.id ps).1.items
          rw [happ]; exact ha
  | removeItem r =>
    show SameCfg f.progs (Flow.removeItem f r).1.progs ∧ SameCfg f.items (Flow.removeItem f r).1.items
    unfold Flow.removeItem
    cases r with
    | none => exact ⟨SameCfg.refl _, SameCfg.refl _⟩
    | some uid =>
      dsimp only
      have hd := cfg_drop uid f.progs.order f.progs
      cases h : dropEverywhere f.progs uid f.progs.order with
      | mk pp res =>
        rw [h] at hd
        cases res with
        | error e => exact ⟨hd, SameCfg.refl _⟩
        | ok u => exact ⟨hd, cfg_remove f.items (some uid)⟩

theorem cfg_run (sub : γ → γ → Bool) (ops : List (Op ι γ δ)) (f : Flow ι γ δ) :
    SameCfg f.progs (run sub f ops).progs ∧ SameCfg f.items (run sub f ops).items := by
  induction ops generalizing f with
  | nil => exact ⟨SameCfg.refl _, SameCfg.refl _⟩
  | cons op ops ih =>
    have h1 := cfg_step sub f op
    have h2 := ih (step sub f op).1
    exact ⟨h1.1.trans h2.1, h1.2.trans h2.2⟩

theorem items_run (sub : γ → γ → Bool) (ops : List (Op ι γ δ)) (f : Flow ι γ δ) :
    ∃ pops, (run sub f ops).items = Pile.run sub f.items pops := by
  induction ops generalizing f with
  | nil => exact ⟨[], rfl⟩
  | cons op ops ih =>
    obtain ⟨a, ha⟩ := items_step sub f op
    obtain ⟨b, hb⟩ := ih (step sub f op).1
    refine ⟨a ++ b, ?_⟩
    show (run sub (step sub f op).1 ops).items = _
    rw [hb, ha]
    simp only [Pile.run, List.foldl_append]

/-- The configuration of a constructed flow. -/
theorem Built.cfg {sub : γ → γ → Bool} {xs : List (Pile.Arg ι γ δ)} {t : Option (List γ)} {s : Bool}
    {ps : List (Prog ι)} {f0 : Flow ι γ δ} (h : Built sub xs t s ps f0) :
    f0.progs.itemType = none ∧ f0.progs.strict = false ∧ f0.progs.pname = none ∧
      Pile.Reachable sub f0.items ∧ f0.items.itemType = t ∧ f0.items.strict = s ∧ f0.items.pname = none := by
  obtain ⟨items, h1, h2⟩ := h
  have hm := Pile.mk'_inv sub xs t s items h1
  have hitems := (mk'_ok hm.1 h2).2.1
  unfold mk' at h2
  split at h2
  · cases h2
  · next pp hpp =>
    have hs := Pile.addAll_spec anySub (Pile.inv_empty none false none) _ pp hpp
    split at h2
    · cases h2
    · split at h2
      · cases h2
      · cases h2
        exact ⟨hs.2.1, hs.2.2.1, hs.2.2.2.1, ⟨xs, t, s, items, [], h1, rfl⟩, hm.2.2.1, hm.2.2.2.1, hm.2.2.2.2⟩

/-- Round trip of a pile without type constraint. -/
theorem plain_pile_round_trip {D ε : Type} (clsName : Unit → String) (load : String → Option Unit) (lionClass : D → Option String)
    (enc : Item ι Unit ε → D) (dec : D → Except Exc (Item ι Unit ε)) (hdec : ∀ x, dec (enc x) = .ok x)
    {p : Pile ι Unit ε} (h : Pile.Inv p) (ht : p.itemType = none) (hs : p.strict = false) (hp : p.pname = none) :
    ∃ d q, Pile.toDict clsName enc none p = .ok d ∧ Pile.fromDict anySub load lionClass dec d = .ok q ∧ Pile.Inv q ∧
      Pile.abs q = Pile.abs p := by
  let p1 : Pile ι Unit ε := {}
  have hp1 : Pile.Inv p1 := Pile.inv_empty _ _ _
  obtain ⟨q, hq⟩ := Pile.addAll_ok anySub hp1 (Pile.abs p) (fun x _ => rfl) (Pile.abs_nodup h) (by simp [p1, Dict.keys])
  obtain ⟨hqi, _, _, _, hqa⟩ := Pile.addAll_spec anySub hp1 _ q hq
  have hqabs : Pile.abs q = Pile.abs p := by
    have : (Pile.abs q).map some = (Pile.abs p).map some := by simpa [Pile.abs, p1] using hqa
    exact (List.map_inj_right (fun _ _ h => Option.some.inj h)).1 this
  refine ⟨_, q, by simp only [Pile.toDict, Pile.iter_eq h]; rfl, ?_, hqi, hqabs⟩
  simp only [Pile.fromDict, ht, hs, hp, Option.map_none, Pile.itemTypeData, Pile.loadTypes, Pile.precheckAll,
    Bool.true_eq_false, if_false, Pile.truthyName, Option.or_none]
  rw [Pile.addDecoded_eq anySub dec enc _ _ (fun x _ => hdec x)]
  exact hq

/-- Consistent piles showing the same items store the same items. -/
theorem get?_of_abs {κ ε : Type} [DecidableEq κ] {p q : Pile ι κ ε} (hp : Pile.Inv p) (hq : Pile.Inv q) (h : Pile.abs q = Pile.abs p) (u : ι) :
    q.items.get? u = p.items.get? u := by
  have key : ∀ {p q : Pile ι κ ε}, Pile.Inv p → Pile.Inv q → Pile.abs q = Pile.abs p → ∀ x, q.items.get? u = some x →
      p.items.get? u = some x := by
    intro p q hp hq h x hx
    have hid := hq.ids u x hx
    have : x ∈ Pile.abs q := (Pile.mem_abs hq x).2 (by rw [hid]; exact hx)
    rw [h] at this
    have := (Pile.mem_abs hp x).1 this
    rwa [hid] at this
  cases hx : q.items.get? u with
  | some x => exact (key hp hq h x hx).symm
  | none =>
    cases hy : p.items.get? u with
    | none => rfl
    | some y => rw [key hq hp h.symm y hy] at hx; cases hx

/-- The rebuilt name index agrees with the maintained one. -/
theorem buildNames_get? {f : Flow ι γ δ} (h : PInv f) (hn : NamesOK f) (n : String) :
    (buildNames (Pile.abs f.progs)).get? n = f.names.get? n := by
  unfold buildNames
  rw [buildNames_fold]
  cases hf : (Pile.abs f.progs).reverse.find? (fun p => decide (truthy p.data.name = some n)) with
  | some p =>
    have hm : p ∈ Pile.abs f.progs := by simpa using List.mem_of_find?_eq_some hf
    have ht := List.find?_some hf
    simp only [decide_eq_true_eq] at ht
    exact ((hn n p.id).2 ⟨p, (Pile.mem_abs h.progs p).1 hm, ht⟩).symm
  | none =>
    cases hg : f.names.get? n with
    | none => rfl
    | some u =>
      obtain ⟨p, hp, ht⟩ := (hn n u).1 hg
      have hid := h.progs.ids u p hp
      rw [List.find?_eq_none] at hf
      have := hf p (by simpa using (Pile.mem_abs h.progs p).2 (by rw [hid]; exact hp))
      simp [ht] at this

theorem getProgression_congr {f g : Flow ι γ δ} (hn : ∀ n, g.names.get? n = f.names.get? n)
    (hp : ∀ u, g.progs.items.get? u = f.progs.items.get? u) (k : FKey ι) : getProgression g k = getProgression f k := by
  unfold getProgression
  simp only [hn, hp]

theorem integrity_run {sub : γ → γ → Bool} (ops : List (Op ι γ δ)) (f : Flow ι γ δ) (h1 : PInv f) (h3 : Integrity f)
    (hs : SafeRemovals sub f ops) : Integrity (run sub f ops) := by
  induction ops generalizing f with
  | nil => exact h3
  | cons op ops ih => exact ih _ (h1.step sub op) (Integrity.step h1 h3 sub op hs.1) hs.2

/-- Serialisation that leaves the metadata under its own name: `meta_key="metadata"`, an empty `meta_key`, or no `meta_key` in
mode "python" or "json". -/
def PlainKey (mode : Element.Mode) (key : Option String) : Prop :=
  key = some "metadata" ∨ key = some "" ∨ (mode ≠ .db ∧ key = none)

theorem metaName_plain {mode : Element.Mode} {key : Option String} : metaName mode key = "metadata" ↔ PlainKey mode key := by
  unfold PlainKey
  cases key with
  | none => cases mode <;> simp [metaName]
  | some k =>
    by_cases e : k = ""
    · subst e
      cases mode <;> simp [metaName]
    · cases mode <;> simp [metaName, e]

/-- **C139** (partial).  For every flow built with distinct names, after any history of calls that keeps it consistent (C11): in
modes "python" and "json" without `meta_key`, `from_dict(to_dict())` succeeds and gives a flow with the same name, the
same items and progressions in the same order, the same type constraint, and the same answer of `get_progression` for every key.
Missing: mode "db" and every other `meta_key`, where it is false, see `C139_meta_key_violation`; and items with an empty
constraint set (C10). -/
theorem C139_round_trip_partial {D P : Type} (sub : γ → γ → Bool) (C : Codec ι γ δ D P)
    (hdec : ∀ x, C.dec (C.enc x) = .ok x) (hcls : ∀ x, C.lionClass (C.enc x) = some (C.clsName x.cls))
    (hload : ∀ c, C.load (C.clsName c) = some c) (hdecP : ∀ p, C.decP (C.encP p) = .ok p)
    (xs : List (Pile.Arg ι γ δ)) (t : Option (List γ)) (s : Bool) (ps : List (Prog ι)) (f0 : Flow ι γ δ)
    (h : Built sub xs t s ps f0) (hd : DistinctNames ps) (ht : t ≠ some []) (ops : List (Op ι γ δ))
    (hs : SafeRemovals sub f0 ops) (mode : Element.Mode) (key : Option String) (hk : PlainKey mode key)
    (name : Option String) :
    ∃ d g, toDict C mode key name (run sub f0 ops) = .ok d ∧ fromDict sub C key d = .ok (g, name) ∧
      Same (run sub f0 ops) g := by
  obtain ⟨c1, c2, c3, hr, c4, c5, c6⟩ := h.cfg
  have hg := (h.good hd).run sub ops
  have hI := integrity_run ops f0 h.ok.1 h.ok.2.2 hs
  obtain ⟨hp, hq⟩ := cfg_run sub ops f0
  have hreach : Pile.Reachable sub (run sub f0 ops).items := by
    obtain ⟨pops, hpops⟩ := items_run sub ops f0
    obtain ⟨ys, t', s', p0, ops0, e0, e1⟩ := hr
    refine ⟨ys, t', s', p0, ops0 ++ pops, e0, ?_⟩
    rw [hpops, e1]
    simp only [Pile.run, List.foldl_append]
  generalize hf : run sub f0 ops = f at *
  have n1 : f.items.pname = none := by rw [hq.2.2, c6]
  have e1 : ({ f.items with pname := none } : Pile ι γ δ) = f.items := by
    cases hfi : f.items with
    | mk a b c d e => rw [hfi] at n1; simp only at n1; subst n1; rfl
  obtain ⟨di, qi, li, i1, i2, i3, i4, i5, i6, i7, i8⟩ := Pile.C10_round_trip sub C.clsName C.load C.enc C.dec C.lionClass none
    f.items hreach none hdec (fun x => Or.inr (hcls x)) hload (by rw [hq.1, c4]; exact ht) (Or.inl ⟨rfl, rfl⟩)
  rw [e1] at i1 i3
  obtain ⟨dp, qp, p1, p2, p3, p4⟩ := plain_pile_round_trip (fun _ => "") (fun _ => some ()) (fun _ => none) C.encP C.decP hdecP
    hg.piles.progs (by rw [hp.1, c1]) (by rw [hp.2.1, c2]) (by rw [hp.2.2, c3])
  have hm : metaName mode key = "metadata" := by
    exact metaName_plain.2 hk
  have hnm : (Pile.abs qp).any (fun p => missing qi p.data.order) = false := by
    rw [p4, List.any_eq_false]
    intro p hpm
    simp only [missing, Bool.not_eq_true, List.any_eq_false, Bool.not_eq_false', decide_eq_true_eq]
    intro u hu
    have hmem := hI p.id p ((Pile.mem_abs hg.piles.progs p).1 hpm) u hu
    have hkeys : u ∈ f.items.order := (hg.piles.items.mem_iff u).2 hmem
    have : qi.keys = f.items.keys := i5
    rw [this]; exact hkeys
  refine ⟨⟨"metadata", name, ⟨"metadata", di⟩, ⟨"metadata", dp⟩⟩,
    { items := qi, progs := qp, names := buildNames (Pile.abs qp) }, ?_, ?_, ?_⟩
  · simp only [toDict, i1, p1, hm]
  · simp only [fromDict, metaFound, pileFrom, if_pos, i2, p2, finish, Pile.iter_eq p3, hnm, decide_true, Bool.true_or,
      Bool.true_eq_false, Bool.false_eq_true, if_false]
  · exact ⟨⟨li, i3, i4⟩, ⟨_, Pile.iter_eq hg.piles.progs, by rw [← p4]; exact Pile.iter_eq p3⟩, i6, i7,
      fun k => getProgression_congr (fun n => by rw [p4]; exact buildNames_get? hg.piles hg.names n)
        (get?_of_abs hg.piles.progs p3 p4) k⟩

/-- Items and progressions are their own encoding. -/
def demoCodec : Codec Nat Unit Unit (Item Nat Unit Unit) (Prog Nat) :=
  ⟨fun _ => "m.C", fun _ => some (), fun _ => some "m.C", id, .ok, id, .ok⟩

/-- Non-vacuity of C139: a flow with a named progression after adding an item to it. -/
example : ∃ d g, toDict demoCodec .json none (some "w")
      (run (fun _ _ => true) (flow1 (p10 (some "a") [1, 2])) [.addItem (some ⟨3, (), ()⟩) [.key (.str ⟨"a", none⟩)]]) = .ok d ∧
    fromDict (fun _ _ => true) demoCodec none d = .ok (g, some "w") ∧
    getProgression g (.str ⟨"a", none⟩) = .ok (p10 (some "a") [1, 2, 3]) :=
  ⟨_, _, rfl, rfl, by decide⟩

/-- **C139 is false for mode "db" and for every `meta_key`**: the nested piles are written with their metadata under that key, and
no call of `from_dict` on the result succeeds, whatever key it is told. -/
theorem C139_meta_key_violation {D P : Type} (sub : γ → γ → Bool) (C : Codec ι γ δ D P) (f : Flow ι γ δ) (mode : Element.Mode)
    (key key' name : Option String) (hk : ¬ PlainKey mode key) (d : FlowDict D P) (hd : toDict C mode key name f = .ok d) :
    fromDict sub C key' d = .error .valueError := by
  have hm : metaName mode key ≠ "metadata" := fun h => hk (metaName_plain.1 h)
  unfold toDict at hd
  split at hd
  · cases hd
  · split at hd
    · cases hd
    · cases hd
      simp only [fromDict, pileFrom, if_neg hm]
      split <;> rfl

/-- A concrete case of the violation: an ordinary flow written in mode "db" cannot be read. -/
example : ∃ d, toDict demoCodec .db none (some "w") (flow1 (p10 (some "a") [1, 2])) = .ok d ∧
    fromDict (fun _ _ => true) demoCodec (some "node_metadata") d = .error .valueError :=
  ⟨_, rfl, C139_meta_key_violation _ demoCodec (flow1 (p10 (some "a") [1, 2])) .db none _ (some "w") (by unfold PlainKey; decide) _ rfl⟩

end Verif.Flow

namespace Verif.Pile

/-! ## C140 — metadata of a pile -/

/-- **C140** (partial).  After `Pile.from_dict(pile.to_dict())` or `Element.from_dict(pile.to_dict())` every metadata entry of the
pile other than under the two reserved keys has its value, and no entry other than under the reserved keys is added.
Missing: the reserved entries are added, see `C140_metadata_violation`. -/
theorem C140_metadata_partial {V : Type} (str : String → V) (cls : String) (pname : Option String) (m : Dict String V)
    (wf : m.WF) (k : String) (h1 : k ≠ "lion_class") (h2 : k ≠ "progression_name") :
    (metaIn (metaOut str cls pname m)).get? k = m.get? k ∧
      (metaInElement (metaOut str cls pname m)).get? k = m.get? k := by
  unfold metaInElement metaIn metaOut
  split
  · rw [Dict.get?_del (Dict.set_wf (Dict.set_wf wf _ _) _ _)]
    simp [Dict.get?_set, Ne.symm h1, Ne.symm h2]
  · rw [Dict.get?_del (Dict.set_wf wf _ _)]
    simp [Dict.get?_set, Ne.symm h1]

/-- **C140** (partial).  Reading is stable: writing and reading again changes nothing more. -/
theorem C140_stable_partial {V : Type} (str : String → V) (cls : String) (pname : Option String) (m : Dict String V)
    (k : String) :
    (metaIn (metaOut str cls pname (metaIn (metaOut str cls pname m)))).get? k = (metaIn (metaOut str cls pname m)).get? k := by
  unfold metaIn metaOut
  split
  · simp only [Dict.get?_set]
    split
    · rfl
    · split
      · rfl
      · rfl
  · simp only [Dict.get?_set]
    split
    · rfl
    · rfl

/-- **C140 is false**: the pile rebuilt by `Pile.from_dict` has the class tag among its metadata, and a named one has, also when
rebuilt by `Element.from_dict`, an entry with the progression's name. -/
theorem C140_metadata_violation :
    metaIn (metaOut id "lionherd_core.base.pile.Pile" none ([] : Dict String String)) =
        [("lion_class", "lionherd_core.base.pile.Pile")] ∧
      metaInElement (metaOut id "lionherd_core.base.pile.Pile" (some "main") ([] : Dict String String)) =
        [("progression_name", "main")] := by
  decide

end Verif.Pile
