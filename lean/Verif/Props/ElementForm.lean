import Verif.Props.ElementSample

/-!
# C209: the form in which elements are written
-/

set_option linter.unusedSectionVars false
set_option linter.unusedSimpArgs false
set_option linter.unusedVariables false

namespace Verif.Element

variable {ι γ α φ : Type} [DecidableEq ι] [DecidableEq γ]

/-! ### Specification -/

/-- The key of the metadata: the one asked for, by default "node_metadata" in db mode and "metadata" otherwise. -/
inductive MetaKey : Mode → Option String → String → Prop where
  | given (m : Mode) (k : String) : k ≠ "" → MetaKey m (some k) k
  | db : MetaKey .db none "node_metadata"
  | plain (m : Mode) : m ≠ .db → MetaKey m none "metadata"
  | empty (m : Mode) : MetaKey m (some "") "metadata"

/-- The form of the creation time. -/
inductive TimeForm (W : World ι γ α φ) (t : DateTime) : Mode → Option Fmt → DV ι α → Prop where
  | pyDefault : TimeForm W t .python none (.dt t)
  | pyObject : TimeForm W t .python (some .datetime) (.dt t)
  | dbDefault : TimeForm W t .db none (.dt t)
  | dbObject : TimeForm W t .db (some .datetime) (.dt t)
  | jsonDefault : TimeForm W t .json none (.str (W.iso t))
  | iso (m : Mode) : TimeForm W t m (some .isoformat) (.str (W.iso t))
  | stamp (m : Mode) : TimeForm W t m (some .timestamp) (.num (W.timestamp t))

/-- The form of the id. -/
inductive IdForm (W : World ι γ α φ) (u : ι) : Mode → DV ι α → Prop where
  | object : IdForm W u .python (.uuid u)
  | jsonText : IdForm W u .json (.str (W.showId u))
  | dbText : IdForm W u .db (.str (W.showId u))

/-- A metadata value in a mode. -/
def metaWritten (W : World ι γ α φ) : Mode → MV α → MV α
  | .python, v => v
  | _, v => W.metaViaJson v

/-- The fields of a class have names of their own, and the metadata key is not one of them. -/
structure Separate (W : World ι γ α φ) (x : Elem ι γ α φ) (k : String) : Prop where
  metaWF : x.metadata.WF
  wf : x.fields.WF
  names : ∀ f ∈ x.fields.keys, f ≠ "id" ∧ f ≠ "created_at" ∧ f ≠ "metadata" ∧ f ≠ k
  key : k ≠ "id" ∧ k ≠ "created_at"

/-! ### Lemmas -/

theorem mode_get {W : World ι γ α φ} (x : Elem ι γ α φ) (mode : Mode) (key : String) :
    (modeDict W x mode).get? key = ((rawDict W x).get? key).map (written W mode) := by
  cases mode with
  | python => simp only [modeDict]; cases (rawDict W x).get? key <;> rfl
  | json => exact get?_map_val _ _ _
  | db => exact get?_map_val _ _ _

theorem mode_keys {W : World ι γ α φ} (x : Elem ι γ α φ) (mode : Mode) : Dict.keys (modeDict W x mode) = "id" :: "created_at" :: "metadata" :: x.fields.keys := by
  have h : Dict.keys (rawDict W x) = "id" :: "created_at" :: "metadata" :: x.fields.keys := by
    unfold rawDict; simp only [Dict.keys_cons, keys_dumpFields]
  cases mode with
  | python => exact h
  | json => exact (keys_map_val _ _).trans h
  | db => exact (keys_map_val _ _).trans h

/-- After the creation time has been put into its form. -/
theorem created_form {W : World ι γ α φ} (x : Elem ι γ α φ) (mode : Mode) (fmt : Option Fmt) (d : Data ι α)
    (h : setCreated W x (modeDict W x mode) mode (fmt.getD (defaultFmt mode)) = .ok d) :
    (∃ v, d.get? "created_at" = some v ∧ TimeForm W x.created mode fmt v) ∧
    (∀ k, k ≠ "created_at" → d.get? k = (modeDict W x mode).get? k) ∧ (∀ k, k ∈ Dict.keys d ↔ k ∈ Dict.keys (modeDict W x mode)) ∧
    (Dict.WF (modeDict W x mode) → Dict.WF d) := by
  have hc : "created_at" ∈ Dict.keys (modeDict W x mode) := by rw [mode_keys]; simp
  have hset : ∀ v, TimeForm W x.created mode fmt v → d = (modeDict W x mode).set "created_at" v →
      (∃ v, d.get? "created_at" = some v ∧ TimeForm W x.created mode fmt v) ∧
      (∀ k, k ≠ "created_at" → d.get? k = (modeDict W x mode).get? k) ∧ (∀ k, k ∈ Dict.keys d ↔ k ∈ Dict.keys (modeDict W x mode)) ∧
      (Dict.WF (modeDict W x mode) → Dict.WF d) := by
    rintro v hv rfl
    refine ⟨⟨v, by rw [Dict.get?_set, if_pos rfl], hv⟩, fun k hk => by rw [Dict.get?_set, if_neg (Ne.symm hk)], fun k => ?_, fun w => Dict.set_wf w _ _⟩
    rw [Dict.mem_keys_set]
    exact ⟨fun h => h.elim (fun e => e ▸ hc) id, .inr⟩
  have hsame : ∀ v, TimeForm W x.created mode fmt v → (modeDict W x mode).get? "created_at" = some v → d = modeDict W x mode →
      (∃ v, d.get? "created_at" = some v ∧ TimeForm W x.created mode fmt v) ∧
      (∀ k, k ≠ "created_at" → d.get? k = (modeDict W x mode).get? k) ∧ (∀ k, k ∈ Dict.keys d ↔ k ∈ Dict.keys (modeDict W x mode)) ∧
      (Dict.WF (modeDict W x mode) → Dict.WF d) := by
    rintro v hv hg rfl
    exact ⟨⟨v, hg, hv⟩, fun _ _ => rfl, fun _ => Iff.rfl, id⟩
  have hraw : (rawDict W x).get? "created_at" = some (.dt x.created) := by
    unfold rawDict; rw [Dict.get?_cons, if_neg (by decide), Dict.get?_cons, if_pos rfl]
  have hm : (modeDict W x mode).get? "created_at" = some (written W mode (.dt x.created)) := by rw [mode_get, hraw]; rfl
  cases mode with
  | python =>
    cases fmt with
    | none => cases h; exact hsame _ .pyDefault hm rfl
    | some f =>
      cases f with
      | datetime => cases h; exact hsame _ .pyObject hm rfl
      | isoformat => cases h; exact hset _ (.iso _) rfl
      | timestamp => cases h; exact hset _ (.stamp _) rfl
  | json =>
    cases fmt with
    | none => cases h; exact hsame _ .jsonDefault hm rfl
    | some f =>
      cases f with
      | datetime => cases h
      | isoformat => cases h; exact hsame _ (.iso _) hm rfl
      | timestamp => cases h; exact hset _ (.stamp _) rfl
  | db =>
    cases fmt with
    | none => cases h; exact hset _ .dbDefault rfl
    | some f =>
      cases f with
      | datetime => cases h; exact hset _ .dbObject rfl
      | isoformat => cases h; exact hsame _ (.iso _) hm rfl
      | timestamp => cases h; exact hset _ (.stamp _) rfl

theorem metaKey_out {mode : Mode} {kOut : Option String} {k : String} (h : MetaKey mode kOut k) :
    (metaKeyOut mode kOut = some k) ∨ (k = "metadata" ∧ metaKeyOut mode kOut = none) := by
  cases h with
  | given m k hk =>
    left
    unfold metaKeyOut
    split
    · next h => cases h; exact absurd rfl hk
    · next h => cases h; rfl
    · next h => cases h
    · next h _ => cases h
  | db => exact .inl rfl
  | plain m hm => right; cases mode <;> first | exact ⟨rfl, rfl⟩ | exact absurd rfl hm
  | empty m => right; cases mode <;> exact ⟨rfl, rfl⟩

/-! ### C209 -/

/-- C209: `to_dict` fails exactly for a datetime object in JSON mode, with `ValueError`. -/
theorem C209_failure (W : World ι γ α φ) (x : Elem ι γ α φ) (mode : Mode) (fmt : Option Fmt) (kOut : Option String) (e : Exc) :
    toDict W x mode fmt kOut = .error e ↔ mode = .json ∧ fmt = some .datetime ∧ e = .valueError := by
  unfold toDict
  cases fmt with
  | none => cases mode <;> simp [setCreated, defaultFmt]
  | some f => cases mode <;> cases f <;> simp [setCreated, defaultFmt, eq_comm]

/-- C209: otherwise the dict has exactly the entries id, created_at, metadata (under its key) and the fields of the class, in the form of the mode; the metadata hold the class tag and
else what the element has. -/
theorem C209_form (W : World ι γ α φ) (x : Elem ι γ α φ) (mode : Mode) (fmt : Option Fmt) (kOut : Option String) (k : String) (hk : MetaKey mode kOut k)
    (hs : Separate W x k) (d : Data ι α) (h : toDict W x mode fmt kOut = .ok d) :
    Dict.WF d ∧ (∀ key, key ∈ Dict.keys d ↔ key = "id" ∨ key = "created_at" ∨ key = k ∨ key ∈ x.fields.keys) ∧
    (∃ v, d.get? "id" = some v ∧ IdForm W x.id mode v) ∧
    (∃ v, d.get? "created_at" = some v ∧ TimeForm W x.created mode fmt v) ∧
    (∃ m, d.get? k = some (.dict m) ∧ m.get? "lion_class" = some (metaWritten W mode (.str (fullName W x.cls))) ∧
      ∀ key, key ≠ "lion_class" → m.get? key = (x.metadata.get? key).map (metaWritten W mode)) ∧
    (∀ f y, (f, y) ∈ x.fields → d.get? f = some (written W mode (W.dump x.cls f y))) := by
  unfold toDict at h
  cases hc : setCreated W x (modeDict W x mode) mode (fmt.getD (defaultFmt mode)) with
  | error e => rw [hc] at h; cases h
  | ok d0 =>
    rw [hc] at h
    simp only [Except.ok.injEq] at h
    obtain ⟨hct, hget, hkeys, hwf⟩ := created_form x mode fmt d0 hc
    have hfn : ∀ f ∈ x.fields.keys, f ≠ "id" ∧ f ≠ "created_at" ∧ f ≠ "metadata" ∧ f ≠ k := hs.names
    have wf0 : Dict.WF d0 := by
      apply hwf
      unfold Dict.WF
      rw [mode_keys]
      simp only [List.nodup_cons, List.mem_cons, not_or]
      exact ⟨⟨by decide, by decide, fun hh => (hfn _ hh).1 rfl⟩, ⟨by decide, fun hh => (hfn _ hh).2.1 rfl⟩, fun hh => (hfn _ hh).2.2.1 rfl, hs.wf⟩
    -- the entries before the renaming
    have hid : d0.get? "id" = some (written W mode (.uuid x.id)) := by
      rw [hget _ (by decide), mode_get]; unfold rawDict; rw [Dict.get?_cons, if_pos rfl]; rfl
    have hmeta : d0.get? "metadata" = some (written W mode (.dict (tagged W x))) := by
      rw [hget _ (by decide), mode_get]; unfold rawDict
      rw [Dict.get?_cons, if_neg (by decide), Dict.get?_cons, if_neg (by decide), Dict.get?_cons, if_pos rfl]; rfl
    have hfield : ∀ f y, (f, y) ∈ x.fields → d0.get? f = some (written W mode (W.dump x.cls f y)) := by
      intro f y hf
      have hfk : f ∈ x.fields.keys := List.mem_map.2 ⟨(f, y), hf, rfl⟩
      have hn := hfn f hfk
      rw [hget _ hn.2.1, mode_get]; unfold rawDict
      rw [Dict.get?_cons, if_neg (Ne.symm hn.1), Dict.get?_cons, if_neg (Ne.symm hn.2.1), Dict.get?_cons, if_neg (Ne.symm hn.2.2.1),
        get?_dumpFields W x.cls hs.wf hf]; rfl
    have hkeys0 : ∀ key, key ∈ Dict.keys d0 ↔ key = "id" ∨ key = "created_at" ∨ key = "metadata" ∨ key ∈ x.fields.keys := by
      intro key; rw [hkeys, mode_keys]; simp
    have hidf : IdForm W x.id mode (written W mode (.uuid x.id)) := by
      cases mode
      · exact .object
      · exact .jsonText
      · exact .dbText
    have hmd : ∃ m, written W mode (DV.dict (tagged W x)) = .dict m ∧ m.get? "lion_class" = some (metaWritten W mode (.str (fullName W x.cls))) ∧
        ∀ key, key ≠ "lion_class" → m.get? key = (x.metadata.get? key).map (metaWritten W mode) := by
      have h1 : ∀ key, (tagged W x).get? key = if "lion_class" = key then some (.str (fullName W x.cls)) else x.metadata.get? key := fun key => Dict.get?_set _ _ _ _
      have hjson : ∃ m : Dict String (MV α), m = (tagged W x).map (fun kv => (kv.1, W.metaViaJson kv.2)) ∧ m.get? "lion_class" = some (W.metaViaJson (.str (fullName W x.cls))) ∧
          ∀ key, key ≠ "lion_class" → m.get? key = (x.metadata.get? key).map W.metaViaJson := by
        refine ⟨_, rfl, ?_, ?_⟩
        · rw [get?_map_val, h1, if_pos rfl]; rfl
        · intro key hkey; rw [get?_map_val, h1, if_neg (Ne.symm hkey)]
      cases mode with
      | python =>
        refine ⟨tagged W x, rfl, by rw [h1, if_pos rfl]; rfl, ?_⟩
        intro key hkey
        rw [h1, if_neg (Ne.symm hkey)]
        cases x.metadata.get? key <;> rfl
      | json => obtain ⟨m, e, h2, h3⟩ := hjson; exact ⟨m, by rw [e]; rfl, h2, h3⟩
      | db => obtain ⟨m, e, h2, h3⟩ := hjson; exact ⟨m, by rw [e]; rfl, h2, h3⟩
    obtain ⟨m, hm1, hm2, hm3⟩ := hmd
    rw [hm1] at hmeta
    obtain ⟨tv, ht1, ht2⟩ := hct
    have plainCase : k = "metadata" → d = d0 → Dict.WF d ∧ (∀ key, key ∈ Dict.keys d ↔ key = "id" ∨ key = "created_at" ∨ key = k ∨ key ∈ x.fields.keys) ∧
        (∃ v, d.get? "id" = some v ∧ IdForm W x.id mode v) ∧ (∃ v, d.get? "created_at" = some v ∧ TimeForm W x.created mode fmt v) ∧
        (∃ m, d.get? k = some (.dict m) ∧ m.get? "lion_class" = some (metaWritten W mode (.str (fullName W x.cls))) ∧
          ∀ key, key ≠ "lion_class" → m.get? key = (x.metadata.get? key).map (metaWritten W mode)) ∧
        (∀ f y, (f, y) ∈ x.fields → d.get? f = some (written W mode (W.dump x.cls f y))) := by
      rintro rfl rfl
      exact ⟨wf0, hkeys0, ⟨_, hid, hidf⟩, ⟨_, ht1, ht2⟩, ⟨m, hmeta, hm2, hm3⟩, hfield⟩
    rcases metaKey_out hk with ho | ⟨hkm, ho⟩
    · rw [ho] at h
      have hd : d = (Dict.del d0 "metadata").set k (.dict m) := by
        rw [← h]; simp only [renameOut, rename, hmeta]
      have hg : ∀ key, key ≠ k → key ≠ "metadata" → d.get? key = d0.get? key := by
        intro key h1 h2
        rw [hd, Dict.get?_set, if_neg (Ne.symm h1), Dict.get?_del wf0, if_neg (Ne.symm h2)]
      refine ⟨by rw [hd]; exact Dict.set_wf (Dict.del_wf wf0 _) _ _, ?_, ⟨_, (hg _ (Ne.symm hs.key.1) (by decide)).trans hid, hidf⟩,
        ⟨_, (hg _ (Ne.symm hs.key.2) (by decide)).trans ht1, ht2⟩, ⟨m, by rw [hd, Dict.get?_set, if_pos rfl], hm2, hm3⟩, ?_⟩
      · intro key
        rw [hd, Dict.mem_keys_set, Dict.mem_keys_del wf0, hkeys0]
        constructor
        · rintro (e | ⟨hne, e | e | e | e⟩)
          · exact .inr (.inr (.inl e))
          · exact .inl e
          · exact .inr (.inl e)
          · exact absurd e (by first | exact hne | exact Ne.symm hne)
          · exact .inr (.inr (.inr e))
        · rintro (e | e | e | e)
          · exact .inr ⟨by rw [e]; decide, .inl e⟩
          · exact .inr ⟨by rw [e]; decide, .inr (.inl e)⟩
          · exact .inl e
          · exact .inr ⟨by first | exact (hfn key e).2.2.1 | exact Ne.symm (hfn key e).2.2.1, .inr (.inr (.inr e))⟩
      · intro f y hf
        have hfk : f ∈ x.fields.keys := List.mem_map.2 ⟨(f, y), hf, rfl⟩
        rw [hg f (hfn f hfk).2.2.2 (hfn f hfk).2.2.1]
        exact hfield f y hf
    · rw [ho] at h
      exact plainCase hkm h.symm

/-- Non-vacuity: an element in db mode. -/
example : (∃ d, toDict sample ⟨.element, 3, ⟨5, some 0⟩, [("k", .hash 7)], []⟩ .db none none = .ok d) ∧ MetaKey .db none "node_metadata" ∧
    Separate sample ⟨.element, 3, ⟨5, some 0⟩, [("k", .hash 7)], []⟩ "node_metadata" :=
  ⟨⟨_, rfl⟩, .db, ⟨by decide, by decide, (by intro f hf; cases hf), by decide⟩⟩

/-! ### C210: which data make an element -/

/-- The id of the element: the given one, as an id or as the text of one, or a new one. -/
inductive IdFrom (W : World ι γ α φ) (fresh : Fresh ι) (d : Data ι α) : ι → Prop where
  | new : d.get? "id" = none → IdFrom W fresh d fresh.id
  | object (u : ι) : d.get? "id" = some (.uuid u) → IdFrom W fresh d u
  | text (t : List Char) (u : ι) : d.get? "id" = some (.str t) → W.parseId t = some u → IdFrom W fresh d u

/-- The creation time: the given one as far as it can be read (C78, C132), or the current time. -/
inductive TimeFrom (W : World ι γ α φ) (fresh : Fresh ι) (d : Data ι α) : DateTime → Prop where
  | new : d.get? "created_at" = none → TimeFrom W fresh d fresh.now
  | given (v : DV ι α) (t : DateTime) : d.get? "created_at" = some v → coerceCreatedAt W.time (timeArg v) = .ok t → TimeFrom W fresh d t

/-- The metadata: a dictionary as it is; nothing for None and the empty text; any other value is converted. -/
inductive MetaFrom (W : World ι γ α φ) (d : Data ι α) : Dict String (MV α) → Prop where
  | absent : d.get? "metadata" = none → MetaFrom W d []
  | dict (m : Dict String (MV α)) : d.get? "metadata" = some (.dict m) → MetaFrom W d m
  | none_ : d.get? "metadata" = some .none → MetaFrom W d []
  | empty : d.get? "metadata" = some (.str []) → MetaFrom W d []
  | other (v : DV ι α) : d.get? "metadata" = some v → (∀ m, v ≠ .dict m) → v ≠ .none → v ≠ .str [] → MetaFrom W d (W.metaOf v)

/-- The value of a field: the given one, if the class accepts it, or its default. -/
def FieldFrom (W : World ι γ α φ) (c : γ) (d : Data ι α) (f : String) (y : φ) : Prop :=
  (∃ v, d.get? f = some v ∧ W.valid c f v = some y) ∨ (d.get? f = none ∧ W.default c f = some y)

theorem idOf_iff (W : World ι γ α φ) (fresh : Fresh ι) (d : Data ι α) (u : ι) : idOf W fresh d = .ok u ↔ IdFrom W fresh d u := by
  unfold idOf
  cases hd : d.get? "id" with
  | none =>
    simp only [Except.ok.injEq]
    constructor
    · rintro rfl; exact .new hd
    · intro h
      cases h with
      | new _ => rfl
      | object _ h => rw [hd] at h; cases h
      | text _ _ h => rw [hd] at h; cases h
  | some v =>
    have hiff : (∃ u', validId W v = some u' ∧ u' = u) ↔ IdFrom W fresh d u := by
      constructor
      · rintro ⟨u', h, rfl⟩
        cases v with
        | uuid w => simp only [validId, Option.some.injEq] at h; subst h; exact .object _ hd
        | str t => exact .text t _ hd h
        | _ => simp [validId] at h
      · intro h
        cases h with
        | new h => rw [hd] at h; cases h
        | object _ h => rw [hd] at h; cases h; exact ⟨_, rfl, rfl⟩
        | text t _ h hp => rw [hd] at h; cases h; exact ⟨_, hp, rfl⟩
    rw [← hiff]
    cases hx : validId W v <;> simp [hx]

theorem createdOf_iff (W : World ι γ α φ) (fresh : Fresh ι) (d : Data ι α) (t : DateTime) : createdOf W fresh d = .ok t ↔ TimeFrom W fresh d t := by
  unfold createdOf
  cases hd : d.get? "created_at" with
  | none =>
    simp only [Except.ok.injEq]
    constructor
    · rintro rfl; exact .new hd
    · intro h
      cases h with
      | new _ => rfl
      | given _ _ h _ => rw [hd] at h; cases h
  | some v =>
    constructor
    · intro h
      cases hc : coerceCreatedAt W.time (timeArg v) with
      | error e => simp only [hc] at h; cases h
      | ok t' => simp only [hc] at h; cases h; exact .given v _ hd hc
    · intro h
      cases h with
      | new h => rw [hd] at h; cases h
      | given v' t h hc => rw [hd] at h; cases h; simp only [hc]

theorem metaOfData_iff (W : World ι γ α φ) (d : Data ι α) (m : Dict String (MV α)) : metaOfData W d = m ↔ MetaFrom W d m := by
  unfold metaOfData
  cases hd : d.get? "metadata" with
  | none =>
    constructor
    · rintro rfl; exact .absent hd
    · intro h; cases h <;> first | rfl | (rename_i h; rw [hd] at h; cases h) | (rename_i h _ _ _; rw [hd] at h; cases h)
  | some v =>
    constructor
    · rintro rfl
      simp only [validMeta]
      split
      · exact .dict _ hd
      · exact .none_ hd
      · exact .empty hd
      · next h1 h2 h3 => exact .other v hd (fun m h => h1 m h) h2 h3
    · intro h
      cases h with
      | absent h => rw [hd] at h; cases h
      | dict m h => rw [hd] at h; cases h; rfl
      | none_ h => rw [hd] at h; cases h; rfl
      | empty h => rw [hd] at h; cases h; rfl
      | other v' h h1 h2 h3 =>
        rw [hd] at h; cases h
        simp only [validMeta]

theorem validFields_cons_iff (W : World ι γ α φ) (c : γ) (d : Data ι α) (f : String) (fs : List String) (r : Dict String φ) :
    validFields W c d (f :: fs) = some r ↔ ∃ x r', FieldFrom W c d f x ∧ validFields W c d fs = some r' ∧ r = (f, x) :: r' := by
  simp only [validFields, FieldFrom]
  cases hd : d.get? f with
  | none =>
    cases hx : W.default c f with
    | none => simp [hd, hx]
    | some y =>
      simp only [hd, hx, Option.map_eq_some_iff]
      constructor
      · rintro ⟨r', h, rfl⟩; exact ⟨y, r', by simp [hx], h, rfl⟩
      · rintro ⟨x, r', h | h, h', rfl⟩
        · obtain ⟨v, h, _⟩ := h; cases h
        · cases h.2; exact ⟨r', h', rfl⟩
  | some v =>
    cases hx : W.valid c f v with
    | none => simp [hd, hx]
    | some y =>
      simp only [hd, hx, Option.map_eq_some_iff]
      constructor
      · rintro ⟨r', h, rfl⟩; exact ⟨y, r', .inl ⟨v, rfl, hx⟩, h, rfl⟩
      · rintro ⟨x, r', h | h, h', rfl⟩
        · obtain ⟨v', h, h2⟩ := h; cases h; rw [hx] at h2; cases h2; exact ⟨r', h', rfl⟩
        · cases h.1

theorem validFields_iff (W : World ι γ α φ) (c : γ) (d : Data ι α) : ∀ (fs : List String) (r : Dict String φ),
    validFields W c d fs = some r ↔ r.keys = fs ∧ ∀ f y, (f, y) ∈ r → FieldFrom W c d f y
  | [], r => by
    simp only [validFields, Option.some.injEq]
    constructor
    · rintro rfl; exact ⟨rfl, fun f y h => by cases h⟩
    · rintro ⟨h, _⟩
      cases r with
      | nil => rfl
      | cons a r => simp [Dict.keys] at h
  | f :: fs, r => by
    rw [validFields_cons_iff]
    constructor
    · rintro ⟨x, r', hx, hr', rfl⟩
      obtain ⟨h1, h2⟩ := (validFields_iff W c d fs r').1 hr'
      refine ⟨by rw [Dict.keys_cons, h1], ?_⟩
      intro g z hz
      rcases List.mem_cons.1 hz with e | hz
      · cases e; exact hx
      · exact h2 g z hz
    · rintro ⟨hk, hall⟩
      cases r with
      | nil => simp [Dict.keys] at hk
      | cons a r =>
        obtain ⟨g, z⟩ := a
        simp only [Dict.keys_cons, List.cons.injEq] at hk
        obtain ⟨rfl, hk⟩ := hk
        exact ⟨z, r, hall g z List.mem_cons_self, (validFields_iff W c d fs r).2 ⟨hk, fun f y h => hall f y (List.mem_cons_of_mem _ h)⟩, rfl⟩

/-- C210: exactly which data make which element of a class. -/
theorem C210_accepts (W : World ι γ α φ) (fresh : Fresh ι) (c : γ) (d : Data ι α) (x : Elem ι γ α φ) :
    modelValidate W fresh c d = .ok x ↔
      (∀ k ∈ Dict.keys d, k = "id" ∨ k = "created_at" ∨ k = "metadata" ∨ k ∈ W.fieldNames c) ∧
      x.cls = c ∧ IdFrom W fresh d x.id ∧ TimeFrom W fresh d x.created ∧ MetaFrom W d x.metadata ∧
      x.fields.keys = W.fieldNames c ∧ ∀ f y, (f, y) ∈ x.fields → FieldFrom W c d f y := by
  have hk : keysAllowed W c d = true ↔ ∀ k ∈ Dict.keys d, k = "id" ∨ k = "created_at" ∨ k = "metadata" ∨ k ∈ W.fieldNames c := by
    unfold keysAllowed
    simp only [List.all_eq_true, Bool.or_eq_true, List.contains_iff_mem, List.mem_cons, List.not_mem_nil, or_false, or_assoc]
  unfold modelValidate
  by_cases h : keysAllowed W c d = true
  · rw [if_pos h]
    constructor
    · intro hx
      split at hx
      · next u t fs h1 h2 h3 =>
        cases hx
        obtain ⟨h4, h5⟩ := (validFields_iff W c d _ fs).1 h3
        exact ⟨hk.1 h, rfl, (idOf_iff W fresh d u).1 h1, (createdOf_iff W fresh d t).1 h2, (metaOfData_iff W d _).1 rfl, h4, h5⟩
      · cases hx
      · cases hx
      · cases hx
    · rintro ⟨_, hc, h1, h2, h3, h4, h5⟩
      obtain ⟨c', u, t, m, fs⟩ := x
      simp only at hc h1 h2 h3 h4 h5
      subst hc
      rw [(idOf_iff W fresh d u).2 h1, (createdOf_iff W fresh d t).2 h2, (validFields_iff W c' d _ fs).2 ⟨h4, h5⟩, (metaOfData_iff W d m).2 h3]
  · rw [if_neg h]
    refine ⟨fun h => (by cases h), fun hh => absurd (hk.2 hh.1) h⟩

/-- C210: everything else is rejected, with `ValidationError` as far as the creation time does not raise another exception (infinities, see C132). -/
theorem C210_rejects (W : World ι γ α φ) (fresh : Fresh ι) (c : γ) (d : Data ι α) (e : Exc) (h : modelValidate W fresh c d = .error e) :
    e = .validation ∨ ∃ v, d.get? "created_at" = some v ∧ coerceCreatedAt W.time (timeArg v) = .error e ∧ e ≠ .valueError := by
  unfold modelValidate at h
  split at h
  · split at h
    · cases h
    · next e' h1 =>
      cases h
      unfold idOf at h1
      split at h1
      · cases h1
      · split at h1
        · cases h1
        · cases h1; exact .inl rfl
    · next e' h1 _ =>
      cases h
      unfold createdOf at h1
      split at h1
      · cases h1
      · next v hv =>
        split at h1
        · cases h1
        · next e'' he =>
          by_cases hve : e'' = .valueError
          · subst hve; cases h1; exact .inl rfl
          · have : pydanticExc e'' = e'' := by unfold pydanticExc; split <;> first | exact absurd rfl hve | rfl
            rw [this] at h1
            cases h1
            exact .inr ⟨v, hv, he, hve⟩
    · cases h; exact .inl rfl
  · cases h; exact .inl rfl

/-- Non-vacuity: an element from an id only, and an unknown key. -/
example : (modelValidate sample ⟨9, ⟨0, some 0⟩⟩ .element ([("id", .uuid 3)] : Data Nat Nat)).toOption.map (·.id) = some 3 := by decide +kernel
example : modelValidate sample ⟨9, ⟨0, some 0⟩⟩ .element ([("colour", .none)] : Data Nat Nat) = .error .validation := by decide +kernel

/-! ### C211: which class the data become -/

/-- The data without the class tag. -/
def untag (d : Data ι α) (m : Dict String (MV α)) : Data ι α := (d.del "node_metadata").set "metadata" (.dict (m.del "lion_class"))

/-- The tag is missing, empty or the name of the class itself. -/
def OwnTag (W : World ι γ α φ) (c : γ) (m : Dict String (MV α)) : Prop :=
  m.get? "lion_class" = none ∨ m.get? "lion_class" = some .none ∨ m.get? "lion_class" = some (.str []) ∨ m.get? "lion_class" = some (.str (fullName W c))

theorem tag_untag {d : Data ι α} {m : Dict String (MV α)} (hd : Dict.WF d) (hm : d.get? "metadata" = some (.dict m)) :
    takeTag (restoreMeta none d) = (untag d m, (m.get? "lion_class").getD .none) := by
  have hhas : d.has "metadata" = true := by unfold Dict.has; rw [hm]; rfl
  have e1 : restoreMeta none d = d.del "node_metadata" := by unfold restoreMeta; rw [if_neg (by rw [hhas]; simp)]
  have e2 : (d.del "node_metadata").get? "metadata" = some (.dict m) := by rw [Dict.get?_del hd, if_neg (by decide)]; exact hm
  rw [e1]; unfold takeTag; rw [e2]; rfl

theorem set_self {κ ν : Type} [DecidableEq κ] : ∀ (d : Dict κ ν) (k : κ) (v : ν), d.get? k = some v → d.set k v = d
  | [], k, v, h => by simp [Dict.get?] at h
  | (k', v') :: d, k, v, h => by
    rw [Dict.get?_cons] at h
    by_cases e : k' = k
    · rw [if_pos e] at h; cases h; subst e; simp [Dict.set]
    · rw [if_neg e] at h
      have ih := set_self d k v h
      simp only [Dict.set] at ih ⊢
      simp [e, ih]

theorem untag_untag {d : Data ι α} {m : Dict String (MV α)} (hd : Dict.WF d) (hm : Dict.WF m) : untag (untag d m) (m.del "lion_class") = untag d m := by
  have h1 : "node_metadata" ∉ Dict.keys (untag d m) := by
    unfold untag
    rw [Dict.mem_keys_set, Dict.mem_keys_del hd]
    rintro (h | h)
    · exact absurd h (by decide)
    · exact h.1 rfl
  have h2 : (m.del "lion_class").del "lion_class" = m.del "lion_class" := Dict.del_of_notMem (by rw [Dict.mem_keys_del hm]; exact fun h => h.1 rfl)
  have h3 : (untag d m).get? "metadata" = some (.dict (m.del "lion_class")) := by unfold untag; rw [Dict.get?_set, if_pos rfl]
  show ((untag d m).del "node_metadata").set "metadata" (.dict ((m.del "lion_class").del "lion_class")) = untag d m
  rw [Dict.del_of_notMem h1, h2, set_self _ _ _ h3]

theorem untagged_validate (W : World ι γ α φ) (fresh : Fresh ι) (t : γ) {d : Data ι α} {m : Dict String (MV α)} (hd : Dict.WF d) (hm : Dict.WF m) :
    nodeFromDictUntagged W fresh none t (untag d m) = modelValidate W fresh t (untag d m) := by
  have h3 : (untag d m).get? "metadata" = some (.dict (m.del "lion_class")) := by unfold untag; rw [Dict.get?_set, if_pos rfl]
  have hw : Dict.WF (untag d m) := Dict.set_wf (Dict.del_wf hd _) _ _
  simp only [nodeFromDictUntagged, applyContent]
  rw [tag_untag hw h3, untag_untag hd hm]

theorem sameClass_own {W : World ι γ α φ} {c : γ} {m : Dict String (MV α)} : sameClass W c ((m.get? "lion_class").getD .none) = true ↔ OwnTag W c m := by
  unfold OwnTag
  cases h : m.get? "lion_class" with
  | none => simp [sameClass]
  | some v => cases v <;> simp [sameClass]

/-- C211: without a tag, or with its own name as the tag, the class builds the element itself. -/
theorem C211_own (W : World ι γ α φ) (R : Registry γ) (fresh : Fresh ι) (c : γ) (d : Data ι α) (m : Dict String (MV α)) (hd : Dict.WF d)
    (hi : W.impl c ≠ .custom) (hm : d.get? "metadata" = some (.dict m)) (ho : OwnTag W c m) :
    fromDict W R fresh c none d = modelValidate W fresh c (untag d m) := by
  have hs := sameClass_own.2 ho
  unfold fromDict
  cases h : W.impl c with
  | custom => exact absurd h hi
  | element => simp only [elementFromDict, tag_untag hd hm]; rw [if_pos hs]
  | node => simp only [nodeFromDict, applyContent, tag_untag hd hm]; rw [if_pos hs]

/-- C211: data without metadata are those of the class itself. -/
theorem C211_plain (W : World ι γ α φ) (R : Registry γ) (fresh : Fresh ι) (c : γ) (d : Data ι α) (hi : W.impl c ≠ .custom)
    (hm : "metadata" ∉ Dict.keys d) (hn : "node_metadata" ∉ Dict.keys d) :
    fromDict W R fresh c none d = modelValidate W fresh c (d.set "metadata" (.dict [])) := by
  have h1 : d.has "node_metadata" = false := Bool.eq_false_iff.2 fun h => hn ((Dict.has_iff d _).1 h)
  have e1 : restoreMeta none d = d := by unfold restoreMeta; rw [if_neg (by rw [h1]; simp)]; exact Dict.del_of_notMem hn
  have e2 : takeTag (restoreMeta none d) = (d.set "metadata" (.dict []), .none) := by
    rw [e1]; unfold takeTag; rw [(Dict.get?_eq_none_iff d _).2 hm]
  unfold fromDict
  cases h : W.impl c with
  | custom => exact absurd h hi
  | element => simp only [elementFromDict, e2]; exact if_pos rfl
  | node => simp only [nodeFromDict, applyContent, e2]; exact if_pos rfl

/-- C211: another name leads `Element.from_dict` to the class importable under it, or to `ValueError` (`TypeError` if the name starts with a dot and has another one after it). -/
theorem C211_element (W : World ι γ α φ) (R : Registry γ) (fresh : Fresh ι) (c : γ) (d : Data ι α) (m : Dict String (MV α)) (hd : Dict.WF d) (hw : Dict.WF m)
    (hi : W.impl c = .element) (hm : d.get? "metadata" = some (.dict m)) (ho : ¬ OwnTag W c m) (s : List Char) (ht : m.get? "lion_class" = some (.str s)) :
    (∀ t, importType W s = .ok (.cls t) → W.impl t ≠ .custom → fromDict W R fresh c none d = modelValidate W fresh t (untag d m)) ∧
    (∀ t, importType W s = .ok (.cls t) → W.impl t = .custom → fromDict W R fresh c none d = W.custom t (untag d m)) ∧
    ((∀ t, importType W s ≠ .ok (.cls t)) → (∀ r n, '.' ∉ n → s ≠ '.' :: (r ++ '.' :: n)) → fromDict W R fresh c none d = .error .valueError) ∧
    ((∀ t, importType W s ≠ .ok (.cls t)) → (∃ r n, '.' ∉ n ∧ s = '.' :: (r ++ '.' :: n)) → fromDict W R fresh c none d = .error .typeError) := by
  have hs : sameClass W c ((m.get? "lion_class").getD .none) = false := Bool.eq_false_iff.2 fun h => ho (sameClass_own.1 h)
  have e : fromDict W R fresh c none d = elementDispatch W fresh (untag d m) (.str s) := by
    unfold fromDict
    rw [hi]
    simp only [elementFromDict, tag_untag hd hm]
    rw [hs, ht]; rfl
  rw [e]
  simp only [elementDispatch]
  refine ⟨?_, ?_, ?_, ?_⟩
  · intro t h1 h2
    rw [h1]
    simp only [callTarget]
    cases h : W.impl t with
    | custom => exact absurd h h2
    | element => rfl
    | node => exact untagged_validate W fresh t hd hw
  · intro t h1 h2
    rw [h1]
    simp only [callTarget, h2]
  · intro h hn
    cases hx : importType W s with
    | ok a =>
      cases a with
      | cls t => exact absurd hx (h t)
      | _ => rfl
    | error e =>
      have hl : (loadType W (loadAll W []) s).1 = .error e := by rw [C129_cache]; exact hx
      obtain ⟨h1, h2⟩ := C243_exact_partial W [] s e hl
      rcases h1 with h1 | h1
      · rw [h1]
      · obtain ⟨r, n, a1, a2⟩ := h2.1 h1
        exact absurd a2 (hn r n a1)
  · rintro _ ⟨r, n, hn, hs⟩
    have hx : importType W s = .error .typeError := by
      unfold importType
      have := rsplit_append ('.' :: r) n hn
      rw [List.cons_append, ← hs] at this
      rw [this]
      rfl
    rw [hx]

/-- C211: another name leads `Node.from_dict` to the class registered under it or under its last part; an unregistered name is ignored. -/
theorem C211_node (W : World ι γ α φ) (R : Registry γ) (fresh : Fresh ι) (c : γ) (d : Data ι α) (m : Dict String (MV α)) (hd : Dict.WF d) (hw : Dict.WF m)
    (hi : W.impl c = .node) (hm : d.get? "metadata" = some (.dict m)) (ho : ¬ OwnTag W c m) (a n : List Char) (hn : '.' ∉ n)
    (ht : m.get? "lion_class" = some (.str (a ++ '.' :: n))) :
    (∀ t, R.get? (a ++ '.' :: n) = some t → W.impl t ≠ .custom → fromDict W R fresh c none d = modelValidate W fresh t (untag d m)) ∧
    (∀ t, R.get? (a ++ '.' :: n) = none → R.get? n = some t → W.impl t ≠ .custom → fromDict W R fresh c none d = modelValidate W fresh t (untag d m)) ∧
    (R.get? (a ++ '.' :: n) = none → R.get? n = none → fromDict W R fresh c none d = modelValidate W fresh c (untag d m)) := by
  have hs : sameClass W c ((m.get? "lion_class").getD .none) = false := Bool.eq_false_iff.2 fun h => ho (sameClass_own.1 h)
  have e : fromDict W R fresh c none d = nodeDispatch W R fresh none c (untag d m) (.str (a ++ '.' :: n)) := by
    unfold fromDict
    rw [hi]
    simp only [nodeFromDict, applyContent, tag_untag hd hm]
    rw [hs, ht]; rfl
  have hgo : ∀ t, lookupTag R (a ++ '.' :: n) = some t → W.impl t ≠ .custom →
      nodeDispatch W R fresh none c (untag d m) (.str (a ++ '.' :: n)) = modelValidate W fresh t (untag d m) := by
    intro t h1 h2
    simp only [nodeDispatch, h1]
    by_cases htc : t = c
    · rw [if_pos htc, htc]
    · rw [if_neg htc, if_neg h2]; exact untagged_validate W fresh t hd hw
  rw [e]
  refine ⟨fun t h1 h2 => hgo t (by simp only [lookupTag, h1]) h2, fun t h0 h1 h2 => hgo t (by simp only [lookupTag, h0, rsplit_append _ _ hn]; exact h1) h2, ?_⟩
  intro h0 h1
  have : lookupTag R (a ++ '.' :: n) = none := by simp only [lookupTag, h0, rsplit_append _ _ hn]; exact h1
  simp only [nodeDispatch, this]

/-- C211: a tag that is not a text is rejected: `Element.from_dict` raises `ValueError` (or `TypeError` if it cannot be hashed), `Node.from_dict` `AttributeError` (or `TypeError`). -/
theorem C211_not_a_name (W : World ι γ α φ) (R : Registry γ) (fresh : Fresh ι) (c : γ) (d : Data ι α) (m : Dict String (MV α)) (hd : Dict.WF d)
    (hm : d.get? "metadata" = some (.dict m)) (a : α) :
    (m.get? "lion_class" = some (.unhash a) → W.impl c ≠ .custom → fromDict W R fresh c none d = .error .typeError) ∧
    (m.get? "lion_class" = some (.hash a) → W.impl c = .element → fromDict W R fresh c none d = .error .valueError) ∧
    (m.get? "lion_class" = some (.hash a) → W.impl c = .node → fromDict W R fresh c none d = .error .attributeError) := by
  unfold fromDict
  refine ⟨?_, ?_, ?_⟩
  · intro h hi
    cases hc : W.impl c with
    | custom => exact absurd hc hi
    | element => simp only [elementFromDict, tag_untag hd hm, h, Option.getD_some, sameClass]; rfl
    | node => simp only [nodeFromDict, applyContent, tag_untag hd hm, h, Option.getD_some, sameClass]; rfl
  · intro h hi
    rw [hi]
    simp only [elementFromDict, tag_untag hd hm, h, Option.getD_some, sameClass]; rfl
  · intro h hi
    rw [hi]
    simp only [nodeFromDict, applyContent, tag_untag hd hm, h, Option.getD_some, sameClass]; rfl

/-- Non-vacuity: an element read through the base class, and one whose class does not exist. -/
example : (fromDict sample [] ⟨9, ⟨0, some 0⟩⟩ .element none ([("id", .uuid 3), ("metadata", .dict [("lion_class", .str (fullName sample .e))])] : Data Nat Nat)).toOption.map (·.cls) = some .e := by
  decide +kernel
example : fromDict sample [] ⟨9, ⟨0, some 0⟩⟩ .element none ([("id", .uuid 3), ("metadata", .dict [("lion_class", .str "m.Nope".toList)])] : Data Nat Nat) = .error .valueError := by
  decide +kernel

end Verif.Element
