import Verif.Props.Element

/-!
# C76, C77, C130, C131: serialisation of `Element` and `Node`
-/

set_option linter.unusedSectionVars false
set_option linter.unusedSimpArgs false
set_option linter.unusedVariables false

namespace Verif.Element

variable {ι γ α φ : Type} [DecidableEq ι] [DecidableEq γ]

/-! ### What is assumed of the libraries, and which elements are considered -/

/-- The text and number forms of ids and (aware) times are read back exactly; text survives JSON. Timestamps are taken as exact numbers. -/
structure Laws (W : World ι γ α φ) : Prop where
  uuid : ∀ u, W.parseId (W.showId u) = some u
  isoNotFloat : ∀ t, W.time.parseFloat (W.iso t) = none
  iso : ∀ t, W.time.fromIso (W.iso t) = some t
  stamp : ∀ w o, ∃ q, W.timestamp ⟨w, some o⟩ = .fin q ∧ W.time.fromTs q = .ok (w - o)
  text : ∀ s, W.metaViaJson (.str s) = .str s

/-- How a dumped value arrives in a mode. -/
def written (W : World ι γ α φ) : Mode → DV ι α → DV ι α
  | .python, v => v
  | _, v => jsonValue W v

/-- The names the base class uses. -/
def baseKeys : List String := ["id", "created_at", "metadata", "node_metadata"]

/-- Elements whose own fields survive the chosen mode: the creation time is aware, the fields are those of the class, under names of their own, and validation accepts what was written and yields the value; the metadata has no entry of its own under the key of the class tag. -/
structure Good (W : World ι γ α φ) (x : Elem ι γ α φ) (mode : Mode) : Prop where
  aware : x.created.offset.isSome = true
  metaWF : x.metadata.WF
  noTag : "lion_class" ∉ x.metadata.keys
  fieldsWF : x.fields.WF
  fields : x.fields.keys = W.fieldNames x.cls
  names : ∀ f ∈ W.fieldNames x.cls, f ∉ baseKeys
  values : ∀ f y, (f, y) ∈ x.fields → W.valid x.cls f (written W mode (W.dump x.cls f y)) = some y
  metaJson : mode ≠ .python → ∀ k v, (k, v) ∈ x.metadata → W.metaViaJson v = v

/-- The same creation time: aware, and the same instant. -/
def SameTime (t u : DateTime) : Prop := ∃ o o', t.offset = some o ∧ u.offset = some o' ∧ t.wall - o = u.wall - o'

/-- Two elements agree in everything observable. -/
structure Same (y x : Elem ι γ α φ) : Prop where
  cls : y.cls = x.cls
  id : y.id = x.id
  created : SameTime y.created x.created
  metadata : y.metadata = x.metadata
  fields : y.fields = x.fields

/-- The key under which the metadata is found in the output. -/
def outKey (mode : Mode) (metaKey : Option String) : String := (metaKeyOut mode metaKey).getD "metadata"

/-- The reading side knows the key: it is given, or it is one of the two keys known by default. -/
def Handled (mode : Mode) (kOut kIn : Option String) : Prop :=
  kIn = some (outKey mode kOut) ∨ (kIn = none ∧ (outKey mode kOut = "metadata" ∨ outKey mode kOut = "node_metadata"))

/-! ### The written data -/

/-- What is kept of an element in a dict whose metadata `m` is under key `e`. -/
structure Image (W : World ι γ α φ) (x : Elem ι γ α φ) (e : String) (m : Dict String (MV α)) (d : Data ι α) : Prop where
  wf : Dict.WF d
  keys : ∀ k ∈ Dict.keys d, k = "id" ∨ k = "created_at" ∨ k = e ∨ k ∈ W.fieldNames x.cls
  id : ∃ v, d.get? "id" = some v ∧ validId W v = some x.id
  created : ∃ v t, d.get? "created_at" = some v ∧ coerceCreatedAt W.time (timeArg v) = .ok t ∧ SameTime t x.created
  metadata : d.get? e = some (.dict m)
  fields : ∀ f y, (f, y) ∈ x.fields → ∃ v, d.get? f = some v ∧ W.valid x.cls f v = some y

theorem sameTime_refl {t : DateTime} (h : t.offset.isSome = true) : SameTime t t := by
  cases ho : t.offset with
  | none => rw [ho] at h; cases h
  | some o => exact ⟨o, o, ho, ho, rfl⟩

theorem keys_dumpFields (W : World ι γ α φ) (c : γ) (fs : Dict String φ) : Dict.keys (dumpFields W c fs) = Dict.keys fs := by
  unfold dumpFields Dict.keys
  rw [List.map_map]; rfl

theorem get?_map_val {ν ν' : Type} (g : ν → ν') (d : Dict String ν) (k : String) :
    Dict.get? (d.map (fun kv => (kv.1, g kv.2))) k = (Dict.get? d k).map g := by
  induction d with
  | nil => rfl
  | cons kv d ih =>
    obtain ⟨a, b⟩ := kv
    rw [List.map_cons, Dict.get?_cons, Dict.get?_cons, ih]
    split <;> rfl

theorem keys_map_val {ν ν' : Type} (g : ν → ν') (d : Dict String ν) : Dict.keys (d.map (fun kv => (kv.1, g kv.2))) = Dict.keys d := by
  unfold Dict.keys
  rw [List.map_map]; rfl

theorem get?_dumpFields (W : World ι γ α φ) (c : γ) {fs : Dict String φ} (wf : fs.WF) {f : String} {y : φ} (h : (f, y) ∈ fs) :
    (dumpFields W c fs).get? f = some (W.dump c f y) := by
  apply Dict.get?_of_mem
  · unfold Dict.WF; rw [keys_dumpFields]; exact wf
  · exact List.mem_map.2 ⟨(f, y), h, rfl⟩

/-- The tag is added to the metadata. -/
abbrev tagged (W : World ι γ α φ) (x : Elem ι γ α φ) : Dict String (MV α) := x.metadata.set "lion_class" (.str (fullName W x.cls))

theorem raw_get (W : World ι γ α φ) {x : Elem ι γ α φ} {mode : Mode} (g : Good W x mode) :
    Dict.WF (rawDict W x) ∧ Dict.keys (rawDict W x) = "id" :: "created_at" :: "metadata" :: W.fieldNames x.cls ∧
    (rawDict W x).get? "id" = some (.uuid x.id) ∧ (rawDict W x).get? "created_at" = some (.dt x.created) ∧
    (rawDict W x).get? "metadata" = some (.dict (tagged W x)) ∧
    (∀ f y, (f, y) ∈ x.fields → (rawDict W x).get? f = some (W.dump x.cls f y)) := by
  have hk : Dict.keys (rawDict W x) = "id" :: "created_at" :: "metadata" :: W.fieldNames x.cls := by
    unfold rawDict
    simp only [Dict.keys_cons, keys_dumpFields, g.fields]
  have hnd : (W.fieldNames x.cls).Nodup := by have := g.fieldsWF; unfold Dict.WF at this; rw [g.fields] at this; exact this
  have hn : ∀ f ∈ W.fieldNames x.cls, f ≠ "id" ∧ f ≠ "created_at" ∧ f ≠ "metadata" ∧ f ≠ "node_metadata" := by
    intro f hf
    have := g.names f hf
    simp only [baseKeys, List.mem_cons, List.not_mem_nil, or_false, not_or] at this
    exact this
  refine ⟨?_, hk, ?_, ?_, ?_, ?_⟩
  · unfold Dict.WF
    rw [hk]
    simp only [List.nodup_cons, List.mem_cons, not_or]
    refine ⟨⟨by decide, by decide, ?_⟩, ⟨by decide, ?_⟩, ?_, hnd⟩
    · intro h; exact (hn _ h).1 rfl
    · intro h; exact (hn _ h).2.1 rfl
    · intro h; exact (hn _ h).2.2.1 rfl
  · unfold rawDict; rw [Dict.get?_cons, if_pos rfl]
  · unfold rawDict; rw [Dict.get?_cons, if_neg (by decide), Dict.get?_cons, if_pos rfl]
  · unfold rawDict; rw [Dict.get?_cons, if_neg (by decide), Dict.get?_cons, if_neg (by decide), Dict.get?_cons, if_pos rfl]
  · intro f y h
    have hf : f ∈ W.fieldNames x.cls := by rw [← g.fields]; exact List.mem_map.2 ⟨(f, y), h, rfl⟩
    have := hn f hf
    unfold rawDict
    rw [Dict.get?_cons, if_neg (Ne.symm this.1), Dict.get?_cons, if_neg (Ne.symm this.2.1), Dict.get?_cons, if_neg (Ne.symm this.2.2.1)]
    exact get?_dumpFields W x.cls g.fieldsWF h

theorem map_fixed {g : MV α → MV α} {d : Dict String (MV α)} (h : ∀ k v, (k, v) ∈ d → g v = v) : d.map (fun kv => (kv.1, g kv.2)) = d := by
  induction d with
  | nil => rfl
  | cons kv d ih =>
    obtain ⟨a, b⟩ := kv
    rw [List.map_cons, ih (fun k v hv => h k v (List.mem_cons_of_mem _ hv)), h a b List.mem_cons_self]

theorem tagged_json {W : World ι γ α φ} (L : Laws W) {x : Elem ι γ α φ} {mode : Mode} (g : Good W x mode) (hm : mode ≠ .python) :
    (tagged W x).map (fun kv => (kv.1, W.metaViaJson kv.2)) = tagged W x := by
  apply map_fixed
  intro k v hv
  unfold tagged at hv
  rw [Dict.set_of_notMem _ g.noTag] at hv
  rcases List.mem_append.1 hv with h | h
  · exact g.metaJson hm k v h
  · simp only [List.mem_cons, List.not_mem_nil, or_false, Prod.mk.injEq] at h
    rw [h.2]; exact L.text _

theorem image_mode {W : World ι γ α φ} (L : Laws W) {x : Elem ι γ α φ} {mode : Mode} (g : Good W x mode) :
    Image W x "metadata" (tagged W x) (modeDict W x mode) := by
  obtain ⟨wf, hk, hid, hc, hm, hf⟩ := raw_get W g
  have key : ∀ k ∈ Dict.keys (rawDict W x), k = "id" ∨ k = "created_at" ∨ k = "metadata" ∨ k ∈ W.fieldNames x.cls := by
    intro k h; rw [hk] at h; simpa using h
  by_cases hpy : mode = .python
  · subst hpy
    refine ⟨wf, key, ⟨_, hid, rfl⟩, ⟨_, x.created, hc, ?_, sameTime_refl g.aware⟩, hm, fun f y h => ⟨_, hf f y h, g.values f y h⟩⟩
    simp only [timeArg, coerceCreatedAt]; rw [if_pos g.aware]
  · have hmd : modeDict W x mode = jsonDict W (rawDict W x) := by cases mode <;> first | rfl | exact absurd rfl hpy
    have hw : ∀ v, written W mode v = jsonValue W v := by intro v; cases mode <;> first | rfl | exact absurd rfl hpy
    have hg : ∀ k, (jsonDict W (rawDict W x)).get? k = ((rawDict W x).get? k).map (jsonValue W) := fun k => get?_map_val _ _ _
    have hkk : Dict.keys (jsonDict W (rawDict W x)) = Dict.keys (rawDict W x) := keys_map_val _ _
    rw [hmd]
    refine ⟨by unfold Dict.WF; rw [hkk]; exact wf, by rw [hkk]; exact key, ⟨.str (W.showId x.id), by rw [hg, hid]; rfl, L.uuid _⟩,
      ⟨.str (W.iso x.created), x.created, by rw [hg, hc]; rfl, ?_, sameTime_refl g.aware⟩, ?_, ?_⟩
    · simp only [timeArg, coerceCreatedAt, coerceStr, L.isoNotFloat, coerceIso, L.iso]
    · rw [hg, hm]
      simp only [Option.map_some, jsonValue, tagged_json L g hpy]
    · intro f y h
      refine ⟨_, by rw [hg, hf f y h]; rfl, ?_⟩
      rw [← hw]; exact g.values f y h

/-- Replacing the creation time by another form of it. -/
theorem image_setCreated {W : World ι γ α φ} {x : Elem ι γ α φ} {mode : Mode} (g : Good W x mode) {m : Dict String (MV α)} {d : Data ι α}
    (h : Image W x "metadata" m d) {v : DV ι α} {t : DateTime} (hv : coerceCreatedAt W.time (timeArg v) = .ok t) (ht : SameTime t x.created) :
    Image W x "metadata" m (d.set "created_at" v) := by
  have hn : ∀ f ∈ W.fieldNames x.cls, f ≠ "created_at" := by
    intro f hf e
    exact g.names f hf (by rw [e]; decide)
  refine ⟨Dict.set_wf h.wf _ _, ?_, ?_, ⟨v, t, by rw [Dict.get?_set, if_pos rfl], hv, ht⟩, ?_, ?_⟩
  · intro k hk
    rcases (Dict.mem_keys_set _ _ _ _).1 hk with e | e
    · exact Or.inr (Or.inl e)
    · exact h.keys k e
  · obtain ⟨w, h1, h2⟩ := h.id
    exact ⟨w, by rw [Dict.get?_set, if_neg (by decide)]; exact h1, h2⟩
  · rw [Dict.get?_set, if_neg (by decide)]; exact h.metadata
  · intro f y hf
    obtain ⟨w, h1, h2⟩ := h.fields f y hf
    refine ⟨w, ?_, h2⟩
    rw [Dict.get?_set, if_neg]
    · exact h1
    · intro e
      exact hn f (by rw [← g.fields]; exact List.mem_map.2 ⟨(f, y), hf, rfl⟩) e.symm

/-- The format can be produced: `datetime` is not available in JSON mode. -/
def FmtOk (mode : Mode) (fmt : Option Fmt) : Prop := ¬(mode = .json ∧ fmt = some .datetime)

theorem image_created {W : World ι γ α φ} (L : Laws W) {x : Elem ι γ α φ} {mode : Mode} (g : Good W x mode) (fmt : Option Fmt) (hf : FmtOk mode fmt) :
    ∃ d, setCreated W x (modeDict W x mode) mode (fmt.getD (defaultFmt mode)) = .ok d ∧ Image W x "metadata" (tagged W x) d := by
  have hi := image_mode L g
  have hiso : Image W x "metadata" (tagged W x) ((modeDict W x mode).set "created_at" (.str (W.iso x.created))) := by
    refine image_setCreated g hi (t := x.created) ?_ (sameTime_refl g.aware)
    simp only [timeArg, coerceCreatedAt, coerceStr, L.isoNotFloat, coerceIso, L.iso]
  have hdt : Image W x "metadata" (tagged W x) ((modeDict W x mode).set "created_at" (.dt x.created)) := by
    refine image_setCreated g hi (t := x.created) ?_ (sameTime_refl g.aware)
    simp only [timeArg, coerceCreatedAt]; rw [if_pos g.aware]
  have hts : Image W x "metadata" (tagged W x) ((modeDict W x mode).set "created_at" (.num (W.timestamp x.created))) := by
    cases ho : x.created.offset with
    | none => have := g.aware; rw [ho] at this; cases this
    | some o =>
      have hx : x.created = ⟨x.created.wall, some o⟩ := by rw [← ho]
      obtain ⟨q, hq, hfq⟩ := L.stamp x.created.wall o
      rw [← hx] at hq
      refine image_setCreated g hi (t := ⟨x.created.wall - o, some 0⟩) ?_ ⟨0, o, rfl, ho, by simp⟩
      simp only [timeArg, coerceCreatedAt, fromTimestamp, hq, hfq]
  rcases fmt with _ | fmt
  · cases mode with
    | python => exact ⟨_, rfl, hi⟩
    | json => exact ⟨_, rfl, hi⟩
    | db => exact ⟨_, rfl, hdt⟩
  · cases mode with
    | python => cases fmt with
      | datetime => exact ⟨_, rfl, hi⟩
      | isoformat => exact ⟨_, rfl, hiso⟩
      | timestamp => exact ⟨_, rfl, hts⟩
    | json => cases fmt with
      | datetime => exact absurd ⟨rfl, rfl⟩ hf
      | isoformat => exact ⟨_, rfl, hi⟩
      | timestamp => exact ⟨_, rfl, hts⟩
    | db => cases fmt with
      | datetime => exact ⟨_, rfl, hdt⟩
      | isoformat => exact ⟨_, rfl, hi⟩
      | timestamp => exact ⟨_, rfl, hts⟩

/-- A key that is not used for anything else. -/
def FreeKey (W : World ι γ α φ) (c : γ) (k : String) : Prop := k ≠ "id" ∧ k ≠ "created_at" ∧ k ∉ W.fieldNames c

theorem image_rename {W : World ι γ α φ} {x : Elem ι γ α φ} {a b : String} {m : Dict String (MV α)} {d : Data ι α}
    (hfs : x.fields.keys = W.fieldNames x.cls) (h : Image W x a m d) (ha : FreeKey W x.cls a) (hb : FreeKey W x.cls b) : Image W x b m (rename d a b) := by
  have hr : rename d a b = (d.del a).set b (.dict m) := by unfold rename; rw [h.metadata]
  rw [hr]
  have get : ∀ k, k ≠ a → k ≠ b → ((d.del a).set b (.dict m)).get? k = d.get? k := by
    intro k h1 h2
    rw [Dict.get?_set, if_neg (Ne.symm h2), Dict.get?_del h.wf, if_neg (Ne.symm h1)]
  refine ⟨Dict.set_wf (Dict.del_wf h.wf _) _ _, ?_, ?_, ?_, by rw [Dict.get?_set, if_pos rfl], ?_⟩
  · intro k hk
    rcases (Dict.mem_keys_set _ _ _ _).1 hk with e | e
    · exact Or.inr (Or.inr (Or.inl e))
    · have := (Dict.mem_keys_del h.wf _ _).1 e
      rcases h.keys k this.2 with e | e | e | e
      · exact Or.inl e
      · exact Or.inr (Or.inl e)
      · exact absurd e this.1
      · exact Or.inr (Or.inr (Or.inr e))
  · rw [get _ (Ne.symm ha.1) (Ne.symm hb.1)]; exact h.id
  · rw [get _ (Ne.symm ha.2.1) (Ne.symm hb.2.1)]; exact h.created
  · intro f y hf
    have hmem : f ∈ W.fieldNames x.cls := by rw [← hfs]; exact List.mem_map.2 ⟨(f, y), hf, rfl⟩
    rw [get f (fun e => ha.2.2 (e ▸ hmem)) (fun e => hb.2.2 (e ▸ hmem))]
    exact h.fields f y hf

theorem image_delOther {W : World ι γ α φ} {x : Elem ι γ α φ} {a b : String} {m : Dict String (MV α)} {d : Data ι α}
    (hfs : x.fields.keys = W.fieldNames x.cls) (h : Image W x a m d) (hab : a ≠ b) (hb : FreeKey W x.cls b) : Image W x a m (d.del b) := by
  have get : ∀ k, k ≠ b → (d.del b).get? k = d.get? k := by
    intro k h2
    rw [Dict.get?_del h.wf, if_neg (Ne.symm h2)]
  refine ⟨Dict.del_wf h.wf _, ?_, ?_, ?_, by rw [get _ hab]; exact h.metadata, ?_⟩
  · intro k hk; exact h.keys k ((Dict.mem_keys_del h.wf _ _).1 hk).2
  · rw [get _ (Ne.symm hb.1)]; exact h.id
  · rw [get _ (Ne.symm hb.2.1)]; exact h.created
  · intro f y hf
    have hmem : f ∈ W.fieldNames x.cls := by rw [← hfs]; exact List.mem_map.2 ⟨(f, y), hf, rfl⟩
    rw [get f (fun e => hb.2.2 (e ▸ hmem))]
    exact h.fields f y hf

theorem free_base {W : World ι γ α φ} {x : Elem ι γ α φ} {mode : Mode} (g : Good W x mode) :
    FreeKey W x.cls "metadata" ∧ FreeKey W x.cls "node_metadata" :=
  ⟨⟨by decide, by decide, fun h => g.names _ h (by decide)⟩, ⟨by decide, by decide, fun h => g.names _ h (by decide)⟩⟩

/-- The output of `to_dict`. -/
theorem image_toDict {W : World ι γ α φ} (L : Laws W) {x : Elem ι γ α φ} {mode : Mode} (g : Good W x mode) (fmt : Option Fmt) (hf : FmtOk mode fmt)
    (kOut : Option String) (hk : FreeKey W x.cls (outKey mode kOut)) :
    ∃ d, toDict W x mode fmt kOut = .ok d ∧ Image W x (outKey mode kOut) (tagged W x) d := by
  obtain ⟨d, h1, h2⟩ := image_created L g fmt hf
  refine ⟨renameOut d (metaKeyOut mode kOut), by unfold toDict; rw [h1], ?_⟩
  unfold outKey at hk ⊢
  cases hm : metaKeyOut mode kOut with
  | none => exact h2
  | some k => rw [hm] at hk; exact image_rename g.fields h2 (free_base g).1 hk

theorem has_of_image {W : World ι γ α φ} {x : Elem ι γ α φ} {e : String} {m : Dict String (MV α)} {d : Data ι α} (h : Image W x e m d) : d.has e = true := by
  unfold Dict.has; rw [h.metadata]; rfl

theorem hasNot_of_image {W : World ι γ α φ} {x : Elem ι γ α φ} {e k : String} {m : Dict String (MV α)} {d : Data ι α} (h : Image W x e m d)
    (hk : FreeKey W x.cls k) (hne : k ≠ e) : d.has k = false := by
  rw [Dict.has_eq_false_iff]
  intro hm
  rcases h.keys k hm with e' | e' | e' | e'
  · exact hk.1 e'
  · exact hk.2.1 e'
  · exact hne e'
  · exact hk.2.2 e'

theorem outKey_ne_empty (mode : Mode) (kOut : Option String) : outKey mode kOut ≠ "" := by
  cases kOut with
  | none => cases mode <;> decide
  | some k =>
    by_cases h : k = ""
    · subst h; cases mode <;> decide
    · have : outKey mode (some k) = k := by unfold outKey metaKeyOut; split <;> simp_all
      rw [this]; exact h

theorem image_restore {W : World ι γ α φ} {x : Elem ι γ α φ} {mode : Mode} (g : Good W x mode) {kOut kIn : Option String} {m : Dict String (MV α)} {d : Data ι α}
    (hk : FreeKey W x.cls (outKey mode kOut)) (hh : Handled mode kOut kIn) (h : Image W x (outKey mode kOut) m d) :
    Image W x "metadata" m (restoreMeta kIn d) := by
  obtain ⟨fm, fn⟩ := free_base g
  rcases hh with e | ⟨e, e2⟩
  · subst e
    simp only [restoreMeta]
    rw [if_pos ⟨outKey_ne_empty _ _, has_of_image h⟩]
    exact image_delOther g.fields (image_rename g.fields h hk fm) (by decide) fn
  · subst e
    unfold restoreMeta
    rcases e2 with e2 | e2
    · rw [e2] at h
      have hm := has_of_image h
      rw [if_neg (by rw [hm]; simp)]
      exact image_delOther g.fields h (by decide) fn
    · rw [e2] at h
      have hn := has_of_image h
      have hm := hasNot_of_image h fm (by decide)
      rw [if_pos (by rw [hn, hm]; rfl)]
      exact image_delOther g.fields (image_rename g.fields h fn fm) (by decide) fn

theorem tagged_del {W : World ι γ α φ} {x : Elem ι γ α φ} {mode : Mode} (g : Good W x mode) : (tagged W x).del "lion_class" = x.metadata := by
  unfold tagged
  rw [Dict.set_of_notMem _ g.noTag]
  have : ∀ d : Dict String (MV α), "lion_class" ∉ d.keys → ∀ v, Dict.del (d ++ [("lion_class", v)] : List _) "lion_class" = d := by
    intro d
    induction d with
    | nil => intro _ v; simp [Dict.del]
    | cons kv d ih =>
      intro h v
      obtain ⟨a, b⟩ := kv
      simp only [Dict.keys_cons, List.mem_cons, not_or] at h
      simp only [List.cons_append, Dict.del, if_neg (Ne.symm h.1), ih h.2 v]
  exact this _ g.noTag _

theorem image_takeTag {W : World ι γ α φ} {x : Elem ι γ α φ} {mode : Mode} (g : Good W x mode) {m : Dict String (MV α)} {d : Data ι α}
    (hdel : m.del "lion_class" = x.metadata) (hg : m.get? "lion_class" = some (.str (fullName W x.cls))) (h : Image W x "metadata" m d) :
    Image W x "metadata" x.metadata (takeTag d).1 ∧ (takeTag d).2 = .str (fullName W x.cls) := by
  have ht : takeTag d = (d.set "metadata" (.dict (m.del "lion_class")), (m.get? "lion_class").getD .none) := by
    unfold takeTag; rw [h.metadata]
  rw [ht, hg, hdel]
  refine ⟨?_, rfl⟩
  have fm := (free_base g).1
  have get : ∀ k v, k ≠ "metadata" → (d.set "metadata" v).get? k = d.get? k := by
    intro k v h2
    rw [Dict.get?_set, if_neg (Ne.symm h2)]
  refine ⟨Dict.set_wf h.wf _ _, ?_, ?_, ?_, by rw [Dict.get?_set, if_pos rfl], ?_⟩
  · intro k hk
    rcases (Dict.mem_keys_set _ _ _ _).1 hk with e | e
    · exact Or.inr (Or.inr (Or.inl e))
    · exact h.keys k e
  · rw [get _ _ (by decide)]; exact h.id
  · rw [get _ _ (by decide)]; exact h.created
  · intro f y hf
    have hmem : f ∈ W.fieldNames x.cls := by rw [← g.fields]; exact List.mem_map.2 ⟨(f, y), hf, rfl⟩
    rw [get f _ (fun e => fm.2.2 (e ▸ hmem))]
    exact h.fields f y hf

theorem validFields_image {W : World ι γ α φ} {c : γ} {d : Data ι α} {fs : Dict String φ}
    (h : ∀ f y, (f, y) ∈ fs → ∃ v, d.get? f = some v ∧ W.valid c f v = some y) : validFields W c d (Dict.keys fs) = some fs := by
  induction fs with
  | nil => rfl
  | cons fy fs ih =>
    obtain ⟨f, y⟩ := fy
    obtain ⟨v, h1, h2⟩ := h f y List.mem_cons_self
    simp only [Dict.keys_cons, validFields, h1, h2]
    rw [ih (fun f' y' hm => h f' y' (List.mem_cons_of_mem _ hm))]
    rfl

theorem validate_image {W : World ι γ α φ} (fresh : Fresh ι) {x : Elem ι γ α φ} {d : Data ι α} (hfs : x.fields.keys = W.fieldNames x.cls)
    (h : Image W x "metadata" x.metadata d) : ∃ y, modelValidate W fresh x.cls d = .ok y ∧ Same y x := by
  obtain ⟨v, h1, h2⟩ := h.id
  obtain ⟨w, t, h3, h4, h5⟩ := h.created
  refine ⟨⟨x.cls, x.id, t, x.metadata, x.fields⟩, ?_, ⟨rfl, rfl, h5, rfl, rfl⟩⟩
  have hk : keysAllowed W x.cls d = true := by
    unfold keysAllowed
    rw [List.all_eq_true]
    intro k hk
    rcases h.keys k hk with e | e | e | e
    · subst e; simp
    · subst e; simp
    · subst e; simp
    · simp [e]
  have hi : idOf W fresh d = .ok x.id := by unfold idOf; rw [h1]; simp only [h2]
  have hc : createdOf W fresh d = .ok t := by unfold createdOf; rw [h3]; simp only [h4]
  have hf : validFields W x.cls d (W.fieldNames x.cls) = some x.fields := by
    rw [← hfs]; exact validFields_image h.fields
  have hm : metaOfData W d = x.metadata := by unfold metaOfData; rw [h.metadata]; rfl
  unfold modelValidate
  rw [if_pos hk, hi, hc, hf, hm]

/-- Calling the Node implementation on data whose tag was already taken out. -/
theorem untagged_image {W : World ι γ α φ} (fresh : Fresh ι) {x : Elem ι γ α φ} {mode : Mode} (g : Good W x mode) {d : Data ι α}
    (h : Image W x "metadata" x.metadata d) : ∃ y, nodeFromDictUntagged W fresh none x.cls d = .ok y ∧ Same y x := by
  have h1 : Image W x "metadata" x.metadata (restoreMeta none d) := by
    unfold restoreMeta
    rw [if_neg (by rw [has_of_image h]; simp)]
    exact image_delOther g.fields h (by decide) (free_base g).2
  have h2 : takeTag (restoreMeta none d) = ((restoreMeta none d).set "metadata" (.dict x.metadata), .none) := by
    unfold takeTag
    rw [h1.metadata]
    simp only []
    rw [Dict.del_of_notMem g.noTag, (Dict.get?_eq_none_iff _ _).2 g.noTag]
    rfl
  have h4 : Image W x "metadata" x.metadata (takeTag (restoreMeta none d)).1 := by
    rw [h2]
    have get : ∀ k v, k ≠ "metadata" → ((restoreMeta none d).set "metadata" v).get? k = (restoreMeta none d).get? k := by
      intro k v h2
      rw [Dict.get?_set, if_neg (Ne.symm h2)]
    refine ⟨Dict.set_wf h1.wf _ _, ?_, ?_, ?_, by rw [Dict.get?_set, if_pos rfl], ?_⟩
    · intro k hk
      rcases (Dict.mem_keys_set _ _ _ _).1 hk with e | e
      · exact Or.inr (Or.inr (Or.inl e))
      · exact h1.keys k e
    · rw [get _ _ (by decide)]; exact h1.id
    · rw [get _ _ (by decide)]; exact h1.created
    · intro f y hf
      have hmem : f ∈ W.fieldNames x.cls := by rw [← g.fields]; exact List.mem_map.2 ⟨(f, y), hf, rfl⟩
      rw [get f _ (fun e => (free_base g).1.2.2 (e ▸ hmem))]
      exact h1.fields f y hf
  unfold nodeFromDictUntagged applyContent
  exact validate_image fresh g.fields h4

/-! ### C76 -/

/-- The base class whose `from_dict` is called can find the class of `x`: it uses the `Element` implementation and both classes are importable at module level, or it uses the `Node` implementation and both are registered Node classes. -/
inductive Reachable (W : World ι γ α φ) (cs : List γ) (B c : γ) : Prop
  | viaImport (hB : W.impl B = .element) (h : TopLevel W B) (hc : TopLevel W c) (hi : W.impl c ≠ .custom)
  | viaRegistry (hB : W.impl B = .node) (hi : W.impl c = .node) (hBm : B ∈ cs) (hcm : c ∈ cs) (htop : ∀ c' ∈ cs, TopLevel W c')

/-- Reading data that holds what is kept of an element, with its tag in the metadata. -/
theorem read_image {W : World ι γ α φ} (fresh : Fresh ι) (cs : List γ) (B : γ) {x : Elem ι γ α φ} {mode : Mode} {kIn : Option String} (g : Good W x mode)
    {m : Dict String (MV α)} {d : Data ι α} (hdel : m.del "lion_class" = x.metadata) (hg : m.get? "lion_class" = some (.str (fullName W x.cls)))
    (h3 : Image W x "metadata" m (restoreMeta kIn d)) (hr : Reachable W cs B x.cls) :
    ∃ y, fromDict W (registerAll W cs) fresh B kIn d = .ok y ∧ Same y x := by
  obtain ⟨h4, h5⟩ := image_takeTag g hdel hg h3
  cases hr with
  | viaImport hB htB htc hi =>
    unfold fromDict
    rw [hB]
    simp only [elementFromDict]
    rw [h5]
    by_cases he : sameClass W B (.str (fullName W x.cls) : MV α) = true
    · rw [if_pos he]
      have : B = x.cls := by
        simp only [sameClass, Bool.or_eq_true] at he
        rcases he with he | he
        · exfalso
          rw [fullName_top htc] at he
          revert he
          cases W.module x.cls <;> simp
        · exact (fullName_inj htc htB (by simpa using he)).symm
      rw [this]
      exact validate_image fresh g.fields h4
    · rw [if_neg he]
      simp only [elementDispatch, importType_top htc, callTarget]
      cases him : W.impl x.cls with
      | element => exact validate_image fresh g.fields h4
      | node => exact untagged_image fresh g h4
      | custom => exact absurd him hi
  | viaRegistry hB hi hBm hcm htop =>
    unfold fromDict
    rw [hB]
    simp only [nodeFromDict, applyContent]
    rw [h5]
    by_cases he : sameClass W B (.str (fullName W x.cls) : MV α) = true
    · rw [if_pos he]
      have : B = x.cls := by
        simp only [sameClass, Bool.or_eq_true] at he
        rcases he with he | he
        · exfalso
          rw [fullName_top (htop _ hcm)] at he
          revert he
          cases W.module x.cls <;> simp
        · exact (fullName_inj (htop _ hcm) (htop _ hBm) (by simpa using he)).symm
      rw [this]
      exact validate_image fresh g.fields h4
    · rw [if_neg he]
      simp only [nodeDispatch]
      rw [C83_module_level W cs htop _ hcm]
      simp only []
      split
      · next e => rw [← e]; exact validate_image fresh g.fields h4
      · rw [if_neg (by rw [hi]; decide)]
        exact untagged_image fresh g h4

/-- **C76**. `B.from_dict(x.to_dict(mode, created_at_format, meta_key=kOut), meta_key=kIn)` gives an element of `x`'s own class with the same id, creation time, metadata — without the class tag — and fields, in every mode and format, for every metadata key that does not collide with a field and that the reading side knows. -/
theorem C76_round_trip (W : World ι γ α φ) (L : Laws W) (fresh : Fresh ι) (cs : List γ) (B : γ) (x : Elem ι γ α φ) (mode : Mode) (fmt : Option Fmt)
    (kOut kIn : Option String) (g : Good W x mode) (hf : FmtOk mode fmt) (hk : FreeKey W x.cls (outKey mode kOut)) (hh : Handled mode kOut kIn)
    (hr : Reachable W cs B x.cls) :
    ∃ d y, toDict W x mode fmt kOut = .ok d ∧ fromDict W (registerAll W cs) fresh B kIn d = .ok y ∧ Same y x := by
  obtain ⟨d, h1, h2⟩ := image_toDict L g fmt hf kOut hk
  have h3 := image_restore g hk hh h2
  obtain ⟨y, e1, e2⟩ := read_image fresh cs B (kIn := kIn) g (tagged_del g) (by unfold tagged; rw [Dict.get?_set, if_pos rfl]) h3 hr
  exact ⟨d, y, h1, e1, e2⟩

/-- **C76** (no tag left). Whatever the data, an element built by `from_dict` of an `Element` or `Node` implementation from data with dict metadata under "metadata" has no class tag in its metadata. -/
theorem C76_tag_removed (W : World ι γ α φ) (R : Registry γ) (fresh : Fresh ι) (B : γ) (d : Data ι α) (m : Dict String (MV α)) (hd : Dict.WF d) (hm : m.WF)
    (hget : d.get? "metadata" = some (.dict m)) (hB : W.impl B ≠ .custom)
    (hcustom : ∀ c d y, W.custom c d = .ok y → "lion_class" ∉ y.metadata.keys) (y : Elem ι γ α φ) (h : fromDict W R fresh B none d = .ok y) :
    "lion_class" ∉ y.metadata.keys := by
  have hnot : "lion_class" ∉ Dict.keys (m.del "lion_class") := by
    intro hh; exact ((Dict.mem_keys_del hm _ _).1 hh).1 rfl
  have hval : ∀ c (d' : Data ι α) (m' : Dict String (MV α)), d'.get? "metadata" = some (.dict m') → "lion_class" ∉ m'.keys →
      ∀ z, modelValidate W fresh c d' = .ok z → "lion_class" ∉ z.metadata.keys := by
    intro c d' m' h1 h2 z hz
    unfold modelValidate at hz
    split at hz
    · split at hz
      · cases hz
        show "lion_class" ∉ Dict.keys (metaOfData W d')
        unfold metaOfData; rw [h1]; exact h2
      · cases hz
      · cases hz
      · cases hz
    · cases hz
  have hres : ∀ (d' : Data ι α) (m' : Dict String (MV α)), Dict.WF d' → d'.get? "metadata" = some (.dict m') → restoreMeta none d' = d'.del "node_metadata" ∧ (d'.del "node_metadata").get? "metadata" = some (.dict m') := by
    intro d' m' wf hg
    have hhas : d'.has "metadata" = true := by unfold Dict.has; rw [hg]; rfl
    refine ⟨by unfold restoreMeta; rw [if_neg (by rw [hhas]; simp)], ?_⟩
    rw [Dict.get?_del wf, if_neg (by decide)]; exact hg
  have htk : ∀ (d' : Data ι α) (m' : Dict String (MV α)), Dict.WF d' → d'.get? "metadata" = some (.dict m') →
      (takeTag (restoreMeta none d')).1 = (d'.del "node_metadata").set "metadata" (.dict (m'.del "lion_class")) := by
    intro d' m' wf hg
    obtain ⟨e1, e2⟩ := hres d' m' wf hg
    rw [e1]; unfold takeTag; rw [e2]
  have hfin : ((d.del "node_metadata").set "metadata" (.dict (m.del "lion_class"))).get? "metadata" = some (.dict (m.del "lion_class")) := by
    rw [Dict.get?_set, if_pos rfl]
  have hun : ∀ c z, nodeFromDictUntagged W fresh none c ((d.del "node_metadata").set "metadata" (.dict (m.del "lion_class"))) = .ok z → "lion_class" ∉ z.metadata.keys := by
    intro c z hz
    unfold nodeFromDictUntagged applyContent at hz
    simp only [] at hz
    rw [htk _ _ (Dict.set_wf (Dict.del_wf hd _) _ _) hfin] at hz
    refine hval c _ ((m.del "lion_class").del "lion_class") (by rw [Dict.get?_set, if_pos rfl]) ?_ z hz
    rw [Dict.del_of_notMem hnot]; exact hnot
  unfold fromDict at h
  cases hi : W.impl B with
  | custom => exact absurd hi hB
  | element =>
    rw [hi] at h
    simp only [elementFromDict] at h
    rw [htk d m hd hget] at h
    split at h
    · exact hval _ _ _ hfin hnot y h
    · unfold elementDispatch at h
      split at h
      · split at h
        · unfold callTarget at h
          split at h
          · exact hval _ _ _ hfin hnot y h
          · exact hun _ y h
          · exact hcustom _ _ y h
        · cases h
        · cases h
      · cases h
      · cases h
  | node =>
    rw [hi] at h
    simp only [nodeFromDict, applyContent] at h
    rw [htk d m hd hget] at h
    split at h
    · exact hval _ _ _ hfin hnot y h
    · unfold nodeDispatch at h
      split at h
      · split at h
        · exact hval _ _ _ hfin hnot y h
        · split at h
          · exact hval _ _ _ hfin hnot y h
          · split at h
            · exact hcustom _ _ y h
            · exact hun _ y h
      · cases h
      · cases h

end Verif.Element
