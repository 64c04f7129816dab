import Verif.Model.ElementText
import Verif.Props.ElementSample
import Verif.Props.Json

/-!
# C234: an element written to JSON text is read back from it
-/

set_option linter.unusedSectionVars false
set_option linter.unusedSimpArgs false
set_option linter.unusedVariables false

namespace Verif.Element

open Json JsonDump

variable {ι γ α φ : Type} [DecidableEq ι] [DecidableEq γ]

/-- The JSON of a value is seen again as the conversion of C76 has it. -/
structure CodecLaws (W : World ι γ α φ) (C : Codec ι α) : Prop where
  text : ∀ s, W.viaJson (.str s) = .str s
  metaText : ∀ s, W.metaViaJson (.str s) = .str s
  value : ∀ b v, (∀ s, v ≠ .str s) → (∀ u, v ≠ .uuid u) → (∀ t, v ≠ .dt t) → (∀ d, v ≠ .dict d) → decV C (C.enc b v) = W.viaJson v
  metaValue : ∀ b v, (∀ s, v ≠ .str s) → decM C (C.encMeta b v) = W.metaViaJson v

/-- Two elements agree; the metadata has the same entries, in the same order unless the keys were sorted. -/
structure SameUpTo (sort : Bool) (y x : Elem ι γ α φ) : Prop where
  cls : y.cls = x.cls
  id : y.id = x.id
  created : SameTime y.created x.created
  entries : y.metadata.Perm x.metadata
  ordered : sort = false → y.metadata = x.metadata
  fields : y.fields = x.fields

theorem arrange_perm (b : Bool) (l : List (Str × J)) : (arrange b l).Perm l := by
  unfold arrange
  split
  · exact List.mergeSort_perm _ _
  · exact .refl _

theorem foldl_set_wf {ν : Type} (f : J → ν) : ∀ (l : List (Str × J)) (d : Dict String ν), (l.map (fun kv => String.ofList kv.1)).Nodup →
    (∀ kv ∈ l, String.ofList kv.1 ∉ d.keys) → l.foldl (fun d kv => d.set (String.ofList kv.1) (f kv.2)) d = d ++ l.map (fun kv => (String.ofList kv.1, f kv.2))
  | [], d, _, _ => by simp
  | kv :: l, d, hn, hd => by
    rw [List.map_cons, List.nodup_cons] at hn
    have h0 := hd kv List.mem_cons_self
    rw [List.foldl_cons, Dict.set_of_notMem _ h0, foldl_set_wf f l _ hn.2, List.append_assoc]
    · rfl
    · intro kv' h
      unfold Dict.keys
      rw [List.map_append, List.mem_append, not_or]
      refine ⟨hd kv' (List.mem_cons_of_mem _ h), ?_⟩
      intro e
      simp only [List.map_cons, List.map_nil, List.mem_singleton] at e
      exact hn.1 (List.mem_map.2 ⟨kv', h, e⟩)

/-- Reading the members of a written dict: the same entries, in the same order unless sorted. -/
theorem dictOf_arrange {ν ν' : Type} (b : Bool) (f : J → ν') (e : ν → J) (d : Dict String ν) (wf : d.WF) :
    (dictOf f (arrange b (d.map (fun kv => (kv.1.toList, e kv.2))))).Perm (d.map (fun kv => (kv.1, f (e kv.2)))) ∧
    (b = false → dictOf f (arrange b (d.map (fun kv => (kv.1.toList, e kv.2)))) = d.map (fun kv => (kv.1, f (e kv.2)))) ∧
    Dict.WF (dictOf f (arrange b (d.map (fun kv => (kv.1.toList, e kv.2))))) := by
  have hp := arrange_perm b (d.map (fun kv => (kv.1.toList, e kv.2)))
  have hkeys : ((d.map (fun kv => (kv.1.toList, e kv.2))).map (fun kv => String.ofList kv.1)) = d.keys := by
    rw [List.map_map]
    unfold Dict.keys
    apply List.map_congr_left
    intro kv _
    simp
  have hn : ((arrange b (d.map (fun kv => (kv.1.toList, e kv.2)))).map (fun kv => String.ofList kv.1)).Nodup := by
    rw [(hp.map _).nodup_iff, hkeys]; exact wf
  have hfold : dictOf f (arrange b (d.map (fun kv => (kv.1.toList, e kv.2)))) = (arrange b (d.map (fun kv => (kv.1.toList, e kv.2)))).map (fun kv => (String.ofList kv.1, f kv.2)) := by
    have := foldl_set_wf f _ [] hn (by intro kv _ h; cases h)
    rw [List.nil_append] at this
    exact this
  have hmap : (d.map (fun kv => (kv.1.toList, e kv.2))).map (fun kv => (String.ofList kv.1, f kv.2)) = d.map (fun kv => (kv.1, f (e kv.2))) := by
    rw [List.map_map]
    apply List.map_congr_left
    intro kv _
    simp
  rw [hfold]
  refine ⟨?_, ?_, ?_⟩
  · exact (hp.map _).trans (by rw [hmap])
  · rintro rfl
    exact hmap
  · unfold Dict.WF Dict.keys
    rw [List.map_map]
    exact hn

theorem get?_perm {ν : Type} {d e : Dict String ν} (wd : d.WF) (we : e.WF) (h : List.Perm d e) (k : String) : d.get? k = e.get? k := by
  cases hk : e.get? k with
  | none =>
    rw [Dict.get?_eq_none_iff] at hk ⊢
    intro hm; apply hk
    exact (h.map Prod.fst).mem_iff.1 hm
  | some v =>
    rw [Dict.get?_iff_mem wd]
    exact h.mem_iff.2 (Dict.mem_of_get? hk)

theorem del_perm {ν : Type} {d e : Dict String ν} (h : List.Perm d e) (wd : d.WF) (we : e.WF) (k : String) : List.Perm (d.del k) (e.del k) := by
  have del_filter : ∀ (d : Dict String ν), d.WF → d.del k = d.filter (fun kv => decide (kv.1 ≠ k)) := by
    intro d
    induction d with
    | nil => intro _; rfl
    | cons kv d ih =>
      intro wf
      obtain ⟨a, b⟩ := kv
      unfold Dict.WF at wf
      rw [Dict.keys_cons, List.nodup_cons] at wf
      by_cases hk : a = k
      · subst hk
        rw [show Dict.del ((a, b) :: d) a = d by simp [Dict.del], List.filter_cons_of_neg (by simp)]
        rw [List.filter_eq_self.2]
        intro kv hkv
        simp only [ne_eq, decide_not, Bool.not_eq_eq_eq_not, Bool.not_true, decide_eq_false_iff_not]
        intro e
        exact wf.1 (List.mem_map.2 ⟨kv, hkv, e⟩)
      · rw [show Dict.del ((a, b) :: d) k = (a, b) :: Dict.del d k by simp [Dict.del, hk], List.filter_cons_of_pos (by simp [hk]), ih wf.2]
  rw [del_filter d wd, del_filter e we]
  exact h.filter _

theorem decM_encM {W : World ι γ α φ} {C : Codec ι α} (L : CodecLaws W C) (b : Bool) (v : MV α) : decM C (encM C b v) = W.metaViaJson v := by
  cases v with
  | str s => simp [encM, decM, L.metaText]
  | none => exact L.metaValue b _ (fun s h => by cases h)
  | hash a => exact L.metaValue b _ (fun s h => by cases h)
  | unhash a => exact L.metaValue b _ (fun s h => by cases h)

/-- How a written value is read again: as the conversion of C76 has it, up to the order of the entries of a dict. -/
theorem decV_encV {W : World ι γ α φ} {C : Codec ι α} (L : CodecLaws W C) (b : Bool) (v : DV ι α) (hv : ∀ d, v = .dict d → d.WF) :
    (decV C (encV W C b v) = jsonValue W v) ∨ ∃ d m, v = .dict d ∧ decV C (encV W C b v) = .dict m ∧ m.WF ∧
      (m.Perm (d.map (fun kv => (kv.1, W.metaViaJson kv.2)))) ∧ (b = false → m = d.map (fun kv => (kv.1, W.metaViaJson kv.2))) := by
  cases v with
  | uuid u => exact .inl (by simp [encV, decV, jsonValue])
  | dt t => exact .inl (by simp [encV, decV, jsonValue])
  | str s => exact .inl (by simp [encV, decV, jsonValue, L.text])
  | num n => exact .inl (L.value b _ (fun s h => by cases h) (fun s h => by cases h) (fun s h => by cases h) (fun s h => by cases h))
  | none => exact .inl (L.value b _ (fun s h => by cases h) (fun s h => by cases h) (fun s h => by cases h) (fun s h => by cases h))
  | other a => exact .inl (L.value b _ (fun s h => by cases h) (fun s h => by cases h) (fun s h => by cases h) (fun s h => by cases h))
  | dict d =>
    right
    obtain ⟨h1, h2, h3⟩ := dictOf_arrange b (decM C) (encM C b) d (hv d rfl)
    simp only [decM_encM L] at h1 h2
    exact ⟨d, _, rfl, rfl, h3, h1, h2⟩

/-- Every dict among the dumped fields is one: no key twice. -/
def DictsOk (W : World ι γ α φ) (x : Elem ι γ α φ) : Prop := ∀ f y d, (f, y) ∈ x.fields → W.dump x.cls f y = .dict d → d.WF

/-- Validating a field does not depend on the order of the entries of a dict (dicts are compared without their order). -/
def OrderFree (W : World ι γ α φ) : Prop := ∀ c f (m m' : Dict String (MV α)), m.Perm m' → W.valid c f (.dict m) = W.valid c f (.dict m')

/-- C234.  `B.from_json(x.to_json(pretty=..., sort_keys=...))`, with any white space around the text: an element of `x`'s own class with the same id, creation
time, metadata entries (in the same order unless keys are sorted) and fields. -/
theorem C234_text_round_trip (W : World ι γ α φ) (C : Codec ι α) (L : Laws W) (LC : CodecLaws W C) (fresh : Fresh ι) (cs : List γ) (B : γ) (x : Elem ι γ α φ)
    (pretty sort : Bool) (w w' : Str) (hw : AllWs w) (hw' : AllWs w') (g : Good W x .json) (hd : DictsOk W x) (ho : sort = true → OrderFree W)
    (hr : Reachable W cs B x.cls) :
    ∃ y, fromJson W C (registerAll W cs) fresh B none (w ++ (toJson W C x pretty sort ++ w')) = .ok y ∧ SameUpTo sort y x := by
  obtain ⟨wf, hk, hid, hc, hm, hf⟩ := raw_get W g
  obtain ⟨d1, d2, d3⟩ := dictOf_arrange sort (decV C) (encV W C sort) (rawDict W x) wf
  have hload : fromJson W C (registerAll W cs) fresh B none (w ++ (toJson W C x pretty sort ++ w')) =
      fromDict W (registerAll W cs) fresh B none (dictOf (decV C) (arrange sort ((rawDict W x).map (fun kv => (kv.1.toList, encV W C sort kv.2))))) := by
    unfold fromJson toJson
    rw [C218_round_trip pretty _ w w' hw hw']
  rw [hload]
  generalize hD : dictOf (decV C) (arrange sort ((rawDict W x).map (fun kv => (kv.1.toList, encV W C sort kv.2)))) = D at d1 d2 d3
  clear hload hD d2
  have wf2 : Dict.WF ((rawDict W x).map (fun kv => (kv.1, decV C (encV W C sort kv.2)))) := by unfold Dict.WF; rw [keys_map_val (fun v => decV C (encV W C sort v))]; exact wf
  have hget : ∀ k, D.get? k = ((rawDict W x).get? k).map (fun v => decV C (encV W C sort v)) := fun k => by
    rw [get?_perm d3 wf2 d1 k]; exact get?_map_val (fun v => decV C (encV W C sort v)) _ _
  have htw : (tagged W x).WF := Dict.set_wf g.metaWF _ _
  -- the metadata as read
  obtain ⟨m, hmD, mwf, mperm, mord⟩ : ∃ m, D.get? "metadata" = some (.dict m) ∧ m.WF ∧ m.Perm (tagged W x) ∧ (sort = false → m = tagged W x) := by
    obtain ⟨e1, e2, e3⟩ := dictOf_arrange sort (decM C) (encM C sort) (tagged W x) htw
    simp only [decM_encM LC, tagged_json L g (by decide)] at e1 e2
    refine ⟨_, ?_, e3, e1, e2⟩
    rw [hget, hm]; rfl
  have htag : (tagged W x).get? "lion_class" = some (.str (fullName W x.cls)) := by unfold tagged; rw [Dict.get?_set, if_pos rfl]
  have hdel : (m.del "lion_class").Perm x.metadata := by
    have := del_perm mperm mwf htw "lion_class"
    rwa [tagged_del g] at this
  have g' : Good W { x with metadata := m.del "lion_class" } .json := by
    refine ⟨g.aware, Dict.del_wf mwf _, ?_, g.fieldsWF, g.fields, g.names, g.values, ?_⟩
    · intro h; exact ((Dict.mem_keys_del mwf _ _).1 h).1 rfl
    · intro h k v hv; exact g.metaJson h k v (hdel.mem_iff.1 hv)
  have hkeys : ∀ k ∈ Dict.keys D, k = "id" ∨ k = "created_at" ∨ k = "metadata" ∨ k ∈ W.fieldNames x.cls := by
    intro k h
    have h2 := (d1.map Prod.fst).mem_iff.1 h
    have h3 : k ∈ Dict.keys ((rawDict W x).map (fun kv => (kv.1, decV C (encV W C sort kv.2)))) := h2
    rw [keys_map_val (fun v => decV C (encV W C sort v)), hk] at h3
    simpa using h3
  have himg : Image W { x with metadata := m.del "lion_class" } (outKey .json none) m D := by
    refine ⟨d3, hkeys, ⟨.str (W.showId x.id), by rw [hget, hid]; rfl, L.uuid _⟩,
      ⟨.str (W.iso x.created), x.created, by rw [hget, hc]; rfl, ?_, sameTime_refl g.aware⟩, hmD, ?_⟩
    · simp only [timeArg, coerceCreatedAt, coerceStr, L.isoNotFloat, coerceIso, L.iso]
    · intro f y h
      refine ⟨decV C (encV W C sort (W.dump x.cls f y)), by rw [hget, hf f y h]; rfl, ?_⟩
      have hval := g.values f y h
      simp only [written] at hval
      rcases decV_encV LC sort (W.dump x.cls f y) (fun d e => hd f y d h e) with e | ⟨d, m', e1, e2, e3, e4, e5⟩
      · rw [e]; exact hval
      · rw [e2]
        rw [e1] at hval
        simp only [jsonValue] at hval
        rw [← hval]
        cases hs : sort with
        | false => rw [e5 hs]
        | true => exact ho hs _ _ _ _ e4
  have hfree : FreeKey W x.cls (outKey .json none) := (free_base g).1
  have h3 := image_restore (kIn := none) g' hfree (.inr ⟨rfl, .inl rfl⟩) himg
  obtain ⟨y, e1, e2⟩ := read_image fresh cs B (kIn := none) g' rfl (by rw [get?_perm mwf htw mperm]; exact htag) h3 hr
  refine ⟨y, e1, ⟨e2.cls, e2.id, e2.created, ?_, ?_, e2.fields⟩⟩
  · rw [e2.metadata]; exact hdel
  · intro hs
    rw [e2.metadata, mord hs]
    exact tagged_del g

/-- C234.  Reading the unsorted text is the same as reading the dict of `to_dict(mode="json")`: same result or same exception, for every element and every class
that reads it, also when the element cannot be restored. -/
theorem C234_text_is_dict (W : World ι γ α φ) (C : Codec ι α) (LC : CodecLaws W C) (R : Registry γ) (fresh : Fresh ι) (B : γ) (k : Option String)
    (x : Elem ι γ α φ) (pretty : Bool) (w w' : Str) (hw : AllWs w) (hw' : AllWs w') (hm : (tagged W x).WF) (hd : DictsOk W x) (hraw : Dict.WF (rawDict W x)) :
    ∃ d, toDict W x .json none none = .ok d ∧ fromJson W C R fresh B k (w ++ (toJson W C x pretty false ++ w')) = fromDict W R fresh B k d := by
  refine ⟨jsonDict W (rawDict W x), rfl, ?_⟩
  obtain ⟨_, d2, _⟩ := dictOf_arrange false (decV C) (encV W C false) (rawDict W x) hraw
  unfold fromJson toJson
  rw [C218_round_trip pretty _ w w' hw hw']
  simp only
  rw [d2 rfl]
  congr 1
  unfold jsonDict
  apply List.map_congr_left
  intro kv hkv
  have hwf : ∀ d, kv.2 = .dict d → d.WF := by
    intro d e
    unfold rawDict at hkv
    simp only [List.mem_cons] at hkv
    rcases hkv with h | h | h | h
    · rw [h] at e; cases e
    · rw [h] at e; cases e
    · rw [h] at e; cases e; exact hm
    · unfold dumpFields at h
      obtain ⟨fy, h1, h2⟩ := List.mem_map.1 h
      rw [← h2] at e
      exact hd fy.1 fy.2 d h1 e
  rcases decV_encV LC false kv.2 hwf with e | ⟨d, m, e1, e2, _, _, e5⟩
  · rw [e]
  · rw [e2, e5 rfl, e1]; rfl

/-- C234.  Text that is not JSON raises ValueError, JSON other than an object AttributeError. -/
theorem C234_errors (W : World ι γ α φ) (C : Codec ι α) (R : Registry γ) (fresh : Fresh ι) (B : γ) (k : Option String) (s : Str) :
    ((∀ v, ¬ ∃ w t w', AllWs w ∧ Doc v t ∧ AllWs w' ∧ s = w ++ (t ++ w')) → fromJson W C R fresh B k s = .error .valueError) ∧
    (∀ v, (∃ w t w', AllWs w ∧ Doc v t ∧ AllWs w' ∧ s = w ++ (t ++ w')) → (∀ l, v ≠ .obj l) → fromJson W C R fresh B k s = .error .attributeError) := by
  constructor
  · intro h
    have : loads s = none := by
      cases hl : loads s with
      | none => rfl
      | some v => exact absurd ((C218_grammar s v).1 hl) (h v)
    unfold fromJson; rw [this]
  · intro v h hv
    have := (C218_grammar s v).2 h
    unfold fromJson; rw [this]
    cases v with
    | obj l => exact absurd rfl (hv l)
    | token t h => rfl
    | str s => rfl
    | arr l => rfl

/-! ### A concrete codec -/

/-- The other values are natural numbers, written as lists of that many empty texts inside lists that tell the kinds apart. -/
def units (n : Nat) : List J := List.replicate n (.str [])

def sampleCodec : Codec Nat Nat where
  enc _ v := match v with
    | .other n => .arr (.arr [] :: units n)
    | _ => .arr []
  dec v := match v with
    | .arr (_ :: l) => .other l.length
    | _ => .none
  encMeta _ v := match v with
    | .hash n => .arr (.arr [] :: units n)
    | .unhash n => .arr (.obj [] :: units n)
    | _ => .arr []
  decMeta v := match v with
    | .arr (.arr _ :: l) => .hash l.length
    | .arr (.obj _ :: l) => .unhash l.length
    | _ => .none

/-- The sample classes of C76, numbers in fields excepted: they become null. -/
def sampleText : World Nat K Nat (DV Nat Nat) := { sample with viaJson := fun v => match v with
  | .num _ => .none
  | v => v }

theorem sampleText_codec : CodecLaws sampleText sampleCodec where
  text _ := rfl
  metaText _ := rfl
  value b v h1 h2 h3 h4 := by
    cases v with
    | str s => exact absurd rfl (h1 s)
    | uuid u => exact absurd rfl (h2 u)
    | dt t => exact absurd rfl (h3 t)
    | dict d => exact absurd rfl (h4 d)
    | num n => rfl
    | none => rfl
    | other n => simp [decV, sampleCodec, sampleText, units]
  metaValue b v h := by
    cases v with
    | str s => exact absurd rfl (h s)
    | none => rfl
    | hash n => simp [decM, sampleCodec, sampleText, sample, units]
    | unhash n => simp [decM, sampleCodec, sampleText, sample, units]

/-- The hypotheses of C234 are met by the Node of C76's example, unsorted. -/
example : Laws sampleText ∧ CodecLaws sampleText sampleCodec ∧ Good sampleText sampleNode .json ∧ DictsOk sampleText sampleNode ∧
    Reachable sampleText [.node, .mX, .kX] .node sampleNode.cls := by
  have top : ∀ c ∈ [K.element, K.e, K.node, K.mX, K.kX], TopLevel sampleText c := fun c hc => ⟨(sample_top c hc).1, (sample_top c hc).2, (sample_top c hc).3, (sample_top c hc).4, (sample_top c hc).5⟩
  refine ⟨⟨sample_laws.1, sample_laws.2, sample_laws.3, sample_laws.4, sample_laws.5⟩, sampleText_codec, ⟨rfl, by decide, by decide, by decide, rfl, by decide, ?_, ?_⟩, ?_, ?_⟩
  · intro f y h
    simp only [sampleNode, List.mem_cons, List.not_mem_nil, or_false, Prod.mk.injEq] at h
    obtain ⟨rfl, rfl⟩ := h
    rfl
  · intro _ k v _; rfl
  · intro f y d h
    simp only [sampleNode, List.mem_cons, List.not_mem_nil, or_false, Prod.mk.injEq] at h
    obtain ⟨rfl, rfl⟩ := h
    intro e; cases e
  · exact .viaRegistry rfl rfl (by decide) (by decide) (fun c hc => top c (by revert hc; cases c <;> decide))

end Verif.Element
