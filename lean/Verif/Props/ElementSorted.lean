import Verif.Props.ElementText
import Verif.Props.JsonDump

/-!
# C320: `to_json(sort_keys=True)` does not depend on the order of dicts
-/

set_option linter.unusedSectionVars false
set_option linter.unusedSimpArgs false
set_option linter.unusedVariables false

namespace Verif.Element

open Json JsonDump

variable {ι γ α φ : Type} [DecidableEq ι] [DecidableEq γ]

/-- Specification: two values (or absent ones) are equal in Python: dicts are compared without their order. -/
def SameValue (a b : Option (DV ι α)) : Prop :=
  a = b ∨ ∃ d e : Dict String (MV α), a = some (.dict d) ∧ b = some (.dict e) ∧ d.WF ∧ e.WF ∧ ∀ k, d.get? k = e.get? k

/-- Specification: what the field `k` of an element is dumped to, if it has such a field. -/
def dumped (W : World ι γ α φ) (x : Elem ι γ α φ) (k : String) : Option (DV ι α) := (x.fields.get? k).map (W.dump x.cls k)

/-- Specification: two elements of one class with the same id, creation time, metadata entries and field values, in any order. -/
structure SameContent (W : World ι γ α φ) (x y : Elem ι γ α φ) : Prop where
  cls : x.cls = y.cls
  id : x.id = y.id
  created : x.created = y.created
  entries : ∀ k, x.metadata.get? k = y.metadata.get? k
  fields : ∀ k, SameValue (dumped W x k) (dumped W y k)

/-- Specification: the element has no name twice, neither among its metadata nor among its fields. -/
structure Proper (x : Elem ι γ α φ) : Prop where
  metadata : x.metadata.WF
  fields : Dict.WF (("id", ()) :: ("created_at", ()) :: ("metadata", ()) :: x.fields.map (fun kv => (kv.1, ())))

/-- Specification: ascending keys. -/
def Ascending (l : List (Str × J)) : Prop := l.Pairwise (fun a b => leStr a.1 b.1 = true)

theorem arrange_ascending (l : List (Str × J)) : Ascending (arrange true l) := by
  have h := List.pairwise_mergeSort (le := fun a b : Str × J => leStr a.1 b.1) (fun a b c h1 h2 => leStr_trans _ _ _ h1 h2)
    (fun a b => by rcases leStr_total a.1 b.1 with h | h <;> simp [h]) l
  exact h

theorem same_member {l : List (Str × J)} (hn : (l.map Prod.fst).Nodup) {a b : Str × J} (ha : a ∈ l) (hb : b ∈ l) (hk : a.1 = b.1) : a = b := by
  induction l with
  | nil => cases ha
  | cons c l ih =>
    rw [List.map_cons, List.nodup_cons] at hn
    rcases List.mem_cons.mp ha with ea | ha <;> rcases List.mem_cons.mp hb with eb | hb
    · rw [ea, eb]
    · exact absurd (List.mem_map.2 ⟨b, hb, by rw [← hk, ea]⟩) hn.1
    · exact absurd (List.mem_map.2 ⟨a, ha, by rw [hk, eb]⟩) hn.1
    · exact ih hn.2 ha hb

theorem arrange_eq {l l' : List (Str × J)} (hp : l.Perm l') (hn : (l.map Prod.fst).Nodup) : arrange true l = arrange true l' := by
  have p1 := arrange_perm true l
  have p2 := arrange_perm true l'
  have a1 : (arrange true l).Pairwise (fun a b : Str × J => leStr a.1 b.1 = true) := arrange_ascending l
  have a2 : (arrange true l').Pairwise (fun a b : Str × J => leStr a.1 b.1 = true) := arrange_ascending l'
  refine List.Perm.eq_of_pairwise ?_ a1 a2 (p1.trans (hp.trans p2.symm))
  intro a b ha hb h1 h2
  exact same_member hn (p1.mem_iff.1 ha) (hp.mem_iff.2 (p2.mem_iff.1 hb)) (leStr_antisymm _ _ h1 h2)

theorem toList_inj {a b : String} (h : a.toList = b.toList) : a = b := String.toList_injective h

/-- The written entries of a dict. -/
abbrev members {ν : Type} (f : ν → J) (d : Dict String ν) : List (Str × J) := d.map (fun kv => (kv.1.toList, f kv.2))

theorem wr_nodup {ν : Type} (f : ν → J) {d : Dict String ν} (wf : d.WF) : ((members f d).map Prod.fst).Nodup := by
  rw [List.map_map]
  have : (Prod.fst ∘ fun kv : String × ν => (kv.1.toList, f kv.2)) = (fun k : String => k.toList) ∘ Prod.fst := rfl
  rw [this, ← List.map_map]
  exact List.Pairwise.map _ (fun a b h e => h (toList_inj e)) wf

theorem wr_mem {ν : Type} (f : ν → J) {d : Dict String ν} (wf : d.WF) (k : Str) (j : J) :
    (k, j) ∈ members f d ↔ (d.get? (String.ofList k)).map f = some j := by
  rw [List.mem_map, Option.map_eq_some_iff]
  constructor
  · rintro ⟨⟨a, v⟩, h, e⟩
    cases e
    refine ⟨v, ?_, rfl⟩
    have := Dict.get?_of_mem wf h
    simpa using this
  · rintro ⟨v, h, rfl⟩
    exact ⟨(String.ofList k, v), Dict.mem_of_get? h, by simp⟩

theorem nodup_of_fst {l : List (Str × J)} (h : (l.map Prod.fst).Nodup) : l.Nodup := by
  induction l with
  | nil => exact .nil
  | cons a l ih =>
    rw [List.map_cons, List.nodup_cons] at h
    exact List.nodup_cons.2 ⟨fun m => h.1 (List.mem_map.2 ⟨a, m, rfl⟩), ih h.2⟩

theorem wr_perm {ν μ : Type} (f : ν → J) (g : μ → J) {d : Dict String ν} {e : Dict String μ} (wd : d.WF) (we : e.WF)
    (h : ∀ k, (d.get? k).map f = (e.get? k).map g) : (members f d).Perm (members g e) := by
  refine (List.perm_ext_iff_of_nodup (nodup_of_fst (wr_nodup f wd)) (nodup_of_fst (wr_nodup g we))).2 ?_
  rintro ⟨k, j⟩
  rw [wr_mem f wd, wr_mem g we, h]

theorem encDict_eq (W : World ι γ α φ) (C : Codec ι α) {d e : Dict String (MV α)} (wd : d.WF) (we : e.WF) (h : ∀ k, d.get? k = e.get? k) :
    encV W C true (.dict d) = encV W C true (.dict e) := by
  simp only [encV]
  rw [arrange_eq (wr_perm (encM C true) (encM C true) wd we (fun k => by rw [h k])) (wr_nodup _ wd)]

theorem sameValue_enc (W : World ι γ α φ) (C : Codec ι α) {a b : Option (DV ι α)} (h : SameValue a b) : a.map (encV W C true) = b.map (encV W C true) := by
  rcases h with rfl | ⟨d, e, rfl, rfl, wd, we, h⟩
  · rfl
  · simp only [Option.map_some]
    rw [encDict_eq W C wd we h]

theorem raw_wf (W : World ι γ α φ) {x : Elem ι γ α φ} (p : Proper x) : Dict.WF (rawDict W x) := by
  have := p.fields
  unfold Dict.WF Dict.keys at this ⊢
  simpa [rawDict, dumpFields, List.map_map, Function.comp_def] using this

theorem get?_dumpAll (W : World ι γ α φ) (c : γ) (fs : Dict String φ) (k : String) : Dict.get? (dumpFields W c fs) k = (fs.get? k).map (W.dump c k) := by
  induction fs with
  | nil => rfl
  | cons kv fs ih =>
    obtain ⟨a, b⟩ := kv
    show Dict.get? ((a, W.dump c a b) :: dumpFields W c fs) k = _
    rw [Dict.get?_cons, Dict.get?_cons]
    by_cases h : a = k
    · rw [if_pos h, if_pos h, h]; rfl
    · rw [if_neg h, if_neg h]; exact ih

theorem raw_same (W : World ι γ α φ) (C : Codec ι α) {x y : Elem ι γ α φ} (px : Proper x) (py : Proper y) (h : SameContent W x y) (k : String) :
    (Dict.get? (rawDict W x) k).map (encV W C true) = (Dict.get? (rawDict W y) k).map (encV W C true) := by
  simp only [rawDict, Dict.get?_cons]
  by_cases c1 : "id" = k
  · rw [if_pos c1, if_pos c1, h.id]
  · rw [if_neg c1, if_neg c1]
    by_cases c2 : "created_at" = k
    · rw [if_pos c2, if_pos c2, h.created]
    · rw [if_neg c2, if_neg c2]
      by_cases c3 : "metadata" = k
      · rw [if_pos c3, if_pos c3]
        simp only [Option.map_some]
        rw [encDict_eq W C (Dict.set_wf px.metadata _ _) (Dict.set_wf py.metadata _ _) (fun k' => ?_)]
        rw [Dict.get?_set, Dict.get?_set, h.entries k', h.cls]
      · rw [if_neg c3, if_neg c3, get?_dumpAll, get?_dumpAll]
        exact sameValue_enc W C (h.fields k)

/-- **C320.**  With `sort_keys=True`, elements with the same content have the same text, whatever the order of their metadata entries, of their fields and of the entries of dicts among the
values. -/
theorem C320_canonical (W : World ι γ α φ) (C : Codec ι α) {x y : Elem ι γ α φ} (px : Proper x) (py : Proper y) (h : SameContent W x y) (pretty : Bool) :
    toJson W C x pretty true = toJson W C y pretty true := by
  unfold toJson
  rw [arrange_eq (wr_perm (encV W C true) (encV W C true) (raw_wf W px) (raw_wf W py) (raw_same W C px py h)) (wr_nodup _ (raw_wf W px))]

/-- **C320.**  With `sort_keys=True` the text is that of an object with ascending keys that has the members of the element, and so is the metadata in it. -/
theorem C320_sorted (W : World ι γ α φ) (C : Codec ι α) (x : Elem ι γ α φ) (pretty : Bool) :
    ∃ l m, toJson W C x pretty true = write pretty 0 (.obj l) ∧ Ascending l ∧
      l.Perm (("id".toList, .str (W.showId x.id)) :: ("created_at".toList, .str (W.iso x.created)) :: ("metadata".toList, .obj m) ::
        x.fields.map (fun kv => (kv.1.toList, encV W C true (W.dump x.cls kv.1 kv.2)))) ∧
      Ascending m ∧ m.Perm ((x.metadata.set "lion_class" (.str (fullName W x.cls))).map (fun kv => (kv.1.toList, encM C true kv.2))) := by
  refine ⟨_, _, rfl, arrange_ascending _, (arrange_perm true _).trans ?_, arrange_ascending _, arrange_perm true _⟩
  simp only [rawDict, dumpFields, List.map_cons, List.map_map, encV]
  exact .refl _

/-- **C320.**  Without `sort_keys` the members are written in this order: id, creation time, metadata, then the fields in their order; the metadata entries are in their own order. -/
theorem C320_unsorted (W : World ι γ α φ) (C : Codec ι α) (x : Elem ι γ α φ) (pretty : Bool) :
    toJson W C x pretty false = write pretty 0 (.obj (("id".toList, .str (W.showId x.id)) :: ("created_at".toList, .str (W.iso x.created)) ::
      ("metadata".toList, .obj ((x.metadata.set "lion_class" (.str (fullName W x.cls))).map (fun kv => (kv.1.toList, encM C false kv.2)))) ::
        x.fields.map (fun kv => (kv.1.toList, encV W C false (W.dump x.cls kv.1 kv.2))))) := by
  simp [toJson, rawDict, dumpFields, encV, arrange, Function.comp_def]

/-- **C320.**  Different contents give different texts, sorted or not: elements as in C234 with the same text have the same class, id, creation time, metadata entries and fields. -/
theorem C320_separates (W : World ι γ α φ) (C : Codec ι α) (L : Laws W) (LC : CodecLaws W C) (fresh : Fresh ι) (cs : List γ) (B : γ) {x y : Elem ι γ α φ} (pretty sort : Bool)
    (gx : Good W x .json) (gy : Good W y .json) (dx : DictsOk W x) (dy : DictsOk W y) (ho : sort = true → OrderFree W) (rx : Reachable W cs B x.cls) (ry : Reachable W cs B y.cls)
    (e : toJson W C x pretty sort = toJson W C y pretty sort) :
    x.cls = y.cls ∧ x.id = y.id ∧ SameTime x.created y.created ∧ (∀ k, x.metadata.get? k = y.metadata.get? k) ∧ x.fields = y.fields := by
  obtain ⟨u, hu, su⟩ := C234_text_round_trip W C L LC fresh cs B x pretty sort [] [] (by intro c h; cases h) (by intro c h; cases h) gx dx ho rx
  obtain ⟨v, hv, sv⟩ := C234_text_round_trip W C L LC fresh cs B y pretty sort [] [] (by intro c h; cases h) (by intro c h; cases h) gy dy ho ry
  rw [e, hv] at hu
  cases hu
  refine ⟨su.cls.symm.trans sv.cls, su.id.symm.trans sv.id, ?_, fun k => ?_, su.fields.symm.trans sv.fields⟩
  · obtain ⟨a, b, h1, h2, h3⟩ := su.created
    obtain ⟨a', b', h1', h2', h3'⟩ := sv.created
    rw [h1] at h1'; cases h1'
    exact ⟨b, b', h2, h2', by omega⟩
  · exact get?_perm gx.metaWF gy.metaWF (su.entries.symm.trans sv.entries) k

/-- The node of C76's example with its metadata entries exchanged. -/
def sampleSwapped : Elem Nat K Nat (DV Nat Nat) := { sampleNode with metadata := [("b", .none), ("a", .hash 1)] }

/-- The hypotheses are met by two elements with different unsorted texts. -/
example : Proper sampleNode ∧ Proper sampleSwapped ∧ SameContent sampleText sampleNode sampleSwapped ∧
    toJson sampleText sampleCodec sampleNode false false ≠ toJson sampleText sampleCodec sampleSwapped false false := by
  refine ⟨⟨by decide, by decide⟩, ⟨by decide, by decide⟩, ⟨rfl, rfl, rfl, ?_, fun k => .inl rfl⟩, ?_⟩
  · intro k
    show Dict.get? [("a", MV.hash 1), ("b", MV.none)] k = Dict.get? [("b", MV.none), ("a", MV.hash 1)] k
    simp only [Dict.get?_cons, Dict.get?_nil]
    by_cases c : "a" = k
    · subst c; rfl
    · by_cases d : "b" = k
      · subst d; rfl
      · simp [c, d]
  · decide +kernel

end Verif.Element
