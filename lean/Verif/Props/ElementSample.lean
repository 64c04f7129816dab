import Verif.Props.ElementSerial

/-!
# C76, C77, C130, C131: concrete classes, and what fails
-/

set_option linter.unusedSectionVars false
set_option linter.unusedSimpArgs false
set_option linter.unusedVariables false

namespace Verif.Element

variable {ι γ α φ : Type} [DecidableEq ι] [DecidableEq γ]

instance instDecWF {ν : Type} (d : Dict String ν) : Decidable d.WF := inferInstanceAs (Decidable (List.Nodup _))
instance instDecFree (W : World ι γ α φ) (c : γ) (k : String) : Decidable (FreeKey W c k) := inferInstanceAs (Decidable (_ ∧ _ ∧ _))
instance instDecClaims (W : World ι γ α φ) (k : List Char) (c : γ) : Decidable (Claims W k c) := inferInstanceAs (Decidable (_ ∨ _))

/-! ### A concrete world -/

/-- Classes of two modules `m` and `k`: `Element`, an `Element` subclass `E` in `m`, `Node`, Node subclasses `X` in `m` and in `k`, Node subclasses `X` nested in `A` and in `B` of module `m`, and an `Element` subclass `D` nested in `A`. -/
inductive K where
  | element
  | e
  | node
  | mX
  | kX
  | mAX
  | mBX
  | mAD
  deriving DecidableEq

def K.module : K → List Char
  | .kX => ['k']
  | _ => ['m']

def K.name : K → List Char
  | .element => ['E', 'l']
  | .e => ['E']
  | .node => ['N']
  | .mAD => ['D']
  | _ => ['X']

def K.qualname : K → List Char
  | .mAX => ['A', '.', 'X']
  | .mBX => ['B', '.', 'X']
  | .mAD => ['A', '.', 'D']
  | c => c.name

def K.attr (m n : List Char) : Option (Attr K) :=
  if m = ['m'] then
    if n = ['E', 'l'] then some (.cls .element) else if n = ['E'] then some (.cls .e) else if n = ['N'] then some (.cls .node)
    else if n = ['X'] then some (.cls .mX) else if n = ['A'] then some .type else if n = ['B'] then some .type else none
  else if m = ['k'] then if n = ['X'] then some (.cls .kX) else none
  else none

def K.impl : K → Impl
  | .element => .element
  | .e => .element
  | .mAD => .element
  | _ => .node

def K.fieldNames : K → List String
  | .element => []
  | .e => []
  | .mAD => []
  | _ => ["content"]

/-- An integer as text. -/
def encInt (i : Int) : List Char := if 0 ≤ i then List.replicate i.toNat 'p' else List.replicate (-i).toNat 'n'

def decInt : List Char → Int
  | 'n' :: l => -(l.length + 1 : Nat)
  | l => l.length

theorem dec_enc (i : Int) : decInt (encInt i) = i := by
  unfold encInt
  split
  · next h =>
    have : i = (i.toNat : Int) := by omega
    generalize i.toNat = n at this ⊢
    subst this
    cases n with
    | zero => rfl
    | succ n => simp [List.replicate_succ, decInt]
  · next h =>
    have : ∃ n : Nat, (-i).toNat = n + 1 ∧ i = -((n + 1 : Nat) : Int) := ⟨(-i).toNat - 1, by omega, by omega⟩
    obtain ⟨n, h1, h2⟩ := this
    rw [h1, h2, List.replicate_succ]
    simp [decInt]

theorem enc_noComma (i : Int) : ∀ c ∈ encInt i, (c != ',') = true := by
  intro c hc
  unfold encInt at hc
  split at hc
  · rw [List.eq_of_mem_replicate hc]; decide
  · rw [List.eq_of_mem_replicate hc]; decide

def encZone : Option Int → List Char
  | none => []
  | some o => 'z' :: encInt o

def decZone : List Char → Option Int
  | 'z' :: l => some (decInt l)
  | _ => none

theorem decZone_enc (o : Option Int) : decZone (encZone o) = o := by
  cases o with
  | none => rfl
  | some o => simp [encZone, decZone, dec_enc]

def encTime (t : DateTime) : List Char := encInt t.wall ++ ',' :: encZone t.offset

def decTime (s : List Char) : Option DateTime :=
  some ⟨decInt (s.takeWhile (fun c => c != ',')), decZone ((s.dropWhile (fun c => c != ',')).drop 1)⟩

theorem decTime_enc (t : DateTime) : decTime (encTime t) = some t := by
  unfold decTime encTime
  rw [List.takeWhile_append_of_pos (enc_noComma _), List.dropWhile_append_of_pos (enc_noComma _)]
  simp [List.takeWhile_cons, List.dropWhile_cons, dec_enc, decZone_enc]

def stampOf (t : DateTime) : Num := .fin ((t.wall - t.offset.getD 0 : Int) : Rat)

/-- Ids and other values are natural numbers; every class adding a field has the field "content", read back as it was written. -/
def sample : World Nat K Nat (DV Nat Nat) where
  module := K.module
  qualname := K.qualname
  name := K.name
  attr := K.attr
  impl := K.impl
  fieldNames := K.fieldNames
  dump _ _ v := v
  valid _ _ v := some v
  default _ _ := some .none
  viaJson v := v
  metaViaJson v := v
  metaOf _ := []
  custom _ _ := .error .valueError
  showId n := List.replicate n 'i'
  parseId s := some s.length
  time := { parseFloat := fun _ => none, fromIso := decTime, fromTs := fun q => .ok q.floor }
  iso := encTime
  timestamp := stampOf

theorem sample_laws : Laws sample where
  uuid u := by simp [sample]
  isoNotFloat _ := rfl
  iso t := decTime_enc t
  stamp w o := ⟨((w - o : Int) : Rat), rfl, by show Except.ok ((w - o : Int) : Rat).floor = _; rw [Rat.floor_intCast]⟩
  text _ := rfl

theorem sample_top : ∀ c ∈ [K.element, K.e, K.node, K.mX, K.kX], TopLevel sample c := by
  intro c hc
  simp only [List.mem_cons, List.not_mem_nil, or_false] at hc
  rcases hc with rfl | rfl | rfl | rfl | rfl <;> exact ⟨rfl, by decide, by decide, by decide, by decide⟩

/-- A Node of the class `X` of module `k`, with metadata and content. -/
def sampleNode : Elem Nat K Nat (DV Nat Nat) := ⟨.kX, 3, ⟨-5, some 2⟩, [("a", .hash 1), ("b", .none)], [("content", .other 4)]⟩

/-- The hypotheses of C76 are met, in every mode, by a Node subclass whose short name is shared by another, with base `Element` or `Node` and a custom metadata key. -/
example (mode : Mode) : Good sample sampleNode mode ∧ FmtOk mode (some .timestamp) ∧ FreeKey sample sampleNode.cls (outKey mode (some "meta")) ∧
    Handled mode (some "meta") (some "meta") ∧ Reachable sample [.node, .mX, .kX] .element sampleNode.cls ∧
    Reachable sample [.node, .mX, .kX] .node sampleNode.cls := by
  refine ⟨⟨rfl, by decide, by decide, by decide, rfl, by decide, ?_, ?_⟩, ?_, ?_, ?_, ?_, ?_⟩
  · intro f y h
    simp only [sampleNode, List.mem_cons, List.not_mem_nil, or_false, Prod.mk.injEq] at h
    obtain ⟨rfl, rfl⟩ := h
    cases mode <;> rfl
  · intro _ k v _; rfl
  · rintro ⟨_, h⟩; cases h
  · cases mode <;> decide
  · cases mode <;> exact Or.inl (by decide)
  · exact .viaImport rfl (sample_top _ (by decide)) (sample_top _ (by decide)) (by decide)
  · exact .viaRegistry rfl rfl (by decide) (by decide) (fun c hc => sample_top c (by revert hc; cases c <;> decide))

/-! ### C131: what does not survive -/

/-- **C131** (violation). An `Element` class nested in another class cannot be restored through its base class: its own tag does not load. -/
theorem C131_nested_violation : ∃ (x : Elem Nat K Nat (DV Nat Nat)) (d : Data Nat Nat), Good sample x .python ∧ toDict sample x .python none none = .ok d ∧
    fromDict sample (registerAll sample [.node]) ⟨0, ⟨0, some 0⟩⟩ .element none d = .error .valueError := by
  refine ⟨⟨.mAD, 3, ⟨5, some 0⟩, [], []⟩, _, ⟨rfl, by decide, by decide, by decide, rfl, by decide, ?_, ?_⟩, rfl, by decide +kernel⟩
  · intro f y h; cases h
  · intro _ k v h; cases h

/-- **C131** (violation). With the key of another field as `meta_key`, that field is lost: the restored element has another id. -/
theorem C131_key_violation : ∃ (x y : Elem Nat K Nat (DV Nat Nat)) (d : Data Nat Nat), Good sample x .python ∧ toDict sample x .python none (some "id") = .ok d ∧
    fromDict sample [] ⟨9, ⟨0, some 0⟩⟩ .element (some "id") d = .ok y ∧ y.id ≠ x.id := by
  refine ⟨⟨.element, 3, ⟨5, some 0⟩, [], []⟩, ⟨.element, 9, ⟨5, some 0⟩, [], []⟩, _, ⟨rfl, by decide, by decide, by decide, rfl, by decide, ?_, ?_⟩, rfl,
    by decide +kernel, by decide⟩
  · intro f y h; cases h
  · intro _ k v h; cases h

/-- **C131** (violation). A metadata entry of the user's own under "lion_class" is lost. -/
theorem C131_tag_violation : ∃ (x y : Elem Nat K Nat (DV Nat Nat)) (d : Data Nat Nat), toDict sample x .python none none = .ok d ∧
    fromDict sample [] ⟨9, ⟨0, some 0⟩⟩ .element none d = .ok y ∧ y.metadata ≠ x.metadata :=
  ⟨⟨.element, 3, ⟨5, some 0⟩, [("lion_class", .hash 7)], []⟩, ⟨.element, 3, ⟨5, some 0⟩, [], []⟩, _, rfl, by decide +kernel, by decide⟩

/-- **C131** (partial). Any class, nested or not, is restored when its own `from_dict` is called and the class uses the `Element` or the `Node` implementation, under the conditions of C76 on fields and keys. -/
theorem C131_own_class_partial (W : World ι γ α φ) (L : Laws W) (fresh : Fresh ι) (R : Registry γ) (x : Elem ι γ α φ) (mode : Mode) (fmt : Option Fmt)
    (kOut kIn : Option String) (g : Good W x mode) (hf : FmtOk mode fmt) (hk : FreeKey W x.cls (outKey mode kOut)) (hh : Handled mode kOut kIn)
    (hi : W.impl x.cls ≠ .custom) :
    ∃ d y, toDict W x mode fmt kOut = .ok d ∧ fromDict W R fresh x.cls kIn d = .ok y ∧ Same y x := by
  obtain ⟨d, h1, h2⟩ := image_toDict L g fmt hf kOut hk
  obtain ⟨h4, h5⟩ := image_takeTag g (tagged_del g) (by unfold tagged; rw [Dict.get?_set, if_pos rfl]) (image_restore g hk hh h2)
  obtain ⟨y, h6, h7⟩ := validate_image fresh g.fields h4
  have hs : sameClass W x.cls (.str (fullName W x.cls) : MV α) = true := by simp [sameClass]
  refine ⟨d, y, h1, ?_, h7⟩
  unfold fromDict
  cases him : W.impl x.cls with
  | custom => exact absurd him hi
  | element => simp only [elementFromDict]; rw [h5, if_pos hs]; exact h6
  | node => simp only [nodeFromDict, applyContent]; rw [h5, if_pos hs]; exact h6

theorem validate_cls {W : World ι γ α φ} {fresh : Fresh ι} {c : γ} {d : Data ι α} {y : Elem ι γ α φ} (h : modelValidate W fresh c d = .ok y) : y.cls = c := by
  unfold modelValidate at h
  split at h
  · split at h
    · cases h; rfl
    · cases h
    · cases h
    · cases h
  · cases h

theorem untagged_cls {W : World ι γ α φ} {fresh : Fresh ι} {c : γ} {d : Data ι α} {y : Elem ι γ α φ} (h : nodeFromDictUntagged W fresh none c d = .ok y) : y.cls = c := by
  simp only [nodeFromDictUntagged, applyContent] at h
  exact validate_cls h

/-- The name that the data carry leads from the class whose `from_dict` is called to the class of the element: it is the same class, or it has
another name and the name is found: by import for a class with the `Element` implementation, in the registry for one with the `Node`
implementation. -/
def Leads (W : World ι γ α φ) (R : Registry γ) (B c : γ) : Prop :=
  B = c ∨ (fullName W c ≠ fullName W B ∧
    ((W.impl B = .element ∧ importType W (fullName W c) = .ok (.cls c)) ∨ (W.impl B = .node ∧ lookupTag R (fullName W c) = some c)))

/-- **C131**, exactly which classes survive: under the conditions of C76 on fields, metadata and keys (and if a class with a `from_dict` of its own
makes objects of that class), an element is restored by `B.from_dict` if and only if its name leads from `B` to its class. -/
theorem C131_exact_partial (W : World ι γ α φ) (L : Laws W) (fresh : Fresh ι) (R : Registry γ) (B : γ) (x : Elem ι γ α φ) (mode : Mode)
    (fmt : Option Fmt) (kOut kIn : Option String) (g : Good W x mode) (hf : FmtOk mode fmt) (hk : FreeKey W x.cls (outKey mode kOut))
    (hh : Handled mode kOut kIn) (hi : W.impl x.cls ≠ .custom) (hB : W.impl B ≠ .custom)
    (hcu : ∀ c d y, W.custom c d = .ok y → y.cls = c) :
    (∃ d y, toDict W x mode fmt kOut = .ok d ∧ fromDict W R fresh B kIn d = .ok y ∧ Same y x) ↔ Leads W R B x.cls := by
  obtain ⟨d, h1, h2⟩ := image_toDict L g fmt hf kOut hk
  obtain ⟨h4, h5⟩ := image_takeTag g (tagged_del g) (by unfold tagged; rw [Dict.get?_set, if_pos rfl]) (image_restore g hk hh h2)
  have hname : ∀ c, sameClass W c (.str (fullName W x.cls) : MV α) = true ↔ fullName W x.cls = fullName W c := by
    intro c
    have : (fullName W x.cls).isEmpty = false := by
      unfold fullName
      cases W.module x.cls <;> simp
    simp [sameClass, this]
  constructor
  · rintro ⟨d', y, e1, e2, e3⟩
    have : d' = d := by rw [h1] at e1; exact (Except.ok.inj e1).symm
    subst this
    by_cases hs : fullName W x.cls = fullName W B
    · refine Or.inl ?_
      have hv : modelValidate W fresh B (takeTag (restoreMeta kIn d')).1 = .ok y := by
        unfold fromDict at e2
        cases him : W.impl B with
        | custom => exact absurd him hB
        | element =>
          simp only [him, elementFromDict] at e2
          rw [h5, if_pos ((hname B).mpr hs)] at e2; exact e2
        | node =>
          simp only [him, nodeFromDict, applyContent] at e2
          rw [h5, if_pos ((hname B).mpr hs)] at e2; exact e2
      rw [← validate_cls hv]; exact e3.cls
    · unfold fromDict at e2
      cases him : W.impl B with
      | custom => exact absurd him hB
      | element =>
        simp only [him, elementFromDict] at e2
        rw [h5, if_neg (fun h => hs ((hname B).mp h))] at e2
        simp only [elementDispatch] at e2
        cases hl : importType W (fullName W x.cls) with
        | error e => rw [hl] at e2; cases e2
        | ok a =>
          rw [hl] at e2
          cases a with
          | type => cases e2
          | value => cases e2
          | cls t =>
            simp only [callTarget] at e2
            have ht : y.cls = t := by
              cases hit : W.impl t with
              | element => rw [hit] at e2; exact validate_cls e2
              | node => rw [hit] at e2; exact untagged_cls e2
              | custom => rw [hit] at e2; exact hcu t _ y e2
            refine Or.inr ⟨hs, Or.inl ⟨him, ?_⟩⟩
            rw [hl, ← ht, e3.cls]
      | node =>
        simp only [him, nodeFromDict, applyContent] at e2
        rw [h5, if_neg (fun h => hs ((hname B).mp h))] at e2
        simp only [nodeDispatch] at e2
        cases hl : lookupTag R (fullName W x.cls) with
        | none =>
          rw [hl] at e2
          exact Or.inl ((validate_cls e2).symm.trans e3.cls)
        | some t =>
          rw [hl] at e2
          simp only at e2
          by_cases htB : t = B
          · rw [if_pos htB] at e2
            exact Or.inl ((validate_cls e2).symm.trans e3.cls)
          · rw [if_neg htB] at e2
            have ht : y.cls = t := by
              by_cases hit : W.impl t = .custom
              · rw [if_pos hit] at e2; exact hcu t _ y e2
              · rw [if_neg hit] at e2; exact untagged_cls e2
            refine Or.inr ⟨hs, Or.inr ⟨him, ?_⟩⟩
            rw [hl, ← ht, e3.cls]
  · intro hl
    rcases hl with hl | ⟨hs, ⟨hb, hl⟩ | ⟨hb, hl⟩⟩
    · subst hl
      exact C131_own_class_partial W L fresh R x mode fmt kOut kIn g hf hk hh hi
    · have : ∃ y, fromDict W R fresh B kIn d = .ok y ∧ Same y x := by
        unfold fromDict
        simp only [hb, elementFromDict]
        rw [h5, if_neg (fun h => hs ((hname B).mp h))]
        simp only [elementDispatch, hl, callTarget]
        cases him : W.impl x.cls with
        | element => exact validate_image fresh g.fields h4
        | node => exact untagged_image fresh g h4
        | custom => exact absurd him hi
      obtain ⟨y, e1, e2⟩ := this
      exact ⟨d, y, h1, e1, e2⟩
    · have : ∃ y, fromDict W R fresh B kIn d = .ok y ∧ Same y x := by
        unfold fromDict
        simp only [hb, nodeFromDict, applyContent]
        rw [h5, if_neg (fun h => hs ((hname B).mp h))]
        simp only [nodeDispatch, hl]
        have hne : x.cls ≠ B := fun e => hs (by rw [e])
        rw [if_neg hne, if_neg hi]
        exact untagged_image fresh g h4
      obtain ⟨y, e1, e2⟩ := this
      exact ⟨d, y, h1, e1, e2⟩

/-- A node is found from `Element`, and the nested class is not. -/
example : Leads sample (registerAll sample [.node]) .element .node ∧ ¬ Leads sample (registerAll sample [.node]) .element .mAD := by
  refine ⟨Or.inr ⟨by decide, Or.inl ⟨rfl, by decide +kernel⟩⟩, ?_⟩
  rintro (h | ⟨_, ⟨_, h⟩ | ⟨h, _⟩⟩)
  · cases h
  · revert h; decide +kernel
  · cases h

/-! ### C130: nested Node classes -/

/-- **C130** (violation). Of two Node classes with equal short names nested in different classes of a module, the tag of the first names the second; and a module-level class is displaced by a nested class of the same short name defined later in its module. -/
theorem C130_nested_violation :
    lookupTag (registerAll sample [.node, .mAX, .mBX]) (fullName sample .mAX) = some .mBX ∧
    lookupTag (registerAll sample [.node, .mX, .mAX]) (fullName sample .mX) = some .mAX := by decide

/-- The restored element is then of another class. -/
theorem C130_restore_violation : ∃ (x y : Elem Nat K Nat (DV Nat Nat)) (d : Data Nat Nat), toDict sample x .python none none = .ok d ∧
    fromDict sample (registerAll sample [.node, .mAX, .mBX]) ⟨0, ⟨0, some 0⟩⟩ .node none d = .ok y ∧ x.cls = .mAX ∧ y.cls = .mBX :=
  ⟨⟨.mAX, 3, ⟨5, some 0⟩, [], [("content", .none)]⟩, ⟨.mBX, 3, ⟨5, some 0⟩, [], [("content", .none)]⟩, _, rfl, by decide +kernel, rfl, rfl⟩

example : ∀ c' ∈ [K.node, K.mAX], Claims sample ['X'] c' → c' = K.mAX := by decide
example : ∀ c' ∈ [K.node, K.mAX], Claims sample (fullName sample .mAX) c' → c' = K.mAX := by decide
example : ∀ c ∈ [K.node, K.mX, K.kX], TopLevel sample c := fun c hc => sample_top c (by revert hc; cases c <;> decide)

/-! ### C77: the content deserializer -/

theorem set_content (d : Data ι α) (k : String) (v w : DV ι α) (hc : d.has "content" = true) (hk : k ≠ "content") :
    (d.set "content" w).set k v = (d.set k v).set "content" w := by
  have h1 := (Dict.has_iff _ _).1 hc
  induction d with
  | nil => simp at h1
  | cons kv d ih =>
    obtain ⟨a, b⟩ := kv
    by_cases ha : a = "content"
    · subst ha
      simp only [Dict.set, if_neg (Ne.symm hk), if_pos trivial]
    · have h2 : "content" ∈ Dict.keys d := by
        simp only [Dict.keys_cons, List.mem_cons] at h1
        rcases h1 with h1 | h1
        · exact absurd h1.symm ha
        · exact h1
      by_cases hk' : a = k
      · subst hk'
        simp only [Dict.set, if_neg ha, if_pos trivial]
      · simp only [Dict.set, if_neg ha, if_neg hk']
        rw [ih ((Dict.has_iff _ _).2 h2) h2]

theorem set_set (d : Data ι α) (k : String) (v w : DV ι α) : (d.set k v).set k w = d.set k w := by
  induction d with
  | nil => simp [Dict.set]
  | cons kv d ih =>
    obtain ⟨a, b⟩ := kv
    by_cases ha : a = k
    · subst ha; simp [Dict.set]
    · simp only [Dict.set, if_neg ha, ih]

theorem restoreMeta_content (metaKey : Option String) (d : Data ι α) (hd : Dict.WF d) (w : DV ι α) (hk : metaKey ≠ some "content") (hc : d.has "content" = true) :
    restoreMeta metaKey (d.set "content" w) = (restoreMeta metaKey d).set "content" w ∧ Dict.WF (restoreMeta metaKey d) ∧ (restoreMeta metaKey d).has "content" = true := by
  have hhas : ∀ k, k ≠ "content" → (d.set "content" w).has k = d.has k := by
    intro k hk; unfold Dict.has; rw [Dict.get?_set, if_neg (Ne.symm hk)]
  have hdel : ∀ (d : Data ι α) (k : String), Dict.WF d → d.has "content" = true → k ≠ "content" → (d.set "content" w).del k = (d.del k).set "content" w ∧ (d.del k).has "content" = true := by
    intro d k wf hc hk
    refine ⟨?_, by unfold Dict.has at hc ⊢; rw [Dict.get?_del wf, if_neg hk]; exact hc⟩
    apply Dict.ext_of_keys_get? (Dict.del_wf (Dict.set_wf wf _ _) _)
    · have h1 := (Dict.has_iff _ _).1 hc
      rw [Dict.keys_del, Dict.keys_set_of_mem _ h1, Dict.keys_set_of_mem, Dict.keys_del]
      exact (Dict.mem_keys_del wf _ _).2 ⟨Ne.symm hk, h1⟩
    · intro k'
      rw [Dict.get?_del (Dict.set_wf wf _ _), Dict.get?_set, Dict.get?_set, Dict.get?_del wf]
      by_cases h1 : k = k'
      · subst h1; rw [if_pos rfl, if_neg (Ne.symm hk), if_pos rfl]
      · rw [if_neg h1, if_neg h1]
  have hset : ∀ (d : Data ι α) (k : String) (v : DV ι α), d.has "content" = true → k ≠ "content" → (d.set "content" w).set k v = (d.set k v).set "content" w :=
    fun d k v hc hk => set_content d k v w hc hk
  have hren : ∀ src dst, src ≠ "content" → dst ≠ "content" → rename (d.set "content" w) src dst = (rename d src dst).set "content" w ∧ Dict.WF (rename d src dst) ∧ (rename d src dst).has "content" = true := by
    intro src dst h1 h2
    unfold rename
    rw [Dict.get?_set, if_neg (Ne.symm h1)]
    cases hg : d.get? src with
    | none => exact ⟨rfl, hd, hc⟩
    | some v =>
      simp only []
      obtain ⟨e1, e2⟩ := hdel d src hd hc h1
      refine ⟨by rw [e1, hset _ _ _ e2 h2], Dict.set_wf (Dict.del_wf hd _) _ _, ?_⟩
      unfold Dict.has at e2 ⊢; rw [Dict.get?_set, if_neg h2]; exact e2
  have fin : ∀ src, src ≠ "content" → (rename (d.set "content" w) src "metadata").del "node_metadata" = ((rename d src "metadata").del "node_metadata").set "content" w ∧
      Dict.WF ((rename d src "metadata").del "node_metadata") ∧ ((rename d src "metadata").del "node_metadata").has "content" = true := by
    intro src h1
    obtain ⟨e1, e2, e3⟩ := hren src "metadata" h1 (by decide)
    obtain ⟨e4, e5⟩ := hdel _ "node_metadata" e2 e3 (by decide)
    exact ⟨by rw [e1, e4], Dict.del_wf e2 _, e5⟩
  have fin2 : (d.set "content" w).del "node_metadata" = (d.del "node_metadata").set "content" w ∧ Dict.WF (d.del "node_metadata") ∧ (d.del "node_metadata").has "content" = true := by
    obtain ⟨e4, e5⟩ := hdel d "node_metadata" hd hc (by decide)
    exact ⟨e4, Dict.del_wf hd _, e5⟩
  have hn : restoreMeta none (d.set "content" w) = (restoreMeta none d).set "content" w ∧ Dict.WF (restoreMeta none d) ∧ (restoreMeta none d).has "content" = true := by
    simp only [restoreMeta]
    rw [hhas _ (by decide), hhas _ (by decide)]
    split
    · exact fin _ (by decide)
    · exact fin2
  cases metaKey with
  | none => exact hn
  | some k =>
    have hkc : k ≠ "content" := fun e => hk (by rw [e])
    simp only [restoreMeta]
    rw [hhas _ hkc, hhas _ (by decide), hhas _ (by decide)]
    split
    · exact fin _ hkc
    · split
      · exact fin _ (by decide)
      · exact fin2

theorem takeTag_content (d : Data ι α) (w : DV ι α) (hc : d.has "content" = true) :
    takeTag (d.set "content" w) = ((takeTag d).1.set "content" w, (takeTag d).2) ∧ (takeTag d).1.has "content" = true := by
  have hset : ∀ (d : Data ι α) (v : DV ι α), d.has "content" = true → (d.set "content" w).set "metadata" v = (d.set "metadata" v).set "content" w :=
    fun d v hc => set_content d "metadata" v w hc (by decide)
  have hh : ∀ v, (d.set "metadata" v).has "content" = true := by
    intro v; unfold Dict.has at hc ⊢; rw [Dict.get?_set, if_neg (by decide)]; exact hc
  unfold takeTag
  rw [Dict.get?_set, if_neg (by decide)]
  cases hm : d.get? "metadata" with
  | none => exact ⟨by simp only [hset d _ hc], hh _⟩
  | some v =>
    cases v with
    | dict m => exact ⟨by simp only [hset d _ hc], hh _⟩
    | _ => exact ⟨rfl, hc⟩

/-- The class tag of the data. -/
def tagOf (metaKey : Option String) (d : Data ι α) : MV α := (takeTag (restoreMeta metaKey d)).2

/-- The data names another registered Node class `t`, so that its `from_dict` takes over. -/
def Names (W : World ι γ α φ) (R : Registry γ) (c : γ) (metaKey : Option String) (d : Data ι α) (t : γ) : Prop :=
  ∃ s, tagOf metaKey d = .str s ∧ s ≠ [] ∧ s ≠ fullName W c ∧ lookupTag R s = some t ∧ t ≠ c

theorem tagOf_content {metaKey : Option String} {d : Data ι α} (hd : Dict.WF d) (hk : metaKey ≠ some "content") (hc : d.has "content" = true) (w : DV ι α) :
    takeTag (restoreMeta metaKey (d.set "content" w)) = ((takeTag (restoreMeta metaKey d)).1.set "content" w, tagOf metaKey d) ∧
    (takeTag (restoreMeta metaKey d)).1.has "content" = true := by
  obtain ⟨e1, e2, e3⟩ := restoreMeta_content metaKey d hd w hk hc
  rw [e1]
  exact takeTag_content _ w e3

/-- **C77** (partial). If the data names no other registered class, the deserializer is applied exactly once: the result is that of data holding the deserialised content. Missing: data naming a registered subclass, see `C77_subclass_twice`. -/
theorem C77_once_partial (W : World ι γ α φ) (R : Registry γ) (fresh : Fresh ι) (c : γ) (metaKey : Option String) (g : DV ι α → Option (DV ι α))
    (d : Data ι α) (hd : Dict.WF d) (hk : metaKey ≠ some "content") (v w : DV ι α) (hv : d.get? "content" = some v) (hw : g v = some w)
    (hn : ∀ t, ¬ Names W R c metaKey d t) :
    nodeFromDict W R fresh c metaKey (some g) d = nodeFromDict W R fresh c metaKey none (d.set "content" w) := by
  have hc : d.has "content" = true := by unfold Dict.has; rw [hv]; rfl
  have ha : applyContent (some g) d = .ok (d.set "content" w) := by simp only [applyContent, hv, hw]
  have ha' : applyContent (none : Option (DV ι α → Option (DV ι α))) (d.set "content" w) = .ok (d.set "content" w) := rfl
  unfold nodeFromDict
  rw [ha, ha']
  simp only []
  rw [(tagOf_content hd hk hc w).1]
  split
  · rfl
  · next hs =>
    simp only []
    cases ht : tagOf metaKey d with
    | none => rfl
    | hash a => rfl
    | unhash a => rfl
    | str s =>
      simp only [nodeDispatch]
      cases hl : lookupTag R s with
      | none => rfl
      | some t =>
        simp only []
        by_cases htc : t = c
        · rw [if_pos htc, if_pos htc]
        · exfalso
          rw [ht] at hs
          simp only [sameClass, Bool.or_eq_true, not_or] at hs
          exact hn t ⟨s, ht, by intro e; exact hs.1 (by rw [e]; rfl), by intro e; exact hs.2 (by rw [e]; simp), hl, htc⟩

/-- **C77** (failure). A deserializer that fails makes `from_dict` raise `ValueError`; without content it is not called. -/
theorem C77_failure (W : World ι γ α φ) (R : Registry γ) (fresh : Fresh ι) (c : γ) (metaKey : Option String) (g : DV ι α → Option (DV ι α)) (d : Data ι α) :
    (∀ v, d.get? "content" = some v → g v = none → nodeFromDict W R fresh c metaKey (some g) d = .error .valueError) ∧
    (d.get? "content" = none → ∃ d', applyContent (some g) d = .ok d' ∧ d' = d) := by
  refine ⟨fun v hv hg => ?_, fun h => ⟨d, by simp only [applyContent, h], rfl⟩⟩
  unfold nodeFromDict
  simp only [applyContent, hv, hg]

/-- **C77** (what happens instead). If the data names another registered Node class, the deserializer is applied a second time, to its own result. -/
theorem C77_subclass_twice (W : World ι γ α φ) (R : Registry γ) (fresh : Fresh ι) (c t : γ) (metaKey : Option String) (g : DV ι α → Option (DV ι α))
    (d : Data ι α) (hd : Dict.WF d) (hk : metaKey ≠ some "content") (v w w' : DV ι α) (hv : d.get? "content" = some v) (hw : g v = some w) (hw' : g w = some w')
    (hn : Names W R c metaKey d t) (hi : W.impl t ≠ .custom) :
    nodeFromDict W R fresh c metaKey (some g) d = nodeFromDict W R fresh c metaKey none (d.set "content" w') := by
  have hc : d.has "content" = true := by unfold Dict.has; rw [hv]; rfl
  have ha : applyContent (some g) d = .ok (d.set "content" w) := by simp only [applyContent, hv, hw]
  have ha' : applyContent (none : Option (DV ι α → Option (DV ι α))) (d.set "content" w') = .ok (d.set "content" w') := rfl
  obtain ⟨s, h1, h2, h3, h4, h5⟩ := hn
  have hs : sameClass W c (.str s : MV α) = false := by
    simp only [sameClass, Bool.or_eq_false_iff]
    exact ⟨by cases s with | nil => exact absurd rfl h2 | cons _ _ => rfl, by simpa using h3⟩
  unfold nodeFromDict
  rw [ha, ha']
  simp only []
  rw [(tagOf_content hd hk hc w).1, (tagOf_content hd hk hc w').1]
  simp only []
  rw [h1, hs]
  simp only [nodeDispatch, h4, if_neg h5, if_neg hi, Bool.false_eq_true, if_false]
  unfold nodeFromDictUntagged
  have hget : ((takeTag (restoreMeta metaKey d)).1.set "content" w).get? "content" = some w := by rw [Dict.get?_set, if_pos rfl]
  have e1 : applyContent (some g) ((takeTag (restoreMeta metaKey d)).1.set "content" w) = .ok ((takeTag (restoreMeta metaKey d)).1.set "content" w') := by
    simp only [applyContent, hget, hw', set_set]
  rw [e1]
  rfl

/-- A deserializer that adds one to a number. -/
def inc : DV Nat Nat → Option (DV Nat Nat)
  | .other n => some (.other (n + 1))
  | v => some v

/-- **C77** (violation). For data naming a subclass, a deserializer adding one adds two. -/
theorem C77_subclass_violation : ∃ (d : Data Nat Nat) (y : Elem Nat K Nat (DV Nat Nat)), d.get? "content" = some (.other 1) ∧
    nodeFromDict sample (registerAll sample [.node, .mX]) ⟨0, ⟨0, some 0⟩⟩ .node none (some inc) d = .ok y ∧
    y.cls = .mX ∧ y.fields.get? "content" = some (.other 3) :=
  ⟨[("content", .other 1), ("metadata", .dict [("lion_class", .str ['m', '.', 'X'])])], ⟨.mX, 0, ⟨0, some 0⟩, [], [("content", .other 3)]⟩,
    by decide, by decide +kernel, rfl, rfl⟩

example : (∀ t, ¬ Names sample (registerAll sample [.node, .mX]) .node none ([("content", .other 1), ("metadata", .dict [("lion_class", .str ['m', '.', 'N'])])] : Data Nat Nat) t) := by
  rintro t ⟨s, h1, _, h3, _⟩
  have : tagOf none ([("content", .other 1), ("metadata", .dict [("lion_class", .str ['m', '.', 'N'])])] : Data Nat Nat) = .str ['m', '.', 'N'] := by decide
  rw [this] at h1; cases h1
  exact h3 (by decide)

end Verif.Element
