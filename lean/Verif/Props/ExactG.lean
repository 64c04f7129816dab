import Verif.Props.Exclude
import Verif.Props.ContainerKeys
import Verif.Props.PileExact
import Verif.Props.FlowSerial
import Verif.Props.Json
import Verif.Props.Lexer
import Verif.Props.EventSerial

set_option linter.unusedSectionVars false
set_option linter.unusedSimpArgs false
set_option linter.unusedVariables false

/-!
# Exact conditions and failures: C147, C213, C214, C139, C87, C218, C45, C202
-/

namespace Verif.Exclude

/-- The argument names a part of the field: `{"metadata": {"x"}}`. -/
def Partly (e : Excl) (f : String) : Prop := ∃ es, e = .dict es ∧ (f, false) ∈ es

/-- The output has exactly the fields that are not excluded as a whole. -/
def Honoured (fields : List String) (k : Kind) (e : Excl) : Prop :=
  ∃ out, toDictNames fields k e = .ok out ∧ ∀ f, f ∈ out ↔ (f ∈ fields ∨ Separate k f) ∧ ¬ Whole e f

/-- A flow or a graph. -/
def Box (k : Kind) : Prop := k = .flow ∨ k = .graph

theorem simple_honoured {fields out : List String} {e : Excl} {S : String → Prop} {forced : List String}
    (hS : ∀ f, S f ↔ f ∈ forced) (h : ∀ f, f ∈ out ↔ (f ∈ fields ∧ ¬ Whole e f) ∨ f ∈ forced) :
    (∀ f, f ∈ out ↔ (f ∈ fields ∨ S f) ∧ ¬ Whole e f) ↔ ∀ f, S f → ¬ Whole e f := by
  constructor
  · intro g f hf
    exact ((g f).1 ((h f).2 (Or.inr ((hS f).1 hf)))).2
  · intro g f
    rw [h f]
    constructor
    · rintro (⟨h1, h2⟩ | h1)
      · exact ⟨Or.inl h1, h2⟩
      · exact ⟨Or.inr ((hS f).2 h1), g f ((hS f).2 h1)⟩
    · rintro ⟨h1 | h1, h2⟩
      · exact Or.inl ⟨h1, h2⟩
      · exact Or.inr ((hS f).1 h1)

theorem ok_iff {α : Type} {r : Except Exc α} {a : α} {P : α → Prop} (h : r = .ok a) : (∃ b, r = .ok b ∧ P b) ↔ P a := by
  subst h
  constructor
  · rintro ⟨b, hb, hp⟩
    cases hb
    exact hp
  · intro hp
    exact ⟨a, rfl, hp⟩

theorem container_mem {fields forced ns : List String} {e : Excl} (hm : merged forced e = .ok (.set (ns ++ forced))) :
    ∃ out, container forced fields e = .ok out ∧ ∀ f, f ∈ out ↔ (f ∈ fields ∧ f ∉ ns) ∨ f ∈ forced := by
  obtain ⟨out, h1, h2⟩ := element_mem (fields := fields) (e := .set (ns ++ forced)) rfl
  obtain ⟨out', h3, h4⟩ := addAll_mem (forced := forced) (out := out)
  refine ⟨out', by simp only [container, hm, h1]; exact h3, ?_⟩
  intro f
  rw [h4, h2]
  by_cases hf : f ∈ forced <;> simp [hf]

theorem container_set {fields forced ns : List String} {e : Excl} {S : String → Prop} (hS : ∀ f, S f ↔ f ∈ forced)
    (hm : merged forced e = .ok (.set (ns ++ forced))) (hw : ∀ f, Whole e f → f ∈ ns) :
    (∃ out, container forced fields e = .ok out ∧ ∀ f, f ∈ out ↔ (f ∈ fields ∨ S f) ∧ ¬ Whole e f) ↔
      (∀ f, S f → ¬ Whole e f) ∧ ∀ f, f ∈ fields → f ∈ ns → S f ∨ Whole e f := by
  obtain ⟨out, h1, h2⟩ := container_mem (fields := fields) hm
  rw [ok_iff h1]
  constructor
  · intro g
    refine ⟨fun f hf => ((g f).1 ((h2 f).2 (Or.inr ((hS f).1 hf)))).2, ?_⟩
    intro f hf hn
    by_cases h : S f
    · exact Or.inl h
    · refine Or.inr (Classical.byContradiction (fun hc => ?_))
      rcases (h2 f).1 ((g f).2 ⟨Or.inl hf, hc⟩) with ⟨_, h3⟩ | h3
      · exact h3 hn
      · exact h ((hS f).2 h3)
  · rintro ⟨g1, g2⟩ f
    rw [h2 f]
    constructor
    · rintro (⟨h3, h4⟩ | h3)
      · exact ⟨Or.inl h3, fun hw' => h4 (hw f hw')⟩
      · exact ⟨Or.inr ((hS f).2 h3), g1 f ((hS f).2 h3)⟩
    · rintro ⟨h3 | h3, h4⟩
      · by_cases h : f ∈ ns
        · rcases g2 f h3 h with h5 | h5
          · exact Or.inr ((hS f).1 h5)
          · exact absurd h5 h4
        · exact Or.inl ⟨h3, h⟩
      · exact Or.inr ((hS f).1 h3)

theorem partly_dict {es : List (String × Bool)} {f : String} : Partly (.dict es) f ↔ (f, false) ∈ es := by
  simp [Partly]

theorem container_exact {fields forced : List String} (e : Excl) {S : String → Prop} (hS : ∀ f, S f ↔ f ∈ forced) :
    (∃ out, container forced fields e = .ok out ∧ ∀ f, f ∈ out ↔ (f ∈ fields ∨ S f) ∧ ¬ Whole e f) ↔
      e ≠ .none ∧ (∀ f, S f → ¬ Whole e f) ∧ ∀ f, f ∈ fields → Partly e f → S f ∨ Whole e f := by
  cases e with
  | absent =>
    have := container_set (fields := fields) (e := .absent) (ns := []) hS rfl (by simp [Whole])
    rw [this]
    simp [Partly, Whole]
  | none => simp [container, merged]
  | set ns =>
    rw [container_set (fields := fields) (e := .set ns) (ns := ns) hS rfl (by simp [Whole])]
    simp [Partly, Whole]
    intro _ f _ h
    exact Or.inr h
  | list ns =>
    rw [container_set (fields := fields) (e := .list ns) (ns := ns) hS rfl (by simp [Whole])]
    simp [Partly, Whole]
    intro _ f _ h
    exact Or.inr h
  | dict es =>
    rw [container_set (fields := fields) (e := .dict es) (ns := es.map Prod.fst) hS rfl
      (fun f hf => List.mem_map.2 ⟨(f, true), hf, rfl⟩)]
    have : ∀ f, f ∈ es.map Prod.fst ↔ Partly (.dict es) f ∨ Whole (.dict es) f := by
      intro f
      rw [partly_dict]
      constructor
      · intro h
        obtain ⟨⟨a, b⟩, h1, h2⟩ := List.mem_map.1 h
        cases b
        · exact Or.inl (h2 ▸ h1)
        · exact Or.inr (h2 ▸ h1)
      · rintro (h | h)
        · exact List.mem_map.2 ⟨_, h, rfl⟩
        · exact List.mem_map.2 ⟨_, h, rfl⟩
    constructor
    · rintro ⟨h1, h2⟩
      exact ⟨nofun, h1, fun f hf hp => h2 f hf ((this f).2 (Or.inl hp))⟩
    · rintro ⟨_, h1, h2⟩
      refine ⟨h1, fun f hf hp => ?_⟩
      rcases (this f).1 hp with h | h
      · exact h2 f hf h
      · exact Or.inr h

/-- **C147** (exact).  `to_dict(exclude=e)` writes exactly the fields not excluded as a whole if and only if: the argument is not None for a flow or a graph, not a list
for one of the classes that hand it to pydantic, excludes no field that the class writes separately, does not exclude only a part of a field of a flow or a graph, and is not
a list naming fields of a node with a content serializer. -/
theorem C147_exact_partial (fields : List String) (k : Kind) (e : Excl) :
    Honoured fields k e ↔
      (Box k → e ≠ .none) ∧ (¬ Box k → k ≠ .nodeSerializer → ∀ ns, e ≠ .list ns) ∧ (∀ f, Separate k f → ¬ Whole e f) ∧
      (Box k → ∀ f, f ∈ fields → Partly e f → Separate k f ∨ Whole e f) ∧
      (k = .nodeSerializer → ∀ ns, e = .list ns → ∀ f, f ∈ ns → f ∉ fields) := by
  have hlist : ∀ (forced : List String), (∃ ns, e = .list ns) → addAll forced (element fields e) = .error .typeError := by
    rintro forced ⟨ns, rfl⟩
    rfl
  have hplain : (∀ ns, e ≠ .list ns) → ∀ forced : List String, ∃ out, addAll forced (element fields e) = .ok out ∧
      ∀ f, f ∈ out ↔ (f ∈ fields ∧ ¬ Whole e f) ∨ f ∈ forced := by
    intro hl forced
    obtain ⟨out, h1, h2⟩ := element_whole (fields := fields) hl
    obtain ⟨out', h3, h4⟩ := addAll_mem (forced := forced) (out := out)
    refine ⟨out', by rw [h1]; exact h3, ?_⟩
    intro f
    rw [h4, h2]
  have hel : (∃ out, element fields e = .ok out ∧ ∀ f, f ∈ out ↔ (f ∈ fields ∨ False) ∧ ¬ Whole e f) ↔ ∀ ns, e ≠ .list ns := by
    constructor
    · rintro ⟨out, h, _⟩ ns rfl
      cases h
    · intro hl
      obtain ⟨out, h1, h2⟩ := element_whole (fields := fields) hl
      exact ⟨out, h1, by simpa using h2⟩
  cases k with
  | element => simpa [Honoured, toDictNames, Separate, Box] using hel
  | node => simpa [Honoured, toDictNames, node, Separate, Box] using hel
  | pile =>
    have hb : ¬ Box .pile := by simp [Box]
    simp only [Honoured, toDictNames, pile]
    by_cases hl : ∃ ns, e = .list ns
    · obtain ⟨ns, rfl⟩ := hl
      constructor
      · rintro ⟨out, h, _⟩
        cases h
      · rintro ⟨_, h, _⟩
        exact absurd rfl (h hb nofun ns)
    · have hl' : ∀ ns, e ≠ .list ns := fun ns h => hl ⟨ns, h⟩
      obtain ⟨out, h1, h2⟩ := hplain hl' ["items"]
      rw [ok_iff h1, simple_honoured (S := Separate .pile) (by simp [Separate]) h2]
      constructor
      · intro h
        exact ⟨fun h => absurd h hb, fun _ _ => hl', h, fun h => absurd h hb, nofun⟩
      · intro h
        exact h.2.2.1
  | flow =>
    have hb : Box .flow := Or.inl rfl
    simp only [Honoured, toDictNames]
    rw [container_exact (S := Separate .flow) e (by simp [Separate])]
    constructor
    · rintro ⟨h1, h2, h3⟩
      exact ⟨fun _ => h1, fun h => absurd hb h, h2, fun _ => h3, nofun⟩
    · rintro ⟨h1, _, h2, h3, _⟩
      exact ⟨h1 hb, h2, h3 hb⟩
  | graph =>
    have hb : Box .graph := Or.inr rfl
    simp only [Honoured, toDictNames]
    rw [container_exact (S := Separate .graph) e (by simp [Separate])]
    constructor
    · rintro ⟨h1, h2, h3⟩
      exact ⟨fun _ => h1, fun h => absurd hb h, h2, fun _ => h3, nofun⟩
    · rintro ⟨h1, _, h2, h3, _⟩
      exact ⟨h1 hb, h2, h3 hb⟩
  | nodeSerializer =>
    have hb : ¬ Box .nodeSerializer := by simp [Box]
    have hforced : ∃ out, addAll ["content"] (element fields (nodeExcl e)) = .ok out ∧
        ∀ f, f ∈ out ↔ (f ∈ fields ∧ ¬ Whole (nodeExcl e) f) ∨ f ∈ ["content"] := by
      obtain ⟨out, h1, h2⟩ := element_whole (fields := fields) (e := nodeExcl e) (by cases e <;> simp [nodeExcl])
      obtain ⟨out', h3, h4⟩ := addAll_mem (forced := ["content"]) (out := out)
      refine ⟨out', by rw [h1]; exact h3, ?_⟩
      intro f
      rw [h4, h2]
    obtain ⟨out, h1, h2⟩ := hforced
    simp only [Honoured, toDictNames, node, if_true]
    rw [ok_iff h1]
    by_cases hl : ∃ ns, e = .list ns
    · obtain ⟨ns, rfl⟩ := hl
      have h2' : ∀ f, f ∈ out ↔ f ∈ fields ∨ f = "content" := by
        intro f
        rw [h2 f]
        by_cases hf : f = "content" <;> simp [nodeExcl, Whole, hf]
      constructor
      · intro g
        refine ⟨fun h => absurd h hb, fun _ h => absurd rfl h, ?_, fun h => absurd h hb, ?_⟩
        · rintro f rfl
          exact ((g _).1 ((h2' _).2 (Or.inr rfl))).2
        · intro _ ns' hns f hf hff
          cases hns
          exact ((g f).1 ((h2' f).2 (Or.inl hff))).2 hf
      · rintro ⟨_, _, g1, _, g2⟩ f
        rw [h2' f]
        constructor
        · rintro (h | h)
          · exact ⟨Or.inl h, fun hw => g2 (by trivial) ns rfl f hw h⟩
          · exact ⟨Or.inr h, g1 f h⟩
        · rintro ⟨h, _⟩
          exact h
    · have hl' : ∀ ns, e ≠ .list ns := fun ns h => hl ⟨ns, h⟩
      have h2' : ∀ f, f ∈ out ↔ (f ∈ fields ∧ ¬ Whole e f) ∨ f ∈ ["content"] := by
        intro f
        rw [h2 f]
        by_cases hf : f = "content"
        · simp [hf]
        · cases e with
          | absent => simp [nodeExcl, Whole, hf]
          | none => simp [nodeExcl, Whole, hf]
          | set ns => simp [nodeExcl, Whole, hf]
          | dict es => simp [nodeExcl, Whole, hf]
          | list ns => exact absurd rfl (hl' ns)
      rw [simple_honoured (S := Separate .nodeSerializer) (by simp [Separate]) h2']
      constructor
      · intro h
        exact ⟨fun h => absurd h hb, fun _ h => absurd rfl h, h, fun h => absurd h hb, fun _ ns hns => absurd hns (hl' ns)⟩
      · intro h
        exact h.2.2.1

/-- A flow with an excluded name, and one with an excluded part. -/
example : Honoured ["id", "metadata", "name"] .flow (.set ["name"]) ∧ ¬ Honoured ["id", "metadata", "name"] .flow (.dict [("metadata", false)]) := by
  constructor
  · rw [C147_exact_partial]
    simp [Box, Separate, Whole, Partly]
  · rw [C147_exact_partial]
    simp [Box, Separate, Whole, Partly]

end Verif.Exclude

namespace Verif.Container

open Verif.Flow (KPile metaName metaFound)

variable {ι γ δ ν ε : Type} [DecidableEq ι] [DecidableEq γ]

/-- A serialised item names, in its "metadata", a class that the constraint of the pile does not allow. -/
def NamesOther {D : Type} (sub : γ → γ → Bool) (load : String → Option γ) (lionClass : D → Option String) (ts : Option (List γ))
    (strict : Bool) (ds : List (KItem D)) : Prop :=
  ∃ d ∈ ds, ∃ c, d.metaKey = "metadata" ∧ Pile.Declares load lionClass d.body c ∧ ¬ Pile.Allows sub ts strict c

theorem declares_iff {D : Type} (load : String → Option γ) (lionClass : D → Option String) (d : KItem D) (c : γ) :
    Pile.Declares load (lionClassK lionClass) d c ↔ d.metaKey = "metadata" ∧ Pile.Declares load lionClass d.body c := by
  unfold Pile.Declares lionClassK
  by_cases h : d.metaKey = "metadata" <;> simp [h]

/-- **C213** (failures).  A dict whose metadata is stored under a key `from_dict` is not told about is refused: with a TypeError if one of the items names, under
"metadata", a class the constraint excludes, and with a ValueError otherwise. -/
theorem C213_refused_partial {D : Type} (sub : γ → γ → Bool) (load : String → Option γ) (lionClass : D → Option String)
    (dec : D → Except Exc (Item ι γ δ)) (key ikey : Option String) (d : KPile (KItem D)) (ts : Option (List γ))
    (hts : Pile.Named load d.body.itemType ts) (h1 : d.metaKey ≠ "metadata") (h2 : key ≠ some d.metaKey) (x : Exc) :
    pileFromDict sub load lionClass dec key ikey d = .error x ↔
      (NamesOther sub load lionClass ts d.body.strict d.body.items ∧ x = .typeError) ∨
      (¬ NamesOther sub load lionClass ts d.body.strict d.body.items ∧ x = .valueError) := by
  have hr : readable key d.metaKey = false := by simp [readable, h1, h2]
  have hn : Pile.precheckAll sub load (lionClassK lionClass) ts d.body.strict d.body.items = false ↔
      NamesOther sub load lionClass ts d.body.strict d.body.items := by
    rw [Pile.precheckAll_false]
    unfold NamesOther
    constructor
    · rintro ⟨i, hi, c, hc, ha⟩
      rw [declares_iff] at hc
      exact ⟨i, hi, c, hc.1, hc.2, ha⟩
    · rintro ⟨i, hi, c, hc1, hc2, ha⟩
      exact ⟨i, hi, c, (declares_iff load lionClass i c).2 ⟨hc1, hc2⟩, ha⟩
  rw [fromDict_unreadable (h := hr)]
  unfold refuse
  rw [(Pile.loadTypes_iff load _ _).2 hts]
  show Except.error (if _ then _ else _) = _ ↔ _
  rw [← hn]
  cases hp : Pile.precheckAll sub load (lionClassK lionClass) ts d.body.strict d.body.items <;> simp [@eq_comm _ x]

/-- **C214** (exact).  Every reachable graph comes back with the same keys on both sides if and only if it is not written in mode "db", or with a `meta_key` and
`item_meta_key="node_metadata"`. -/
theorem C214_exact_partial {D : Type} (clsN clsE : Unit → String) (load : String → Option Unit) (lionClass : D → Option String)
    (encN : Item ι Unit ν → D) (decN : D → Except Exc (Item ι Unit ν))
    (encE : Item ι Unit (EdgeData ι ε) → D) (decE : D → Except Exc (Item ι Unit (EdgeData ι ε))) (f : ε → ε)
    (hN : ∀ c, load (clsN c) = some c) (hE : ∀ c, load (clsE c) = some c)
    (hdN : ∀ x, decN (encN x) = .ok x) (hdE : ∀ e, decE (encE e) = .ok (Graph.strip f e))
    (ops : List (Graph.Op ι ν ε)) (s : Digraph.SG ι ν ε) (hs : Graph.Shows (Graph.run {} ops) s)
    (mode : Element.Mode) (key ikey : Option String) :
    (∃ d g', graphToDict clsN clsE encN encE mode key ikey (Graph.run {} ops) = .ok d ∧
      graphFromDict load lionClass decN decE key ikey d = .ok g' ∧
      Graph.Shows g' ⟨s.nodes, s.edges.map (Graph.strip f)⟩) ↔
    (mode ≠ .db ∨ (key ≠ none ∧ ikey = some "node_metadata")) := by
  constructor
  · rintro ⟨d, g', h1, h2, _⟩
    refine Classical.byContradiction (fun hc => ?_)
    have hm : mode = .db := Classical.byContradiction (fun h => hc (Or.inl h))
    subst hm
    have hk : key = none ∨ ikey ≠ some "node_metadata" := by
      by_cases h : key = none
      · exact Or.inl h
      · exact Or.inr (fun hi => hc (Or.inr ⟨h, hi⟩))
    obtain ⟨e, he⟩ := C214_db_violation clsN clsE load lionClass encN decN encE decE _ key ikey hk d h1
    rw [he] at h2
    cases h2
  · exact C214_round_trip_partial clsN clsE load lionClass encN decN encE decE f hN hE hdN hdE ops s hs mode key ikey

/-- **C214** (failures).  A graph dict whose piles can be read but whose own metadata is stored under a key `from_dict` is not told about is refused with a ValueError. -/
theorem C214_refused_partial {D : Type} (load : String → Option Unit) (lionClass : D → Option String)
    (decN : D → Except Exc (Item ι Unit ν)) (decE : D → Except Exc (Item ι Unit (EdgeData ι ε)))
    (key ikey : Option String) (d : GraphK D) (n : Pile ι Unit ν) (es : Pile ι Unit (EdgeData ι ε))
    (hn : pileFromDict Graph.anySub load lionClass decN ikey ikey d.nodes = .ok n)
    (he : pileFromDict Graph.anySub load lionClass decE ikey ikey d.edges = .ok es)
    (h1 : d.metaKey ≠ "metadata") (h2 : key ≠ some d.metaKey) : graphFromDict load lionClass decN decE key ikey d = .error .valueError := by
  have hr : readable key d.metaKey = false := by simp [readable, h1, h2]
  simp [graphFromDict, hn, he, hr]

/-- A dict with metadata under "other": an item of a class outside the constraint is a TypeError, one of the class a ValueError. -/
example :
    pileFromDict (ι := Nat) (γ := Nat) (δ := Nat) (fun a b => decide (a = b)) (fun s => some s.length) (fun x : Item Nat Nat Nat => some (String.ofList (List.replicate x.cls 'a')))
      Except.ok none none ⟨"other", { items := [⟨"metadata", ⟨7, 2, 0⟩⟩], itemType := some ["aaa"], strict := false, progressionName := none }⟩ = .error .typeError ∧
    pileFromDict (ι := Nat) (γ := Nat) (δ := Nat) (fun a b => decide (a = b)) (fun s => some s.length) (fun x : Item Nat Nat Nat => some (String.ofList (List.replicate x.cls 'a')))
      Except.ok none none ⟨"other", { items := [⟨"metadata", ⟨7, 3, 0⟩⟩], itemType := some ["aaa"], strict := false, progressionName := none }⟩ = .error .valueError := by
  constructor <;> rfl

end Verif.Container

namespace Verif.Flow

variable {ι γ δ : Type} [DecidableEq ι] [DecidableEq γ]

/-- **C139** (exact).  Under the conditions of `C139_round_trip_partial`, a flow comes back from `from_dict(to_dict(mode, meta_key=key), meta_key=key')` if and only if
its metadata is written under "metadata". -/
theorem C139_exact_partial {D P : Type} (sub : γ → γ → Bool) (C : Codec ι γ δ D P)
    (hdec : ∀ x, C.dec (C.enc x) = .ok x) (hcls : ∀ x, C.lionClass (C.enc x) = some (C.clsName x.cls))
    (hload : ∀ c, C.load (C.clsName c) = some c) (hdecP : ∀ p, C.decP (C.encP p) = .ok p)
    (xs : List (Pile.Arg ι γ δ)) (t : Option (List γ)) (s : Bool) (ps : List (Prog ι)) (f0 : Flow ι γ δ)
    (h : Built sub xs t s ps f0) (hd : DistinctNames ps) (ht : t ≠ some []) (ops : List (Op ι γ δ))
    (hs : SafeRemovals sub f0 ops) (mode : Element.Mode) (key : Option String) (name : Option String) :
    (∃ d g, toDict C mode key name (run sub f0 ops) = .ok d ∧ fromDict sub C key d = .ok (g, name) ∧ Same (run sub f0 ops) g) ↔
      PlainKey mode key := by
  constructor
  · rintro ⟨d, g, h1, h2, _⟩
    refine Classical.byContradiction (fun hk => ?_)
    rw [C139_meta_key_violation sub C _ mode key key name hk d h1] at h2
    cases h2
  · intro hk
    exact C139_round_trip_partial sub C hdec hcls hload hdecP xs t s ps f0 h hd ht ops hs mode key hk name

/-- A progression lists an id that no item has. -/
def Dangling (items : List (Item ι γ δ)) (progs : List (Prog ι)) : Prop := ∃ p ∈ progs, ∃ u ∈ p.data.order, ∀ x ∈ items, x.id ≠ u

/-- **C139** (failures).  When both piles of a flow dict can be read (and its metadata is found), `Flow.from_dict` raises exactly if a progression lists an id that no
item has, and then a NotFoundError; otherwise the flow has these items and progressions. -/
theorem C139_dangling_partial {D P : Type} (sub : γ → γ → Bool) (C : Codec ι γ δ D P) (key : Option String) (d : FlowDict D P)
    (hm : d.metaKey = "metadata") (items : Pile ι γ δ) (progs : Pile ι Unit (ProgData ι)) (hI : Pile.Inv items) (hP : Pile.Inv progs)
    (h1 : pileFrom sub C.load C.lionClass C.dec d.items = .ok items)
    (h2 : pileFrom anySub (fun _ => some ()) (fun _ => none) C.decP d.progs = .ok progs) :
    (Dangling (Pile.abs items) (Pile.abs progs) → fromDict sub C key d = .error .notFound) ∧
    (¬ Dangling (Pile.abs items) (Pile.abs progs) → ∃ f, fromDict sub C key d = .ok (f, d.name) ∧ f.items = items ∧ f.progs = progs) := by
  have hf : metaFound key d.metaKey = true := by simp [metaFound, hm]
  have hk : ∀ u, u ∈ items.keys ↔ ∃ x ∈ Pile.abs items, x.id = u := by
    intro u
    have : u ∈ items.keys ↔ u ∈ items.order := Iff.rfl
    rw [this, hI.mem_iff]
    constructor
    · intro h
      obtain ⟨x, hx⟩ := Option.isSome_iff_exists.1 ((Dict.get?_isSome_iff _ u).2 h)
      have hid := hI.ids u x hx
      exact ⟨x, (Pile.mem_abs hI x).2 (by rw [hid]; exact hx), hid⟩
    · rintro ⟨x, hx, rfl⟩
      exact (Dict.get?_isSome_iff _ _).1 (by rw [(Pile.mem_abs hI x).1 hx]; rfl)
  have hd : (Pile.abs progs).any (fun p => missing items p.data.order) = true ↔ Dangling (Pile.abs items) (Pile.abs progs) := by
    simp only [List.any_eq_true, Dangling, missing]
    constructor
    · rintro ⟨p, hp, u, hu, hn⟩
      refine ⟨p, hp, u, hu, ?_⟩
      intro x hx e
      have := (hk u).2 ⟨x, hx, e⟩
      simp [this] at hn
    · rintro ⟨p, hp, u, hu, hn⟩
      refine ⟨p, hp, u, hu, ?_⟩
      have : u ∉ items.keys := fun h => by
        obtain ⟨x, hx, e⟩ := (hk u).1 h
        exact hn x hx e
      simp [this]
  constructor
  · intro h
    simp only [fromDict, hf, h1, h2, finish, Pile.iter_eq hP, hd.2 h, if_true, Bool.true_eq_false, if_false]
  · intro h
    have hn : (Pile.abs progs).any (fun p => missing items p.data.order) = false := by
      rw [← Bool.not_eq_true]
      exact fun c => h (hd.1 c)
    simp only [fromDict, hf, h1, h2, finish, Pile.iter_eq hP, hn, Bool.true_eq_false, Bool.false_eq_true, if_false]
    exact ⟨_, rfl, rfl, rfl⟩

/-- A flow dict with a progression that lists an unknown id. -/
example : fromDict (fun _ _ => true) demoCodec none
    ⟨"metadata", none, ⟨"metadata", { items := [⟨1, (), ()⟩], itemType := none, strict := false, progressionName := none }⟩,
      ⟨"metadata", { items := [p10 (some "a") [1, 2]], itemType := none, strict := false, progressionName := none }⟩⟩ = .error .notFound := rfl

end Verif.Flow

namespace Verif.Json

/-- **C218** (plain texts).  A text without quotation marks, backslashes and control characters is written as it is, between quotation marks. -/
theorem C218_verbatim (indent : Bool) (d : Nat) (s : Str) (h : ∀ c ∈ s, 32 ≤ c.toNat ∧ c ≠ '"' ∧ c ≠ '\\') :
    write indent d (.str s) = '"' :: (s ++ ['"']) := by
  have : s.flatMap escape = s := by
    induction s with
    | nil => rfl
    | cons c s ih =>
      obtain ⟨h1, h2, h3⟩ := h c (by simp)
      have hc : escape c = [c] := by
        have ne : ∀ x : Char, x.toNat < 32 → c ≠ x := by
          rintro x hx rfl
          omega
        unfold escape
        rw [if_neg h2, if_neg h3, if_neg (ne _ (by decide)), if_neg (ne _ (by decide)), if_neg (ne _ (by decide)), if_neg (ne _ (by decide)),
          if_neg (ne _ (by decide)), if_neg (by omega)]
      rw [List.flatMap_cons, hc, ih (fun c hc => h c (by simp [hc]))]
      rfl
  simp only [write, writeStr, this]

example : write false 0 (.str "a b".toList) = "\"a b\"".toList := by decide

end Verif.Json

namespace Verif.Lexer

/-- A number begins with a digit, or with a minus sign and a digit. -/
def Numeral (cc : CharClass) (v : List Char) : Prop :=
  (∃ c r, v = c :: r ∧ cc.isDigit c = true) ∨ ∃ c r, v = '-' :: c :: r ∧ cc.isDigit c = true

theorem punct_num (c : Char) (k : Kind) (h : punct c = some k) : k ≠ .num := by
  unfold punct at h
  repeat' split at h
  all_goals first
    | cases h; nofun
    | cases h

theorem lexTag_num (inOut : Bool) (t : List Char) (v : List Char) : (lexTag inOut t).tok ≠ some (.num, v) := by
  unfold lexTag
  repeat' split
  all_goals nofun

theorem lexOne_num (cc : CharClass) (inOut : Bool) (c : Char) (r v : List Char) (h : (lexOne cc inOut c r).tok = some (.num, v)) : Numeral cc v := by
  have hnum : ∀ d, cc.isDigit d = true → isNumChar cc d = true := by
    intro d hd
    simp [isNumChar, hd]
  unfold lexOne at h
  repeat' split at h
  all_goals first
    | (cases h; done)
    | skip
  · exact absurd h (lexTag_num _ _ _)
  · rename_i hm
    obtain ⟨_, _, hd⟩ := hm
    cases r with
    | nil => cases hd
    | cons d r =>
      have hd' : cc.isDigit d = true := hd
      simp only [Option.some.injEq, Prod.mk.injEq, true_and] at h
      rw [List.takeWhile_cons, hnum d hd', if_pos rfl] at h
      exact Or.inr ⟨d, _, h.symm, hd'⟩
  · rename_i hd
    simp only [Option.some.injEq, Prod.mk.injEq, true_and] at h
    rw [List.takeWhile_cons, hnum c hd, if_pos rfl] at h
    exact Or.inl ⟨c, _, h.symm, hd⟩
  all_goals
    rename_i k hk _
    simp only [Option.some.injEq, Prod.mk.injEq] at h
    exact absurd h.1 (punct_num c k hk)

theorem go_num (cc : CharClass) : ∀ (fuel : Nat) (inOut : Bool) (p : Nat × Nat) (t : List Char) (ts : List Token), go cc fuel inOut p t = some ts →
    ∀ x ∈ ts, x.kind = .num → Numeral cc x.value := by
  intro fuel
  induction fuel with
  | zero =>
    intro inOut p t ts h x hx hk
    cases t with
    | cons => cases h
    | nil =>
      cases h
      rw [List.mem_singleton] at hx
      subst hx
      cases hk
  | succ fuel ih =>
    intro inOut p t ts h x hx hk
    cases t with
    | nil =>
      cases h
      rw [List.mem_singleton] at hx
      subst hx
      cases hk
    | cons c r =>
      rw [go, Option.map_eq_some_iff] at h
      obtain ⟨ts', hts', rfl⟩ := h
      cases htok : (lexOne cc inOut c r).tok with
      | none =>
        rw [htok] at hx
        exact ih _ _ _ _ hts' x hx hk
      | some kv =>
        obtain ⟨k, v⟩ := kv
        rw [htok] at hx
        simp only [push, List.mem_cons] at hx
        rcases hx with rfl | hx
        · simp only [mkTok] at hk ⊢
          subst hk
          exact lexOne_num cc inOut c r v htok
        · exact ih _ _ _ _ hts' x hx hk

/-- **C45** (numbers).  Every number token begins with a digit or with a minus sign and a digit. -/
theorem C45_numbers (cc : CharClass) (text : List Char) (ts : List Token) (h : tokenize cc text = some ts) :
    ∀ x ∈ ts, x.kind = .num → Numeral cc x.value := go_num cc _ _ _ _ _ h

/-- A negative number, and a minus sign at the end of the text. -/
example : (tokenize asciiClass "OUT{-5".toList).map (·.map (fun t => (t.kind, t.value))) =
      some [(.outOpen, "OUT{".toList), (.num, "-5".toList), (.eof, [])] ∧
    (tokenize asciiClass "OUT{-".toList).map (·.map (fun t => (t.kind, t.value))) = some [(.outOpen, "OUT{".toList), (.eof, [])] := by
  decide +kernel

end Verif.Lexer

namespace Verif.EventSerial

open Verif.Event (Status)

/-- Values the JSON encoder takes and `model_dump()` leaves alone: no bytes, no integers beyond 64 bits, no surrogates, no models, no unknown objects. -/
inductive Kept : V → Prop where
  | null : Kept .null
  | bool (b : Bool) : Kept (.bool b)
  | int (n : Int) : -(2 ^ 63) ≤ n → n < 2 ^ 64 → Kept (.int n)
  | float (q : Rat) : Kept (.float q)
  | nonFinite : Kept .nonFinite
  | str (t : Text) : Writable t → Kept (.str t)
  | native (t : Text) : Kept (.native t)
  | viaStr (t : Text) : Writable t → Kept (.viaStr t)
  | enum (v : V) : Kept v → Kept (.enum v)
  | set (xs : List V) : (∀ x ∈ xs, Kept x) → Kept (.set xs)
  | list (xs : List V) : (∀ x ∈ xs, Kept x) → Kept (.list xs)
  | dict (kvs : List (Key × V)) : (∀ k x, (k, x) ∈ kvs → ∃ t, k = .text t ∧ Writable t) → (∀ k x, (k, x) ∈ kvs → Kept x) → Kept (.dict kvs)

theorem dumpList_id {xs : List V} (h : ∀ x ∈ xs, pyDump x = x) : pyDump.dumpList xs = xs := by
  induction xs with
  | nil => rfl
  | cons x xs ih => rw [pyDump.dumpList, h x (by simp), ih (fun y hy => h y (by simp [hy]))]

theorem dumpKV_id {kvs : List (Key × V)} (h : ∀ k x, (k, x) ∈ kvs → pyDump x = x) : pyDump.dumpKV kvs = kvs := by
  induction kvs with
  | nil => rfl
  | cons kv kvs ih =>
    obtain ⟨k, x⟩ := kv
    rw [pyDump.dumpKV, h k x (by simp), ih (fun k' y hy => h k' y (by simp [hy]))]

theorem Kept.fixed {v : V} (h : Kept v) : encodable v = true ∧ pyDump v = v := by
  induction h with
  | null => exact ⟨rfl, rfl⟩
  | bool b => exact ⟨rfl, rfl⟩
  | int n h1 h2 => exact ⟨(intOk_iff n).2 ⟨h1, h2⟩, rfl⟩
  | float q => exact ⟨rfl, rfl⟩
  | nonFinite => exact ⟨rfl, rfl⟩
  | str t h => exact ⟨(textOk_iff t).2 h, rfl⟩
  | native t => exact ⟨rfl, rfl⟩
  | viaStr t h => exact ⟨(textOk_iff t).2 h, rfl⟩
  | enum v h ih => exact ⟨ih.1, rfl⟩
  | set xs h ih =>
    refine ⟨(allEnc_iff xs).2 (fun x hx => (ih x hx).1), ?_⟩
    rw [pyDump, dumpList_id (fun x hx => (ih x hx).2)]
  | list xs h ih =>
    refine ⟨(allEnc_iff xs).2 (fun x hx => (ih x hx).1), ?_⟩
    rw [pyDump, dumpList_id (fun x hx => (ih x hx).2)]
  | dict kvs hk h ih =>
    refine ⟨(allEncKV_iff kvs).2 (fun k x hx => ⟨hk k x hx, (ih k x hx).1⟩), ?_⟩
    rw [pyDump, dumpKV_id (fun k x hx => (ih k x hx).2)]

/-- **C202** (responses kept).  In python mode a response made of values the encoder takes and of no models is written as it is, with its sets, enumeration members and
dates, whatever the fallback conversion does. -/
theorem C202_kept (force : V → Option V) (x : Execution) (hx : x.statusIsText = false) (v : V) (hv : x.response = .value v) (hk : Kept v) :
    ∃ d, eventToDict force x .python = .ok d ∧ d.response = v := by
  have hf := hk.fixed
  refine ⟨dumpDict ⟨x.status, orNull .float x.duration, responseEntry force x.response, errorEntry x.error, orNull .bool x.retryable⟩,
    by simp [eventToDict, execToDict, hx], ?_⟩
  have : responseEntry force (.value v) = v := by
    simp only [responseEntry, jsonSerializable, hf.1, if_true, ite_self, Option.getD_some]
  simp only [dumpDict, hv, this, hf.2]

/-- A set with a date. -/
example : Kept (.set [.native (lit "2024-01-01"), .int 3]) :=
  .set _ (by
    intro x hx
    simp only [List.mem_cons, List.not_mem_nil, or_false] at hx
    rcases hx with rfl | rfl
    · exact .native _
    · exact .int 3 (by decide) (by decide))

end Verif.EventSerial

namespace Verif.Flow

variable {ι γ δ : Type} [DecidableEq ι] [DecidableEq γ]

/-- **C87** (ids).  `get_progression(id)` returns the progression with that id, raises NotFoundError exactly if there is none, and what is not an id raises TypeError. -/
theorem C87_ids_partial (sub : γ → γ → Bool) (xs : List (Pile.Arg ι γ δ)) (t : Option (List γ)) (s : Bool)
    (ps : List (Prog ι)) (f0 : Flow ι γ δ) (h : Built sub xs t s ps f0) (ops : List (Op ι γ δ)) (L : List (Prog ι))
    (hL : Pile.iter (run sub f0 ops).progs = .ok L) (u : ι) :
    (∀ p, getProgression (run sub f0 ops) (.ref (some u)) = .ok p ↔ p ∈ L ∧ p.id = u) ∧
    (getProgression (run sub f0 ops) (.ref (some u)) = .error .notFound ↔ ∀ p ∈ L, p.id ≠ u) ∧
    getProgression (run sub f0 ops) (.ref none) = .error .typeError := by
  have hg := (h.ok.1).run sub ops
  generalize run sub f0 ops = f at hg hL ⊢
  rw [Pile.iter_eq hg.progs] at hL
  cases hL
  have key : ∀ p, f.progs.items.get? u = some p ↔ p ∈ Pile.abs f.progs ∧ p.id = u := by
    intro p
    constructor
    · intro hp
      have hid := hg.progs.ids u p hp
      exact ⟨(Pile.mem_abs hg.progs p).2 (by rw [hid]; exact hp), hid⟩
    · rintro ⟨hp, rfl⟩
      exact (Pile.mem_abs hg.progs p).1 hp
  refine ⟨?_, ?_, rfl⟩
  · intro p
    rw [← key p]
    simp only [getProgression]
    cases f.progs.items.get? u <;> simp
  · simp only [getProgression]
    cases hu : f.progs.items.get? u with
    | none =>
      simp only [true_iff]
      intro p hp hid
      have := (key p).2 ⟨hp, hid⟩
      rw [hu] at this
      cases this
    | some p =>
      simp only [reduceCtorEq, false_iff]
      intro hn
      obtain ⟨h1, h2⟩ := (key p).1 hu
      exact hn p h1 h2

/-- A flow with one progression: known and unknown ids. -/
example : getProgression (flow1 (p10 (some "a") [1])) (.ref (some 10)) = .ok (p10 (some "a") [1]) ∧
    getProgression (flow1 (p10 (some "a") [1])) (.ref (some 77)) = .error .notFound := by decide

end Verif.Flow
