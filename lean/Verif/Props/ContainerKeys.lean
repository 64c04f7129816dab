import Verif.Model.ContainerKeys
import Verif.Props.FlowSerial
import Verif.Props.GraphSerial

/-!
# Properties C213, C214: modes and metadata keys of serialised piles and graphs
-/

set_option linter.unusedSectionVars false
set_option linter.unusedSimpArgs false
set_option linter.unusedVariables false

namespace Verif.Container

open Verif.Flow (KPile metaName metaFound)

variable {ι γ δ ν ε : Type} [DecidableEq ι] [DecidableEq γ]

/-! ## Specification -/

/-- `from_dict(.., meta_key=key')` can find the metadata that `to_dict(mode, meta_key=key)` wrote: it is told the key if that is not
"metadata", and it is told "node_metadata" for the default of mode "db". -/
def Finds (mode : Element.Mode) (key key' : Option String) : Prop :=
  (∀ k, key = some k → k ≠ "" → k ≠ "metadata" → key' = some k) ∧ (mode = .db → key = none → key' = some "node_metadata")

/-- The same for an item: "node_metadata" is found without being told. -/
def ItemFinds (key key' : Option String) : Prop :=
  ∀ k, key = some k → k ≠ "" → k ≠ "metadata" → k ≠ "node_metadata" → key' = some k

/-- `q` is the pile `p`: the same items in the same order, the same constraint, strictness and name. -/
def SamePile (p q : Pile ι γ δ) : Prop :=
  (∃ l, Pile.iter p = .ok l ∧ Pile.iter q = .ok l) ∧ Pile.keys q = Pile.keys p ∧ q.itemType = p.itemType ∧ q.strict = p.strict ∧
    q.pname = p.pname

/-! ## Lemmas -/

theorem readable_iff (mode : Element.Mode) (key key' : Option String) :
    readable key' (metaName mode key) = true ↔ Finds mode key key' := by
  unfold readable Finds
  cases key with
  | none => cases mode <;> simp [metaName] <;> exact decide_eq_true_iff
  | some k =>
    by_cases e : k = ""
    · subst e
      cases mode <;> simp [metaName]
    · cases mode <;> simp [metaName, e] <;> grind

theorem found_iff (ikey ikey' : Option String) :
    metaFound ikey' (metaName .json ikey) = true ↔ ItemFinds ikey ikey' := by
  unfold metaFound ItemFinds
  cases ikey with
  | none => simp [metaName]
  | some k =>
    by_cases e : k = ""
    · subst e
      simp [metaName]
    · simp [metaName, e] <;> grind

theorem nameKey_eq (mode : Element.Mode) (key : Option String) :
    nameKey mode key = metaName mode key ↔ ¬ (mode = .db ∧ key = some "") := by
  cases key with
  | none => cases mode <;> simp [nameKey, metaName, Pile.truthyName]
  | some k =>
    by_cases e : k = ""
    · subst e
      cases mode <;> simp [nameKey, metaName, Pile.truthyName]
    · cases mode <;> simp [nameKey, metaName, e, Pile.truthyName]

theorem decK_encK {D : Type} (enc : Item ι γ δ → D) (dec : D → Except Exc (Item ι γ δ)) (ikey ikey' : Option String)
    (h : ItemFinds ikey ikey') (x : Item ι γ δ) : decK dec ikey' (encK enc ikey x) = dec (enc x) := by
  have := (found_iff ikey ikey').2 h
  simp only [decK, encK, this, if_true]

theorem decK_fails {D : Type} (enc : Item ι γ δ → D) (dec : D → Except Exc (Item ι γ δ)) (ikey ikey' : Option String)
    (h : ¬ ItemFinds ikey ikey') (x : Item ι γ δ) : decK dec ikey' (encK enc ikey x) = .error .valueError := by
  have h' : metaFound ikey' (metaName .json ikey) = false := by
    cases hc : metaFound ikey' (metaName .json ikey) with
    | false => rfl
    | true => exact absurd ((found_iff ikey ikey').1 hc) h
  simp only [decK, encK, h', Bool.false_eq_true, if_false]

theorem lionClassK_cases {D : Type} (lionClass : D → Option String) (clsName : γ → String) (enc : Item ι γ δ → D)
    (hcls : ∀ x, lionClass (enc x) = some (clsName x.cls)) (ikey : Option String) (x : Item ι γ δ) :
    lionClassK lionClass (encK enc ikey x) = none ∨ lionClassK lionClass (encK enc ikey x) = some (clsName x.cls) := by
  unfold lionClassK encK
  split
  · exact Or.inr (hcls x)
  · exact Or.inl rfl

theorem addDecoded_fails {D : Type} (sub : γ → γ → Bool) (dec : D → Except Exc (Item ι γ δ)) (p : Pile ι γ δ)
    (l : List D) (hl : l ≠ []) (h : ∀ d ∈ l, dec d = .error .valueError) :
    Pile.addDecoded sub dec p l = .error .valueError := by
  cases l with
  | nil => exact absurd rfl hl
  | cons d ds => simp only [Pile.addDecoded, h d (by simp)]

theorem add_pname (sub : γ → γ → Bool) (p : Pile ι γ δ) (a : Pile.Arg ι γ δ) : (Pile.add sub p a).1.pname = p.pname := by
  unfold Pile.add
  repeat' split
  all_goals rfl

/-- Whatever is written, reading without the right key fails. -/
theorem fromDict_unreadable {D : Type} (sub : γ → γ → Bool) (load : String → Option γ) (lionClass : D → Option String)
    (dec : D → Except Exc (Item ι γ δ)) (key ikey : Option String) (d : KPile (KItem D)) (h : readable key d.metaKey = false) :
    pileFromDict sub load lionClass dec key ikey d = .error (refuse sub load (lionClassK lionClass) d.body) := by
  simp only [pileFromDict, h, Bool.false_eq_true, if_false]

theorem fromDict_readable {D : Type} (sub : γ → γ → Bool) (load : String → Option γ) (lionClass : D → Option String)
    (dec : D → Except Exc (Item ι γ δ)) (key ikey : Option String) (d : KPile (KItem D)) (h : readable key d.metaKey = true) :
    pileFromDict sub load lionClass dec key ikey d = Pile.fromDict sub load (lionClassK lionClass) (decK dec ikey) d.body := by
  simp only [pileFromDict, h, if_true]

theorem fromDict_items_fail {D : Type} (sub : γ → γ → Bool) (load : String → Option γ) (lionClass : D → Option String)
    (dec : D → Except Exc (Item ι γ δ)) (d : Pile.PileDict D) (hne : d.items ≠ [])
    (h : ∀ x ∈ d.items, dec x = .error .valueError) (q : Pile ι γ δ) : Pile.fromDict sub load lionClass dec d ≠ .ok q := by
  unfold Pile.fromDict
  split
  · simp
  · split
    · simp
    · rw [addDecoded_fails sub dec _ _ hne h]; simp

/-! ## C213 -/

/-- **C213** (every key).  For every reachable pile (with the domain of C10 and no metadata entry `progression_name`): what
`to_dict(mode, meta_key=key, item_meta_key=ikey)` writes, `Pile.from_dict(.., meta_key=key', item_meta_key=ikey')` reads back as
the same pile exactly if it is told the key of the metadata, the items (if there are any) can be found in the same way, and a
name was not dropped (`meta_key=""` in mode "db"). -/
theorem C213_keys {D : Type} (sub : γ → γ → Bool) (clsName : γ → String) (load : String → Option γ)
    (enc : Item ι γ δ → D) (dec : D → Except Exc (Item ι γ δ)) (lionClass : D → Option String)
    (p : Pile ι γ δ) (h : Pile.Reachable sub p) (n : Option String)
    (hdec : ∀ x, dec (enc x) = .ok x) (hcls : ∀ x, lionClass (enc x) = some (clsName x.cls))
    (hload : ∀ c, load (clsName c) = some c) (hne : p.itemType ≠ some []) (hname : n ≠ some "")
    (mode : Element.Mode) (key ikey key' ikey' : Option String) :
    (∃ d q, pileToDict clsName enc none mode key ikey { p with pname := n } = .ok d ∧
      pileFromDict sub load lionClass dec key' ikey' d = .ok q ∧ SamePile { p with pname := n } q) ↔
    Finds mode key key' ∧ (Pile.keys p = [] ∨ ItemFinds ikey ikey') ∧ ¬ (mode = .db ∧ key = some "" ∧ n ≠ none) := by
  have hi : Pile.Inv p := h.inv
  -- the name that is written
  have hnm : ∃ m, named mode key { p with pname := n } = { p with pname := m } ∧ m ≠ some "" ∧
      (m = n ↔ ¬ (mode = .db ∧ key = some "" ∧ n ≠ none)) := by
    unfold named
    by_cases e : nameKey mode key = metaName mode key
    · refine ⟨n, by rw [if_pos e], hname, ?_⟩
      rw [nameKey_eq] at e
      simp only [true_iff]
      exact fun ⟨a, b, _⟩ => e ⟨a, b⟩
    · refine ⟨none, by rw [if_neg e], by simp, ?_⟩
      rw [nameKey_eq] at e
      have e' := Classical.not_not.1 e
      constructor
      · rintro rfl ⟨_, _, c⟩; exact c rfl
      · intro c
        apply Classical.byContradiction
        intro c'
        exact c ⟨e'.1, e'.2, fun hn => c' hn.symm⟩
  obtain ⟨m, hm, hm1, hm2⟩ := hnm
  have hmn : (m = none ∧ (none : Option String) = none) ∨ ∃ s, m = some s ∧ s ≠ "" := by
    cases m with
    | none => exact Or.inl ⟨rfl, rfl⟩
    | some s => exact Or.inr ⟨s, rfl, fun e => hm1 (by rw [e])⟩
  have hi' : Pile.Inv { p with pname := m } := ⟨hi.wf, hi.nodup, hi.mem_iff, hi.ids⟩
  obtain ⟨b, hb, hitems⟩ : ∃ b, Pile.toDict clsName (encK enc ikey) none { p with pname := m } = .ok b ∧
      b.items = (Pile.abs p).map (encK enc ikey) := by
    refine ⟨_, by simp only [Pile.toDict, Pile.iter_eq hi']; rfl, rfl⟩
  have hto : pileToDict clsName enc none mode key ikey { p with pname := n } = .ok ⟨metaName mode key, b⟩ := by
    simp only [pileToDict, hm, hb]
  have hkeys : Pile.keys p = (Pile.abs p).map Item.id := (Pile.abs_ids hi).symm
  constructor
  · rintro ⟨d, q, hd, hq, ⟨l, l1, l2⟩, s1, s2, s3, s4⟩
    rw [hto] at hd
    cases hd
    have hr : readable key' (metaName mode key) = true := by
      cases hc : readable key' (metaName mode key) with
      | true => rfl
      | false =>
        rw [fromDict_unreadable (h := hc)] at hq
        cases hq
    rw [fromDict_readable (h := hr)] at hq
    have hf : Pile.keys p = [] ∨ ItemFinds ikey ikey' := by
      by_cases hf : ItemFinds ikey ikey'
      · exact Or.inr hf
      · refine Or.inl ?_
        apply Classical.byContradiction
        intro hk
        refine fromDict_items_fail sub load (lionClassK lionClass) (decK dec ikey') b ?_ ?_ q hq
        · rw [hitems]
          intro e
          apply hk
          rw [hkeys, List.map_eq_nil_iff.1 e]
          rfl
        · rw [hitems]
          intro x hx
          obtain ⟨y, _, rfl⟩ := List.mem_map.1 hx
          exact decK_fails enc dec ikey ikey' hf y
    refine ⟨(readable_iff ..).1 hr, hf, hm2.1 ?_⟩
    -- the name that is read
    have hpn : q.pname = m := by
      have key0 : ∀ (r : Pile ι γ δ) (l : List (KItem D)) (q : Pile ι γ δ),
          Pile.addDecoded sub (decK dec ikey') r l = .ok q → q.pname = r.pname := by
        intro r l
        induction l generalizing r with
        | nil => intro q hq; cases hq; rfl
        | cons d ds ih =>
          intro q hq
          simp only [Pile.addDecoded] at hq
          split at hq
          · cases hq
          · split at hq
            · rename_i x _ _ p' heq
              rw [ih _ _ hq]
              have := add_pname sub r (some x)
              rw [heq] at this
              exact this
            · cases hq
      have hb' : b.progressionName = (Pile.truthyName m).or none := by
        simp only [Pile.toDict, Pile.iter_eq hi'] at hb
        cases hb; rfl
      unfold Pile.fromDict at hq
      split at hq
      · cases hq
      · split at hq
        · cases hq
        · rw [key0 _ _ _ hq]
          show Pile.truthyName b.progressionName = m
          rw [hb']
          rcases hmn with ⟨rfl, _⟩ | ⟨s, rfl, hs⟩
          · rfl
          · simp [Pile.truthyName, hs]
    rw [← hpn, s4]
  · rintro ⟨h1, h2, h3⟩
    have hmn' := hm2.2 h3
    subst hmn'
    have hr := (readable_iff mode key key').2 h1
    rcases h2 with h2 | h2
    · -- no items: the decoder does not matter
      have habs : Pile.abs p = [] := by
        rw [hkeys] at h2; exact List.map_eq_nil_iff.1 h2
      obtain ⟨d, q, l, c1, c2, c3, c4, c5, c6, c7, c8⟩ := Pile.C10_round_trip sub clsName load (encK enc ikey)
        (decK dec ikey) (lionClassK lionClass) none p h m
        (fun x => by rw [decK_encK enc dec ikey ikey (fun k hk _ _ _ => hk), hdec])
        (lionClassK_cases lionClass clsName enc hcls ikey) hload hne hmn
      rw [hb] at c1
      cases c1
      refine ⟨_, q, hto, ?_, ⟨l, c3, c4⟩, c5, c6, c7, c8⟩
      rw [fromDict_readable (h := hr)]
      have hnil : b.items = [] := by rw [hitems, habs]; rfl
      rw [← c2]
      simp only [Pile.fromDict, hnil, Pile.addDecoded]
    · obtain ⟨d, q, l, c1, c2, c3, c4, c5, c6, c7, c8⟩ := Pile.C10_round_trip sub clsName load (encK enc ikey)
        (decK dec ikey') (lionClassK lionClass) none p h m
        (fun x => by rw [decK_encK enc dec ikey ikey' h2, hdec])
        (lionClassK_cases lionClass clsName enc hcls ikey) hload hne hmn
      rw [hb] at c1
      cases c1
      exact ⟨_, q, hto, by rw [fromDict_readable (h := hr)]; exact c2, ⟨l, c3, c4⟩, c5, c6, c7, c8⟩

/-- **C213** (partial).  With the same keys on both sides, the pile comes back exactly if it is not written in mode "db" without
`meta_key` and no name is lost to `meta_key=""` in mode "db".  Missing: these cases, see `C213_db_violation`. -/
theorem C213_exact_partial {D : Type} (sub : γ → γ → Bool) (clsName : γ → String) (load : String → Option γ)
    (enc : Item ι γ δ → D) (dec : D → Except Exc (Item ι γ δ)) (lionClass : D → Option String)
    (p : Pile ι γ δ) (h : Pile.Reachable sub p) (n : Option String)
    (hdec : ∀ x, dec (enc x) = .ok x) (hcls : ∀ x, lionClass (enc x) = some (clsName x.cls))
    (hload : ∀ c, load (clsName c) = some c) (hne : p.itemType ≠ some []) (hname : n ≠ some "")
    (mode : Element.Mode) (key ikey : Option String) :
    (∃ d q, pileToDict clsName enc none mode key ikey { p with pname := n } = .ok d ∧
      pileFromDict sub load lionClass dec key ikey d = .ok q ∧ SamePile { p with pname := n } q) ↔
    ¬ (mode = .db ∧ (key = none ∨ (key = some "" ∧ n ≠ none))) := by
  rw [C213_keys sub clsName load enc dec lionClass p h n hdec hcls hload hne hname]
  constructor
  · rintro ⟨⟨_, h1⟩, _, h3⟩ ⟨rfl, hk | ⟨hk, hn⟩⟩
    · have := h1 rfl hk
      rw [hk] at this
      cases this
    · exact h3 ⟨rfl, hk, hn⟩
  · intro h1
    refine ⟨⟨fun k hk _ _ => hk, fun hm hk => absurd ⟨hm, Or.inl hk⟩ h1⟩, Or.inr (fun k hk _ _ _ => hk), ?_⟩
    rintro ⟨hm, hk, hn⟩
    exact h1 ⟨hm, Or.inr ⟨hk, hn⟩⟩

/-- C213 is false in general: no pile written in mode "db" without `meta_key` is read back by `Pile.from_dict` unless it is told the
key "node_metadata". -/
theorem C213_db_violation {D : Type} (sub : γ → γ → Bool) (clsName : γ → String) (load : String → Option γ)
    (enc : Item ι γ δ → D) (dec : D → Except Exc (Item ι γ δ)) (lionClass : D → Option String) (metaProg : Option String)
    (p : Pile ι γ δ) (ikey key' ikey' : Option String) (hk : key' ≠ some "node_metadata") (d : KPile (KItem D))
    (hd : pileToDict clsName enc metaProg .db none ikey p = .ok d) :
    ∃ e, pileFromDict sub load lionClass dec key' ikey' d = .error e := by
  have : d.metaKey = metaName .db none := by
    unfold pileToDict at hd
    split at hd
    · cases hd
    · cases hd; rfl
  refine ⟨_, fromDict_unreadable sub load lionClass dec key' ikey' d ?_⟩
  rw [this]
  cases hc : readable key' (metaName .db none) with
  | false => rfl
  | true =>
    rw [readable_iff] at hc
    exact absurd (hc.2 rfl rfl) hk

/-- Non-vacuity for C213: a named pile with one item, written in mode "json" with keys of its own, comes back. -/
example : ∃ d q, pileToDict (fun c : Nat => String.ofList (List.replicate c 'a')) (id : Item Nat Nat Nat → _) none .json (some "pm")
      (some "im") { items := [(7, ⟨7, 2, 0⟩)], order := [7], pname := some "main" } = .ok d ∧
    d.metaKey = "pm" ∧ d.body.items.map KItem.metaKey = ["im"] ∧
    pileFromDict (fun _ _ => true) (fun s => some s.length) (fun x => some (String.ofList (List.replicate x.cls 'a'))) Except.ok
      (some "pm") (some "im") d = .ok q ∧ q.pname = some "main" ∧ q.order = [7] :=
  ⟨_, _, rfl, by decide, by decide, rfl, by decide, by decide⟩

/-- The same pile in mode "db" with `meta_key=""` loses its name, and without `meta_key` is not read back. -/
example : ∃ d q, pileToDict (fun c : Nat => String.ofList (List.replicate c 'a')) (id : Item Nat Nat Nat → _) none .db (some "")
      none { items := [(7, ⟨7, 2, 0⟩)], order := [7], pname := some "main" } = .ok d ∧
    pileFromDict (fun _ _ => true) (fun s => some s.length) (fun x => some (String.ofList (List.replicate x.cls 'a'))) Except.ok
      (some "") none d = .ok q ∧ q.pname = none :=
  ⟨_, _, rfl, rfl, by decide⟩

/-! ## C214 -/

/-- **C214** (partial, sufficient condition).  Every reachable graph comes back (nodes, edges and their order, as in C20) from
`Graph.from_dict(graph.to_dict(mode, meta_key=key, item_meta_key=ikey), meta_key=key, item_meta_key=ikey)` in modes "python" and
"json" with any keys, and in mode "db" with a `meta_key` and `item_meta_key="node_metadata"`.  Missing: the other cases of mode
"db", where it is false (`C214_db_violation`). -/
theorem C214_round_trip_partial {D : Type} (clsN clsE : Unit → String) (load : String → Option Unit) (lionClass : D → Option String)
    (encN : Item ι Unit ν → D) (decN : D → Except Exc (Item ι Unit ν))
    (encE : Item ι Unit (EdgeData ι ε) → D) (decE : D → Except Exc (Item ι Unit (EdgeData ι ε))) (f : ε → ε)
    (hN : ∀ c, load (clsN c) = some c) (hE : ∀ c, load (clsE c) = some c)
    (hdN : ∀ x, decN (encN x) = .ok x) (hdE : ∀ e, decE (encE e) = .ok (Graph.strip f e))
    (ops : List (Graph.Op ι ν ε)) (s : Digraph.SG ι ν ε) (hs : Graph.Shows (Graph.run {} ops) s)
    (mode : Element.Mode) (key ikey : Option String)
    (hm : mode ≠ .db ∨ (key ≠ none ∧ ikey = some "node_metadata")) :
    ∃ d g', graphToDict clsN clsE encN encE mode key ikey (Graph.run {} ops) = .ok d ∧
      graphFromDict load lionClass decN decE key ikey d = .ok g' ∧
      Graph.Shows g' ⟨s.nodes, s.edges.map (Graph.strip f)⟩ := by
  obtain ⟨d, g', h1, h2, h3, _⟩ := Graph.C20_round_trip clsN clsE load (lionClassK lionClass) (encK encN ikey) (decK decN ikey)
    (encK encE ikey) (decK decE ikey) f hN hE
    (fun x => by rw [decK_encK encN decN ikey ikey (fun k hk _ _ _ => hk), hdN])
    (fun x => by rw [decK_encK encE decE ikey ikey (fun k hk _ _ _ => hk), hdE]) ops s hs
  have hr1 : readable key (metaName mode key) = true := by
    rw [readable_iff]
    refine ⟨fun k hk _ _ => hk, fun a b => ?_⟩
    rcases hm with h | ⟨h, _⟩
    · exact absurd a h
    · exact absurd b h
  have hr2 : readable ikey (metaName mode none) = true := by
    rw [readable_iff]
    refine ⟨fun k hk => (by cases hk), fun a _ => ?_⟩
    rcases hm with h | ⟨_, h⟩
    · exact absurd a h
    · exact h
  have hnm : ∀ {δ : Type} (p : Pile ι Unit δ), named mode none p = p := by
    intro δ p
    unfold named
    rw [if_pos ((nameKey_eq mode none).2 (by simp))]
  obtain ⟨n, e, hn, he, rfl⟩ : ∃ n e, Pile.toDict clsN (encK encN ikey) none (Graph.run ({} : Graph ι ν ε) ops).nodes = .ok n ∧
      Pile.toDict clsE (encK encE ikey) none (Graph.run ({} : Graph ι ν ε) ops).edges = .ok e ∧ d = ⟨some n, some e⟩ := by
    unfold Graph.toDict at h1
    split at h1
    · cases h1
    · split at h1
      · cases h1
      · cases h1
        exact ⟨_, _, by assumption, by assumption, rfl⟩
  refine ⟨⟨metaName mode key, ⟨metaName mode none, n⟩, ⟨metaName mode none, e⟩⟩, g', ?_, ?_, h3⟩
  · simp only [graphToDict, pileToDict, hnm, hn, he]
  · rw [← h2]
    simp only [graphFromDict, fromDict_readable _ _ _ _ ikey ikey ⟨metaName mode none, _⟩ hr2, Graph.fromDict, Graph.pileFrom,
      hr1, if_true]
    rfl

/-- C214 is false in general: in mode "db" without `meta_key`, or with any `item_meta_key` but "node_metadata", the call
`Graph.from_dict(graph.to_dict("db", meta_key=key, item_meta_key=ikey), meta_key=key, item_meta_key=ikey)` raises, whatever the
graph. -/
theorem C214_db_violation {D : Type} (clsN clsE : Unit → String) (load : String → Option Unit) (lionClass : D → Option String)
    (encN : Item ι Unit ν → D) (decN : D → Except Exc (Item ι Unit ν))
    (encE : Item ι Unit (EdgeData ι ε) → D) (decE : D → Except Exc (Item ι Unit (EdgeData ι ε)))
    (g : Graph ι ν ε) (key ikey : Option String) (hk : key = none ∨ ikey ≠ some "node_metadata") (d : GraphK D)
    (hd : graphToDict clsN clsE encN encE .db key ikey g = .ok d) :
    ∃ e, graphFromDict load lionClass decN decE key ikey d = .error e := by
  obtain ⟨h1, h2⟩ : d.metaKey = metaName .db key ∧ d.nodes.metaKey = metaName .db none := by
    unfold graphToDict pileToDict at hd
    repeat' split at hd
    all_goals first
      | cases hd
      | skip
    refine ⟨rfl, ?_⟩
    rename_i heq _ _ _
    split at heq
    · cases heq
    · cases heq; rfl
  by_cases hi : ikey = some "node_metadata"
  · have hkn : key = none := hk.resolve_right (fun h => h hi)
    subst hkn
    have hr : readable none d.metaKey = false := by rw [h1]; rfl
    unfold graphFromDict
    split
    · exact ⟨_, rfl⟩
    · split
      · exact ⟨_, rfl⟩
      · rw [hr]; exact ⟨_, rfl⟩
  · have hr : readable ikey d.nodes.metaKey = false := by
      rw [h2]
      cases hc : readable ikey (metaName .db none) with
      | false => rfl
      | true =>
        rw [readable_iff] at hc
        exact absurd (hc.2 rfl rfl) hi
    unfold graphFromDict
    rw [fromDict_unreadable _ _ _ _ _ _ _ hr]
    exact ⟨_, rfl⟩

/-- Non-vacuity for C214: a graph with two nodes and an edge, in mode "db" with the two keys of the documentation. -/
example : ∃ d g', graphToDict (fun _ => "N") (fun _ => "E") (fun x => x.id) (fun e => e.id) .db (some "graph_metadata")
      (some "node_metadata")
      (Graph.run ({} : Graph Nat Unit Unit) [.addNode (some ⟨1, (), ()⟩), .addNode (some ⟨2, (), ()⟩),
        .addEdge (some ⟨3, (), ⟨1, 2, ()⟩⟩)]) = .ok d ∧
    d.metaKey = "graph_metadata" ∧ d.nodes.metaKey = "node_metadata" ∧
    graphFromDict (fun _ => some ()) (fun _ => none) (fun n => .ok ⟨n, (), ()⟩) (fun n => .ok ⟨n, (), ⟨1, 2, ()⟩⟩)
      (some "graph_metadata") (some "node_metadata") d = .ok g' ∧ g'.nodes.order = [1, 2] ∧ g'.edges.order = [3] :=
  ⟨_, _, rfl, by decide, by decide, rfl, by decide, by decide⟩

/-- With a key of its own for the items the same graph is not read back. -/
example : ∃ d, graphToDict (fun _ => "N") (fun _ => "E") (fun x => x.id) (fun e => e.id) .db (some "gm") (some "im")
      (Graph.run ({} : Graph Nat Unit Unit) [.addNode (some ⟨1, (), ()⟩)]) = .ok d ∧
    ∃ e, graphFromDict (ι := Nat) (ν := Unit) (ε := Unit) (fun _ => some ()) (fun _ => none) (fun n => .ok ⟨n, (), ()⟩)
      (fun n => .ok ⟨n, (), ⟨1, 2, ()⟩⟩) (some "gm") (some "im") d = .error e :=
  ⟨_, rfl, C214_db_violation (fun _ => "N") (fun _ => "E") _ _ (fun x => x.id) _ (fun e => e.id) _
    (Graph.run ({} : Graph Nat Unit Unit) [.addNode (some ⟨1, (), ()⟩)]) _ _ (Or.inr (by decide)) _ rfl⟩

end Verif.Container
