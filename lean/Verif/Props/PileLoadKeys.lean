import Verif.Model.PileLoadKeys

/-!
# C326, C327: the classes that items declare to `Pile.from_dict` with `item_meta_key`
-/

set_option linter.unusedSectionVars false
set_option linter.unusedSimpArgs false
set_option linter.unusedVariables false

namespace Verif.PileLoadKeys

variable {γ : Type}

/-! ## Specification -/

/-- The item declares class `c` in the metadata it is loaded with: under the key given if the item has it, else under "metadata", else under "node_metadata". -/
inductive Declares (W : World γ) (key : Option String) (it : Item) (c : γ) : Prop where
  | keyed {k n : String} (hk : key = some k) (h0 : k ≠ "") (h : it.get? k = some (.dict (some n))) (hn : n ≠ "") (he : n ≠ W.elementName) (hl : W.load n = some c)
  | plain {n : String} (hk : ∀ k, key = some k → k = "" ∨ it.get? k = none) (h : it.get? "metadata" = some (.dict (some n))) (hn : n ≠ "") (he : n ≠ W.elementName) (hl : W.load n = some c)
  | legacy {n : String} (hk : ∀ k, key = some k → k = "" ∨ it.get? k = none) (h0 : it.get? "metadata" = none) (h : it.get? "node_metadata" = some (.dict (some n))) (hn : n ≠ "")
      (he : n ≠ W.elementName) (hl : W.load n = some c)

/-- The check finds fault with the item: its entry "metadata" is not a dict, or names a class that can be loaded and is not allowed. -/
def Faulty (W : World γ) (allowed : γ → Bool) (it : Item) : Prop :=
  it.get? "metadata" = some .other ∨ ∃ n c, it.get? "metadata" = some (.dict (some n)) ∧ n ≠ "" ∧ W.load n = some c ∧ allowed c = false

/-! ## Lemmas -/

theorem nameIn_dict {n : String} (h : n ≠ "") : nameIn (some (.dict (some n))) = some n := by simp [nameIn, h]

theorem nameIn_eq {m : Option MV} {n : String} (h : nameIn m = some n) : m = some (.dict (some n)) ∧ n ≠ "" := by
  unfold nameIn at h
  split at h
  · split at h
    · cases h
    · injection h with h; subst h; exact ⟨rfl, by assumption⟩
  · cases h

theorem given_none {key : Option String} {it : Item} (h : ∀ k, key = some k → k = "" ∨ it.get? k = none) : given key it = none := by
  cases key with
  | none => rfl
  | some k =>
    simp only [given, Option.bind_some]
    rcases h k rfl with e | e
    · rw [if_pos e]
    · split
      · rfl
      · exact e

theorem Declares.name {W : World γ} {key : Option String} {it : Item} {c : γ} (h : Declares W key it c) :
    ∃ n, nameIn (metaOf key it) = some n ∧ n ≠ W.elementName ∧ W.load n = some c := by
  cases h with
  | @keyed k n hk h0 h hn he hl => exact ⟨n, by rw [metaOf, hk, given, Option.bind_some, if_neg h0, h, Option.some_or, nameIn_dict hn], he, hl⟩
  | @plain n hk h hn he hl => exact ⟨n, by rw [metaOf, given_none hk, h, Option.none_or, Option.some_or, nameIn_dict hn], he, hl⟩
  | @legacy n hk h0 h hn he hl => exact ⟨n, by rw [metaOf, given_none hk, h0, Option.none_or, Option.none_or, h, nameIn_dict hn], he, hl⟩

theorem finish_ok {W : World γ} {it : Item} {c d : γ} (h : finish W it c = .ok d) : d = c := by
  unfold finish at h
  split at h
  · cases h
  · injection h with h; exact h.symm

theorem Declares.build {W : World γ} {key : Option String} {it : Item} {c d : γ} (h : Declares W key it c) (e : PileLoadKeys.build W key it = .ok d) : d = c := by
  obtain ⟨n, hn, he, hl⟩ := h.name
  unfold PileLoadKeys.build at e
  rw [hn] at e
  simp only [if_neg he, hl, finishLoaded] at e
  split at e
  · exact finish_ok e
  · cases e

theorem checkOne_iff {W : World γ} {a : γ → Bool} {it : Item} : (checkOne W a it).isSome = true ↔ Faulty W a it := by
  unfold checkOne Faulty
  cases hm : it.get? "metadata" with
  | none => simp [nameIn, checkName]
  | some m =>
    cases m with
    | other => simp
    | dict o =>
      cases o with
      | none => simp [nameIn, checkName]
      | some n =>
        by_cases h0 : n = ""
        · simp [nameIn, checkName, h0]
        · simp only [nameIn, if_neg h0, checkName]
          cases hl : W.load n with
          | none => simp [hl]
          | some c =>
            cases hc : a c <;> simp [hl, hc, h0]

theorem precheck_iff {W : World γ} {al : Option (γ → Bool)} {items : List Item} :
    (precheck W al items).isSome = true ↔ ∃ a, al = some a ∧ ∃ it ∈ items, Faulty W a it := by
  cases al with
  | none => simp [precheck]
  | some a =>
    simp only [precheck, Option.bind_some, List.findSome?_isSome_iff, checkOne_iff]
    simp

theorem loop_calls {W : World γ} {key : Option String} {al : Option (γ → Bool)} (it : Item) (rest : List Item) (acc : List γ) : 0 < (loop W key al (it :: rest) acc).1 := by
  unfold loop
  split
  · exact Nat.one_pos
  · split
    · exact Nat.succ_pos _
    · exact Nat.one_pos

theorem loop_ok {W : World γ} {key : Option String} {al : Option (γ → Bool)} : ∀ (items : List Item) (acc cs : List γ), (loop W key al items acc).2 = .ok cs →
    ∃ ds, cs = acc ++ ds ∧ items.map (build W key) = ds.map .ok ∧ (∀ d ∈ ds, allows al d = true) ∧ (loop W key al items acc).1 = items.length
  | [], acc, cs, h => by
    simp only [loop] at h
    injection h with h
    exact ⟨[], by simp [h], rfl, by simp, rfl⟩
  | it :: rest, acc, cs, h => by
    cases hb : build W key it with
    | error e => simp only [loop, hb] at h; cases h
    | ok c =>
      by_cases ha : allows al c = true
      · simp only [loop, hb, if_pos ha] at h ⊢
        obtain ⟨ds, h1, h2, h3, h4⟩ := loop_ok rest _ _ h
        refine ⟨c :: ds, by rw [h1]; simp, by simp [hb, h2], ?_, by rw [h4]; rfl⟩
        intro d m
        rcases List.mem_cons.1 m with m | m
        · rw [m]; exact ha
        · exact h3 d m
      · simp only [loop, hb, if_neg ha] at h; cases h

/-! ## C326 -/

/-- Classes of the examples: 0 is `Element`, 1 is allowed, 2 is not. -/
def exLoad (n : String) : Option Nat := if n = "A" then some 1 else if n = "B" then some 2 else none

def exW : World Nat := ⟨exLoad, 0, "Element", fun _ => true, fun _ _ => none⟩

/-- The constraint of the examples. -/
def exAllowed : Option (Nat → Bool) := some (fun c => c == 1)

/-- **C326 fails**: if the metadata of the items is under the key given as `item_meta_key`, the items are built before the class of the second one is refused; and an item whose entry under the key
declares an allowed class is refused for what its unused entry "metadata" says. -/
theorem C326_violation :
    (Declares exW (some "m") [("m", .dict (some "B"))] 2 ∧ fromDict exW (some "m") exAllowed [[("m", .dict (some "A"))], [("m", .dict (some "B"))]] = (2, .error .type)) ∧
    (Declares exW (some "m") [("m", .dict (some "A")), ("metadata", .dict (some "B"))] 1 ∧
      fromDict exW (some "m") exAllowed [[("m", .dict (some "A")), ("metadata", .dict (some "B"))]] = (0, .error .type)) :=
  ⟨⟨.keyed rfl (by decide) rfl (by decide) (by decide) rfl, by rfl⟩, ⟨.keyed rfl (by decide) rfl (by decide) (by decide) rfl, by rfl⟩⟩

/-- **C326**, exactly when no item is built: there is none, or there is a constraint and an item whose entry "metadata" is faulty, whatever key was given; then the call fails. -/
theorem C326_exact_partial (W : World γ) (key : Option String) (al : Option (γ → Bool)) (items : List Item) :
    ((fromDict W key al items).1 = 0 ↔ items = [] ∨ ∃ a, al = some a ∧ ∃ it ∈ items, Faulty W a it) ∧
      ((∃ a, al = some a ∧ ∃ it ∈ items, Faulty W a it) → ∃ e, (e = .type ∨ e = .attr) ∧ fromDict W key al items = (0, .error e)) := by
  have hkey : (∃ a, al = some a ∧ ∃ it ∈ items, Faulty W a it) → ∃ e, (e = .type ∨ e = .attr) ∧ fromDict W key al items = (0, .error e) := by
    intro h
    obtain ⟨e, he⟩ := Option.isSome_iff_exists.1 (precheck_iff.2 h)
    refine ⟨e, ?_, by simp only [fromDict, he]⟩
    cases al with
    | none => cases he
    | some a =>
      simp only [precheck, Option.bind_some] at he
      obtain ⟨it, _, h1⟩ := List.exists_of_findSome?_eq_some he
      unfold checkOne at h1
      split at h1
      · injection h1 with h1; exact .inr h1.symm
      · unfold checkName at h1
        split at h1
        · cases h1
        · obtain ⟨c, _, h2⟩ := Option.bind_eq_some_iff.1 h1
          split at h2
          · cases h2
          · injection h2 with h2; exact .inl h2.symm
  refine ⟨⟨fun h => ?_, ?_⟩, hkey⟩
  · cases items with
    | nil => exact .inl rfl
    | cons it rest =>
      refine .inr (precheck_iff.1 ?_)
      cases hp : precheck W al (it :: rest) with
      | some e => rfl
      | none =>
        simp only [fromDict, hp] at h
        have := loop_calls (W := W) (key := key) (al := al) it rest []
        omega
  · rintro (h | h)
    · subst h
      cases al <;> rfl
    · obtain ⟨e, _, h⟩ := hkey h
      rw [h]

/-- **C326** (partial; missing: items whose metadata is not under "metadata", see `C326_violation`).  If every item has its metadata, a dict, under "metadata" and nothing under the key, an item that
declares a class outside the constraint makes the call raise `TypeError` before any item is built, whatever the other items are. -/
theorem C326_plain_partial (W : World γ) (key : Option String) (a : γ → Bool) (items : List Item) (hm : ∀ it ∈ items, ∃ o, it.get? "metadata" = some (.dict o))
    (hk : ∀ it ∈ items, ∀ k, key = some k → k = "" ∨ it.get? k = none) {it : Item} (hi : it ∈ items) {c : γ} (hd : Declares W key it c) (hc : a c = false) :
    fromDict W key (some a) items = (0, .error .type) := by
  have hf : Faulty W a it := by
    obtain ⟨n, h1, h2, h3⟩ := hd.name
    obtain ⟨o, ho⟩ := hm it hi
    rw [metaOf, given_none (hk it hi), Option.none_or, ho, Option.some_or] at h1
    obtain ⟨h4, h5⟩ := nameIn_eq h1
    exact .inr ⟨n, c, by rw [ho, h4], h5, h3, hc⟩
  obtain ⟨e, he, h⟩ := (C326_exact_partial W key (some a) items).2 ⟨a, rfl, it, hi, hf⟩
  rcases he with he | he
  · rw [h, he]
  · exfalso
    subst he
    have hp : precheck W (some a) items = some .attr := by
      unfold fromDict at h
      split at h
      · rename_i e' hp
        rw [hp]
        injection h with _ h; injection h with h; rw [h]
      · rename_i hp
        have := precheck_iff.2 ⟨a, rfl, it, hi, hf⟩
        rw [hp] at this; cases this
    simp only [precheck, Option.bind_some] at hp
    obtain ⟨jt, hj, h1⟩ := List.exists_of_findSome?_eq_some hp
    obtain ⟨o, ho⟩ := hm jt hj
    unfold checkOne at h1
    rw [ho] at h1
    simp only [checkName] at h1
    split at h1
    · cases h1
    · obtain ⟨d, _, h2⟩ := Option.bind_eq_some_iff.1 h1
      split at h2 <;> cases h2

example : fromDict exW none exAllowed [[("metadata", .dict (some "A"))], [("metadata", .dict (some "B"))]] = (0, .error .type) := by rfl

/-! ## C327 -/

/-- **C327.**  Whatever key is given and wherever the items have their metadata: if the call returns, every item was built once, in order, each as the class it declares, and every class is allowed. -/
theorem C327_loaded (W : World γ) (key : Option String) (al : Option (γ → Bool)) (items : List Item) (cs : List γ) (h : (fromDict W key al items).2 = .ok cs) :
    (fromDict W key al items).1 = items.length ∧ cs.length = items.length ∧ (∀ a, al = some a → ∀ c ∈ cs, a c = true) ∧
      ∀ (i : Nat) it c, items[i]? = some it → Declares W key it c → cs[i]? = some c := by
  unfold fromDict at h ⊢
  cases hp : precheck W al items with
  | some e => rw [hp] at h; cases h
  | none =>
    simp only [hp] at h ⊢
    obtain ⟨ds, h1, h2, h3, h4⟩ := loop_ok items [] cs h
    rw [List.nil_append] at h1
    subst h1
    have hl : cs.length = items.length := by have := congrArg List.length h2; simpa using this.symm
    refine ⟨h4, hl, ?_, ?_⟩
    · intro a ha c hc
      have := h3 c hc
      rw [ha] at this
      exact this
    · intro i it c hi hd
      have h5 := congrArg (fun l : List (Except Err γ) => l[i]?) h2
      simp only [List.getElem?_map, hi, Option.map_some] at h5
      cases hci : cs[i]? with
      | none => rw [hci] at h5; cases h5
      | some d =>
        rw [hci] at h5
        simp only [Option.map_some] at h5
        injection h5 with h5
        rw [hd.build h5]

/-- **C327.**  Whatever key is given, an item that declares a class outside the constraint makes the call fail. -/
theorem C327_refused (W : World γ) (key : Option String) (a : γ → Bool) (items : List Item) {it : Item} (hi : it ∈ items) {c : γ} (hd : Declares W key it c) (hc : a c = false) :
    ∃ e, (fromDict W key (some a) items).2 = .error e := by
  cases h : (fromDict W key (some a) items).2 with
  | error e => exact ⟨e, rfl⟩
  | ok cs =>
    exfalso
    obtain ⟨_, _, h2, h3⟩ := C327_loaded W key (some a) items cs h
    obtain ⟨i, hlt, hit⟩ := List.mem_iff_getElem.1 hi
    have h4 := h3 i it c (by rw [List.getElem?_eq_getElem hlt, hit]) hd
    have h5 := h2 a rfl c (List.mem_of_getElem? h4)
    rw [hc] at h5
    cases h5

example : fromDict exW (some "m") exAllowed [[("m", .dict (some "A"))], [("metadata", .dict (some "A"))], [("node_metadata", .dict (some "A"))]] = (3, .ok [1, 1, 1]) := by rfl

/-- **C327.**  An item that names no class anywhere is an `Element`. -/
theorem C327_undeclared (W : World γ) (key : Option String) (al : Option (γ → Bool)) (items : List Item) (cs : List γ) (h : (fromDict W key al items).2 = .ok cs)
    (i : Nat) (it : Item) (hi : items[i]? = some it) (hu : ∀ k n, it.get? k ≠ some (.dict (some n))) : cs[i]? = some W.element := by
  have hnm : nameIn (metaOf key it) = none := by
    cases hn : nameIn (metaOf key it) with
    | none => rfl
    | some n =>
      exfalso
      have h1 := (nameIn_eq hn).1
      unfold metaOf at h1
      rcases Option.or_eq_some_iff.1 h1 with h2 | ⟨_, h2⟩
      · cases key with
        | none => cases h2
        | some k =>
          simp only [given, Option.bind_some] at h2
          split at h2
          · cases h2
          · exact hu _ _ h2
      · rcases Option.or_eq_some_iff.1 h2 with h3 | ⟨_, h3⟩
        · exact hu _ _ h3
        · exact hu _ _ h3
  unfold fromDict at h
  cases hp : precheck W al items with
  | some e => rw [hp] at h; cases h
  | none =>
    simp only [hp] at h
    obtain ⟨ds, h1, h2, h3, h4⟩ := loop_ok items [] cs h
    rw [List.nil_append] at h1
    subst h1
    have h5 := congrArg (fun l : List (Except Err γ) => l[i]?) h2
    simp only [List.getElem?_map, hi, Option.map_some] at h5
    cases hci : cs[i]? with
    | none => rw [hci] at h5; cases h5
    | some d =>
      rw [hci] at h5
      simp only [Option.map_some] at h5
      injection h5 with h5
      simp only [build, hnm] at h5
      rw [finish_ok h5]

example : fromDict exW (some "m") none [[("m", .dict none)], [("metadata", .other)], []] = (3, .ok [0, 0, 0]) := by rfl

end Verif.PileLoadKeys
