import Verif.Model.Fixtures
import Verif.Props.Graph
import Verif.Props.Flow

/-!
# C267: the test factories deliver what they say
-/

set_option linter.unusedSectionVars false
set_option linter.unusedSimpArgs false
set_option linter.unusedVariables false

namespace Verif.Fixtures

open Digraph (SG Acyclic Walk)
open Graph (Shows run isAcyclic)

variable {ι ν ε : Type} [DecidableEq ι]

/-! ### Lemmas -/

/-- The calls on the specification. -/
def specCalls (s : SG ι ν ε) : List (Graph.Op ι ν ε) → Except Exc (SG ι ν ε)
  | [] => .ok s
  | op :: ops =>
    match s.step op with
    | .ok (s', _) => specCalls s' ops
    | .error e => .error e

theorem calls_run : ∀ (ops pre : List (Graph.Op ι ν ε)) (s : SG ι ν ε), specCalls (SG.run pre) ops = .ok s →
    calls (run {} pre) ops = .ok (run {} (pre ++ ops)) ∧ SG.run (pre ++ ops) = s
  | [], pre, s, h => by
    simp only [specCalls, Except.ok.injEq] at h
    simp [calls, h]
  | op :: ops, pre, s, h => by
    have h2 := (Graph.C15_history (ν := ν) (ε := ε) pre op).2.1
    have e1 : run ({} : Graph ι ν ε) (pre ++ [op]) = (Graph.step (run {} pre) op).1 := by simp [run]
    have e2 : SG.run (pre ++ [op]) = (SG.run pre).next op := by simp [SG.run]
    simp only [specCalls] at h
    cases hs : (SG.run pre).step op with
    | error e => rw [hs] at h; cases h
    | ok p =>
      obtain ⟨s', r⟩ := p
      rw [hs] at h h2
      simp only at h
      have e3 : SG.run (pre ++ [op]) = s' := by rw [e2, SG.next, hs]
      rw [← e3] at h
      have ih := calls_run ops (pre ++ [op]) s h
      rw [List.append_assoc] at ih
      refine ⟨?_, ih.2⟩
      rw [e1] at ih
      rcases hst : Graph.step (run {} pre) op with ⟨g', x⟩
      rw [hst] at h2 ih
      simp only [Except.map] at h2
      cases x with
      | error e => cases h2
      | ok y =>
        simp only [calls, hst]
        exact ih.1

theorem acyclic_of_rank {es : List (Item ι Unit (EdgeData ι ε))} (r : ι → Nat) (h : ∀ e ∈ es, r e.data.head < r e.data.tail) : Acyclic es := by
  have key : ∀ p a b, Walk es a p b → r a ≤ r b ∧ (p ≠ [] → r a < r b) := by
    intro p
    induction p with
    | nil => intro a b hw; cases hw; exact ⟨Nat.le_refl _, fun h => absurd rfl h⟩
    | cons e p ih =>
      intro a b hw
      obtain ⟨h1, h2, h3⟩ := hw
      have h4 := h e h1
      have h5 := (ih _ _ h3).1
      rw [h2] at h4
      exact ⟨by omega, fun _ => by omega⟩
  intro n p hw
  by_cases hp : p = []
  · exact hp
  · have := (key p n n hw).2 hp
    omega

/-- What `calls` returns and what can be seen of it. -/
theorem built {ops : List (Graph.Op ι ν ε)} {s : SG ι ν ε} (h : specCalls {} ops = .ok s) :
    ∃ g, calls {} ops = .ok g ∧ Shows g s ∧ ∀ (o : SetOrder ι) (limit : Nat), s.nodes.length ≤ limit →
      ∃ b, isAcyclic o g limit = .ok b ∧ (b = true ↔ Acyclic s.edges) := by
  have h1 := calls_run ops [] s h
  have hs : Shows (run ({} : Graph ι ν ε) ops) s := by
    have := (Graph.C15_history (ν := ν) (ε := ε) ops (.removeEdge none)).1
    rw [List.nil_append] at h1
    rwa [h1.2] at this
  refine ⟨run {} ops, ?_, hs, fun o limit hl => Graph.C17_is_acyclic_within_limit ops s hs o limit hl⟩
  rw [List.nil_append] at h1
  exact h1.1

/-! ### C267: graphs -/

/-- C267 (chain): `create_simple_graph()` returns the graph A → B → C, and `is_acyclic()` says True of it. -/
theorem C267_simple_graph (info : ε) (value : String → ν) (a b c e f : ι) (hn : [a, b, c].Nodup) (he : e ≠ f) (o : SetOrder ι) (limit : Nat)
    (hl : 3 ≤ limit) :
    ∃ g, simpleGraph info value a b c e f = .ok g ∧
      Shows g ⟨[⟨a, (), value "A"⟩, ⟨b, (), value "B"⟩, ⟨c, (), value "C"⟩], [⟨e, (), ⟨a, b, info⟩⟩, ⟨f, (), ⟨b, c, info⟩⟩]⟩ ∧
      isAcyclic o g limit = .ok true := by
  simp only [List.nodup_cons, List.mem_cons, List.not_mem_nil, or_false, not_or, List.nodup_nil, and_true, not_false_eq_true] at hn
  have hab := hn.1.1
  have hac := hn.1.2
  have hbc := hn.2
  obtain ⟨g, h1, h2, h3⟩ := built (ν := ν) (ops := [node a (value "A"), node b (value "B"), node c (value "C"), edge info e a b, edge info f b c])
    (s := ⟨[⟨a, (), value "A"⟩, ⟨b, (), value "B"⟩, ⟨c, (), value "C"⟩], [⟨e, (), ⟨a, b, info⟩⟩, ⟨f, (), ⟨b, c, info⟩⟩]⟩)
    (by simp [specCalls, SG.step, node, edge, hab, hac, hbc, Ne.symm hab, Ne.symm hac, Ne.symm hbc, he, Ne.symm he])
  refine ⟨g, h1, h2, ?_⟩
  obtain ⟨r, h4, h5⟩ := h3 o limit hl
  rw [h4, h5.2]
  refine acyclic_of_rank (fun x => if x = a then 0 else if x = b then 1 else 2) ?_
  simp [hab, hac, hbc, Ne.symm hab, Ne.symm hac, Ne.symm hbc]

/-- C267 (cycle): `create_cyclic_graph()` returns the graph A → B → C → A, and `is_acyclic()` says False of it. -/
theorem C267_cyclic_graph (info : ε) (value : String → ν) (a b c e f k : ι) (hn : [a, b, c].Nodup) (he : [e, f, k].Nodup) (o : SetOrder ι)
    (limit : Nat) (hl : 3 ≤ limit) :
    ∃ g, cyclicGraph info value a b c e f k = .ok g ∧
      Shows g ⟨[⟨a, (), value "A"⟩, ⟨b, (), value "B"⟩, ⟨c, (), value "C"⟩],
        [⟨e, (), ⟨a, b, info⟩⟩, ⟨f, (), ⟨b, c, info⟩⟩, ⟨k, (), ⟨c, a, info⟩⟩]⟩ ∧
      isAcyclic o g limit = .ok false := by
  simp only [List.nodup_cons, List.mem_cons, List.not_mem_nil, or_false, not_or, List.nodup_nil, and_true, not_false_eq_true] at hn he
  have hab := hn.1.1
  have hac := hn.1.2
  have hbc := hn.2
  have hef := he.1.1
  have hek := he.1.2
  have hfk := he.2
  obtain ⟨g, h1, h2, h3⟩ := built (ν := ν)
    (ops := [node a (value "A"), node b (value "B"), node c (value "C"), edge info e a b, edge info f b c, edge info k c a])
    (s := ⟨[⟨a, (), value "A"⟩, ⟨b, (), value "B"⟩, ⟨c, (), value "C"⟩],
      [⟨e, (), ⟨a, b, info⟩⟩, ⟨f, (), ⟨b, c, info⟩⟩, ⟨k, (), ⟨c, a, info⟩⟩]⟩)
    (by simp [specCalls, SG.step, node, edge, hab, hac, hbc, Ne.symm hab, Ne.symm hac, Ne.symm hbc, hef, hek, hfk, Ne.symm hef, Ne.symm hek,
      Ne.symm hfk])
  refine ⟨g, h1, h2, ?_⟩
  obtain ⟨r, h4, h5⟩ := h3 o limit hl
  rw [h4]
  cases r with
  | false => rfl
  | true =>
    have := h5.1 rfl a [⟨e, (), ⟨a, b, info⟩⟩, ⟨f, (), ⟨b, c, info⟩⟩, ⟨k, (), ⟨c, a, info⟩⟩] (by simp [Walk])
    cases this

/-- C267 (diamond): `create_dag_graph()` returns the graph A → B → D, A → C → D, and `is_acyclic()` says True of it. -/
theorem C267_dag_graph (info : ε) (value : String → ν) (a b c d e f k l : ι) (hn : [a, b, c, d].Nodup) (he : [e, f, k, l].Nodup)
    (o : SetOrder ι) (limit : Nat) (hl : 4 ≤ limit) :
    ∃ g, dagGraph info value a b c d e f k l = .ok g ∧
      Shows g ⟨[⟨a, (), value "A"⟩, ⟨b, (), value "B"⟩, ⟨c, (), value "C"⟩, ⟨d, (), value "D"⟩],
        [⟨e, (), ⟨a, b, info⟩⟩, ⟨f, (), ⟨a, c, info⟩⟩, ⟨k, (), ⟨b, d, info⟩⟩, ⟨l, (), ⟨c, d, info⟩⟩]⟩ ∧
      isAcyclic o g limit = .ok true := by
  simp only [List.nodup_cons, List.mem_cons, List.not_mem_nil, or_false, not_or, List.nodup_nil, and_true, not_false_eq_true] at hn he
  obtain ⟨⟨hab, hac, had⟩, ⟨hbc, hbd⟩, hcd⟩ := hn
  obtain ⟨⟨hef, hek, hel⟩, ⟨hfk, hfl⟩, hkl⟩ := he
  obtain ⟨g, h1, h2, h3⟩ := built (ν := ν)
    (ops := [node a (value "A"), node b (value "B"), node c (value "C"), node d (value "D"),
      edge info e a b, edge info f a c, edge info k b d, edge info l c d])
    (s := ⟨[⟨a, (), value "A"⟩, ⟨b, (), value "B"⟩, ⟨c, (), value "C"⟩, ⟨d, (), value "D"⟩],
      [⟨e, (), ⟨a, b, info⟩⟩, ⟨f, (), ⟨a, c, info⟩⟩, ⟨k, (), ⟨b, d, info⟩⟩, ⟨l, (), ⟨c, d, info⟩⟩]⟩)
    (by simp [specCalls, SG.step, node, edge, hab, hac, had, hbc, hbd, hcd, Ne.symm hab, Ne.symm hac, Ne.symm had, Ne.symm hbc, Ne.symm hbd,
      Ne.symm hcd, hef, hek, hel, hfk, hfl, hkl, Ne.symm hef, Ne.symm hek, Ne.symm hel, Ne.symm hfk, Ne.symm hfl, Ne.symm hkl])
  refine ⟨g, h1, h2, ?_⟩
  obtain ⟨r, h4, h5⟩ := h3 o limit hl
  rw [h4, h5.2]
  refine acyclic_of_rank (fun x => if x = a then 0 else if x = b then 1 else if x = c then 1 else 2) ?_
  simp [hab, hac, had, hbc, hbd, hcd, Ne.symm hab, Ne.symm hac, Ne.symm had, Ne.symm hbc, Ne.symm hbd, Ne.symm hcd]

example : [1, 2, 3, 4].Nodup ∧ [5, 6, 7, 8].Nodup := by decide

/-! ### C267: piles and flows -/

variable {γ : Type} [DecidableEq γ]

theorem elements_ids (cls : γ) (ids : Nat → ι) (count start : Int) :
    (testElements cls ids count start).map Item.id = (List.range count.toNat).map ids := by
  simp [testElements, Function.comp_def]

theorem range_ids_nodup (ids : Nat → ι) (n : Nat) (h : ∀ i j, i < n → j < n → ids i = ids j → i = j) : ((List.range n).map ids).Nodup := by
  rw [List.Nodup, List.pairwise_map]
  refine List.Pairwise.imp_of_mem ?_ (List.nodup_range (n := n))
  intro i j hi hj hij he
  exact hij (h i j (List.mem_range.1 hi) (List.mem_range.1 hj) he)

/-- C267 (elements): the `i`-th of `count` elements has the value `start + i` and the name `element_i`; a negative count gives none. -/
theorem C267_elements (cls : γ) (ids : Nat → ι) (count start : Int) :
    (testElements cls ids count start).length = count.toNat ∧
    ∀ i, i < count.toNat → (testElements cls ids count start)[i]? = some ⟨ids i, cls, ⟨start + i, "element_" ++ toString i⟩⟩ := by
  refine ⟨by simp [testElements], fun i hi => ?_⟩
  simp [testElements, hi]

/-- C267 (pile): `create_test_pile(count, item_type=ts)` contains the elements in order, if `TestElement` is among the allowed types (or there is no
restriction); otherwise it raises `TypeError`, except that the empty pile is made with any type. -/
theorem C267_test_pile (sub : γ → γ → Bool) (cls : γ) (ids : Nat → ι) (count : Int) (ts : Option (List γ)) (strict : Bool)
    (hids : ∀ i j, i < count.toNat → j < count.toNat → ids i = ids j → i = j) :
    (count ≤ 0 ∨ (∀ l, ts = some l → if strict then cls ∈ l else ∃ t ∈ l, sub cls t = true) →
      ∃ p, testPile sub cls ids count ts strict = .ok p ∧ Pile.iter p = .ok (testElements cls ids count 0) ∧ p.itemType = ts ∧ p.strict = strict) ∧
    (0 < count → (∃ l, ts = some l ∧ ¬ (if strict then cls ∈ l else ∃ t ∈ l, sub cls t = true)) →
      testPile sub cls ids count ts strict = .error .typeError) := by
  constructor
  · intro h
    have hv : ∀ x ∈ testElements cls ids count 0, Pile.validType sub ts strict x = true := by
      intro x hx
      simp only [testElements, List.mem_map, List.mem_range] at hx
      obtain ⟨i, hi, rfl⟩ := hx
      rcases h with h | h
      · omega
      · cases ts with
        | none => rfl
        | some l =>
          have := h l rfl
          cases strict <;> simp [Pile.validType] at this ⊢ <;> exact this
    have hi0 : Pile.Inv ({ itemType := ts, strict := strict } : Pile ι γ TestData) := Pile.inv_empty _ _ _
    obtain ⟨q, hq⟩ := Pile.addAll_ok sub hi0 (testElements cls ids count 0) hv
      (by rw [elements_ids]; exact range_ids_nodup ids _ hids) (by intro x _; simp [Dict.keys])
    obtain ⟨g1, g2, g3, g4, g5⟩ := Pile.addAll_spec sub hi0 _ q hq
    refine ⟨q, ?_, ?_, g2, g3⟩
    · simp only [testPile, Pile.mk', hq]
    · rw [Pile.iter_eq g1]
      have : (Pile.abs q).map some = (testElements cls ids count 0).map some := by
        rw [g5]
        simp [Pile.abs]
      have inj := List.map_inj_right (f := (some : Item ι γ TestData → _)) (fun x y h => Option.some.inj h) |>.1 this
      rw [inj]
  · rintro hc ⟨l, rfl, hl⟩
    obtain ⟨n, hn⟩ : ∃ n, count.toNat = n + 1 := ⟨count.toNat - 1, by omega⟩
    have hx : testElements cls ids count 0 =
        ⟨ids 0, cls, ⟨0, "element_" ++ toString 0⟩⟩ :: (testElements cls ids count 0).tail := by
      simp [testElements, hn, List.range_succ_eq_map]
    have hv : Pile.validType sub (some l) strict (⟨ids 0, cls, ⟨0, "element_" ++ toString 0⟩⟩ : Item ι γ TestData) = false := by
      cases strict <;> simp [Pile.validType] at hl ⊢ <;> exact hl
    rw [testPile, hx]
    simp only [List.map_cons, Pile.mk', Pile.addAll, Pile.add, if_pos hv]

theorem repr_inj {i j : Nat} (h : toString i = toString j) : i = j := by
  have h1 : Nat.toDigits 10 i = Nat.toDigits 10 j := by
    have : (toString i).toList = (toString j).toList := by rw [h]
    simpa [Nat.repr, toString] using this
  rw [← Nat.ofDigitChars_ten_toDigits (n := i), h1, Nat.ofDigitChars_ten_toDigits]

theorem prog_name_inj {i j : Nat} (h : "prog_" ++ toString i = "prog_" ++ toString j) : i = j := by
  have : ("prog_" ++ toString i).toList = ("prog_" ++ toString j).toList := by rw [h]
  rw [String.toList_append, String.toList_append, List.append_cancel_left_eq] at this
  exact repr_inj (String.toList_inj.1 this)

theorem prog_name_ne (i : Nat) : "prog_" ++ toString i ≠ "" := by
  intro h
  have : ("prog_" ++ toString i).toList = [] := by rw [h]; rfl
  simp [String.toList_append] at this

/-- The progressions of a test flow. -/
def testProgs (pids : Nat → ι) (n : Nat) : List (Flow.Prog ι) :=
  (List.range n).map (fun i => ⟨pids i, (), ⟨some ("prog_" ++ toString i), []⟩⟩)

/-- C267 (flow): `create_test_flow(n, m)` has `n` items, `m` empty progressions in order, and the name `prog_i` finds the `i`-th of them. -/
theorem C267_test_flow (sub : γ → γ → Bool) (cls : γ) (hsub : sub cls cls = true) (ids pids : Nat → ι) (items progs : Int)
    (hids : ∀ i j, i < items.toNat → j < items.toNat → ids i = ids j → i = j)
    (hpids : ∀ i j, i < progs.toNat → j < progs.toNat → pids i = pids j → i = j) :
    ∃ f, testFlow sub cls ids pids items progs = .ok f ∧ Pile.iter f.items = .ok (testElements cls ids items 0) ∧
      Pile.iter f.progs = .ok (testProgs pids progs.toNat) ∧
      ∀ i, i < progs.toNat → ∀ parsed, Flow.getProgression f (.str ⟨"prog_" ++ toString i, parsed⟩)
        = .ok ⟨pids i, (), ⟨some ("prog_" ++ toString i), []⟩⟩ := by
  obtain ⟨p, hp, hpi, _, _⟩ := (C267_test_pile sub cls ids items (some [cls]) false hids).1 (.inr (by
    intro l hl
    cases hl
    simpa using hsub))
  have hi0 : Pile.Inv ({} : Pile ι Unit (ProgData ι)) := Pile.inv_empty _ _ _
  obtain ⟨q, hq⟩ := Pile.addAll_ok Flow.anySub hi0 (testProgs pids progs.toNat) (by intro x _; rfl)
    (by
      have : (testProgs pids progs.toNat).map Item.id = (List.range progs.toNat).map pids := by simp [testProgs, Function.comp_def]
      rw [this]
      exact range_ids_nodup pids _ hpids)
    (by intro x _; simp [Dict.keys])
  obtain ⟨g1, g2, g3, g4, g5⟩ := Pile.addAll_spec Flow.anySub hi0 _ q hq
  have habs : Pile.abs q = testProgs pids progs.toNat := by
    have : (Pile.abs q).map some = (testProgs pids progs.toNat).map some := by
      rw [g5]
      simp [Pile.abs]
    exact List.map_inj_right (f := (some : Flow.Prog ι → _)) (fun x y h => Option.some.inj h) |>.1 this
  have hit : Pile.iter q = .ok (testProgs pids progs.toNat) := by rw [Pile.iter_eq g1, habs]
  have hmiss : (testProgs pids progs.toNat).any (fun r => Flow.missing p r.data.order) = false := by
    simp [testProgs, Flow.missing]
  have hf : Flow.mk' p (testProgs pids progs.toNat) =
      .ok { items := p, progs := q, names := Flow.buildNames (testProgs pids progs.toNat) } := by
    simp only [Flow.mk', hq, hit, hmiss]
    rfl
  have hmk : Pile.mk' sub ((testElements cls ids items 0).map some) (some [cls]) false none = .ok p := hp
  refine ⟨_, by simp only [testFlow, hp]; exact hf, hpi, hit, ?_⟩
  intro i hi parsed
  have hd : Flow.DistinctNames (testProgs pids progs.toNat) := by
    have : (testProgs pids progs.toNat).filterMap (fun p => Flow.truthy p.data.name) =
        (List.range progs.toNat).map (fun i => "prog_" ++ toString i) := by
      rw [testProgs, List.filterMap_map, ← List.filterMap_eq_map]
      congr 1
    rw [Flow.DistinctNames, this]
    exact range_ids_nodup _ _ (fun i j _ _ h => prog_name_inj h)
  obtain ⟨L, h1, h2, _⟩ := Flow.C12_names sub _ _ _ _ _ ⟨p, hmk, hf⟩ hd []
  have h3 : L = testProgs pids progs.toNat := by
    have : Pile.iter q = .ok L := h1
    rw [hit] at this
    cases this
    rfl
  subst h3
  exact h2 _ (List.mem_map.2 ⟨i, List.mem_range.2 hi, rfl⟩) _ parsed rfl (prog_name_ne i)

/-- C267 (progression): the ids of the given items, in order; five fresh ones if none are given. -/
theorem C267_test_progression {δ : Type} (cls : γ) (ids : Nat → ι) (items : List (Item ι γ δ)) :
    testProgression cls ids (some items) = items.map Item.id ∧
    testProgression (δ := δ) cls ids none = [ids 0, ids 1, ids 2, ids 3, ids 4] := ⟨rfl, rfl⟩

/-- The assumptions of the theorems on piles and flows are met: identifiers drawn one after the other. -/
example : ∃ f, testFlow (fun _ _ => true) () (fun i => i) (fun i => 100 + i) 3 2 = .ok f ∧
    Flow.getProgression f (.str ⟨"prog_1", none⟩) = .ok ⟨101, (), ⟨some "prog_1", []⟩⟩ := by
  obtain ⟨f, h1, _, _, h4⟩ := C267_test_flow (fun _ _ => true) () rfl (fun i => i) (fun i => 100 + i) 3 2
    (fun i j _ _ h => h) (fun i j _ _ h => by omega)
  exact ⟨f, h1, h4 1 (by decide) none⟩

example : testPile (fun a b => decide (a = b)) 1 (fun i => i) 3 (some [2]) false = .error .typeError :=
  (C267_test_pile _ 1 (fun i => i) 3 (some [2]) false (fun i j _ _ h => h)).2 (by decide) ⟨[2], rfl, by decide⟩

end Verif.Fixtures
