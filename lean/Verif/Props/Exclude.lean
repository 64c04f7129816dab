import Verif.Model.Exclude

set_option linter.unusedSectionVars false
set_option linter.unusedSimpArgs false
set_option linter.unusedVariables false

/-!
# C147: the `exclude` argument
-/

namespace Verif.Exclude

/-- A field is excluded as a whole. -/
def Whole : Excl → String → Prop
  | .absent, _ => False
  | .none, _ => False
  | .set ns, f => f ∈ ns
  | .dict es, f => (f, true) ∈ es
  | .list ns, f => f ∈ ns

/-- The entries a class writes separately from its fields. -/
def Separate : Kind → String → Prop
  | .element, _ => False
  | .pile, f => f = "items"
  | .flow, f => f = "items" ∨ f = "progressions"
  | .graph, f => f = "nodes" ∨ f = "edges"
  | .node, _ => False
  | .nodeSerializer, f => f = "content"

theorem element_mem {fields : List String} {e : Excl} {ns : List String} (h : dropped e = .ok ns) :
    ∃ out, element fields e = .ok out ∧ ∀ f, f ∈ out ↔ f ∈ fields ∧ f ∉ ns := by
  refine ⟨_, by simp only [element, h]; rfl, ?_⟩
  intro f
  simp [List.mem_filter]

theorem addAll_mem {forced out : List String} : ∃ out', addAll forced (.ok out) = .ok out' ∧ ∀ f, f ∈ out' ↔ f ∈ out ∨ f ∈ forced := by
  refine ⟨_, rfl, ?_⟩
  intro f
  simp only [List.mem_append, List.mem_filter]
  by_cases h : f ∈ out
  · simp [h]
  · simp [h]

/-- The shapes of the argument for which the claim holds: every class takes a set; the classes that do not merge names of their own also take None and dicts. -/
def Accepted : Kind → Excl → Prop
  | _, .absent => True
  | _, .set _ => True
  | .element, .none => True
  | .pile, .none => True
  | .node, .none => True
  | .nodeSerializer, .none => True
  | .element, .dict _ => True
  | .pile, .dict _ => True
  | .node, .dict _ => True
  | .nodeSerializer, .dict _ => True
  | _, _ => False

theorem element_whole {fields : List String} {e : Excl} (h : ∀ ns, e ≠ .list ns) :
    ∃ out, element fields e = .ok out ∧ ∀ f, f ∈ out ↔ f ∈ fields ∧ ¬ Whole e f := by
  cases e with
  | absent => simpa [Whole] using element_mem (fields := fields) (e := .absent) rfl
  | none => simpa [Whole] using element_mem (fields := fields) (e := .none) rfl
  | set ns => simpa [Whole] using element_mem (fields := fields) (e := .set ns) rfl
  | dict es =>
    obtain ⟨out, h1, h2⟩ := element_mem (fields := fields) (e := .dict es) rfl
    refine ⟨out, h1, ?_⟩
    intro f
    rw [h2 f]
    simp [Whole]
  | list ns => exact absurd rfl (h ns)

/-- **C147** (partial).  For the accepted shapes of the argument, the output of `to_dict(exclude=...)` has a field, other than those the class
writes separately, exactly if the field is not excluded as a whole.
Missing: the separately written fields, and the other shapes for `Flow`, `Graph` and `Node`, see the violations. -/
theorem C147_exclude_partial (fields : List String) (k : Kind) (e : Excl) (ha : Accepted k e) :
    ∃ out, toDictNames fields k e = .ok out ∧ ∀ f, ¬ Separate k f → (f ∈ out ↔ f ∈ fields ∧ ¬ Whole e f) := by
  have he : ∀ e, (∀ ns, e ≠ .list ns) → ∀ forced : List String, ∃ out, addAll forced (element fields e) = .ok out ∧
      ∀ f, f ∈ out ↔ (f ∈ fields ∧ ¬ Whole e f) ∨ f ∈ forced := by
    intro e hl forced
    obtain ⟨out, h1, h2⟩ := element_whole (fields := fields) hl
    obtain ⟨out', h3, h4⟩ := addAll_mem (forced := forced) (out := out)
    refine ⟨out', by rw [h1]; exact h3, ?_⟩
    intro f
    rw [h4, h2]
  have hc : ∀ (forced : List String), (∀ ns, e ≠ .list ns) → (∀ es, e ≠ .dict es) → e ≠ .none →
      ∃ out, container forced fields e = .ok out ∧ ∀ f, f ∉ forced → (f ∈ out ↔ f ∈ fields ∧ ¬ Whole e f) := by
    intro forced h1 h2 h3
    cases e with
    | absent =>
      obtain ⟨out, g1, g2⟩ := he (.set forced) (by simp) forced
      refine ⟨out, by simpa only [container, merged] using g1, ?_⟩
      intro f hf
      rw [g2]
      simp [Whole, hf]
    | none => exact absurd rfl h3
    | set ns =>
      obtain ⟨out, g1, g2⟩ := he (.set (ns ++ forced)) (by simp) forced
      refine ⟨out, by simpa only [container, merged] using g1, ?_⟩
      intro f hf
      rw [g2]
      simp [Whole, hf]
    | dict es => exact absurd rfl (h2 es)
    | list ns => exact absurd rfl (h1 ns)
  cases k with
  | element =>
    obtain ⟨out, h1, h2⟩ := element_whole (fields := fields) (e := e) (by rintro ns rfl; exact ha)
    exact ⟨out, h1, fun f _ => h2 f⟩
  | node =>
    obtain ⟨out, h1, h2⟩ := element_whole (fields := fields) (e := e) (by rintro ns rfl; exact ha)
    exact ⟨out, by simpa [toDictNames, node] using h1, fun f _ => h2 f⟩
  | pile =>
    obtain ⟨out, h1, h2⟩ := he e (by rintro ns rfl; exact ha) ["items"]
    refine ⟨out, h1, ?_⟩
    intro f hf
    rw [h2]
    have : f ≠ "items" := hf
    simp [this]
  | flow =>
    obtain ⟨out, h1, h2⟩ := hc ["items", "progressions"] (by rintro ns rfl; exact ha) (by rintro ns rfl; exact ha) (by rintro rfl; exact ha)
    exact ⟨out, h1, fun f hf => h2 f (by simpa [Separate] using hf)⟩
  | graph =>
    obtain ⟨out, h1, h2⟩ := hc ["nodes", "edges"] (by rintro ns rfl; exact ha) (by rintro ns rfl; exact ha) (by rintro rfl; exact ha)
    exact ⟨out, h1, fun f hf => h2 f (by simpa [Separate] using hf)⟩
  | nodeSerializer =>
    obtain ⟨out, h1, h2⟩ := he (nodeExcl e) (by cases e <;> simp [nodeExcl]) ["content"]
    refine ⟨out, by simpa [toDictNames, node] using h1, ?_⟩
    intro f hf
    rw [h2]
    have hf' : f ≠ "content" := hf
    cases e with
    | absent => simp [nodeExcl, Whole, hf']
    | none => simp [nodeExcl, Whole, hf']
    | set ns => simp [nodeExcl, Whole, hf']
    | dict es => simp [nodeExcl, Whole, hf']
    | list ns => exact absurd ha (by simp [Accepted])

/-- **C147 is false**: the separately written fields appear although they are excluded. -/
theorem C147_forced_violation :
    toDictNames ["id", "name", "items", "progressions"] .flow (.set ["items", "name"]) = .ok ["id", "items", "progressions"] ∧
    toDictNames ["id", "nodes", "edges"] .graph (.set ["nodes"]) = .ok ["id", "nodes", "edges"] ∧
    toDictNames ["id"] .pile (.set ["items"]) = .ok ["id", "items"] ∧
    toDictNames ["id", "content"] .nodeSerializer (.set ["content"]) = .ok ["id", "content"] := by decide

/-- **C147 is false**: `exclude=None`, accepted by every other element, makes `Flow.to_dict` and `Graph.to_dict` raise TypeError; a dict that excludes a part of a
field drops the whole field; a list together with a content serializer is ignored. -/
theorem C147_shape_violation :
    toDictNames ["id", "metadata"] .flow .none = .error .typeError ∧ toDictNames ["id", "metadata"] .element .none = .ok ["id", "metadata"] ∧
    toDictNames ["id", "metadata"] .graph (.dict [("metadata", false)]) = .ok ["id", "nodes", "edges"] ∧
    toDictNames ["id", "metadata"] .element (.dict [("metadata", false)]) = .ok ["id", "metadata"] ∧
    toDictNames ["id", "metadata"] .nodeSerializer (.list ["metadata"]) = .ok ["id", "metadata", "content"] := by decide

example : toDictNames ["id", "metadata", "name", "items", "progressions"] .flow (.set ["metadata"]) = .ok ["id", "name", "items", "progressions"] := by decide

/-- **C147** (failures).  `to_dict(exclude=...)` raises exactly for None given to a flow or a graph and for a list given to one of the other classes (without a content
serializer), and then a TypeError. -/
theorem C147_raises_partial (fields : List String) (k : Kind) (e : Excl) (x : Exc) :
    toDictNames fields k e = .error x ↔
      x = .typeError ∧ (((k = .flow ∨ k = .graph) ∧ e = .none) ∨ ((k = .element ∨ k = .pile ∨ k = .node) ∧ ∃ ns, e = .list ns)) := by
  cases k <;> cases e <;> simp [toDictNames, container, merged, element, dropped, addAll, pile, node, nodeExcl, @eq_comm _ Exc.typeError x]

end Verif.Exclude
