import Verif.Model.FindPathConc
import Verif.Props.Graph

/-! # Invariants of `find_path` interleaved with other tasks -/

set_option linter.unusedSectionVars false
set_option linter.unusedSimpArgs false
set_option linter.unusedVariables false

namespace Verif.FindPathConc

open Graph Digraph

variable {ι ν ε : Type} [DecidableEq ι]

theorem get_of_view {g : Graph ι ν ε} (h : GInv g) {e : ι} {x : Item ι Unit (EdgeData ι ε)} :
    g.edges.items.get? e = some x ↔ x ∈ (view g).edges ∧ x.id = e := by
  constructor
  · intro hx
    have hid := h.edges.ids e x hx
    exact ⟨(mem_abs_edge h x).2 (by rw [hid]; exact hx), hid⟩
  · rintro ⟨hx, rfl⟩
    exact (mem_abs_edge h x).1 hx

theorem mem_next {s : SG ι ν ε} {op : Op ι ν ε} {x : Item ι Unit (EdgeData ι ε)} (hx : x ∈ (s.next op).edges) :
    x ∈ s.edges ∨ op = .addEdge (some x) := by
  cases op with
  | addNode a =>
    cases a with
    | none => exact Or.inl hx
    | some y =>
      by_cases h : s.IsNode y.id
      · simp only [SG.next, SG.step, if_pos h] at hx; exact Or.inl hx
      · simp only [SG.next, SG.step, if_neg h] at hx; exact Or.inl hx
  | removeNode o r =>
    cases r with
    | none => exact Or.inl hx
    | some u =>
      cases hf : s.nodes.find? (fun x => decide (x.id = u)) with
      | none => simp only [SG.next, SG.step, hf] at hx; exact Or.inl hx
      | some y => simp only [SG.next, SG.step, hf] at hx; exact Or.inl (List.mem_filter.1 hx).1
  | addEdge a =>
    cases a with
    | none => exact Or.inl hx
    | some y =>
      by_cases h : ¬ s.IsNode y.data.head ∨ ¬ s.IsNode y.data.tail
      · simp only [SG.next, SG.step, if_pos h] at hx; exact Or.inl hx
      · by_cases h2 : y.id ∈ s.edges.map Item.id
        · simp only [SG.next, SG.step, if_neg h, if_pos h2] at hx; exact Or.inl hx
        · simp only [SG.next, SG.step, if_neg h, if_neg h2, List.mem_append, List.mem_singleton] at hx
          rcases hx with hx | hx
          · exact Or.inl hx
          · exact Or.inr (by rw [hx])
  | removeEdge r =>
    cases r with
    | none => exact Or.inl hx
    | some u =>
      cases hf : s.edges.find? (fun x => decide (x.id = u)) with
      | none => simp only [SG.next, SG.step, hf] at hx; exact Or.inl hx
      | some y => simp only [SG.next, SG.step, hf] at hx; exact Or.inl (List.mem_filter.1 hx).1

theorem named_step {g : Graph ι ν ε} (h : GInv g) (hc : Cfg g) {E : ι → Item ι Unit (EdgeData ι ε)}
    (hn : ∀ x ∈ (view g).edges, E x.id = x) {op : Op ι ν ε} (ho : ∀ x, op = .addEdge (some x) → E x.id = x) :
    ∀ x ∈ (view (step g op).1).edges, E x.id = x := by
  intro x hx
  rw [(step_spec h hc op).2] at hx
  rcases mem_next hx with hx | hx
  · exact hn x hx
  · exact ho x hx

theorem others_mono {b : ι} {s s' : St ι ν ε} (h : Step b s s') : ∀ op ∈ s.others, op ∈ s'.others := by
  intro op hop
  cases h <;> first | exact hop | exact List.mem_append_left _ hop

theorem log_mono {b : ι} {s s' : St ι ν ε} (h : Step b s s') : ∀ x ∈ s.log, x ∈ s'.log := by
  intro op hop
  cases h <;> first | exact hop | exact List.mem_cons_of_mem _ hop

theorem obj_get {g : Graph ι ν ε} {it : Iter ι} {e : ι} (h : e ∈ it.obj g) :
    ∃ l, g.out.get? it.node = some l ∧ e ∈ l := by
  simp only [Iter.obj] at h
  split at h
  · simp only [adj] at h
    cases hl : g.out.get? it.node with
    | none => rw [hl] at h; cases h
    | some l => rw [hl] at h; exact ⟨l, rfl, h⟩
  · cases h

theorem edge_ok_iff {g : Graph ι ν ε} {e : ι} {x : Item ι Unit (EdgeData ι ε)} :
    edge g e = .ok x ↔ g.edges.items.get? e = some x := by
  simp only [edge]
  cases g.edges.items.get? e <;> simp

/-- Correctness of the search part. -/
structure Search (E : ι → Item ι Unit (EdgeData ι ε)) (a : ι) (log : List (ι × Bool)) (s : Bfs ι) : Prop where
  va : a ∈ s.visited
  pa : s.parent.get? a = none
  par : ∀ v ∈ s.visited, v ≠ a → ∃ p e, s.parent.get? v = some (p, e) ∧ p ∈ s.visited ∧ (E e).data.head = p ∧
    (E e).data.tail = v ∧ (e, true) ∈ log
  queue : ∀ v ∈ s.queue, v ∈ s.visited

def PcOK (E : ι → Item ι Unit (EdgeData ι ε)) (a b : ι) (s : St ι ν ε) : Pc ι ε → Prop
  | .pop => True
  | .iter it => it.node ∈ s.search.visited
  | .asked it e t => it.node ∈ s.search.visited ∧ (E e).data.head = it.node ∧ (E e).data.tail = t ∧ t ∉ s.search.visited
  | .done (.path p) => Walk (view s.g).edges a p b ∧ ∀ x ∈ p, (x.id, true) ∈ s.log
  | .done .none => True
  | .done (.raised _) => True
  | .done .condition => True

/-- Invariant for the soundness of a returned path. -/
structure SInv (E : ι → Item ι Unit (EdgeData ι ε)) (a b : ι) (s : St ι ν ε) : Prop where
  ginv : GInv s.g
  cfg : Cfg s.g
  named : ∀ x ∈ (view s.g).edges, E x.id = x
  search : Search E a s.log s.search
  pc : PcOK E a b s s.pc

theorem Search.log {E : ι → Item ι Unit (EdgeData ι ε)} {a : ι} {log log' : List (ι × Bool)} {s : Bfs ι}
    (h : Search E a log s) (hl : ∀ x ∈ log, x ∈ log') : Search E a log' s := by
  refine ⟨h.va, h.pa, ?_, h.queue⟩
  intro v hv hva
  obtain ⟨p, e, h1, h2, h3, h4, h5⟩ := h.par v hv hva
  exact ⟨p, e, h1, h2, h3, h4, hl _ h5⟩

theorem Search.reach {E : ι → Item ι Unit (EdgeData ι ε)} {a : ι} {log : List (ι × Bool)} {s : Bfs ι}
    (h : Search E a log s) {n e t : ι} (hn : n ∈ s.visited) (ht : t ∉ s.visited) (h1 : (E e).data.head = n)
    (h2 : (E e).data.tail = t) : Search E a ((e, true) :: log) (reach s n e t) := by
  have hne : ∀ v ∈ s.visited, v ≠ t := fun v hv he => ht (he ▸ hv)
  refine ⟨List.mem_append_left _ h.va, ?_, ?_, ?_⟩
  · simp only [FindPathConc.reach]
    rw [Dict.get?_set, if_neg (fun e => hne a h.va e.symm)]; exact h.pa
  · intro v hv hva
    simp only [FindPathConc.reach, List.mem_append, List.mem_singleton] at hv ⊢
    rcases hv with hv | rfl
    · obtain ⟨p, e', h3, h4, h5, h6, h7⟩ := h.par v hv hva
      refine ⟨p, e', ?_, Or.inl h4, h5, h6, List.mem_cons_of_mem _ h7⟩
      rw [Dict.get?_set, if_neg (fun e => hne v hv e.symm)]; exact h3
    · exact ⟨n, e, by simp [Dict.get?_set], Or.inl hn, h1, h2, by simp⟩
  · intro v hv
    simp only [FindPathConc.reach, List.mem_append, List.mem_singleton] at hv ⊢
    rcases hv with hv | rfl
    · exact Or.inl (h.queue v hv)
    · exact Or.inr rfl

theorem recon_sound {g : Graph ι ν ε} (hg : GInv g) {E : ι → Item ι Unit (EdgeData ι ε)} {a : ι} {log : List (ι × Bool)}
    {s : Bfs ι} (hn : ∀ x ∈ (view g).edges, E x.id = x) (h : Search E a log s) (k : Nat) :
    ∀ v path w, v ∈ s.visited → reconstruct g s.parent k v path = some (.ok w) →
      ∃ w0, w = w0 ++ path.reverse ∧ Walk (view g).edges a w0 v ∧ ∀ x ∈ w0, (x.id, true) ∈ log := by
  induction k with
  | zero =>
    intro v path w hv hr
    by_cases hva : v = a
    · subst hva
      unfold reconstruct at hr
      simp only [h.pa, Option.some.injEq, Except.ok.injEq] at hr
      exact ⟨[], by simp [hr], rfl, by simp⟩
    · obtain ⟨p, e, h1, _⟩ := h.par v hv hva
      unfold reconstruct at hr
      simp only [h1] at hr
      cases hr
  | succ k ih =>
    intro v path w hv hr
    by_cases hva : v = a
    · subst hva
      unfold reconstruct at hr
      simp only [h.pa, Option.some.injEq, Except.ok.injEq] at hr
      exact ⟨[], by simp [hr], rfl, by simp⟩
    · obtain ⟨p, e, h1, h2, h3, h4, h5⟩ := h.par v hv hva
      unfold reconstruct at hr
      simp only [h1] at hr
      cases he : edge g e with
      | error x => rw [he] at hr; cases hr
      | ok ed =>
        rw [he] at hr
        obtain ⟨w0, q1, q2, q3⟩ := ih p (path ++ [ed]) w h2 hr
        have hst := (get_of_view hg).1 (edge_ok_iff.1 he)
        have hEd : E e = ed := by rw [← hst.2]; exact hn ed hst.1
        refine ⟨w0 ++ [ed], by simp [q1], walk_append q2 ⟨hst.1, ?_, ?_⟩, ?_⟩
        · rw [← hEd]; exact h3
        · rw [← hEd]; exact h4
        · intro x hx
          rcases List.mem_append.1 hx with hx | hx
          · exact q3 x hx
          · simp at hx; rw [hx, hst.2]; exact h5

theorem SInv.step {E : ι → Item ι Unit (EdgeData ι ε)} {a b : ι} {s s' : St ι ν ε} (h : SInv E a b s)
    (hs : Step b s s') (ho : ∀ x, Op.addEdge (some x) ∈ s'.others → E x.id = x) : SInv E a b s' := by
  have hpc := h.pc
  cases hs with
  | exhausted hp hq => exact ⟨h.ginv, h.cfg, h.named, h.search, trivial⟩
  | goal q k r hp hq hr =>
    refine ⟨h.ginv, h.cfg, h.named, h.search, ?_⟩
    cases r with
    | error x => trivial
    | ok w =>
      obtain ⟨w0, q1, q2, q3⟩ := recon_sound h.ginv h.named h.search k b [] w (h.search.queue b (by rw [hq]; simp)) hr
      simp at q1
      subst q1
      exact ⟨q2, q3⟩
  | gone n q hp hq hn ho' => exact ⟨h.ginv, h.cfg, h.named, h.search, trivial⟩
  | expand n q l hp hq hn ho' =>
    have hq' : ∀ v ∈ n :: q, v ∈ s.search.visited := fun v hv => h.search.queue v (by rw [hq]; exact hv)
    exact ⟨h.ginv, h.cfg, h.named, ⟨h.search.va, h.search.pa, h.search.par, fun v hv => hq' v (List.mem_cons_of_mem _ hv)⟩,
      hq' n (by simp)⟩
  | resized it hp hs => exact ⟨h.ginv, h.cfg, h.named, h.search, trivial⟩
  | stop it hp hs hd => exact ⟨h.ginv, h.cfg, h.named, h.search, trivial⟩
  | missing it e x hp hs he hf hx => exact ⟨h.ginv, h.cfg, h.named, h.search, trivial⟩
  | known it e ed hp hs he hf hx hv =>
    rw [hp] at hpc
    exact ⟨h.ginv, h.cfg, h.named, h.search, hpc⟩
  | ask it e ed hp hs he hf hx hv =>
    rw [hp] at hpc
    obtain ⟨l, hl, hel⟩ := obj_get he
    obtain ⟨ed', h1, h2⟩ := (h.ginv.out.spec _ _ hl e).1 hel
    rw [edge_ok_iff] at hx
    rw [hx] at h1; cases h1
    have hst := (get_of_view h.ginv).1 hx
    have hEd : E e = ed := by rw [← hst.2]; exact h.named ed hst.1
    exact ⟨h.ginv, h.cfg, h.named, h.search, hpc, by rw [hEd]; exact h2, by rw [hEd], hv⟩
  | other it e t op hp =>
    rw [hp] at hpc
    exact ⟨h.ginv.step op, h.cfg.step h.ginv op, named_step h.ginv h.cfg h.named (fun x hx => ho x (by simp [hx])), h.search, hpc⟩
  | no it e t hp =>
    rw [hp] at hpc
    exact ⟨h.ginv, h.cfg, h.named, h.search.log (fun x hx => List.mem_cons_of_mem _ hx), hpc.1⟩
  | yes it e t hp =>
    rw [hp] at hpc
    exact ⟨h.ginv, h.cfg, h.named, h.search.reach hpc.1 hpc.2.2.2 hpc.2.1 hpc.2.2.1, List.mem_append_left _ hpc.1⟩
  | fails it e t hp => exact ⟨h.ginv, h.cfg, h.named, h.search, trivial⟩

theorem sinv_exec {E : ι → Item ι Unit (EdgeData ι ε)} {a b : ι} {g : Graph ι ν ε} (hg : GInv g) (hc : Cfg g)
    (hn : ∀ x ∈ (view g).edges, E x.id = x) {s : St ι ν ε} (hs : Exec b (start g a) s)
    (ho : ∀ x, Op.addEdge (some x) ∈ s.others → E x.id = x) : SInv E a b s := by
  induction hs with
  | refl =>
    refine ⟨hg, hc, hn, ⟨by simp [start], rfl, ?_, by simp [start]⟩, trivial⟩
    intro v hv hva
    simp [start] at hv; exact absurd hv hva
  | step _ hst ih => exact (ih (fun x hx => ho x (others_mono hst _ hx))).step hst ho

/-! ### Only additions -/

/-- `add_node` or `add_edge`. -/
def Adding : Op ι ν ε → Prop
  | .addNode _ => True
  | .addEdge _ => True
  | .removeNode _ _ => False
  | .removeEdge _ => False

/-- What an addition does to the adjacency sets: nodes stay nodes, edges stay, the set of a node is unchanged or grows,
the latter only for `add_edge`. -/
theorem adding_step {g : Graph ι ν ε} (h : GInv g) {op : Op ι ν ε} (ha : Adding op) :
    (∀ n ∈ g.nodes.order, n ∈ (Graph.step g op).1.nodes.order) ∧
    (∀ e ed, g.edges.items.get? e = some ed → (Graph.step g op).1.edges.items.get? e = some ed) ∧
    (∀ n l, g.out.get? n = some l → (Graph.step g op).1.out.get? n = some l ∨
      ∃ x, op = .addEdge (some x) ∧ (Graph.step g op).1.out.get? n = some (l ++ [x.id])) := by
  cases op with
  | removeNode o r => exact ha.elim
  | removeEdge r => exact ha.elim
  | addNode a =>
    have hst : (Graph.step g (.addNode a)).1 = (addNode g a).1 := rfl
    rw [hst]
    rcases addNode_cases h a with ⟨e, he⟩ | ⟨x, rfl, hx, he⟩
    · rw [he]; exact ⟨fun _ h => h, fun _ _ h => h, fun _ _ h => Or.inl h⟩
    · rw [he]
      refine ⟨fun _ h => List.mem_append_left _ h, fun _ _ h => h, fun n l hl => Or.inl ?_⟩
      have hnx : x.id ≠ n := by
        rintro rfl
        exact hx (by rw [← h.out.keys]; exact Dict.mem_keys_of_get? hl)
      show (g.out.set x.id []).get? n = some l
      rw [Dict.get?_set, if_neg hnx]; exact hl
  | addEdge a =>
    have hst : (Graph.step g (.addEdge a)).1 = (addEdge g a).1 := rfl
    rw [hst]
    rcases addEdge_cases h a with ⟨e, he⟩ | ⟨x, l, m, rfl, hk, h1, h2, hl, hm, he⟩
    · rw [he]; exact ⟨fun _ h => h, fun _ _ h => h, fun _ _ h => Or.inl h⟩
    · rw [he]
      refine ⟨fun _ h => h, ?_, ?_⟩
      · intro e ed hed
        have hne : x.id ≠ e := by
          rintro rfl
          exact hk (Dict.mem_keys_of_get? hed)
        show (g.edges.items.set x.id x).get? e = some ed
        rw [Dict.get?_set, if_neg hne]; exact hed
      · intro n l' hl'
        show (g.out.set x.data.head (setAdd l x.id)).get? n = some l' ∨
          ∃ y, Op.addEdge (some x) = Op.addEdge (some y) ∧ (g.out.set x.data.head (setAdd l x.id)).get? n = some (l' ++ [y.id])
        rw [Dict.get?_set]
        by_cases hn : x.data.head = n
        · subst hn
          rw [hl] at hl'; cases hl'
          have hxl : x.id ∉ l := by
            intro hm
            obtain ⟨ed, h3, _⟩ := (h.out.spec _ _ hl x.id).1 hm
            exact hk (Dict.mem_keys_of_get? h3)
          right
          exact ⟨x, rfl, by simp [setAdd, hxl]⟩
        · rw [if_neg hn]; exact Or.inl hl'

/-- Edges of node `u` that the running `for` loop still has to look at. -/
def Pending (u e : ι) : Pc ι ε → Prop
  | .pop => False
  | .iter it => it.node = u ∧ e ∉ it.seen
  | .asked it e' _ => it.node = u ∧ (e ∉ it.seen ∨ e = e')
  | .done _ => False

/-- The iterator while only additions happen. -/
structure IterOK (D : List ι) (s : St ι ν ε) (it : Iter ι) : Prop where
  node : it.node ∈ D ∧ it.node ∈ s.search.visited
  alive : it.alive = true
  quiet : it.touched = false → ∃ l, s.g.out.get? it.node = some l ∧ it.size = l.length
  grown : it.touched = true → ∃ l, s.g.out.get? it.node = some l ∧ it.size < l.length ∧ ∃ x, Op.addEdge (some x) ∈ s.others

def PcA (g0 : Graph ι ν ε) (a b : ι) (D : List ι) (s : St ι ν ε) : Pc ι ε → Prop
  | .pop => True
  | .iter it => IterOK D s it
  | .asked it e t => IterOK D s it ∧ t ≠ a ∧ ∃ ed, s.g.edges.items.get? e = some ed ∧ ed.data.tail = t
  | .done (.path _) => True
  | .done .none => ∀ w, Walk (view g0).edges a w b → ∃ x ∈ w, (x.id, false) ∈ s.log
  | .done (.raised x) => x = .runtimeError ∧ ∃ x, Op.addEdge (some x) ∈ s.others
  | .done .condition => True

/-- Invariant while other tasks only add. -/
structure AInv (g0 : Graph ι ν ε) (a b : ι) (D : List ι) (s : St ι ν ε) : Prop where
  ginv : GInv s.g
  keep : ∀ e ed, g0.edges.items.get? e = some ed → s.g.edges.items.get? e = some ed
  nodes : ∀ v ∈ s.search.visited, v ∈ s.g.nodes.order
  va : a ∈ s.search.visited
  pa : s.search.parent.get? a = none
  par : ∀ v ∈ s.search.visited, v ≠ a → ∃ p e ed, s.search.parent.get? v = some (p, e) ∧ p ∈ s.search.visited ∧
    s.g.edges.items.get? e = some ed
  queue : ∀ v ∈ s.search.queue, v ∈ s.search.visited
  vis : (∃ r, s.pc = .done r) ∨ ∀ v ∈ s.search.visited, v ∈ D ∨ v ∈ s.search.queue
  goal : b ∉ D
  closed : (∃ r, s.pc = .done r) ∨ ∀ u ∈ D, ∀ e ed, g0.edges.items.get? e = some ed → ed.data.head = u →
    ed.data.tail ∈ s.search.visited ∨ (e, false) ∈ s.log ∨ Pending u e s.pc
  pc : PcA g0 a b D s s.pc

theorem recon_noerr {g : Graph ι ν ε} {a : ι} {s : Bfs ι} (pa : s.parent.get? a = none)
    (par : ∀ v ∈ s.visited, v ≠ a → ∃ p e ed, s.parent.get? v = some (p, e) ∧ p ∈ s.visited ∧
      g.edges.items.get? e = some ed) (k : Nat) :
    ∀ v path r, v ∈ s.visited → reconstruct g s.parent k v path = some r → ∃ w, r = .ok w := by
  induction k with
  | zero =>
    intro v path r hv hr
    by_cases hva : v = a
    · subst hva
      unfold reconstruct at hr
      simp only [pa, Option.some.injEq] at hr
      exact ⟨_, hr.symm⟩
    · obtain ⟨p, e, _, h1, _⟩ := par v hv hva
      unfold reconstruct at hr
      simp only [h1] at hr
      cases hr
  | succ k ih =>
    intro v path r hv hr
    by_cases hva : v = a
    · subst hva
      unfold reconstruct at hr
      simp only [pa, Option.some.injEq] at hr
      exact ⟨_, hr.symm⟩
    · obtain ⟨p, e, ed, h1, h2, h3⟩ := par v hv hva
      unfold reconstruct at hr
      simp only [h1, edge_ok h3] at hr
      exact ih p _ r h2 hr

theorem IterOK.obj {D : List ι} {s : St ι ν ε} {it : Iter ι} (h : IterOK D s it) (hs : (it.obj s.g).length = it.size) :
    it.touched = false ∧ s.g.out.get? it.node = some (it.obj s.g) := by
  cases ht : it.touched with
  | true =>
    obtain ⟨l, h1, h2, _⟩ := h.grown ht
    simp only [Iter.obj, h.alive, if_true, adj_eq h1] at hs
    omega
  | false =>
    obtain ⟨l, h1, h2⟩ := h.quiet ht
    refine ⟨rfl, ?_⟩
    simp only [Iter.obj, h.alive, if_true, adj_eq h1]
    exact h1

theorem IterOK.other {D : List ι} {s : St ι ν ε} {it : Iter ι} (h : IterOK D s it) (hg : GInv s.g) {op : Op ι ν ε}
    (ha : Adding op) (pc : Pc ι ε) :
    IterOK D { s with g := (Graph.step s.g op).1, pc := pc, others := s.others ++ [op] }
      (it.after s.g (Graph.step s.g op).1) := by
  obtain ⟨_, _, h3⟩ := adding_step hg ha
  cases ht : it.touched with
  | true =>
    obtain ⟨l, h4, h5, x, hx⟩ := h.grown ht
    rcases h3 _ _ h4 with h6 | ⟨y, hy, h6⟩
    · refine ⟨h.node, by simp [Iter.after, h.alive, h6], by simp [Iter.after, ht], fun _ => ⟨l, h6, h5, x, ?_⟩⟩
      exact List.mem_append_left _ hx
    · refine ⟨h.node, by simp [Iter.after, h.alive, h6], by simp [Iter.after, ht], fun _ => ⟨_, h6, ?_, x, ?_⟩⟩
      · simp only [Iter.after, List.length_append]; omega
      · exact List.mem_append_left _ hx
  | false =>
    obtain ⟨l, h4, h5⟩ := h.quiet ht
    rcases h3 _ _ h4 with h6 | ⟨y, hy, h6⟩
    · refine ⟨h.node, by simp [Iter.after, h.alive, h6], fun _ => ⟨l, h6, h5⟩, ?_⟩
      intro hc
      simp [Iter.after, ht, h6, h4] at hc
    · refine ⟨h.node, by simp [Iter.after, h.alive, h6], ?_, fun _ => ⟨_, h6, ?_, y, ?_⟩⟩
      · intro hc
        simp [Iter.after, ht, h6, h4] at hc
      · simp only [Iter.after, List.length_append, List.length_singleton]; omega
      · simp [hy]

theorem AInv.step {g0 : Graph ι ν ε} (hg0 : GInv g0) {a b : ι} {D : List ι} {s s' : St ι ν ε} (h : AInv g0 a b D s)
    (hs : Step b s s') (ho : ∀ op ∈ s'.others, Adding op) : ∃ D', AInv g0 a b D' s' := by
  have hpc := h.pc
  have hcl := h.closed
  have hvis := h.vis
  have nd : ∀ {r}, s.pc = .done r → ∀ {p : Pc ι ε}, s.pc = p → (∀ r', p ≠ .done r') → False :=
    fun h1 _ h2 h3 => h3 _ (h2.symm.trans h1)
  cases hs with
  | exhausted hp hq =>
    refine ⟨D, h.ginv, h.keep, h.nodes, h.va, h.pa, h.par, h.queue, Or.inl ⟨_, rfl⟩, h.goal, Or.inl ⟨_, rfl⟩, ?_⟩
    rcases hcl with ⟨r, hr⟩ | hcl
    · exact (nd hr hp (by simp)).elim
    rcases hvis with ⟨r, hr⟩ | hvis
    · exact (nd hr hp (by simp)).elim
    have key : ∀ w u, u ∈ s.search.visited → Walk (view g0).edges u w b → ∃ x ∈ w, (x.id, false) ∈ s.log := by
      intro w
      induction w with
      | nil =>
        intro u hu hw
        cases hw
        rcases hvis b hu with h1 | h1
        · exact absurd h1 h.goal
        · rw [hq] at h1; cases h1
      | cons x w ih =>
        intro u hu hw
        obtain ⟨h1, h2, h3⟩ := hw
        rcases hvis u hu with h4 | h4
        · rcases hcl u h4 x.id x ((get_of_view hg0).2 ⟨h1, rfl⟩) h2 with h5 | h5 | h5
          · obtain ⟨y, hy, hy2⟩ := ih _ h5 h3
            exact ⟨y, List.mem_cons_of_mem _ hy, hy2⟩
          · exact ⟨x, by simp, h5⟩
          · rw [hp] at h5; exact h5.elim
        · rw [hq] at h4; cases h4
    exact fun w hw => key w a h.va hw
  | goal q k r hp hq hr =>
    refine ⟨D, h.ginv, h.keep, h.nodes, h.va, h.pa, h.par, h.queue, Or.inl ⟨_, rfl⟩, h.goal, Or.inl ⟨_, rfl⟩, ?_⟩
    obtain ⟨w, rfl⟩ := recon_noerr h.pa h.par k b [] r (h.queue b (by rw [hq]; simp)) hr
    trivial
  | gone n q hp hq hn ho' =>
    exfalso
    obtain ⟨l, hl⟩ := h.ginv.out.get (h.nodes n (h.queue n (by rw [hq]; simp)))
    rw [ho'] at hl; cases hl
  | expand n q l hp hq hn ho' =>
    rcases hcl with ⟨r, hr⟩ | hcl
    · exact (nd hr hp (by simp)).elim
    rcases hvis with ⟨r, hr⟩ | hvis
    · exact (nd hr hp (by simp)).elim
    have hq' : ∀ v ∈ n :: q, v ∈ s.search.visited := fun v hv => h.queue v (by rw [hq]; exact hv)
    refine ⟨n :: D, h.ginv, h.keep, h.nodes, h.va, h.pa, h.par, fun v hv => hq' v (List.mem_cons_of_mem _ hv), Or.inr ?_, ?_,
      Or.inr ?_, ?_⟩
    · intro v hv
      rcases hvis v hv with h1 | h1
      · exact Or.inl (List.mem_cons_of_mem _ h1)
      · rw [hq] at h1
        rcases List.mem_cons.1 h1 with rfl | h1
        · exact Or.inl (by simp)
        · exact Or.inr h1
    · intro hm
      rcases List.mem_cons.1 hm with hm | hm
      · exact hn hm.symm
      · exact h.goal hm
    · intro u hu e ed he hh
      rcases List.mem_cons.1 hu with rfl | hu
      · exact Or.inr (Or.inr ⟨rfl, by simp⟩)
      · rcases hcl u hu e ed he hh with h1 | h1 | h1
        · exact Or.inl h1
        · exact Or.inr (Or.inl h1)
        · rw [hp] at h1; exact h1.elim
    · exact ⟨⟨by simp, hq' n (by simp)⟩, rfl, fun _ => ⟨l, ho', rfl⟩, by simp⟩
  | resized it hp hs =>
    refine ⟨D, h.ginv, h.keep, h.nodes, h.va, h.pa, h.par, h.queue, Or.inl ⟨_, rfl⟩, h.goal, Or.inl ⟨_, rfl⟩, rfl, ?_⟩
    rw [hp] at hpc
    cases ht : it.touched with
    | true => obtain ⟨l, _, _, h3⟩ := hpc.grown ht; exact h3
    | false =>
      obtain ⟨l, h1, h2⟩ := hpc.quiet ht
      exfalso; apply hs
      simp only [Iter.obj, hpc.alive, if_true, adj_eq h1, h2]
  | stop it hp hs hd =>
    rw [hp] at hpc
    rcases hcl with ⟨r, hr⟩ | hcl
    · exact (nd hr hp (by simp)).elim
    rcases hvis with ⟨r, hr⟩ | hvis
    · exact (nd hr hp (by simp)).elim
    obtain ⟨ht, hobj⟩ := IterOK.obj hpc hs
    have hd' : ∀ e ∈ it.obj s.g, e ∈ it.seen := by
      rcases hd with hd | hd
      · exact hd
      · rw [ht] at hd; cases hd
    refine ⟨D, h.ginv, h.keep, h.nodes, h.va, h.pa, h.par, h.queue, Or.inr hvis, h.goal, Or.inr ?_, trivial⟩
    intro u hu e ed he hh
    rcases hcl u hu e ed he hh with h1 | h1 | h1
    · exact Or.inl h1
    · exact Or.inr (Or.inl h1)
    · rw [hp] at h1
      exact absurd (hd' e ((h.ginv.out.spec _ _ hobj e).2 ⟨ed, h.keep e ed he, by rw [hh]; exact h1.1.symm⟩)) h1.2
  | missing it e x hp hs he hf hx =>
    exfalso
    rw [hp] at hpc
    obtain ⟨ht, hobj⟩ := IterOK.obj hpc hs
    obtain ⟨ed, h1, _⟩ := (h.ginv.out.spec _ _ hobj e).1 he
    rw [edge_ok h1] at hx; cases hx
  | known it e ed hp hs he hf hx hv =>
    rw [hp] at hpc
    rcases hcl with ⟨r, hr⟩ | hcl
    · exact (nd hr hp (by simp)).elim
    rcases hvis with ⟨r, hr⟩ | hvis
    · exact (nd hr hp (by simp)).elim
    refine ⟨D, h.ginv, h.keep, h.nodes, h.va, h.pa, h.par, h.queue, Or.inr hvis, h.goal, Or.inr ?_,
      ⟨hpc.node, hpc.alive, hpc.quiet, hpc.grown⟩⟩
    intro u hu e' ed' he' hh
    rcases hcl u hu e' ed' he' hh with h1 | h1 | h1
    · exact Or.inl h1
    · exact Or.inr (Or.inl h1)
    · rw [hp] at h1
      by_cases hee : e' = e
      · subst hee
        rw [edge_ok_iff, h.keep _ _ he'] at hx
        cases hx
        exact Or.inl hv
      · exact Or.inr (Or.inr ⟨h1.1, by simp [hee, h1.2]⟩)
  | ask it e ed hp hs he hf hx hv =>
    rw [hp] at hpc
    rcases hcl with ⟨r, hr⟩ | hcl
    · exact (nd hr hp (by simp)).elim
    rcases hvis with ⟨r, hr⟩ | hvis
    · exact (nd hr hp (by simp)).elim
    refine ⟨D, h.ginv, h.keep, h.nodes, h.va, h.pa, h.par, h.queue, Or.inr hvis, h.goal, Or.inr ?_,
      ⟨hpc.node, hpc.alive, hpc.quiet, hpc.grown⟩, (fun e => hv (e ▸ h.va)), ed, edge_ok_iff.1 hx, rfl⟩
    intro u hu e' ed' he' hh
    rcases hcl u hu e' ed' he' hh with h1 | h1 | h1
    · exact Or.inl h1
    · exact Or.inr (Or.inl h1)
    · rw [hp] at h1
      by_cases hee : e' = e
      · exact Or.inr (Or.inr ⟨h1.1, Or.inr hee⟩)
      · exact Or.inr (Or.inr ⟨h1.1, Or.inl (by simp [hee, h1.2])⟩)
  | other it e t op hp =>
    rw [hp] at hpc
    rcases hcl with ⟨r, hr⟩ | hcl
    · exact (nd hr hp (by simp)).elim
    rcases hvis with ⟨r, hr⟩ | hvis
    · exact (nd hr hp (by simp)).elim
    have hop : Adding op := ho op (by simp)
    obtain ⟨h1, h2, h3⟩ := adding_step h.ginv hop
    obtain ⟨hit, hta, ed, hed, htl⟩ := hpc
    refine ⟨D, h.ginv.step op, fun e ed he => h2 _ _ (h.keep e ed he), fun v hv => h1 _ (h.nodes v hv), h.va, h.pa, ?_, h.queue,
      Or.inr hvis, h.goal, Or.inr ?_, hit.other h.ginv hop _, hta, ed, h2 _ _ hed, htl⟩
    · intro v hv hva
      obtain ⟨p, e, ed, q1, q2, q3⟩ := h.par v hv hva
      exact ⟨p, e, ed, q1, q2, h2 _ _ q3⟩
    · intro u hu e' ed' he' hh
      rcases hcl u hu e' ed' he' hh with q | q | q
      · exact Or.inl q
      · exact Or.inr (Or.inl q)
      · rw [hp] at q
        exact Or.inr (Or.inr q)
  | no it e t hp =>
    rw [hp] at hpc
    rcases hcl with ⟨r, hr⟩ | hcl
    · exact (nd hr hp (by simp)).elim
    rcases hvis with ⟨r, hr⟩ | hvis
    · exact (nd hr hp (by simp)).elim
    obtain ⟨hit, hta, ed, hed, htl⟩ := hpc
    refine ⟨D, h.ginv, h.keep, h.nodes, h.va, h.pa, h.par, h.queue, Or.inr hvis, h.goal, Or.inr ?_,
      ⟨hit.node, hit.alive, hit.quiet, hit.grown⟩⟩
    intro u hu e' ed' he' hh
    rcases hcl u hu e' ed' he' hh with q | q | q
    · exact Or.inl q
    · exact Or.inr (Or.inl (List.mem_cons_of_mem _ q))
    · rw [hp] at q
      by_cases hee : e' = e
      · subst hee; exact Or.inr (Or.inl (by simp))
      · rcases q.2 with q2 | q2
        · exact Or.inr (Or.inr ⟨q.1, q2⟩)
        · exact absurd q2 hee
  | yes it e t hp =>
    rw [hp] at hpc
    rcases hcl with ⟨r, hr⟩ | hcl
    · exact (nd hr hp (by simp)).elim
    rcases hvis with ⟨r, hr⟩ | hvis
    · exact (nd hr hp (by simp)).elim
    obtain ⟨hit, hta, ed, hed, htl⟩ := hpc
    · refine ⟨D, h.ginv, h.keep, ?_, List.mem_append_left _ h.va, ?_, ?_, ?_, Or.inr ?_, h.goal, Or.inr ?_,
        ⟨⟨hit.node.1, List.mem_append_left _ hit.node.2⟩, hit.alive, hit.quiet, hit.grown⟩⟩
      · intro v hv
        rcases List.mem_append.1 hv with hv | hv
        · exact h.nodes v hv
        · simp at hv; rw [hv, ← htl]; exact (h.ginv.ends e ed hed).2
      · simp only [reach]
        rw [Dict.get?_set, if_neg hta]; exact h.pa
      · intro v hv hva
        simp only [reach, List.mem_append, List.mem_singleton] at hv ⊢
        by_cases hvt : t = v
        · subst hvt
          exact ⟨it.node, e, ed, by simp [Dict.get?_set], Or.inl hit.node.2, hed⟩
        · rcases hv with hv | hv
          · obtain ⟨p, e', ed', q1, q2, q3⟩ := h.par v hv hva
            exact ⟨p, e', ed', by rw [Dict.get?_set, if_neg hvt]; exact q1, Or.inl q2, q3⟩
          · exact absurd hv.symm hvt
      · intro v hv
        simp only [reach, List.mem_append, List.mem_singleton] at hv ⊢
        rcases hv with hv | hv
        · exact Or.inl (h.queue v hv)
        · exact Or.inr hv
      · intro v hv
        simp only [reach, List.mem_append, List.mem_singleton] at hv ⊢
        rcases hv with hv | hv
        · rcases hvis v hv with q | q
          · exact Or.inl q
          · exact Or.inr (Or.inl q)
        · exact Or.inr (Or.inr hv)
      · intro u hu e' ed' he' hh
        simp only [reach, List.mem_append, List.mem_singleton]
        rcases hcl u hu e' ed' he' hh with q | q | q
        · exact Or.inl (Or.inl q)
        · exact Or.inr (Or.inl (List.mem_cons_of_mem _ q))
        · rw [hp] at q
          by_cases hee : e' = e
          · subst hee
            have := h.keep _ _ he'
            rw [hed] at this; cases this
            exact Or.inl (Or.inr htl)
          · rcases q.2 with q2 | q2
            · exact Or.inr (Or.inr ⟨q.1, q2⟩)
            · exact absurd q2 hee
  | fails it e t hp =>
    exact ⟨D, h.ginv, h.keep, h.nodes, h.va, h.pa, h.par, h.queue, Or.inl ⟨_, rfl⟩, h.goal, Or.inl ⟨_, rfl⟩, trivial⟩

theorem ainv_exec {a b : ι} {g : Graph ι ν ε} (hg : GInv g) (ha : a ∈ g.nodes.order) {s : St ι ν ε}
    (hs : Exec b (start g a) s) (ho : ∀ op ∈ s.others, Adding op) : ∃ D, AInv g a b D s := by
  induction hs with
  | refl =>
    refine ⟨[], hg, fun _ _ h => h, ?_, by simp [start], rfl, ?_, by simp [start], Or.inr (by simp [start]), by simp,
      Or.inr (by simp), trivial⟩
    · intro v hv; simp [start] at hv; rw [hv]; exact ha
    · intro v hv hva
      simp [start] at hv; exact absurd hv hva
  | step _ hst ih =>
    obtain ⟨D, h⟩ := ih (fun x hx => ho x (others_mono hst _ hx))
    exact h.step hg hst ho

end Verif.FindPathConc
