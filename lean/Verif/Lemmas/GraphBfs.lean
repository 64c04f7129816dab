import Verif.Lemmas.GraphDfs

/-! # Correctness of the breadth-first search of `find_path` -/

set_option linter.unusedSectionVars false
set_option linter.unusedSimpArgs false

namespace Verif.Graph

open Digraph

variable {ι ν ε : Type} [DecidableEq ι]

/-- The stored edges whose condition answers yes. -/
def passing (g : Graph ι ν ε) (cond : ι → Bool) : List (Item ι Unit (EdgeData ι ε)) :=
  (Pile.abs g.edges).filter (fun e => cond e.id)

theorem mem_passing {g : Graph ι ν ε} (hg : GInv g) {cond : ι → Bool} (x : Item ι Unit (EdgeData ι ε)) :
    x ∈ passing g cond ↔ g.edges.items.get? x.id = some x ∧ cond x.id = true := by
  unfold passing
  rw [List.mem_filter, mem_abs_edge hg]

/-- Invariant of the search: `D` are the expanded nodes, `L` the current level, `rem` the edges of the last expanded node
still to be looked at, `dep` the depth of each visited node. -/
structure BInv (g : Graph ι ν ε) (cond : ι → Bool) (a goal : ι) (D : List ι) (L : Nat) (rem : List ι) (dep : ι → Nat)
    (s : Bfs ι) : Prop where
  vis : ∀ v, v ∈ s.visited ↔ v ∈ D ++ s.queue
  nodup : (D ++ s.queue).Nodup
  sub : ∀ v ∈ D ++ s.queue, v ∈ g.nodes.order
  start : a ∈ s.visited ∧ dep a = 0 ∧ s.parent.get? a = none
  par : ∀ v ∈ s.visited, v ≠ a → ∃ p e ed, s.parent.get? v = some (p, e) ∧ p ∈ D ∧ g.edges.items.get? e = some ed ∧
    ed.data.head = p ∧ ed.data.tail = v ∧ cond e = true ∧ dep v = dep p + 1
  closed : ∀ u ∈ D, ∀ e ed, g.edges.items.get? e = some ed → ed.data.head = u → cond e = true →
    e ∈ rem ∨ (ed.data.tail ∈ s.visited ∧ dep ed.data.tail ≤ dep u + 1)
  low : ∀ d ∈ D, dep d ≤ L
  high : ∀ x ∈ s.queue, L ≤ dep x ∧ dep x ≤ L + 1
  sorted : s.queue.Pairwise (fun x y => dep x ≤ dep y)
  goal_nd : goal ∉ D
  bound : ∀ v ∈ s.visited, dep v ≤ D.length

theorem bfsInner_spec {g : Graph ι ν ε} (hg : GInv g) (cond : ι → Bool) (a goal : ι) (D : List ι) (n : ι) (es : List ι) :
    ∀ dep s, (∀ e ∈ es, ∃ ed, g.edges.items.get? e = some ed ∧ ed.data.head = n) →
      BInv g cond a goal (D ++ [n]) (dep n) es dep s → n ∈ s.visited →
      (∀ v ∈ s.visited, dep v ≤ (D ++ [n]).length) → dep n ≤ D.length →
      ∃ s' dep', bfsInner g cond n es s = .ok s' ∧ BInv g cond a goal (D ++ [n]) (dep n) [] dep' s' := by
  induction es with
  | nil => intro dep s _ h _ _ _; exact ⟨s, dep, rfl, h⟩
  | cons e es ih =>
    intro dep s hes h hn hb hnl
    obtain ⟨ed, hed, hh⟩ := hes e (by simp)
    have hes' : ∀ e ∈ es, ∃ ed, g.edges.items.get? e = some ed ∧ ed.data.head = n := fun x hx => hes x (by simp [hx])
    simp only [bfsInner, edge_ok hed]
    by_cases hv : ed.data.tail ∈ s.visited
    · rw [if_pos hv]
      have h' : BInv g cond a goal (D ++ [n]) (dep n) es dep s := by
        refine { h with closed := ?_ }
        intro u hu e' ed' he' hh' hc'
        rcases h.closed u hu e' ed' he' hh' hc' with hm | hm
        · rcases List.mem_cons.1 hm with rfl | hm
          · rw [hed] at he'; cases he'
            refine Or.inr ⟨hv, ?_⟩
            rw [← hh', hh]
            rw [h.vis, List.mem_append] at hv
            rcases hv with hv | hv
            · have := h.low _ hv; omega
            · exact (h.high _ hv).2
          · exact Or.inl hm
        · exact Or.inr hm
      exact ih dep s hes' h' hn hb hnl
    · rw [if_neg hv]
      by_cases hc : cond e = false
      · rw [if_pos hc]
        have h' : BInv g cond a goal (D ++ [n]) (dep n) es dep s := by
          refine { h with closed := ?_ }
          intro u hu e' ed' he' hh' hc'
          rcases h.closed u hu e' ed' he' hh' hc' with hm | hm
          · rcases List.mem_cons.1 hm with rfl | hm
            · rw [hc] at hc'; cases hc'
            · exact Or.inl hm
          · exact Or.inr hm
        exact ih dep s hes' h' hn hb hnl
      · rw [if_neg hc]
        have hct : cond e = true := by simpa using hc
        have htn : ed.data.tail ∉ (D ++ [n]) ++ s.queue := fun hm => hv ((h.vis _).2 hm)
        have hne : ∀ v ∈ s.visited, v ≠ ed.data.tail := fun v hv' e => hv (e ▸ hv')
        have hnt : n ≠ ed.data.tail := hne n hn
        let dep' : ι → Nat := fun x => if x = ed.data.tail then dep n + 1 else dep x
        have hdep' : ∀ v ∈ s.visited, dep' v = dep v := by
          intro v hv'; simp only [dep', if_neg (hne v hv')]
        have hDvis : ∀ d ∈ D ++ [n], d ∈ s.visited := fun d hd => (h.vis d).2 (List.mem_append_left _ hd)
        have hqvis : ∀ x ∈ s.queue, x ∈ s.visited := fun d hd => (h.vis d).2 (List.mem_append_right _ hd)
        have hdt : dep' ed.data.tail = dep n + 1 := by simp [dep']
        have hdn : dep' n = dep n := hdep' n hn
        have hb' : ∀ v ∈ s.visited ++ [ed.data.tail], dep' v ≤ (D ++ [n]).length := by
          intro v hv'
          rw [List.mem_append] at hv'
          rcases hv' with hv' | hv'
          · rw [hdep' v hv']; exact hb v hv'
          · simp at hv'; rw [hv', hdt]; simp; omega
        have h' : BInv g cond a goal (D ++ [n]) (dep' n) es dep'
            { queue := s.queue ++ [ed.data.tail], parent := s.parent.set ed.data.tail (n, e),
              visited := s.visited ++ [ed.data.tail] } := by
          constructor
          · intro v
            have := h.vis v
            simp only [List.mem_append, this]
            simp only [List.mem_append] at this ⊢
            constructor
            · rintro ((h | h) | h)
              · exact Or.inl h
              · exact Or.inr (Or.inl h)
              · exact Or.inr (Or.inr h)
            · rintro (h | h | h)
              · exact Or.inl (Or.inl h)
              · exact Or.inl (Or.inr h)
              · exact Or.inr h
          · rw [← List.append_assoc, List.nodup_append]
            refine ⟨h.nodup, by simp, ?_⟩
            intro x hx b hb heq
            simp at hb; subst hb
            exact htn (heq ▸ hx)
          · intro v hv'
            rw [← List.append_assoc, List.mem_append] at hv'
            rcases hv' with hv' | hv'
            · exact h.sub v hv'
            · simp at hv'; rw [hv']; exact (hg.ends e ed hed).2
          · obtain ⟨h1, h2, h3⟩ := h.start
            refine ⟨List.mem_append_left _ h1, by rw [hdep' a h1]; exact h2, ?_⟩
            rw [Dict.get?_set, if_neg (fun e => hne a h1 e.symm)]; exact h3
          · intro v hv' hva
            rw [List.mem_append] at hv'
            rcases hv' with hv' | hv'
            · obtain ⟨p, e', ed', h1, h2, h3, h4, h5, h6, h7⟩ := h.par v hv' hva
              refine ⟨p, e', ed', ?_, h2, h3, h4, h5, h6, ?_⟩
              · rw [Dict.get?_set, if_neg (fun e => hne v hv' e.symm)]; exact h1
              · rw [hdep' v hv', hdep' p (hDvis p h2)]; exact h7
            · simp at hv'
              subst hv'
              exact ⟨n, e, ed, by simp [Dict.get?_set], by simp, hed, hh, rfl, hct, by rw [hdt, hdn]⟩
          · intro u hu e' ed' he' hh' hc'
            rcases h.closed u hu e' ed' he' hh' hc' with hm | hm
            · rcases List.mem_cons.1 hm with rfl | hm
              · rw [hed] at he'; cases he'
                refine Or.inr ⟨by simp, ?_⟩
                rw [hdt, ← hh', hh, hdn]; exact Nat.le_refl _
              · exact Or.inl hm
            · refine Or.inr ⟨List.mem_append_left _ hm.1, ?_⟩
              rw [hdep' _ hm.1, hdep' u (hDvis u hu)]; exact hm.2
          · intro d hd; rw [hdep' d (hDvis d hd), hdn]; exact h.low d hd
          · intro x hx
            rw [List.mem_append] at hx
            rcases hx with hx | hx
            · rw [hdep' x (hqvis x hx), hdn]; exact h.high x hx
            · simp at hx; rw [hx, hdt, hdn]; omega
          · rw [List.pairwise_append]
            refine ⟨?_, by simp, ?_⟩
            · refine h.sorted.imp_of_mem ?_
              intro x y hx hy hxy
              rw [hdep' x (hqvis x hx), hdep' y (hqvis y hy)]; exact hxy
            · intro x hx y hy
              simp at hy; rw [hy, hdt, hdep' x (hqvis x hx)]
              exact (h.high x hx).2
          · exact h.goal_nd
          · exact hb'
        obtain ⟨s', d', h1, h2⟩ := ih dep' _ hes' h' (List.mem_append_left _ hn) hb' (by rw [hdn]; exact hnl)
        rw [hdn] at h2
        exact ⟨s', d', h1, h2⟩

theorem reconstruct_spec {g : Graph ι ν ε} (hg : GInv g) {cond : ι → Bool} {a goal : ι} {D : List ι} {L : Nat}
    {rem : List ι} {dep : ι → Nat} {s : Bfs ι} (h : BInv g cond a goal D L rem dep s) (d : Nat) :
    ∀ v k path, v ∈ s.visited → dep v = d → d ≤ k →
      ∃ w, Walk (passing g cond) a w v ∧ w.length = d ∧ reconstruct g s.parent k v path = some (.ok (w ++ path.reverse)) := by
  induction d with
  | zero =>
    intro v k path hv hd _
    by_cases hva : v = a
    · subst hva
      refine ⟨[], rfl, rfl, ?_⟩
      unfold reconstruct
      simp [h.start.2.2]
    · obtain ⟨p, e, ed, _, _, _, _, _, _, h7⟩ := h.par v hv hva
      omega
  | succ d ih =>
    intro v k path hv hd hk
    have hva : v ≠ a := by rintro rfl; have := h.start.2.1; omega
    obtain ⟨p, e, ed, h1, h2, h3, h4, h5, h6, h7⟩ := h.par v hv hva
    obtain ⟨k', rfl⟩ : ∃ k', k = k' + 1 := ⟨k - 1, by omega⟩
    obtain ⟨w, hw, hl, hr⟩ := ih p k' (path ++ [ed]) ((h.vis p).2 (List.mem_append_left _ h2)) (by omega) (by omega)
    have hid := hg.edges.ids e ed h3
    refine ⟨w ++ [ed], ?_, by simp [hl], ?_⟩
    · refine walk_append hw ⟨?_, h4, h5⟩
      rw [mem_passing hg, hid]; exact ⟨h3, h6⟩
    · unfold reconstruct
      simp only [h1, edge_ok h3, hr]
      simp

/-- A walk to a goal that is not expanded passes through the queue. -/
theorem frontier {g : Graph ι ν ε} (hg : GInv g) {cond : ι → Bool} {a goal : ι} {D : List ι} {L : Nat}
    {dep : ι → Nat} {s : Bfs ι} (h : BInv g cond a goal D L [] dep s) (w : List (Item ι Unit (EdgeData ι ε))) :
    ∀ u i, u ∈ s.visited → dep u ≤ i → Walk (passing g cond) u w goal → ∃ x ∈ s.queue, dep x ≤ i + w.length := by
  induction w with
  | nil =>
    intro u i hu hi hw
    cases hw
    have := (h.vis _).1 hu
    rw [List.mem_append] at this
    rcases this with h' | h'
    · exact absurd h' h.goal_nd
    · exact ⟨_, h', by simpa using hi⟩
  | cons e w ih =>
    intro u i hu hi hw
    obtain ⟨h1, h2, h3⟩ := hw
    rw [mem_passing hg] at h1
    have := (h.vis _).1 hu
    rw [List.mem_append] at this
    rcases this with h' | h'
    · rcases h.closed u h' e.id e h1.1 h2 h1.2 with hm | hm
      · cases hm
      · obtain ⟨x, hx, hx2⟩ := ih e.data.tail (i + 1) hm.1 (by omega) h3
        refine ⟨x, hx, ?_⟩
        simp only [List.length_cons]; omega
    · exact ⟨u, h', by omega⟩

/-- Result of the search. -/
def BfsPost (g : Graph ι ν ε) (cond : ι → Bool) (a goal : ι) : Option (List (Item ι Unit (EdgeData ι ε))) → Prop
  | some p => Walk (passing g cond) a p goal ∧ ∀ p', Walk (passing g cond) a p' goal → p.length ≤ p'.length
  | none => ∀ p, ¬ Walk (passing g cond) a p goal

theorem bfsLoop_spec {g : Graph ι ν ε} (hg : GInv g) (o : SetOrder ι) (cond : ι → Bool) (a goal : ι) (fuel : Nat) :
    ∀ D L dep s, BInv g cond a goal D L [] dep s → 2 * g.nodes.order.length ≤ fuel + D.length →
      ∃ r, bfsLoop o g cond goal fuel s = some (.ok r) ∧ BfsPost g cond a goal r := by
  induction fuel with
  | zero =>
    intro D L dep s h hf
    have hlen := List.Nodup.length_le_of_subset h.nodup h.sub
    simp only [List.length_append] at hlen
    have hq : s.queue = [] := List.length_eq_zero_iff.1 (by omega)
    refine ⟨none, by unfold bfsLoop; simp only [hq], ?_⟩
    intro p hp
    obtain ⟨x, hx, _⟩ := frontier hg h p a 0 h.start.1 (by rw [h.start.2.1]; exact Nat.le_refl _) hp
    rw [hq] at hx; cases hx
  | succ k ih =>
    intro D L dep s h hf
    cases hq : s.queue with
    | nil =>
      refine ⟨none, by unfold bfsLoop; simp only [hq], ?_⟩
      intro p hp
      obtain ⟨x, hx, _⟩ := frontier hg h p a 0 h.start.1 (by rw [h.start.2.1]; exact Nat.le_refl _) hp
      rw [hq] at hx; cases hx
    | cons n q =>
      have hnv : n ∈ s.visited := (h.vis n).2 (by simp [hq])
      have hno : n ∈ g.nodes.order := h.sub n (by simp [hq])
      have hlen := List.Nodup.length_le_of_subset h.nodup h.sub
      simp only [List.length_append, hq, List.length_cons] at hlen
      have hsorted := h.sorted
      rw [hq, List.pairwise_cons] at hsorted
      by_cases hgoal : n = goal
      · subst hgoal
        obtain ⟨w, hw, hl, hr⟩ := reconstruct_spec hg h (dep n) n k [] hnv rfl (by have := h.bound n hnv; omega)
        refine ⟨some w, ?_, hw, ?_⟩
        · unfold bfsLoop
          simp only [hq, if_true, hr]
          simp
        · intro p hp
          obtain ⟨x, hx, hx2⟩ := frontier hg h p a 0 h.start.1 (by rw [h.start.2.1]; exact Nat.le_refl _) hp
          rw [hq] at hx
          rcases List.mem_cons.1 hx with rfl | hx
          · omega
          · have := hsorted.1 x hx; omega
      · obtain ⟨es, hes⟩ := hg.out.get hno
        have hnd : n ∉ D := by
          have := h.nodup
          rw [hq, List.nodup_append] at this
          intro hm
          exact this.2.2 n hm n (by simp) rfl
        have hhigh := h.high n (by simp [hq])
        have h' : BInv g cond a goal (D ++ [n]) (dep n) (o.out n es) dep { s with queue := q } := by
          constructor
          · intro v; rw [h.vis v, hq]; simp
          · have := h.nodup; rw [hq] at this; simpa using this
          · intro v hv; exact h.sub v (by rw [hq]; simpa using hv)
          · exact h.start
          · intro v hv hva
            obtain ⟨p, e, ed, h1, h2, h3⟩ := h.par v hv hva
            exact ⟨p, e, ed, h1, List.mem_append_left _ h2, h3⟩
          · intro u hu e ed he hh hc
            rw [List.mem_append] at hu
            rcases hu with hu | hu
            · rcases h.closed u hu e ed he hh hc with hm | hm
              · cases hm
              · exact Or.inr hm
            · simp at hu
              refine Or.inl ((o.out_perm n es).mem_iff.2 ((hg.out.spec n es hes e).2 ⟨ed, he, by rw [hh, hu]⟩))
          · intro d hd
            rw [List.mem_append] at hd
            rcases hd with hd | hd
            · have := h.low d hd; omega
            · simp at hd; rw [hd]; exact Nat.le_refl _
          · intro x hx
            have h1 := hsorted.1 x hx
            have h2 := h.high x (by rw [hq]; simp [show x ∈ q from hx])
            exact ⟨h1, by omega⟩
          · exact hsorted.2
          · intro hm
            rw [List.mem_append] at hm
            rcases hm with hm | hm
            · exact h.goal_nd hm
            · simp at hm; exact hgoal hm.symm
          · intro v hv; have := h.bound v hv; simp; omega
        obtain ⟨s', dep', h1, h2⟩ := bfsInner_spec hg cond a goal D n (o.out n es) dep _
          (fun e he => (hg.out.spec n es hes e).1 ((o.out_perm n es).mem_iff.1 he)) h' hnv h'.bound (h.bound n hnv)
        obtain ⟨r, hr, hp⟩ := ih (D ++ [n]) (dep n) dep' s' h2 (by simp; omega)
        refine ⟨r, ?_, hp⟩
        unfold bfsLoop
        simp only [hq, if_neg hgoal, hes, h1, hr]

theorem bfs_start {g : Graph ι ν ε} (cond : ι → Bool) {a : ι} (goal : ι) (ha : a ∈ g.nodes.order) :
    BInv g cond a goal [] 0 [] (fun _ => 0) { queue := [a], parent := [], visited := [a] } := by
  constructor <;> simp [ha]

end Verif.Graph
