import Verif.Lemmas.GraphDfs

/-! # Correctness of Kahn's algorithm in `topological_sort` -/

set_option linter.unusedSectionVars false
set_option linter.unusedSimpArgs false

namespace Verif.Graph

open Digraph

variable {ι ν ε : Type} [DecidableEq ι]

theorem filter_length_succ {α : Type} [DecidableEq α] {p q : α → Bool} {l : List α} {x : α} (hn : l.Nodup) (hx : x ∈ l)
    (hp : p x = true) (hq : q x = false) (hpq : ∀ a ∈ l, a ≠ x → p a = q a) :
    (l.filter p).length = (l.filter q).length + 1 := by
  induction l with
  | nil => cases hx
  | cons a l ih =>
    rw [List.nodup_cons] at hn
    by_cases e : a = x
    · subst e
      have : l.filter p = l.filter q := List.filter_congr (fun b hb => hpq b (by simp [hb]) (fun h => hn.1 (h ▸ hb)))
      simp [List.filter_cons, hp, hq, this]
    · have hx' : x ∈ l := by rcases List.mem_cons.1 hx with h | h; exact absurd h.symm e; exact h
      have := ih hn.2 hx' (fun b hb => hpq b (by simp [hb]))
      have ha := hpq a (by simp) e
      cases hqa : q a with
      | true => simp [List.filter_cons, ha, hqa, this]
      | false => simp [List.filter_cons, ha, hqa, this]

/-- Does edge `e` start in `R`? -/
def headIn (g : Graph ι ν ε) (R : List ι) (e : ι) : Bool :=
  match g.edges.items.get? e with
  | some ed => decide (ed.data.head ∈ R)
  | none => false

theorem headIn_ok {g : Graph ι ν ε} {R : List ι} {e : ι} {ed : Item ι Unit (EdgeData ι ε)}
    (h : g.edges.items.get? e = some ed) : headIn g R e = decide (ed.data.head ∈ R) := by simp [headIn, h]

/-- Number of edges into `m` satisfying `P`. -/
def cntIn (g : Graph ι ν ε) (P : ι → Bool) (m : ι) : Int := ((adj g.inn m).filter P).length

/-- Invariant shared by the outer and inner loop; `P` says which edges have not been removed yet, `R` is the result so far. -/
structure KInv (g : Graph ι ν ε) (P : ι → Bool) (R : List ι) (deg : Dict ι Int) (q : List ι) : Prop where
  deg_eq : ∀ m ∈ g.nodes.order, deg.get? m = some (cntIn g P m)
  nodup : (R ++ q).Nodup
  sub : ∀ m ∈ R ++ q, m ∈ g.nodes.order
  zero : ∀ m ∈ g.nodes.order, m ∈ R ++ q ↔ cntIn g P m = 0

theorem cntIn_congr {g : Graph ι ν ε} {P Q : ι → Bool} {m : ι} (h : ∀ e ∈ adj g.inn m, P e = Q e) :
    cntIn g P m = cntIn g Q m := by
  unfold cntIn; rw [List.filter_congr h]

theorem adj_inn_mem {g : Graph ι ν ε} (hg : GInv g) {m : ι} (hm : m ∈ g.nodes.order) (e : ι) :
    e ∈ adj g.inn m ↔ ∃ ed, g.edges.items.get? e = some ed ∧ ed.data.tail = m := by
  obtain ⟨l, hl⟩ := hg.inn.get hm
  rw [adj_eq hl]
  exact hg.inn.spec m l hl e

theorem adj_inn_nodup {g : Graph ι ν ε} (hg : GInv g) {m : ι} (hm : m ∈ g.nodes.order) : (adj g.inn m).Nodup := by
  obtain ⟨l, hl⟩ := hg.inn.get hm
  rw [adj_eq hl]
  exact hg.inn.nodup m l hl

theorem kahnInner_spec {g : Graph ι ν ε} (hg : GInv g) (R : List ι) (n : ι) (hn : n ∈ R) (es : List ι) :
    ∀ deg q, es.Nodup → (∀ e ∈ es, ∃ ed, g.edges.items.get? e = some ed ∧ ed.data.head = n) →
      KInv g (fun e => !(headIn g R e) || decide (e ∈ es)) R deg q →
      ∃ deg' q', kahnInner g es deg q = .ok (deg', q') ∧ KInv g (fun e => !(headIn g R e)) R deg' q' := by
  induction es with
  | nil =>
    intro deg q _ _ h
    exact ⟨deg, q, rfl, by simpa using h⟩
  | cons e es ih =>
    intro deg q hnd hes h
    rw [List.nodup_cons] at hnd
    obtain ⟨ed, hed, hh⟩ := hes e (by simp)
    have ht : ed.data.tail ∈ g.nodes.order := (hg.ends e ed hed).2
    have hdeg := h.deg_eq _ ht
    let P : ι → Bool := fun x => !(headIn g R x) || decide (x ∈ e :: es)
    let Q : ι → Bool := fun x => !(headIn g R x) || decide (x ∈ es)
    have hQe : Q e = false := by
      simp only [Q, headIn_ok hed, hh, hn]
      simp [hnd.1]
    have hPe : P e = true := by simp [P]
    have hPQ : ∀ x, x ≠ e → P x = Q x := by
      intro x hx; simp [P, Q, hx]
    have hcnt : cntIn g P ed.data.tail = cntIn g Q ed.data.tail + 1 := by
      have := filter_length_succ (p := P) (q := Q) (adj_inn_nodup hg ht) ((adj_inn_mem hg ht e).2 ⟨ed, hed, rfl⟩) hPe hQe
        (fun a _ ha => hPQ a ha)
      unfold cntIn; omega
    have hother : ∀ m ∈ g.nodes.order, m ≠ ed.data.tail → cntIn g P m = cntIn g Q m := by
      intro m hm hne
      apply cntIn_congr
      intro x hx
      apply hPQ
      intro hxe
      obtain ⟨ed', h1, h2⟩ := (adj_inn_mem hg hm x).1 hx
      rw [hxe, hed] at h1; cases h1
      exact hne h2.symm
    have hQnn : 0 ≤ cntIn g Q ed.data.tail := by unfold cntIn; omega
    have htnot : ed.data.tail ∉ R ++ q := by
      intro hm
      have := (h.zero _ ht).1 hm
      change cntIn g P ed.data.tail = 0 at this
      omega
    have hdeg' : deg.get? ed.data.tail = some (cntIn g P ed.data.tail) := hdeg
    simp only [kahnInner, edge_ok hed, hdeg']
    have hd1 : cntIn g P ed.data.tail - 1 = cntIn g Q ed.data.tail := by omega
    rw [hd1]
    apply ih _ _ hnd.2 (fun e' he' => hes e' (by simp [he']))
    change KInv g Q R _ _
    by_cases hz : cntIn g Q ed.data.tail = 0
    · rw [if_pos hz]
      refine ⟨?_, ?_, ?_, ?_⟩
      · intro m hm
        rw [Dict.get?_set]
        split
        · next e => rw [e]
        · next hne => rw [h.deg_eq m hm]; exact congrArg some (hother m hm (Ne.symm hne))
      · rw [← List.append_assoc, List.nodup_append]
        refine ⟨h.nodup, by simp, ?_⟩
        intro a ha b hb
        simp at hb; subst hb
        intro hab
        rw [hab] at ha
        exact htnot ha
      · intro m hm
        rw [← List.append_assoc, List.mem_append] at hm
        rcases hm with hm | hm
        · exact h.sub m hm
        · simp at hm; rw [hm]; exact ht
      · intro m hm
        rw [← List.append_assoc, List.mem_append]
        by_cases hne : m = ed.data.tail
        · subst hne; simp [hz]
        · rw [← hother m hm hne, ← h.zero m hm]
          simp [hne]
    · rw [if_neg hz]
      refine ⟨?_, h.nodup, h.sub, ?_⟩
      · intro m hm
        rw [Dict.get?_set]
        split
        · next e => rw [e]
        · next hne => rw [h.deg_eq m hm]; exact congrArg some (hother m hm (Ne.symm hne))
      · intro m hm
        by_cases hne : m = ed.data.tail
        · subst hne
          exact ⟨fun h' => absurd h' htnot, fun h' => absurd h' hz⟩
        · rw [← hother m hm hne]; exact h.zero m hm

/-- `R` lists every node after all its predecessors. -/
def Topo (g : Graph ι ν ε) (R : List ι) : Prop :=
  ∀ l1 x l2, R = l1 ++ x :: l2 → ∀ u, E g u x → u ∈ l1

theorem topo_snoc {g : Graph ι ν ε} {R : List ι} (h : Topo g R) {n : ι} (hn : ∀ u, E g u n → u ∈ R) : Topo g (R ++ [n]) := by
  intro l1 x l2 heq u hu
  rcases List.eq_nil_or_concat l2 with rfl | ⟨l, b, rfl⟩
  · have := List.append_inj' heq rfl
    rw [← this.1]
    simp at this
    rw [← this.2] at hu
    exact hn u hu
  · have h1 : R ++ [n] = (l1 ++ x :: l) ++ [b] := by rw [heq]; simp
    have := List.append_inj' h1 rfl
    exact h l1 x l this.1 u hu

theorem cntIn_zero {g : Graph ι ν ε} (hg : GInv g) {R : List ι} {n : ι} (hn : n ∈ g.nodes.order) :
    cntIn g (fun e => !(headIn g R e)) n = 0 ↔ ∀ u, E g u n → u ∈ R := by
  unfold cntIn
  rw [Int.natCast_eq_zero, List.length_eq_zero_iff, List.filter_eq_nil_iff]
  constructor
  · intro h u hu
    obtain ⟨e, ed, hed, h1, h2⟩ := (E_iff hg _ _).1 hu
    have := h e ((adj_inn_mem hg hn e).2 ⟨ed, hed, h2⟩)
    rw [headIn_ok hed, h1] at this
    simpa using this
  · intro h e he
    obtain ⟨ed, hed, h2⟩ := (adj_inn_mem hg hn e).1 he
    have := h ed.data.head ((E_iff hg _ _).2 ⟨e, ed, hed, rfl, h2⟩)
    simp [headIn_ok hed, this]

/-- When the queue is empty every node of an acyclic graph has been listed. -/
theorem kahn_end {g : Graph ι ν ε} (hg : GInv g) (hac : ∀ u, ¬ Relation.TransGen (E g) u u) {R : List ι} {deg : Dict ι Int}
    (h : KInv g (fun e => !(headIn g R e)) R deg []) : R.Perm g.nodes.order := by
  rw [List.perm_ext_iff_of_nodup (by simpa using h.nodup) hg.nodes.nodup]
  intro m
  refine ⟨fun hm => h.sub m (by simpa using hm), ?_⟩
  intro hm
  apply Classical.byContradiction
  intro hnot
  obtain ⟨x, hx, hx2⟩ := exists_source hac _ (g.nodes.order.filter (fun m => decide (m ∉ R)))
    (Nat.le_refl _) (by
      intro hnil
      have : m ∈ g.nodes.order.filter (fun m => decide (m ∉ R)) :=
        List.mem_filter.2 ⟨hm, by simpa using hnot⟩
      rw [hnil] at this; cases this)
  rw [List.mem_filter] at hx
  have hx' : x ∉ R := by simpa using hx.2
  apply hx'
  have := (h.zero x hx.1).2 ((cntIn_zero hg hx.1).2 (by
    intro u hu
    apply Classical.byContradiction
    intro hu2
    refine hx2 u (List.mem_filter.2 ⟨?_, by simpa using hu2⟩) hu
    obtain ⟨e, ed, hed, h1, h2⟩ := (E_iff hg _ _).1 hu
    rw [← h1]; exact (hg.ends e ed hed).1))
  simpa using this

theorem kahnLoop_spec {g : Graph ι ν ε} (hg : GInv g) (hac : ∀ u, ¬ Relation.TransGen (E g) u u) (o : SetOrder ι) (k : Nat) :
    ∀ deg q res, (∀ x ∈ res, g.nodes.items.get? x.id = some x) →
      KInv g (fun e => !(headIn g (res.map Item.id) e)) (res.map Item.id) deg q → Topo g (res.map Item.id) →
      g.nodes.order.length ≤ k + res.length →
      ∃ r, kahnLoop o g k deg q res = some (.ok r) ∧ (∀ x ∈ r, g.nodes.items.get? x.id = some x) ∧
        (r.map Item.id).Perm g.nodes.order ∧ Topo g (r.map Item.id) := by
  induction k with
  | zero =>
    intro deg q res hres h ht hlen
    cases q with
    | nil => exact ⟨res, by simp [kahnLoop], hres, kahn_end hg hac h, ht⟩
    | cons n q =>
      exfalso
      have := List.Nodup.length_le_of_subset h.nodup h.sub
      simp at this; omega
  | succ k ih =>
    intro deg q res hres h ht hlen
    cases q with
    | nil => exact ⟨res, by simp [kahnLoop], hres, kahn_end hg hac h, ht⟩
    | cons n q =>
      have hno : n ∈ g.nodes.order := h.sub n (by simp)
      obtain ⟨nd, hnd⟩ := hg.node_get hno
      have hid := hg.nodes.ids n nd hnd
      obtain ⟨es, hes⟩ := hg.out.get hno
      have hnR : n ∉ res.map Item.id := by
        have := h.nodup
        rw [List.nodup_append] at this
        intro hm
        exact this.2.2 n hm n (by simp) rfl
      have hmap : (res ++ [nd]).map Item.id = res.map Item.id ++ [n] := by simp [hid]
      have hspec := kahnInner_spec hg (res.map Item.id ++ [n]) n (by simp) (o.out n es) deg q
        ((o.out_perm n es).nodup_iff.2 (hg.out.nodup n es hes))
        (fun e he => (hg.out.spec n es hes e).1 ((o.out_perm n es).mem_iff.1 he))
        (by
          have hcg : ∀ m ∈ g.nodes.order, cntIn g (fun e => !(headIn g (res.map Item.id ++ [n]) e) ||
              decide (e ∈ o.out n es)) m = cntIn g (fun e => !(headIn g (res.map Item.id) e)) m := by
            intro m hm
            apply cntIn_congr
            intro e he
            obtain ⟨ed, hed, _⟩ := (adj_inn_mem hg hm e).1 he
            have hmem : e ∈ o.out n es ↔ ed.data.head = n := by
              rw [(o.out_perm n es).mem_iff, hg.out.spec n es hes e]
              constructor
              · rintro ⟨ed', h1, h2⟩; rw [hed] at h1; cases h1; exact h2
              · intro h; exact ⟨ed, hed, h⟩
            rw [headIn_ok hed, headIn_ok hed]
            by_cases hh : ed.data.head = n
            · simp only [hmem, hh, decide_true, Bool.or_true]
              simp [hnR]
            · simp [hmem, hh]
          refine ⟨?_, ?_, ?_, ?_⟩
          · intro m hm; rw [hcg m hm]; exact h.deg_eq m hm
          · simpa using h.nodup
          · intro m hm; exact h.sub m (by simpa using hm)
          · intro m hm; rw [hcg m hm, ← h.zero m hm]; simp)
      obtain ⟨deg', q', h1, h2⟩ := hspec
      simp only [kahnLoop, node_ok hnd, hes, h1]
      refine ih deg' q' (res ++ [nd]) ?_ (by rw [hmap]; exact h2) ?_ (by simp; omega)
      · intro x hx
        rw [List.mem_append] at hx
        rcases hx with hx | hx
        · exact hres x hx
        · simp at hx; rw [hx, hid]; exact hnd
      · rw [hmap]
        apply topo_snoc ht
        exact (cntIn_zero hg hno).1 ((h.zero n hno).1 (by simp))

theorem inDegrees_get {g : Graph ι ν ε} (hg : GInv g) {m : ι} (hm : m ∈ g.nodes.order) :
    (inDegrees g).get? m = some (cntIn g (fun e => !(headIn g [] e)) m) := by
  obtain ⟨l, hl⟩ := hg.inn.get hm
  have h1 : ∀ d : Dict ι (List ι), Dict.get? (d.map (fun kv => (kv.1, (kv.2.length : Int)))) m =
      (d.get? m).map (fun l => (l.length : Int)) := by
    intro d
    induction d with
    | nil => rfl
    | cons kv d ih =>
      obtain ⟨k, v⟩ := kv
      rw [List.map_cons, Dict.get?_cons, Dict.get?_cons, ih]
      split <;> rfl
  unfold inDegrees cntIn
  rw [h1, hl, adj_eq hl]
  have : l.filter (fun e => !(headIn g [] e)) = l := by
    rw [List.filter_eq_self]
    intro e he
    obtain ⟨ed, hed, _⟩ := (hg.inn.spec m l hl e).1 he
    simp [headIn_ok hed]
  rw [this]; rfl

theorem zeroKeys_spec {d : Dict ι Int} (wf : d.WF) (m : ι) : m ∈ zeroKeys d ↔ d.get? m = some 0 := by
  unfold zeroKeys
  rw [List.mem_map, Dict.get?_iff_mem wf]
  constructor
  · rintro ⟨⟨k, v⟩, h1, rfl⟩
    rw [List.mem_filter] at h1
    have : v = 0 := by simpa using h1.2
    subst this
    exact h1.1
  · intro h
    exact ⟨(m, 0), List.mem_filter.2 ⟨h, by simp⟩, rfl⟩

theorem zeroKeys_nodup {d : Dict ι Int} (wf : d.WF) : (zeroKeys d).Nodup := by
  unfold zeroKeys
  exact List.Nodup.sublist (List.Sublist.map _ List.filter_sublist) wf

theorem inDegrees_keys (g : Graph ι ν ε) : (inDegrees g).keys = g.inn.keys := by
  simp [inDegrees, Dict.keys, Function.comp_def]

theorem kahn_start {g : Graph ι ν ε} (hg : GInv g) :
    KInv g (fun e => !(headIn g [] e)) [] (inDegrees g) (zeroKeys (inDegrees g)) := by
  have wf : (inDegrees g).WF := by
    unfold Dict.WF; rw [inDegrees_keys, hg.inn.keys]; exact hg.nodes.nodup
  refine ⟨fun m hm => inDegrees_get hg hm, by simpa using zeroKeys_nodup wf, ?_, ?_⟩
  · intro m hm
    simp only [List.nil_append] at hm
    have := Dict.mem_keys_of_get? ((zeroKeys_spec wf m).1 hm)
    rwa [inDegrees_keys, hg.inn.keys] at this
  · intro m hm
    rw [List.nil_append, zeroKeys_spec wf, inDegrees_get hg hm]
    simp

theorem topologicalSort_ok {g : Graph ι ν ε} (hg : GInv g) (o : SetOrder ι) (limit fuel : Nat)
    (h : isAcyclic o g limit = .ok true) (hf : g.nodes.order.length ≤ fuel) :
    ∃ r, topologicalSort o g limit fuel = some (.ok r) ∧ (∀ x ∈ r, g.nodes.items.get? x.id = some x) ∧
        (r.map Item.id).Perm g.nodes.order ∧ Topo g (r.map Item.id) := by
  have hac := ((isAcyclic_spec hg o limit).1 true h).1 rfl
  rw [acyclic_iff] at hac
  obtain ⟨r, h1, h2⟩ := kahnLoop_spec hg hac o fuel (inDegrees g) (zeroKeys (inDegrees g)) [] (by simp)
    (kahn_start hg) (by intro l1 x l2 h; simp at h) (by simpa using hf)
  exact ⟨r, by simp only [topologicalSort, h, h1], h2⟩

end Verif.Graph
