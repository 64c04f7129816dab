import Verif.Lemmas.Graph
import Verif.Spec.Digraph

/-! # Correctness of the three-colour DFS of `is_acyclic` -/

set_option linter.unusedSectionVars false
set_option linter.unusedSimpArgs false

namespace Verif.Graph

open Digraph

variable {ι ν ε : Type} [DecidableEq ι]

/-- Edge relation of the graph's stored edges. -/
abbrev E (g : Graph ι ν ε) : ι → ι → Prop := Adj (Pile.abs g.edges)

theorem E_iff {g : Graph ι ν ε} (h : GInv g) (u v : ι) :
    E g u v ↔ ∃ e ed, g.edges.items.get? e = some ed ∧ ed.data.head = u ∧ ed.data.tail = v := by
  constructor
  · rintro ⟨e, he, h1, h2⟩
    exact ⟨e.id, e, (mem_abs_edge h e).1 he, h1, h2⟩
  · rintro ⟨e, ed, he, h1, h2⟩
    have hid := h.edges.ids e ed he
    exact ⟨ed, (mem_abs_edge h ed).2 (by rw [hid]; exact he), h1, h2⟩

theorem TransGen.head_cases {R : ι → ι → Prop} {a b : ι} (h : Relation.TransGen R a b) :
    ∃ c, R a c ∧ (c = b ∨ Relation.TransGen R c b) := by
  induction h with
  | single h => exact ⟨_, h, Or.inl rfl⟩
  | tail _ h ih =>
    obtain ⟨c, h1, h2⟩ := ih
    refine ⟨c, h1, Or.inr ?_⟩
    rcases h2 with rfl | h2
    · exact .single h
    · exact h2.tail h

/-- Invariant on the colours: the black nodes are closed under successors and lie on no cycle. -/
structure DInv (g : Graph ι ν ε) (c : Dict ι Color) : Prop where
  keys : ∀ n, n ∈ c.keys ↔ n ∈ g.nodes.order
  closed : ∀ u v, c.get? u = some .black → E g u v → c.get? v = some .black
  acyc : ∀ u, c.get? u = some .black → ¬ Relation.TransGen (E g) u u

theorem DInv.closed_trans {g : Graph ι ν ε} {c : Dict ι Color} (h : DInv g c) {u v : ι}
    (hu : c.get? u = some .black) (huv : Relation.TransGen (E g) u v) : c.get? v = some .black := by
  induction huv with
  | single e => exact h.closed _ _ hu e
  | tail _ e ih => exact h.closed _ _ ih e

/-- Between two moments: same gray nodes, black nodes stay black. -/
structure Ext (c c' : Dict ι Color) : Prop where
  gray : ∀ u, c'.get? u = some .gray ↔ c.get? u = some .gray
  black : ∀ u, c.get? u = some .black → c'.get? u = some .black

theorem Ext.refl (c : Dict ι Color) : Ext c c := ⟨fun _ => Iff.rfl, fun _ h => h⟩

theorem Ext.trans {a b c : Dict ι Color} (h1 : Ext a b) (h2 : Ext b c) : Ext a c :=
  ⟨fun u => (h2.gray u).trans (h1.gray u), fun u h => h2.black u (h1.black u h)⟩

/-- Number of white nodes. -/
def whites (g : Graph ι ν ε) (c : Dict ι Color) : Nat :=
  (g.nodes.order.filter (fun n => decide (c.get? n = some .white))).length

theorem filter_length_le {α : Type} {p q : α → Bool} {l : List α} (h : ∀ a ∈ l, p a = true → q a = true) :
    (l.filter p).length ≤ (l.filter q).length := by
  induction l with
  | nil => simp
  | cons a l ih =>
    have ih' := ih (fun b hb => h b (by simp [hb]))
    by_cases hp : p a = true
    · have hq := h a (by simp) hp
      simp [hp, hq, ih']
    · have hp' : p a = false := by simpa using hp
      rw [List.filter_cons_of_neg (by simp [hp'])]
      rw [List.filter_cons]
      split
      · simp only [List.length_cons]; omega
      · exact ih'

theorem filter_length_lt {α : Type} {p q : α → Bool} {l : List α} (h : ∀ a ∈ l, p a = true → q a = true)
    {x : α} (hx : x ∈ l) (hp : p x = false) (hq : q x = true) :
    (l.filter p).length < (l.filter q).length := by
  induction l with
  | nil => cases hx
  | cons a l ih =>
    have hle := filter_length_le (l := l) (fun b hb => h b (by simp [hb]))
    rcases List.mem_cons.1 hx with rfl | hx
    · simp only [List.filter_cons, hp, hq, if_true, List.length_cons]
      simp only [Bool.false_eq_true, if_false]
      omega
    · have := ih (fun b hb => h b (by simp [hb])) hx
      by_cases hpa : p a = true
      · have hqa := h a (by simp) hpa
        simp [hpa, hqa, this]
      · have hp' : p a = false := by simpa using hpa
        rw [List.filter_cons_of_neg (by simp [hp']), List.filter_cons]
        split
        · simp only [List.length_cons]; omega
        · exact this

theorem whites_le {g : Graph ι ν ε} {c c' : Dict ι Color} (h : DInv g c) (hx : Ext c c') :
    whites g c' ≤ whites g c := by
  apply filter_length_le
  intro n hn hw
  simp only [decide_eq_true_eq] at hw ⊢
  obtain ⟨col, hcol⟩ := Option.isSome_iff_exists.1 ((Dict.get?_isSome_iff _ _).2 ((h.keys n).2 hn))
  cases col with
  | white => exact hcol
  | gray => have := (hx.gray n).2 hcol; rw [hw] at this; cases this
  | black => have := hx.black n hcol; rw [hw] at this; cases this

/-- What a DFS call guarantees. -/
def DfsPost (g : Graph ι ν ε) (k : Nat) (n : ι) (c : Dict ι Color) : Res (Dict ι Color) Bool → Prop
  | (c', .ok true) => DInv g c' ∧ Ext c c' ∧ c'.get? n = some .black
  | (_, .ok false) => ∃ u, Relation.TransGen (E g) u u
  | (_, .error e) => e = .recursionError ∧ k < whites g c

/-- What the loop over the out-edges guarantees. -/
def LoopPost (g : Graph ι ν ε) (k : Nat) (es : List ι) (c : Dict ι Color) : Res (Dict ι Color) Bool → Prop
  | (c', .ok true) => DInv g c' ∧ Ext c c' ∧
      ∀ e ∈ es, ∀ ed, g.edges.items.get? e = some ed → c'.get? ed.data.tail = some .black
  | (_, .ok false) => ∃ u, Relation.TransGen (E g) u u
  | (_, .error e) => e = .recursionError ∧ k < whites g c

theorem dfsLoop_spec {g : Graph ι ν ε} (hg : GInv g) (k : Nat)
    (rec_ : ι → Dict ι Color → Res (Dict ι Color) Bool)
    (hrec : ∀ n c, DInv g c → c.get? n = some .white →
      (∀ u, c.get? u = some .gray → Relation.TransGen (E g) u n) → DfsPost g k n c (rec_ n c))
    (n : ι) (es : List ι) :
    ∀ c, DInv g c → c.get? n = some .gray →
      (∀ u, c.get? u = some .gray → u = n ∨ Relation.TransGen (E g) u n) →
      (∀ e ∈ es, ∃ ed, g.edges.items.get? e = some ed ∧ ed.data.head = n) →
      LoopPost g k es c (dfsLoop g rec_ es c) := by
  induction es with
  | nil => intro c hc _ _ _; exact ⟨hc, Ext.refl c, by intro e he; cases he⟩
  | cons e es ih =>
    intro c hc hn hgray hes
    obtain ⟨ed, hed, hhead⟩ := hes e (by simp)
    have hE : E g n ed.data.tail := (E_iff hg _ _).2 ⟨e, ed, hed, hhead, rfl⟩
    have htail : ed.data.tail ∈ c.keys := (hc.keys _).2 (hg.ends e ed hed).2
    obtain ⟨col, hcol⟩ := Option.isSome_iff_exists.1 ((Dict.get?_isSome_iff _ _).2 htail)
    have hes' : ∀ e' ∈ es, ∃ ed, g.edges.items.get? e' = some ed ∧ ed.data.head = n :=
      fun e' he' => hes e' (by simp [he'])
    simp only [dfsLoop, edge_ok hed, hcol]
    cases col with
    | gray =>
      -- back edge
      rcases hgray _ hcol with h | h
      · rw [h] at hE; exact ⟨n, .single hE⟩
      · exact ⟨ed.data.tail, h.tail hE⟩
    | black =>
      have := ih c hc hn hgray hes'
      simp only
      generalize hr : dfsLoop g rec_ es c = r at this ⊢
      obtain ⟨c', r⟩ := r
      match r with
      | .ok true =>
        obtain ⟨h1, h2, h3⟩ := this
        refine ⟨h1, h2, ?_⟩
        intro e' he' ed' hed'
        rcases List.mem_cons.1 he' with rfl | he'
        · rw [hed] at hed'; cases hed'; exact h2.black _ hcol
        · exact h3 e' he' ed' hed'
      | .ok false => exact this
      | .error x => exact this
    | white =>
      have hr := hrec ed.data.tail c hc hcol (by
        intro u hu
        rcases hgray u hu with rfl | h
        · exact .single hE
        · exact h.tail hE)
      simp only
      generalize hr' : rec_ ed.data.tail c = r at hr ⊢
      obtain ⟨c1, r⟩ := r
      match r with
      | .ok true =>
        obtain ⟨h1, h2, h3⟩ := hr
        have := ih c1 h1 ((h2.gray n).2 hn) (fun u hu => hgray u ((h2.gray u).1 hu)) hes'
        simp only
        generalize hr2 : dfsLoop g rec_ es c1 = r2 at this ⊢
        obtain ⟨c2, r2⟩ := r2
        match r2 with
        | .ok true =>
          obtain ⟨k1, k2, k3⟩ := this
          refine ⟨k1, h2.trans k2, ?_⟩
          intro e' he' ed' hed'
          rcases List.mem_cons.1 he' with rfl | he'
          · rw [hed] at hed'; cases hed'; exact k2.black _ h3
          · exact k3 e' he' ed' hed'
        | .ok false => exact this
        | .error x => exact ⟨this.1, Nat.lt_of_lt_of_le this.2 (whites_le hc h2)⟩
      | .ok false => exact hr
      | .error x => exact hr

theorem dfs_spec {g : Graph ι ν ε} (hg : GInv g) (o : SetOrder ι) (k : Nat) :
    ∀ n c, DInv g c → c.get? n = some .white →
      (∀ u, c.get? u = some .gray → Relation.TransGen (E g) u n) → DfsPost g k n c (dfs o g k n c) := by
  induction k with
  | zero =>
    intro n c hc hn _
    refine ⟨rfl, ?_⟩
    unfold whites
    apply List.length_pos_of_mem (a := n)
    rw [List.mem_filter]
    exact ⟨(hc.keys n).1 (Dict.mem_keys_of_get? hn), by simpa using hn⟩
  | succ k ih =>
    intro n c hc hn hgray
    have hno : n ∈ g.nodes.order := (hc.keys n).1 (Dict.mem_keys_of_get? hn)
    obtain ⟨es, hes⟩ := hg.out.get hno
    have hc1 : DInv g (c.set n .gray) := by
      have hb : ∀ u, (c.set n .gray).get? u = some .black ↔ c.get? u = some .black := by
        intro u
        rw [Dict.get?_set]
        split
        · next e => subst e; rw [hn]; simp
        · rfl
      refine ⟨?_, ?_, ?_⟩
      · intro m
        rw [Dict.mem_keys_set, hc.keys]
        constructor
        · rintro (rfl | h)
          · exact hno
          · exact h
        · exact Or.inr
      · intro u v hu hE
        rw [hb] at hu ⊢
        exact hc.closed u v hu hE
      · intro u hu
        rw [hb] at hu
        exact hc.acyc u hu
    have hloop := dfsLoop_spec hg k (dfs o g k) ih n (o.out n es) (c.set n .gray) hc1 (by simp [Dict.get?_set]) (by
        intro u hu
        rw [Dict.get?_set] at hu
        split at hu
        · next e => exact Or.inl e.symm
        · exact Or.inr (hgray u hu)) (by
        intro e he
        exact (hg.out.spec n es hes e).1 ((o.out_perm n es).mem_iff.1 he))
    have hwhite : whites g (c.set n .gray) < whites g c := by
      apply filter_length_lt (x := n)
      · intro a _ ha
        simp only [decide_eq_true_eq, Dict.get?_set] at ha ⊢
        split at ha
        · cases ha
        · exact ha
      · exact hno
      · simp [Dict.get?_set]
      · simpa using hn
    simp only [dfs, hes]
    generalize hr : dfsLoop g (dfs o g k) (o.out n es) (c.set n .gray) = r at hloop ⊢
    obtain ⟨c2, r⟩ := r
    match r with
    | .ok false => exact hloop
    | .error x => exact ⟨hloop.1, by have := hloop.2; omega⟩
    | .ok true =>
      obtain ⟨h1, h2, h3⟩ := hloop
      have hn2 : c2.get? n = some .gray := (h2.gray n).2 (by simp [Dict.get?_set])
      have hsucc : ∀ v, E g n v → c2.get? v = some .black := by
        intro v hv
        obtain ⟨e, ed, hed, hh, ht⟩ := (E_iff hg _ _).1 hv
        have : e ∈ o.out n es := (o.out_perm n es).mem_iff.2 ((hg.out.spec n es hes e).2 ⟨ed, hed, hh⟩)
        have := h3 e this ed hed
        rwa [ht] at this
      refine ⟨⟨?_, ?_, ?_⟩, ⟨?_, ?_⟩, by simp [Dict.get?_set]⟩
      · intro m
        rw [Dict.mem_keys_set, h1.keys]
        constructor
        · rintro (rfl | h)
          · exact hno
          · exact h
        · exact Or.inr
      · intro u v hu hE
        rw [Dict.get?_set] at hu ⊢
        split
        · rfl
        · split at hu
          · next e => subst e; exact hsucc v hE
          · exact h1.closed u v hu hE
      · intro u hu hcyc
        rw [Dict.get?_set] at hu
        split at hu
        · next e =>
          subst e
          obtain ⟨v, hv, hvn⟩ := TransGen.head_cases hcyc
          have hvb := hsucc v hv
          rcases hvn with rfl | hvn
          · rw [hn2] at hvb; cases hvb
          · have := h1.closed_trans hvb hvn
            rw [hn2] at this; cases this
        · exact h1.acyc u hu hcyc
      · intro u
        rw [Dict.get?_set]
        split
        · next e => subst e; rw [hn]; simp
        · next e =>
          rw [h2.gray, Dict.get?_set, if_neg e]
      · intro u hu
        rw [Dict.get?_set]
        split
        · rfl
        · next e =>
          apply h2.black
          rw [Dict.get?_set, if_neg e]; exact hu

/-- Outcome of the whole check. -/
theorem dfsAll_spec {g : Graph ι ν ε} (hg : GInv g) (o : SetOrder ι) (limit : Nat) (ns : List ι) :
    ∀ c, DInv g c → (∀ u, c.get? u ≠ some .gray) → (∀ n ∈ ns, n ∈ g.nodes.order) →
      (∀ n ∈ g.nodes.order, n ∈ ns ∨ c.get? n = some .black) →
      (∀ b, dfsAll o g limit ns c = .ok b → (b = true ↔ ∀ u, ¬ Relation.TransGen (E g) u u)) ∧
      (∀ e, dfsAll o g limit ns c = .error e → e = .recursionError ∧ limit < g.nodes.order.length) := by
  induction ns with
  | nil =>
    intro c hc _ _ hall
    refine ⟨?_, ?_⟩
    · intro b hb
      cases hb
      simp only [true_iff]
      intro u hu
      have hno : u ∈ g.nodes.order := by
        obtain ⟨v, hv, _⟩ := TransGen.head_cases hu
        obtain ⟨e, ed, hed, hh, _⟩ := (E_iff hg _ _).1 hv
        rw [← hh]; exact (hg.ends e ed hed).1
      rcases hall u hno with h | h
      · cases h
      · exact hc.acyc u h hu
    · intro e he; cases he
  | cons n ns ih =>
    intro c hc hgray hns hall
    have hno := hns n (by simp)
    obtain ⟨col, hcol⟩ := Option.isSome_iff_exists.1 ((Dict.get?_isSome_iff _ _).2 ((hc.keys n).2 hno))
    simp only [dfsAll, hcol]
    cases col with
    | gray => exact absurd hcol (hgray n)
    | black =>
      refine ih c hc hgray (fun m hm => hns m (by simp [hm])) ?_
      intro m hm
      rcases hall m hm with h | h
      · rcases List.mem_cons.1 h with rfl | h
        · exact Or.inr hcol
        · exact Or.inl h
      · exact Or.inr h
    | white =>
      have hd := dfs_spec hg o limit n c hc hcol (fun u hu => absurd hu (hgray u))
      simp only
      generalize hr : dfs o g limit n c = r at hd ⊢
      obtain ⟨c', r⟩ := r
      match r with
      | .ok true =>
        obtain ⟨h1, h2, h3⟩ := hd
        refine ih c' h1 (fun u hu => hgray u ((h2.gray u).1 hu)) (fun m hm => hns m (by simp [hm])) ?_
        intro m hm
        rcases hall m hm with h | h
        · rcases List.mem_cons.1 h with rfl | h
          · exact Or.inr h3
          · exact Or.inl h
        · exact Or.inr (h2.black m h)
      | .ok false =>
        refine ⟨?_, fun e he => (by cases he)⟩
        intro b hb
        cases hb
        obtain ⟨u, hu⟩ := hd
        simp only [Bool.false_eq_true, false_iff]
        exact fun h => h u hu
      | .error x =>
        refine ⟨fun b hb => (by cases hb), ?_⟩
        intro e he
        cases he
        refine ⟨hd.1, Nat.lt_of_lt_of_le hd.2 (List.length_filter_le _ _)⟩

theorem isAcyclic_spec {g : Graph ι ν ε} (hg : GInv g) (o : SetOrder ι) (limit : Nat) :
    (∀ b, isAcyclic o g limit = .ok b → (b = true ↔ Acyclic (Pile.abs g.edges))) ∧
      (∀ e, isAcyclic o g limit = .error e → e = .recursionError ∧ limit < g.nodes.order.length) := by
  have hget : ∀ (l : List ι) n, Dict.get? (l.map (fun n => (n, Color.white))) n = if n ∈ l then some .white else none := by
    intro l n
    induction l with
    | nil => rfl
    | cons a l ih =>
      rw [List.map_cons, Dict.get?_cons, ih]
      by_cases e : a = n
      · simp [e]
      · simp [e, Ne.symm e]
  have := dfsAll_spec hg o limit g.nodes.keys (g.nodes.keys.map (fun n => (n, Color.white)))
    ⟨by intro n; simp [Dict.keys, Pile.keys, Function.comp_def], 
      (fun u v hu => by rw [hget] at hu; split at hu <;> cases hu),
      (fun u hu => by rw [hget] at hu; split at hu <;> cases hu)⟩
    (by intro u hu; rw [hget] at hu; split at hu <;> cases hu)
    (fun n hn => hn) (fun n hn => Or.inl hn)
  refine ⟨?_, this.2⟩
  intro b hb
  rw [acyclic_iff]
  exact this.1 b hb

end Verif.Graph
