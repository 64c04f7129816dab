/-!
# CPython's `heapq`

`heapq.heappush` / `heapq.heappop` (the pure-Python reference implementation in `Lib/heapq.py`, which the C accelerator mirrors), used
by `libs/concurrency/_priority_queue.py`.  Not code from `/repo`: part of the assumed semantics of the standard library, but modelled
algorithm by algorithm rather than assumed to be correct.  A heap is the Python list; `lt` is the `<` of the items.
-/

namespace Verif.Heapq

variable {α : Type}

/-- The loop of `_siftdown(heap, 0, pos)` with `newitem = x`: move parents down until `x` fits, then store it.  The first number bounds
the iterations (`pos` suffices). -/
def siftdown (lt : α → α → Bool) : Nat → List α → α → Nat → List α
  | 0, l, x, pos => l.set pos x
  | k + 1, l, x, pos =>
    if pos = 0 then l.set 0 x
    else
      match l[(pos - 1) / 2]? with
      | none => l.set pos x
      | some p => if lt x p then siftdown lt k (l.set pos p) x ((pos - 1) / 2) else l.set pos x

/-- `if rightpos < endpos and not heap[childpos] < heap[rightpos]: childpos = rightpos`. -/
def smallerChild (lt : α → α → Bool) (l : List α) (pos : Nat) : Nat :=
  match l[2 * pos + 1]?, l[2 * pos + 2]? with
  | some a, some b => if lt a b then 2 * pos + 1 else 2 * pos + 2
  | _, _ => 2 * pos + 1

/-- The loop of `_siftup(heap, 0)`: bubble the smaller child up until hitting a leaf; returns the list and the final position of the
hole.  The first number bounds the iterations (`len(heap)` suffices). -/
def siftupLoop (lt : α → α → Bool) : Nat → List α → Nat → List α × Nat
  | 0, l, pos => (l, pos)
  | k + 1, l, pos =>
    if 2 * pos + 1 < l.length then
      match l[smallerChild lt l pos]? with
      | none => (l, pos)
      | some c => siftupLoop lt k (l.set pos c) (smallerChild lt l pos)
    else (l, pos)

/-- `heappush(heap, item)`. -/
def push (lt : α → α → Bool) (l : List α) (x : α) : List α := siftdown lt l.length (l ++ [x]) x l.length

/-- `heappop(heap)`; `none` is the `IndexError` of an empty heap. -/
def pop (lt : α → α → Bool) (l : List α) : Option (α × List α) :=
  match l.getLast? with
  | none => none
  | some last =>
    match l.dropLast with
    | [] => some (last, [])
    | top :: rest =>
      let r := siftupLoop lt (top :: rest).length ((top :: rest).set 0 last) 0
      some (top, siftdown lt r.2 r.1 last r.2)

/-! ### Correctness -/

/-- `≤`: not greater. -/
def le (lt : α → α → Bool) (a b : α) : Prop := lt b a = false

/-- `<` is a strict weak order (a total preorder up to ties), as for tuples of finite floats and UUIDs. -/
structure Order (lt : α → α → Bool) : Prop where
  asymm : ∀ a b, lt a b = true → lt b a = false
  trans : ∀ a b c, le lt a b → le lt b c → le lt a c

theorem Order.refl {lt : α → α → Bool} (h : Order lt) (a : α) : le lt a a := by
  unfold le
  cases hc : lt a a with
  | false => rfl
  | true => rw [h.asymm a a hc] at hc; cases hc

theorem Order.le_of_lt {lt : α → α → Bool} (h : Order lt) {a b : α} (hl : lt a b = true) : le lt a b := h.asymm a b hl

theorem le_of_not_lt {lt : α → α → Bool} {a b : α} (hl : ¬ lt a b = true) : le lt b a := by
  unfold le; simpa using hl

/-- The entry at position `i`, if any, is not smaller than the one at its parent position. -/
def OkAt (lt : α → α → Bool) (l : List α) (i : Nat) : Prop :=
  ∀ a b, l[i]? = some a → l[(i - 1) / 2]? = some b → le lt b a

/-- The heap invariant. -/
def IsHeap (lt : α → α → Bool) (l : List α) : Prop := ∀ i, 0 < i → OkAt lt l i

/-- The heap invariant except between `pos` and its parent; the children of `pos` fit below its parent. -/
structure Down (lt : α → α → Bool) (l : List α) (pos : Nat) : Prop where
  ok : ∀ i, 0 < i → i ≠ pos → OkAt lt l i
  grand : ∀ i a b, 0 < pos → 0 < i → (i - 1) / 2 = pos → l[i]? = some a → l[(pos - 1) / 2]? = some b → le lt b a

/-- The heap invariant except between `pos` and its parent and children; the children of `pos` fit below its parent. -/
structure Up (lt : α → α → Bool) (l : List α) (pos : Nat) : Prop where
  ok : ∀ i, 0 < i → i ≠ pos → (i - 1) / 2 ≠ pos → OkAt lt l i
  grand : ∀ i a b, 0 < pos → 0 < i → (i - 1) / 2 = pos → l[i]? = some a → l[(pos - 1) / 2]? = some b → le lt b a

theorem swap_perm {l : List α} {i j : Nat} {a b : α} (hij : i ≠ j) (ha : l[i]? = some a) (hb : l[j]? = some b) :
    ((l.set i b).set j a).Perm l := by
  induction l generalizing i j with
  | nil => simp at ha
  | cons x l ih =>
    cases i with
    | zero =>
      cases j with
      | zero => exact absurd rfl hij
      | succ j =>
        simp only [List.getElem?_cons_zero, Option.some.injEq] at ha
        simp only [List.getElem?_cons_succ] at hb
        subst ha
        simp only [List.set_cons_zero, List.set_cons_succ]
        have hj := (List.getElem?_eq_some_iff.1 hb).1
        have h1 : (l.set j x) = l.take j ++ x :: l.drop (j + 1) := List.set_eq_take_append_cons_drop .. |>.trans (by simp [hj])
        have h2 : l = l.take j ++ b :: l.drop (j + 1) := by
          have h3 : l.drop j = b :: l.drop (j + 1) := by
            rw [List.drop_eq_getElem_cons hj]; congr 1; exact (List.getElem?_eq_some_iff.1 hb).2
          rw [← h3, List.take_append_drop]
        rw [h1]
        conv => rhs; rw [h2]
        refine List.Perm.trans (List.Perm.cons b List.perm_middle) ?_
        refine List.Perm.trans (List.Perm.swap x b _) ?_
        exact List.Perm.cons x List.perm_middle.symm
    | succ i =>
      cases j with
      | zero =>
        simp only [List.getElem?_cons_zero, Option.some.injEq] at hb
        simp only [List.getElem?_cons_succ] at ha
        subst hb
        simp only [List.set_cons_zero, List.set_cons_succ]
        have hj := (List.getElem?_eq_some_iff.1 ha).1
        have h1 : (l.set i x) = l.take i ++ x :: l.drop (i + 1) := List.set_eq_take_append_cons_drop .. |>.trans (by simp [hj])
        have h2 : l = l.take i ++ a :: l.drop (i + 1) := by
          have h3 : l.drop i = a :: l.drop (i + 1) := by
            rw [List.drop_eq_getElem_cons hj]; congr 1; exact (List.getElem?_eq_some_iff.1 ha).2
          rw [← h3, List.take_append_drop]
        rw [h1]
        conv => rhs; rw [h2]
        refine List.Perm.trans (List.Perm.cons a List.perm_middle) ?_
        refine List.Perm.trans (List.Perm.swap x a _) ?_
        exact List.Perm.cons x List.perm_middle.symm
      | succ j =>
        simp only [List.getElem?_cons_succ] at ha hb
        simp only [List.set_cons_succ]
        exact List.Perm.cons x (ih (by omega) ha hb)

/-- Moving the hole from `pos` to `q`: the contents with the new item in the hole are the same. -/
theorem hole_perm {l : List α} {pos q : Nat} {x p : α} (hne : pos ≠ q) (hp : l[q]? = some p) (hpos : pos < l.length) :
    ((l.set pos p).set q x).Perm (l.set pos x) := by
  have h := swap_perm (l := l.set pos x) (i := pos) (j := q) (a := x) (b := p) hne (by simp [hpos])
    (by rw [List.getElem?_set_ne hne]; exact hp)
  rwa [List.set_set] at h

theorem siftdown_perm (lt : α → α → Bool) (x : α) (k : Nat) :
    ∀ (pos : Nat) (l : List α), pos ≤ k → pos < l.length → (siftdown lt k l x pos).Perm (l.set pos x) := by
  induction k with
  | zero => intro pos l _ _; exact .refl _
  | succ k ih =>
    intro pos l hk hl
    rw [siftdown]
    split
    · next h => subst h; exact .refl _
    · next h =>
      split
      · exact .refl _
      · next p hp =>
        split
        · have h2 := ih ((pos - 1) / 2) (l.set pos p) (by omega) (by simp; omega)
          exact h2.trans (hole_perm (by omega) hp hl)
        · exact .refl _

theorem siftupLoop_spec (lt : α → α → Bool) (x : α) : ∀ (n : Nat) (l : List α) (pos : Nat), l.length - pos ≤ n → pos < l.length →
    (siftupLoop lt n l pos).2 < (siftupLoop lt n l pos).1.length ∧
    ((siftupLoop lt n l pos).1.set (siftupLoop lt n l pos).2 x).Perm (l.set pos x) := by
  intro n
  induction n with
  | zero => intro l pos hn hl; omega
  | succ n ih =>
    intro l pos hn hl
    rw [siftupLoop]
    split
    · split
      · exact ⟨hl, .refl _⟩
      · next c hc =>
        have hlt := (List.getElem?_eq_some_iff.1 hc).1
        have hgt : pos < smallerChild lt l pos := by
          unfold smallerChild; split
          · split <;> omega
          · omega
        obtain ⟨h1, h2⟩ := ih (l.set pos c) (smallerChild lt l pos) (by simp; omega) (by simpa using hlt)
        exact ⟨h1, h2.trans (hole_perm (by omega) hc hl)⟩
    · exact ⟨hl, .refl _⟩

theorem getElem?_set' (l : List α) (i j : Nat) (x : α) (hi : i < l.length) :
    (l.set i x)[j]? = if i = j then some x else l[j]? := by
  rw [List.getElem?_set]
  by_cases h : i = j
  · subst h; simp [hi]
  · simp [h]

theorem siftdown_heap {lt : α → α → Bool} (ho : Order lt) (x : α) (k : Nat) :
    ∀ (pos : Nat) (l : List α), pos ≤ k → pos < l.length → Down lt (l.set pos x) pos → IsHeap lt (siftdown lt k l x pos) := by
  induction k with
  | zero => intro pos l hk hl hd i hi; exact hd.ok i hi (by omega)
  | succ k ih =>
    intro pos l hk hl hd
    rw [siftdown]
    split
    · next h => subst h; intro i hi; exact hd.ok i hi (by omega)
    · next h =>
      split
      · next hn => rw [List.getElem?_eq_none_iff] at hn; omega
      · next p hp =>
        have hp' : (l.set pos x)[(pos - 1) / 2]? = some p := by rw [List.getElem?_set_ne (by omega)]; exact hp
        split
        · next hlt =>
          apply ih ((pos - 1) / 2) (l.set pos p) (by omega) (by simp; omega)
          -- the list after the swap
          have hg : ∀ j, ((l.set pos p).set ((pos - 1) / 2) x)[j]? =
              if (pos - 1) / 2 = j then some x else if pos = j then some p else l[j]? := by
            intro j
            rw [getElem?_set' _ _ _ _ (by simp; omega), getElem?_set' _ _ _ _ hl]
          have hold : ∀ j, (l.set pos x)[j]? = if pos = j then some x else l[j]? := fun j => getElem?_set' _ _ _ _ hl
          constructor
          · intro i hi hne a b ha hb
            rw [hg] at ha hb
            rw [if_neg (Ne.symm hne)] at ha
            by_cases hip : i = pos
            · subst hip
              simp only [if_true] at ha hb
              injection ha with ha; injection hb with hb; subst ha; subst hb
              exact ho.le_of_lt hlt
            · rw [if_neg (Ne.symm hip)] at ha
              have hai : (l.set pos x)[i]? = some a := by rw [hold, if_neg (Ne.symm hip)]; exact ha
              by_cases hpar : (pos - 1) / 2 = (i - 1) / 2
              · rw [if_pos hpar] at hb; injection hb with hb; subst hb
                exact ho.trans _ _ _ (ho.le_of_lt hlt) (hd.ok i hi hip a p hai (by rw [← hpar]; exact hp'))
              · rw [if_neg hpar] at hb
                by_cases hpp : pos = (i - 1) / 2
                · rw [if_pos hpp] at hb; injection hb with hb; subst hb
                  exact hd.grand i a p (by omega) hi hpp.symm hai hp'
                · rw [if_neg hpp] at hb
                  exact hd.ok i hi hip a b hai (by rw [hold, if_neg hpp]; exact hb)
          · intro i a b hpos hi hpi ha hb
            rw [hg] at ha hb
            rw [if_neg (by omega)] at ha hb
            rw [if_neg (by omega)] at hb
            have hbp : le lt b p := hd.ok ((pos - 1) / 2) hpos (by omega) p b hp' (by rw [hold, if_neg (by omega)]; exact hb)
            by_cases hip : pos = i
            · rw [if_pos hip] at ha; injection ha with ha; subst ha; exact hbp
            · rw [if_neg hip] at ha
              exact ho.trans _ _ _ hbp (hd.ok i hi (Ne.symm hip) a p (by rw [hold, if_neg hip]; exact ha) (by rw [hpi]; exact hp'))
        · next hlt =>
          intro i hi
          by_cases hip : i = pos
          · subst hip
            intro a b ha hb
            rw [hp'] at hb; injection hb with hb; subst hb
            rw [getElem?_set' _ _ _ _ hl, if_pos rfl] at ha; injection ha with ha; subst ha
            exact le_of_not_lt hlt
          · exact hd.ok i hi hip

theorem smallerChild_spec {lt : α → α → Bool} (ho : Order lt) (l : List α) (pos : Nat) (h : 2 * pos + 1 < l.length) :
    smallerChild lt l pos < l.length ∧ 0 < smallerChild lt l pos ∧ (smallerChild lt l pos - 1) / 2 = pos ∧
    ∀ i a c, 0 < i → (i - 1) / 2 = pos → l[i]? = some a → l[smallerChild lt l pos]? = some c → le lt c a := by
  unfold smallerChild
  split
  · next a b ha hb =>
    have hbl := (List.getElem?_eq_some_iff.1 hb).1
    split
    · next hlt =>
      refine ⟨h, by omega, by omega, ?_⟩
      intro i a' c hi hpi ha' hc
      rw [ha] at hc; injection hc with hc; subst hc
      have : i = 2 * pos + 1 ∨ i = 2 * pos + 2 := by omega
      rcases this with rfl | rfl
      · rw [ha] at ha'; injection ha' with ha'; subst ha'; exact ho.refl _
      · rw [hb] at ha'; injection ha' with ha'; subst ha'; exact ho.le_of_lt hlt
    · next hlt =>
      refine ⟨hbl, by omega, by omega, ?_⟩
      intro i a' c hi hpi ha' hc
      rw [hb] at hc; injection hc with hc; subst hc
      have : i = 2 * pos + 1 ∨ i = 2 * pos + 2 := by omega
      rcases this with rfl | rfl
      · rw [ha] at ha'; injection ha' with ha'; subst ha'; exact le_of_not_lt hlt
      · rw [hb] at ha'; injection ha' with ha'; subst ha'; exact ho.refl _
  · next hno =>
    refine ⟨h, by omega, by omega, ?_⟩
    intro i a' c hi hpi ha' hc
    have : i = 2 * pos + 1 ∨ i = 2 * pos + 2 := by omega
    rcases this with rfl | rfl
    · rw [hc] at ha'; injection ha' with ha'; subst ha'; exact ho.refl _
    · exact absurd ha' (hno c a' hc)

theorem siftupLoop_up {lt : α → α → Bool} (ho : Order lt) (x : α) : ∀ (n : Nat) (l : List α) (pos : Nat), l.length - pos ≤ n →
    pos < l.length → Up lt (l.set pos x) pos →
    Down lt ((siftupLoop lt n l pos).1.set (siftupLoop lt n l pos).2 x) (siftupLoop lt n l pos).2 := by
  intro n
  induction n with
  | zero => intro l pos hn hl; omega
  | succ n ih =>
    intro l pos hn hl hu
    rw [siftupLoop]
    split
    · next h =>
      obtain ⟨h1, h2, h3, h4⟩ := smallerChild_spec ho l pos h
      split
      · next hc => rw [List.getElem?_eq_none_iff] at hc; omega
      · next c hc =>
        generalize smallerChild lt l pos = q at *
        apply ih (l.set pos c) q (by simp; omega) (by simpa using h1)
        have hg : ∀ j, ((l.set pos c).set q x)[j]? = if q = j then some x else if pos = j then some c else l[j]? := by
          intro j
          rw [getElem?_set' _ _ _ _ (by simpa using h1), getElem?_set' _ _ _ _ hl]
        have hold : ∀ j, (l.set pos x)[j]? = if pos = j then some x else l[j]? := fun j => getElem?_set' _ _ _ _ hl
        constructor
        · intro i hi hne hpne a b ha hb
          rw [hg] at ha hb
          rw [if_neg (Ne.symm hne)] at ha
          rw [if_neg (Ne.symm hpne)] at hb
          by_cases hip : pos = i
          · rw [if_pos hip] at ha; injection ha with ha; subst ha
            rw [if_neg (by omega)] at hb
            exact hu.grand q c b (by omega) h2 h3 (by rw [hold, if_neg (by omega)]; exact hc)
              (by rw [hold, if_neg (by omega), hip]; exact hb)
          · rw [if_neg hip] at ha
            by_cases hpp : pos = (i - 1) / 2
            · rw [if_pos hpp] at hb; injection hb with hb; subst hb
              exact h4 i a c hi hpp.symm ha hc
            · rw [if_neg hpp] at hb
              exact hu.ok i hi (Ne.symm hip) (Ne.symm hpp) a b (by rw [hold, if_neg hip]; exact ha)
                (by rw [hold, if_neg hpp]; exact hb)
        · intro i a b hq hi hpi ha hb
          rw [hg] at ha hb
          rw [h3, if_neg (by omega), if_pos rfl] at hb; injection hb with hb; subst hb
          rw [if_neg (by omega), if_neg (by omega)] at ha
          exact hu.ok i hi (by omega) (by omega) a c (by rw [hold, if_neg (by omega)]; exact ha)
            (by rw [hpi, hold, if_neg (by omega)]; exact hc)
    · next h =>
      refine ⟨?_, ?_⟩
      · intro i hi hne a b ha hb
        have : i < l.length := by simpa using (List.getElem?_eq_some_iff.1 ha).1
        exact hu.ok i hi hne (by omega) a b ha hb
      · intro i a b hp hi hpi ha hb
        have : i < l.length := by simpa using (List.getElem?_eq_some_iff.1 ha).1
        omega

theorem push_perm (lt : α → α → Bool) (l : List α) (x : α) : (push lt l x).Perm (x :: l) := by
  unfold push
  refine (siftdown_perm lt x l.length l.length (l ++ [x]) (Nat.le_refl _) (by simp)).trans ?_
  have : (l ++ [x]).set l.length x = l ++ [x] := by simp
  rw [this]
  exact List.perm_append_singleton x l

theorem push_heap {lt : α → α → Bool} (ho : Order lt) {l : List α} (h : IsHeap lt l) (x : α) : IsHeap lt (push lt l x) := by
  unfold push
  apply siftdown_heap ho x l.length l.length (l ++ [x]) (Nat.le_refl _) (by simp)
  have : (l ++ [x]).set l.length x = l ++ [x] := by simp
  rw [this]
  constructor
  · intro i hi hne a b ha hb
    have hil : i < l.length := by
      have := (List.getElem?_eq_some_iff.1 ha).1; simp at this; omega
    rw [List.getElem?_append_left hil] at ha
    rw [List.getElem?_append_left (by omega)] at hb
    exact h i hi a b ha hb
  · intro i a b hp hi hpi ha hb
    have := (List.getElem?_eq_some_iff.1 ha).1; simp at this; omega

/-- The root is a smallest entry. -/
theorem heap_min {lt : α → α → Bool} (ho : Order lt) {l : List α} (h : IsHeap lt l) {t : α} (ht : l[0]? = some t) :
    ∀ a ∈ l, le lt t a := by
  have key : ∀ (i : Nat) (a : α), l[i]? = some a → le lt t a := by
    intro i
    induction i using Nat.strongRecOn with
    | _ i ih =>
      intro a ha
      by_cases hi : i = 0
      · subst hi; rw [ht] at ha; injection ha with ha; subst ha; exact ho.refl _
      · have hil := (List.getElem?_eq_some_iff.1 ha).1
        have hb : l[(i - 1) / 2]? = some l[(i - 1) / 2] := List.getElem?_eq_getElem (by omega)
        exact ho.trans _ _ _ (ih _ (by omega) _ hb) (h i (by omega) a _ ha hb)
  intro a ha
  obtain ⟨i, hi⟩ := List.mem_iff_getElem?.1 ha
  exact key i a hi

theorem pop_none (lt : α → α → Bool) (l : List α) : pop lt l = none ↔ l = [] := by
  unfold pop
  cases hl : l.getLast? with
  | none => simp [List.getLast?_eq_none_iff.1 hl]
  | some last =>
    have : l ≠ [] := by rintro rfl; simp at hl
    simp only [this, iff_false]
    split <;> simp

/-- `heappop` removes one smallest entry and keeps the heap invariant. -/
theorem pop_spec {lt : α → α → Bool} (ho : Order lt) {l : List α} (h : IsHeap lt l) {t : α} {r : List α}
    (hp : pop lt l = some (t, r)) : l.Perm (t :: r) ∧ IsHeap lt r ∧ ∀ a ∈ l, le lt t a := by
  unfold pop at hp
  cases hl : l.getLast? with
  | none => rw [hl] at hp; cases hp
  | some last =>
    rw [hl] at hp
    simp only at hp
    obtain ⟨ys, rfl⟩ := List.getLast?_eq_some_iff.1 hl
    rw [List.dropLast_concat] at hp
    cases ys with
    | nil =>
      simp only [Option.some.injEq, Prod.mk.injEq] at hp
      obtain ⟨rfl, rfl⟩ := hp
      refine ⟨by simp, ?_, ?_⟩
      · intro i _ a b ha; simp at ha
      · intro a ha; simp at ha; subst ha; exact ho.refl _
    | cons top rest =>
      simp only [Option.some.injEq, Prod.mk.injEq, List.set_cons_zero] at hp
      obtain ⟨rfl, hr⟩ := hp
      have hmin := heap_min ho h (t := top) (by simp)
      obtain ⟨s1, s2⟩ := siftupLoop_spec lt last (top :: rest).length (last :: rest) 0 (by simp) (by simp)
      have hset : (last :: rest).set 0 last = last :: rest := rfl
      rw [hset] at s2
      have hperm : r.Perm (last :: rest) := by
        rw [← hr]; exact (siftdown_perm lt last _ _ _ (Nat.le_refl _) s1).trans s2
      refine ⟨?_, ?_, hmin⟩
      · refine List.Perm.trans ?_ (List.Perm.cons top hperm.symm)
        show (top :: (rest ++ [last])).Perm _
        exact List.Perm.cons top (List.perm_append_singleton last rest)
      · rw [← hr]
        apply siftdown_heap ho last _ _ _ (Nat.le_refl _) s1
        apply siftupLoop_up ho last _ _ _ (by simp) (by simp)
        rw [hset]
        constructor
        · intro i hi _ hpar a b ha hb
          have hil : i < (last :: rest).length := (List.getElem?_eq_some_iff.1 ha).1
          have e1 : (top :: rest ++ [last])[i]? = some a := by
            rw [List.getElem?_append_left (by simpa using hil)]
            cases i with
            | zero => omega
            | succ i => simpa using ha
          have e2 : (top :: rest ++ [last])[(i - 1) / 2]? = some b := by
            rw [List.getElem?_append_left (by simp at hil ⊢; omega)]
            cases hj : (i - 1) / 2 with
            | zero => exact absurd hj hpar
            | succ j => rw [hj] at hb; simpa using hb
          exact h i hi a b e1 e2
        · intro i a b hp; omega

theorem heap_nil (lt : α → α → Bool) : IsHeap lt ([] : List α) := by intro i _ a b ha; simp at ha

/-- Non-vacuity: pushing and popping sorts. -/
example : (pop (fun a b : Nat => decide (a < b)) ([5, 3, 8, 1].foldl (push (fun a b => decide (a < b))) [])).map Prod.fst = some 1 := by
  decide

end Verif.Heapq
