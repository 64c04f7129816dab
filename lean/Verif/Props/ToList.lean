import Verif.Model.ToList

set_option linter.unusedSectionVars false
set_option linter.unusedSimpArgs false
set_option linter.unusedVariables false

namespace Verif.ToList

variable {α : Type}

/-! ## Specification -/

/-- Proper Python values (`false`) and chains of items (`true`). -/
def wf : Bool → Val α → Prop
  | true, .nil => True
  | true, .cons h t => wf false h ∧ wf true t
  | false, .atom _ => True
  | false, .na => True
  | false, .seq _ l => wf true l
  | _, _ => False

/-- Values that `flatten=True` promises to open. -/
def Flattenable (fts : Bool) : Val α → Prop
  | .seq .list _ => True
  | .seq .iter _ => True
  | .seq .tupleSet _ => fts = true
  | _ => False

instance (fts : Bool) (v : Val α) : Decidable (Flattenable fts v) := by
  cases v <;> (try cases ‹Kind›) <;> unfold Flattenable <;> infer_instance

/-- The leaves of a value (or of a chain) from left to right. -/
def leaves (fts : Bool) : Val α → List (Val α)
  | .atom a => [.atom a]
  | .na => [.na]
  | .seq k l => if Flattenable fts (.seq k l) then leaves fts l else [.seq k l]
  | .nil => []
  | .cons h t => leaves fts h ++ leaves fts t

/-- Is this None/undefined? -/
def isNa : Val α → Bool
  | .na => true
  | _ => false

/-- No `None`/undefined inside, at any depth that `to_list` looks into. -/
def NoNa (fts : Bool) : Val α → Prop
  | .na => False
  | .seq k l => Flattenable fts (.seq k l) → NoNa fts l
  | .cons h t => NoNa fts h ∧ NoNa fts t
  | _ => True

/-- The elements of `l` that equal no earlier element. -/
def firsts (eq : Val α → Val α → Bool) (l : List (Val α)) : List (Val α) :=
  (l.zipIdx.filter (fun p => !(l.take p.2).any (fun w => eq w p.1))).map Prod.fst

/-! ## Lemmas: flattening -/

theorem skips_iff (fts : Bool) (k : Kind) (l : Val α) : skips fts k = true ↔ ¬ Flattenable fts (.seq k l) := by
  cases k <;> cases fts <;> simp [skips, Flattenable]

theorem process_leaves (d fts : Bool) : ∀ l : Val α, wf true l →
    process true d fts l = (leaves fts l).filter (fun v => !(d && isNa v)) := by
  intro l
  induction l using process.induct (flatten := true) (dropna := d) (fts := fts) with
  | case1 t hd ih =>
    intro h; subst hd; simp only [process, if_pos rfl, leaves]; rw [ih h.2]; simp [isNa]
  | case2 t hd ih =>
    intro h
    have hd' : d = false := by simpa using hd
    subst hd'
    simp only [process, leaves]; rw [ih h.2]; simp [isNa]
  | case3 k l t hs ih =>
    intro h
    simp only [process, if_pos hs, leaves, if_neg ((skips_iff fts k l).1 hs)]
    rw [ih h.2]; simp [isNa]
  | case4 k l t hs hf ih1 ih2 =>
    intro h
    have hfl : Flattenable fts (.seq k l) := by
      cases k <;> cases fts <;> simp_all [skips, Flattenable]
    have hw : wf true l := h.1
    simp only [process, if_neg hs, leaves, if_pos hfl, if_true, List.filter_append]
    rw [ih1 hw, ih2 h.2]
  | case5 k l t hs hf => exact absurd rfl hf
  | case6 hh t hna hseq ih =>
    intro h
    cases hh with
    | atom a => simp only [process, leaves]; rw [ih h.2]; simp [isNa]
    | na => exact absurd rfl hna
    | seq k l => exact absurd rfl (hseq k l)
    | nil => exact absurd h.1 (by simp [wf])
    | cons a b => exact absurd h.1 (by simp [wf])
  | case7 v h1 h2 h3 =>
    intro h
    cases v with
    | nil => simp [process, leaves]
    | cons a b => exact absurd rfl (h3 a b)
    | atom a => exact absurd h (by simp [wf])
    | na => exact absurd h (by simp [wf])
    | seq k l => exact absurd h (by simp [wf])

theorem wf_ofList : ∀ (vs : List (Val α)), (∀ v ∈ vs, wf false v) → wf true (ofList vs)
  | [], _ => trivial
  | v :: vs, h => ⟨h v (by simp), wf_ofList vs (fun w hw => h w (by simp [hw]))⟩

theorem wf_process (f d fts : Bool) : ∀ l : Val α, wf true l → ∀ v ∈ process f d fts l, wf false v := by
  intro l
  induction l using process.induct (flatten := f) (dropna := d) (fts := fts) with
  | case1 t hd ih => intro h; simp only [process, if_pos hd]; exact ih h.2
  | case2 t hd ih =>
    intro h; simp only [process, if_neg hd, List.mem_cons]
    rintro v (rfl | hv)
    · trivial
    · exact ih h.2 v hv
  | case3 k l t hs ih =>
    intro h; simp only [process, if_pos hs, List.mem_cons]
    rintro v (rfl | hv)
    · exact h.1
    · exact ih h.2 v hv
  | case4 k l t hs hf ih1 ih2 =>
    intro h; simp only [process, if_neg hs, if_pos hf, List.mem_append]
    rintro v (hv | hv)
    · exact ih1 h.1 v hv
    · exact ih2 h.2 v hv
  | case5 k l t hs hf ih1 ih2 =>
    intro h; simp only [process, if_neg hs, if_neg hf, List.mem_cons]
    rintro v (rfl | hv)
    · exact wf_ofList _ (ih1 h.1)
    · exact ih2 h.2 v hv
  | case6 hh t hna hseq ih =>
    intro h; simp only [process, List.mem_cons]
    rintro v (rfl | hv)
    · exact h.1
    · exact ih h.2 v hv
  | case7 v h1 h2 h3 =>
    intro h v' hv'
    cases v <;> simp_all [process]

theorem leaves_not_flattenable (fts : Bool) : ∀ l : Val α, ∀ v ∈ leaves fts l, ¬ Flattenable fts v
  | .atom a, v, h => by simp only [leaves, List.mem_singleton] at h; subst h; simp [Flattenable]
  | .na, v, h => by simp only [leaves, List.mem_singleton] at h; subst h; simp [Flattenable]
  | .seq k l, v, h => by
    simp only [leaves] at h
    by_cases hf : Flattenable fts (.seq k l)
    · rw [if_pos hf] at h; exact leaves_not_flattenable fts l v h
    · rw [if_neg hf, List.mem_singleton] at h; subst h; exact hf
  | .nil, v, h => by simp [leaves] at h
  | .cons a b, v, h => by
    simp only [leaves, List.mem_append] at h
    rcases h with h | h
    · exact leaves_not_flattenable fts a v h
    · exact leaves_not_flattenable fts b v h

/-- Processing a list whose elements need no processing. -/
theorem process_fixed (f d fts : Bool) : ∀ vs : List (Val α),
    (∀ v ∈ vs, (d = true → v ≠ .na) ∧
      (∀ k l, v = .seq k l → skips fts k = true ∨ (f = false ∧ k = .list ∧ ofList (process f d fts l) = l))) →
    process f d fts (ofList vs) = vs
  | [], _ => by simp [ofList, process]
  | v :: vs, h => by
    have ih := process_fixed f d fts vs (fun w hw => h w (by simp [hw]))
    obtain ⟨h1, h2⟩ := h v (by simp)
    cases v with
    | na =>
      have hd : d = false := by
        cases d with
        | false => rfl
        | true => exact absurd rfl (h1 rfl)
      simp only [ofList, process]; rw [ih, hd]; simp
    | atom a => simp only [ofList, process]; rw [ih]
    | nil => simp only [ofList, process]; rw [ih]
    | cons a b => simp only [ofList, process]; rw [ih]
    | seq k l =>
      simp only [ofList, process]
      rcases h2 k l rfl with hs | ⟨hf, hk, hl⟩
      · rw [if_pos hs, ih]
      · subst hf; subst hk
        rw [if_neg (by simp [skips]), if_neg (by simp), hl, ih]

/-- What is true of the elements of a processed list. -/
theorem process_done (f d fts : Bool) : ∀ l : Val α, wf true l →
    ∀ v ∈ process f d fts l, (d = true → v ≠ .na) ∧
      (∀ k l, v = .seq k l → skips fts k = true ∨ (f = false ∧ k = .list ∧ ofList (process f d fts l) = l)) := by
  intro l
  induction l using process.induct (flatten := f) (dropna := d) (fts := fts) with
  | case1 t hd ih => intro h; simp only [process, if_pos hd]; exact ih h.2
  | case2 t hd ih =>
    intro h; simp only [process, if_neg hd, List.mem_cons]
    rintro v (rfl | hv)
    · exact ⟨fun e => absurd e hd, fun k l e => by simp at e⟩
    · exact ih h.2 v hv
  | case3 k l t hs ih =>
    intro h; simp only [process, if_pos hs, List.mem_cons]
    rintro v (rfl | hv)
    · refine ⟨fun _ e => by simp at e, fun k' l' e => ?_⟩
      simp only [Val.seq.injEq] at e
      exact Or.inl (e.1 ▸ hs)
    · exact ih h.2 v hv
  | case4 k l t hs hf ih1 ih2 =>
    intro h; simp only [process, if_neg hs, if_pos hf, List.mem_append]
    rintro v (hv | hv)
    · exact ih1 h.1 v hv
    · exact ih2 h.2 v hv
  | case5 k l t hs hf ih1 ih2 =>
    intro h; simp only [process, if_neg hs, if_neg hf, List.mem_cons]
    rintro v (rfl | hv)
    · refine ⟨fun _ e => by simp at e, fun k' l' e => ?_⟩
      simp only [Val.seq.injEq] at e
      refine Or.inr ⟨by simpa using hf, e.1.symm, ?_⟩
      rw [← e.2, process_fixed f d fts _ (ih1 h.1)]
    · exact ih2 h.2 v hv
  | case6 hh t hna hseq ih =>
    intro h; simp only [process, List.mem_cons]
    rintro v (rfl | hv)
    · refine ⟨fun _ => hna, fun k l e => absurd e (hseq k l)⟩
    · exact ih h.2 v hv
  | case7 v h1 h2 h3 =>
    intro h v' hv'
    cases v <;> simp_all [process]

theorem process_idem (f d fts : Bool) (l : Val α) (h : wf true l) :
    process f d fts (ofList (process f d fts l)) = process f d fts l :=
  process_fixed f d fts _ (process_done f d fts l h)

theorem noNa_ofList (fts : Bool) : ∀ (vs : List (Val α)), (∀ v ∈ vs, NoNa fts v) → NoNa fts (ofList vs)
  | [], _ => trivial
  | v :: vs, h => ⟨h v (by simp), noNa_ofList fts vs (fun w hw => h w (by simp [hw]))⟩

theorem process_noNa (f fts : Bool) : ∀ l : Val α, wf true l → ∀ v ∈ process f true fts l, NoNa fts v := by
  intro l
  induction l using process.induct (flatten := f) (dropna := true) (fts := fts) with
  | case1 t hd ih => intro h; simp only [process, if_pos hd]; exact ih h.2
  | case2 t hd ih => exact absurd rfl hd
  | case3 k l t hs ih =>
    intro h; simp only [process, if_pos hs, List.mem_cons]
    rintro v (rfl | hv)
    · intro hfl; exact absurd hfl ((skips_iff fts k l).1 hs)
    · exact ih h.2 v hv
  | case4 k l t hs hf ih1 ih2 =>
    intro h; simp only [process, if_neg hs, if_pos hf, List.mem_append]
    rintro v (hv | hv)
    · exact ih1 h.1 v hv
    · exact ih2 h.2 v hv
  | case5 k l t hs hf ih1 ih2 =>
    intro h; simp only [process, if_neg hs, if_neg hf, List.mem_cons]
    rintro v (rfl | hv)
    · intro _; exact noNa_ofList fts _ (ih1 h.1)
    · exact ih2 h.2 v hv
  | case6 hh t hna hseq ih =>
    intro h; simp only [process, List.mem_cons]
    rintro v (rfl | hv)
    · cases v with
      | na => exact absurd rfl hna
      | seq k l => exact absurd rfl (hseq k l)
      | atom a => trivial
      | nil => trivial
      | cons a b => exact absurd h.1 (by simp [wf])
    · exact ih h.2 v hv
  | case7 v h1 h2 h3 =>
    intro h v' hv'
    cases v <;> simp_all [process]

/-! ## C56 -/

/-- The input made of proper values. -/
def WfInput : Input α → Prop
  | .na => True
  | .seq _ l => wf true l
  | .enumClass ms vs => (∀ v ∈ ms, wf false v) ∧ (∀ v ∈ vs, wf false v)
  | .text w cs => wf false w ∧ (∀ v ∈ cs, wf false v)
  | .mapping w vs => wf false w ∧ (∀ v ∈ vs, wf false v)
  | .model w ps => wf false w ∧ (∀ v ∈ ps, wf false v)
  | .single v => wf false v

theorem wf_initial (uv : Bool) : ∀ x : Input α, WfInput x → wf true (initial uv x)
  | .na, _ => trivial
  | .seq _ _, h => h
  | .enumClass ms vs, h => by cases uv <;> simp only [initial] <;> exact wf_ofList _ (by first | exact h.1 | exact h.2)
  | .text w cs, h => by
    cases uv
    · exact ⟨h.1, trivial⟩
    · exact wf_ofList _ h.2
  | .mapping w vs, h => by
    cases uv
    · exact ⟨h.1, trivial⟩
    · exact wf_ofList _ h.2
  | .model w ps, h => ⟨h.1, trivial⟩
  | .single v, h => ⟨h, trivial⟩

/-- The result of `to_list(x, flatten=True)` is the sequence of leaves of `x`, less the undefined ones under `dropna`. -/
theorem C56_leaves (H : Hashing α) (d fts uv : Bool) (x : Input α) (hx : WfInput x) :
    toList H { flatten := true, dropna := d, fts := fts, useValues := uv } x
      = .ok ((leaves fts (initial uv x)).filter (fun v => !(d && isNa v))) := by
  simp only [toList, Bool.not_true, Bool.and_false, Bool.false_eq_true, if_false]
  rw [process_leaves d fts _ (wf_initial uv x hx)]

/-- No element of the flattened result can be flattened further. -/
theorem C56_flat (H : Hashing α) (d fts uv : Bool) (x : Input α) (hx : WfInput x) {r : List (Val α)}
    (h : toList H { flatten := true, dropna := d, fts := fts, useValues := uv } x = .ok r) :
    ∀ v ∈ r, ¬ Flattenable fts v := by
  rw [C56_leaves H d fts uv x hx] at h
  injection h with h
  intro v hv
  rw [← h] at hv
  exact leaves_not_flattenable fts _ v (List.mem_filter.1 hv).1

/-- Under `dropna` nothing undefined remains, flattened or not, at any depth. -/
theorem C56_dropna (H : Hashing α) (f fts uv : Bool) (x : Input α) (hx : WfInput x) {r : List (Val α)}
    (h : toList H { flatten := f, dropna := true, fts := fts, useValues := uv } x = .ok r) :
    ∀ v ∈ r, NoNa fts v := by
  simp only [toList, Bool.false_and, Bool.false_eq_true, if_false] at h
  injection h with h
  rw [← h]
  exact process_noNa f fts _ (wf_initial uv x hx)

/-- Applying it again, with the same options, changes nothing. -/
theorem C56_idempotent (H : Hashing α) (f d fts uv : Bool) (x : Input α) (hx : WfInput x) {r : List (Val α)}
    (h : toList H { flatten := f, dropna := d, fts := fts, useValues := uv } x = .ok r) :
    toList H { flatten := f, dropna := d, fts := fts, useValues := uv } (.seq .list (ofList r)) = .ok r := by
  simp only [toList, Bool.false_and, Bool.false_eq_true, if_false] at h ⊢
  injection h with h
  rw [← h]
  exact congrArg _ (process_idem f d fts _ (wf_initial uv x hx))

/-- Hashing for the examples: integers (positive: hashable; CPython's `hash(-1) = hash(-2) = -2`), and two dicts 100 and 101, say
`{1: "a"}` and `{"1": "a"}`, that `hash_dict` does not tell apart. -/
def demoHash : Val Int → Option Int
  | .atom n => if n ≥ 100 then none else if n = -1 then some (-2) else some n
  | .na => some 7777
  | _ => none

def demoMap : Val Int → Option Int
  | .atom n => if n ≥ 100 then some 5555 else none
  | _ => none

def demoH : Hashing Int := { eq := fun a b => decide (a = b), hash := demoHash, hashMap := demoMap }

/-- `[1, [2, None, (3, 4)], 5]`. -/
def demoNested : Val Int :=
  ofList [.atom 1, .seq .list (ofList [.atom 2, .na, .seq .tupleSet (ofList [.atom 3, .atom 4])]), .atom 5]

example : wf true demoNested := by simp [demoNested, ofList, wf]
example : toList demoH { flatten := true } (.seq .list demoNested)
    = .ok [.atom 1, .atom 2, .na, .seq .tupleSet (ofList [.atom 3, .atom 4]), .atom 5] := by decide
example : toList demoH { flatten := true, dropna := true, fts := true } (.seq .list demoNested)
    = .ok [.atom 1, .atom 2, .atom 3, .atom 4, .atom 5] := by decide
example : toList demoH { dropna := true, fts := true } (.seq .list demoNested)
    = .ok [.atom 1, .seq .list (ofList [.atom 2, .seq .list (ofList [.atom 3, .atom 4])]), .atom 5] := by decide

/-! ## C57 -/

/-- Order-preserving removal of duplicates. -/
def dedup (eq : Val α → Val α → Bool) : List (Val α) → List (Val α) → List (Val α)
  | out, [] => out
  | out, v :: vs => if out.any (fun w => eq w v) then dedup eq out vs else dedup eq (out ++ [v]) vs

theorem uniqueDirect_eq (H : Hashing α) : ∀ (l out : List (Val α)), (∀ v ∈ l, (H.hash v).isSome) →
    uniqueDirect H out l = some (dedup H.eq out l)
  | [], out, _ => by simp [uniqueDirect, dedup]
  | v :: vs, out, h => by
    have hv := h v (by simp)
    obtain ⟨k, hk⟩ := Option.isSome_iff_exists.1 hv
    have hr : ∀ w ∈ vs, (H.hash w).isSome := fun w hw => h w (by simp [hw])
    simp only [uniqueDirect, dedup, hk]
    by_cases hm : inSeen H out v = true
    · rw [if_pos hm, if_pos (show (out.any fun s => H.eq s v) = true from hm)]; exact uniqueDirect_eq H vs out hr
    · rw [if_neg hm, if_neg (show ¬ (out.any fun s => H.eq s v) = true from hm)]; exact uniqueDirect_eq H vs _ hr

theorem uniqueDirect_none (H : Hashing α) : ∀ (l out : List (Val α)), ¬ (∀ v ∈ l, (H.hash v).isSome) →
    uniqueDirect H out l = none
  | [], out, h => absurd (by simp) h
  | v :: vs, out, h => by
    simp only [uniqueDirect]
    cases hk : H.hash v with
    | none => rfl
    | some k =>
      have hr : ¬ ∀ w ∈ vs, (H.hash w).isSome := by
        intro hh; apply h; intro w hw
        rcases List.mem_cons.1 hw with rfl | hw
        · simp [hk]
        · exact hh w hw
      show (if _ then _ else _) = _
      split
      · exact uniqueDirect_none H vs out hr
      · exact uniqueDirect_none H vs _ hr

/-- Equal deduplication keys. -/
def sameKey (H : Hashing α) (a b : Val α) : Bool := decide (fallbackKey H a = fallbackKey H b)

theorem uniqueHash_eq (H : Hashing α) : ∀ (l : List (Val α)) (seen : List Int) (out : List (Val α)),
    (∀ v ∈ l, (fallbackKey H v).isSome) → (∀ h : Int, h ∈ seen ↔ ∃ w ∈ out, fallbackKey H w = some h) →
    uniqueHash H seen out l = .ok (dedup (sameKey H) out l)
  | [], seen, out, _, _ => by simp [uniqueHash, dedup]
  | v :: vs, seen, out, h, hs => by
    obtain ⟨k, hk⟩ := Option.isSome_iff_exists.1 (h v (by simp))
    have hr : ∀ w ∈ vs, (fallbackKey H w).isSome := fun w hw => h w (by simp [hw])
    simp only [uniqueHash, dedup, hk]
    have hany : out.any (fun w => sameKey H w v) = true ↔ k ∈ seen := by
      simp only [List.any_eq_true, sameKey, decide_eq_true_eq, hk]
      exact (hs k).symm
    by_cases hm : k ∈ seen
    · rw [if_pos hm, if_pos (hany.2 hm)]
      exact uniqueHash_eq H vs seen out hr hs
    · rw [if_neg hm, if_neg (fun e => hm (hany.1 e))]
      refine uniqueHash_eq H vs _ _ hr ?_
      intro h'
      simp only [List.mem_append, List.mem_singleton, hs h']
      constructor
      · rintro (⟨w, hw, e⟩ | rfl)
        · exact ⟨w, Or.inl hw, e⟩
        · exact ⟨v, Or.inr rfl, hk⟩
      · rintro ⟨w, hw | rfl, e⟩
        · exact Or.inl ⟨w, hw, e⟩
        · rw [hk] at e; injection e with e; exact Or.inr e.symm

/-- The relation is an equivalence. -/
structure IsEquiv (eq : Val α → Val α → Bool) : Prop where
  refl : ∀ a, eq a a = true
  symm : ∀ a b, eq a b = true → eq b a = true
  trans : ∀ a b c, eq a b = true → eq b c = true → eq a c = true

theorem dedup_firsts_aux (eq : Val α → Val α → Bool) (he : IsEquiv eq) : ∀ (l pre out : List (Val α)),
    (∀ v, out.any (fun w => eq w v) = pre.any (fun w => eq w v)) →
    dedup eq out l = out ++ ((l.zipIdx pre.length).filter (fun p => !((pre ++ l).take p.2).any (fun w => eq w p.1))).map Prod.fst
  | [], pre, out, _ => by simp [dedup]
  | v :: vs, pre, out, h => by
    have htake : ((pre ++ v :: vs).take pre.length) = pre := by simp
    have happ : pre ++ v :: vs = (pre ++ [v]) ++ vs := by simp
    have hlen : pre.length + 1 = (pre ++ [v]).length := by simp
    simp only [dedup, List.zipIdx_cons, List.filter_cons, htake]
    cases hm : out.any (fun w => eq w v) with
    | true =>
      have hp := (h v).symm.trans hm
      simp only [hp, Bool.not_true, Bool.false_eq_true, if_false, if_true]
      rw [happ, hlen]
      refine dedup_firsts_aux eq he vs (pre ++ [v]) out ?_
      intro u
      rw [List.any_append, ← h u]
      cases hu : eq v u with
      | false => simp [hu]
      | true =>
        obtain ⟨w, hw, hwv⟩ := List.any_eq_true.1 hm
        have : out.any (fun w => eq w u) = true := List.any_eq_true.2 ⟨w, hw, he.trans _ _ _ hwv hu⟩
        simp [this]
    | false =>
      have hp := (h v).symm.trans hm
      simp only [hp, Bool.not_false, Bool.false_eq_true, if_false, if_true, List.map_cons]
      rw [happ, hlen, dedup_firsts_aux eq he vs (pre ++ [v]) (out ++ [v]) (by intro u; simp [List.any_append, h u])]
      simp

theorem dedup_firsts (eq : Val α → Val α → Bool) (he : IsEquiv eq) (l : List (Val α)) : dedup eq [] l = firsts eq l := by
  have := dedup_firsts_aux eq he l [] [] (fun _ => rfl)
  simpa [firsts] using this

theorem sameKey_equiv (H : Hashing α) : IsEquiv (sameKey H) :=
  ⟨by simp [sameKey], fun a b h => by simp only [sameKey, decide_eq_true_eq] at *; exact h.symm,
   fun a b c h h' => by simp only [sameKey, decide_eq_true_eq] at *; exact h.trans h'⟩

theorem firsts_congr (eq eq' : Val α → Val α → Bool) (l : List (Val α))
    (h : ∀ a ∈ l, ∀ b ∈ l, eq a b = eq' a b) : firsts eq l = firsts eq' l := by
  unfold firsts
  congr 1
  apply List.filter_congr
  intro p hp
  have hpm : p.1 ∈ l := by
    have := List.mem_zipIdx' (x := p.1) (i := p.2) hp
    rw [this.2]; exact List.getElem_mem _
  congr 1
  rw [Bool.eq_iff_iff, List.any_eq_true, List.any_eq_true]
  constructor
  · rintro ⟨w, hw, e⟩; exact ⟨w, hw, by rw [← h w (List.mem_of_mem_take hw) _ hpm]; exact e⟩
  · rintro ⟨w, hw, e⟩; exact ⟨w, hw, by rw [h w (List.mem_of_mem_take hw) _ hpm]; exact e⟩

theorem dedup_any (eq : Val α → Val α → Bool) (he : IsEquiv eq) : ∀ (l out : List (Val α)) (u : Val α),
    (u ∈ out ∨ u ∈ l) → ∃ w ∈ dedup eq out l, eq w u = true
  | [], out, u, h => by
    rcases h with h | h
    · exact ⟨u, by simpa [dedup] using h, he.refl u⟩
    · simp at h
  | v :: vs, out, u, h => by
    simp only [dedup]
    split
    · rename_i hm
      rcases h with h | h
      · exact dedup_any eq he vs out u (Or.inl h)
      · rcases List.mem_cons.1 h with rfl | h
        · obtain ⟨w, hw, e⟩ := List.any_eq_true.1 hm
          obtain ⟨w', hw', e'⟩ := dedup_any eq he vs out w (Or.inl hw)
          exact ⟨w', hw', he.trans _ _ _ e' e⟩
        · exact dedup_any eq he vs out u (Or.inr h)
    · refine dedup_any eq he vs _ u ?_
      simp only [List.mem_append, List.mem_singleton]
      rcases h with h | h
      · exact Or.inl (Or.inl h)
      · rcases List.mem_cons.1 h with rfl | h
        · exact Or.inl (Or.inr rfl)
        · exact Or.inr h

theorem dedup_distinct (eq : Val α → Val α → Bool) : ∀ (l out : List (Val α)),
    out.Pairwise (fun a b => eq a b = false) → (dedup eq out l).Pairwise (fun a b => eq a b = false)
  | [], out, h => by simpa [dedup] using h
  | v :: vs, out, h => by
    simp only [dedup]
    split
    · exact dedup_distinct eq vs out h
    · rename_i hm
      refine dedup_distinct eq vs _ ?_
      rw [List.pairwise_append]
      refine ⟨h, by simp, ?_⟩
      intro a ha b hb
      rw [List.mem_singleton.1 hb]
      cases hab : eq a v with
      | false => rfl
      | true => exact absurd (List.any_eq_true.2 ⟨a, ha, hab⟩) hm

/-- `firsts` is what the property asks for: no two results are equal, and every value equals some result. -/
theorem firsts_spec (eq : Val α → Val α → Bool) (he : IsEquiv eq) (l : List (Val α)) :
    (firsts eq l).Pairwise (fun a b => eq a b = false) ∧ (∀ v ∈ l, ∃ w ∈ firsts eq l, eq w v = true) ∧ (firsts eq l).Sublist l := by
  refine ⟨?_, ?_, ?_⟩
  · rw [← dedup_firsts eq he]; exact dedup_distinct eq l [] (by simp)
  · intro v hv; rw [← dedup_firsts eq he]; exact dedup_any eq he l [] v (Or.inr hv)
  · have : (l.zipIdx.filter (fun p => !(l.take p.2).any (fun w => eq w p.1))).Sublist l.zipIdx := List.filter_sublist
    have h2 := this.map Prod.fst
    rw [List.zipIdx_map_fst] at h2
    exact h2

/-- The leaves that remain to be deduplicated. -/
def kept (o : Opts) (x : Input α) : List (Val α) := (leaves o.fts (initial o.useValues x)).filter (fun v => !(o.dropna && isNa v))

/-- `unique` on hashable leaves: exactly the first occurrence of each value, in order. -/
theorem C57_hashable_partial (H : Hashing α) (he : IsEquiv H.eq) (o : Opts) (x : Input α) (hx : WfInput x)
    (hu : o.unique = true) (hf : o.flatten = true) (hh : ∀ v ∈ kept o x, (H.hash v).isSome) :
    toList H o x = .ok (firsts H.eq (kept o x)) := by
  have hp := process_leaves o.dropna o.fts _ (wf_initial o.useValues x hx)
  simp only [toList, hu, hf, Bool.not_true, Bool.and_false, Bool.false_eq_true, if_false, if_true]
  rw [hp]
  change unique H (kept o x) = _
  simp only [unique]
  rw [uniqueDirect_eq H _ [] hh, dedup_firsts _ he]

/-- With unhashable leaves: the same, provided every unhashable leaf is a mapping and no two different values have the same hash. -/
theorem C57_mappings_partial (H : Hashing α) (he : IsEquiv H.eq) (o : Opts) (x : Input α) (hx : WfInput x)
    (hu : o.unique = true) (hf : o.flatten = true) (hk : ∀ v ∈ kept o x, (fallbackKey H v).isSome)
    (hinj : ∀ a ∈ kept o x, ∀ b ∈ kept o x, (fallbackKey H a = fallbackKey H b ↔ H.eq a b = true)) :
    toList H o x = .ok (firsts H.eq (kept o x)) := by
  by_cases hh : ∀ v ∈ kept o x, (H.hash v).isSome
  · exact C57_hashable_partial H he o x hx hu hf hh
  have hp := process_leaves o.dropna o.fts _ (wf_initial o.useValues x hx)
  simp only [toList, hu, hf, Bool.not_true, Bool.and_false, Bool.false_eq_true, if_false, if_true]
  rw [hp]
  change unique H (kept o x) = _
  simp only [unique]
  rw [uniqueDirect_none H _ [] hh]
  show uniqueHash H [] [] (kept o x) = _
  rw [uniqueHash_eq H _ [] [] hk (by simp), dedup_firsts _ (sameKey_equiv H)]
  congr 1
  apply firsts_congr
  intro a ha b hb
  rw [Bool.eq_iff_iff, ← hinj a ha b hb]
  simp [sameKey]

/-- `firsts` means what it says. -/
theorem C57_meaning (H : Hashing α) (he : IsEquiv H.eq) (l : List (Val α)) :
    (firsts H.eq l).Pairwise (fun a b => H.eq a b = false) ∧ (∀ v ∈ l, ∃ w ∈ firsts H.eq l, H.eq w v = true)
      ∧ (firsts H.eq l).Sublist l := firsts_spec H.eq he l

/-- A dict among the items makes `-2` disappear next to `-1`; and `{"1": "a"}` disappears next to `{1: "a"}`. -/
theorem C57_collision_violation :
    toList demoH { flatten := true, unique := true } (.seq .list (ofList [.atom (-1), .atom (-2), .atom 100, .atom 101]))
      = .ok [.atom (-1), .atom 100] := by decide

example : IsEquiv demoH.eq := ⟨by simp [demoH], by simp [demoH, eq_comm], by simp +contextual [demoH]⟩
example : toList demoH { flatten := true, unique := true } (.seq .list (ofList [.atom 3, .atom (-1), .seq .list (ofList [.atom 3, .atom (-2)])]))
    = .ok [.atom 3, .atom (-1), .atom (-2)] := by decide
example : firsts demoH.eq [.atom 3, .atom (-1), .atom 3, .atom (-2)] = [.atom 3, .atom (-1), .atom (-2)] := by decide
example : toList demoH { flatten := true, unique := true } (.seq .list (ofList [.atom 3, .atom 100, .atom 100, .atom 3]))
    = .ok [.atom 3, .atom 100] := by decide

/-! ## C58, C117, C118: `lcall` -/

theorem callLoop_append (f : Val α → Call α) (g : Val α → Val α) : ∀ (pre post out : List (Val α)),
    (∀ v ∈ pre, f v = .returns (g v)) → callLoop f out (pre ++ post) = callLoop f (out ++ pre.map g) post
  | [], post, out, _ => by simp
  | v :: vs, post, out, h => by
    simp only [List.cons_append, callLoop, h v (by simp)]
    rw [callLoop_append f g vs post _ (fun w hw => h w (by simp [hw]))]
    simp

/-- The input of `lcall` without input processing: the elements of the iterable. -/
theorem C58_plain_input (H : Hashing α) (inp : Opts) (keys : List (Val α)) (l : List (Val α)) (k : Kind)
    (h : inp.flatten = false ∧ inp.dropna = false) :
    lcallInput H inp keys (.seq k (ofList l)) = .ok l := by
  simp only [lcallInput, h.1, h.2, Bool.or_self, Bool.false_eq_true, if_false, plainList]
  congr 1
  induction l with
  | nil => rfl
  | cons a t ih => simp only [ofList, items, ih]

/-- Input processing is that of `to_list`. -/
theorem C58_processed_input (H : Hashing α) (inp : Opts) (keys : List (Val α)) (x : Input α)
    (h : inp.flatten = true ∨ inp.dropna = true) : lcallInput H inp keys x = toList H inp x := by
  simp only [lcallInput]
  rw [if_pos (by rcases h with h | h <;> simp [h])]

/-- Without output options, the results in the order of the elements. -/
theorem C58_map (H : Hashing α) (inp out : Opts) (keys : List (Val α)) (x : Input α) (f : Val α → Call α) (g : Val α → Val α)
    {l : List (Val α)} (hl : lcallInput H inp keys x = .ok l) (hg : ∀ v ∈ l, f v = .returns (g v))
    (ho : out.flatten = false ∧ out.dropna = false ∧ out.unique = false) :
    lcall H inp out keys f x = .ok (l.map g) := by
  have hc := callLoop_append f g l [] [] hg
  simp only [List.append_nil, List.nil_append, callLoop] at hc
  simp [lcall, hl, lcallRun, hc, lcallOutput, ho.1, ho.2.1, ho.2.2]

/-- The exception of the first failing element propagates. -/
theorem C58_raises (H : Hashing α) (inp out : Opts) (keys : List (Val α)) (x : Input α) (f : Val α → Call α) (g : Val α → Val α)
    {pre post : List (Val α)} {v : Val α} {e : Exc} (hl : lcallInput H inp keys x = .ok (pre ++ v :: post))
    (hg : ∀ w ∈ pre, f w = .returns (g w)) (hv : f v = .raises e)
    (ho : ¬ (out.unique = true ∧ out.flatten = false ∧ out.dropna = false)) :
    lcall H inp out keys f x = .error e := by
  have hc := callLoop_append f g pre (v :: post) [] hg
  simp only [List.nil_append, callLoop, hv] at hc
  simp only [lcall, hl, lcallRun, hc]
  rw [if_neg (by cases h1 : out.unique <;> cases h2 : out.flatten <;> cases h3 : out.dropna <;> simp_all)]

/-- With output options: `to_list` of the results, when `output_unique` comes with `output_flatten`. -/
theorem C58_output (H : Hashing α) (inp out : Opts) (keys : List (Val α)) (x : Input α) (f : Val α → Call α) (g : Val α → Val α)
    {l : List (Val α)} (hl : lcallInput H inp keys x = .ok l) (hg : ∀ v ∈ l, f v = .returns (g v))
    (ho : out.unique = true → out.flatten = true) (hv : ∀ v ∈ l, wf false (g v)) (huv : out.useValues = false) :
    lcall H inp out keys f x =
      (if out.unique = true then
        (unique H ((leaves out.fts (ofList (l.map g))).filter (fun v => !(out.dropna && isNa v))))
      else if out.flatten = true then
        .ok ((leaves out.fts (ofList (l.map g))).filter (fun v => !(out.dropna && isNa v)))
      else if out.dropna = true then .ok (process false true out.fts (ofList (l.map g)))
      else .ok (l.map g)) := by
  have hc := callLoop_append f g l [] [] hg
  simp only [List.append_nil, List.nil_append, callLoop] at hc
  have hw : wf true (ofList (l.map g)) := wf_ofList _ (by
    intro v hv'; obtain ⟨w, hw, rfl⟩ := List.mem_map.1 hv'; exact hv w hw)
  have hp := process_leaves out.dropna out.fts _ hw
  simp only [lcall, hl, lcallRun, hc, lcallOutput]
  rcases out with ⟨fl, dn, un, uv, fts⟩
  simp only at *
  cases un <;> cases fl <;> cases dn <;> simp_all [toList, initial]

/-- The function doubles its argument. -/
def demoDouble : Val Int → Call Int
  | .atom n => if n = 13 then .raises .runtimeError else if n = 14 then .interrupted else .returns (.atom (2 * n))
  | v => .returns v

/-- `lcall([1, 1], f, output_unique=True, output_dropna=True)` passes the validation, runs the function on everything, then fails. -/
theorem C179_options_violation :
    lcall demoH {} { unique := true, dropna := true } [] demoDouble (.seq .list (ofList [.atom 1, .atom 1]))
      = .error .valueError := by decide

example : lcall demoH {} {} [] demoDouble (.seq .list (ofList [.atom 1, .na, .atom 3])) = .ok [.atom 2, .na, .atom 6] := by decide
example : lcall demoH {} {} [] demoDouble (.seq .list (ofList [.atom 1, .atom 13, .atom 3])) = .error .runtimeError := by decide
example : lcall demoH { flatten := true, unique := true } { dropna := true } [] demoDouble
    (.seq .list (ofList [.atom 1, .na, .seq .list (ofList [.atom 1, .atom 2])])) = .ok [.atom 2, .atom 4] := by decide

/-- After an `InterruptedError`, the results so far are returned, and nothing else is called. -/
theorem C117_interrupt (H : Hashing α) (inp out : Opts) (keys : List (Val α)) (x : Input α) (f : Val α → Call α) (g : Val α → Val α)
    {pre post : List (Val α)} {v : Val α} (hl : lcallInput H inp keys x = .ok (pre ++ v :: post))
    (hg : ∀ w ∈ pre, f w = .returns (g w)) (hv : f v = .interrupted)
    (ho : out.flatten = false ∧ out.dropna = false ∧ out.unique = false) :
    lcall H inp out keys f x = .ok (pre.map g) := by
  have hc := callLoop_append f g pre (v :: post) [] hg
  simp only [List.nil_append, callLoop, hv] at hc
  simp [lcall, hl, lcallRun, hc, ho.2.2]

/-- The output options are not applied to interrupted results: `output_dropna=True` returns a `None`. -/
theorem C117_output_violation :
    lcall demoH {} { dropna := true } [] demoDouble (.seq .list (ofList [.atom 1, .na, .atom 14])) = .ok [.atom 2, .na] := by decide

example : lcall demoH {} {} [] demoDouble (.seq .list (ofList [.atom 1, .atom 14, .atom 2])) = .ok [.atom 2] := by decide

/-- `input_unique` together with `input_flatten` works on the distinct leaves (hashable case). -/
theorem C118_unique_partial (H : Hashing α) (he : IsEquiv H.eq) (inp out : Opts) (keys : List (Val α)) (x : Input α)
    (hx : WfInput x) (hu : inp.unique = true) (hf : inp.flatten = true) (hh : ∀ v ∈ kept inp x, (H.hash v).isSome) :
    lcallInput H inp keys x = .ok (firsts H.eq (kept inp x)) := by
  rw [C58_processed_input H inp keys x (Or.inl hf)]
  exact C57_hashable_partial H he inp x hx hu hf hh

/-- `input_unique=True` alone is ignored: the function is called on both copies of `1`. -/
theorem C118_ignored_violation :
    lcall demoH { unique := true } {} [] demoDouble (.seq .list (ofList [.atom 1, .atom 1])) = .ok [.atom 2, .atom 2] := by decide

end Verif.ToList
