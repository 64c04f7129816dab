import Verif.Model.CallArgs

set_option linter.unusedSectionVars false
set_option linter.unusedSimpArgs false
set_option linter.unusedVariables false

namespace Verif.CallArgs

variable {κ ν : Type} [DecidableEq κ]

/-! ## C74: positional arguments -/

/-- A call `f(v1, v2, ..., k1=w1, ...)`. -/
def callOf (vs : List ν) (kws : List (κ × ν)) : Call κ ν := { args := vs, keywords := kws.map (fun e => (some (.name e.1), e.2)) }

/-- Parsing and mapping to parameter names. -/
def mapCall (params : List κ) (c : Call κ ν) : Except Exc (Dict κ ν) :=
  match parseArgs c with
  | .error e => .error e
  | .ok d => mapPositional params d

def enumPos : Nat → List ν → Dict (Key κ) ν
  | _, [] => []
  | i, v :: vs => (.pos i, v) :: enumPos (i + 1) vs

theorem posArgs_eq : ∀ (vs : List ν) (i : Nat) (d : Dict (Key κ) ν), (∀ k ∈ d.keys, ∃ j, k = .pos j ∧ j < i) → posArgs i vs d = d ++ enumPos i vs
  | [], i, d, _ => by simp [posArgs, enumPos]
  | v :: vs, i, d, h => by
    have hn : Key.pos i ∉ d.keys := by
      intro hm
      obtain ⟨j, hj, hlt⟩ := h _ hm
      injection hj with hj
      omega
    rw [posArgs, Dict.set_of_notMem v hn, posArgs_eq vs (i + 1)]
    · simp [enumPos]
    · intro k hk
      simp only [Dict.keys, List.map_append, List.mem_append, List.map_cons, List.map_nil, List.mem_singleton] at hk
      rcases hk with hk | rfl
      · obtain ⟨j, hj, hlt⟩ := h k hk; exact ⟨j, hj, by omega⟩
      · exact ⟨i, rfl, by omega⟩

theorem kwArgs_eq : ∀ (kws : List (κ × ν)) (d : Dict (Key κ) ν), (kws.map Prod.fst).Nodup → (∀ e ∈ kws, Key.name e.1 ∉ d.keys) →
    kwArgs (kws.map (fun e => (some (.name e.1), e.2))) d = .ok (d ++ kws.map (fun e => (.name e.1, e.2)))
  | [], d, _, _ => by simp [kwArgs]
  | (k, v) :: kws, d, hn, h => by
    simp only [List.map_cons, List.nodup_cons] at hn
    simp only [List.map_cons, kwArgs]
    rw [Dict.set_of_notMem v (h (k, v) List.mem_cons_self), kwArgs_eq kws _ hn.2]
    · simp
    · intro e he hm
      simp only [Dict.keys, List.map_append, List.mem_append, List.map_cons, List.map_nil, List.mem_singleton] at hm
      rcases hm with hm | hm
      · exact h e (List.mem_cons_of_mem _ he) hm
      · injection hm with hm; exact hn.1 (hm ▸ List.mem_map_of_mem he)

theorem enumPos_keys : ∀ (vs : List ν) (i : Nat), ∀ k ∈ Dict.keys (enumPos (κ := κ) i vs), ∃ j, k = .pos j
  | [], i, k, h => by cases h
  | v :: vs, i, k, h => by
    simp only [enumPos, Dict.keys, List.map_cons, List.mem_cons] at h
    rcases h with rfl | h
    · exact ⟨i, rfl⟩
    · exact enumPos_keys vs (i + 1) k h

theorem parse_callOf (vs : List ν) (kws : List (κ × ν)) (hn : (kws.map Prod.fst).Nodup) :
    parseArgs (callOf vs kws) = .ok (enumPos 0 vs ++ kws.map (fun e => (.name e.1, e.2))) := by
  simp only [parseArgs, callOf]
  rw [posArgs_eq vs 0 [] (by intro k hk; cases hk), kwArgs_eq kws _ hn]
  · simp
  · intro e _ hm
    rw [List.nil_append] at hm
    obtain ⟨j, hj⟩ := enumPos_keys vs 0 _ hm
    cases hj

theorem mapLoop_names (params : List κ) : ∀ (kws : List (κ × ν)) (n : Nat) (out : Dict κ ν), (kws.map Prod.fst).Nodup → (∀ e ∈ kws, e.1 ∉ out.keys) →
    mapLoop params n (kws.map (fun e => (Key.name e.1, e.2))) out = .ok (out ++ kws)
  | [], n, out, _, _ => by simp [mapLoop]
  | (k, v) :: kws, n, out, hn, h => by
    simp only [List.map_cons, List.nodup_cons] at hn
    simp only [List.map_cons, mapLoop]
    rw [Dict.set_of_notMem v (h (k, v) List.mem_cons_self), mapLoop_names params kws n _ hn.2]
    · simp
    · intro e he hm
      simp only [Dict.keys, List.map_append, List.mem_append, List.map_cons, List.map_nil, List.mem_singleton] at hm
      rcases hm with hm | hm
      · exact h e (List.mem_cons_of_mem _ he) hm
      · exact hn.1 (hm ▸ List.mem_map_of_mem he)

theorem mapLoop_pos (params : List κ) (hp : params.Nodup) (rest : Dict (Key κ) ν) : ∀ (vs : List ν) (i n : Nat) (out : Dict κ ν),
    n + vs.length ≤ params.length → (∀ j, n ≤ j → ∀ p, params[j]? = some p → p ∉ out.keys) →
    mapLoop params n (enumPos i vs ++ rest) out = mapLoop params (n + vs.length) rest (out ++ (params.drop n).zip vs)
  | [], i, n, out, _, _ => by simp [enumPos]
  | v :: vs, i, n, out, hl, h => by
    simp only [List.length_cons] at hl
    have hlt : n < params.length := by omega
    have hg : params[n]? = some params[n] := List.getElem?_eq_getElem hlt
    simp only [enumPos, List.cons_append, mapLoop, hg]
    rw [Dict.set_of_notMem v (h n (Nat.le_refl n) _ hg), mapLoop_pos params hp rest vs (i + 1) (n + 1) _ (by omega)]
    · rw [List.drop_eq_getElem_cons hlt]
      simp only [List.length_cons, List.zip_cons_cons, List.append_assoc, List.cons_append, List.nil_append]
      congr 1
      omega
    · intro j hj p hpj hm
      simp only [Dict.keys, List.map_append, List.mem_append, List.map_cons, List.map_nil, List.mem_singleton] at hm
      rcases hm with hm | hm
      · exact h j (by omega) p hpj hm
      · obtain ⟨hjl, hje⟩ := List.getElem?_eq_some_iff.1 hpj
        have e : params[j] = params[n] := by rw [hje, hm]
        have := (List.getElem_inj hp).1 e
        omega

theorem mapLoop_too_many (params : List κ) (rest : Dict (Key κ) ν) : ∀ (vs : List ν) (i n : Nat) (out : Dict κ ν),
    params.length < n + vs.length → n ≤ params.length → mapLoop params n (enumPos i vs ++ rest) out = .error .valueError
  | [], i, n, out, hl, hn => by simp only [List.length_nil] at hl; omega
  | v :: vs, i, n, out, hl, hn => by
    simp only [enumPos, List.cons_append, mapLoop]
    by_cases h : n < params.length
    · rw [List.getElem?_eq_getElem h]
      exact mapLoop_too_many params rest vs (i + 1) (n + 1) _ (by simp only [List.length_cons] at hl; omega) h
    · rw [List.getElem?_eq_none (by omega)]

theorem map_fst_zip_take : ∀ (ps : List κ) (vs : List ν), (ps.zip vs).map Prod.fst = ps.take vs.length
  | [], vs => by simp
  | p :: ps, [] => by simp
  | p :: ps, v :: vs => by simp [map_fst_zip_take ps vs]

/-- Positional values go to the parameters in order, keywords stay, nothing is lost or renamed, when no keyword repeats a parameter already given by position.
The full claim: such a repetition is rejected. -/
theorem C74_mapping_partial (params : List κ) (vs : List ν) (kws : List (κ × ν)) (hp : params.Nodup) (hk : (kws.map Prod.fst).Nodup)
    (hlen : vs.length ≤ params.length) (hdis : ∀ k ∈ kws.map Prod.fst, k ∉ params.take vs.length) :
    mapCall params (callOf vs kws) = .ok (params.zip vs ++ kws) := by
  simp only [mapCall, parse_callOf vs kws hk, mapPositional]
  rw [mapLoop_pos params hp _ vs 0 0 [] (by omega) (by intro j _ p _ hm; cases hm), mapLoop_names params kws _ _ hk]
  · simp
  · intro e he hm
    simp only [List.nil_append, List.drop_zero, Dict.keys] at hm
    rw [map_fst_zip_take] at hm
    exact hdis e.1 (List.mem_map_of_mem he) hm

/-- Too many positional arguments are rejected. -/
theorem C74_too_many (params : List κ) (vs : List ν) (kws : List (κ × ν)) (hk : (kws.map Prod.fst).Nodup) (h : params.length < vs.length) :
    mapCall params (callOf vs kws) = .error .valueError := by
  simp only [mapCall, parse_callOf vs kws hk, mapPositional]
  exact mapLoop_too_many params _ vs 0 0 [] (by omega) (by omega)

/-- `f(..., **kwargs)`: the values behind `**` are not known, and the call is rejected. -/
theorem C74_unpacking (params : List κ) (c : Call κ ν) (h : ∃ v, (none, v) ∈ c.keywords) : mapCall params c = .error .valueError := by
  have key : ∀ (kws : List (Option (Key κ) × ν)) (d : Dict (Key κ) ν), (∃ v, (none, v) ∈ kws) → kwArgs kws d = .error .valueError := by
    intro kws
    induction kws with
    | nil => rintro d ⟨v, hv⟩; cases hv
    | cons e kws ih =>
      obtain ⟨k, w⟩ := e
      rintro d ⟨v, hv⟩
      cases k with
      | none => rfl
      | some k =>
        rcases List.mem_cons.1 hv with hv | hv
        · cases hv
        · exact ih _ ⟨v, hv⟩
  simp only [mapCall, parseArgs, key c.keywords _ h]

/-- `f(1, a=2)` with first parameter `a`: the 1 is lost. -/
theorem C74_collision_violation : mapCall ["a", "b"] (callOf [(1 : Nat)] [("a", 2)]) = .ok [("a", 2)] := by decide

/-- `f(1, _pos_0=2)`: the 1 is lost, and the 2 taken for it. -/
theorem C74_reserved_violation :
    mapCall ["a"] ({ args := [(1 : Nat)], keywords := [(some (.pos 0), 2)] } : Call String Nat) = .ok [("a", 2)] := by decide

example : mapCall ["a", "b", "c"] (callOf [(1 : Nat), 2] [("c", 3)]) = .ok [("a", 1), ("b", 2), ("c", 3)] := by decide

/-! ## Nesting -/

/-- Where an argument belongs: the nested field that owns it, unless it is itself a field. -/
def goes (S : Schema κ) (k : κ) : Option κ := if k ∈ S.fields then none else owner S.nested k

theorem nestLoop_cons (S : Schema κ) (k : κ) (v : ν) (rest : Dict κ ν) (res : Dict κ ν) (nst : Dict κ (Dict κ ν)) :
    nestLoop S ((k, v) :: rest) (res, nst) =
      match goes S k with
      | none => nestLoop S rest (res.set k v, nst)
      | some f => nestLoop S rest (res, nst.set f ((nestedAt nst f).set k v)) := by
  simp only [nestLoop, goes]
  by_cases h : k ∈ S.fields
  · rw [if_pos h, if_pos h]
  · rw [if_neg h, if_neg h]; cases owner S.nested k <;> rfl

theorem nestedAt_set (nst : Dict κ (Dict κ ν)) (f f' : κ) (d : Dict κ ν) : nestedAt (nst.set f d) f' = if f = f' then d else nestedAt nst f' := by
  simp only [nestedAt, Dict.get?_set]
  by_cases h : f = f'
  · rw [if_pos h, if_pos h]
  · rw [if_neg h, if_neg h]

theorem nestLoop_spec (S : Schema κ) : ∀ (args : Dict κ ν) (res : Dict κ ν) (nst : Dict κ (Dict κ ν)), args.WF →
    (∀ k, (nestLoop S args (res, nst)).1.get? k = (if goes S k = none then args.get? k else none).or (res.get? k)) ∧
    (∀ f k, (nestedAt (nestLoop S args (res, nst)).2 f).get? k = (if goes S k = some f then args.get? k else none).or ((nestedAt nst f).get? k)) ∧
    (∀ f, f ∈ (nestLoop S args (res, nst)).2.keys ↔ f ∈ nst.keys ∨ ∃ k ∈ args.keys, goes S k = some f)
  | [], res, nst, _ => by
    refine ⟨fun k => ?_, fun f k => ?_, fun f => ?_⟩
    · simp only [nestLoop, Dict.get?]; split <;> simp
    · simp only [nestLoop, Dict.get?]; split <;> simp
    · simp [nestLoop, Dict.keys]
  | (k0, v0) :: args, res, nst, wf => by
    have wf' : Dict.WF args := by
      simp only [Dict.WF, Dict.keys, List.map_cons, List.nodup_cons] at wf ⊢; exact wf.2
    have hk0 : Dict.get? args k0 = none := by
      rw [Dict.get?_eq_none_iff]
      simp only [Dict.WF, Dict.keys, List.map_cons, List.nodup_cons] at wf; exact wf.1
    rw [nestLoop_cons]
    cases hg : goes S k0 with
    | none =>
      simp only []
      obtain ⟨h1, h2, h3⟩ := nestLoop_spec S args (res.set k0 v0) nst wf'
      refine ⟨fun k => ?_, fun f k => ?_, fun f => ?_⟩
      · rw [h1, Dict.get?_set, Dict.get?_cons]
        by_cases e : k0 = k
        · subst e; simp [hg, hk0]
        · simp [e]
      · rw [h2, Dict.get?_cons]
        by_cases e : k0 = k
        · subst e; simp [hg]
        · simp [e]
      · rw [h3]
        simp only [Dict.keys, List.map_cons, List.mem_cons, exists_eq_or_imp, hg, reduceCtorEq, false_or]
    | some f0 =>
      simp only []
      obtain ⟨h1, h2, h3⟩ := nestLoop_spec S args res (nst.set f0 ((nestedAt nst f0).set k0 v0)) wf'
      refine ⟨fun k => ?_, fun f k => ?_, fun f => ?_⟩
      · rw [h1, Dict.get?_cons]
        by_cases e : k0 = k
        · subst e; simp [hg]
        · simp [e]
      · rw [h2, Dict.get?_cons, nestedAt_set]
        by_cases ef : f0 = f
        · subst ef
          rw [if_pos rfl, Dict.get?_set]
          by_cases e : k0 = k
          · subst e; simp [hg, hk0]
          · simp [e]
        · rw [if_neg ef]
          by_cases e : k0 = k
          · subst e
            rw [hg, if_neg (fun h => ef (by injection h)), if_neg (fun h => ef (by injection h))]
          · simp [e]
      · rw [h3, Dict.mem_keys_set]
        simp only [Dict.keys, List.map_cons, List.mem_cons, exists_eq_or_imp, hg, Option.some.injEq]
        constructor
        · rintro ((h | h) | h)
          · first | exact Or.inl h | exact Or.inr (Or.inl h.symm)
          · first | exact Or.inl h | exact Or.inr (Or.inl h.symm)
          · exact Or.inr (Or.inr h)
        · rintro (h | h | h)
          · first | exact Or.inl (Or.inl h) | exact Or.inl (Or.inr h)
          · first | exact Or.inl (Or.inl h.symm) | exact Or.inl (Or.inr h.symm)
          · exact Or.inr h

theorem nestLoop_wf (S : Schema κ) : ∀ (args : Dict κ ν) (res : Dict κ ν) (nst : Dict κ (Dict κ ν)), nst.WF → (nestLoop S args (res, nst)).2.WF
  | [], res, nst, h => h
  | (k0, v0) :: args, res, nst, h => by
    rw [nestLoop_cons]
    cases goes S k0 with
    | none => exact nestLoop_wf S args _ nst h
    | some f => exact nestLoop_wf S args res _ (Dict.set_wf h _ _)

theorem get?_leaves (d : Dict κ ν) (k : κ) : (leaves d).get? k = (d.get? k).map .leaf := by
  induction d with
  | nil => rfl
  | cons e d ih =>
    simp only [leaves, List.map_cons] at ih ⊢
    rw [Dict.get?_cons, Dict.get?_cons, ih]
    split <;> rfl

theorem get?_dicts (d : Dict κ (Dict κ ν)) (k : κ) : (dicts d).get? k = (d.get? k).map .dict := by
  induction d with
  | nil => rfl
  | cons e d ih =>
    simp only [dicts, List.map_cons] at ih ⊢
    rw [Dict.get?_cons, Dict.get?_cons, ih]
    split <;> rfl

theorem owner_none_of_empty (k : κ) : owner ([] : Dict κ (List κ)) k = none := rfl

/-- The result: a name that receives nested arguments maps to the dict of exactly these; every other name maps to its own argument if it does not belong to
a nested field. -/
theorem nest_get? (S : Schema κ) (args : Dict κ ν) (wf : args.WF) (k : κ) :
    ((∃ j ∈ args.keys, goes S j = some k) → ∃ d, (nest S args).get? k = some (.dict d) ∧ ∀ j, d.get? j = if goes S j = some k then args.get? j else none) ∧
    ((¬ ∃ j ∈ args.keys, goes S j = some k) → (nest S args).get? k = if goes S k = none then (args.get? k).map .leaf else none) := by
  simp only [nest]
  by_cases he : S.nested.isEmpty = true
  · rw [if_pos he]
    have hg : ∀ j, goes S j = none := by
      intro j
      have : S.nested = [] := by simpa using he
      simp only [goes, this, owner_none_of_empty, ite_self]
    refine ⟨?_, fun _ => ?_⟩
    · rintro ⟨j, _, hj⟩; rw [hg j] at hj; cases hj
    · rw [if_pos (hg k), get?_leaves]
  · rw [if_neg he]
    obtain ⟨h1, h2, h3⟩ := nestLoop_spec S args [] [] wf
    have hw : (dicts (nestLoop S args ([], [])).2).WF := by
      have := nestLoop_wf S args [] [] (by simp [Dict.WF, Dict.keys])
      simp only [Dict.WF, Dict.keys, dicts, List.map_map] at this ⊢
      exact this
    rw [Dict.get?_update hw, get?_dicts, get?_leaves, h1]
    have hk := h3 k
    refine ⟨fun hex => ?_, fun hnex => ?_⟩
    · have hm := hk.2 (Or.inr hex)
      obtain ⟨d, hd⟩ := Option.isSome_iff_exists.1 ((Dict.get?_isSome_iff _ _).2 hm)
      refine ⟨d, by rw [hd]; rfl, fun j => ?_⟩
      have := h2 k j
      simp only [nestedAt, hd, Dict.get?, Option.or_none] at this
      exact this
    · have hm : k ∉ (nestLoop S args ([], [])).2.keys := by
        intro hm
        rcases hk.1 hm with h | h
        · cases h
        · exact hnex h
      rw [(Dict.get?_eq_none_iff _ _).2 hm]
      simp only [Option.map_none, Option.none_or, Dict.get?, Option.or_none]
      split <;> rfl

/-- An argument is found in the result: under its own name, or in the dict of a field. -/
def Kept (r : Dict κ (Val κ ν)) (k : κ) (v : ν) : Prop :=
  r.get? k = some (.leaf v) ∨ ∃ f d, r.get? f = some (.dict d) ∧ d.get? k = some v

/-- The nested field an argument belongs to: the argument is not itself a field, and the nested field is the first one whose model has a field of that name. -/
def Belongs (S : Schema κ) (k f : κ) : Prop :=
  k ∉ S.fields ∧ ∃ before ks behind, S.nested = before ++ (f, ks) :: behind ∧ k ∈ ks ∧ ∀ e ∈ before, k ∉ e.2

theorem owner_iff (k f : κ) : ∀ nested : Dict κ (List κ), owner nested k = some f ↔
    ∃ before ks behind, nested = before ++ (f, ks) :: behind ∧ k ∈ ks ∧ ∀ e ∈ before, k ∉ e.2
  | [] => by simp [owner]
  | (f0, ks0) :: nested => by
    by_cases h : k ∈ ks0
    · have : owner ((f0, ks0) :: nested) k = some f0 := by simp [owner, h]
      rw [this]
      constructor
      · intro e; cases e; exact ⟨[], ks0, nested, rfl, h, by simp⟩
      · rintro ⟨before, ks, behind, e, hk, hb⟩
        cases before with
        | nil => cases e; rfl
        | cons b before => cases e; exact absurd h (hb _ List.mem_cons_self)
    · have : owner ((f0, ks0) :: nested) k = owner nested k := by simp [owner, h]
      rw [this, owner_iff k f nested]
      constructor
      · rintro ⟨before, ks, behind, e, hk, hb⟩
        refine ⟨(f0, ks0) :: before, ks, behind, by rw [e]; rfl, hk, ?_⟩
        intro x hx
        rcases List.mem_cons.1 hx with rfl | hx
        · exact h
        · exact hb x hx
      · rintro ⟨before, ks, behind, e, hk, hb⟩
        cases before with
        | nil => cases e; exact absurd hk h
        | cons b before => cases e; exact ⟨before, ks, behind, rfl, hk, fun x hx => hb x (List.mem_cons_of_mem _ hx)⟩

theorem goes_iff (S : Schema κ) (k f : κ) : goes S k = some f ↔ Belongs S k f := by
  unfold goes Belongs
  by_cases h : k ∈ S.fields
  · simp [h]
  · rw [if_neg h, owner_iff]; simp [h]

/-- Every argument is kept, in the place where it belongs, when no argument names a field that also receives nested arguments.  The full claim has no such proviso. -/
theorem C74_nesting_partial (S : Schema κ) (args : Dict κ ν) (wf : args.WF)
    (hdis : ∀ k ∈ args.keys, ∀ f, Belongs S k f → f ∉ args.keys) : ∀ k v, args.get? k = some v →
      Kept (nest S args) k v ∧
      (∀ f, Belongs S k f → ∃ d, (nest S args).get? f = some (.dict d) ∧ d.get? k = some v) ∧
      ((∀ f, ¬ Belongs S k f) → (nest S args).get? k = some (.leaf v)) := by
  intro k v hv
  have hk : k ∈ args.keys := Dict.mem_keys_of_get? hv
  have h1 : ∀ f, Belongs S k f → ∃ d, (nest S args).get? f = some (.dict d) ∧ d.get? k = some v := by
    intro f hf
    have hg := (goes_iff S k f).2 hf
    obtain ⟨d, h1, h2⟩ := (nest_get? S args wf f).1 ⟨k, hk, hg⟩
    exact ⟨d, h1, by rw [h2, if_pos hg, hv]⟩
  have h2 : (∀ f, ¬ Belongs S k f) → (nest S args).get? k = some (.leaf v) := by
    intro hn
    have hg : goes S k = none := by
      cases hg : goes S k with
      | none => rfl
      | some f => exact absurd ((goes_iff S k f).1 hg) (hn f)
    rw [(nest_get? S args wf k).2, if_pos hg, hv]
    · rfl
    · rintro ⟨j, hj, hgj⟩
      exact hdis j hj k ((goes_iff S j k).1 hgj) hk
  refine ⟨?_, h1, h2⟩
  by_cases hb : ∃ f, Belongs S k f
  · obtain ⟨f, hf⟩ := hb
    obtain ⟨d, hd⟩ := h1 f hf
    exact Or.inr ⟨f, d, hd⟩
  · exact Or.inl (h2 (fun f hf => hb ⟨f, hf⟩))

/-- Nothing is invented: what the result holds was an argument, under the same name. -/
theorem C74_nesting_sound (S : Schema κ) (args : Dict κ ν) (wf : args.WF) (k : κ) (v : ν) (h : Kept (nest S args) k v) : args.get? k = some v := by
  rcases h with h | ⟨f, d, h1, h2⟩
  · by_cases hex : ∃ j ∈ args.keys, goes S j = some k
    · obtain ⟨d, hd, _⟩ := (nest_get? S args wf k).1 hex
      rw [hd] at h; injection h with h; cases h
    · rw [(nest_get? S args wf k).2 hex] at h
      split at h
      · cases hv : args.get? k with
        | none => rw [hv] at h; cases h
        | some v' => rw [hv] at h; simp only [Option.map_some] at h; injection h with h; injection h with h; rw [h]
      · cases h
  · by_cases hex : ∃ j ∈ args.keys, goes S j = some f
    · obtain ⟨d', hd, hj⟩ := (nest_get? S args wf f).1 hex
      rw [hd] at h1; injection h1 with h1; injection h1 with h1
      subst h1
      rw [hj] at h2
      split at h2
      · exact h2
      · cases h2
    · rw [(nest_get? S args wf f).2 hex] at h1
      split at h1
      · cases hv : args.get? f with
        | none => rw [hv] at h1; cases h1
        | some v' => rw [hv] at h1; simp only [Option.map_some] at h1; injection h1 with h1; cases h1
      · cases h1

def demoS : Schema String := { fields := ["opts", "q"], nested := [("opts", ["x", "y"])] }

/-- `f(opts=1, x=2)`, where `x` is a field of the model `opts`: the value given for `opts` is lost. -/
theorem C74_nesting_violation : nest demoS [("opts", 1), ("x", (2 : Nat))] = [("opts", .dict [("x", 2)])] := by decide

example : nest demoS [("q", 1), ("x", (2 : Nat)), ("z", 3), ("y", 4)] = [("q", .leaf 1), ("z", .leaf 3), ("opts", .dict [("x", 2), ("y", 4)])] := by decide

end Verif.CallArgs
