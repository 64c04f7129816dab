import Verif.Props.DumpHeap

/-!
# C306: what the dict made by `to_dict` shares with the element
-/

set_option linter.unusedSectionVars false
set_option linter.unusedSimpArgs false
set_option linter.unusedVariables false

namespace Verif.DumpHeap

open LoadHeap

/-- If the value is a reference, it is one into the set. -/
def In (S : Nat → Prop) (v : Val) : Prop := ∀ b, v = .ref b → S b
/-- The set consists of objects that are not in `h0` and refer to each other only. -/
def Stays (S : Nat → Prop) (h0 h : Heap) : Prop := ∀ a, S a → h0.length ≤ a ∧ ∃ o, h[a]? = some o ∧ ∀ w ∈ held o, In S w
/-- Nothing that can be reached from the values is in `h0`. -/
def Sep (h0 h : Heap) (l : List Val) : Prop := ∃ S, Stays S h0 h ∧ ∀ v ∈ l, In S v

theorem sep_nil {h0 h : Heap} : Sep h0 h [] := ⟨fun _ => False, fun _ ha => ha.elim, fun _ hv => nomatch hv⟩
theorem sep_scalar {h0 h : Heap} {v : Val} (hv : ∀ b, v ≠ .ref b) : Sep h0 h [v] :=
  ⟨fun _ => False, fun _ ha => ha.elim, fun w hw b hb => absurd (by rw [← List.mem_singleton.1 hw]; exact hb) (hv b)⟩
theorem Sep.mono {h0 h h' : Heap} {l : List Val} (hs : Sep h0 h l) (hk : Keeps h h') : Sep h0 h' l := by
  obtain ⟨S, hS, hl⟩ := hs
  refine ⟨S, fun a ha => ⟨(hS a ha).1, ?_⟩, hl⟩
  obtain ⟨o, ho, hw⟩ := (hS a ha).2
  exact ⟨o, by rw [hk.2 a (List.getElem?_eq_some_iff.1 ho).1]; exact ho, hw⟩
theorem Sep.old {h0 h1 h : Heap} {l : List Val} (hs : Sep h1 h l) (hk : h0.length ≤ h1.length) : Sep h0 h l := by
  obtain ⟨S, hS, hl⟩ := hs
  exact ⟨S, fun a ha => ⟨Nat.le_trans hk (hS a ha).1, (hS a ha).2⟩, hl⟩
theorem Sep.sub {h0 h : Heap} {l l' : List Val} (hs : Sep h0 h l) (hl : ∀ v ∈ l', v ∈ l) : Sep h0 h l' := by
  obtain ⟨S, hS, h1⟩ := hs
  exact ⟨S, hS, fun v hv => h1 v (hl v hv)⟩
theorem Sep.append {h0 h : Heap} {l l' : List Val} (hs : Sep h0 h l) (hs' : Sep h0 h l') : Sep h0 h (l ++ l') := by
  obtain ⟨S, hS, h1⟩ := hs
  obtain ⟨T, hT, h2⟩ := hs'
  refine ⟨fun a => S a ∨ T a, fun a ha => ?_, fun v hv b hb => ?_⟩
  · rcases ha with ha | ha
    · obtain ⟨o, ho, hw⟩ := (hS a ha).2
      exact ⟨(hS a ha).1, o, ho, fun w hw' b hb => Or.inl (hw w hw' b hb)⟩
    · obtain ⟨o, ho, hw⟩ := (hT a ha).2
      exact ⟨(hT a ha).1, o, ho, fun w hw' b hb => Or.inr (hw w hw' b hb)⟩
  · rcases List.mem_append.1 hv with hv | hv
    · exact Or.inl (h1 v hv b hb)
    · exact Or.inr (h2 v hv b hb)
theorem Sep.new {h0 h : Heap} {o : Obj} (hs : Sep h0 h (held o)) (hk : h0.length ≤ h.length) : Sep h0 (h ++ [o]) [.ref h.length] := by
  obtain ⟨S, hS, hl⟩ := hs
  refine ⟨fun a => S a ∨ a = h.length, fun a ha => ?_, fun v hv b hb => ?_⟩
  · rcases ha with ha | rfl
    · obtain ⟨p, hp, hw⟩ := (hS a ha).2
      refine ⟨(hS a ha).1, p, by rw [List.getElem?_append_left (List.getElem?_eq_some_iff.1 hp).1]; exact hp, fun w hw' b hb => Or.inl (hw w hw' b hb)⟩
    · exact ⟨hk, o, by simp, fun w hw b hb => Or.inl (hl w hw b hb)⟩
  · rw [List.mem_singleton.1 hv] at hb; cases hb; exact Or.inr rfl
/-- Writing into the set, with references into the set. -/
theorem stays_put {S : Nat → Prop} {h0 h : Heap} (hS : Stays S h0 h) {b : Nat} {o : Obj} (hb : S b) (ho : ∀ w ∈ held o, In S w) : Stays S h0 (h.set b o) := by
  intro a ha
  refine ⟨(hS a ha).1, ?_⟩
  obtain ⟨p, hp, hw⟩ := (hS a ha).2
  by_cases hab : b = a
  · subst hab
    exact ⟨o, by rw [List.getElem?_set_self (List.getElem?_eq_some_iff.1 hp).1], ho⟩
  · exact ⟨p, by rw [List.getElem?_set_ne hab]; exact hp, hw⟩
theorem Sep.reach {h0 h : Heap} {v : Val} (hs : Sep h0 h [v]) {a : Nat} (hr : Reach h v a) : h0.length ≤ a := by
  obtain ⟨S, hS, hl⟩ := hs
  have key : ∀ v, In S v → ∀ a, Reach h v a → h0.length ≤ a := by
    intro v hv a hr
    induction hr with
    | here a => exact (hS a (hv a rfl)).1
    | into a b o w ho hw _ ih =>
      obtain ⟨p, hp, hi⟩ := (hS a (hv a rfl)).2
      rw [ho] at hp; cases hp
      exact ih (hi w hw)
  exact key v (hl v (List.mem_singleton.2 rfl)) a hr

/-- The values that `model_dump` goes into: those of dicts, lists and models, except the fields that have a serializer of their own. -/
def parts (env : Env) : Obj → List Val
  | .dict d => d.map Prod.snd
  | .list l => l
  | .elem c f => (f.filter fun kv => (env.ser c kv.1).isNone).map Prod.snd
  | .pile c f _ _ => (f.filter fun kv => (env.ser c kv.1).isNone).map Prod.snd
  | .other _ _ => []

/-- `model_dump` meets only objects that it knows. -/
def Plain (env : Env) (h : Heap) (v : Val) : Prop :=
  ∃ S : Nat → Prop, In S v ∧ ∀ a, S a → ∃ o, h[a]? = some o ∧ leaf (some o) = false ∧ ∀ w ∈ parts env o, In S w

/-- The field serializers return data that `model_dump` knows. -/
def SerPlain (env : Env) : Prop := ∀ c k f, env.ser c k = some f → ∀ v h x, (f v h).2 = .ok x → Plain env (f v h).1 x

theorem Plain.mono {env : Env} {h h' : Heap} {v : Val} (hp : Plain env h v) (hk : Keeps h h') : Plain env h' v := by
  obtain ⟨S, hv, hS⟩ := hp
  refine ⟨S, hv, fun a ha => ?_⟩
  obtain ⟨o, ho, h1, h2⟩ := hS a ha
  exact ⟨o, by rw [hk.2 a (List.getElem?_eq_some_iff.1 ho).1]; exact ho, h1, h2⟩

theorem andThen_ok {α β : Type} {m : M α} {f : α → M β} {h h' : Heap} {y : β} (hr : andThen m f h = (h', .ok y)) :
    ∃ h1 x, m h = (h1, .ok x) ∧ f x h1 = (h', .ok y) := by
  simp only [andThen] at hr
  cases hm : m h with
  | mk h1 r =>
    rw [hm] at hr
    cases r with
    | error e => cases hr
    | ok x => exact ⟨h1, x, rfl, hr⟩
theorem ret_ok {α : Type} {x y : α} {h h' : Heap} (hr : ret x h = (h', .ok y)) : h' = h ∧ y = x := by cases hr; exact ⟨rfl, rfl⟩
theorem look_ok {v : Val} {h h' : Heap} {o : Option Obj} (hr : look v h = (h', .ok o)) : h' = h ∧ o = objOf h v := by cases hr; exact ⟨rfl, rfl⟩
theorem newRef_ok {o : Obj} {h h' : Heap} {x : Val} (hr : andThen (new o) (fun a => ret (.ref a)) h = (h', .ok x)) : h' = h ++ [o] ∧ x = .ref h.length := by
  obtain ⟨h1, a, h2, h3⟩ := andThen_ok hr
  cases h2; exact ret_ok h3

/-- A computation that leaves the heap it starts in alone. -/
def Grows {α : Type} (m : M α) : Prop := ∀ h, Keeps h (m h).1
theorem Grows.ok {α : Type} {m : M α} (hg : Grows m) {h h' : Heap} {x : Except Exc α} (hr : m h = (h', x)) : Keeps h h' := by
  have := hg h; rw [hr] at this; exact this
theorem dump_grows {env : Env} (he : TameEnv env) (n : Nat) (v : Val) : Grows (dump env n v) := fun h => (dump_tri (h0 := h) he n v h (Keeps.refl h) trivial).1
theorem each_grows {go : Val → M Val} (hg : ∀ v, Grows (go v)) (l : List Val) : Grows (each go l) := fun h =>
  (each_tri (h0 := h) (P := fun _ => True) (fun v h' hk _ => ⟨hk.trans (hg v h'), fun _ _ => trivial⟩) l h (Keeps.refl h) trivial).1
theorem serOf_grows {env : Env} (he : TameEnv env) (c k : String) (v : Val) : Grows (serOf env c k v) := fun h => (serOf_tri (h0 := h) he c k v h (Keeps.refl h) trivial).1
theorem eachEntry_grows {go : Val → M Val} (hg : ∀ v, Grows (go v)) (d : Dict String Val) : Grows (eachEntry go d) := by
  induction d with
  | nil => exact fun h => Keeps.refl h
  | cons p d ih =>
    obtain ⟨k, v⟩ := p
    intro h
    have := tri_bind (h0 := h) (P := fun _ => True) (m := go v) (Q := fun _ _ => True) (R := fun _ _ => True)
      (f := fun w => andThen (eachEntry go d) fun ws => ret ((k, w) :: ws)) (fun h' hk _ => ⟨hk.trans (hg v h'), fun _ _ => trivial⟩)
      (fun w => tri_bind (Q := fun _ _ => True) (fun h' hk _ => ⟨hk.trans (ih h'), fun _ _ => trivial⟩) fun _ => tri_ret fun _ _ _ => trivial)
    exact (this h (Keeps.refl h) trivial).1
theorem eachField_grows {env : Env} (he : TameEnv env) {go : Val → M Val} (hg : ∀ v, Grows (go v)) (c : String) (d : Dict String Val) : Grows (eachField env go c d) := by
  induction d with
  | nil => exact fun h => Keeps.refl h
  | cons p d ih =>
    obtain ⟨k, v⟩ := p
    intro h
    have := tri_bind (h0 := h) (P := fun _ => True) (m := serOf env c k v) (Q := fun _ _ => True) (R := fun _ _ => True)
      (f := fun u => andThen (go u) fun w => andThen (eachField env go c d) fun ws => ret ((k, w) :: ws))
      (fun h' hk _ => ⟨hk.trans (serOf_grows he c k v h'), fun _ _ => trivial⟩)
      (fun u => tri_bind (Q := fun _ _ => True) (fun h' hk _ => ⟨hk.trans (hg u h'), fun _ _ => trivial⟩) fun w =>
        tri_bind (Q := fun _ _ => True) (fun h' hk _ => ⟨hk.trans (ih h'), fun _ _ => trivial⟩) fun _ => tri_ret fun _ _ _ => trivial)
    exact (this h (Keeps.refl h) trivial).1

/-- What `model_dump` makes of known data is separate. -/
def Copies (env : Env) (go : Val → M Val) : Prop := (∀ v, Grows (go v)) ∧ ∀ v h h' x, Plain env h v → go v h = (h', .ok x) → Sep h h' [x]

theorem sep_cons {h0 h h' : Heap} {w : Val} {l : List Val} (h1 : Sep h0 h [w]) (hk : Keeps h h') (h2 : Sep h h' l) (hk0 : Keeps h0 h) : Sep h0 h' (w :: l) :=
  (h1.mono hk).append (h2.old hk0.1)

theorem each_sep {env : Env} {go : Val → M Val} (hg : Copies env go) (l : List Val) : ∀ h h' ws, (∀ v ∈ l, Plain env h v) →
    each go l h = (h', .ok ws) → Sep h h' ws := by
  induction l with
  | nil => intro h h' ws _ hr; cases hr; exact sep_nil
  | cons v l ih =>
    intro h h' ws hp hr
    obtain ⟨h1, w, hw, hr⟩ := andThen_ok hr
    obtain ⟨h2, ws', hws, hr⟩ := andThen_ok hr
    obtain ⟨rfl, rfl⟩ := ret_ok hr
    have k1 := (hg.1 v).ok hw
    exact sep_cons (hg.2 v h h1 w (hp v (List.mem_cons_self ..)) hw) ((each_grows hg.1 l).ok hws)
      (ih h1 _ ws' (fun u hu => (hp u (List.mem_cons_of_mem _ hu)).mono k1) hws) k1
theorem eachEntry_sep {env : Env} {go : Val → M Val} (hg : Copies env go) (d : Dict String Val) : ∀ h h' ws, (∀ v ∈ d.map Prod.snd, Plain env h v) →
    eachEntry go d h = (h', .ok ws) → Sep h h' (ws.map Prod.snd) := by
  induction d with
  | nil => intro h h' ws _ hr; cases hr; exact sep_nil
  | cons p d ih =>
    obtain ⟨k, v⟩ := p
    intro h h' ws hp hr
    obtain ⟨h1, w, hw, hr⟩ := andThen_ok hr
    obtain ⟨h2, ws', hws, hr⟩ := andThen_ok hr
    obtain ⟨rfl, rfl⟩ := ret_ok hr
    have k1 := (hg.1 v).ok hw
    exact sep_cons (hg.2 v h h1 w (hp v (List.mem_cons_self ..)) hw) ((eachEntry_grows hg.1 d).ok hws)
      (ih h1 _ ws' (fun u hu => (hp u (List.mem_cons_of_mem _ hu)).mono k1) hws) k1
theorem serOf_plain {env : Env} (hs : SerPlain env) {c k : String} {v u : Val} {h h' : Heap} (hp : env.ser c k = none → Plain env h v)
    (hr : serOf env c k v h = (h', .ok u)) : Plain env h' u := by
  simp only [serOf] at hr
  cases hc : env.ser c k with
  | none => rw [hc] at hr; cases hr; exact hp hc
  | some f =>
    rw [hc] at hr
    have := hs c k f hc v h u (by dsimp only at hr; rw [hr])
    dsimp only at hr
    rw [hr] at this; exact this
theorem eachField_sep {env : Env} (he : TameEnv env) (hs : SerPlain env) {go : Val → M Val} (hg : Copies env go) (c : String) (d : Dict String Val) : ∀ h h' ws,
    (∀ k v, (k, v) ∈ d → env.ser c k = none → Plain env h v) → eachField env go c d h = (h', .ok ws) → Sep h h' (ws.map Prod.snd) := by
  induction d with
  | nil => intro h h' ws _ hr; cases hr; exact sep_nil
  | cons p d ih =>
    obtain ⟨k, v⟩ := p
    intro h h' ws hp hr
    obtain ⟨h1, u, hu, hr⟩ := andThen_ok hr
    obtain ⟨h2, w, hw, hr⟩ := andThen_ok hr
    obtain ⟨h3, ws', hws, hr⟩ := andThen_ok hr
    obtain ⟨rfl, rfl⟩ := ret_ok hr
    have k1 := (serOf_grows he c k v).ok hu
    have k2 := (hg.1 u).ok hw
    exact sep_cons ((hg.2 u h1 h2 w (serOf_plain hs (hp k v (List.mem_cons_self ..)) hu) hw).old k1.1) ((eachField_grows he hg.1 c d).ok hws)
      (ih h2 _ ws' (fun k' v' hm hn => (hp k' v' (List.mem_cons_of_mem _ hm) hn).mono (k1.trans k2)) hws) (k1.trans k2)

theorem plain_part {env : Env} {h : Heap} {a : Nat} {o : Obj} (hp : Plain env h (.ref a)) (ho : h[a]? = some o) {w : Val} (hw : w ∈ parts env o) : Plain env h w := by
  obtain ⟨S, hv, hS⟩ := hp
  obtain ⟨p, hp, _, hi⟩ := hS a (hv a rfl)
  rw [ho] at hp; cases hp
  exact ⟨S, hi w hw, hS⟩
theorem mem_parts_field {env : Env} {c : String} {f : Dict String Val} {k : String} {v : Val} (hm : (k, v) ∈ f) (hn : env.ser c k = none) :
    v ∈ (f.filter fun kv => (env.ser c kv.1).isNone).map Prod.snd :=
  List.mem_map.2 ⟨(k, v), List.mem_filter.2 ⟨hm, by simp [hn]⟩, rfl⟩

theorem sep_newDict {h h1 h' : Heap} {es : Dict String Val} {x : Val} (hk : Keeps h h1) (hs : Sep h h1 (es.map Prod.snd))
    (hr : andThen (new (.dict es)) (fun a => ret (.ref a)) h1 = (h', .ok x)) : Sep h h' [x] := by
  obtain ⟨rfl, rfl⟩ := newRef_ok hr
  exact Sep.new (o := .dict es) hs hk.1

theorem dump_copies {env : Env} (he : TameEnv env) (hs : SerPlain env) (n : Nat) : Copies env (dump env n) := by
  refine ⟨dump_grows he n, ?_⟩
  induction n with
  | zero =>
    intro v h h' x hp hr
    simp only [dump] at hr
    obtain ⟨h1, o, ho, hr⟩ := andThen_ok hr
    obtain ⟨rfl, rfl⟩ := look_ok ho
    split at hr
    · rename_i hl
      obtain ⟨rfl, rfl⟩ := ret_ok hr
      refine sep_scalar fun b hb => ?_
      subst hb
      obtain ⟨S, hv, hS⟩ := hp
      obtain ⟨o, ho, hlf, _⟩ := hS b (hv b rfl)
      simp only [objOf, ho, hlf] at hl
      cases hl
    · cases hr
  | succ n ih =>
    intro v h h' x hp hr
    have hg : Copies env (dump env n) := ⟨dump_grows he n, ih⟩
    simp only [dump] at hr
    obtain ⟨h1, o, ho, hr⟩ := andThen_ok hr
    obtain ⟨rfl, rfl⟩ := look_ok ho
    cases v with
    | ref b =>
      have hb : ∃ o, h1[b]? = some o ∧ leaf (some o) = false := by
        obtain ⟨S, hv, hS⟩ := hp
        obtain ⟨o, ho, hlf, _⟩ := hS b (hv b rfl)
        exact ⟨o, ho, hlf⟩
      obtain ⟨o, hob, hl⟩ := hb
      simp only [objOf, hob] at hr
      cases o with
      | dict d =>
        obtain ⟨h2, es, hes, hr⟩ := andThen_ok hr
        exact sep_newDict ((eachEntry_grows hg.1 d).ok hes) (eachEntry_sep hg d _ _ _ (fun w hw => plain_part hp hob hw) hes) hr
      | list l =>
        obtain ⟨h2, es, hes, hr⟩ := andThen_ok hr
        obtain ⟨rfl, rfl⟩ := newRef_ok hr
        exact Sep.new (o := .list es) (each_sep hg l _ _ _ (fun w hw => plain_part hp hob hw) hes) ((each_grows hg.1 l).ok hes).1
      | elem c f =>
        obtain ⟨h2, es, hes, hr⟩ := andThen_ok hr
        exact sep_newDict ((eachField_grows he hg.1 c f).ok hes)
          (eachField_sep he hs hg c f _ _ _ (fun k w hm hn => plain_part hp hob (mem_parts_field hm hn)) hes) hr
      | pile c f l m =>
        obtain ⟨h2, es, hes, hr⟩ := andThen_ok hr
        exact sep_newDict ((eachField_grows he hg.1 c f).ok hes)
          (eachField_sep he hs hg c f _ _ _ (fun k w hm hn => plain_part hp hob (mem_parts_field hm hn)) hes) hr
      | other c f => cases hl
    | _ => cases hr; exact sep_scalar (fun b hb => nomatch hb)

/-- The fields that are not excluded and have no serializer are plain. -/
def FieldsPlain (env : Env) (h : Heap) (c : String) (f : Dict String Val) : Prop := ∀ k v, (k, v) ∈ f → env.ser c k = none → Plain env h v

theorem modelDump_sep {env : Env} (he : TameEnv env) (hs : SerPlain env) {c : String} {f : Dict String Val} {ex : List String} {h h' : Heap} {a : Nat}
    (hp : FieldsPlain env h c f) (hr : modelDump env c f ex h = (h', .ok a)) : Sep h h' [.ref a] := by
  obtain ⟨h1, es, hes, hr⟩ := andThen_ok hr
  have hg := dump_copies he hs env.limit
  have h2 := eachField_sep he hs hg c _ _ _ _ (fun k v hm hn => hp k v (List.mem_filter.1 hm).1 hn) hes
  cases hr
  exact Sep.new (o := .dict es) h2 ((eachField_grows he hg.1 c _).ok hes).1

/-- The values of the dict of a separate set are in the set. -/
theorem stays_entries {S : Nat → Prop} {h0 h : Heap} (hS : Stays S h0 h) {a : Nat} (ha : S a) {v : Val} (hv : v ∈ (entriesD (objOf h (.ref a))).map Prod.snd) :
    In S v := by
  obtain ⟨o, ho, hw⟩ := (hS a ha).2
  simp only [entriesD, objOf, ho] at hv
  cases o with
  | dict d => exact hw v hv
  | _ => simp [entries] at hv

theorem in_str {S : Nat → Prop} {s : String} : In S (.str s) := fun b hb => nomatch hb

theorem setEntry_sep {S : Nat → Prop} {h0 h h' : Heap} (hS : Stays S h0 h) {v : Val} (hv : In S v) {name s : String}
    (hr : setEntry v name s h = (h', .ok ())) : Stays S h0 h' := by
  simp only [setEntry] at hr
  cases v with
  | ref b =>
    dsimp only at hr
    cases ho : entries h[b]? with
    | none => rw [ho] at hr; cases hr
    | some d =>
      rw [ho] at hr
      cases hr
      refine stays_put hS (hv b rfl) fun w hw => ?_
      rcases vals_set hw with rfl | hw
      · exact in_str
      · exact stays_entries hS (hv b rfl) (by simp only [entriesD, objOf, ho]; exact hw)
  | _ => cases hr
theorem setIn_sep {S : Nat → Prop} {h0 h h' : Heap} (hS : Stays S h0 h) {a : Nat} (ha : S a) {k name s : String} (hr : setIn a k name s h = (h', .ok ())) :
    Stays S h0 h' := by
  obtain ⟨h1, o, ho, hr⟩ := andThen_ok hr
  obtain ⟨rfl, rfl⟩ := look_ok ho
  cases hg : (entriesD (objOf h1 (.ref a))).get? k with
  | none => rw [hg] at hr; obtain ⟨rfl, -⟩ := ret_ok hr; exact hS
  | some v => rw [hg] at hr; exact setEntry_sep hS (stays_entries hS ha (vals_get hg)) hr
theorem setKey_sep {S : Nat → Prop} {h0 h h' : Heap} (hS : Stays S h0 h) {a : Nat} (ha : S a) {k : String} {w : Val} (hw : In S w) (hr : setKey a k w h = (h', .ok ())) :
    Stays S h0 h' := by
  obtain ⟨h1, o, ho, hr⟩ := andThen_ok hr
  obtain ⟨rfl, rfl⟩ := look_ok ho
  cases hr
  refine stays_put hS ha fun v hv => ?_
  rcases vals_set hv with rfl | hv
  · exact hw
  · exact stays_entries hS ha hv
theorem adjust_sep {S : Nat → Prop} {h0 h h' : Heap} (hS : Stays S h0 h) {a : Nat} (ha : S a) {env : Env} {f : Dict String Val} {o : Opts}
    (hr : adjust env f o a h = (h', .ok ())) : Stays S h0 h' := by
  obtain ⟨h1, ob, ho, hr⟩ := andThen_ok hr
  obtain ⟨rfl, rfl⟩ := look_ok ho
  cases hs : stamped env f o (entriesD (objOf h1 (.ref a))) with
  | error e => rw [hs] at hr; cases hr
  | ok d =>
    rw [hs] at hr
    cases hr
    refine stays_put hS ha fun v hv => ?_
    rcases vals_stamped hs (vals_renamed hv) with ⟨s, rfl⟩ | hv
    · exact in_str
    · exact stays_entries hS ha hv

mutual
theorem build_sep : ∀ t h h' x, build t h = (h', .ok x) → Sep h h' [x]
  | .null, h, h', x, hr => by cases hr; exact sep_scalar (fun b hb => nomatch hb)
  | .str s, h, h', x, hr => by cases hr; exact sep_scalar (fun b hb => nomatch hb)
  | .int i, h, h', x, hr => by cases hr; exact sep_scalar (fun b hb => nomatch hb)
  | .list l, h, h', x, hr => by
    simp only [build] at hr
    obtain ⟨h1, vs, hvs, hr⟩ := andThen_ok hr
    obtain ⟨rfl, rfl⟩ := newRef_ok hr
    have := (buildAll_tri (h0 := h) l h (Keeps.refl h) trivial).1
    rw [hvs] at this
    exact Sep.new (o := .list vs) (buildAll_sep l h h1 vs hvs) this.1
  | .dict d, h, h', x, hr => by
    simp only [build] at hr
    obtain ⟨h1, vs, hvs, hr⟩ := andThen_ok hr
    have := (buildEntries_tri (h0 := h) d h (Keeps.refl h) trivial).1
    rw [hvs] at this
    exact sep_newDict this (buildEntries_sep d h h1 vs hvs) hr
theorem buildAll_sep : ∀ l h h' vs, buildAll l h = (h', .ok vs) → Sep h h' vs
  | [], h, h', vs, hr => by cases hr; exact sep_nil
  | t :: ts, h, h', vs, hr => by
    simp only [buildAll] at hr
    obtain ⟨h1, w, hw, hr⟩ := andThen_ok hr
    obtain ⟨h2, ws, hws, hr⟩ := andThen_ok hr
    obtain ⟨rfl, rfl⟩ := ret_ok hr
    have k1 := (build_tri (h0 := h) t h (Keeps.refl h) trivial).1
    rw [hw] at k1
    have k2 := (buildAll_tri (h0 := h1) ts h1 (Keeps.refl h1) trivial).1
    rw [hws] at k2
    exact sep_cons (build_sep t h h1 w hw) k2 (buildAll_sep ts h1 _ ws hws) k1
theorem buildEntries_sep : ∀ l h h' es, buildEntries l h = (h', .ok es) → Sep h h' (es.map Prod.snd)
  | [], h, h', vs, hr => by cases hr; exact sep_nil
  | (k, t) :: ts, h, h', vs, hr => by
    simp only [buildEntries] at hr
    obtain ⟨h1, w, hw, hr⟩ := andThen_ok hr
    obtain ⟨h2, ws, hws, hr⟩ := andThen_ok hr
    obtain ⟨rfl, rfl⟩ := ret_ok hr
    have k1 := (build_tri (h0 := h) t h (Keeps.refl h) trivial).1
    rw [hw] at k1
    have k2 := (buildEntries_tri (h0 := h1) ts h1 (Keeps.refl h1) trivial).1
    rw [hws] at k2
    exact sep_cons (build_sep t h h1 w hw) k2 (buildEntries_sep ts h1 _ ws hws) k1
end

theorem loads_sep {env : Env} {a b : Nat} {h h' : Heap} (hr : loads env a h = (h', .ok b)) : Sep h h' [.ref b] := by
  simp only [loads] at hr
  cases ht : env.text h a with
  | error e => rw [ht] at hr; cases hr
  | ok t =>
    rw [ht] at hr
    obtain ⟨h1, es, hes, hr⟩ := andThen_ok hr
    cases hr
    have := (buildEntries_tri (h0 := h) t h (Keeps.refl h) trivial).1
    rw [hes] at this
    exact Sep.new (o := .dict es) (buildEntries_sep t h h1 es hes) this.1

/-- In mode python, what has to be copied is plain. -/
def Ready (env : Env) (o : Opts) (p : Prop) : Prop := o.mode = .python → SerPlain env ∧ p

theorem base_sep {env : Env} (he : TameEnv env) (hs : SerPlain env) {c : String} {f : Dict String Val} {ex : List String} {h h' : Heap} {a : Nat}
    (hp : FieldsPlain env h c f) (hr : base env c f ex h = (h', .ok a)) : Sep h h' [.ref a] := by
  obtain ⟨h1, b, hb, hr⟩ := andThen_ok hr
  obtain ⟨h2, u, hu, hr⟩ := andThen_ok hr
  obtain ⟨rfl, rfl⟩ := ret_ok hr
  obtain ⟨S, hS, hv⟩ := modelDump_sep he hs hp hb
  exact ⟨S, setIn_sep hS (hv _ (List.mem_singleton.2 rfl) a rfl) hu, hv⟩

theorem elementTo_sep {env : Env} (he : TameEnv env) {c : String} {f : Dict String Val} {o : Opts} {h h' : Heap} {a : Nat}
    (hp : Ready env o (FieldsPlain env h c f)) (hr : elementTo env c f o h = (h', .ok a)) : Sep h h' [.ref a] := by
  obtain ⟨h1, b, hb, hr⟩ := andThen_ok hr
  obtain ⟨h2, u, hu, hr⟩ := andThen_ok hr
  obtain ⟨rfl, rfl⟩ := ret_ok hr
  have h3 : Sep h h1 [.ref a] := by
    simp only [raw] at hb
    cases hm : o.mode with
    | python =>
      rw [hm] at hb
      exact base_sep he (hp hm).1 (hp hm).2 hb
    | _ =>
      rw [hm] at hb
      obtain ⟨h4, d, hd, hb⟩ := andThen_ok hb
      have k := (base_tri (h0 := h) he c f o.exclude h (Keeps.refl h) trivial).1
      rw [hd] at k
      exact (loads_sep hb).old k.1
  obtain ⟨S, hS, hv⟩ := h3
  exact ⟨S, adjust_sep hS (hv _ (List.mem_singleton.2 rfl) a rfl) hu, hv⟩

/-- Everything that can be reached is known to `model_dump`. -/
def Whole (h : Heap) (v : Val) : Prop :=
  ∃ S : Nat → Prop, In S v ∧ ∀ a, S a → ∃ o, h[a]? = some o ∧ leaf (some o) = false ∧ ∀ w ∈ held o, In S w

theorem Whole.mono {h h' : Heap} {v : Val} (hp : Whole h v) (hk : Keeps h h') : Whole h' v := by
  obtain ⟨S, hv, hS⟩ := hp
  refine ⟨S, hv, fun a ha => ?_⟩
  obtain ⟨o, ho, h1, h2⟩ := hS a ha
  exact ⟨o, by rw [hk.2 a (List.getElem?_eq_some_iff.1 ho).1]; exact ho, h1, h2⟩
theorem whole_held {h : Heap} {a : Nat} {o : Obj} (hp : Whole h (.ref a)) (ho : h[a]? = some o) {w : Val} (hw : w ∈ held o) : Whole h w := by
  obtain ⟨S, hv, hS⟩ := hp
  obtain ⟨p, hp, _, hi⟩ := hS a (hv a rfl)
  rw [ho] at hp; cases hp
  exact ⟨S, hi w hw, hS⟩
theorem parts_held {env : Env} {o : Obj} {w : Val} (hw : w ∈ parts env o) : w ∈ held o := by
  cases o with
  | dict d => exact hw
  | list l => exact hw
  | elem c f =>
    obtain ⟨p, hp, rfl⟩ := List.mem_map.1 hw
    exact List.mem_map.2 ⟨p, (List.mem_filter.1 hp).1, rfl⟩
  | pile c f l n =>
    obtain ⟨p, hp, rfl⟩ := List.mem_map.1 hw
    exact List.mem_append.2 (Or.inl (List.mem_append.2 (Or.inl (List.mem_map.2 ⟨p, (List.mem_filter.1 hp).1, rfl⟩))))
  | other c f => exact nomatch hw
theorem Whole.plain {env : Env} {h : Heap} {v : Val} (hp : Whole h v) : Plain env h v := by
  obtain ⟨S, hv, hS⟩ := hp
  refine ⟨S, hv, fun a ha => ?_⟩
  obtain ⟨o, ho, h1, h2⟩ := hS a ha
  exact ⟨o, ho, h1, fun w hw => h2 w (parts_held hw)⟩
theorem whole_none {h : Heap} : Whole h .none := ⟨fun _ => False, (fun b hb => nomatch hb), fun _ ha => ha.elim⟩

/-- What is assumed of the recursive call. -/
def SelfSep (env : Env) (self : Self) : Prop := ∀ o, o.contentSer = none → (∀ v, Grows (self o v)) ∧
  ∀ v h h' x, Ready env o (Whole h v) → self o v h = (h', .ok x) → Sep h h' [x]

theorem eachSelf_sep {env : Env} {self : Self} (hs : SelfSep env self) {o : Opts} (ho : o.contentSer = none) (l : List Val) : ∀ h h' ws,
    (∀ v ∈ l, Ready env o (Whole h v)) → each (self o) l h = (h', .ok ws) → Sep h h' ws := by
  induction l with
  | nil => intro h h' ws _ hr; cases hr; exact sep_nil
  | cons v l ih =>
    intro h h' ws hp hr
    obtain ⟨h1, w, hw, hr⟩ := andThen_ok hr
    obtain ⟨h2, ws', hws, hr⟩ := andThen_ok hr
    obtain ⟨rfl, rfl⟩ := ret_ok hr
    have k1 := ((hs o ho).1 v).ok hw
    exact sep_cons ((hs o ho).2 v h h1 w (hp v (List.mem_cons_self ..)) hw) ((each_grows (hs o ho).1 l).ok hws)
      (ih h1 _ ws' (fun u hu hm => ⟨(hp u (List.mem_cons_of_mem _ hu) hm).1, (hp u (List.mem_cons_of_mem _ hu) hm).2.mono k1⟩) hws) k1

theorem elementTo_grows {env : Env} (he : TameEnv env) (c : String) (f : Dict String Val) (o : Opts) : Grows (elementTo env c f o) :=
  fun h => (elementTo_tri (h0 := h) he c f o h (Keeps.refl h) trivial).1

theorem pileTo_sep {env : Env} (he : TameEnv env) {self : Self} (hs : SelfSep env self) {c : String} {f : Dict String Val} {l : List Val} {n : Val} {o : Opts}
    {h h' : Heap} {a : Nat} (hf : Ready env o (FieldsPlain env h c f)) (hl : ∀ v ∈ l, Ready env o (Whole h v)) (hr : pileTo env self c f l n o h = (h', .ok a)) :
    Sep h h' [.ref a] := by
  obtain ⟨h1, b, hb, hr⟩ := andThen_ok hr
  obtain ⟨h2, u, hu, hr⟩ := andThen_ok hr
  obtain ⟨h3, ws, hws, hr⟩ := andThen_ok hr
  obtain ⟨h4, q, hq, hr⟩ := andThen_ok hr
  obtain ⟨h5, u', hu', hr⟩ := andThen_ok hr
  obtain ⟨rfl, rfl⟩ := ret_ok hr
  have k12 : Keeps h h2 := by
    have h6 := elementTo_tri (h0 := h) he c f o h (Keeps.refl h) trivial
    rw [hb] at h6
    have h7 := (nameInto_tri (h0 := h) a (actualKey o) n h1 h6.1 (h6.2 a rfl)).1
    rw [hu] at h7; exact h7
  have s2 : Sep h h2 [.ref a] := by
    obtain ⟨S, hS, hv⟩ := elementTo_sep he hf hb
    refine ⟨S, ?_, hv⟩
    cases n with
    | str s =>
      simp only [nameInto] at hu
      split at hu
      · obtain ⟨rfl, -⟩ := ret_ok hu; exact hS
      · exact setIn_sep hS (hv _ (List.mem_singleton.2 rfl) a rfl) hu
    | _ => cases hu; exact hS
  have hio : (itemOpts o).mode = .python → o.mode = .python := by
    simp only [itemOpts]; cases o.mode <;> simp
  have k3 := (each_grows (hs (itemOpts o) rfl).1 l).ok hws
  have s3 : Sep h h3 ws := (eachSelf_sep hs (o := itemOpts o) rfl l h2 h3 ws (fun v hv hm => ⟨(hl v hv (hio hm)).1, (hl v hv (hio hm)).2.mono k12⟩) hws).old k12.1
  have hq' : h4 = h3 ++ [.list ws] ∧ q = h3.length := by cases hq; exact ⟨rfl, rfl⟩
  obtain ⟨rfl, rfl⟩ := hq'
  have k4 : Keeps h3 (h3 ++ [.list ws]) := keeps_append (Keeps.refl h3) _
  have s4 : Sep h (h3 ++ [.list ws]) [.ref h3.length] := Sep.new (o := .list ws) s3 (Nat.le_trans k12.1 k3.1)
  obtain ⟨S, hS, hv⟩ := (s2.mono (k3.trans k4)).append s4
  exact ⟨S, setKey_sep hS (hv _ (by simp) a rfl) (hv _ (by simp)) hu', fun v hv' => hv v (List.mem_append.2 (Or.inl hv'))⟩

theorem part_sep {env : Env} {self : Self} (hs : SelfSep env self) {po : Opts} (hpo : po.contentSer = none) {f : Dict String Val} {h0 h h' : Heap} {a : Nat} {k : String}
    (hk : Keeps h0 h) (hw : Ready env po (Whole h ((f.get? k).getD .none))) (hS : Sep h0 h [.ref a]) (hr : part self po f a k h = (h', .ok ())) : Sep h0 h' [.ref a] := by
  obtain ⟨h1, x, hx, hr⟩ := andThen_ok hr
  have k1 := ((hs po hpo).1 _).ok hx
  have s1 := ((hs po hpo).2 _ h h1 x hw hx).old hk.1
  obtain ⟨S, hS, hv⟩ := (hS.mono k1).append s1
  exact ⟨S, setKey_sep hS (hv _ (by simp) a rfl) (hv _ (by simp)) hr, fun v hv' => hv v (List.mem_append.2 (Or.inl hv'))⟩

theorem part_keeps {env : Env} {self : Self} (hs : SelfSep env self) {po : Opts} (hpo : po.contentSer = none) {f : Dict String Val} {h0 h h' : Heap} {a : Nat} {k : String}
    (hk : Keeps h0 h) (ha : h0.length ≤ a) (hr : part self po f a k h = (h', .ok ())) : Keeps h0 h' := by
  obtain ⟨h1, x, hx, hr⟩ := andThen_ok hr
  have k1 := hk.trans (((hs po hpo).1 _).ok hx)
  have := (setKey_tri (h0 := h0) a k x h1 k1 ha).1
  rw [hr] at this; exact this

theorem partsTo_sep {env : Env} (he : TameEnv env) {self : Self} (hs : SelfSep env self) {c : String} {f : Dict String Val} {o po : Opts} (hpo : po.contentSer = none)
    (hm : po.mode = o.mode) {k1 k2 : String} {h h' : Heap} {a : Nat} (hf : Ready env o (FieldsPlain env h c f))
    (hw : ∀ k, Ready env o (Whole h ((f.get? k).getD .none))) (hr : partsTo env self c f o po k1 k2 h = (h', .ok a)) : Sep h h' [.ref a] := by
  obtain ⟨h1, b, hb, hr⟩ := andThen_ok hr
  obtain ⟨h2, u, hu, hr⟩ := andThen_ok hr
  obtain ⟨h3, u', hu', hr⟩ := andThen_ok hr
  obtain ⟨rfl, rfl⟩ := ret_ok hr
  have s1 := elementTo_sep he (o := { o with exclude := k1 :: k2 :: o.exclude }) hf hb
  have kk1 : Keeps h h1 := (elementTo_grows he c f _).ok hb
  have hw' : ∀ {g : Heap} k, Keeps h g → Ready env po (Whole g ((f.get? k).getD .none)) := fun k hk hpm => ⟨(hw k (hm ▸ hpm)).1, (hw k (hm ▸ hpm)).2.mono hk⟩
  have s2 := part_sep hs hpo kk1 (hw' k1 kk1) s1 hu
  have ha : h.length ≤ a := by
    obtain ⟨S, hS, hv⟩ := s1
    exact (hS a (hv _ (List.mem_singleton.2 rfl) a rfl)).1
  have kk2 := part_keeps hs hpo kk1 ha hu
  exact part_sep hs hpo kk2 (hw' k2 kk2) s2 hu'

theorem whole_get {h : Heap} {a : Nat} {o : Obj} {f : Dict String Val} (hp : Whole h (.ref a)) (ho : h[a]? = some o) (hf : ∀ w ∈ f.map Prod.snd, w ∈ held o) (k : String) :
    Whole h ((f.get? k).getD .none) := by
  cases hg : f.get? k with
  | none => exact whole_none
  | some w => exact whole_held hp ho (hf w (vals_get hg))

theorem elem_sep {env : Env} (he : TameEnv env) {self : Self} (hs : SelfSep env self) {c : String} {f : Dict String Val} {o : Opts} (hoc : o.contentSer = none)
    {h h' : Heap} {a : Nat} (hf : Ready env o (FieldsPlain env h c f)) (hw : ∀ k, Ready env o (Whole h ((f.get? k).getD .none)))
    (ha : toObj env self o (some (.elem c f)) h = (h', .ok a)) : Sep h h' [.ref a] := by
  simp only [toObj] at ha
  cases hk : env.kind c with
  | node =>
    simp only [hk, nodeTo, hoc] at ha
    exact elementTo_sep he hf ha
  | graph =>
    simp only [hk, graphTo] at ha
    refine partsTo_sep he hs ?_ ?_ hf hw ha <;> rfl
  | flow =>
    simp only [hk, flowTo] at ha
    refine partsTo_sep he hs ?_ ?_ hf hw ha <;> rfl
  | element => simp only [hk] at ha; exact elementTo_sep he hf ha
  | pile => simp only [hk] at ha; exact elementTo_sep he hf ha

theorem toObj_sep {env : Env} (he : TameEnv env) {self : Self} (hs : SelfSep env self) {o : Opts} (hoc : o.contentSer = none) {h h' : Heap} {a b : Nat} {ob : Obj}
    (hob : h[b]? = some ob) (hp : Ready env o (Whole h (.ref b))) (ha : toObj env self o (some ob) h = (h', .ok a)) : Sep h h' [.ref a] := by
  cases ob with
  | elem c f =>
    refine elem_sep he hs hoc (fun hm => ⟨(hp hm).1, fun k w hmem _ => ?_⟩) (fun k hm => ⟨(hp hm).1, whole_get (hp hm).2 hob (fun w hw => hw) k⟩) ha
    exact (whole_held (hp hm).2 hob (List.mem_map.2 ⟨(k, w), hmem, rfl⟩)).plain
  | pile c f l m =>
    simp only [toObj] at ha
    refine pileTo_sep he hs (fun hm => ⟨(hp hm).1, fun k w hmem _ => ?_⟩) (fun w hw hm => ⟨(hp hm).1, ?_⟩) ha
    · exact (whole_held (hp hm).2 hob (List.mem_append.2 (Or.inl (List.mem_append.2 (Or.inl (List.mem_map.2 ⟨(k, w), hmem, rfl⟩)))))).plain
    · exact whole_held (hp hm).2 hob (List.mem_append.2 (Or.inl (List.mem_append.2 (Or.inr hw))))
  | dict d => cases ha
  | list d => cases ha
  | other c f => cases ha

theorem toDict_sep {env : Env} (he : TameEnv env) (n : Nat) : SelfSep env (toDict env n) := by
  induction n with
  | zero => exact fun o _ => ⟨fun v h => Keeps.refl h, fun v h h' x _ hr => by simp only [toDict] at hr; cases hr⟩
  | succ n ih =>
    intro o hoc
    refine ⟨fun v h => (toDict_tri (h0 := h) he (n + 1) o (fun g hg => by rw [hoc] at hg; cases hg) v h (Keeps.refl h) trivial).1, ?_⟩
    intro v h h' x hp hr
    simp only [toDict] at hr
    obtain ⟨h1, ob, ho, hr⟩ := andThen_ok hr
    obtain ⟨rfl, rfl⟩ := look_ok ho
    obtain ⟨h2, a, ha, hr⟩ := andThen_ok hr
    obtain ⟨rfl, rfl⟩ := ret_ok hr
    cases v with
    | ref b =>
      simp only [objOf] at ha
      cases hob : h1[b]? with
      | none => rw [hob] at ha; cases ha
      | some ob => rw [hob] at ha; exact toObj_sep he ih hoc hob hp ha
    | none => simp only [objOf, toObj] at ha; cases ha
    | str s => simp only [objOf, toObj] at ha; cases ha
    | int i => simp only [objOf, toObj] at ha; cases ha

/-- C306 in the modes `json` and `db`, without a content serializer: nothing that can be reached from the returned dict was there before. -/
theorem C306_text (env : Env) (he : TameEnv env) (n : Nat) (o : Opts) (hc : o.contentSer = none) (hm : o.mode ≠ .python) (v : Val) (h h' : Heap) (x : Val)
    (hr : toDict env n o v h = (h', .ok x)) (a : Nat) (ha : Reach h' x a) : h.length ≤ a :=
  ((toDict_sep he n o hc).2 v h h' x (fun hp => absurd hp hm) hr).reach ha

theorem reach_trans {h : Heap} {v : Val} {a b : Nat} {o : Obj} {w : Val} (h1 : Reach h v a) (ho : h[a]? = some o) (hw : w ∈ held o) (h2 : Reach h w b) : Reach h v b := by
  induction h1 with
  | here a => exact Reach.into _ _ _ _ ho hw h2
  | into a c p u hp hu _ ih => exact Reach.into _ _ _ _ hp hu (ih ho)

/-- C306 in every mode, without a content serializer, for data that consist of dicts, lists, elements and piles: nothing that can be reached from the returned dict was there
before. -/
theorem C306_plain_partial (env : Env) (he : TameEnv env) (hs : SerPlain env) (n : Nat) (o : Opts) (hc : o.contentSer = none) (h : Heap) (hcl : Closed h) (p : Nat)
    (hp : p < h.length) (hno : ∀ a c f, Reach h (.ref p) a → h[a]? ≠ some (.other c f)) (h' : Heap) (x : Val)
    (hr : toDict env n o (.ref p) h = (h', .ok x)) (a : Nat) (ha : Reach h' x a) : h.length ≤ a := by
  refine ((toDict_sep he n o hc).2 _ h h' x (fun _ => ⟨hs, fun a => Reach h (.ref p) a, ?_, ?_⟩) hr).reach ha
  · intro b hb; cases hb; exact Reach.here p
  · intro b hb
    have hlt : b < h.length := by
      have : ∀ v b, Reach h v b → (∀ c, v = .ref c → c < h.length) → b < h.length := by
        intro v b hr
        induction hr with
        | here a => exact fun hv => hv a rfl
        | into a c o w ho hw _ ih => exact fun _ => ih fun d hd => hcl a o ho d (hd ▸ hw)
      exact this _ b hb fun c hc => by cases hc; exact hp
    refine ⟨h[b], List.getElem?_eq_getElem hlt, ?_, fun w hw d hd => ?_⟩
    · cases hob : h[b] with
      | other c f => exact absurd (by rw [List.getElem?_eq_getElem hlt, hob]) (hno b c f hb)
      | _ => rfl
    · subst hd
      exact reach_trans hb (List.getElem?_eq_getElem hlt) hw (Reach.here d)

/-- So writing to anything that can be reached from the dict leaves the element alone. -/
theorem C306_independent_partial (env : Env) (he : TameEnv env) (hs : SerPlain env) (n : Nat) (o : Opts) (hc : o.contentSer = none) (h : Heap) (hcl : Closed h) (p : Nat)
    (hp : p < h.length) (hno : ∀ a c f, Reach h (.ref p) a → h[a]? ≠ some (.other c f)) (h' : Heap) (x : Val)
    (hr : toDict env n o (.ref p) h = (h', .ok x)) (a : Nat) (ha : Reach h' x a) (ob : Obj) : ∀ b, b < h.length → (h'.set a ob)[b]? = h[b]? := by
  intro b hb
  have h1 := C306_plain_partial env he hs n o hc h hcl p hp hno h' x hr a ha
  have h2 := ((toDict_sep he n o hc).1 (.ref p)).ok hr
  rw [List.getElem?_set_ne (by omega)]
  exact h2.2 b hb

/-- `model_dump` meets an object of another class. -/
inductive Leaks (env : Env) (h : Heap) : Val → Prop where
  | here (a : Nat) (c : String) (f : Dict String Val) : h[a]? = some (.other c f) → Leaks env h (.ref a)
  | into (a : Nat) (o : Obj) (w : Val) : h[a]? = some o → w ∈ parts env o → Leaks env h w → Leaks env h (.ref a)

theorem reach_keeps {h h' : Heap} {v : Val} {a : Nat} (hr : Reach h v a) (hk : Keeps h h') : Reach h' v a := by
  induction hr with
  | here a => exact Reach.here a
  | into a b o w ho hw _ ih => exact Reach.into a b o w (by rw [hk.2 a (List.getElem?_eq_some_iff.1 ho).1]; exact ho) hw ih
theorem reach_set {h : Heap} {v : Val} {a b : Nat} {o o' : Obj} (hr : Reach h v a) (hb : h[b]? = some o) (hs : ∀ w ∈ held o, w ∈ held o') : Reach (h.set b o') v a := by
  induction hr with
  | here a => exact Reach.here a
  | into c d p w hp hw _ ih =>
    by_cases hbc : b = c
    · subst hbc
      rw [hb] at hp; cases hp
      exact Reach.into b d o' w (by rw [List.getElem?_set_self (List.getElem?_eq_some_iff.1 hb).1]) (hs w hw) ih
    · exact Reach.into c d p w (by rw [List.getElem?_set_ne hbc]; exact hp) hw ih

theorem each_mem {go : Val → M Val} (hg : ∀ v, Grows (go v)) (l : List Val) : ∀ h h' ws, each go l h = (h', .ok ws) → ∀ v ∈ l,
    ∃ h1 h2 w, Keeps h h1 ∧ go v h1 = (h2, .ok w) ∧ Keeps h2 h' ∧ w ∈ ws := by
  induction l with
  | nil => intro h h' ws _ v hv; cases hv
  | cons u l ih =>
    intro h h' ws hr v hv
    obtain ⟨h1, w, hw, hr⟩ := andThen_ok hr
    obtain ⟨h2, ws', hws, hr⟩ := andThen_ok hr
    obtain ⟨rfl, rfl⟩ := ret_ok hr
    rcases List.mem_cons.1 hv with rfl | hv
    · exact ⟨h, h1, w, Keeps.refl h, hw, (each_grows hg l).ok hws, List.mem_cons_self ..⟩
    · obtain ⟨g1, g2, w', h3, h4, h5, h6⟩ := ih _ _ _ hws v hv
      exact ⟨g1, g2, w', ((hg u).ok hw).trans h3, h4, h5, List.mem_cons_of_mem _ h6⟩
theorem eachEntry_mem {go : Val → M Val} (hg : ∀ v, Grows (go v)) (d : Dict String Val) : ∀ h h' ws, eachEntry go d h = (h', .ok ws) → ∀ v ∈ d.map Prod.snd,
    ∃ h1 h2 w, Keeps h h1 ∧ go v h1 = (h2, .ok w) ∧ Keeps h2 h' ∧ w ∈ ws.map Prod.snd := by
  induction d with
  | nil => intro h h' ws _ v hv; cases hv
  | cons p d ih =>
    obtain ⟨k, u⟩ := p
    intro h h' ws hr v hv
    obtain ⟨h1, w, hw, hr⟩ := andThen_ok hr
    obtain ⟨h2, ws', hws, hr⟩ := andThen_ok hr
    obtain ⟨rfl, rfl⟩ := ret_ok hr
    rcases List.mem_cons.1 hv with rfl | hv
    · exact ⟨h, h1, w, Keeps.refl h, hw, (eachEntry_grows hg d).ok hws, List.mem_cons_self ..⟩
    · obtain ⟨g1, g2, w', h3, h4, h5, h6⟩ := ih _ _ _ hws v hv
      exact ⟨g1, g2, w', ((hg u).ok hw).trans h3, h4, h5, List.mem_cons_of_mem _ h6⟩
theorem eachEntry_keys {go : Val → M Val} (d : Dict String Val) : ∀ h h' ws, eachEntry go d h = (h', .ok ws) → Dict.keys ws = d.keys := by
  induction d with
  | nil => intro h h' ws hr; cases hr; rfl
  | cons p d ih =>
    obtain ⟨k, u⟩ := p
    intro h h' ws hr
    obtain ⟨h1, w, hw, hr⟩ := andThen_ok hr
    obtain ⟨h2, ws', hws, hr⟩ := andThen_ok hr
    obtain ⟨rfl, rfl⟩ := ret_ok hr
    simp [ih _ _ _ hws]
theorem serOf_none {env : Env} {c k : String} (hn : env.ser c k = none) (v : Val) : serOf env c k v = ret v := by simp only [serOf, hn]
theorem eachField_mem {env : Env} (he : TameEnv env) {go : Val → M Val} (hg : ∀ v, Grows (go v)) (c : String) (d : Dict String Val) : ∀ h h' ws,
    eachField env go c d h = (h', .ok ws) → ∀ k v, (k, v) ∈ d → env.ser c k = none →
    ∃ h1 h2 w, Keeps h h1 ∧ go v h1 = (h2, .ok w) ∧ Keeps h2 h' ∧ w ∈ ws.map Prod.snd := by
  induction d with
  | nil => intro h h' ws _ k v hv; cases hv
  | cons p d ih =>
    obtain ⟨k', u⟩ := p
    intro h h' ws hr k v hv hn
    obtain ⟨h1, y, hy, hr⟩ := andThen_ok hr
    obtain ⟨h2, w, hw, hr⟩ := andThen_ok hr
    obtain ⟨h3, ws', hws, hr⟩ := andThen_ok hr
    obtain ⟨rfl, rfl⟩ := ret_ok hr
    rcases List.mem_cons.1 hv with hkv | hv
    · cases hkv
      rw [serOf_none hn] at hy
      obtain ⟨rfl, rfl⟩ := ret_ok hy
      exact ⟨_, h2, w, Keeps.refl _, hw, (eachField_grows he hg c d).ok hws, List.mem_cons_self ..⟩
    · obtain ⟨g1, g2, w', h3, h4, h5, h6⟩ := ih _ _ _ hws k v hv hn
      exact ⟨g1, g2, w', (((serOf_grows he c k' u).ok hy).trans ((hg y).ok hw)).trans h3, h4, h5, List.mem_cons_of_mem _ h6⟩
theorem eachField_get {env : Env} (he : TameEnv env) {go : Val → M Val} (hg : ∀ v, Grows (go v)) (c : String) (d : Dict String Val) : ∀ h h' ws,
    eachField env go c d h = (h', .ok ws) → ∀ k v, d.get? k = some v → env.ser c k = none →
    ∃ h1 h2 w, Keeps h h1 ∧ go v h1 = (h2, .ok w) ∧ Keeps h2 h' ∧ Dict.get? ws k = some w := by
  induction d with
  | nil => intro h h' ws _ k v hv; cases hv
  | cons p d ih =>
    obtain ⟨k', u⟩ := p
    intro h h' ws hr k v hv hn
    obtain ⟨h1, y, hy, hr⟩ := andThen_ok hr
    obtain ⟨h2, w, hw, hr⟩ := andThen_ok hr
    obtain ⟨h3, ws', hws, hr⟩ := andThen_ok hr
    obtain ⟨rfl, rfl⟩ := ret_ok hr
    rw [Dict.get?_cons] at hv
    split at hv
    · rename_i hkk
      cases hv
      subst hkk
      rw [serOf_none hn] at hy
      obtain ⟨rfl, rfl⟩ := ret_ok hy
      exact ⟨_, h2, w, Keeps.refl _, hw, (eachField_grows he hg c d).ok hws, by rw [Dict.get?_cons, if_pos rfl]⟩
    · rename_i hkk
      obtain ⟨g1, g2, w', h3, h4, h5, h6⟩ := ih _ _ _ hws k v hv hn
      exact ⟨g1, g2, w', (((serOf_grows he c k' u).ok hy).trans ((hg y).ok hw)).trans h3, h4, h5, by rw [Dict.get?_cons, if_neg hkk]; exact h6⟩

theorem reach_newDict {h1 h' : Heap} {es : Dict String Val} {x w : Val} {b : Nat} (hw : w ∈ es.map Prod.snd) (hb : Reach h1 w b)
    (hr : andThen (new (.dict es)) (fun a => ret (.ref a)) h1 = (h', .ok x)) : Reach h' x b := by
  obtain ⟨rfl, rfl⟩ := newRef_ok hr
  exact Reach.into _ _ (.dict es) w (by simp) hw (reach_keeps hb (keeps_append (Keeps.refl h1) _))

theorem dump_leaks {env : Env} (he : TameEnv env) {h0 : Heap} {v : Val} (hl : Leaks env h0 v) : ∀ n h h' x, Keeps h0 h → dump env n v h = (h', .ok x) →
    ∃ a, a < h0.length ∧ Reach h' x a := by
  induction hl with
  | here a c f ha =>
    intro n h h' x hk hr
    have hlt := (List.getElem?_eq_some_iff.1 ha).1
    have hx : x = .ref a := by
      cases n with
      | zero =>
        simp only [dump] at hr
        obtain ⟨h1, o, ho, hr⟩ := andThen_ok hr
        obtain ⟨rfl, rfl⟩ := look_ok ho
        simp only [objOf, hk.2 a hlt, ha, leaf, if_true] at hr
        exact (ret_ok hr).2
      | succ n =>
        simp only [dump] at hr
        obtain ⟨h1, o, ho, hr⟩ := andThen_ok hr
        obtain ⟨rfl, rfl⟩ := look_ok ho
        simp only [objOf, hk.2 a hlt, ha, dumpObj] at hr
        exact (ret_ok hr).2
    exact ⟨a, hlt, hx ▸ Reach.here a⟩
  | into a o w ho hw _ ih =>
    intro n h h' x hk hr
    have hlt := (List.getElem?_eq_some_iff.1 ho).1
    cases n with
    | zero =>
      simp only [dump] at hr
      obtain ⟨h1, o', ho', hr⟩ := andThen_ok hr
      obtain ⟨rfl, rfl⟩ := look_ok ho'
      simp only [objOf, hk.2 a hlt, ho] at hr
      cases o with
      | other c f => exact nomatch hw
      | _ => cases hr
    | succ n =>
      simp only [dump] at hr
      obtain ⟨h1, o', ho', hr⟩ := andThen_ok hr
      obtain ⟨rfl, rfl⟩ := look_ok ho'
      simp only [objOf, hk.2 a hlt, ho] at hr
      cases o with
      | dict d =>
        simp only [dumpObj] at hr
        obtain ⟨h2, es, hes, hr⟩ := andThen_ok hr
        obtain ⟨g1, g2, w', k1, k2, k3, k4⟩ := eachEntry_mem (dump_grows he n) d _ _ _ hes w hw
        obtain ⟨b, hb, hre⟩ := ih n g1 g2 w' (hk.trans k1) k2
        exact ⟨b, hb, reach_newDict k4 (reach_keeps hre k3) hr⟩
      | list l =>
        simp only [dumpObj] at hr
        obtain ⟨h2, es, hes, hr⟩ := andThen_ok hr
        obtain ⟨g1, g2, w', k1, k2, k3, k4⟩ := each_mem (dump_grows he n) l _ _ _ hes w hw
        obtain ⟨b, hb, hre⟩ := ih n g1 g2 w' (hk.trans k1) k2
        obtain ⟨rfl, rfl⟩ := newRef_ok hr
        exact ⟨b, hb, Reach.into _ _ (.list es) w' (by simp) k4 (reach_keeps (reach_keeps hre k3) (keeps_append (Keeps.refl h2) _))⟩
      | elem c f =>
        simp only [dumpObj] at hr
        obtain ⟨h2, es, hes, hr⟩ := andThen_ok hr
        obtain ⟨⟨k, u⟩, hm, rfl⟩ := List.mem_map.1 hw
        obtain ⟨hm1, hm2⟩ := List.mem_filter.1 hm
        obtain ⟨g1, g2, w', k1, k2, k3, k4⟩ := eachField_mem he (dump_grows he n) c f _ _ _ hes k u hm1 (by simpa using hm2)
        obtain ⟨b, hb, hre⟩ := ih n g1 g2 w' (hk.trans k1) k2
        exact ⟨b, hb, reach_newDict k4 (reach_keeps hre k3) hr⟩
      | pile c f l m =>
        simp only [dumpObj] at hr
        obtain ⟨h2, es, hes, hr⟩ := andThen_ok hr
        obtain ⟨⟨k, u⟩, hm, rfl⟩ := List.mem_map.1 hw
        obtain ⟨hm1, hm2⟩ := List.mem_filter.1 hm
        obtain ⟨g1, g2, w', k1, k2, k3, k4⟩ := eachField_mem he (dump_grows he n) c f _ _ _ hes k u hm1 (by simpa using hm2)
        obtain ⟨b, hb, hre⟩ := ih n g1 g2 w' (hk.trans k1) k2
        exact ⟨b, hb, reach_newDict k4 (reach_keeps hre k3) hr⟩
      | other c f => exact nomatch hw

/-- The copy of a dict has its keys. -/
theorem dump_dict {env : Env} {n : Nat} {q : Nat} {h h' : Heap} {md : Dict String Val} {x : Val} (hq : h[q]? = some (.dict md))
    (hr : dump env n (.ref q) h = (h', .ok x)) : ∃ m dd, x = .ref m ∧ h'[m]? = some (.dict dd) ∧ Dict.keys dd = md.keys := by
  cases n with
  | zero =>
    simp only [dump] at hr
    obtain ⟨h1, o', ho', hr⟩ := andThen_ok hr
    obtain ⟨rfl, rfl⟩ := look_ok ho'
    simp only [objOf, hq, leaf] at hr
    cases hr
  | succ n =>
    simp only [dump] at hr
    obtain ⟨h1, o', ho', hr⟩ := andThen_ok hr
    obtain ⟨rfl, rfl⟩ := look_ok ho'
    simp only [objOf, hq, dumpObj] at hr
    obtain ⟨h2, es, hes, hr⟩ := andThen_ok hr
    obtain ⟨rfl, rfl⟩ := newRef_ok hr
    exact ⟨_, es, rfl, by simp, eachEntry_keys md _ _ _ hes⟩

theorem vals_set_new {d : Dict String Val} {k : String} {w : Val} (hk : k ∉ d.keys) : ∀ v ∈ d.map Prod.snd, v ∈ (d.set k w).map Prod.snd := by
  intro v hv
  rw [Dict.set_of_notMem w hk, List.map_append]
  exact List.mem_append.2 (Or.inl hv)

theorem selected_nil (f : Dict String Val) : selected [] f = f := by simp [selected]

/-- C306, exactly, for elements without a `to_dict` of their own in mode python: the returned dict shares an object with what was there before exactly if `model_dump` meets an
object of a class it does not know. -/
theorem C306_exact_partial (env : Env) (he : TameEnv env) (hs : SerPlain env) (n : Nat) (h : Heap) (hcl : Closed h) (p q : Nat) (c : String) (f md : Dict String Val)
    (hp : h[p]? = some (.elem c f)) (hkind : env.kind c = .element) (hq : f.get? "metadata" = some (.ref q)) (hmd : h[q]? = some (.dict md))
    (hno : "lion_class" ∉ md.keys) (hser : env.ser c "metadata" = none) (h' : Heap) (x : Val) (hr : toDict env (n + 1) {} (.ref p) h = (h', .ok x)) :
    (∃ a, a < h.length ∧ Reach h' x a) ↔ Leaks env h (.ref p) := by
  simp only [toDict] at hr
  obtain ⟨h1, ob, ho, hr⟩ := andThen_ok hr
  obtain ⟨rfl, rfl⟩ := look_ok ho
  obtain ⟨h2, a, ha, hr⟩ := andThen_ok hr
  obtain ⟨rfl, rfl⟩ := ret_ok hr
  simp only [objOf, hp, toObj, hkind] at ha
  constructor
  · rintro ⟨b, hb, hre⟩
    apply Classical.byContradiction
    intro hnl
    have hplain : ∀ w, (∀ d, w = .ref d → d < h1.length) → ¬ Leaks env h1 w → Plain env h1 w := by
      intro w hw hwl
      refine ⟨fun d => d < h1.length ∧ ¬ Leaks env h1 (.ref d), fun d hd => ⟨hw d hd, hd ▸ hwl⟩, fun d hd => ?_⟩
      refine ⟨h1[d]'hd.1, List.getElem?_eq_getElem hd.1, ?_, fun u hu e heq => ?_⟩
      · cases hob : h1[d]'hd.1 with
        | other c f => exact absurd (Leaks.here d c f (by rw [List.getElem?_eq_getElem hd.1, hob])) hd.2
        | _ => rfl
      · subst heq
        exact ⟨hcl d _ (List.getElem?_eq_getElem hd.1) e (parts_held hu), fun hl => hd.2 (Leaks.into d _ _ (List.getElem?_eq_getElem hd.1) hu hl)⟩
    have hsep := elementTo_sep he (o := {}) (fun _ => ⟨hs, fun k v hm hn => hplain v (fun d hd => hcl p _ hp d (hd ▸ List.mem_map.2 ⟨(k, v), hm, rfl⟩))
      (fun hl => hnl (Leaks.into p _ v hp (mem_parts_field hm hn) hl))⟩) ha
    exact absurd (hsep.reach hre) (by omega)
  · intro hl
    obtain ⟨w, hw, hlw⟩ : ∃ w, w ∈ parts env (.elem c f) ∧ Leaks env h1 w := by
      cases hl with
      | here _ c' f' ha => rw [hp] at ha; cases ha
      | into _ o w ho hw hlw => rw [hp] at ho; cases ho; exact ⟨w, hw, hlw⟩
    obtain ⟨⟨k, u⟩, hm, rfl⟩ := List.mem_map.1 hw
    obtain ⟨hm1, hm2⟩ := List.mem_filter.1 hm
    obtain ⟨g2, a', hb, ha⟩ := andThen_ok ha
    obtain ⟨g3, u3, hadj, ha⟩ := andThen_ok ha
    obtain ⟨rfl, rfl⟩ := ret_ok ha
    simp only [raw, base] at hb
    obtain ⟨g4, a', hmd', hb⟩ := andThen_ok hb
    obtain ⟨g5, u5, hset, hb⟩ := andThen_ok hb
    obtain ⟨rfl, rfl⟩ := ret_ok hb
    simp only [modelDump, selected_nil] at hmd'
    obtain ⟨g6, es, hes, hnew⟩ := andThen_ok hmd'
    obtain ⟨e1, e2, w', k1, k2, k3, k4⟩ := eachField_mem he (dump_grows he env.limit) c f _ _ _ hes k u hm1 (by simpa using hm2)
    obtain ⟨b, hblt, hre⟩ := dump_leaks he hlw _ _ _ _ k1 k2
    obtain ⟨d1, d2, wm, l1, l2, l3, l4⟩ := eachField_get he (dump_grows he env.limit) c f _ _ _ hes "metadata" _ hq hser
    have hq1 : d1[q]? = some (.dict md) := by rw [l1.2 q (List.getElem?_eq_some_iff.1 hmd).1]; exact hmd
    obtain ⟨m, dd, rfl, hdd, hkeys⟩ := dump_dict hq1 l2
    have hnew' : g4 = g6 ++ [.dict es] ∧ a = g6.length := by cases hnew; exact ⟨rfl, rfl⟩
    obtain ⟨rfl, rfl⟩ := hnew'
    have hm6 : g6[m]? = some (.dict dd) := by rw [l3.2 m (List.getElem?_eq_some_iff.1 hdd).1]; exact hdd
    have hm4 : (g6 ++ [Obj.dict es])[m]? = some (.dict dd) := by rw [List.getElem?_append_left (List.getElem?_eq_some_iff.1 hm6).1]; exact hm6
    have ha4 : (g6 ++ [Obj.dict es])[g6.length]? = some (.dict es) := by simp
    have r4 : Reach (g6 ++ [Obj.dict es]) (.ref g6.length) b :=
      Reach.into _ _ _ w' ha4 k4 (reach_keeps (reach_keeps hre k3) (keeps_append (Keeps.refl g6) _))
    obtain ⟨g7, o7, ho7, hset⟩ := andThen_ok hset
    obtain ⟨rfl, rfl⟩ := look_ok ho7
    rw [entriesD_data ha4] at hset
    simp only [l4, setEntry, hm4, entries] at hset
    have r5 : Reach g2 (.ref g6.length) b := by
      cases hset
      exact reach_set r4 hm4 (vals_set_new (by rw [hkeys]; exact hno))
    have ha2 : g2[g6.length]? = some (.dict es) := by
      cases hset
      have : m < g6.length := (List.getElem?_eq_some_iff.1 hm6).1
      rw [List.getElem?_set_ne (by omega)]; exact ha4
    obtain ⟨g8, o8, ho8, hadj⟩ := andThen_ok hadj
    obtain ⟨rfl, rfl⟩ := look_ok ho8
    rw [entriesD_data ha2] at hadj
    have hst : stamped env f {} es = .ok es := by
      simp only [stamped, format]
      split <;> rfl
    have hrn : renamed (keyFor {}) es = es := by
      simp [renamed, keyFor, l4]
    simp only [hst, hrn] at hadj
    cases hadj
    exact ⟨b, hblt, reach_set r5 ha2 fun w hw => hw⟩

/-- A class with one field serializer that returns its argument. -/
def demo : Env where
  kind := fun c => if c = "lib.Note" then .node else .element
  ser := fun c k => if c = "lib.Note" ∧ k = "content" then some (fun v => ret v) else none
  limit := 255
  text := fun _ _ => .ok [("id", .int 1), ("metadata", .dict [("tags", .list [.str "a"])])]
  time := fun _ _ => "t"

/-- A list, metadata that holds it, an element with this metadata; a socket, metadata that holds it, an element with that; a note with the list as content. -/
def demoH : Heap := [.list [.str "a"], .dict [("tags", .ref 0)], .elem "lib.Task" [("id", .int 1), ("metadata", .ref 1)],
  .other "socket" [], .dict [("conn", .ref 3)], .elem "lib.Task" [("id", .int 2), ("metadata", .ref 4)],
  .elem "lib.Note" [("content", .ref 0), ("metadata", .ref 1)]]

theorem demo_tame : TameEnv demo := by
  intro c k f hf
  simp only [demo] at hf
  split at hf
  · cases hf; exact fun v h => Keeps.refl h
  · cases hf

/-- C306 fails: an object of another class in the metadata is also in the dict, and so is what a content serializer returns, here the content itself, also in mode json. -/
theorem C306_violation :
    (∃ h' x a, toDict demo 5 {} (.ref 5) demoH = (h', .ok x) ∧ Reach h' x a ∧ Reach demoH (.ref 5) a) ∧
    ∃ h' x a, toDict demo 5 { mode := .json, contentSer := some fun v => ret v } (.ref 6) demoH = (h', .ok x) ∧ Reach h' x a ∧ Reach demoH (.ref 6) a := by
  refine ⟨⟨_, .ref 8, 3, rfl, ?_, ?_⟩, ⟨_, .ref 12, 0, rfl, ?_, ?_⟩⟩
  · exact Reach.into 8 3 _ (.ref 7) rfl (by decide) (Reach.into 7 3 _ (.ref 3) rfl (by decide) (Reach.here 3))
  · exact Reach.into 5 3 _ (.ref 4) rfl (by decide) (Reach.into 4 3 _ (.ref 3) rfl (by decide) (Reach.here 3))
  · exact Reach.into 12 0 _ (.ref 0) rfl (by decide) (Reach.here 0)
  · exact Reach.into 6 0 _ (.ref 0) rfl (by decide) (Reach.here 0)

/-- A library without field serializers. -/
def demo' : Env := { demo with ser := fun _ _ => none, kind := fun _ => .element }
/-- A list, metadata that holds it, an element with this metadata, and a named pile of this element. -/
def demoP : Heap := [.list [.str "a"], .dict [("tags", .ref 0)], .elem "lib.Task" [("id", .int 1), ("metadata", .ref 1)], .dict [],
  .pile "Pile" [("id", .int 3), ("metadata", .ref 3)] [.ref 2] (.str "main")]
theorem demo'_tame : TameEnv demo' := fun c k f hf => nomatch hf
theorem demo'_plain : SerPlain demo' := fun c k f hf => nomatch hf

theorem demoP_closed : Closed demoP := by
  intro a o ho b hb
  have : a < 5 := (List.getElem?_eq_some_iff.1 ho).1
  have h5 : a = 0 ∨ a = 1 ∨ a = 2 ∨ a = 3 ∨ a = 4 := by omega
  rcases h5 with rfl | rfl | rfl | rfl | rfl <;> cases ho <;> simp [held] at hb <;> simp [demoP] <;> omega

/-- Non-vacuity of C305: the serialised pile is a new object, in mode python and json; the note with its serializer also; and at too deep data the call raises. -/
example : (toDict demo' 5 {} (.ref 4) demoP).2 = .ok (.ref 6) ∧ (toDict demo' 5 { mode := .json } (.ref 4) demoP).2 = .ok (.ref 9) ∧
    (toDict demo 5 { contentSer := some fun v => ret v } (.ref 6) demoH).2 = .ok (.ref 9) ∧
    (toDict { demo' with limit := 1 } 5 {} (.ref 2) demoP).2 = .error .valueError := ⟨rfl, rfl, rfl, rfl⟩

example : ∀ a, a < demoH.length → (toDict demo 5 { contentSer := some fun v => ret v } (.ref 6) demoH).1[a]? = demoH[a]? :=
  (C305_unchanged demo demo_tame 5 _ (fun g hg => by cases hg; exact fun v h => Keeps.refl h) (.ref 6) demoH).1

/-- Non-vacuity of C306: the pile and everything in it is copied: the list of tags that the dict holds is a new one. -/
example : ∃ h' x, toDict demo' 5 {} (.ref 4) demoP = (h', .ok x) ∧ (∃ a, Reach h' x a ∧ h'[a]? = some (.list [.str "a"])) ∧ ∀ a, Reach h' x a → demoP.length ≤ a := by
  refine ⟨_, .ref 6, rfl, ⟨7, ?_, rfl⟩, ?_⟩
  · exact Reach.into 6 7 _ (.ref 10) rfl (by decide) (Reach.into 10 7 _ (.ref 9) rfl (by decide) (Reach.into 9 7 _ (.ref 8) rfl (by decide)
      (Reach.into 8 7 _ (.ref 7) rfl (by decide) (Reach.here 7))))
  · refine C306_plain_partial demo' demo'_tame demo'_plain 5 {} rfl demoP demoP_closed 4 (by decide) (fun a c f hr ho => ?_) _ (.ref 6) rfl
    have : a < 5 := (List.getElem?_eq_some_iff.1 ho).1
    have h5 : a = 0 ∨ a = 1 ∨ a = 2 ∨ a = 3 ∨ a = 4 := by omega
    rcases h5 with rfl | rfl | rfl | rfl | rfl <;> cases ho

/-- The two sides of the exact statement: the element with the socket shares it, the one with the list shares nothing. -/
example : Leaks demo' demoH (.ref 5) ∧ ¬ Leaks demo' demoP (.ref 2) := by
  refine ⟨Leaks.into 5 _ (.ref 4) rfl (by decide) (Leaks.into 4 _ (.ref 3) rfl (by decide) (Leaks.here 3 "socket" [] rfl)), ?_⟩
  have key : ∀ v, Leaks demo' demoP v → False := by
    intro v hl
    induction hl with
    | here a c f ho =>
      have : a < 5 := (List.getElem?_eq_some_iff.1 ho).1
      have h5 : a = 0 ∨ a = 1 ∨ a = 2 ∨ a = 3 ∨ a = 4 := by omega
      rcases h5 with rfl | rfl | rfl | rfl | rfl <;> cases ho
    | into a o w ho hw _ ih => exact ih
  exact key _

example : ∃ h' x, toDict demo' 5 {} (.ref 2) demoP = (h', .ok x) ∧ ((∃ a, a < demoP.length ∧ Reach h' x a) ↔ Leaks demo' demoP (.ref 2)) :=
  ⟨_, .ref 7, rfl, C306_exact_partial demo' demo'_tame demo'_plain 4 demoP demoP_closed 2 1 "lib.Task" _ [("tags", .ref 0)] rfl rfl rfl rfl (by decide) rfl _ _ rfl⟩

end Verif.DumpHeap
