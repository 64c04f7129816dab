import Verif.Model.DumpHeap
import Verif.Props.LoadHeap

/-!
# C305, C306: what `to_dict` does with the element it is called on
-/

set_option linter.unusedSectionVars false
set_option linter.unusedSimpArgs false
set_option linter.unusedVariables false

namespace Verif.DumpHeap

open LoadHeap

/-- A function that leaves existing objects alone. -/
def Tame (f : Val → M Val) : Prop := ∀ v h, Keeps h (f v h).1

/-- All field serializers leave existing objects alone. -/
def TameEnv (env : Env) : Prop := ∀ c k f, env.ser c k = some f → Tame f

/-- A value that is not a dict of the given heap. -/
def Safe (h0 : Heap) (x : Val) : Prop := ∀ b d, x = .ref b → h0[b]? ≠ some (.dict d)

theorem vals_set {d : Dict String Val} {k : String} {w v : Val} (hv : v ∈ (d.set k w).map Prod.snd) : v = w ∨ v ∈ d.map Prod.snd := by
  induction d with
  | nil => simp [Dict.set] at hv; exact Or.inl hv
  | cons p d ih =>
    obtain ⟨k', v'⟩ := p
    simp only [Dict.set] at hv
    split at hv
    · simp only [List.map_cons, List.mem_cons] at hv ⊢
      rcases hv with h | h
      · exact Or.inl h
      · exact Or.inr (Or.inr h)
    · simp only [List.map_cons, List.mem_cons] at hv ⊢
      rcases hv with h | h
      · exact Or.inr (Or.inl h)
      · rcases ih h with h | h
        · exact Or.inl h
        · exact Or.inr (Or.inr h)

theorem vals_del {d : Dict String Val} {k : String} {v : Val} (hv : v ∈ (d.del k).map Prod.snd) : v ∈ d.map Prod.snd := by
  induction d with
  | nil => simp [Dict.del] at hv
  | cons p d ih =>
    obtain ⟨k', v'⟩ := p
    simp only [Dict.del] at hv
    split at hv
    · exact List.mem_cons_of_mem _ hv
    · simp only [List.map_cons, List.mem_cons] at hv ⊢
      rcases hv with h | h
      · exact Or.inl h
      · exact Or.inr (ih h)

theorem vals_get {d : Dict String Val} {k : String} {v : Val} (hv : d.get? k = some v) : v ∈ d.map Prod.snd :=
  List.mem_map.2 ⟨(k, v), Dict.mem_of_get? hv, rfl⟩

theorem vals_stamped {env : Env} {f : Dict String Val} {o : Opts} {d d' : Dict String Val} (hs : stamped env f o d = .ok d') {v : Val}
    (hv : v ∈ d'.map Prod.snd) : (∃ s, v = .str s) ∨ v ∈ d.map Prod.snd := by
  have key : d' = d ∨ ∃ s, d' = d.set "created_at" (.str s) := by
    simp only [stamped] at hs
    split at hs
    · split at hs
      · split at hs <;> cases hs
        · exact Or.inr ⟨_, rfl⟩
        · exact Or.inl rfl
      · cases hs; exact Or.inr ⟨_, rfl⟩
      · split at hs <;> cases hs
        · exact Or.inr ⟨_, rfl⟩
        · exact Or.inl rfl
    · cases hs; exact Or.inl rfl
  rcases key with rfl | ⟨s, rfl⟩
  · exact Or.inr hv
  · rcases vals_set hv with h | h
    · exact Or.inl ⟨s, h⟩
    · exact Or.inr h

theorem vals_renamed {k : String} {d : Dict String Val} {v : Val} (hv : v ∈ (renamed k d).map Prod.snd) : v ∈ d.map Prod.snd := by
  simp only [renamed] at hv
  split at hv
  · exact hv
  · rename_i w hw
    split at hv
    · exact hv
    · rcases vals_set hv with h | h
      · rw [h]; exact vals_get hw
      · exact vals_del h

variable {h0 : Heap}

theorem safe_fr {a : Nat} (ha : h0.length ≤ a) : Safe h0 (.ref a) := by
  intro b d hb
  cases hb
  rw [List.getElem?_eq_none ha]; simp
theorem safe_str (s : String) : Safe h0 (.str s) := fun b d hb => nomatch hb

theorem tame_tri {f : Val → M Val} (hf : Tame f) (v : Val) (P : Heap → Prop) : Tri h0 P (f v) (fun _ _ => True) :=
  fun h hk _ => ⟨hk.trans (hf v h), fun _ _ => trivial⟩

theorem serOf_tri {env : Env} (he : TameEnv env) (c k : String) (v : Val) : Tri h0 (fun _ => True) (serOf env c k v) (fun _ _ => True) := by
  simp only [serOf]
  cases hs : env.ser c k with
  | none => exact tri_ret fun _ _ _ => trivial
  | some f => exact tame_tri (he c k f hs) v _

/-- All values are safe. -/
def AllSafe (h0 : Heap) (d : Dict String Val) : Prop := ∀ v ∈ d.map Prod.snd, Safe h0 v

theorem allSafe_cons {k : String} {w : Val} {d : Dict String Val} (hw : Safe h0 w) (hd : AllSafe h0 d) : AllSafe h0 ((k, w) :: d) := by
  intro v hv
  simp only [List.map_cons, List.mem_cons] at hv
  rcases hv with h | h
  · rw [h]; exact hw
  · exact hd v h

theorem eachEntry_tri {go : Val → M Val} (hg : ∀ v, Tri h0 (fun _ => True) (go v) (fun x _ => Safe h0 x)) (d : Dict String Val) :
    Tri h0 (fun _ => True) (eachEntry go d) (fun es _ => AllSafe h0 es) := by
  induction d with
  | nil => exact tri_ret fun _ _ _ v hv => nomatch hv
  | cons p d ih =>
    obtain ⟨k, v⟩ := p
    refine tri_bind (hg v) fun w => tri_bind (Q := fun ws _ => AllSafe h0 ws ∧ Safe h0 w) ?_ fun ws => tri_ret fun _ _ h => allSafe_cons h.2 h.1
    exact fun h hk hw => ⟨(ih h hk trivial).1, fun x hx => ⟨(ih h hk trivial).2 x hx, hw⟩⟩

theorem each_tri {go : Val → M Val} {P : Heap → Prop} (hg : ∀ v, Tri h0 P (go v) (fun _ => P)) (l : List Val) :
    Tri h0 P (each go l) (fun _ => P) := by
  induction l with
  | nil => exact tri_ret fun _ _ h => h
  | cons v l ih => exact tri_bind (hg v) fun w => tri_bind ih fun ws => tri_ret fun _ _ h => h

theorem eachField_tri {env : Env} (he : TameEnv env) {go : Val → M Val} (hg : ∀ v, Tri h0 (fun _ => True) (go v) (fun x _ => Safe h0 x)) (c : String)
    (d : Dict String Val) : Tri h0 (fun _ => True) (eachField env go c d) (fun es _ => AllSafe h0 es) := by
  induction d with
  | nil => exact tri_ret fun _ _ _ v hv => nomatch hv
  | cons p d ih =>
    obtain ⟨k, v⟩ := p
    refine tri_bind (serOf_tri he c k v) fun u => tri_bind (hg u) fun w => tri_bind (Q := fun ws _ => AllSafe h0 ws ∧ Safe h0 w) ?_ fun ws =>
      tri_ret fun _ _ h => allSafe_cons h.2 h.1
    exact fun h hk hw => ⟨(ih h hk trivial).1, fun x hx => ⟨(ih h hk trivial).2 x hx, hw⟩⟩

theorem newRef_tri {P : Heap → Prop} (o : Obj) : Tri h0 P (andThen (new o) fun a => ret (.ref a)) (fun x _ => Safe h0 x) :=
  tri_bind (Q := fun a _ => h0.length ≤ a) (tri_new fun h hk _ => hk.1) fun a => tri_ret fun _ _ h => safe_fr h

/-- An object that `model_dump` hands on is not a dict. -/
theorem safe_leaf {h : Heap} (hk : Keeps h0 h) {v : Val} (hl : leaf (objOf h v) = true) : Safe h0 v := by
  intro b d hb hd
  subst hb
  have hlt : b < h0.length := (List.getElem?_eq_some_iff.1 hd).1
  simp only [objOf, hk.2 b hlt, hd, leaf] at hl
  cases hl

theorem dump_tri {env : Env} (he : TameEnv env) (n : Nat) : ∀ v, Tri h0 (fun _ => True) (dump env n v) (fun x _ => Safe h0 x) := by
  induction n with
  | zero =>
    intro v
    simp only [dump]
    refine tri_bind (Q := fun o h => o = objOf h v) (tri_look fun _ _ _ => rfl) fun o => ?_
    split
    · rename_i hl
      exact tri_ret fun h hk ho => safe_leaf hk (ho ▸ hl)
    · exact tri_fail
  | succ n ih =>
    intro v
    simp only [dump]
    refine tri_bind (Q := fun o h => o = objOf h v) (tri_look fun _ _ _ => rfl) fun o => ?_
    have wk : ∀ {m : M Val}, Tri h0 (fun _ => True) m (fun x _ => Safe h0 x) → Tri h0 (fun h => o = objOf h v) m (fun x _ => Safe h0 x) :=
      fun hm => tri_weaken hm (fun _ _ => trivial) fun _ _ h => h
    cases o with
    | none => exact tri_ret fun h hk ho => safe_leaf hk (ho ▸ rfl)
    | some o =>
      cases o with
      | dict d => exact wk (tri_bind (eachEntry_tri ih d) fun es => newRef_tri _)
      | list l => exact wk (tri_bind (each_tri (P := fun _ => True) (fun v => tri_weaken (ih v) (fun _ h => h) fun _ _ _ => trivial) l) fun es => newRef_tri _)
      | elem c f => exact wk (tri_bind (eachField_tri he ih c f) fun es => newRef_tri _)
      | pile c f l m => exact wk (tri_bind (eachField_tri he ih c f) fun es => newRef_tri _)
      | other c f => exact tri_ret fun h hk ho => safe_leaf hk (ho ▸ rfl)

/-- A new dict all of whose values are safe. -/
def Data (h0 : Heap) (a : Nat) (h : Heap) : Prop := h0.length ≤ a ∧ ∃ d, h[a]? = some (.dict d) ∧ AllSafe h0 d

theorem newData_tri {es : Dict String Val} : Tri h0 (fun _ => AllSafe h0 es) (new (.dict es)) (Data h0) :=
  tri_new fun h hk hs => ⟨hk.1, es, by simp, hs⟩

theorem setEntry_tri (v : Val) (name s : String) (a : Nat) :
    Tri h0 (fun h => Data h0 a h ∧ Safe h0 v) (setEntry v name s) (fun _ => Data h0 a) := by
  intro h hk hp
  simp only [setEntry]
  cases v with
  | ref b =>
    dsimp only
    cases ho : entries h[b]? with
    | none => exact ⟨hk, fun x hx => nomatch hx⟩
    | some d =>
      dsimp only
      have hb : h[b]? = some (.dict d) := by
        cases hx : h[b]? with
        | none => rw [hx] at ho; cases ho
        | some o =>
          rw [hx] at ho
          cases o <;> simp_all [entries]
      have hf : h0.length ≤ b := by
        rcases Nat.lt_or_ge b h0.length with hlt | hge
        · exact absurd ((hk.2 b hlt).symm.trans hb) (hp.2 b d rfl)
        · exact hge
      refine ⟨keeps_set hk hf _, fun _ _ => ⟨hp.1.1, ?_⟩⟩
      obtain ⟨da, hda, hsa⟩ := hp.1.2
      have hlt : b < h.length := (List.getElem?_eq_some_iff.1 hb).1
      by_cases hab : b = a
      · subst hab
        rw [hb] at hda; cases hda
        refine ⟨_, by simp only [put]; rw [List.getElem?_set_self hlt], fun w hw => ?_⟩
        rcases vals_set hw with h | h
        · rw [h]; exact safe_str s
        · exact hsa w h
      · exact ⟨da, by simp only [put]; rw [List.getElem?_set_ne hab]; exact hda, hsa⟩
  | _ => exact ⟨hk, fun x hx => nomatch hx⟩

theorem setIn_tri (a : Nat) (k name s : String) : Tri h0 (Data h0 a) (setIn a k name s) (fun _ => Data h0 a) := by
  refine tri_bind (Q := fun o h => Data h0 a h ∧ o = objOf h (.ref a)) (tri_look fun _ _ h => ⟨h, rfl⟩) fun o => ?_
  cases hg : (entriesD o).get? k with
  | none => exact tri_ret fun _ _ h => h.1
  | some v =>
    refine tri_weaken (setEntry_tri v name s a) (fun h hp => ⟨hp.1, ?_⟩) fun _ _ h => h
    obtain ⟨⟨_, d, hd, hs⟩, rfl⟩ := hp
    have : entriesD (objOf h (.ref a)) = d := by simp [entriesD, objOf, hd, entries]
    rw [this] at hg
    exact hs v (vals_get hg)

theorem modelDump_tri {env : Env} (he : TameEnv env) (c : String) (f : Dict String Val) (ex : List String) :
    Tri h0 (fun _ => True) (modelDump env c f ex) (Data h0) :=
  tri_bind (eachField_tri he (dump_tri he env.limit) c _) fun es => newData_tri

theorem base_tri {env : Env} (he : TameEnv env) (c : String) (f : Dict String Val) (ex : List String) :
    Tri h0 (fun _ => True) (base env c f ex) (Data h0) :=
  tri_bind (modelDump_tri he c f ex) fun a => tri_bind (setIn_tri a _ _ _) fun _ => tri_ret fun _ _ h => h

mutual
theorem build_tri : ∀ t, Tri h0 (fun _ => True) (build t) (fun x _ => Safe h0 x)
  | .null => tri_ret fun _ _ _ b d hb => nomatch hb
  | .str s => tri_ret fun _ _ _ => safe_str s
  | .int i => tri_ret fun _ _ _ b d hb => nomatch hb
  | .list l => by simp only [build]; exact tri_bind (buildAll_tri l) fun _ => newRef_tri _
  | .dict d => by simp only [build]; exact tri_bind (buildEntries_tri d) fun _ => newRef_tri _
theorem buildAll_tri : ∀ l, Tri h0 (fun _ => True) (buildAll l) (fun _ _ => True)
  | [] => tri_ret fun _ _ _ => trivial
  | t :: ts => by
    simp only [buildAll]
    exact tri_bind (tri_weaken (build_tri t) (fun _ h => h) fun _ _ _ => trivial) fun _ => tri_bind (buildAll_tri ts) fun _ => tri_ret fun _ _ _ => trivial
theorem buildEntries_tri : ∀ l, Tri h0 (fun _ => True) (buildEntries l) (fun es _ => AllSafe h0 es)
  | [] => tri_ret fun _ _ _ v hv => nomatch hv
  | (k, t) :: ts => by
    simp only [buildEntries]
    refine tri_bind (build_tri t) fun w => tri_bind (Q := fun ws _ => AllSafe h0 ws ∧ Safe h0 w) ?_ fun ws => tri_ret fun _ _ h => allSafe_cons h.2 h.1
    exact fun h hk hw => ⟨(buildEntries_tri ts h hk trivial).1, fun x hx => ⟨(buildEntries_tri ts h hk trivial).2 x hx, hw⟩⟩
end

theorem loads_tri (env : Env) (a : Nat) : Tri h0 (fun _ => True) (loads env a) (Data h0) := by
  intro h hk _
  simp only [loads]
  cases env.text h a with
  | error e => exact ⟨hk, fun x hx => nomatch hx⟩
  | ok t => exact tri_bind (buildEntries_tri t) (fun es => newData_tri) h hk trivial

theorem raw_tri {env : Env} (he : TameEnv env) (c : String) (f : Dict String Val) (o : Opts) : Tri h0 (fun _ => True) (raw env c f o) (Data h0) := by
  simp only [raw]
  cases o.mode with
  | python => exact base_tri he c f _
  | _ => exact tri_bind (base_tri he c f _) fun a => tri_weaken (loads_tri env a) (fun _ _ => trivial) fun _ _ h => h

theorem putData {h : Heap} {a : Nat} {d d' : Dict String Val} (ha : h0.length ≤ a) (hd : h[a]? = some (.dict d)) (hs : AllSafe h0 d') :
    Data h0 a (h.set a (.dict d')) :=
  ⟨ha, d', by rw [List.getElem?_set_self (List.getElem?_eq_some_iff.1 hd).1], hs⟩

theorem entriesD_data {h : Heap} {a : Nat} {d : Dict String Val} (hd : h[a]? = some (.dict d)) : entriesD (objOf h (.ref a)) = d := by
  simp [entriesD, objOf, hd, entries]

theorem adjust_tri (env : Env) (f : Dict String Val) (o : Opts) (a : Nat) : Tri h0 (Data h0 a) (adjust env f o a) (fun _ => Data h0 a) := by
  refine tri_bind (Q := fun ob h => Data h0 a h ∧ ob = objOf h (.ref a)) (tri_look fun _ _ h => ⟨h, rfl⟩) fun ob => ?_
  cases hs : stamped env f o (entriesD ob) with
  | error e => exact tri_fail
  | ok d =>
    refine tri_put (fun h hp => hp.1.1) fun h hk hp => ?_
    obtain ⟨⟨ha, da, hda, hsa⟩, rfl⟩ := hp
    rw [entriesD_data hda] at hs
    refine putData ha hda fun v hv => ?_
    rcases vals_stamped hs (vals_renamed hv) with ⟨s, rfl⟩ | h
    · exact safe_str s
    · exact hsa v h

theorem elementTo_tri {env : Env} (he : TameEnv env) (c : String) (f : Dict String Val) (o : Opts) : Tri h0 (fun _ => True) (elementTo env c f o) (Data h0) :=
  tri_bind (raw_tri he c f o) fun a => tri_bind (adjust_tri env f o a) fun _ => tri_ret fun _ _ h => h

theorem setKey_tri (a : Nat) (k : String) (w : Val) : Tri h0 (Fr h0 a) (setKey a k w) (fun _ => Fr h0 a) :=
  tri_bind (tri_lookF _ _) fun o => tri_put (fun _ h => h) fun _ _ h => h

theorem testCall_tri {g : Val → M Val} (hg : Tame g) (v : Val) : Tri h0 (fun _ => True) (testCall g v) (fun _ _ => True) := by
  intro h hk _
  have := hk.trans (hg v h)
  simp only [testCall]
  cases hm : g v h with
  | mk h' r =>
    rw [hm] at this
    cases r with
    | error e => exact ⟨this, fun x hx => nomatch hx⟩
    | ok x => exact ⟨this, fun _ _ => trivial⟩

/-- A computation that leaves `h0` alone and returns a new address. -/
abbrev Good (h0 : Heap) (m : M Nat) : Prop := Tri h0 (fun _ => True) m (Fr h0)

theorem elementTo_good {env : Env} (he : TameEnv env) (c : String) (f : Dict String Val) (o : Opts) : Good h0 (elementTo env c f o) :=
  tri_weaken (elementTo_tri he c f o) (fun _ h => h) fun _ _ h => h.1

theorem nodeTo_good {env : Env} (he : TameEnv env) (c : String) (f : Dict String Val) (o : Opts) (hg : ∀ g, o.contentSer = some g → Tame g) :
    Good h0 (nodeTo env c f o) := by
  simp only [nodeTo]
  cases hs : o.contentSer with
  | none => exact elementTo_good he c f o
  | some g =>
    refine tri_bind (testCall_tri (hg g hs) _) fun _ => tri_bind (elementTo_good he c f _) fun a => tri_bind (Q := fun _ => Fr h0 a) ?_ fun w =>
      tri_bind (setKey_tri a _ w) fun _ => tri_ret fun _ _ h => h
    exact fun h hk hp => ⟨(tame_tri (hg g hs) _ _ h hk hp).1, fun _ _ => hp⟩

theorem nameInto_tri (a : Nat) (k : String) (n : Val) : Tri h0 (Data h0 a) (nameInto a k n) (fun _ => Data h0 a) := by
  cases n with
  | str s =>
    simp only [nameInto]
    split
    · exact tri_ret fun _ _ h => h
    · exact setIn_tri a k _ s
  | _ => exact tri_ret fun _ _ h => h

/-- What is assumed of the recursive call. -/
def SelfOk (h0 : Heap) (self : Self) : Prop := ∀ o, o.contentSer = none → ∀ v, Tri h0 (fun _ => True) (self o v) (fun _ _ => True)

theorem frame {α : Type} {m : M α} {p : Prop} (hm : Tri h0 (fun _ => True) m (fun _ _ => True)) : Tri h0 (fun _ => p) m (fun _ _ => p) :=
  fun h hk hp => ⟨(hm h hk trivial).1, fun _ _ => hp⟩

theorem pileTo_good {env : Env} (he : TameEnv env) {self : Self} (hs : SelfOk h0 self) (c : String) (f : Dict String Val) (l : List Val) (n : Val) (o : Opts) :
    Good h0 (pileTo env self c f l n o) := by
  refine tri_bind (elementTo_tri he c f o) fun a => tri_bind (Q := fun _ => Fr h0 a) (tri_weaken (nameInto_tri a _ n) (fun _ h => h) fun _ _ h => h.1) fun _ => ?_
  refine tri_bind (Q := fun _ => Fr h0 a) (each_tri (fun v => frame (hs (itemOpts o) rfl v)) l) fun ws => ?_
  refine tri_bind (Q := fun _ => Fr h0 a) (tri_new fun _ _ h => h) fun b => tri_bind (setKey_tri a _ _) fun _ => tri_ret fun _ _ h => h

theorem partsTo_good {env : Env} (he : TameEnv env) {self : Self} (hs : SelfOk h0 self) (c : String) (f : Dict String Val) (o po : Opts) (hpo : po.contentSer = none)
    (k1 k2 : String) : Good h0 (partsTo env self c f o po k1 k2) := by
  have hp : ∀ a k, Tri h0 (Fr h0 a) (part self po f a k) (fun _ => Fr h0 a) := fun a k =>
    tri_bind (Q := fun _ => Fr h0 a) (frame (hs po hpo _)) fun x => setKey_tri a k x
  exact tri_bind (elementTo_good he c f _) fun a => tri_bind (hp a k1) fun _ => tri_bind (hp a k2) fun _ => tri_ret fun _ _ h => h

theorem toObj_good {env : Env} (he : TameEnv env) {self : Self} (hs : SelfOk h0 self) (o : Opts) (hg : ∀ g, o.contentSer = some g → Tame g) (ob : Option Obj) :
    Good h0 (toObj env self o ob) := by
  cases ob with
  | none => exact tri_fail
  | some ob =>
    cases ob with
    | elem c f =>
      simp only [toObj]
      cases env.kind c with
      | node => exact nodeTo_good he c f o hg
      | graph => exact partsTo_good he hs c f o _ rfl _ _
      | flow => exact partsTo_good he hs c f o _ rfl _ _
      | _ => exact elementTo_good he c f o
    | pile c f l n => exact pileTo_good he hs c f l n o
    | _ => exact tri_fail

theorem toDict_tri {env : Env} (he : TameEnv env) (n : Nat) : ∀ o, (∀ g, o.contentSer = some g → Tame g) → ∀ v,
    Tri h0 (fun _ => True) (toDict env n o v) (fun x _ => ∃ a, x = .ref a ∧ h0.length ≤ a) := by
  induction n with
  | zero => exact fun o _ v => tri_fail
  | succ n ih =>
    intro o hg v
    simp only [toDict]
    refine tri_bind (tri_lookF v _) fun ob => tri_bind (toObj_good he (fun o ho v => ?_) o hg ob) fun a => tri_ret fun _ _ h => ⟨a, rfl, h⟩
    exact tri_weaken (ih o (fun g h => by rw [ho] at h; cases h) v) (fun _ h => h) fun _ _ _ => trivial

/-- C305: `to_dict` of elements, nodes, piles, graphs and flows changes no object that was there before, whether it returns or raises, and returns a new object.  Field and
content serializers are assumed to do the same. -/
theorem C305_unchanged (env : Env) (he : TameEnv env) (n : Nat) (o : Opts) (hg : ∀ g, o.contentSer = some g → Tame g) (v : Val) (h : Heap) :
    (∀ a, a < h.length → (toDict env n o v h).1[a]? = h[a]?) ∧
      ∀ x, (toDict env n o v h).2 = .ok x → ∃ a, x = .ref a ∧ h.length ≤ a :=
  ⟨((toDict_tri (h0 := h) he n o hg v) h (Keeps.refl h) trivial).1.2, ((toDict_tri (h0 := h) he n o hg v) h (Keeps.refl h) trivial).2⟩

end Verif.DumpHeap
