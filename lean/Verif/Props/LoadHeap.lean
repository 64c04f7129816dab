import Verif.Model.LoadHeap

/-!
# C303, C304: what `from_dict` does with the dict it is given
-/

set_option linter.unusedSectionVars false
set_option linter.unusedSimpArgs false
set_option linter.unusedVariables false

namespace Verif.LoadHeap

/-- Every object that was there is still there and holds the same. -/
def Keeps (h h' : Heap) : Prop := h.length ≤ h'.length ∧ ∀ a, a < h.length → h'[a]? = h[a]?

/-- The fields of an element or pile. -/
def fieldsOf : Option Obj → Option (Dict String Val)
  | some (.elem _ f) => some f
  | some (.pile _ f _ _) => some f
  | _ => none

/-- The object at `b` is a new element or pile, and its metadata is a new dict. -/
def NewAt (h h' : Heap) (b : Nat) : Prop :=
  h.length ≤ b ∧ ∃ f m, fieldsOf h'[b]? = some f ∧ f.get? "metadata" = some (.ref m) ∧ h.length ≤ m ∧ ∃ d, h'[m]? = some (.dict d)
/-- The value is a new element or pile, and its metadata is a new dict. -/
def New (h h' : Heap) (v : Val) : Prop := ∃ b, v = .ref b ∧ NewAt h h' b

theorem Keeps.refl (h : Heap) : Keeps h h := ⟨Nat.le_refl _, fun _ _ => rfl⟩
theorem Keeps.trans {h1 h2 h3 : Heap} (a : Keeps h1 h2) (b : Keeps h2 h3) : Keeps h1 h3 :=
  ⟨Nat.le_trans a.1 b.1, fun i hi => (b.2 i (Nat.lt_of_lt_of_le hi a.1)).trans (a.2 i hi)⟩

theorem NewAt.later {h0 h h' : Heap} {b : Nat} (hk : Keeps h h') (n : NewAt h0 h b) : NewAt h0 h' b := by
  obtain ⟨hb, f, m, hf, hm, hm', d, hd⟩ := n
  have h1 : b < h.length := by
    cases hx : h[b]? with
    | none => rw [hx] at hf; cases hf
    | some o => exact (List.getElem?_eq_some_iff.1 hx).1
  have h2 : m < h.length := (List.getElem?_eq_some_iff.1 hd).1
  exact ⟨hb, f, m, by rw [hk.2 b h1]; exact hf, hm, hm', d, by rw [hk.2 m h2]; exact hd⟩

theorem NewAt.weaken {h0 h1 h : Heap} {b : Nat} (hk : Keeps h0 h1) (n : NewAt h1 h b) : NewAt h0 h b := by
  obtain ⟨hb, f, m, hf, hm, hm', d⟩ := n
  exact ⟨Nat.le_trans hk.1 hb, f, m, hf, hm, Nat.le_trans hk.1 hm', d⟩

/-- A computation that starts in a heap that keeps `h0` and satisfies `P` keeps `h0`, and what it returns satisfies `Q`. -/
def Tri {α : Type} (h0 : Heap) (P : Heap → Prop) (m : M α) (Q : α → Heap → Prop) : Prop :=
  ∀ h, Keeps h0 h → P h → Keeps h0 (m h).1 ∧ ∀ x, (m h).2 = .ok x → Q x (m h).1

variable {α β : Type} {h0 : Heap} {P : Heap → Prop}

theorem tri_bind {m : M α} {f : α → M β} {Q : α → Heap → Prop} {R : β → Heap → Prop} (h1 : Tri h0 P m Q)
    (h2 : ∀ x, Tri h0 (Q x) (f x) R) : Tri h0 P (andThen m f) R := by
  intro h hk hp
  have := h1 h hk hp
  simp only [andThen]
  cases hm : m h with
  | mk h' r =>
    rw [hm] at this
    cases r with
    | error e => exact ⟨this.1, fun x hx => nomatch hx⟩
    | ok x => exact h2 x h' this.1 (this.2 x rfl)

theorem tri_ret {x : α} {Q : α → Heap → Prop} (hq : ∀ h, Keeps h0 h → P h → Q x h) : Tri h0 P (ret x) Q := by
  intro h hk hp
  refine ⟨hk, fun y hy => ?_⟩
  cases hy; exact hq h hk hp

theorem tri_fail {e : Exc} {Q : α → Heap → Prop} : Tri h0 P (fail e) Q := fun h hk _ => ⟨hk, fun x hx => nomatch hx⟩

theorem keeps_append {h : Heap} (hk : Keeps h0 h) (o : Obj) : Keeps h0 (h ++ [o]) := by
  refine hk.trans ⟨by simp, fun a ha => ?_⟩
  rw [List.getElem?_append_left ha]

theorem keeps_set {h : Heap} (hk : Keeps h0 h) {a : Nat} (ha : h0.length ≤ a) (o : Obj) : Keeps h0 (h.set a o) := by
  refine ⟨by simpa using hk.1, fun b hb => ?_⟩
  rw [List.getElem?_set]
  split
  · omega
  · exact hk.2 b hb

theorem tri_new {o : Obj} {Q : Nat → Heap → Prop} (hq : ∀ h, Keeps h0 h → P h → Q h.length (h ++ [o])) : Tri h0 P (new o) Q := by
  intro h hk hp
  refine ⟨keeps_append hk o, fun y hy => ?_⟩
  cases hy; exact hq h hk hp

theorem tri_put {a : Nat} {o : Obj} {Q : Unit → Heap → Prop} (ha : ∀ h, P h → h0.length ≤ a) (hq : ∀ h, Keeps h0 h → P h → Q () (h.set a o)) : Tri h0 P (put a o) Q := by
  intro h hk hp
  refine ⟨keeps_set hk (ha h hp) o, fun y hy => ?_⟩
  cases hy; exact hq h hk hp

theorem tri_look {v : Val} {Q : Option Obj → Heap → Prop} (hq : ∀ h, Keeps h0 h → P h → Q (objOf h v) h) : Tri h0 P (look v) Q := by
  intro h hk hp
  refine ⟨hk, fun y hy => ?_⟩
  cases hy; exact hq h hk hp

theorem tri_weaken {m : M α} {P' : Heap → Prop} {Q Q' : α → Heap → Prop} (hm : Tri h0 P m Q) (hp : ∀ h, P' h → P h) (hq : ∀ x h, Q x h → Q' x h) :
    Tri h0 P' m Q' := fun h hk h' => ⟨(hm h hk (hp h h')).1, fun x hx => hq x _ ((hm h hk (hp h h')).2 x hx)⟩

/-- A fresh address. -/
def Fr (h0 : Heap) (a : Nat) (_ : Heap) : Prop := h0.length ≤ a

theorem tri_lookF (v : Val) (P : Heap → Prop) : Tri h0 P (look v) (fun _ h => P h) := tri_look fun h _ hp => hp

theorem copyDict_tri (v : Val) : Tri h0 (fun _ => True) (copyDict v) (Fr h0) := by
  refine tri_bind (tri_lookF v _) fun o => ?_
  cases entries o with
  | none => exact tri_fail
  | some d => exact tri_new fun h hk _ => hk.1

theorem restoreMeta_tri (k : Option String) (l : Bool) (a : Nat) : Tri h0 (Fr h0 a) (restoreMeta k l a) (fun _ => Fr h0 a) :=
  tri_bind (tri_lookF _ _) fun _ => tri_put (fun _ hp => hp) fun _ _ hp => hp

theorem popClass_tri (a : Nat) (d : Dict String Val) (m : Option (Dict String Val)) : Tri h0 (Fr h0 a) (popClass a d m) (fun _ => Fr h0 a) := by
  cases m with
  | none => exact tri_ret fun _ _ hp => hp
  | some m =>
    refine tri_bind (Q := fun b h => Fr h0 a h ∧ Fr h0 b h) (tri_new fun h hk hp => ⟨hp, hk.1⟩) fun b => ?_
    refine tri_bind (Q := fun _ h => Fr h0 a h ∧ Fr h0 b h) (tri_put (fun _ hp => hp.1) fun _ _ hp => hp) fun _ => ?_
    exact tri_bind (Q := fun _ h => Fr h0 a h) (tri_put (fun _ hp => hp.2) fun _ _ hp => hp.1) fun _ => tri_ret fun _ _ hp => hp

theorem takeClass_tri (a : Nat) : Tri h0 (Fr h0 a) (takeClass a) (fun _ => Fr h0 a) := by
  refine tri_bind (tri_lookF _ _) fun o => ?_
  split
  · exact popClass_tri a _ _
  · exact tri_bind (tri_lookF _ _) fun om => popClass_tri a _ _

/-- The recursive call does what is to be shown of the whole. -/
def SelfOK (self : Self) : Prop := ∀ c k v h, Keeps h (self c k v h).1 ∧ ∀ x, (self c k v h).2 = .ok x → New h (self c k v h).1 x

theorem self_tri {self : Self} (hs : SelfOK self) (c : Cls) (k : Keys) (v : Val) {P : Heap → Prop} (hP : ∀ h h', Keeps h h' → P h → P h') :
    Tri h0 P (self c k v) (fun x h => P h ∧ New h0 h x) := by
  intro h hk hp
  obtain ⟨h1, h2⟩ := hs c k v h
  refine ⟨hk.trans h1, fun x hx => ⟨hP _ _ h1 hp, ?_⟩⟩
  obtain ⟨b, hb, hn⟩ := h2 x hx
  exact ⟨b, hb, hn.weaken hk⟩

/-- A new pile. -/
def PileAt (h0 : Heap) (p : Nat) (h : Heap) : Prop := NewAt h0 h p ∧ ∃ c f l n, h[p]? = some (.pile c f l n)

theorem PileAt.later {h h' : Heap} {p : Nat} (hk : Keeps h h') (n : PileAt h0 p h) : PileAt h0 p h' := by
  obtain ⟨hn, c, f, l, nm, hp⟩ := n
  exact ⟨hn.later hk, c, f, l, nm, by rw [hk.2 p (List.getElem?_eq_some_iff.1 hp).1]; exact hp⟩

theorem PileAt.set {h : Heap} {p : Nat} {c : String} {f : Dict String Val} {l : List Val} {n : Val} (hp : PileAt h0 p h) (ho : h[p]? = some (.pile c f l n))
    (l' : List Val) (n' : Val) : PileAt h0 p (h.set p (.pile c f l' n')) := by
  obtain ⟨⟨hb, f', m, hf, hm, hm', d, hd⟩, -⟩ := hp
  have hlt := (List.getElem?_eq_some_iff.1 ho).1
  rw [ho] at hf
  simp only [fieldsOf, Option.some.injEq] at hf
  subst hf
  have hself : (h.set p (.pile c f l' n'))[p]? = some (.pile c f l' n') := by rw [List.getElem?_set_self hlt]
  refine ⟨⟨hb, f, m, by rw [hself]; rfl, hm, hm', d, ?_⟩, c, f, l', n', hself⟩
  have hne : p ≠ m := fun he => by rw [he, hd] at ho; cases ho
  rw [List.getElem?_set_ne hne]; exact hd

theorem addTo_tri (env : Env) (p : Nat) (x : Val) : Tri h0 (PileAt h0 p) (addTo env p x) (fun _ => PileAt h0 p) := by
  refine tri_bind (Q := fun o h => PileAt h0 p h ∧ h[p]? = o) (tri_look fun h _ hp => ⟨hp, rfl⟩) fun o => ?_
  split
  · split
    · exact tri_put (fun _ hp => hp.1.1.1) fun h _ hp => hp.1.set hp.2 _ _
    · exact tri_fail
  · exact tri_fail

theorem nameIt_tri (p : Nat) (n : Val) : Tri h0 (PileAt h0 p) (nameIt p n) (fun _ => PileAt h0 p) := by
  refine tri_bind (Q := fun o h => PileAt h0 p h ∧ h[p]? = o) (tri_look fun h _ hp => ⟨hp, rfl⟩) fun o => ?_
  split
  · split
    · exact tri_put (fun _ hp => hp.1.1.1) fun h _ hp => hp.1.set hp.2 _ _
    · exact tri_ret fun _ _ hp => hp.1
  · exact tri_ret fun _ _ hp => hp.1

theorem addLoaded_tri (env : Env) {self : Self} (hs : SelfOK self) (k : Option String) (p : Nat) :
    ∀ l : List Val, Tri h0 (PileAt h0 p) (addLoaded env self k p l) (fun _ => PileAt h0 p)
  | [] => tri_ret fun _ _ hp => hp
  | x :: xs => by
    refine tri_bind (self_tri hs _ _ _ fun h h' hk => PileAt.later hk) fun y => ?_
    exact tri_bind (tri_weaken (addTo_tri env p y) (fun h hp => hp.1) fun _ _ hq => hq) fun _ => addLoaded_tri env hs k p xs

theorem loadMember_tri {self : Self} (hs : SelfOK self) (x : Val) {P : Heap → Prop} (hP : ∀ h h', Keeps h h' → P h → P h') :
    Tri h0 P (loadMember self x) (fun _ => P) := by
  refine tri_bind (tri_lookF _ _) fun o => ?_
  split
  · exact tri_weaken (self_tri hs _ _ _ hP) (fun _ hp => hp) fun _ _ hq => hq.1
  · exact tri_ret fun _ _ hp => hp

theorem addMembers_tri (env : Env) {self : Self} (hs : SelfOK self) (p : Nat) :
    ∀ l : List Val, Tri h0 (PileAt h0 p) (addMembers env self p l) (fun _ => PileAt h0 p)
  | [] => tri_ret fun _ _ hp => hp
  | x :: xs => tri_bind (loadMember_tri hs x fun h h' hk => PileAt.later hk) fun y => tri_bind (addTo_tri env p y) fun _ => addMembers_tri env hs p xs

/-- The heap after a new metadata dict and a new pile. -/
theorem pileAt_new {h : Heap} {m : Nat} (hk : Keeps h0 h) (hm : h0.length ≤ m) {d : Dict String Val} (hd : h[m]? = some (.dict d)) (c : String) {f : Dict String Val}
    (hf : f.get? "metadata" = some (.ref m)) (l : List Val) (n : Val) : PileAt h0 h.length (h ++ [.pile c f l n]) := by
  have h1 : (h ++ [Obj.pile c f l n])[h.length]? = some (.pile c f l n) := by simp
  refine ⟨⟨hk.1, f, m, by rw [h1]; rfl, hf, hm, d, ?_⟩, c, f, l, n, h1⟩
  rw [List.getElem?_append_left (List.getElem?_eq_some_iff.1 hd).1]; exact hd

/-- A new dict. -/
def DictAt (h0 : Heap) (m : Nat) (h : Heap) : Prop := h0.length ≤ m ∧ ∃ d, h[m]? = some (.dict d)

theorem newDict_tri (d : Dict String Val) {P : Heap → Prop} : Tri h0 P (new (.dict d)) (fun m h => DictAt h0 m h) :=
  tri_new fun h hk _ => ⟨hk.1, d, by simp⟩

theorem convertPile_tri (env : Env) {self : Self} (hs : SelfOK self) (v : Val) {a : Nat} : Tri h0 (Fr h0 a) (convertPile env self v) (fun _ => Fr h0 a) := by
  intro h hk hp
  have key : Tri h0 (fun _ => True) (convertPile env self v) (fun _ _ => True) := by
    refine tri_bind (tri_lookF _ _) fun o => ?_
    split
    · exact tri_weaken (self_tri hs _ _ _ (P := fun _ => True) fun _ _ _ _ => trivial) (fun _ _ => trivial) fun _ _ _ => trivial
    · refine tri_bind (newDict_tri []) fun m => ?_
      refine tri_bind (Q := fun p => PileAt h0 p) (tri_new fun h hk hd => ?_) fun p => tri_bind (addMembers_tri env hs p _) fun _ => tri_ret fun _ _ _ => trivial
      obtain ⟨hm, d, hd⟩ := hd
      exact pileAt_new hk hm hd _ (by simp [Dict.get?]) _ _
    · exact tri_ret fun _ _ _ => trivial
  exact ⟨(key h hk trivial).1, fun _ _ => hp⟩

theorem convertField_tri (env : Env) {self : Self} (hs : SelfOK self) (k : String) (d : Dict String Val) :
    Tri h0 (fun _ => True) (convertField env self k d) (fun _ _ => True) := by
  simp only [convertField]
  split
  · exact tri_ret fun _ _ _ => trivial
  · next v _ =>
    refine tri_bind (Q := fun _ _ => True) ?_ fun w => tri_ret fun _ _ _ => trivial
    intro h hk _
    exact ⟨(convertPile_tri env hs v (a := h0.length) h hk (Nat.le_refl _)).1, fun _ _ => trivial⟩

theorem loadContent_tri (env : Env) {self : Self} (hs : SelfOK self) (v : Val) (d : Dict String Val) :
    Tri h0 (fun _ => True) (loadContent env self v d) (fun _ _ => True) := by
  have hnew : Tri h0 (fun _ => True) (andThen (new (.dict d)) (fun a => ret (Val.ref a))) (fun _ _ => True) :=
    tri_bind (Q := fun _ _ => True) (tri_new fun _ _ _ => trivial) fun _ => tri_ret fun _ _ _ => trivial
  have hself : ∀ c, Tri h0 (fun _ => True) (self c {} v) (fun _ _ => True) := fun c =>
    tri_weaken (self_tri hs c {} v (P := fun _ => True) fun _ _ _ _ => trivial) (fun _ _ => trivial) fun _ _ _ => trivial
  intro h hk _
  simp only [loadContent]
  split
  · exact hnew h hk trivial
  · split
    · exact hnew h hk trivial
    · split
      · exact hself _ h hk trivial
      · exact hself _ h hk trivial
  · exact (tri_fail : Tri h0 (fun _ => True) (fail .attributeError) (fun (_ : Val) _ => True)) h hk trivial

theorem convertFields_tri (env : Env) {self : Self} (hs : SelfOK self) (cls : Cls) (d : Dict String Val) :
    Tri h0 (fun _ => True) (convertFields env self cls d) (fun _ _ => True) := by
  simp only [convertFields]
  split
  · simp only [contentField]
    split
    · exact tri_ret fun _ _ _ => trivial
    · refine tri_bind (tri_lookF _ _) fun o => ?_
      split
      · exact tri_ret fun _ _ _ => trivial
      · exact tri_bind (loadContent_tri env hs _ _) fun w => tri_ret fun _ _ _ => trivial
  · exact tri_bind (convertField_tri env hs _ _) fun d' => convertField_tri env hs _ _
  · exact tri_ret fun _ _ _ => trivial

theorem ownMeta_tri (env : Env) (v : Val) {P : Heap → Prop} : Tri h0 P (ownMeta env v) (fun m h => DictAt h0 m h) := by
  intro h hk hp
  exact newDict_tri _ h hk hp

theorem validate_tri (env : Env) {self : Self} (hs : SelfOK self) (cls : Cls) (a : Nat) {P : Heap → Prop} :
    Tri h0 P (validate env self cls a) (fun v h => New h0 h v) := by
  refine tri_bind (Q := fun _ _ => True) (tri_look fun _ _ _ => trivial) fun o => tri_bind (convertFields_tri env hs cls _) fun d => ?_
  split
  · refine tri_bind (ownMeta_tri env _) fun m => ?_
    refine tri_bind (Q := fun b h => NewAt h0 h b) (tri_new fun h hk hd => ?_) fun b => tri_ret fun h _ hb => ⟨b, rfl, hb⟩
    obtain ⟨hm, e, he⟩ := hd
    refine ⟨hk.1, d.set "metadata" (.ref m), m, by simp [fieldsOf], by rw [Dict.get?_set]; simp, hm, e, ?_⟩
    rw [List.getElem?_append_left (List.getElem?_eq_some_iff.1 he).1]; exact he
  · exact tri_fail

theorem self_new {self : Self} (hs : SelfOK self) (c : Cls) (k : Keys) (v : Val) {P : Heap → Prop} : Tri h0 P (self c k v) (fun x h => New h0 h x) :=
  tri_weaken (self_tri hs c k v (P := fun _ => True) fun _ _ _ _ => trivial) (fun _ _ => trivial) fun _ _ hq => hq.2

theorem elementFrom_tri (env : Env) {self : Self} (hs : SelfOK self) (cls : Cls) (k : Keys) (v : Val) :
    Tri h0 (fun _ => True) (elementFrom env self cls k v) (fun v h => New h0 h v) := by
  refine tri_bind (copyDict_tri v) fun a => tri_bind (restoreMeta_tri _ _ a) fun _ => tri_bind (takeClass_tri a) fun c => ?_
  cases c with
  | none => exact validate_tri env hs cls a
  | int i => exact tri_fail
  | ref b => exact tri_fail
  | str s =>
    simp only [elementDispatch]
    split
    · exact validate_tri env hs cls a
    · split
      · exact tri_fail
      · split
        · exact validate_tri env hs _ a
        · exact self_new hs _ _ _

/-- A content deserializer that leaves existing objects alone. -/
def Deser (env : Env) : Prop := ∀ f, env.deser = some f → ∀ v h, Keeps h (f v h).1

theorem runDeser_tri (env : Env) (hd : Deser env) (a : Nat) : Tri h0 (Fr h0 a) (runDeser env a) (fun _ => Fr h0 a) := by
  simp only [runDeser]
  split
  · exact tri_ret fun _ _ hp => hp
  · next f hf =>
    refine tri_bind (tri_lookF _ _) fun o => ?_
    split
    · exact tri_ret fun _ _ hp => hp
    · next v _ =>
      intro h hk hp
      have := hk.trans (hd f hf v h)
      dsimp only
      cases hfv : f v h with
      | mk h' r =>
        rw [hfv] at this
        cases r with
        | error e => exact ⟨this, fun x hx => nomatch hx⟩
        | ok w => exact ⟨keeps_set this hp _, fun _ _ => hp⟩

theorem nodeFrom_tri (env : Env) (hd : Deser env) {self : Self} (hs : SelfOK self) (cls : Cls) (k : Keys) (v : Val) :
    Tri h0 (fun _ => True) (nodeFrom env self cls k v) (fun v h => New h0 h v) := by
  refine tri_bind (copyDict_tri v) fun a => tri_bind (runDeser_tri env hd a) fun _ => tri_bind (restoreMeta_tri _ _ a) fun _ =>
    tri_bind (takeClass_tri a) fun c => ?_
  cases c with
  | none => exact validate_tri env hs cls a
  | int i => exact tri_fail
  | ref b => exact tri_fail
  | str s =>
    simp only [nodeDispatch]
    split
    · exact validate_tri env hs cls a
    · split
      · exact validate_tri env hs _ a
      · split
        · exact validate_tri env hs _ a
        · exact self_new hs _ _ _

theorem pileBuild_tri (env : Env) {self : Self} (hs : SelfOK self) (cls : Cls) (k : Keys) (d m : Dict String Val) (l : List Val) {P : Heap → Prop} :
    Tri h0 P (pileBuild env self cls k d m l) (fun v h => New h0 h v) := by
  simp only [pileBuild]
  split
  · refine tri_bind (ownMeta_tri env _) fun b => ?_
    refine tri_bind (Q := fun p => PileAt h0 p) (tri_new fun h hk hb => ?_) fun p => tri_bind (nameIt_tri p _) fun _ =>
      tri_bind (addLoaded_tri env hs _ p l) fun _ => tri_ret fun h _ hp => ⟨p, rfl, hp.1⟩
    obtain ⟨hm, e, he⟩ := hb
    exact pileAt_new hk hm he _ (by rw [Dict.get?_set]; simp) _ _
  · exact tri_fail

theorem pileFrom_tri (env : Env) {self : Self} (hs : SelfOK self) (cls : Cls) (k : Keys) (v : Val) :
    Tri h0 (fun _ => True) (pileFrom env self cls k v) (fun v h => New h0 h v) := by
  refine tri_bind (copyDict_tri v) fun a => tri_bind (restoreMeta_tri _ _ a) fun _ => ?_
  intro h hk hp
  dsimp only
  split
  · exact (tri_fail : Tri h0 (fun _ => True) (fail .typeError) (fun (v : Val) h => New h0 h v)) h hk trivial
  · split
    · exact pileBuild_tri env hs cls k _ _ _ (P := fun _ => True) h hk trivial
    · exact (tri_fail : Tri h0 (fun _ => True) (fail .typeError) (fun (v : Val) h => New h0 h v)) h hk trivial

theorem loadPart_tri {self : Self} (hs : SelfOK self) (k : Keys) (a : Nat) (name : String) (v : Option Val) :
    Tri h0 (Fr h0 a) (loadPart self k a name v) (fun _ => Fr h0 a) := by
  cases v with
  | none => exact tri_ret fun _ _ hp => hp
  | some v =>
    refine tri_bind (tri_lookF _ _) fun ov => ?_
    split
    · refine tri_bind (self_tri hs _ _ _ fun _ _ _ hp => hp) fun p => tri_bind (tri_lookF _ _) fun o => ?_
      exact tri_put (fun _ hp => hp.1) fun _ _ hp => hp.1
    · exact tri_ret fun _ _ hp => hp

theorem graphFrom_tri (env : Env) {self : Self} (hs : SelfOK self) (cls : Cls) (k : Keys) (v : Val) :
    Tri h0 (fun _ => True) (graphFrom env self cls k v) (fun v h => New h0 h v) := by
  refine tri_bind (copyDict_tri v) fun a => tri_bind (restoreMeta_tri _ _ a) fun _ => tri_bind (tri_lookF _ _) fun o => ?_
  refine tri_bind (Q := fun _ => Fr h0 a) (tri_put (fun _ hp => hp) fun _ _ hp => hp) fun _ => ?_
  exact tri_bind (loadPart_tri hs k a _ _) fun _ => tri_bind (loadPart_tri hs k a _ _) fun _ => validate_tri env hs cls a

theorem fromDict_ok (env : Env) (hd : Deser env) : ∀ n, SelfOK (fromDict env n)
  | 0 => fun c k v h => ⟨Keeps.refl h, fun x hx => nomatch hx⟩
  | n + 1 => by
    intro c k v h
    have hs := fromDict_ok env hd n
    cases hc : c.kind with
    | element => simp only [fromDict, hc]; exact elementFrom_tri env hs c k v h (Keeps.refl h) trivial
    | flow => simp only [fromDict, hc]; exact elementFrom_tri env hs c k v h (Keeps.refl h) trivial
    | node => simp only [fromDict, hc]; exact nodeFrom_tri env hd hs c k v h (Keeps.refl h) trivial
    | pile => simp only [fromDict, hc]; exact pileFrom_tri env hs c k v h (Keeps.refl h) trivial
    | graph => simp only [fromDict, hc]; exact graphFrom_tri env hs c k v h (Keeps.refl h) trivial

/-! ## C303 -/

/-- C303.  Whatever class `from_dict` is called on, with whatever keys and whatever (also malformed or cyclic) data, and whether it returns or raises: no object that existed
before the call, in particular nothing that can be reached from the given dict, is changed. -/
theorem C303_unchanged (env : Env) (hd : Deser env) (limit : Nat) (cls : Cls) (k : Keys) (v : Val) (h : Heap) :
    ∀ (a : Nat) (o : Obj), h[a]? = some o → (fromDict env limit cls k v h).1[a]? = some o := by
  intro a o ho
  rw [((fromDict_ok env hd limit cls k v h).1).2 a (List.getElem?_eq_some_iff.1 ho).1]
  exact ho

/-- C303.  What it returns is a new element with a metadata dict of its own: neither is an object that existed before. -/
theorem C303_own_metadata (env : Env) (hd : Deser env) (limit : Nat) (cls : Cls) (k : Keys) (v : Val) (h h' : Heap) (x : Val)
    (hr : fromDict env limit cls k v h = (h', .ok x)) :
    ∃ b f m d, x = .ref b ∧ h[b]? = none ∧ fieldsOf h'[b]? = some f ∧ f.get? "metadata" = some (.ref m) ∧ h[m]? = none ∧ h'[m]? = some (.dict d) := by
  obtain ⟨-, h2⟩ := fromDict_ok env hd limit cls k v h
  rw [hr] at h2
  obtain ⟨b, hb, hle, f, m, hf, hm, hm', d, hd'⟩ := h2 x rfl
  exact ⟨b, f, m, d, hb, List.getElem?_eq_none hle, hf, hm, List.getElem?_eq_none hm', hd'⟩

/-- Non-vacuity for C303: a dict with nested metadata is loaded as an element, a pile with one item and a graph with that pile as nodes; all calls return. -/
def demoEnv : Env :=
  { load := fun s => if s = "lib.Task" then some ⟨"lib.Task", .element⟩ else none
    registry := fun _ => none
    accept := fun _ _ => true
    takes := fun _ _ => true
    typesFit := fun _ _ => true
    metaOf := fun _ _ => []
    deser := none }

theorem demo_deser : Deser demoEnv := fun f hf => nomatch hf

/-- `{"id": 1, "metadata": {"lion_class": "lib.Task", "tags": ["a"]}}` at address 2; at 4 a pile with it as item; at 6 a graph with that pile. -/
def demoHeap : Heap :=
  [.list [.str "a"], .dict [("lion_class", .str "lib.Task"), ("tags", .ref 0)], .dict [("id", .int 1), ("metadata", .ref 1)],
   .list [.ref 2], .dict [("id", .int 2), ("metadata", .ref 5), ("items", .ref 3)], .dict [("progression_name", .str "p")],
   .dict [("id", .int 3), ("metadata", .ref 5), ("nodes", .ref 4)]]

example : (fromDict demoEnv 5 elementCls {} (.ref 2) demoHeap).2 = .ok (.ref 10) ∧
    (fromDict demoEnv 5 elementCls {} (.ref 2) demoHeap).1[10]? = some (.elem "lib.Task" [("id", .int 1), ("metadata", .ref 9)]) ∧
    (fromDict demoEnv 5 elementCls {} (.ref 2) demoHeap).1[9]? = some (.dict [("tags", .ref 0)]) := by decide

example : ∃ b x, (fromDict demoEnv 5 pileCls {} (.ref 4) demoHeap).2 = .ok (.ref b) ∧
    (fromDict demoEnv 5 pileCls {} (.ref 4) demoHeap).1[b]? = some (.pile pileCls.name [("id", .int 2), ("metadata", .ref 8)] [.ref x] (.str "p")) ∧
    fieldsOf (fromDict demoEnv 5 pileCls {} (.ref 4) demoHeap).1[x]? = some [("id", .int 1), ("metadata", .ref 12)] := ⟨9, 13, by decide, by decide, by decide⟩

example : ∃ b, (fromDict demoEnv 5 ⟨"g", .graph⟩ {} (.ref 6) demoHeap).2 = .ok (.ref b) := ⟨16, by decide⟩

/-! ## C304 -/

/-- The values that an object holds. -/
def held : Obj → List Val
  | .dict d => d.map Prod.snd
  | .list l => l
  | .elem _ f => f.map Prod.snd
  | .pile _ f l n => f.map Prod.snd ++ l ++ [n]
  | .other _ f => f.map Prod.snd

/-- An object can be reached from a value. -/
inductive Reach (h : Heap) : Val → Nat → Prop where
  | here (a : Nat) : Reach h (.ref a) a
  | into (a b : Nat) (o : Obj) (w : Val) : h[a]? = some o → w ∈ held o → Reach h w b → Reach h (.ref a) b

/-- No object refers to nothing. -/
def Closed (h : Heap) : Prop := ∀ (a : Nat) (o : Obj), h[a]? = some o → ∀ b, Val.ref b ∈ held o → b < h.length

/-- The values that the element takes over from the dict: those of its metadata except the class, and those of its other fields. -/
def Kept (d md : Dict String Val) (w : Val) : Prop :=
  (∃ k, k ≠ "metadata" ∧ k ≠ "node_metadata" ∧ d.get? k = some w) ∨ ∃ k, k ≠ "lion_class" ∧ md.get? k = some w

/-- Which class is made: the one that the metadata names, if it has the `from_dict` of `Element`. -/
def Makes (env : Env) (cls t : Cls) (md : Dict String Val) : Prop :=
  (t = cls ∧ (md.get? "lion_class" = none ∨ md.get? "lion_class" = some .none ∨ md.get? "lion_class" = some (.str "") ∨ md.get? "lion_class" = some (.str cls.name))) ∨
  ∃ s, md.get? "lion_class" = some (.str s) ∧ s ≠ "" ∧ s ≠ cls.name ∧ env.load s = some t

theorem validate_element (env : Env) (self : Self) (t : Cls) (ht : t.kind = .element) (h : Heap) (a b : Nat) (D m : Dict String Val) (hD : h[a]? = some (.dict D))
    (hm : D.get? "metadata" = some (.ref b)) (hb : h[b]? = some (.dict m)) :
    validate env self t a h = if env.accept t D then
        (h ++ [.dict m, .elem t.name (D.set "metadata" (.ref h.length))], .ok (.ref (h.length + 1)))
      else (h, .error .valueError) := by
  have h1 : metaEntries env h (.ref b) = m := by
    cases m with
    | nil => simp [metaEntries, truthy, objOf, hb]
    | cons x m => simp [metaEntries, truthy, objOf, hb, entries]
  simp only [validate, andThen, look, objOf, hD, entriesD, entries, Option.getD_some, convertFields, ht, ret]
  split
  · simp [hm, andThen, ret, ownMeta, new, h1]
  · rfl

theorem elementFrom_eq (env : Env) (self : Self) (cls t : Cls) (ht : t.kind = .element) (h : Heap) (p q : Nat) (d md : Dict String Val) (hd : h[p]? = some (.dict d))
    (hm : d.get? "metadata" = some (.ref q)) (hwf : d.WF) (hq : h[q]? = some (.dict md)) (hmk : Makes env cls t md) :
    elementFrom env self cls {} (.ref p) h =
      validate env self t h.length (h ++ [.dict ((d.del "node_metadata").set "metadata" (.ref (h.length + 1))), .dict (md.del "lion_class")]) := by
  have hp := (List.getElem?_eq_some_iff.1 hd).1
  have hql := (List.getElem?_eq_some_iff.1 hq).1
  have hhas : d.has "metadata" = true := by simp [Dict.has, hm]
  have hr : restored none true d = d.del "node_metadata" := by simp [restored, hhas]
  have hm1 : (d.del "node_metadata").get? "metadata" = some (.ref q) := by rw [Dict.get?_del hwf]; simpa using hm
  have h1 : copyDict (.ref p) h = (h ++ [.dict d], .ok h.length) := by simp [copyDict, andThen, look, objOf, hd, entries, copyOf, new]
  have h2 : restoreMeta none true h.length (h ++ [.dict d]) = (h ++ [.dict (d.del "node_metadata")], .ok ()) := by
    simp [restoreMeta, andThen, look, objOf, entriesD, entries, put, hr]
  have h3 : takeClass h.length (h ++ [.dict (d.del "node_metadata")]) =
      (h ++ [.dict ((d.del "node_metadata").set "metadata" (.ref (h.length + 1))), .dict (md.del "lion_class")], .ok ((md.get? "lion_class").getD .none)) := by
    have hq' : (h ++ [Obj.dict (d.del "node_metadata")])[q]? = some (.dict md) := by rw [List.getElem?_append_left hql]; exact hq
    have hl : (h ++ [Obj.dict (d.del "node_metadata")])[h.length]? = some (.dict (d.del "node_metadata")) := by simp
    simp only [takeClass, andThen, look, objOf, hl, entriesD, entries, Option.getD_some, hm1, hq', popClass, new, put, ret]
    simp [List.set_append_right]
  simp only [elementFrom, andThen, h1, h2, h3]
  rcases hmk with ⟨rfl, h | h | h | h⟩ | ⟨s, h, hs, hs', hl⟩
  · simp [h, elementDispatch]
  · simp [h, elementDispatch]
  · simp [h, elementDispatch]
  · simp [h, elementDispatch]
  · simp [h, elementDispatch, hs, hs', hl, sharesFrom, ht]

theorem dict_set_set (k : String) (v w : Val) : ∀ d : Dict String Val, (d.set k v).set k w = d.set k w
  | [] => by simp [Dict.set]
  | (k', u) :: d => by
    by_cases h : k' = k
    · simp [Dict.set, h]
    · simp [Dict.set, h, dict_set_set k v w d]

/-- The heap after `Element.from_dict`, and the element. -/
theorem fromDict_element (env : Env) (n : Nat) (cls t : Cls) (hc : cls.kind = .element) (ht : t.kind = .element) (h h' : Heap) (x : Val) (p q : Nat) (d md : Dict String Val)
    (hd : h[p]? = some (.dict d)) (hm : d.get? "metadata" = some (.ref q)) (hwf : d.WF) (hq : h[q]? = some (.dict md)) (hmk : Makes env cls t md)
    (hr : fromDict env (n + 1) cls {} (.ref p) h = (h', .ok x)) :
    x = .ref (h.length + 3) ∧
    h' = h ++ [.dict ((d.del "node_metadata").set "metadata" (.ref (h.length + 1))), .dict (md.del "lion_class"), .dict (md.del "lion_class"),
      .elem t.name ((d.del "node_metadata").set "metadata" (.ref (h.length + 2)))] := by
  simp only [fromDict, hc] at hr
  rw [elementFrom_eq env _ cls t ht h p q d md hd hm hwf hq hmk] at hr
  rw [validate_element env _ t ht _ h.length (h.length + 1) ((d.del "node_metadata").set "metadata" (.ref (h.length + 1))) (md.del "lion_class")
    (by simp) (by rw [Dict.get?_set]; simp) (by simp)] at hr
  split at hr
  · simp only [Prod.mk.injEq, Except.ok.injEq] at hr
    obtain ⟨h1, h2⟩ := hr
    have hset : ((d.del "node_metadata").set "metadata" (Val.ref (h.length + 1))).set "metadata" (.ref (h.length + 2)) =
        (d.del "node_metadata").set "metadata" (.ref (h.length + 2)) := dict_set_set _ _ _ _
    refine ⟨by simpa using h2.symm, ?_⟩
    rw [← h1]
    simp [hset]
  · simp at hr

theorem mem_held_iff {d : Dict String Val} (hwf : d.WF) (w : Val) : w ∈ d.map Prod.snd ↔ ∃ k, d.get? k = some w := by
  constructor
  · intro h
    obtain ⟨⟨k, v⟩, hm, rfl⟩ := List.mem_map.1 h
    exact ⟨k, Dict.get?_of_mem hwf hm⟩
  · rintro ⟨k, hk⟩
    exact List.mem_map.2 ⟨(k, w), Dict.mem_of_get? hk, rfl⟩

/-- C304, exactly.  The element that `Element.from_dict(d)` returns (for a class that has the `from_dict` of `Element`, and a dict with a metadata dict) shares an object with
what was there before iff one of the values that it takes over from `d` is a dict, list or other object; a value that it takes over is then the very same object.
Missing from the full claim: such values are not copied (`C304_violation`). -/
theorem C304_exact_partial (env : Env) (n : Nat) (cls t : Cls) (hc : cls.kind = .element) (ht : t.kind = .element) (h h' : Heap) (hcl : Closed h) (x : Val) (p q : Nat)
    (d md : Dict String Val) (hd : h[p]? = some (.dict d)) (hm : d.get? "metadata" = some (.ref q)) (hwf : d.WF) (hq : h[q]? = some (.dict md)) (hmwf : md.WF)
    (hmk : Makes env cls t md) (hr : fromDict env (n + 1) cls {} (.ref p) h = (h', .ok x)) :
    (∃ a, a < h.length ∧ Reach h' x a) ↔ ∃ a, Kept d md (.ref a) := by
  obtain ⟨rfl, rfl⟩ := fromDict_element env n cls t hc ht h h' x p q d md hd hm hwf hq hmk hr
  have hwf1 : (d.del "node_metadata").WF := Dict.del_wf hwf _
  have hwf2 : ((d.del "node_metadata").set "metadata" (Val.ref (h.length + 2))).WF := Dict.set_wf hwf1 _ _
  have hmwf1 : (md.del "lion_class").WF := Dict.del_wf hmwf _
  have hfield : ∀ k w, ((d.del "node_metadata").set "metadata" (Val.ref (h.length + 2))).get? k = some w ↔
      (k = "metadata" ∧ w = .ref (h.length + 2)) ∨ (k ≠ "metadata" ∧ k ≠ "node_metadata" ∧ d.get? k = some w) := by
    intro k w
    rw [Dict.get?_set, Dict.get?_del hwf]
    by_cases h1 : k = "metadata"
    · simp [h1, @eq_comm _ _ w]
    · by_cases h2 : k = "node_metadata"
      · simp [h2]
      · simp [h1, h2, Ne.symm h1, Ne.symm h2]
  have hmeta : ∀ k w, (md.del "lion_class").get? k = some w ↔ k ≠ "lion_class" ∧ md.get? k = some w := by
    intro k w
    rw [Dict.get?_del hmwf]
    by_cases h1 : k = "lion_class"
    · simp [h1]
    · simp [h1, Ne.symm h1]
  generalize hext : [Obj.dict ((d.del "node_metadata").set "metadata" (.ref (h.length + 1))), .dict (md.del "lion_class"), .dict (md.del "lion_class"),
      .elem t.name ((d.del "node_metadata").set "metadata" (.ref (h.length + 2)))] = ext
  have he : (h ++ ext)[h.length + 3]? = some (.elem t.name ((d.del "node_metadata").set "metadata" (.ref (h.length + 2)))) := by
    rw [List.getElem?_append_right (by omega), ← hext]; simp
  have hme : (h ++ ext)[h.length + 2]? = some (.dict (md.del "lion_class")) := by
    rw [List.getElem?_append_right (by omega), ← hext]; simp
  constructor
  · rintro ⟨a, ha, hre⟩
    cases hre with
    | here => omega
    | into _ _ o w ho hw hre =>
      rw [he] at ho
      cases ho
      obtain ⟨k, hk⟩ := (mem_held_iff hwf2 w).1 hw
      rcases (hfield k w).1 hk with ⟨-, rfl⟩ | ⟨h1, h2, h3⟩
      · cases hre with
        | here => omega
        | into _ _ o w ho hw hre =>
          rw [hme] at ho
          cases ho
          obtain ⟨k, hk⟩ := (mem_held_iff hmwf1 w).1 hw
          obtain ⟨h1, h2⟩ := (hmeta k w).1 hk
          cases w with
          | ref b => exact ⟨b, Or.inr ⟨k, h1, h2⟩⟩
          | none => cases hre
          | str s => cases hre
          | int i => cases hre
      · cases w with
        | ref b => exact ⟨b, Or.inl ⟨k, h1, h2, h3⟩⟩
        | none => cases hre
        | str s => cases hre
        | int i => cases hre
  · rintro ⟨a, h1⟩
    rcases h1 with ⟨k, h1, h2, h3⟩ | ⟨k, h1, h2⟩
    · refine ⟨a, hcl p _ hd a ((mem_held_iff hwf _).2 ⟨k, h3⟩), Reach.into _ _ _ (.ref a) he ?_ (Reach.here a)⟩
      exact (mem_held_iff hwf2 _).2 ⟨k, (hfield k _).2 (Or.inr ⟨h1, h2, h3⟩)⟩
    · refine ⟨a, hcl q _ hq a ((mem_held_iff hmwf _).2 ⟨k, h2⟩), Reach.into _ _ _ (.ref (h.length + 2)) he ?_ (Reach.into _ _ _ (.ref a) hme ?_ (Reach.here a))⟩
      · exact (mem_held_iff hwf2 _).2 ⟨"metadata", (hfield _ _).2 (Or.inl ⟨rfl, rfl⟩)⟩
      · exact (mem_held_iff hmwf1 _).2 ⟨k, (hmeta k _).2 ⟨h1, h2⟩⟩

/-- C304 where no value taken over is a dict, list or object: writing to anything that can be reached from the element changes nothing that was there before. -/
theorem C304_independent_partial (env : Env) (n : Nat) (cls t : Cls) (hc : cls.kind = .element) (ht : t.kind = .element) (h h' : Heap) (hcl : Closed h) (x : Val) (p q : Nat)
    (d md : Dict String Val) (hd : h[p]? = some (.dict d)) (hm : d.get? "metadata" = some (.ref q)) (hwf : d.WF) (hq : h[q]? = some (.dict md)) (hmwf : md.WF)
    (hmk : Makes env cls t md) (hk : ∀ a, ¬ Kept d md (.ref a)) (hr : fromDict env (n + 1) cls {} (.ref p) h = (h', .ok x))
    (a : Nat) (o : Obj) (hre : Reach h' x a) : ∀ b, b < h.length → (h'.set a o)[b]? = h[b]? := by
  intro b hb
  obtain ⟨-, heq⟩ := fromDict_element env n cls t hc ht h h' x p q d md hd hm hwf hq hmk hr
  have hna : ¬ a < h.length := fun ha => by
    obtain ⟨c, hc'⟩ := (C304_exact_partial env n cls t hc ht h h' hcl x p q d md hd hm hwf hq hmwf hmk hr).1 ⟨a, ha, hre⟩
    exact hk c hc'
  rw [List.getElem?_set_ne (by omega), heq, List.getElem?_append_left hb]

/-- C304 fails: the list `["a"]` in the metadata of the dict is also in the metadata of the element, and a write to it there shows in the dict. -/
theorem C304_violation :
    ∃ h' x a, fromDict demoEnv 5 elementCls {} (.ref 2) demoHeap = (h', .ok x) ∧ Reach h' x a ∧ Reach demoHeap (.ref 2) a ∧
      ∃ o, (h'.set a o)[a]? ≠ demoHeap[a]? := by
  refine ⟨_, .ref 10, 0, rfl, ?_, ?_, .list [], by decide⟩
  · exact Reach.into 10 0 (.elem "lib.Task" [("id", .int 1), ("metadata", .ref 9)]) (.ref 9) (by decide) (by decide)
      (Reach.into 9 0 (.dict [("tags", .ref 0)]) (.ref 0) (by decide) (by decide) (Reach.here 0))
  · exact Reach.into 2 0 (.dict [("id", .int 1), ("metadata", .ref 1)]) (.ref 1) (by decide) (by decide)
      (Reach.into 1 0 (.dict [("lion_class", .str "lib.Task"), ("tags", .ref 0)]) (.ref 0) (by decide) (by decide) (Reach.here 0))

/-- Non-vacuity of C304: the hypotheses hold for the dict of the violation, which shares a list, and for one with plain values, which shares nothing. -/
example : ∃ h' x, fromDict demoEnv 5 elementCls {} (.ref 2) demoHeap = (h', .ok x) ∧ ∃ a, a < demoHeap.length ∧ Reach h' x a := by
  refine ⟨_, .ref 10, rfl, (C304_exact_partial demoEnv 4 elementCls ⟨"lib.Task", .element⟩ rfl rfl demoHeap _ ?_ _ 2 1 [("id", .int 1), ("metadata", .ref 1)]
    [("lion_class", .str "lib.Task"), ("tags", .ref 0)] rfl rfl (by simp [Dict.WF]) rfl (by simp [Dict.WF]) (Or.inr ⟨"lib.Task", rfl, by decide, by decide, rfl⟩) rfl).2
    ⟨0, Or.inr ⟨"tags", by decide, rfl⟩⟩⟩
  intro a o ho b hb
  have h7 : a < 7 := (List.getElem?_eq_some_iff.1 ho).1
  rcases (by omega : a = 0 ∨ a = 1 ∨ a = 2 ∨ a = 3 ∨ a = 4 ∨ a = 5 ∨ a = 6) with rfl | rfl | rfl | rfl | rfl | rfl | rfl <;>
    cases ho <;> simp [held] at hb <;> simp [demoHeap] <;> omega

end Verif.LoadHeap
