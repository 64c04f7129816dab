import Verif.Model.Lndl
import Verif.Props.LndlText
import Verif.Props.Resolver
import Verif.Props.Fuzzy

set_option linter.unusedSectionVars false
set_option linter.unusedSimpArgs false
set_option linter.unusedVariables false

/-!
# C200: from the text of a response to the validated output

The meaning of a document is stated in terms of its declarations and the fields of its output block only; no dictionary, token or
position occurs in it.
-/

namespace Verif.Lndl

open Verif.Parser (Str OutVal Header DeclText DocText refName)
open Verif.Lexer (CharClass)
open Verif.Resolver (Ext Spec Arg Action FieldVal Output LvarMeta LactMeta IsKwargs)

variable {ν κ μ : Type}

/-! ### Specification -/

/-- `x` is the variable declared under the name `n`. -/
def IsVar (d : DocText) (n : Str) (x : DeclText) : Prop := x ∈ d.decls ∧ x.act = false ∧ refName x.header = n

/-- `x` is the action declared under the name `n`. -/
def IsAct (d : DocText) (n : Str) (x : DeclText) : Prop := x ∈ d.decls ∧ x.act = true ∧ refName x.header = n

/-- The model and field a declaration is for. -/
def target : Header → Option (Str × Str)
  | .raw _ => none
  | .named m f => some (m, f)
  | .aliased m f _ => some (m, f)

/-- In a field of the class `model`, the reference `n` gives the keyword argument `f = a`: the value of the variable, or the action. -/
inductive RefSays (ext : Ext ν κ μ) (d : DocText) (model n f : Str) : Arg ν κ → Prop where
  | var (x : DeclText) (v : ν) : IsVar d n x → target x.header = some (model, f) → ext.parseValue x.body = .ok v → RefSays ext d model n f (.val v)
  | act (x : DeclText) (c : κ) : IsAct d n x → target x.header = some (model, f) → ext.parseCall x.body = some c →
      RefSays ext d model n f (.action ⟨n, c, x.body⟩)

/-- The references `ns` give these keyword arguments. -/
inductive RefsSay (ext : Ext ν κ μ) (d : DocText) (model : Str) : List Str → List (Str × Arg ν κ) → Prop where
  | nil : RefsSay ext d model [] []
  | cons (n : Str) (ns : List Str) (f : Str) (a : Arg ν κ) (as : List (Str × Arg ν κ)) : RefSays ext d model n f a →
      RefsSay ext d model ns as → RefsSay ext d model (n :: ns) ((f, a) :: as)

/-- What the document says about a field with the value `v` in the output block. -/
inductive Says (ext : Ext ν κ μ) (d : DocText) (s : Spec) : OutVal → FieldVal ν κ μ → Prop where
  /-- A literal is converted to the scalar type. -/
  | literal (t : Nat) (v : OutVal) (u w : ν) : s.ty = .scalar t → (∀ ns, v ≠ .refs ns) → ext.lit v = .ok u → ext.convert t u = .ok w →
      Says ext d s v (.scalar w)
  /-- So is the content of the variable referenced. -/
  | var (t : Nat) (n : Str) (x : DeclText) (u w : ν) : s.ty = .scalar t → IsVar d n x → ext.parseValue x.body = .ok u → ext.convert t u = .ok w →
      Says ext d s (.refs [n]) (.scalar w)
  /-- A reference to an action from a scalar field. -/
  | scalarAction (t : Nat) (n : Str) (x : DeclText) (c : κ) : s.ty = .scalar t → IsAct d n x → ext.parseCall x.body = some c →
      Says ext d s (.refs [n]) (.action ⟨n, c, x.body⟩)
  /-- A reference to an action that is not for a field of a class, from a model field. -/
  | directAction (m : Str) (n : Str) (x : DeclText) (c : κ) : s.ty = .model m → IsAct d n x → target x.header = none →
      ext.parseCall x.body = some c → Says ext d s (.refs [n]) (.action ⟨n, c, x.body⟩)
  /-- Variables and actions for the fields of a class; validated at once unless an action is pending. -/
  | instance_ (m : Str) (ns : List Str) (as : List (Str × Arg ν κ)) (kw : Dict Str (Arg ν κ)) (i j : μ) : s.ty = .model m →
      RefsSay ext d m ns as → IsKwargs as kw →
      ((∃ f a, kw.get? f = some (.action a)) ∧ i = ext.constructRaw m kw ∨ (∀ f a, kw.get? f ≠ some (.action a)) ∧ ext.construct m kw = .ok i) →
      ext.validators s i = .ok j → Says ext d s (.refs ns) (.inst j)

/-! ### The dictionaries of the declarations -/

theorem foldl_set_get {α β : Type} (key : α → Str) (val : α → β) (n : Str) (xs : List α) (acc : Dict Str β)
    (hnd : (xs.map key).Nodup) :
    (xs.foldl (fun (d : Dict Str β) x => d.set (key x) (val x)) acc).get? n =
      match xs.find? (fun x => decide (key x = n)) with
      | some x => some (val x)
      | none => acc.get? n := by
  induction xs generalizing acc with
  | nil => rfl
  | cons x xs ih =>
    simp only [List.map_cons, List.nodup_cons] at hnd
    rw [List.foldl_cons, ih _ hnd.2, List.find?_cons]
    by_cases hx : key x = n
    · have hnone : xs.find? (fun x => decide (key x = n)) = none := by
        rw [List.find?_eq_none]
        intro y hy
        simp only [decide_eq_true_eq]
        intro he
        exact hnd.1 (by rw [hx, ← he]; exact List.mem_map_of_mem hy)
      rw [hnone]
      simp [hx, Dict.get?_set]
    · simp only [hx, decide_false]
      cases hf : xs.find? (fun x => decide (key x = n)) with
      | some y => rfl
      | none => simp only [Dict.get?_set, if_neg hx]

theorem declared_mem (act : Bool) (ds : List DeclText) (n : Str) (hnd : (ds.map (fun x => refName x.header)).Nodup) {β : Type} (val : Parser.Decl → β) (r : Option β) :
    ((Parser.declared act ds).foldl (fun (d : Dict Str β) x => d.set x.header.alias (val x)) []).get? n = r ↔
      (∃ x ∈ ds, x.act = act ∧ refName x.header = n ∧ r = some (val ⟨x.header, x.body⟩)) ∨
      ((∀ x ∈ ds, x.act = act → refName x.header ≠ n) ∧ r = none) := by
  have hnd' : ((Parser.declared act ds).map (fun x => x.header.alias)).Nodup := by
    have : (Parser.declared act ds).map (fun x => x.header.alias) = (ds.filter (fun d => d.act == act)).map (fun x => refName x.header) := by
      simp [Parser.declared, Parser.alias_eq, Function.comp_def]
    rw [this]
    exact (List.filter_sublist.map _).nodup hnd
  rw [foldl_set_get (fun x : Parser.Decl => x.header.alias) val n _ _ hnd']
  cases hf : (Parser.declared act ds).find? (fun x => decide (x.header.alias = n)) with
  | some y =>
    have h1 := List.mem_of_find?_eq_some hf
    have h2 := List.find?_some hf
    simp only [decide_eq_true_eq, Parser.alias_eq] at h2
    simp only [Parser.declared, List.mem_map, List.mem_filter, beq_iff_eq] at h1
    rcases h1 with ⟨x, ⟨hx, hxa⟩, hxy⟩
    have hxn : refName x.header = n := by rw [← hxy] at h2; exact h2
    simp only
    constructor
    · intro h
      exact .inl ⟨x, hx, hxa, hxn, by rw [← h, hxy]⟩
    · rintro (⟨x', hx', hxa', hxn', hr⟩ | ⟨hno, _⟩)
      · have : x' = x := by
          have hinj := Resolver.nodup_map_inj (fun x : DeclText => refName x.header) ds hnd hx' hx (by rw [hxn', hxn])
          exact hinj
        rw [hr, this, hxy]
      · exact absurd hxn (hno x hx hxa)
  | none =>
    rw [List.find?_eq_none] at hf
    have hno : ∀ x ∈ ds, x.act = act → refName x.header ≠ n := by
      intro x hx hxa hxn
      apply hf ⟨x.header, x.body⟩
      · simp only [Parser.declared, List.mem_map, List.mem_filter, beq_iff_eq]
        exact ⟨x, ⟨hx, hxa⟩, rfl⟩
      · simp only [decide_eq_true_eq, Parser.alias_eq]; exact hxn
    constructor
    · intro h
      exact .inr ⟨hno, by rw [← h]; rfl⟩
    · rintro (⟨x', hx', hxa', hxn', _⟩ | ⟨_, hr⟩)
      · exact absurd hxn' (hno x' hx' hxa')
      · rw [hr]; rfl

/-- The dictionaries built from the declarations of a document. -/
def lvarsOf (d : DocText) : Dict Str LvarMeta := Resolver.lvarDict (Parser.declared false d.decls)
def lactsOf (d : DocText) : Dict Str LactMeta := Resolver.lactDict (Parser.declared true d.decls)

theorem lvar_some {d : DocText} (hnd : (d.decls.map (fun x => refName x.header)).Nodup) (n : Str) (l : LvarMeta) :
    (lvarsOf d).get? n = some l ↔ ∃ x, IsVar d n x ∧ l = ⟨target x.header, x.body⟩ := by
  rw [lvarsOf, Resolver.lvarDict, declared_mem false d.decls n hnd Resolver.lvarMeta]
  have hm : ∀ x : DeclText, Resolver.lvarMeta ⟨x.header, x.body⟩ = ⟨target x.header, x.body⟩ := by
    intro x
    simp only [Resolver.lvarMeta]
    cases x.header <;> rfl
  constructor
  · rintro (⟨x, h1, h2, h3, h4⟩ | ⟨_, h⟩)
    · exact ⟨x, ⟨h1, h2, h3⟩, by rw [hm x] at h4; exact Option.some.inj h4⟩
    · cases h
  · rintro ⟨x, ⟨h1, h2, h3⟩, h4⟩
    exact .inl ⟨x, h1, h2, h3, by rw [hm x, h4]⟩

theorem lact_some {d : DocText} (hnd : (d.decls.map (fun x => refName x.header)).Nodup) (n : Str) (l : LactMeta) :
    (lactsOf d).get? n = some l ↔ ∃ x, IsAct d n x ∧ l = ⟨(target x.header).map Prod.fst, (target x.header).map Prod.snd, x.body⟩ := by
  rw [lactsOf, Resolver.lactDict, declared_mem true d.decls n hnd Resolver.lactMeta]
  have hm : ∀ x : DeclText, Resolver.lactMeta ⟨x.header, x.body⟩ = ⟨(target x.header).map Prod.fst, (target x.header).map Prod.snd, x.body⟩ := by
    intro x
    simp only [Resolver.lactMeta]
    cases x.header <;> rfl
  constructor
  · rintro (⟨x, h1, h2, h3, h4⟩ | ⟨_, h⟩)
    · exact ⟨x, ⟨h1, h2, h3⟩, by rw [hm x] at h4; exact Option.some.inj h4⟩
    · cases h
  · rintro ⟨x, ⟨h1, h2, h3⟩, h4⟩
    exact .inl ⟨x, h1, h2, h3, by rw [hm x, h4]⟩

theorem lact_none {d : DocText} (hnd : (d.decls.map (fun x => refName x.header)).Nodup) (n : Str) :
    (lactsOf d).get? n = none ↔ ∀ x, ¬ IsAct d n x := by
  rw [lactsOf, Resolver.lactDict, declared_mem true d.decls n hnd Resolver.lactMeta]
  constructor
  · rintro (⟨x, _, _, _, h⟩ | ⟨h, _⟩)
    · cases h
    · rintro x ⟨h1, h2, h3⟩; exact h x h1 h2 h3
  · intro h
    exact .inr ⟨fun x h1 h2 h3 => h x ⟨h1, h2, h3⟩, rfl⟩

theorem decl_unique {d : DocText} (hnd : (d.decls.map (fun x => refName x.header)).Nodup) {n : Str} {x y : DeclText} (hx : x ∈ d.decls) (hy : y ∈ d.decls)
    (hxn : refName x.header = n) (hyn : refName y.header = n) : x = y :=
  Resolver.nodup_map_inj (fun x : DeclText => refName x.header) d.decls hnd hx hy (by rw [hxn, hyn])

theorem no_act_of_var {d : DocText} (hnd : (d.decls.map (fun x => refName x.header)).Nodup) {n : Str} {x : DeclText} (h : IsVar d n x) : (lactsOf d).get? n = none := by
  rw [lact_none hnd]
  rintro y ⟨h1, h2, h3⟩
  have := decl_unique hnd h.1 h1 h.2.2 h3
  rw [← this, h.2.1] at h2
  cases h2

theorem isAction_iff {ext : Ext ν κ μ} {d : DocText} (hnd : (d.decls.map (fun x => refName x.header)).Nodup) (n : Str) (a : Action κ) :
    Resolver.IsAction ext (lactsOf d) n a ↔ ∃ x c, IsAct d n x ∧ ext.parseCall x.body = some c ∧ a = ⟨n, c, x.body⟩ := by
  constructor
  · rintro ⟨m, h1, h2, h3, h4⟩
    rcases (lact_some hnd n m).1 h1 with ⟨x, hx, hm⟩
    rw [hm] at h2 h3
    refine ⟨x, a.call, hx, h2, ?_⟩
    cases a
    simp only at h3 h4
    rw [h3, h4]
  · rintro ⟨x, c, hx, hc, ha⟩
    exact ⟨_, (lact_some hnd n _).2 ⟨x, hx, rfl⟩, by rw [ha]; exact hc, by rw [ha], by rw [ha]⟩

theorem map_pair {o : Option (Str × Str)} {m f : Str} : o.map Prod.fst = some m ∧ o.map Prod.snd = some f ↔ o = some (m, f) := by
  cases o with
  | none => simp
  | some p => cases p; simp

theorem refMeans_iff {ext : Ext ν κ μ} {d : DocText} (hnd : (d.decls.map (fun x => refName x.header)).Nodup) (model n f : Str) (a : Arg ν κ) :
    Resolver.RefMeans ext (lvarsOf d) (lactsOf d) model n f a ↔ RefSays ext d model n f a := by
  constructor
  · intro h
    cases h with
    | action m a h1 h2 h3 h4 =>
      rcases (lact_some hnd n m).1 h1 with ⟨x, hx, hm⟩
      rcases (isAction_iff hnd n a).1 h4 with ⟨y, c, hy, hc, ha⟩
      have hxy : y = x := decl_unique hnd hy.1 hx.1 hy.2.2 hx.2.2
      rw [hm] at h2 h3
      rw [ha]
      exact .act y c hy (by rw [hxy]; exact map_pair.1 ⟨h2, h3⟩) hc
    | var l v h1 h2 h3 h4 =>
      rcases (lvar_some hnd n l).1 h2 with ⟨x, hx, hl⟩
      rw [hl] at h3 h4
      exact .var x v hx h3 h4
  · intro h
    cases h with
    | var x v hx ht hp => exact .var ⟨target x.header, x.body⟩ v (no_act_of_var hnd hx) ((lvar_some hnd n _).2 ⟨x, hx, rfl⟩) ht hp
    | act x c hx ht hc =>
      have := map_pair.2 ht
      exact .action _ _ ((lact_some hnd n _).2 ⟨x, hx, rfl⟩) this.1 this.2 ((isAction_iff hnd n _).2 ⟨x, c, hx, hc, rfl⟩)

theorem refsMean_iff {ext : Ext ν κ μ} {d : DocText} (hnd : (d.decls.map (fun x => refName x.header)).Nodup) (model : Str) (ns : List Str) (as : List (Str × Arg ν κ)) :
    Resolver.RefsMean ext (lvarsOf d) (lactsOf d) model ns as ↔ RefsSay ext d model ns as := by
  constructor
  · intro h
    induction h with
    | nil => exact .nil
    | cons n ns f x as h1 _ ih => exact .cons n ns f x as ((refMeans_iff hnd model n f x).1 h1) ih
  · intro h
    induction h with
    | nil => exact .nil
    | cons n ns f x as h1 _ ih => exact .cons n ns f x as ((refMeans_iff hnd model n f x).2 h1) ih

theorem meaning_iff {ext : Ext ν κ μ} {d : DocText} (hnd : (d.decls.map (fun x => refName x.header)).Nodup) (s : Spec) (v : OutVal) (w : FieldVal ν κ μ) :
    Resolver.Meaning ext (lvarsOf d) (lactsOf d) s v w ↔ Says ext d s v w := by
  constructor
  · intro h
    cases h with
    | literal t v u w h1 h2 h0 h3 => exact .literal t _ u w h1 h2 h0 h3
    | var t n l u w h1 h2 h3 h4 h5 =>
      rcases (lvar_some hnd n l).1 h3 with ⟨x, hx, hl⟩
      rw [hl] at h4
      exact .var t n x u w h1 hx h4 h5
    | scalarAction t n a h1 h2 =>
      rcases (isAction_iff hnd n a).1 h2 with ⟨x, c, hx, hc, ha⟩
      rw [ha]
      exact .scalarAction t n x c h1 hx hc
    | directAction c n m a h1 h2 h3 h4 =>
      rcases (lact_some hnd n m).1 h2 with ⟨x, hx, hm⟩
      rcases (isAction_iff hnd n a).1 h4 with ⟨y, k, hy, hc, ha⟩
      have hxy : y = x := decl_unique hnd hy.1 hx.1 hy.2.2 hx.2.2
      rw [hm] at h3
      rw [ha]
      refine .directAction c n y k h1 hy ?_ hc
      rw [hxy]
      simpa using h3
    | instance_ c ns as kw i j h1 h2 h3 h4 h5 h6 => exact .instance_ c ns as kw i j h1 ((refsMean_iff hnd c ns as).1 h3) h4 h5 h6
  · intro h
    cases h with
    | literal t v u w h1 h2 h0 h3 => exact .literal t _ u w h1 h2 h0 h3
    | var t n x u w h1 h2 h0 h3 => exact .var t n _ u w h1 (no_act_of_var hnd h2) ((lvar_some hnd n _).2 ⟨x, h2, rfl⟩) h0 h3
    | scalarAction t n x c h1 h2 h3 => exact .scalarAction t n _ h1 ((isAction_iff hnd n _).2 ⟨x, c, h2, h3, rfl⟩)
    | directAction m n x c h1 h2 h3 h4 =>
      exact .directAction m n _ _ h1 ((lact_some hnd n _).2 ⟨x, h2, rfl⟩) (by rw [h3]; rfl) ((isAction_iff hnd n _).2 ⟨x, c, h2, h4, rfl⟩)
    | instance_ m ns as kw i j h1 h2 h3 h4 h5 =>
      refine .instance_ m ns as kw i j h1 ?_ ((refsMean_iff hnd m ns as).2 h2) h3 h4 h5
      intro n l hns hl hnone
      subst hns
      rcases (lact_some hnd n l).1 hl with ⟨x, hx, hm⟩
      cases h2 with
      | cons n ns f a as ha _ =>
        cases ha with
        | var y _ hy _ _ =>
          have := decl_unique hnd hy.1 hx.1 hy.2.2 hx.2.2
          rw [this] at hy
          exact absurd (hy.2.1.symm.trans hx.2.1) (by simp)
        | act y c hy ht hc =>
          have := decl_unique hnd hy.1 hx.1 hy.2.2 hx.2.2
          rw [this] at ht
          rw [hm, ht] at hnone
          simp at hnone

/-! ### Composition -/

theorem parseLndl_doc {cc : CharClass} (ok : cc.Ok) (hl : Lexer.Letters cc) {env : Parser.Env} (sp : Parser.SpaceOk cc env) {d : DocText} (hd : d.Ok cc env)
    (ext : Ext ν κ μ) (specs : List Spec) {fs : List (Str × OutVal)} {t tail : Str} (ho : d.out = some (fs, t, tail)) (hn : (fs.map Prod.fst).Nodup) :
    parseLndl cc env ext specs d.text =
      match Resolver.resolve ext fs (lvarsOf d) (lactsOf d) specs with
      | .ok o => .ok o
      | .error e => .error (.resolve e) := by
  have hp := Parser.C138_fields ok hl sp hd (fun fs' t' tail' h => by rw [ho] at h; cases h; exact hn)
  simp only [parseLndl, hp, afterParsing, Resolver.resolveProgram, ho, Option.map_some, lvarsOf, lactsOf]
  cases Resolver.resolve ext fs (Resolver.lvarDict (Parser.declared false d.decls)) (Resolver.lactDict (Parser.declared true d.decls)) specs <;> rfl

/-- C200: when `parse_lndl` accepts a well-formed document, the output has exactly the fields of its output block, in order, each with the
value the document says it has; every required field is there. -/
theorem C200_sound {cc : CharClass} (ok : cc.Ok) (hl : Lexer.Letters cc) {env : Parser.Env} (sp : Parser.SpaceOk cc env) {d : DocText} (hd : d.Ok cc env)
    (ext : Ext ν κ μ) (specs : List Spec) {fs : List (Str × OutVal)} {t tail : Str} (ho : d.out = some (fs, t, tail)) (hn : (fs.map Prod.fst).Nodup)
    (o : Output ν κ μ) (h : parseLndl cc env ext specs d.text = .ok o) :
    o.fields.keys = fs.map Prod.fst ∧
    (∀ s ∈ specs, s.required = true → ∃ n ∈ fs.map Prod.fst, s.name = some n) ∧
    (∀ f v, (f, v) ∈ fs → ∃ s ∈ specs, s.name = some f ∧ ∃ x, o.fields.get? f = some x ∧ Says ext d s v x) := by
  rw [parseLndl_doc ok hl sp hd ext specs ho hn] at h
  cases hr : Resolver.resolve ext fs (lvarsOf d) (lactsOf d) specs with
  | error e => rw [hr] at h; cases h
  | ok o' =>
    rw [hr] at h
    cases h
    have := Resolver.C50_sound ext fs hn (lvarsOf d) (lactsOf d) specs o hr
    refine ⟨this.2.2.2.2.1, this.2.2.1, ?_⟩
    intro f v hf
    rcases this.2.2.2.2.2 f v hf with ⟨s, hs, hsn, x, hx, hm⟩
    exact ⟨s, hs, hsn, x, hx, (meaning_iff hd.names s v x).1 hm⟩

/-- C200, the converse: when every field of the output block is named after a spec and the document says something about it, and every
required spec has a field, `parse_lndl` accepts the document; with `C200_sound` and `C200_unique` the output is what the document says. -/
theorem C200_complete {cc : CharClass} (ok : cc.Ok) (hl : Lexer.Letters cc) {env : Parser.Env} (sp : Parser.SpaceOk cc env) {d : DocText} (hd : d.Ok cc env)
    (ext : Ext ν κ μ) (specs : List Spec) (hsp : (specs.map Spec.name).Nodup) {fs : List (Str × OutVal)} {t tail : Str} (ho : d.out = some (fs, t, tail))
    (hn : (fs.map Prod.fst).Nodup) (h2 : ∀ s ∈ specs, s.required = true → ∃ n ∈ fs.map Prod.fst, s.name = some n)
    (h3 : ∀ f v, (f, v) ∈ fs → ∃ s ∈ specs, s.name = some f ∧ ∃ x, Says ext d s v x) :
    ∃ o, parseLndl cc env ext specs d.text = .ok o := by
  have hdis : ∀ n, n ∈ (lvarsOf d).keys → n ∉ (lactsOf d).keys := by
    intro n hv ha
    rcases hx : (lvarsOf d).get? n with _ | l
    · exact absurd hv ((Dict.get?_eq_none_iff _ _).1 hx)
    · rcases (lvar_some hd.names n l).1 hx with ⟨x, hx, _⟩
      exact absurd ha ((Dict.get?_eq_none_iff _ _).1 (no_act_of_var hd.names hx))
  rcases Resolver.C50_complete ext fs hn (lvarsOf d) (lactsOf d) specs hsp hdis h2 (fun f v hf => by
    rcases h3 f v hf with ⟨s, hs, hsn, x, hx⟩
    exact ⟨s, hs, hsn, x, (meaning_iff hd.names s v x).2 hx⟩) with ⟨o, hr⟩
  exact ⟨o, by rw [parseLndl_doc ok hl sp hd ext specs ho hn, hr]⟩

/-- C200: a document says at most one thing about a field. -/
theorem C200_unique {d : DocText} (hnd : (d.decls.map (fun x => refName x.header)).Nodup) (ext : Ext ν κ μ) (s : Spec) (f : Str) (hs : s.name = some f)
    (v : OutVal) (x y : FieldVal ν κ μ) (hx : Says ext d s v x) (hy : Says ext d s v y) : x = y := by
  have hg : Operable.get Spec.name [s] f = some s := by
    rcases Resolver.opget_ex (specs := [s]) (List.mem_singleton.2 rfl) hs with ⟨t, ht⟩
    have := (Resolver.opget_some ht).1
    rw [List.mem_singleton] at this
    rw [ht, this]
  rcases (Resolver.resolveField_iff ext (lvarsOf d) (lactsOf d) [s] f v x).2 s hg ((meaning_iff hnd s v x).2 hx) with ⟨as, h1⟩
  rcases (Resolver.resolveField_iff ext (lvarsOf d) (lactsOf d) [s] f v y).2 s hg ((meaning_iff hnd s v y).2 hy) with ⟨bs, h2⟩
  rw [h1] at h2
  injection h2 with h2
  injection h2

/-- C200: a well-formed document without an output block is refused. -/
theorem C200_no_out {cc : CharClass} (ok : cc.Ok) (hl : Lexer.Letters cc) {env : Parser.Env} (sp : Parser.SpaceOk cc env) {d : DocText} (hd : d.Ok cc env)
    (ext : Ext ν κ μ) (specs : List Spec) (ho : d.out = none) : parseLndl cc env ext specs d.text = .error (.resolve .noOut) := by
  have hp := Parser.C138_fields ok hl sp hd (fun fs' t' tail' h => by rw [ho] at h; cases h)
  simp only [parseLndl, hp, afterParsing, Resolver.resolveProgram, ho, Option.map_none]

theorem lact_keys {d : DocText} (hnd : (d.decls.map (fun x => refName x.header)).Nodup) (n : Str) : n ∈ (lactsOf d).keys ↔ ∃ x, IsAct d n x := by
  constructor
  · intro h
    cases hx : (lactsOf d).get? n with
    | none => exact absurd h ((Dict.get?_eq_none_iff _ _).1 hx)
    | some l => rcases (lact_some hnd n l).1 hx with ⟨x, hx, _⟩; exact ⟨x, hx⟩
  · rintro ⟨x, hx⟩
    exact Dict.mem_keys_of_get? ((lact_some hnd n _).2 ⟨x, hx, rfl⟩)

/-- C200: the actions of the output are exactly the actions declared in the document and referenced from its output block; each is the
call written in its declaration.  The others are left alone. -/
theorem C200_actions {cc : CharClass} (ok : cc.Ok) (hl : Lexer.Letters cc) {env : Parser.Env} (sp : Parser.SpaceOk cc env) {d : DocText} (hd : d.Ok cc env)
    (ext : Ext ν κ μ) (specs : List Spec) {fs : List (Str × OutVal)} {t tail : Str} (ho : d.out = some (fs, t, tail)) (hn : (fs.map Prod.fst).Nodup)
    (o : Output ν κ μ) (h : parseLndl cc env ext specs d.text = .ok o) (n : Str) :
    (n ∈ o.actions.keys ↔ (∃ x, IsAct d n x) ∧ ∃ f ns, (f, OutVal.refs ns) ∈ fs ∧ n ∈ ns) ∧
    (∀ a, o.actions.get? n = some a → ∃ x, IsAct d n x ∧ ext.parseCall x.body = some a.call ∧ a.raw = x.body ∧ a.name = n) := by
  rw [parseLndl_doc ok hl sp hd ext specs ho hn] at h
  cases hr : Resolver.resolve ext fs (lvarsOf d) (lactsOf d) specs with
  | error e => rw [hr] at h; cases h
  | ok o' =>
    rw [hr] at h
    cases h
    have := Resolver.C51_actions ext fs hn (lvarsOf d) (lactsOf d) specs o hr n
    refine ⟨by rw [this.1, lact_keys hd.names], ?_⟩
    intro a ha
    rcases this.2 a ha with ⟨m, h1, h2, h3, h4⟩
    rcases (lact_some hd.names n m).1 h1 with ⟨x, hx, hm⟩
    rw [hm] at h2 h3
    exact ⟨x, hx, h2, h3, h4⟩

/-! ### C201: the fuzzy parser on correct documents -/

/-- What the strict mode of the fuzzy parser accepts, `parse_lndl` accepts, with the same output. -/
theorem C201_strict (cc : CharClass) (env : Parser.Env) (fenv : Fuzzy.Env) (ext : Ext ν κ μ) (th : Fuzzy.Thresholds) (hth : 1 ≤ th.main) (response : Str)
    (o : Output ν κ μ) (h : parseLndlFuzzy cc env fenv ext th none response = .ok o) : parseLndl cc env ext fenv.specs response = .ok o := by
  simp only [parseLndlFuzzy, Fuzzy.active] at h
  simp only [parseLndl]
  cases hp : Parser.parseText cc env response with
  | error e => rw [hp] at h; cases h
  | ok p =>
    rw [hp] at h
    simp only [afterParsingFuzzy, Fuzzy.parseFuzzy, Fuzzy.active] at h
    simp only [afterParsing, Resolver.resolveProgram]
    cases hout : p.out with
    | none => rw [hout] at h; cases h
    | some fs =>
      rw [hout] at h
      simp only at h ⊢
      cases hc : Fuzzy.fuzzyCore fenv ext th fenv.specs (Fuzzy.specNames fenv.specs) ⟨fs, Resolver.lvarDict p.lvars, Resolver.lactDict p.lacts⟩ with
      | error e => rw [hc] at h; cases h
      | ok o' =>
        rw [hc] at h
        cases h
        have := (Fuzzy.C112_strict fenv ext th hth _ _ _ o hc).2.2.2
        simp only at this
        rw [this]

/-- C201: on a well-formed document that the strict mode accepts, the fuzzy parser gives, with any thresholds, the output of `parse_lndl`, which is what the
document says (`C200_sound`). -/
theorem C201_correct_documents {cc : CharClass} (ok : cc.Ok) (hl : Lexer.Letters cc) {env : Parser.Env} (sp : Parser.SpaceOk cc env) {d : DocText}
    (hd : d.Ok cc env) (fenv : Fuzzy.Env) (ext : Ext ν κ μ) (th th' : Fuzzy.Thresholds) (hth : 1 ≤ th.main) {fs : List (Str × OutVal)} {t tail : Str}
    (ho : d.out = some (fs, t, tail)) (hn : (fs.map Prod.fst).Nodup) (o : Output ν κ μ) (h : parseLndlFuzzy cc env fenv ext th none d.text = .ok o) :
    parseLndlFuzzy cc env fenv ext th' none d.text = .ok o ∧ parseLndl cc env ext fenv.specs d.text = .ok o ∧ o.fields.keys = fs.map Prod.fst ∧
    (∀ f v, (f, v) ∈ fs → ∃ s ∈ fenv.specs, s.name = some f ∧ ∃ x, o.fields.get? f = some x ∧ Says ext d s v x) := by
  have hs := C201_strict cc env fenv ext th hth d.text o h
  have hsound := C200_sound ok hl sp hd ext fenv.specs ho hn o hs
  refine ⟨?_, hs, hsound.1, hsound.2.2⟩
  have hp := Parser.C138_fields ok hl sp hd (fun fs' t' tail' h => by rw [ho] at h; cases h; exact hn)
  simp only [parseLndlFuzzy, hp, afterParsingFuzzy, Fuzzy.parseFuzzy, Fuzzy.active, ho, Option.map_some] at h ⊢
  cases hc : Fuzzy.fuzzyCore fenv ext th fenv.specs (Fuzzy.specNames fenv.specs)
      ⟨fs, Resolver.lvarDict (Parser.declared false d.decls), Resolver.lactDict (Parser.declared true d.decls)⟩ with
  | error e => rw [hc] at h; cases h
  | ok o' =>
    rw [hc] at h
    cases h
    rw [Fuzzy.C113_exact_unchanged fenv ext th th' hth _ _ (⟨fs, _, _⟩ : Fuzzy.Fixed) hn o hc]

/-! ### A document that meets the hypotheses -/

/-- A class with a title field given by a variable, and two literals. -/
def sampleSpecs : List Spec := [⟨some "title".toList, .scalar 0, true, 0⟩, ⟨some ['n'], .scalar 1, true, 1⟩, ⟨some "ok".toList, .scalar 2, false, 2⟩]

def sampleFuzzy : Fuzzy.Env := ⟨sampleSpecs, some "Report".toList, fun _ => [], id, fun a b => if a = b then 1 else 0⟩

example : parseLndl Lexer.asciiClass Parser.asciiEnv Resolver.demoExt sampleSpecs Parser.sampleDoc.text =
    .ok ⟨[("title".toList, .scalar "Good \"news\"".toList), (['n'], .scalar ['3']), ("ok".toList, .scalar ['t'])], []⟩ := by decide +kernel

example : Parser.sampleDoc.Ok Lexer.asciiClass Parser.asciiEnv := Parser.sampleDoc_ok

/-- It says what the variable holds. -/
example : Says Resolver.demoExt Parser.sampleDoc ⟨some "title".toList, .scalar 0, true, 0⟩ (.refs [['t']]) (.scalar "Good \"news\"".toList) :=
  .var 0 ['t'] _ _ _ rfl ⟨List.mem_cons_self, rfl, rfl⟩ rfl rfl

example : parseLndlFuzzy Lexer.asciiClass Parser.asciiEnv sampleFuzzy Resolver.demoExt ⟨1, 1, 1, 1, 1⟩ none Parser.sampleDoc.text =
    .ok ⟨[("title".toList, .scalar "Good \"news\"".toList), (['n'], .scalar ['3']), ("ok".toList, .scalar ['t'])], []⟩ := by decide +kernel

end Verif.Lndl
