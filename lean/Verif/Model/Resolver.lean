import Verif.Model.Parser
import Verif.Model.Operable

/-!
# Model of `src/lionherd_core/lndl/resolver.py`

Python values are an abstract type `ν`, parsed function calls an abstract type `κ`, model instances an abstract type `μ`.  Function-call parsing, `parse_value`, the scalar conversions, Pydantic's construction of
instances and the validators of a spec are parameters (`Ext`).  Exceptions are represented by their kind.
-/

namespace Verif.Resolver

open Verif.Parser (Str OutVal)

/-- `LvarMetadata` and `RLvarMetadata`, `types.py:15-43`: raw lvars have no model and field. -/
structure LvarMeta where
  ns : Option (Str × Str)
  value : Str
  deriving DecidableEq, Repr

/-- `LactMetadata`, `types.py:46-61`. -/
structure LactMeta where
  model : Option Str
  field : Option Str
  call : Str
  deriving DecidableEq, Repr

/-- The types a spec may have, as distinguished by the resolver (`resolver.py:74-75`, `153-158`). -/
inductive Ty where
  | scalar (t : Nat)        -- float, str, int, bool
  | model (name : Str)      -- a Pydantic model class, with its `__name__`
  | other
  deriving DecidableEq, Repr

/-- What the resolver uses of a `Spec`.  `id` stands for everything else. Serves `modelMix` (`resolver.py:191-290`). -/
structure Spec where
  name : Option Str
  ty : Ty
  required : Bool           -- spec.get("required", True)
  id : Nat
  deriving DecidableEq, Repr

/-- `ActionCall`, `types.py:78-95`; `call` holds function and arguments. -/
structure Action (κ : Type) where
  name : Str
  call : κ
  raw : Str
  deriving DecidableEq, Repr

/-- Values of `kwargs`. Serves `actionArg` (`resolver.py:195-233`). -/
inductive Arg (ν κ : Type) where
  | val (v : ν)
  | action (a : Action κ)
  deriving DecidableEq, Repr

/-- Values of `LNDLOutput.fields`. Serves the model of `resolver.py:124-142`. -/
inductive FieldVal (ν κ μ : Type) where
  | action (a : Action κ)
  | scalar (v : ν)
  | inst (m : μ)
  deriving DecidableEq, Repr

/-- Errors of a field. Serves `mkAction` (`resolver.py:93-109`). -/
inductive FErr where
  | value          -- ValueError
  | typeErr        -- TypeError
  | mismatch       -- TypeMismatchError
  | other          -- anything else raised by a validator or conversion
  deriving DecidableEq, Repr

/-- Errors of the resolver. Serves `finish` (`resolver.py:296-306`). -/
inductive RErr where
  | collision                  -- ValueError: name used by an lvar and a lact
  | notAllowed                 -- ValueError of check_allowed
  | missing                    -- MissingFieldError
  | noOut                      -- MissingOutBlockError
  | group (es : List FErr)     -- ExceptionGroup
  deriving DecidableEq, Repr

/-- Code outside of this module. Serves `mkAction` (`resolver.py:93-109`). -/
structure Ext (ν κ μ : Type) where
  parseCall : Str → Option κ                       -- parse_function_call; `none`: ValueError
  parseValue : Str → Except FErr ν                 -- parser.py:623-637
  lit : OutVal → Except FErr ν                     -- a literal of the OUT block, after parse_value for strings
  convert : Nat → ν → Except FErr ν                -- target_type(parsed_value)
  construct : Str → Dict Str (Arg ν κ) → Except FErr μ    -- target_type(**kwargs)
  constructRaw : Str → Dict Str (Arg ν κ) → μ             -- target_type.model_construct(**kwargs)
  validators : Spec → μ → Except FErr μ            -- resolver.py:280-288

variable {ν κ μ : Type}

/-- Result of a field: its value, and the actions entered in `parsed_actions` on the way, in order. Serves `convertTo` (`resolver.py:124-142`). -/
abbrev FRes (ν κ μ : Type) := Except FErr (FieldVal ν κ μ × List (Action κ))

/-- Parse the call of an action, `resolver.py:93-109`, `168-184`, `213-229`. -/
def mkAction (ext : Ext ν κ μ) (n : Str) (m : LactMeta) : Except FErr (Action κ) :=
  match ext.parseCall m.call with
  | none => .error .value
  | some c => .ok ⟨n, c, m.call⟩

/-- Conversion of a scalar, `resolver.py:124-142`; `p` is the result of `parse_value`. -/
def convertTo (ext : Ext ν κ μ) (t : Nat) (p : Except FErr ν) : FRes ν κ μ :=
  match p with
  | .error e => .error e
  | .ok v =>
    match ext.convert t v with
    | .ok v => .ok (.scalar v, [])
    | .error e => .error e

/-- A field whose value is an action. Serves `scalarRef` (`resolver.py:85-142`). -/
def actionField (r : Except FErr (Action κ)) : FRes ν κ μ :=
  match r with
  | .ok a => .ok (.action a, [a])
  | .error e => .error e

/-- Scalar field with one reference, `resolver.py:85-142`. -/
def scalarRef (ext : Ext ν κ μ) (lvars : Dict Str LvarMeta) (lacts : Dict Str LactMeta) (t : Nat) (n : Str) : FRes ν κ μ :=
  match lacts.get? n with
  | some m => actionField (mkAction ext n m)
  | none =>
    match lvars.get? n with
    | none => .error .value
    | some l => convertTo ext t (ext.parseValue l.value)

/-- Scalar field, `resolver.py:77-142`. -/
def scalarField (ext : Ext ν κ μ) (lvars : Dict Str LvarMeta) (lacts : Dict Str LactMeta) (t : Nat) (v : OutVal) : FRes ν κ μ :=
  match v with
  | .refs [n] => scalarRef ext lvars lacts t n
  | .refs _ => .error .value
  | v => convertTo ext t (ext.lit v)

/-- The keyword argument for an action reference, `resolver.py:195-233`. -/
def actionArg (ext : Ext ν κ μ) (model : Str) (n : Str) (m : LactMeta) : Except FErr (Str × Arg ν κ) :=
  match m.model, m.field with
  | some mo, some f =>
    if mo ≠ model then .error .mismatch
    else
      match mkAction ext n m with
      | .ok a => .ok (f, .action a)
      | .error e => .error e
  | _, _ => .error .value

/-- The parsed value as keyword argument for `f`, `resolver.py:257-261`. -/
def valArg (f : Str) (p : Except FErr ν) : Except FErr (Str × Arg ν κ) :=
  match p with
  | .error e => .error e
  | .ok v => .ok (f, .val v)

/-- The keyword argument for a variable reference, `resolver.py:235-261`. -/
def lvarArg (ext : Ext ν κ μ) (model : Str) (l : LvarMeta) : Except FErr (Str × Arg ν κ) :=
  match l.ns with
  | none => .error .value
  | some (mo, f) => if mo ≠ model then .error .mismatch else valArg f (ext.parseValue l.value)

/-- The keyword argument for a reference, `resolver.py:193-261`. -/
def refArg (ext : Ext ν κ μ) (lvars : Dict Str LvarMeta) (lacts : Dict Str LactMeta) (model : Str) (n : Str) : Except FErr (Str × Arg ν κ) :=
  match lacts.get? n with
  | some m => actionArg ext model n m
  | none =>
    match lvars.get? n with
    | none => .error .value
    | some l => lvarArg ext model l

/-- The arguments for all references, in order. Serves `modelMix` (`resolver.py:191-290`). -/
def refArgs (ext : Ext ν κ μ) (lvars : Dict Str LvarMeta) (lacts : Dict Str LactMeta) (model : Str) : List Str → Except FErr (List (Str × Arg ν κ))
  | [] => .ok []
  | n :: ns =>
    match refArg ext lvars lacts model n with
    | .error e => .error e
    | .ok a =>
      match refArgs ext lvars lacts model ns with
      | .error e => .error e
      | .ok as => .ok (a :: as)

/-- The action of an argument, if it is one. Serves `hasActions` (`resolver.py:267`). -/
def Arg.act? (a : Arg ν κ) : Option (Action κ) :=
  match a with
  | .val _ => none
  | .action a => some a

/-- The dictionary `kwargs`: a later argument for a field replaces an earlier one, `resolver.py:232`, `257-261`. -/
def mkKwargs (as : List (Str × Arg ν κ)) : Dict Str (Arg ν κ) := as.foldl (fun d a => d.set a.1 a.2) []

/-- `has_actions`, `resolver.py:267`. -/
def hasActions (kw : Dict Str (Arg ν κ)) : Bool := kw.any (fun a => a.2.act?.isSome)

/-- Construction of the instance, `resolver.py:263-278`. -/
def build (ext : Ext ν κ μ) (model : Str) (kw : Dict Str (Arg ν κ)) : Except FErr μ :=
  if hasActions kw then .ok (ext.constructRaw model kw) else ext.construct model kw

/-- The mixing case, `resolver.py:191-290`. -/
def modelMix (ext : Ext ν κ μ) (lvars : Dict Str LvarMeta) (lacts : Dict Str LactMeta) (spec : Spec) (model : Str) (ns : List Str) : FRes ν κ μ :=
  match refArgs ext lvars lacts model ns with
  | .error e => .error e
  | .ok as =>
    match build ext model (mkKwargs as) with
    | .error e => .error e
    | .ok i =>
      match ext.validators spec i with
      | .error e => .error e
      | .ok i => .ok (.inst i, as.filterMap (fun a => a.2.act?))

/-- The direct action of a field, `resolver.py:160-189`: the only reference is a lact without model. -/
def direct? (lacts : Dict Str LactMeta) (ns : List Str) : Option (Str × LactMeta) :=
  match ns with
  | [n] =>
    match lacts.get? n with
    | some m => if m.model = none then some (n, m) else none
    | none => none
  | _ => none

/-- Model field, `resolver.py:144-290`. -/
def modelField (ext : Ext ν κ μ) (lvars : Dict Str LvarMeta) (lacts : Dict Str LactMeta) (spec : Spec) (model : Str) (v : OutVal) : FRes ν κ μ :=
  match v with
  | .refs ns =>
    match direct? lacts ns with
    | some (n, m) => actionField (mkAction ext n m)
    | none => modelMix ext lvars lacts spec model ns
  | _ => .error .value

/-- A field of another type, `resolver.py:146-158`. -/
def otherField (v : OutVal) : FRes ν κ μ :=
  match v with
  | .refs _ => .error .typeErr
  | _ => .error .value

/-- One iteration of the loop over OUT fields, `resolver.py:62-290`. -/
def resolveField (ext : Ext ν κ μ) (lvars : Dict Str LvarMeta) (lacts : Dict Str LactMeta) (specs : List Spec) (f : Str) (v : OutVal) : FRes ν κ μ :=
  match Operable.get Spec.name specs f with
  | none => .error .value
  | some s =>
    match s.ty with
    | .scalar t => scalarField ext lvars lacts t v
    | .model m => modelField ext lvars lacts s m v
    | .other => otherField v

/-- `LNDLOutput` (without the fields kept for debugging). Serves `finish` (`resolver.py:296-306`). -/
structure Output (ν κ μ : Type) where
  fields : Dict Str (FieldVal ν κ μ)
  actions : Dict Str (Action κ)
  deriving DecidableEq, Repr

/-- State of the loop. Serves `loopStep` (`resolver.py:292-294`). -/
structure LoopSt (ν κ μ : Type) where
  out : Output ν κ μ
  errs : List FErr

/-- Enter parsed actions. Serves `loopStep` (`resolver.py:292-294`). -/
def addActions (d : Dict Str (Action κ)) (as : List (Action κ)) : Dict Str (Action κ) := as.foldl (fun d a => d.set a.name a) d

/-- One iteration, with the error collection of `resolver.py:292-294`.  Simplified: actions entered before a field fails are forgotten (the call raises in that case). -/
def loopStep (ext : Ext ν κ μ) (lvars : Dict Str LvarMeta) (lacts : Dict Str LactMeta) (specs : List Spec) (st : LoopSt ν κ μ) (fv : Str × OutVal) : LoopSt ν κ μ :=
  match resolveField ext lvars lacts specs fv.1 fv.2 with
  | .error e => { st with errs := st.errs ++ [e] }
  | .ok (x, as) => { st with out := ⟨st.out.fields.set fv.1 x, addActions st.out.actions as⟩ }

/-- Is a required spec missing?  `resolver.py:51-55`; an unnamed required spec always is. -/
def missingSpec (out : Dict Str OutVal) (s : Spec) : Bool :=
  s.required && (match s.name with | none => true | some n => !out.has n)

/-- The end of the loop, `resolver.py:296-306`. -/
def finish (st : LoopSt ν κ μ) : Except RErr (Output ν κ μ) := if st.errs = [] then .ok st.out else .error (.group st.errs)

/-- `resolve_references_prefixed`, `resolver.py:17-306`. -/
def resolve (ext : Ext ν κ μ) (out : Dict Str OutVal) (lvars : Dict Str LvarMeta) (lacts : Dict Str LactMeta) (specs : List Spec) : Except RErr (Output ν κ μ) :=
  if lvars.keys.any (fun k => lacts.has k) then .error .collision
  else if Operable.checkAllowed Spec.name specs out.keys = false then .error .notAllowed
  else if specs.any (missingSpec out) then .error .missing
  else finish (out.foldl (loopStep ext lvars lacts specs) ⟨⟨[], []⟩, []⟩)

/-! ### `parse_lndl` -/

/-- Metadata of an lvar declaration, `resolver.py:333-348`. -/
def lvarMeta (d : Parser.Decl) : LvarMeta :=
  match d.header with
  | .raw _ => ⟨none, d.content⟩
  | .named m f => ⟨some (m, f), d.content⟩
  | .aliased m f _ => ⟨some (m, f), d.content⟩

/-- Metadata of a lact declaration, `resolver.py:350-357`. -/
def lactMeta (d : Parser.Decl) : LactMeta :=
  match d.header with
  | .raw _ => ⟨none, none, d.content⟩
  | .named m f => ⟨some m, some f, d.content⟩
  | .aliased m f _ => ⟨some m, some f, d.content⟩

/-- `lvars_prefixed`. Serves `resolveProgram` (`resolver.py:330-366`). -/
def lvarDict (ds : List Parser.Decl) : Dict Str LvarMeta := ds.foldl (fun d x => d.set x.header.alias (lvarMeta x)) []

/-- `lacts_prefixed`. Serves `resolveProgram` (`resolver.py:330-366`). -/
def lactDict (ds : List Parser.Decl) : Dict Str LactMeta := ds.foldl (fun d x => d.set x.header.alias (lactMeta x)) []

/-- `parse_lndl` after parsing, `resolver.py:330-366`. -/
def resolveProgram (ext : Ext ν κ μ) (p : Parser.Program) (specs : List Spec) : Except RErr (Output ν κ μ) :=
  match p.out with
  | none => .error .noOut
  | some out => resolve ext out (lvarDict p.lvars) (lactDict p.lacts) specs

end Verif.Resolver
