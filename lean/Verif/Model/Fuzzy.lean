import Verif.Model.Resolver
import Verif.Model.Similarity

/-!
# Model of `src/lionherd_core/lndl/fuzzy.py`

The similarity score (Jaro-Winkler, with its default scaling) and `str.lower` are parameters, instantiated with `Verif.Sim.jaroWinkler` for concrete statements.  Sets are lists in
some order.  Lexing and parsing happen before (`Verif.Parser`).
-/

namespace Verif.Fuzzy

open Verif.Parser (Str OutVal)
open Verif.Resolver (LvarMeta LactMeta Spec Ty Ext Output RErr)

/-- Errors of the fuzzy parser. Serves `choose` (`fuzzy.py:107-132`). -/
inductive Err where
  | missing                  -- MissingFieldError
  | ambiguous                -- AmbiguousMatchError
  | value                    -- ValueError
  | noOut                    -- MissingOutBlockError
  | strict (e : RErr)        -- raised by the strict resolver
  deriving DecidableEq, Repr

/-! ### `_correct_name` -/

section
variable {ω : Type} [DecidableEq ω]

/-- `max(scores.values())` of a non-empty list. Serves `choose` (`fuzzy.py:107-132`). -/
def maxScore (score : ω → Rat) : List ω → Rat
  | [] => 0
  | [w] => score w
  | w :: v :: ws => max (score w) (maxScore score (v :: ws))

/-- `abs(v - max_score) < 0.05`. Serves `choose` (`fuzzy.py:107-132`). -/
def near (v m : Rat) : Bool := decide (v - m < 1 / 20 ∧ m - v < 1 / 20)

/-- `max(scores.items(), key=...)`: the first of the best. Serves `choose` (`fuzzy.py:107-132`). -/
def argmax (score : ω → Rat) : List ω → Option ω
  | [] => none
  | [w] => some w
  | w :: v :: ws => if maxScore score (v :: ws) ≤ score w then some w else argmax score (v :: ws)

/-- Tie detection and choice, `fuzzy.py:107-132`, on the (distinct) candidates found. -/
def choose (score : ω → Rat) (ws : List ω) : Except Err ω :=
  if 1 < (ws.filter (fun w => near (score w) (maxScore score ws))).length then .error .ambiguous
  else
    match argmax score ws with
    | none => .error .missing
    | some w => .ok w

/-- `_correct_name`, `fuzzy.py:57-132`.  The candidates are found by `string_similarity` without regard to case; their scores are then computed anew with the case kept. -/
def correctName (lower : ω → ω) (score : ω → ω → Rat) (threshold : Rat) (target : ω) (cands : List ω) : Except Err ω :=
  if target ∈ cands then .ok target
  else if 1 ≤ threshold then .error .missing
  else
    match Sim.stringSimilarity lower (fun _ _ => false) score false target cands threshold with
    | none => .error .value
    | some none => .error .missing
    | some (some r) => choose (score target) r.eraseDups

end

/-! ### `parse_lndl_fuzzy` -/

/-- Thresholds, `fuzzy.py:192-198`. -/
structure Thresholds where
  main : Rat
  field : Rat
  lvar : Rat
  model : Rat
  spec : Rat

/-- The defaults: the global threshold, but at least 0.90 for model names. Built on `Thresholds` (`fuzzy.py:192-198`). -/
def mkThresholds (t : Rat) (field lvar model spec : Option Rat) : Thresholds :=
  ⟨t, field.getD t, lvar.getD t, model.getD (max t (9 / 10)), spec.getD t⟩

/-- What the parser gets besides the text: the operable, its name, the fields of a model class, the similarity.
Serves `active` (`fuzzy.py:200-211`). -/
structure Env where
  specs : List Spec
  opName : Option Str
  modelFields : Spec → List Str
  lower : Str → Str
  score : Str → Str → Rat

/-- Names of specs.  Simplified: the sentinel name of an unnamed spec is left out. Serves `active` (`fuzzy.py:200-211`). -/
def specNames (specs : List Spec) : List Str := specs.filterMap Spec.name

/-- `active_specs` and `active_spec_names`, `fuzzy.py:200-211`. -/
def active (env : Env) (caps : Option (List Str)) : Except Err (List Spec × List Str) :=
  match caps with
  | none => .ok (env.specs, specNames env.specs)
  | some cs =>
    if Operable.checkAllowed Spec.name env.specs cs then
      match Operable.getSpecs Spec.name env.specs (some cs.eraseDups) none with
      | .ok ss => .ok (ss, cs.eraseDups)
      | .error _ => .error .value
    else .error .value

/-- Is the base type a Pydantic model?  Its class name. Serves `specStep` (`fuzzy.py:266-284`). -/
def modelName (s : Spec) : Option Str :=
  match s.ty with
  | .model n => some n
  | _ => none

/-- Enter the name of the operable as a virtual model, `fuzzy.py:279-284`. -/
def addVirtual (opName : Option Str) (s : Spec) (m : Dict Str (Spec × Bool)) : Dict Str (Spec × Bool) :=
  match opName with
  | none => m
  | some [] => m
  | some n =>
    if m.has n then m
    else if (m.set n (s, false)).has (n ++ "Response".toList) then m.set n (s, false)
    else (m.set n (s, false)).set (n ++ "Response".toList) (s, false)

/-- One iteration over the active specs, `fuzzy.py:266-284`. -/
def specStep (opName : Option Str) (m : Dict Str (Spec × Bool)) (s : Spec) : Dict Str (Spec × Bool) :=
  match modelName s with
  | some n => m.set n (s, true)
  | none => addVirtual opName s m

/-- `spec_map`. Serves `fuzzyCore` (`fuzzy.py:254-465`). -/
def specMap (opName : Option Str) (specs : List Spec) : Dict Str (Spec × Bool) := specs.foldl (specStep opName) []

/-- The expected fields of an entry of `spec_map`, `fuzzy.py:309-315`. -/
def expectedFields (env : Env) (names : List Str) (e : Spec × Bool) : List Str := if e.2 then env.modelFields e.1 else names

/-- Strict check of a model and field, `fuzzy.py:292-321`, `323-343`. -/
def strictNs (env : Env) (names : List Str) (sm : Dict Str (Spec × Bool)) (m f : Str) : Bool :=
  match sm.get? m with
  | none => false
  | some e => decide (f ∈ expectedFields env names e)

/-- Strict check of an lvar; raw ones need none. Serves `strictOk` (`fuzzy.py:290-353`). -/
def strictLvar (env : Env) (names : List Str) (sm : Dict Str (Spec × Bool)) (l : LvarMeta) : Bool :=
  match l.ns with
  | none => true
  | some (m, f) => strictNs env names sm m f

/-- Strict check of a lact: only if it has a model. Serves `strictOk` (`fuzzy.py:290-353`). -/
def strictLact (env : Env) (names : List Str) (sm : Dict Str (Spec × Bool)) (l : LactMeta) : Bool :=
  match l.model with
  | none => true
  | some [] => true
  | some m => strictNs env names sm m (l.field.getD [])

/-- Everything checked in strict mode, `fuzzy.py:290-353`; all these failures raise `MissingFieldError`. -/
def strictOk (env : Env) (names : List Str) (sm : Dict Str (Spec × Bool)) (out : Dict Str OutVal) (lvars : Dict Str LvarMeta) (lacts : Dict Str LactMeta) : Bool :=
  lvars.all (fun l => strictLvar env names sm l.2) && lacts.all (fun l => strictLact env names sm l.2) && out.keys.all (fun k => decide (k ∈ names))

/-- One entry of `model_corrections`, `fuzzy.py:366-370`. -/
def modelStep (env : Env) (th : Thresholds) (sm : Dict Str (Spec × Bool)) (d : Dict Str Str) (l : LvarMeta) : Except Err (Dict Str Str) :=
  match l.ns with
  | none => .ok d
  | some (m, _) =>
    match correctName env.lower env.score th.model m sm.keys with
    | .error e => .error e
    | .ok m' => .ok (d.set m m')

/-- `model_corrections`.  Simplified: the Python code iterates over a set of raw names, so which of several errors is raised first is not determined; here it is the first in order of declaration.
Serves `correctAll` (`fuzzy.py:355-460`). -/
def modelCorr (env : Env) (th : Thresholds) (sm : Dict Str (Spec × Bool)) : List LvarMeta → Dict Str Str → Except Err (Dict Str Str)
  | [], d => .ok d
  | l :: ls, d =>
    match modelStep env th sm d l with
    | .error e => .error e
    | .ok d' => modelCorr env th sm ls d'

/-- The expected fields of the corrected model; a missing entry is impossible (`KeyError`). Serves `fieldStep` (`fuzzy.py:372-389`). -/
def fieldsFor (env : Env) (names : List Str) (sm : Dict Str (Spec × Bool)) (m : Str) : List Str :=
  match sm.get? m with
  | none => []
  | some e => expectedFields env names e

/-- One entry of `field_corrections`, `fuzzy.py:372-389`. -/
def fieldStep (env : Env) (th : Thresholds) (names : List Str) (sm : Dict Str (Spec × Bool)) (mc : Dict Str Str) (d : Dict (Str × Str) Str) (l : LvarMeta) : Except Err (Dict (Str × Str) Str) :=
  match l.ns with
  | none => .ok d
  | some (m, f) =>
    match correctName env.lower env.score th.field f (fieldsFor env names sm ((mc.get? m).getD m)) with
    | .error e => .error e
    | .ok f' => .ok (d.set (m, f) f')

/-- `field_corrections`. Serves `correctAll` (`fuzzy.py:355-460`). -/
def fieldCorr (env : Env) (th : Thresholds) (names : List Str) (sm : Dict Str (Spec × Bool)) (mc : Dict Str Str) : List LvarMeta → Dict (Str × Str) Str → Except Err (Dict (Str × Str) Str)
  | [], d => .ok d
  | l :: ls, d =>
    match fieldStep env th names sm mc d l with
    | .error e => .error e
    | .ok d' => fieldCorr env th names sm mc ls d'

/-- Apply the corrections to an lvar, `fuzzy.py:391-408`. -/
def fixLvar (mc : Dict Str Str) (fc : Dict (Str × Str) Str) (l : LvarMeta) : LvarMeta :=
  match l.ns with
  | none => l
  | some (m, f) => ⟨some ((mc.get? m).getD m, (fc.get? (m, f)).getD f), l.value⟩

/-- Apply the corrections found for lvars to a lact, `fuzzy.py:410-427`. -/
def fixLact (mc : Dict Str Str) (fc : Dict (Str × Str) Str) (l : LactMeta) : LactMeta :=
  match l.model, l.field with
  | some [], _ => l
  | some m, some f => ⟨some ((mc.get? m).getD m), some ((fc.get? (m, f)).getD f), l.call⟩
  | some m, none => ⟨some ((mc.get? m).getD m), none, l.call⟩
  | none, _ => l

/-- Correct the keys of the OUT block, `fuzzy.py:429-437`. -/
def fixOut (env : Env) (th : Thresholds) (names : List Str) : List (Str × OutVal) → Dict Str OutVal → Except Err (Dict Str OutVal)
  | [], d => .ok d
  | (k, v) :: r, d =>
    match correctName env.lower env.score th.spec k names with
    | .error e => .error e
    | .ok k' => fixOut env th names r (d.set k' v)

/-- Correct a list of references. Serves `fixVal` (`fuzzy.py:445-460`). -/
def fixRefs (env : Env) (th : Thresholds) (avail : List Str) : List Str → Except Err (List Str)
  | [] => .ok []
  | n :: ns =>
    match correctName env.lower env.score th.lvar n avail with
    | .error e => .error e
    | .ok n' =>
      match fixRefs env th avail ns with
      | .error e => .error e
      | .ok r => .ok (n' :: r)

/-- Correct a value of the OUT block, `fuzzy.py:445-460`. -/
def fixVal (env : Env) (th : Thresholds) (avail : List Str) (v : OutVal) : Except Err OutVal :=
  match v with
  | .refs ns =>
    match fixRefs env th avail ns with
    | .error e => .error e
    | .ok r => .ok (.refs r)
  | v => .ok v

/-- `out_fields_final`. Serves the model of `fuzzy.py:355-460`. -/
def fixVals (env : Env) (th : Thresholds) (avail : List Str) : List (Str × OutVal) → Except Err (Dict Str OutVal)
  | [] => .ok []
  | (k, v) :: r =>
    match fixVal env th avail v with
    | .error e => .error e
    | .ok v' =>
      match fixVals env th avail r with
      | .error e => .error e
      | .ok d => .ok ((k, v') :: d)

/-- Apply a function to the values of a dictionary. Serves `correctAll` (`fuzzy.py:355-460`). -/
def mapVals {β γ : Type} (f : β → γ) (d : Dict Str β) : Dict Str γ := d.map (fun kv => (kv.1, f kv.2))

/-- The corrected inputs of the strict resolver. Serves `correctAll` (`fuzzy.py:355-460`). -/
structure Fixed where
  out : Dict Str OutVal
  lvars : Dict Str LvarMeta
  lacts : Dict Str LactMeta
  deriving DecidableEq, Repr

variable {ν κ μ : Type}

/-- Corrections of the OUT block, given the corrected declarations. Serves `correctAll` (`fuzzy.py:355-460`). -/
def correctOut (env : Env) (th : Thresholds) (names : List Str) (out : Dict Str OutVal) (lvars : Dict Str LvarMeta) (lacts : Dict Str LactMeta) : Except Err Fixed :=
  match fixOut env th names out [] with
  | .error e => .error e
  | .ok out1 =>
    match fixVals env th (lvars.keys ++ lacts.keys) out1 with
    | .error e => .error e
    | .ok out2 => .ok ⟨out2, lvars, lacts⟩

/-- Steps 2 to 4, `fuzzy.py:355-460`. -/
def correctAll (env : Env) (th : Thresholds) (names : List Str) (sm : Dict Str (Spec × Bool)) (out : Dict Str OutVal) (lvars : Dict Str LvarMeta) (lacts : Dict Str LactMeta) : Except Err Fixed :=
  match modelCorr env th sm (lvars.map Prod.snd) [] with
  | .error e => .error e
  | .ok mc =>
    match fieldCorr env th names sm mc (lvars.map Prod.snd) [] with
    | .error e => .error e
    | .ok fc => correctOut env th names out (mapVals (fixLvar mc fc) lvars) (mapVals (fixLact mc fc) lacts)

/-- The call of the strict resolver. Serves `fuzzyCore` (`fuzzy.py:254-465`). -/
def runStrict (ext : Ext ν κ μ) (specs : List Spec) (x : Fixed) : Except Err (Output ν κ μ) :=
  match Resolver.resolve ext x.out x.lvars x.lacts specs with
  | .ok o => .ok o
  | .error e => .error (.strict e)

/-- From the OUT block on, `fuzzy.py:254-465`. -/
def fuzzyCore (env : Env) (ext : Ext ν κ μ) (th : Thresholds) (specs : List Spec) (names : List Str) (x : Fixed) : Except Err (Output ν κ μ) :=
  if 1 ≤ th.main then
    if strictOk env names (specMap env.opName specs) x.out x.lvars x.lacts then runStrict ext specs x else .error .missing
  else
    match correctAll env th names (specMap env.opName specs) x.out x.lvars x.lacts with
    | .error e => .error e
    | .ok y => runStrict ext specs y

/-- `parse_lndl_fuzzy`, `fuzzy.py:135-465`, on a parsed program. -/
def parseFuzzy (env : Env) (ext : Ext ν κ μ) (th : Thresholds) (caps : Option (List Str)) (p : Parser.Program) : Except Err (Output ν κ μ) :=
  match active env caps with
  | .error e => .error e
  | .ok (specs, names) =>
    match p.out with
    | none => .error .noOut
    | some out => fuzzyCore env ext th specs names ⟨out, Resolver.lvarDict p.lvars, Resolver.lactDict p.lacts⟩

end Verif.Fuzzy
