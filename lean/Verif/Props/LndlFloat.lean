import Verif.Props.LndlValue
import Verif.Props.ToNum

/-!
# C289, C290: float fields of an LNDL output, and literals of the OUT block
-/

set_option linter.unusedSectionVars false
set_option linter.unusedSimpArgs false
set_option linter.unusedVariables false

namespace Verif.LndlValue

open Verif.Parser (Str OutVal)
open Verif.Resolver (FErr Ext Spec LvarMeta LactMeta Output resolve)
open Verif.ToNum (F Double Nearest round53)

variable {κ μ : Type}

/-- The value is the number `x` (finite or not). -/
inductive IsNumber (env : Env) : Val → F → Prop where
  | int (n : Int) : IsNumber env (.int n) (.fin n)
  | float (x : F) : IsNumber env (.float x) x
  | text (s : Str) (x : F) : env.floatText s = some x → IsNumber env (.str s) x

theorem round53_iff (m : Nat) : round53 m = m ↔ Double m := by
  have h := ToNum.C128_nearest m
  constructor
  · intro e; rw [← e]; exact h.1
  · intro hd
    have := h.2.1 m hd
    omega

theorem floatOfInt_iff (n : Int) (x : F) : floatOfInt n = .ok x ↔ ∃ m, Nearest n.natAbs m ∧ m = round53 n.natAbs ∧ m < 2 ^ 1024 ∧ x = .fin ((n.sign * m : Int)) := by
  unfold floatOfInt ToNum.floatOfInt
  by_cases hb : round53 n.natAbs < 2 ^ 1024
  · rw [if_pos hb]
    constructor
    · intro h; cases h; exact ⟨_, ToNum.C128_nearest _, rfl, hb, by rw [ToNum.ofInt_sign]⟩
    · rintro ⟨m, -, rfl, -, rfl⟩; rw [ToNum.ofInt_sign]
  · rw [if_neg hb]
    constructor
    · intro h; cases h
    · rintro ⟨m, -, rfl, h, -⟩; exact absurd h hb

theorem sign_mul_eq (n : Int) (m : Nat) : n.sign * (m : Int) = n ↔ m = n.natAbs ∨ n = 0 := by
  rcases Int.lt_trichotomy n 0 with h | h | h
  · rw [Int.sign_eq_neg_one_of_neg h]; omega
  · subst h; simp
  · rw [Int.sign_eq_one_of_pos h]; omega

/-- C289, exactly: when a field of type `float` for which a text is written holds `x`, the text denotes the number `x` if and only if it does not stand for a truth value, a compound
value or a whole number that is no double. -/
theorem C289_exact_partial (env : Env) (base : Ext Val κ μ) (out : Dict Str OutVal) (wf : out.WF) (lvars : Dict Str LvarMeta) (lacts : Dict Str LactMeta) (specs : List Spec)
    (o : Output Val κ μ) (h : resolve (ext env base) out lvars lacts specs = .ok o) (f t s : Str) (hs : HasType specs f 0) (hw : Written out lvars lacts f t)
    (hst : Stripped t s) :
    ∃ v x, Reads env s v ∧ o.fields.get? f = some (.scalar (.float x)) ∧
      (IsNumber env v x ↔ (∀ b, v ≠ .bool b) ∧ (∀ k, v ≠ .other k) ∧ ∀ n, v = .int n → Double n.natAbs) := by
  obtain ⟨v, w, h1, h2, h3⟩ := field_reads env base wf h hs hw hst
  have h2' : (toFloat env v).map Val.float = .ok w := h2
  cases hi : toFloat env v with
  | error e => rw [hi] at h2'; cases h2'
  | ok x =>
    rw [hi] at h2'
    cases h2'
    refine ⟨v, x, h1, h3, ?_⟩
    cases v with
    | none_ => cases hi
    | bool b => exact ⟨fun hn => (by cases hn), fun hn => absurd rfl (hn.1 b)⟩
    | int n =>
      obtain ⟨m, hm, hr, hlt, rfl⟩ := (floatOfInt_iff n x).1 hi
      have hz : (0 : Int).natAbs = 0 := rfl
      constructor
      · intro hn
        generalize hx : F.fin ((n.sign * (m : Int) : Int) : Rat) = y at hn
        cases hn with
        | int =>
          injection hx with hx
          have e : n.sign * (m : Int) = n := by exact_mod_cast hx
          refine ⟨fun b hb => (by cases hb), fun k hk => (by cases hk), fun k hk => ?_⟩
          cases hk
          rcases (sign_mul_eq n m).1 e with e | e
          · rw [← e]; exact hm.1
          · subst e; exact ⟨0, 0, by decide, rfl⟩
      · rintro ⟨-, -, hd⟩
        have := (round53_iff _).2 (hd n rfl)
        have e : n.sign * (m : Int) = n := (sign_mul_eq n m).2 (Or.inl (by rw [hr, this]))
        rw [e]; exact .int n
    | float y =>
      cases hi
      exact ⟨fun _ => ⟨fun b hb => (by cases hb), fun k hk => (by cases hk), fun k hk => (by cases hk)⟩, fun _ => .float x⟩
    | str s' =>
      have hi' : orValueError (env.floatText s') = .ok x := hi
      cases ht : env.floatText s' with
      | none => rw [ht] at hi'; cases hi'
      | some y =>
        rw [ht] at hi'; cases hi'
        exact ⟨fun _ => ⟨fun b hb => (by cases hb), fun k hk => (by cases hk), fun k hk => (by cases hk)⟩, fun _ => .text s' x ht⟩
    | other k => exact ⟨fun hn => (by cases hn), fun hn => absurd rfl (hn.2.1 k)⟩

/-- C289, what arrives: a float literal as it is; a whole number as the nearest double; `true` and `false` as 1 and 0. -/
theorem C289_value_partial (env : Env) (base : Ext Val κ μ) (out : Dict Str OutVal) (wf : out.WF) (lvars : Dict Str LvarMeta) (lacts : Dict Str LactMeta) (specs : List Spec)
    (o : Output Val κ μ) (h : resolve (ext env base) out lvars lacts specs = .ok o) (f t s : Str) (hs : HasType specs f 0) (hw : Written out lvars lacts f t)
    (hst : Stripped t s) :
    (∀ x, Reads env s (.float x) → o.fields.get? f = some (.scalar (.float x))) ∧
    (∀ n, Reads env s (.int n) → ∃ m, Nearest n.natAbs m ∧ m < 2 ^ 1024 ∧ o.fields.get? f = some (.scalar (.float (.fin ((n.sign * m : Int)))))) ∧
    (∀ b, Reads env s (.bool b) → o.fields.get? f = some (.scalar (.float (.fin (if b then 1 else 0))))) ∧
    ¬ Reads env s .none_ := by
  obtain ⟨v, w, h1, h2, h3⟩ := field_reads env base wf h hs hw hst
  have h2' : (toFloat env v).map Val.float = .ok w := h2
  refine ⟨fun x hx => ?_, fun n hn => ?_, fun b hb => ?_, fun hn => ?_⟩
  · have e := reads_unique h1 hx
    subst e; cases h2; exact h3
  · have e := reads_unique h1 hn
    subst e
    cases hi : floatOfInt n with
    | error e => rw [show toFloat env (.int n) = floatOfInt n from rfl, hi] at h2'; cases h2'
    | ok x =>
      obtain ⟨m, hm, -, hlt, rfl⟩ := (floatOfInt_iff n x).1 hi
      rw [show toFloat env (.int n) = floatOfInt n from rfl, hi] at h2'
      cases h2'
      exact ⟨m, hm, hlt, h3⟩
  · have e := reads_unique h1 hb
    subst e; cases h2; exact h3
  · have e := reads_unique h1 hn
    subst e; cases h2'

/-- An environment with three more literals. -/
def demoEnv2 : Env := { demoEnv with
  literal := fun s =>
    if s = "9007199254740993".toList then .val (.int 9007199254740993)
    else if s = "1e400".toList then .val (.float .posInf)
    else demoEnv.literal s }

/-- C289 is false: `true` arrives as 1.0, and 9007199254740993 as 9007199254740992.0. -/
theorem C289_true_violation : demo demoEnv2 0 "true" = demoOut (.float (.fin 1)) ∧ demo demoEnv2 0 "9007199254740993" = demoOut (.float (.fin 9007199254740992)) := by
  decide +kernel

example : demo demoEnv2 0 " 2.5 " = demoOut (.float (.fin (5 / 2))) ∧ demo demoEnv2 0 "7" = demoOut (.float (.fin 7)) ∧ demo demoEnv2 0 "null" = .error (.group [.value]) := by
  decide +kernel

/-! ### C290: literals of the OUT block -/

/-- The literal `f: true`, `f: false` or `f: 12` of the OUT block stands for `v`. -/
inductive Literal (env : Env) (out : Dict Str OutVal) (f : Str) : Val → Prop where
  | bool (b : Bool) : (f, OutVal.bool b) ∈ out → Literal env out f (.bool b)
  | num (t : Str) : (f, OutVal.num t) ∈ out → Literal env out f (env.num t)

theorem literal_value (env : Env) (base : Ext Val κ μ) {out : Dict Str OutVal} (wf : out.WF) {lvars : Dict Str LvarMeta} {lacts : Dict Str LactMeta} {specs : List Spec}
    {o : Output Val κ μ} (h : resolve (ext env base) out lvars lacts specs = .ok o) {f : Str} {v : Val} {k : Nat} (hs : HasType specs f k) (hw : Literal env out f v) :
    ∃ w, convert env k v = .ok w ∧ o.fields.get? f = some (.scalar w) := by
  have hall := (Resolver.C50_sound (ext env base) out wf lvars lacts specs o h).2.2.2.2.2
  cases hw with
  | bool b h1 =>
    obtain ⟨s, hsm, hsn, x, hx, hm⟩ := hall f _ h1
    have hty := hs s hsm hsn
    cases hm with
    | literal t' v u w a1 a2 a3 a4 =>
      rw [hty] at a1; cases a1
      cases a3
      exact ⟨w, a4, hx⟩
  | num t h1 =>
    obtain ⟨s, hsm, hsn, x, hx, hm⟩ := hall f _ h1
    have hty := hs s hsm hsn
    cases hm with
    | literal t' v u w a1 a2 a3 a4 =>
      rw [hty] at a1; cases a1
      cases a3
      exact ⟨w, a4, hx⟩

/-- C290, truth values: written as a literal for a field of type bool, str, int or float, `true` and `false` arrive as `True`/`False`, `"True"`/`"False"`, 1/0 and 1.0/0.0. -/
theorem C290_truth_values (env : Env) (base : Ext Val κ μ) (out : Dict Str OutVal) (wf : out.WF) (lvars : Dict Str LvarMeta) (lacts : Dict Str LactMeta) (specs : List Spec)
    (o : Output Val κ μ) (h : resolve (ext env base) out lvars lacts specs = .ok o) (f : Str) (b : Bool) (hw : (f, OutVal.bool b) ∈ out) :
    (HasType specs f 3 → o.fields.get? f = some (.scalar (.bool b))) ∧
    (HasType specs f 1 → o.fields.get? f = some (.scalar (.str (if b then "True".toList else "False".toList)))) ∧
    (HasType specs f 2 → o.fields.get? f = some (.scalar (.int (if b then 1 else 0)))) ∧
    (HasType specs f 0 → o.fields.get? f = some (.scalar (.float (.fin (if b then 1 else 0))))) := by
  refine ⟨fun hs => ?_, fun hs => ?_, fun hs => ?_, fun hs => ?_⟩
  · obtain ⟨w, h1, h2⟩ := literal_value env base wf h hs (.bool b hw); cases h1; exact h2
  · obtain ⟨w, h1, h2⟩ := literal_value env base wf h hs (.bool b hw)
    cases h1; rw [h2]; cases b <;> rfl
  · obtain ⟨w, h1, h2⟩ := literal_value env base wf h hs (.bool b hw); cases h1; exact h2
  · obtain ⟨w, h1, h2⟩ := literal_value env base wf h hs (.bool b hw); cases h1; exact h2

/-- C290, whole numbers: `f: 12` arrives as 12 in a field of type int, as "12" in a field of type str, as true unless it is 0 in a field of type bool, and as the nearest
double in a field of type float. -/
theorem C290_whole_numbers (env : Env) (base : Ext Val κ μ) (out : Dict Str OutVal) (wf : out.WF) (lvars : Dict Str LvarMeta) (lacts : Dict Str LactMeta) (specs : List Spec)
    (o : Output Val κ μ) (h : resolve (ext env base) out lvars lacts specs = .ok o) (f t : Str) (hw : (f, OutVal.num t) ∈ out) (n : Int) (hn : env.num t = .int n) :
    (HasType specs f 2 → o.fields.get? f = some (.scalar (.int n))) ∧
    (HasType specs f 1 → o.fields.get? f = some (.scalar (.str (toString n).toList))) ∧
    (HasType specs f 3 → ∃ b, o.fields.get? f = some (.scalar (.bool b)) ∧ (b = false ↔ n = 0)) ∧
    (HasType specs f 0 → ∃ m, Nearest n.natAbs m ∧ o.fields.get? f = some (.scalar (.float (.fin ((n.sign * m : Int)))))) := by
  have key : ∀ k, HasType specs f k → ∃ w, convert env k (.int n) = .ok w ∧ o.fields.get? f = some (.scalar w) := by
    intro k hs
    have := literal_value env base wf h hs (.num t hw)
    rw [hn] at this; exact this
  refine ⟨fun hs => ?_, fun hs => ?_, fun hs => ?_, fun hs => ?_⟩
  · obtain ⟨w, h1, h2⟩ := key 2 hs; cases h1; exact h2
  · obtain ⟨w, h1, h2⟩ := key 1 hs; cases h1; exact h2
  · obtain ⟨w, h1, h2⟩ := key 3 hs
    cases h1
    exact ⟨_, h2, by simp [toBool]⟩
  · obtain ⟨w, h1, h2⟩ := key 0 hs
    have h1' : (floatOfInt n).map Val.float = .ok w := h1
    cases hi : floatOfInt n with
    | error e => rw [hi] at h1'; cases h1'
    | ok x =>
      rw [hi] at h1'; cases h1'
      obtain ⟨m, hm, -, -, rfl⟩ := (floatOfInt_iff n x).1 hi
      exact ⟨m, hm, h2⟩

/-- C290, numbers with a decimal point: they arrive as they are in a field of type float, cut off towards zero in a field of type int, as true unless they are 0 in a field of type bool. -/
theorem C290_decimals (env : Env) (base : Ext Val κ μ) (out : Dict Str OutVal) (wf : out.WF) (lvars : Dict Str LvarMeta) (lacts : Dict Str LactMeta) (specs : List Spec)
    (o : Output Val κ μ) (h : resolve (ext env base) out lvars lacts specs = .ok o) (f t : Str) (hw : (f, OutVal.num t) ∈ out) (x : F) (hx : env.num t = .float x) :
    (HasType specs f 0 → o.fields.get? f = some (.scalar (.float x))) ∧
    (HasType specs f 2 → ∃ q n, x = .fin q ∧ ToNum.IntegerPart q n ∧ o.fields.get? f = some (.scalar (.int n))) ∧
    (HasType specs f 1 → o.fields.get? f = some (.scalar (.str (env.showFloat x)))) ∧
    (HasType specs f 3 → ∃ b, o.fields.get? f = some (.scalar (.bool b)) ∧ (b = false ↔ x = .fin 0)) := by
  have key : ∀ k, HasType specs f k → ∃ w, convert env k (.float x) = .ok w ∧ o.fields.get? f = some (.scalar w) := by
    intro k hs
    have := literal_value env base wf h hs (.num t hw)
    rw [hx] at this; exact this
  refine ⟨fun hs => ?_, fun hs => ?_, fun hs => ?_, fun hs => ?_⟩
  · obtain ⟨w, h1, h2⟩ := key 0 hs; cases h1; exact h2
  · obtain ⟨w, h1, h2⟩ := key 2 hs
    have h1' : (intOfFloat x).map Val.int = .ok w := h1
    cases x with
    | fin q => cases h1'; exact ⟨q, _, rfl, ToNum.trunc_part q, h2⟩
    | nan => cases h1'
    | posInf => cases h1'
    | negInf => cases h1'
  · obtain ⟨w, h1, h2⟩ := key 1 hs; cases h1; exact h2
  · obtain ⟨w, h1, h2⟩ := key 3 hs
    cases h1
    exact ⟨_, h2, by simp [toBool]⟩

/-- Non-vacuity: `OUT{f: true}` for a text field, `OUT{f: 7}` for a float field and `OUT{f: 2.5}` for an integer field. -/
example : resolve (ext demoEnv demoBase) [("f".toList, .bool true)] [] [] [⟨some "f".toList, .scalar 1, true, 0⟩] = demoOut (.str "True".toList) ∧
    resolve (ext demoEnv demoBase) [("f".toList, .num "7".toList)] [] [] [⟨some "f".toList, .scalar 0, true, 0⟩] = demoOut (.float (.fin 7)) ∧
    resolve (ext demoEnv demoBase) [("f".toList, .num "2.5".toList)] [] [] [⟨some "f".toList, .scalar 2, true, 0⟩] = demoOut (.int 2) := by decide +kernel

end Verif.LndlValue
