import Verif.Props.ElementSample
import Verif.Props.ValidateExact
import Verif.Props.ParamExact
import Verif.Props.ToDictApi

set_option linter.unusedSectionVars false
set_option linter.unusedSimpArgs false
set_option linter.unusedVariables false

/-!
# C77, C143, C161, C224: exact conditions
-/

namespace Verif.Element

variable {ι γ α φ : Type} [DecidableEq ι] [DecidableEq γ]

/-- **C77** (partial, exact).  For data whose content can be told apart (two values other than the given one lead to different results): the deserializer is
applied exactly once, whatever it is, if and only if the data names no other registered class.  (Classes with a `from_dict` of their own are left out: what they do
with the deserializer is their business.) -/
theorem C77_exact_partial (W : World ι γ α φ) (R : Registry γ) (fresh : Fresh ι) (c : γ) (metaKey : Option String)
    (d : Data ι α) (hd : Dict.WF d) (hk : metaKey ≠ some "content") (v : DV ι α) (hv : d.get? "content" = some v)
    (hi : ∀ t, Names W R c metaKey d t → W.impl t ≠ .custom) (a b : DV ι α) (ha : a ≠ v)
    (hab : nodeFromDict W R fresh c metaKey none (d.set "content" a) ≠ nodeFromDict W R fresh c metaKey none (d.set "content" b)) :
    (∀ (g : DV ι α → Option (DV ι α)) (w : DV ι α), g v = some w →
      nodeFromDict W R fresh c metaKey (some g) d = nodeFromDict W R fresh c metaKey none (d.set "content" w)) ↔
    ∀ t, ¬ Names W R c metaKey d t := by
  constructor
  · intro h t ht
    refine hab ?_
    have : ∃ g : DV ι α → Option (DV ι α), g v = some a ∧ g a = some b := by
      refine ⟨fun x => @ite _ (x = v) (Classical.propDecidable _) (some a) (some b), ?_, ?_⟩
      · simp
      · simp [ha]
    obtain ⟨g, g1, g2⟩ := this
    rw [← h g a g1, C77_subclass_twice W R fresh c t metaKey g d hd hk v a b hv g1 g2 ht (hi t ht)]
  · intro h g w hw
    exact C77_once_partial W R fresh c metaKey g d hd hk v w hv hw h

/-- The contents 5 and 6 can be told apart. -/
example : (DV.other 5 : DV Nat Nat) ≠ .other 1 ∧
    nodeFromDict sample (registerAll sample [.node, .mX]) ⟨0, ⟨0, some 0⟩⟩ .node none none
      (Dict.set [("content", .other 1), ("metadata", .dict [("lion_class", .str ['m', '.', 'X'])])] "content" (.other 5)) ≠
    nodeFromDict sample (registerAll sample [.node, .mX]) ⟨0, ⟨0, some 0⟩⟩ .node none none
      (Dict.set [("content", .other 1), ("metadata", .dict [("lion_class", .str ['m', '.', 'X'])])] "content" (.other 6)) := by
  decide +kernel

end Verif.Element

namespace Verif.Validate

open Verif.KeyMatch (Cfg Mode fuzzyMatchKeys Lawful C60_spec demoCfg)
open Verif.FuzzyJson (Str)

variable {κ ν : Type} [DecidableEq κ]

/-- With the default key matching no key is left that is not a field name. -/
theorem removing_keys (base : Cfg κ ν) (sim : κ → κ → Bool) (hc : Lawful base sim) (fields : List κ) (hf : fields.Nodup) (hne : fields ≠ []) (d : Dict κ ν)
    (hd : d.WF) (out : Dict κ ν) (h : fuzzyMatchKeys (removing base) fields d = .ok out) (k : κ) (hk : k ∉ fields) : out.get? k = none := by
  obtain ⟨ps, hM, _, hO⟩ := C60_spec (removing base) sim (lawful_removing hc) fields hf hne d hd
  have H := hO out h
  by_cases h1 : k ∈ d.keys
  · by_cases h2 : k ∈ ps.map Prod.fst
    · obtain ⟨p, hp, rfl⟩ := List.mem_map.1 h2
      exact H.sources p hp
    · rw [H.extra k ⟨h1, hk, h2⟩]
      simp [removing]
  · exact H.nothing_else k hk h1

/-- A class that asks for one key. -/
def needsKey (k : κ) : Val κ ν → Except Exc Unit
  | .dict d => if d.has k then .ok () else .error .valueError
  | _ => .error .valueError

/-- **C143** (partial, exact).  For input holding the dict `d`: whatever the class accepts, key matching rejects nothing that is accepted without it, if and only
if all keys of `d` are field names, or there are no field names. -/
theorem C143_exact_partial (parse : Str → Option (Val κ ν)) (base : Cfg κ ν) (sim : κ → κ → Bool) (hc : Lawful base sim) (fields : List κ)
    (hf : fields.Nodup) (i : Input κ ν Unit) (d : Dict κ ν) (hi : HoldsDict parse i d) (hd : d.WF) :
    (∀ validate : Val κ ν → Except Exc Unit, OrderFree (fun d => validate (.dict d)) →
      (∃ m, fuzzyValidatePydantic parse base fields validate false .absent i = .ok m) →
      ∃ m, fuzzyValidatePydantic parse base fields validate true .absent i = .ok m) ↔
    (OnlyFields fields d ∨ fields = []) := by
  constructor
  · intro h
    by_cases hne : fields = []
    · exact Or.inr hne
    · refine Or.inl fun k hk => Classical.byContradiction fun hkf => ?_
      obtain ⟨out, ho⟩ := removing_ok base fields d
      have hout := removing_keys base sim hc fields hf hne d hd out ho k hkf
      have hin : d.has k = true := (Dict.has_iff d k).2 hk
      have hof : OrderFree (fun d : Dict κ ν => needsKey k (.dict d)) := by
        intro d1 d2 he
        have e : d1.has k = d2.has k := by unfold Dict.has; rw [he k]
        simp only [needsKey, e]
      have hacc : ∃ m, fuzzyValidatePydantic parse base fields (needsKey k) false .absent i = .ok m := by
        refine ⟨(), ?_⟩
        rw [holds_eq hi]
        simp [pydanticTail, pydanticValidate, needsKey, hin]
      obtain ⟨m, hm⟩ := h (needsKey k) hof hacc
      rw [holds_eq hi] at hm
      simp [pydanticTail, pydanticMatch, matchKeys, ho, wrapDict, pydanticValidate, needsKey, Dict.has, hout] at hm
  · rintro (ho | rfl) validate hv ⟨m, hm⟩
    · exact ⟨m, C143_accepts_partial parse base sim hc fields hf validate hv i d hi hd ho m hm⟩
    · refine ⟨m, ?_⟩
      rw [holds_eq hi] at hm ⊢
      simpa [pydanticTail, pydanticMatch, matchKeys, fuzzyMatchKeys, wrapDict] using hm

end Verif.Validate

namespace Verif.ParamCall

open Verif.Params

variable {ν : Type}

/-- A stored value counts unless it is a sentinel of the class. -/
def counted (cfg : Cfg ν) (stored : Option ν) : Option ν := stored.filter (fun v => !cfg.sentinel v)

theorem value_counted (cfg : Cfg ν) (hn : ∀ v, cfg.norm v = v) (hu : cfg.sentinel cfg.unset = true) (hund : ∀ v, cfg.undefined v = true → cfg.sentinel v = true)
    {keys : List String} {kw : Dict String ν} {a : Attrs String ν} (h : init cfg keys kw = .ok a) (p : String) :
    (toDict cfg keys a).get? p = counted cfg (kw.get? p) := by
  rw [get?_toDict]
  unfold init at h
  split at h
  · rename_i hk
    split at h
    · cases h
    · injection h with h
      subst h
      rw [value_prefill cfg hu hund]
      unfold value counted
      cases hg : kw.get? p with
      | none => simp
      | some v =>
        simp only [List.all_eq_true, decide_eq_true_eq] at hk
        rw [if_pos (hk p (Dict.mem_keys_of_get? hg))]
        cases hs : cfg.sentinel v <;> simp [hs, hn, Option.filter]
  · cases h

/-- **C161** (partial, exact).  Whatever is stored, an argument `p` of the function gets the value given in the call, else that of the stored `kw`, else that of
the stored `kwargs`, else the stored one unless it is a sentinel of the class, else the default; so it has the expected value exactly if no sentinel is stored
for it, or something else decides, or the default is that sentinel. -/
theorem C161_exact_partial (cfg : Cfg ν) (hn : ∀ v, cfg.norm v = v) (hu : cfg.sentinel cfg.unset = true)
    (hund : ∀ v, cfg.undefined v = true → cfg.sentinel v = true) (asDict : ν → Option (Dict String ν)) (sig : Sig ν)
    (keys : List String) (hk : keys.Nodup) (given : Dict String ν) (a : Attrs String ν) (h : init cfg keys given = .ok a)
    (e1 e2 call : Dict String ν) (w1 : e1.WF) (w2 : e2.WF) (wc : call.WF)
    (h1 : (counted cfg (given.get? "kwargs") = none ∧ e1 = []) ∨ ∃ v, counted cfg (given.get? "kwargs") = some v ∧ asDict v = some e1)
    (h2 : (counted cfg (given.get? "kw") = none ∧ e2 = []) ∨ ∃ v, counted cfg (given.get? "kw") = some v ∧ asDict v = some e2)
    (r : Dict String ν) (hr : callObj cfg asDict sig keys a call = .ok r) (p : String) (hp : p ≠ "kw") (hp' : p ≠ "kwargs") :
    r.get? p = firstOf (call.get? p) (firstOf (e2.get? p) (firstOf (e1.get? p) (firstOf (counted cfg (given.get? p)) (sig.defaults.get? p)))) ∧
    (r.get? p = expected sig given e1 e2 call p ↔
      ∀ v, given.get? p = some v → cfg.sentinel v = true →
        p ∈ call.keys ∨ p ∈ e2.keys ∨ p ∈ e1.keys ∨ sig.defaults.get? p = some v) := by
  have hv := value_counted cfg hn hu hund h
  have hw := toDict_wf cfg keys hk a
  have q1 : entriesOf asDict (toDict cfg keys a) "kwargs" = some e1 := by
    unfold entriesOf; rw [hv]
    rcases h1 with ⟨h1, rfl⟩ | ⟨v, h1, h1'⟩ <;> rw [h1]
    exact h1'
  have q2 : entriesOf asDict (toDict cfg keys a) "kw" = some e2 := by
    unfold entriesOf; rw [hv]
    rcases h2 with ⟨h2, rfl⟩ | ⟨v, h2, h2'⟩ <;> rw [h2]
    exact h2'
  have hd : defaultKw cfg asDict keys a = .ok ((((toDict cfg keys a).del "kwargs").del "kw").update (Dict.update (Dict.update [] e1) e2)) := by
    unfold defaultKw; rw [q1, q2]
  have w0 : (Dict.update (Dict.update [] e1) e2).WF := Dict.update_wf (Dict.update_wf (d := []) (by simp [Dict.WF, Dict.keys]) _) _
  have wd : ((((toDict cfg keys a).del "kwargs").del "kw").update (Dict.update (Dict.update [] e1) e2)).WF :=
    Dict.update_wf (Dict.del_wf (Dict.del_wf hw _) _) _
  have get_d : ((((toDict cfg keys a).del "kwargs").del "kw").update (Dict.update (Dict.update [] e1) e2)).get? p =
      firstOf (e2.get? p) (firstOf (e1.get? p) (counted cfg (given.get? p))) := by
    rw [get?_update' w0, get?_update' w2, get?_update' w1, Dict.get?_del (Dict.del_wf hw _), if_neg (Ne.symm hp), Dict.get?_del hw, if_neg (Ne.symm hp'), hv]
    cases e2.get? p <;> cases e1.get? p <;> rfl
  have main : r.get? p = firstOf (call.get? p) (firstOf (e2.get? p) (firstOf (e1.get? p) (firstOf (counted cfg (given.get? p)) (sig.defaults.get? p)))) := by
    unfold callObj at hr
    rw [hd] at hr
    simp only [bind] at hr
    split at hr
    · injection hr with hr
      subst hr
      rw [get?_update' (Dict.update_wf wd _), get?_update' wc, get_d]
      cases call.get? p <;> cases e2.get? p <;> cases e1.get? p <;> rfl
    · cases hr
  refine ⟨main, ?_⟩
  rw [main]
  unfold expected
  simp only [← Dict.get?_isSome_iff]
  cases call.get? p with
  | some x => simp [firstOf]
  | none =>
    cases e2.get? p with
    | some x => simp [firstOf]
    | none =>
      cases e1.get? p with
      | some x => simp [firstOf]
      | none =>
        cases hg : given.get? p with
        | none => simp [firstOf, counted]
        | some v =>
          cases hs : cfg.sentinel v with
          | false => simp [firstOf, counted, Option.filter, hs]
          | true => simp [firstOf, counted, Option.filter, hs]

/-- `AlcallParams(retry_default=None)`: a sentinel is stored and the default differs. -/
example : ∃ a, init (vCfg true) alcallKeys [("retry_default", V.none)] = .ok a ∧
    (∃ r, callObj (vCfg true) V.asDict alcallSig alcallKeys a [] = .ok r) ∧ counted (vCfg true) (some V.none) = none :=
  ⟨[("retry_default", .none), ("retry_attempts", .unset), ("max_concurrent", .unset), ("kw", .unset)], by decide, ⟨_, rfl⟩, by decide⟩

end Verif.ParamCall

namespace Verif.ToDict

variable {κ α : Type} [DecidableEq κ]

/-- **C224** (partial, exact).  A parser either takes the additional keyword (and reads the same with it) or does not (and raises).  Above the depth limit a
nested text that reads as `u`, with nothing to convert in it, is replaced by `u` exactly if the parser takes the keyword, or `u` is the text itself. -/
theorem C224_exact_partial (E : Env κ α) (q : Parser κ α) (hq : E.parser = some q) (takes : Bool)
    (ht : takes = true → ∀ s, q.runWith s = q.run s) (hf : takes = false → ∀ s, q.runWith s = none) (pythonOnly : Bool) (depth : DepthArg) (n : Nat)
    (hn : depthOf depth = .ok n) (d : List (κ × V κ α)) (w : V κ α) (h : toDict E false true pythonOnly depth (.dict d) = .ok w)
    (p : List (Step κ)) (s : List Char) (hp : at? (.dict d) p = some (.str s)) (hlt : p.length < n)
    (u : V κ α) (hu : topLevel E (.str s) = .ok u) (hi : Inert E (!pythonOnly) (n - p.length - 1) u) :
    at? w p = some u ↔ (takes = true ∨ u = .str s) := by
  cases takes with
  | true =>
    have h1 := C224_partial E (by intro p' hp' s'; rw [hq] at hp'; cases hp'; exact ht rfl s') pythonOnly depth n hn d w h p s hp hlt u hu hi
    simp [h1]
  | false =>
    have h1 := (C224_violation E q hq (hf rfl) pythonOnly depth n hn d w h p s hp hlt).1
    rw [h1]
    constructor
    · intro e; injection e with e; exact Or.inr e.symm
    · rintro (e | rfl)
      · cases e
      · rfl

end Verif.ToDict
