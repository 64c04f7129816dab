import Verif.Props.CreatePathExact
import Verif.Props.SchemaModel
import Verif.Props.JsonDump

set_option linter.unusedSectionVars false
set_option linter.unusedSimpArgs false
set_option linter.unusedVariables false

/-!
# C149, C208: exact conditions
-/

namespace Verif.JsonDump

open Json

/-- A record without items: a number, literal, text, empty array or empty object. -/
def Flat : J → Prop
  | .token _ _ => True
  | .str _ => True
  | .arr l => l = []
  | .obj l => l = []

theorem write_flat (indent : Bool) (v : J) : '\n' ∉ write indent 0 v ↔ indent = false ∨ Flat v := by
  cases indent with
  | false => exact ⟨fun _ => .inl rfl, fun _ => write_noNL 0 v⟩
  | true =>
    have key : '\n' ∉ write true 0 v ↔ Flat v := by
      cases v with
      | token t h =>
        refine ⟨fun _ => trivial, fun _ => ?_⟩
        have := write_noNL 0 (.token t h)
        simpa only [write] using this
      | str s => exact ⟨fun _ => trivial, fun _ => by simpa only [write] using writeStr_noNL s⟩
      | arr l =>
        cases l with
        | nil => exact ⟨fun _ => rfl, fun _ => by simp [write]⟩
        | cons v l => exact ⟨fun h => absurd (by simp [write, gap]) h, fun h => by cases h⟩
      | obj l =>
        cases l with
        | nil => exact ⟨fun _ => rfl, fun _ => by simp [write]⟩
        | cons kv l =>
          obtain ⟨k, v⟩ := kv
          exact ⟨fun h => absurd (by simp [write, gap]) h, fun h => by cases h⟩
    rw [key]
    exact ⟨.inr, fun h => h.elim nofun id⟩

/-- **C149**, exactly.  When every record can be converted, each record gives one line if and only if indentation is not asked for or no
record has items. -/
theorem C149_exact_partial {β : Type} (enc : β → Option J) (v : β → J) (o : Opts) (xs : List β) (h : ∀ x ∈ xs, enc x = some (v x)) :
    (∀ c ∈ (jsonLines enc (some o) xs).1, ∃ l, c = l ++ ['\n'] ∧ '\n' ∉ l) ↔ (o.indent = false ∨ ∀ x ∈ xs, Flat (v x)) := by
  have hl := linesLoop_ok enc v (lineOpts (some o)) rfl xs [] h
  rw [List.append_nil] at hl
  have hc : (jsonLines enc (some o) xs).1 = xs.map (fun x => write o.indent 0 (v x) ++ ['\n']) := by
    rw [jsonLines, hl]; simp [linesLoop, lineOpts]
  rw [hc]
  constructor
  · intro hall
    by_cases hi : o.indent = false
    · exact .inl hi
    · right
      intro x hx
      rcases hall _ (List.mem_map.2 ⟨x, hx, rfl⟩) with ⟨l, e, hl'⟩
      have e' : write o.indent 0 (v x) = l := (List.append_inj' e rfl).1
      rw [← e'] at hl'
      exact ((write_flat _ _).1 hl').resolve_left hi
  · intro hor c hcm
    rcases List.mem_map.1 hcm with ⟨x, hx, rfl⟩
    refine ⟨_, rfl, (write_flat _ _).2 ?_⟩
    exact hor.imp id (fun hf => hf x hx)

example : Flat (.str ['a']) ∧ ¬ Flat oneRecord := ⟨trivial, nofun⟩

end Verif.JsonDump

namespace Verif.SchemaModel

open Verif.CreatePath

theorem splitSlash_last (x : Text) {y : Text} (hy : '/' ∉ y) : splitSlash (x ++ y) = Dirs x ++ [Last x ++ y] := by
  have hx : splitSlash x = Dirs x ++ [Last x] := by
    rw [Dirs, Last, List.getLastD_eq_getLast?, List.getLast?_eq_some_getLast (splitSlash_ne x)]
    simp only [Option.getD_some]
    exact (List.dropLast_concat_getLast (splitSlash_ne x)).symm
  induction x with
  | nil => rw [List.nil_append, splitSlash_plain hy]; rfl
  | cons c cs ih =>
    have hcs : splitSlash cs = Dirs cs ++ [Last cs] := by
      rw [Dirs, Last, List.getLastD_eq_getLast?, List.getLast?_eq_some_getLast (splitSlash_ne cs)]
      simp only [Option.getD_some]
      exact (List.dropLast_concat_getLast (splitSlash_ne cs)).symm
    have ih' := ih hcs
    by_cases hc : c = '/'
    · have e1 : splitSlash (c :: cs) = [] :: splitSlash cs := by simp [splitSlash, hc]
      have e2 : splitSlash (c :: (cs ++ y)) = [] :: splitSlash (cs ++ y) := by simp [splitSlash, hc]
      have hd : Dirs (c :: cs) = [] :: Dirs cs := by
        rw [Dirs, e1, hcs]; simp only [Dirs]; rw [← List.cons_append, List.dropLast_concat]
      have hla : Last (c :: cs) = Last cs := by
        rw [hd, e1, hcs, List.cons_append] at hx
        have := List.append_inj' (List.cons.inj hx).2 rfl
        simpa using this.2.symm
      rw [List.cons_append, e2, ih', hd, hla]; rfl
    · have e1 : splitSlash (c :: cs) = consHead c (splitSlash cs) := by simp [splitSlash, hc]
      have e2 : splitSlash (c :: (cs ++ y)) = consHead c (splitSlash (cs ++ y)) := by simp [splitSlash, hc]
      rw [List.cons_append, e2, ih']
      rw [e1, hcs] at hx
      cases hdc : Dirs cs with
      | nil =>
        rw [hdc] at hx
        simp only [List.nil_append, consHead] at hx
        have hlen : (Dirs (c :: cs)).length = 0 := by have := congrArg List.length hx; simp at this; simpa using this
        have hnil := List.eq_nil_of_length_eq_zero hlen
        rw [hnil] at hx ⊢
        simp only [List.nil_append, List.cons.injEq, and_true] at hx
        rw [← hx]; rfl
      | cons d ds =>
        rw [hdc] at hx
        simp only [List.cons_append, consHead] at hx
        have hx' : ((c :: d) :: ds) ++ [Last cs] = Dirs (c :: cs) ++ [Last (c :: cs)] := hx
        have hinj := List.append_inj' hx' rfl
        rw [← hinj.1]
        have hlast : Last (c :: cs) = Last cs := by simpa using hinj.2.symm
        rw [hlast]; rfl

/-- What is appended to the name. -/
theorem suffix_noslash {h : Text} (hh : '/' ∉ h) : '/' ∉ "_model_".toList ++ h ++ ".py".toList := by
  intro hm
  simp only [List.mem_append] at hm
  rcases hm with (hm | hm) | hm
  · exact absurd hm (by decide)
  · exact hh hm
  · exact absurd hm (by decide)

/-- **C208**, exactly.  Let `n` be the name used (from the title or, failing that, the name given), in lower case.  If `n` is not an absolute
path, the file lies directly in the temporary directory if and only if no component before a slash in `n` names anything: each is empty or ".". -/
theorem C208_exact_partial (G : Generator) (tmp : Path) (hash : Text → Text) (s : Schema) (modelName : Text) (p : Path) (j n : Text)
    (hh : ∀ j, '/' ∉ hash j) (hp : prepare s modelName = .ok (j, n)) (h : (loadModel G true tmp hash s modelName).1 = some p)
    (hrel : isAbs (lower n) = false) :
    (Inside tmp p ∧ p.parts.length = tmp.parts.length + 1) ↔ ∀ t ∈ Dirs (lower n), t = [] ∨ t = ".".toList := by
  have hpo : p = tmp.join (lower n ++ ("_model_".toList ++ hash j ++ ".py".toList)) := by
    simp only [loadModel, hp, if_true, Option.some.injEq, outputFile] at h
    rw [← h]
    simp only [List.append_assoc]
  have hsl := suffix_noslash (hh j)
  have hsp := splitSlash_last (lower n) hsl
  have hlastns : '/' ∉ Last (lower n) ++ ("_model_".toList ++ hash j ++ ".py".toList) := by
    intro hm
    rcases List.mem_append.1 hm with hm | hm
    · exact splitSlash_noslash _ _ (last_mem _) hm
    · exact hsl hm
  have hplain : Plain (Last (lower n) ++ ("_model_".toList ++ hash j ++ ".py".toList)) := by
    refine plain_of_mem (c := 'm') hlastns ?_ (by decide)
    simp
  have hkeep : kept (Last (lower n) ++ ("_model_".toList ++ hash j ++ ".py".toList)) = true := by
    have h1 := hplain.1
    have h2 := hplain.2.1
    simp only [kept, Bool.and_eq_true, bne_iff_ne, ne_eq]
    exact ⟨h1, h2⟩
  have habs : isAbs (lower n ++ ("_model_".toList ++ hash j ++ ".py".toList)) = false := by
    cases hn : lower n with
    | nil => rfl
    | cons c cs =>
      rw [hn] at hrel
      simp only [isAbs] at hrel
      split at hrel
      · cases hrel
      · rename_i hc
        simp only [List.cons_append, isAbs]
        split
        · rename_i h'; cases h'; exact absurd rfl (hc cs)
        · rfl
  have hparts : p = ⟨tmp.abs, tmp.parts ++ ((Dirs (lower n)).filter kept ++ [Last (lower n) ++ ("_model_".toList ++ hash j ++ ".py".toList)])⟩ := by
    rw [hpo, Path.join, habs, components, hsp, List.filter_append]
    have : [Last (lower n) ++ ("_model_".toList ++ hash j ++ ".py".toList)].filter kept
        = [Last (lower n) ++ ("_model_".toList ++ hash j ++ ".py".toList)] := by
      rw [List.filter_cons_of_pos hkeep]; rfl
    rw [this]; rfl
  have hfil : (Dirs (lower n)).filter kept = [] ↔ ∀ t ∈ Dirs (lower n), t = [] ∨ t = ".".toList := by
    rw [List.filter_eq_nil_iff]
    constructor
    · intro ha t ht
      have := ha t ht
      simp only [kept, Bool.and_eq_true, bne_iff_ne, ne_eq, not_and, Decidable.not_not] at this
      by_cases he : t = []
      · exact .inl he
      · exact .inr (this he)
    · intro ha t ht
      simp only [kept, Bool.and_eq_true, bne_iff_ne, ne_eq, not_and, Decidable.not_not]
      intro he
      exact (ha t ht).resolve_left he
  rw [← hfil]
  constructor
  · rintro ⟨_, hlen⟩
    rw [hparts] at hlen
    simp only [List.length_append, List.length_cons, List.length_nil] at hlen
    exact List.eq_nil_of_length_eq_zero (by omega)
  · intro hnil
    rw [hnil] at hparts
    refine ⟨⟨[Last (lower n) ++ ("_model_".toList ++ hash j ++ ".py".toList)], hparts, by simp, ?_⟩, ?_⟩
    · intro t ht; rw [List.mem_singleton.1 ht]; exact hplain
    · rw [hparts]; simp

example : isAbs (lower "./Point".toList) = false ∧ (Dirs (lower "./Point".toList) = [".".toList]) := by decide +kernel
example : prepare (.dict .missing (some [])) "../../home/x".toList = .ok ([], "../../home/x".toList) := by decide +kernel
example : Dirs (lower "../../home/x".toList) = ["..".toList, "..".toList, "home".toList] := by decide +kernel

end Verif.SchemaModel
