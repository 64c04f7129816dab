import Verif.Props.Similarity

/-!
# C106, exact condition
-/

namespace Verif.Sim

variable {ω : Type} [DecidableEq ω]

/-- C106 (exact): the case-sensitive search returns every candidate that reaches the threshold exactly if all those candidates have the same
score. -/
theorem C106_exact_partial (lower : ω → ω) (skip : ω → ω → Bool) (score : ω → ω → Rat) (word : ω) (words : List ω) (th : Rat) (r : List ω)
    (h : stringSimilarity lower skip score true word words th = some (some r)) :
    (∀ w ∈ words, skip word w = false → th ≤ score word w → w ∈ r) ↔
      ∀ w ∈ words, ∀ w' ∈ words, skip word w = false → skip word w' = false → th ≤ score word w → th ≤ score word w' →
        score word w = score word w' := by
  obtain ⟨ms, rfl, _, hms⟩ := C106_case_sensitive_partial lower skip score word words th r h
  constructor
  · intro hall w hw w' hw' hs hs' ht ht'
    obtain ⟨m, hm, he⟩ := List.mem_map.1 (hall w hw hs ht)
    obtain ⟨m', hm', he'⟩ := List.mem_map.1 (hall w' hw' hs' ht')
    obtain ⟨_, _, h1, _, h2⟩ := (hms m).1 hm
    obtain ⟨_, _, h1', _, h2'⟩ := (hms m').1 hm'
    have e1 := h2 w' hw' hs'
    have e2 := h2' w hw hs
    rw [he] at h1
    rw [he'] at h1'
    rw [h1] at e1
    rw [h1'] at e2
    exact Rat.le_antisymm e2 e1
  · intro hall w hw hs ht
    obtain ⟨i, hi⟩ := List.getElem?_of_mem hw
    refine List.mem_map.2 ⟨⟨w, score word w, i⟩, (hms _).2 ⟨hi, hs, rfl, ht, ?_⟩, rfl⟩
    intro w' hw' hs'
    by_cases ht' : th ≤ score word w'
    · rw [hall w hw w' hw' hs hs' ht ht']
      exact Rat.le_refl
    · show score word w' ≤ score word w
      grind

example : stringSimilarity id (fun _ _ => false) hammingSim true "abcd".toList ["abcy".toList, "zzzz".toList, "abcx".toList] (1 / 2) =
    some (some ["abcy".toList, "abcx".toList]) := by decide +kernel

end Verif.Sim
