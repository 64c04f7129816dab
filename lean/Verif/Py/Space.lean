import Verif.Py.Basic

/-!
# White space of Python's `str`

The characters removed by `str.strip()` and matched by `\s` in a pattern over `str` (`str.isspace`).
-/

set_option linter.unusedSimpArgs false

namespace Verif.Py

/-- Code points of the characters for which `str.isspace` holds. -/
def whiteCodes : List Nat :=
  [9, 10, 11, 12, 13, 28, 29, 30, 31, 32, 133, 160, 5760, 8192, 8193, 8194, 8195, 8196, 8197, 8198, 8199, 8200, 8201, 8202, 8232, 8233, 8239, 8287, 12288]

/-- `str.isspace` for one character. -/
def isSpace (c : Char) : Bool := whiteCodes.contains c.toNat

/-- Specification: tab to carriage return, the four separators and the blank, next line, and the Unicode space separators, line separator and paragraph separator. -/
def White (c : Char) : Prop :=
  (9 ≤ c.toNat ∧ c.toNat ≤ 13) ∨ (28 ≤ c.toNat ∧ c.toNat ≤ 32) ∨ c.toNat = 0x85 ∨ c.toNat = 0xa0 ∨ c.toNat = 0x1680 ∨ (0x2000 ≤ c.toNat ∧ c.toNat ≤ 0x200a) ∨
    c.toNat = 0x2028 ∨ c.toNat = 0x2029 ∨ c.toNat = 0x202f ∨ c.toNat = 0x205f ∨ c.toNat = 0x3000

instance (c : Char) : Decidable (White c) := by unfold White; infer_instance

theorem isSpace_iff (c : Char) : isSpace c = true ↔ White c := by
  unfold isSpace White whiteCodes
  simp only [List.contains_cons, List.contains_nil, Bool.or_eq_true, beq_iff_eq, Bool.false_eq_true, or_false]
  omega

end Verif.Py
