import Verif.Model.Element

/-!
# C266: creation times given as ISO text
-/

set_option linter.unusedSectionVars false
set_option linter.unusedSimpArgs false
set_option linter.unusedVariables false

namespace Verif.Element

/-! ### Specification: dates in the basic format `YYYYMMDD` -/

/-- The number written by decimal digits, most significant first. -/
def digitsVal (ds : List Nat) : Nat := ds.foldl (fun n d => 10 * n + d) 0

/-- The text of a list of digits. -/
def digitsText (ds : List Nat) : List Char := ds.map Nat.digitChar

/-- The last day of February is the 29th. -/
def leap (y : Nat) : Bool := y % 4 == 0 && (y % 100 != 0 || y % 400 == 0)

/-- The lengths of the months. -/
def monthLen (y : Nat) : List Nat := [31, if leap y then 29 else 28, 31, 30, 31, 30, 31, 31, 30, 31, 30, 31]

/-- `y`, `m`, `d` is a day of the (proleptic) Gregorian calendar that `datetime` knows. -/
structure ValidDate (y m d : Nat) : Prop where
  year : 1 ≤ y ∧ y ≤ 9999
  month : 1 ≤ m ∧ m ≤ 12
  day : 1 ≤ d ∧ d ≤ (monthLen y).getD (m - 1) 0

/-- The number of the day, counted from 1 January 1970. -/
def dayNumber (y m d : Nat) : Int :=
  365 * ((y : Int) - 1) + (((y - 1) / 4 : Nat) : Int) - (((y - 1) / 100 : Nat) : Int) + (((y - 1) / 400 : Nat) : Int)
    + (((monthLen y).take (m - 1)).sum : Nat) + (d : Int) - 719163

/-- The eight digits of a date. -/
def dateDigits (y m d : Nat) : List Nat := [y / 1000, y / 100 % 10, y / 10 % 10, y % 10, m / 10, m % 10, d / 10, d % 10]

/-- The instant (without timezone) at the start of a day. -/
def midnight (y m d : Nat) : DateTime := ⟨86400000000 * dayNumber y m d, none⟩

/-- What Python's library does with texts of eight digits: `fromisoformat` reads `YYYYMMDD` as that day (since Python 3.11), `float` reads the
number, and `fromtimestamp` accepts every whole number below 10^8 (the years 1970 to 1973). -/
structure ReadsDigits (L : TimeLib) : Prop where
  iso : ∀ y m d, ValidDate y m d → L.fromIso (digitsText (dateDigits y m d)) = some (midnight y m d)
  float : ∀ ds : List Nat, ds.length = 8 → (∀ x ∈ ds, x < 10) → L.parseFloat (digitsText ds) = some (.fin (digitsVal ds : Nat))
  ts : ∀ n : Nat, n < 100000000 → L.fromTs (n : Nat) = .ok (1000000 * (n : Int))

/-! ### C266 -/

/-- C266, exactly: a text that `fromisoformat` reads as `t` becomes the creation time `t` if and only if `float` does not read it, or the number is not
a timestamp, or happens to be the timestamp of `t`. -/
theorem C266_exact_partial (L : TimeLib) (s : List Char) (t : DateTime) (h : L.fromIso s = some t) :
    coerceCreatedAt L (.str s) = .ok t ↔
      ∀ n, L.parseFloat s = some n → fromTimestamp L n = .ok t ∨ fromTimestamp L n = .error .valueError := by
  have hi : coerceIso L s = .ok t := by simp only [coerceIso, h]
  simp only [coerceCreatedAt, coerceStr]
  cases hp : L.parseFloat s with
  | none => simp [hi]
  | some n =>
    cases hf : fromTimestamp L n with
    | ok u => simp [hf]
    | error e => cases e <;> simp [hf, hi]

theorem sum_take_le (y m : Nat) : ((monthLen y).take (m - 1)).sum ≤ 335 ∨ 12 < m := by
  by_cases hm : 12 < m
  · exact .inr hm
  · left
    have : m = 0 ∨ m = 1 ∨ m = 2 ∨ m = 3 ∨ m = 4 ∨ m = 5 ∨ m = 6 ∨ m = 7 ∨ m = 8 ∨ m = 9 ∨ m = 10 ∨ m = 11 ∨ m = 12 := by omega
    rcases this with rfl | rfl | rfl | rfl | rfl | rfl | rfl | rfl | rfl | rfl | rfl | rfl | rfl <;>
      (simp only [monthLen]; cases leap y <;> simp)

theorem day_le {y m d : Nat} (h : ValidDate y m d) : d ≤ 31 := by
  have h1 := h.month
  have h2 := h.day
  have : m = 1 ∨ m = 2 ∨ m = 3 ∨ m = 4 ∨ m = 5 ∨ m = 6 ∨ m = 7 ∨ m = 8 ∨ m = 9 ∨ m = 10 ∨ m = 11 ∨ m = 12 := by omega
  rcases this with rfl | rfl | rfl | rfl | rfl | rfl | rfl | rfl | rfl | rfl | rfl | rfl <;>
    (simp only [monthLen] at h2; cases hl : leap y <;> rw [hl] at h2 <;> simp at h2 <;> omega)

theorem dateDigits_lt {y m d : Nat} (h : ValidDate y m d) : ∀ x ∈ dateDigits y m d, x < 10 := by
  have h1 := h.year
  have h2 := h.month
  have h3 := day_le h
  intro x hx
  simp only [dateDigits, List.mem_cons, List.not_mem_nil, or_false] at hx
  omega

theorem dateDigits_val {y m d : Nat} (h : ValidDate y m d) : digitsVal (dateDigits y m d) = 10000 * y + 100 * m + d := by
  simp only [digitsVal, dateDigits, List.foldl]
  omega

/-- C266 is false of the code for every day of the calendar written `YYYYMMDD`: the text is ISO 8601 and the library reads it, but the creation time is the
number read as a timestamp - some day between 1970 and 1973 -, never the day written. -/
theorem C266_basic_date_violation (L : TimeLib) (hL : ReadsDigits L) (y m d : Nat) (h : ValidDate y m d) :
    ∃ t, L.fromIso (digitsText (dateDigits y m d)) = some (midnight y m d) ∧
      coerceCreatedAt L (.str (digitsText (dateDigits y m d))) = .ok t ∧ t.wall = 1000000 * (10000 * y + 100 * m + d : Int) ∧
      t.wall ≠ (midnight y m d).wall := by
  have h1 := h.year
  have h2 := h.month
  have h3 := day_le h
  have hp := hL.float (dateDigits y m d) rfl (dateDigits_lt h)
  rw [dateDigits_val h] at hp
  have ht := hL.ts (10000 * y + 100 * m + d) (by omega)
  refine ⟨⟨1000000 * ((10000 * y + 100 * m + d : Nat) : Int), some 0⟩, hL.iso y m d h, ?_, by simp, ?_⟩
  · simp only [coerceCreatedAt, coerceStr, hp, fromTimestamp, ht]
  · have h4 : ((monthLen y).take (m - 1)).sum ≤ 335 := by
      rcases sum_take_le y m with h | h <;> omega
    have h5 := h.day.1
    simp only [midnight, dayNumber]
    generalize ((monthLen y).take (m - 1)).sum = k at *
    clear hp ht
    omega

/-! ### A library as assumed -/

/-- The digits of a text, if it consists of digits. -/
def readDigits (s : List Char) : Option (List Nat) :=
  if s.all Char.isDigit then some (s.map (fun c => c.toNat - 48)) else none

/-- `YYYYMMDD` and nothing else. -/
def pyIso (s : List Char) : Option DateTime :=
  match readDigits s with
  | some [a, b, c, e, f, g, h, i] =>
    if 1 ≤ 1000 * a + 100 * b + 10 * c + e ∧ 1 ≤ 10 * f + g ∧ 10 * f + g ≤ 12 ∧ 1 ≤ 10 * h + i ∧
        10 * h + i ≤ (monthLen (1000 * a + 100 * b + 10 * c + e)).getD (10 * f + g - 1) 0 then
      some (midnight (1000 * a + 100 * b + 10 * c + e) (10 * f + g) (10 * h + i))
    else none
  | _ => none

/-- A library that reads texts of digits as Python does. -/
def pyLib : TimeLib where
  parseFloat s := (readDigits s).bind (fun ds => if ds = [] then none else some (.fin (digitsVal ds : Nat)))
  fromIso := pyIso
  fromTs q := .ok (q * 1000000).floor

theorem digit_read : ∀ x, x < 10 → (Nat.digitChar x).isDigit = true ∧ (Nat.digitChar x).toNat - 48 = x := by decide

theorem readDigits_text (ds : List Nat) (h : ∀ x ∈ ds, x < 10) : readDigits (digitsText ds) = some ds := by
  have h1 : (digitsText ds).all Char.isDigit = true := by
    simp only [digitsText, List.all_map, List.all_eq_true]
    intro x hx
    exact (digit_read x (h x hx)).1
  have h2 : (digitsText ds).map (fun c => c.toNat - 48) = ds := by
    simp only [digitsText, List.map_map]
    conv => rhs; rw [← List.map_id ds]
    exact List.map_congr_left (fun x hx => (digit_read x (h x hx)).2)
  rw [readDigits, if_pos h1, h2]

/-- The assumptions of `C266_basic_date_violation` are met. -/
theorem pyLib_reads : ReadsDigits pyLib where
  iso y m d h := by
    have h1 := h.year
    have h2 := h.month
    have h3 := day_le h
    have h4 := h.day
    have e1 : 1000 * (y / 1000) + 100 * (y / 100 % 10) + 10 * (y / 10 % 10) + y % 10 = y := by omega
    have e2 : 10 * (m / 10) + m % 10 = m := by omega
    have e3 : 10 * (d / 10) + d % 10 = d := by omega
    have hr := readDigits_text _ (dateDigits_lt h)
    have e : pyIso (digitsText (dateDigits y m d)) = some (midnight y m d) := by
      simp only [pyIso, hr]
      simp only [dateDigits, e1, e2, e3]
      rw [if_pos ⟨h1.1, h2.1, h2.2, h4.1, h4.2⟩]
    exact e
  float ds hl h := by
    have hne : ds ≠ [] := by
      rintro rfl
      cases hl
    simp [pyLib, readDigits_text ds h, hne]
  ts n _ := by
    have : ((n : Rat) * 1000000).floor = 1000000 * (n : Int) := by
      have e : ((n : Rat) * 1000000) = (((n : Int) * 1000000 : Int) : Rat) := by rw [Rat.intCast_mul]; rfl
      rw [e, Rat.floor_intCast]
      omega
    simp only [pyLib, this]

example : ValidDate 2024 2 29 := ⟨by decide, by decide, by decide⟩

/-- "20240229" is read as a moment of 23 August 1970 (day 234). -/
example : coerceCreatedAt pyLib (.str "20240229".toList) = .ok ⟨20240229000000, some 0⟩ ∧ (20240229000000 : Int) / 86400000000 = 234 ∧
    dayNumber 2024 2 29 = 19782 ∧ dayNumber 1970 8 23 = 234 := by decide +kernel

/-- Calendar check: consecutive days have consecutive numbers at the ends of months and years. -/
example : dayNumber 1970 1 1 = 0 ∧ dayNumber 2000 3 1 = dayNumber 2000 2 29 + 1 ∧ dayNumber 2001 1 1 = dayNumber 2000 12 31 + 1 ∧
    dayNumber 1900 3 1 = dayNumber 1900 2 28 + 1 := by decide +kernel

/-- Non-vacuity of `C266_exact_partial` in the good direction: a text that is not a number. -/
example : coerceCreatedAt { pyLib with fromIso := fun _ => some ⟨5, none⟩ } (.str "2024-02-29".toList) = .ok ⟨5, none⟩ :=
  (C266_exact_partial _ _ _ rfl).2 (by
    intro n hn
    have : ({ pyLib with fromIso := fun _ => some ⟨5, none⟩ } : TimeLib).parseFloat "2024-02-29".toList = none := by decide +kernel
    rw [this] at hn
    cases hn)

end Verif.Element
