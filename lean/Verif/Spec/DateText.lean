import Verif.Model.DateText
import Verif.Spec.Options
/-!
# Specification: datetimes, and readers of dates
-/

namespace Splitgill

/-- The number of days of the months of the Gregorian calendar, January first. -/
def monthLengths (leap : Bool) : List Nat := [31, if leap then 29 else 28, 31, 30, 31, 30, 31, 31, 30, 31, 30, 31]

/-- The number of days of a month: the years that 4 divides are leap years, but of those that 100 divides only those that 400 divides. -/
def monthLength (y m : Nat) : Nat :=
  (monthLengths (decide (400 ∣ y) || (decide (4 ∣ y) && !decide (100 ∣ y)))).getD (m - 1) 0

/-- The day after a date of the Gregorian calendar. -/
def nextDay (y m d : Nat) : Nat × Nat × Nat :=
  if d < monthLength y m then (y, m, d + 1) else if m < 12 then (y, m + 1, 1) else (y + 1, 1, 1)

/-- All characters are ASCII. -/
def Ascii (s : PyStr) : Prop := ∀ c ∈ s, c.toNat < 128

/-- The library reads dates in ASCII texts as `strptime` does, for formats of the directives that are modelled. -/
def ParseEnv.ReadsDates (E : ParseEnv) : Prop :=
  ∀ (format s : PyStr) (ds : List Dir), parseFormat format = some ds → Ascii s → E.parseDate s format = readTimestamp ds s

/-- Formats in which no text means another moment than `ts`, apart from the three formats for the texts of `ingest`. -/
def NoOtherReading (E : ParseEnv) (o : ParsingOptions) (s : PyStr) (ts : Int) : Prop :=
  ∀ f ∈ o.dateFormats, f ∈ startOptions.dateFormats ∨ ∀ x, E.parseDate s f = some x → x = ts

end Splitgill
