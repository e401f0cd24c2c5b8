import Verif.Model.Coordinates
import Verif.Spec.NumberText
import Verif.Spec.Geo
import Verif.Spec.Time
/-!
# Specification: coordinates
-/

namespace Splitgill

/-- A value that is not a boolean, with the float it is as a number: of ints and texts the nearest one. -/
inductive NumberValue : Value → ℚ → Prop
  | int (i : Int) (x : ℚ) : IsRounded i x → NumberValue (.int i) x
  | float (q : ℚ) : NumberValue (.float (.fin q)) q
  | negZero : NumberValue (.float .negZero) 0
  | text (s : PyStr) (neg : Bool) (q x : ℚ) : Numeral s neg q → IsRounded (signed neg q) x → NumberValue (.str s) x

/-- The same for all values: `True` and `False` are 1 and 0. -/
inductive AnyNumber : Value → ℚ → Prop
  | number (v : Value) (x : ℚ) : NumberValue v x → AnyNumber v x
  | true : AnyNumber (.bool .true) 1
  | false : AnyNumber (.bool .false) 0

/-- Two values that are coordinates together. A boolean is none beside a text. -/
def Coordinates (lon lat : Value) (x y : ℚ) : Prop :=
  AnyNumber lon x ∧ AnyNumber lat y ∧ ((∃ s, lon = .str s) ∨ (∃ s, lat = .str s) → NumberValue lon x ∧ NumberValue lat y)

/-- Scalars, where floats are doubles; of the texts, those of printable ASCII characters without underscores that write no number, or one in the range of the normal doubles, and are none of the
words for NaN and infinities. -/
def Value.Plain : Value → Prop
  | .str s => Printable s ∧ '_' ∉ s ∧ (∀ neg q, Numeral s neg q → InDoubles q) ∧
    ∀ w ∈ ["inf".toList, "infinity".toList, "nan".toList], ¬ ∃ before sign word after, s = before ++ (sign ++ (word ++ after)) ∧ AllBlanks before ∧ AllBlanks after ∧
      (∃ neg, SignText sign neg) ∧ word.map Char.toLower = w
  | .float (.fin q) => IsDouble q
  | .list _ => False
  | .dict _ => False
  | _ => True

/-- `Point` and `try_float` read plain values as modelled, and `to_wkt` writes points with two numbers that read as the coordinates (`rounding_precision=-1`). -/
structure GeoLib.Reads (G : GeoLib) : Prop where
  point : ∀ lon lat, lon.Plain → lat.Plain → G.point lon lat = readPoint lon lat
  radius : ∀ v, v.Plain → G.toFloat v = readRadius v
  wkt : ∀ x y, IsDouble x → IsDouble y → ∃ sx sy, G.toWkt (.point [⟨x, y, []⟩]) = "POINT (".toList ++ (sx ++ ' ' :: (sy ++ [')'])) ∧
    NumberValue (.str sx) x ∧ NumberValue (.str sy) y

end Splitgill
