import Verif.Model.DateText
/-!
# Specification: the texts of dates in a format
-/

namespace Splitgill

/-- Only digits. -/
def AllDigits (w : PyStr) : Prop := ∀ c ∈ w, '0'.toNat ≤ c.toNat ∧ c.toNat ≤ '9'.toNat

/-- The number that digits write. -/
def decimal (w : PyStr) : Nat := w.foldl (fun n c => 10 * n + (c.toNat - '0'.toNat)) 0

/-- The text writes the number with one or two digits. -/
def ShortNumber (w : PyStr) (n : Nat) : Prop := AllDigits w ∧ (w.length = 1 ∨ w.length = 2) ∧ decimal w = n

/-- The text writes millionths with one to six digits. -/
def Millionths (w : PyStr) (n : Nat) : Prop := AllDigits w ∧ 1 ≤ w.length ∧ w.length ≤ 6 ∧ n = decimal w * 10 ^ (6 - w.length)

/-- The text writes a duration, in microseconds: two digits for each of the hours, minutes and, if they are given, seconds, all or none of them
separated by colons; the seconds may have a fraction. -/
inductive Offset : PyStr → Nat → Prop
  | minutes (h m colon : PyStr) : AllDigits h → h.length = 2 → AllDigits m → m.length = 2 → decimal m < 60 → colon = [] ∨ colon = [':'] →
      Offset (h ++ (colon ++ m)) ((decimal h * 3600 + decimal m * 60) * 1000000)
  | seconds (h m s colon : PyStr) : AllDigits h → h.length = 2 → AllDigits m → m.length = 2 → decimal m < 60 → AllDigits s → s.length = 2 →
      decimal s < 60 → colon = [] ∨ colon = [':'] →
      Offset (h ++ (colon ++ (m ++ (colon ++ s)))) ((decimal h * 3600 + decimal m * 60 + decimal s) * 1000000)
  | fraction (h m s colon f : PyStr) (n : Nat) : AllDigits h → h.length = 2 → AllDigits m → m.length = 2 → decimal m < 60 → AllDigits s →
      s.length = 2 → decimal s < 60 → colon = [] ∨ colon = [':'] → Millionths f n →
      Offset (h ++ (colon ++ (m ++ (colon ++ (s ++ '.' :: f))))) ((decimal h * 3600 + decimal m * 60 + decimal s) * 1000000 + n)

/-- The text is one for the directive, which makes the second datetime of the first. -/
inductive Piece : Dir → PyStr → DateTime → DateTime → Prop
  | lit (c x : Char) (t : DateTime) : x.toLower = c.toLower → Piece (.lit c) [x] t t
  | Y (w : PyStr) (t : DateTime) : AllDigits w → w.length = 4 → Piece .Y w t { t with year := decimal w }
  | m (w : PyStr) (n : Nat) (t : DateTime) : ShortNumber w n → 1 ≤ n → n ≤ 12 → Piece .m w t { t with month := n }
  | d (w : PyStr) (n : Nat) (t : DateTime) : ShortNumber w n → 1 ≤ n → n ≤ 31 → Piece .d w t { t with day := n }
  | dSpace (c : Char) (t : DateTime) : AllDigits [c] → 1 ≤ decimal [c] → Piece .d [' ', c] t { t with day := decimal [c] }
  | H (w : PyStr) (n : Nat) (t : DateTime) : ShortNumber w n → n < 24 → Piece .H w t { t with hour := n }
  | M (w : PyStr) (n : Nat) (t : DateTime) : ShortNumber w n → n < 60 → Piece .M w t { t with minute := n }
  | S (w : PyStr) (n : Nat) (t : DateTime) : ShortNumber w n → n < 62 → Piece .S w t { t with second := n }
  | f (w : PyStr) (n : Nat) (t : DateTime) : Millionths w n → Piece .f w t { t with micro := n }
  | ahead (w : PyStr) (n : Nat) (t : DateTime) : Offset w n → Piece .z ('+' :: w) t { t with offset := some (n : Int) }
  | behind (w : PyStr) (n : Nat) (t : DateTime) : Offset w n → Piece .z ('-' :: w) t { t with offset := some (-(n : Int)) }
  | zulu (t : DateTime) : Piece .z ['Z'] t { t with offset := some 0 }

/-- The text is one for the directives in turn. -/
inductive Writes : List Dir → PyStr → DateTime → DateTime → Prop
  | nil (t : DateTime) : Writes [] [] t t
  | cons {d : Dir} {ds : List Dir} {w s : PyStr} {t t' t'' : DateTime} : Piece d w t t' → Writes ds s t' t'' → Writes (d :: ds) (w ++ s) t t''

/-- What follows in the format cannot go on with the text of the directive. -/
def Dir.endsBefore : Dir → List Dir → Bool
  | .Y, _ => true
  | .lit _, _ => true
  | .z, [] => true
  | .z, .lit c :: _ => !isDig c && c != ':' && c != '.'
  | .z, _ => false
  | _, [] => true
  | _, .lit c :: _ => !isDig c
  | _, .z :: _ => true
  | _, _ => false

/-- It is clear in texts of the format where each number ends. -/
def SeparatedDirs : List Dir → Bool
  | [] => true
  | d :: ds => d.endsBefore ds && SeparatedDirs ds

end Splitgill
