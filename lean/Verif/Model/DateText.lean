import Verif.Model.Parse
import Verif.Model.Time
/-!
# Model of datetimes, of their texts (`splitgill/diffing.py:27-34` and 85-94) and of reading texts as dates
(`splitgill/utils.py:32-51`)

The formats are those made of `%Y %m %d %H %M %S %f %z` and other characters than whitespace.
-/

namespace Splitgill

/-! ## Datetimes (Python's `datetime` module) -/

/-- A datetime; the offset from UTC in microseconds, if it is time zone aware. A date is the datetime at midnight. -/
structure DateTime where
  year : Nat := 1900
  month : Nat := 1
  day : Nat := 1
  hour : Nat := 0
  minute : Nat := 0
  second : Nat := 0
  micro : Nat := 0
  offset : Option Int := none
deriving DecidableEq

/-- Leap years. -/
def isLeap (y : Nat) : Bool := y % 4 == 0 && (y % 100 != 0 || y % 400 == 0)

/-- The number of days of a month. -/
def daysInMonth (y m : Nat) : Nat :=
  if m = 2 then (if isLeap y then 29 else 28)
  else if m = 4 ∨ m = 6 ∨ m = 9 ∨ m = 11 then 30 else 31

/-- The days in the years before a year (`_days_before_year` of `datetime`). -/
def daysBeforeYear (y : Nat) : Nat := (y - 1) * 365 + (y - 1) / 4 - (y - 1) / 100 + (y - 1) / 400

/-- The days in the months before a month of a year. -/
def daysBeforeMonth (y : Nat) : Nat → Nat
  | 0 => 0
  | 1 => 0
  | m + 2 => daysBeforeMonth y (m + 1) + daysInMonth y (m + 1)

/-- `date.toordinal()` -/
def ordinal (y m d : Nat) : Nat := daysBeforeYear y + daysBeforeMonth y m + d

/-- The datetimes that Python can make. -/
def DateTime.valid (t : DateTime) : Bool :=
  decide (1 ≤ t.year ∧ t.year ≤ 9999 ∧ 1 ≤ t.month ∧ t.month ≤ 12 ∧ 1 ≤ t.day ∧ t.day ≤ daysInMonth t.year t.month ∧
    t.hour < 24 ∧ t.minute < 60 ∧ t.second < 60 ∧ t.micro < 1000000) &&
  match t.offset with
  | none => true
  | some o => decide (-86400000000 < o ∧ o < 86400000000)

/-- The microseconds from 1970-01-01T00:00:00 to the datetime, both without time zone. -/
def DateTime.wall (t : DateTime) : Int :=
  ((((ordinal t.year t.month t.day : Int) - 719163) * 24 + t.hour) * 60 + t.minute) * 60000000 + t.second * 1000000 + t.micro

/-- The microseconds since the epoch; a naive datetime is taken as UTC. -/
def DateTime.epochUtc (t : DateTime) : Int := t.wall - t.offset.getD 0

/-! ## Writing -/

/-- The character of a digit. -/
def digitChar (n : Nat) : Char := Char.ofNat (48 + n)

/-- A number with leading zeros. -/
def digitsN : Nat → Nat → PyStr
  | 0, _ => []
  | w + 1, n => digitsN w (n / 10) ++ [digitChar (n % 10)]

/-- `%Y`: a year below 1000 is padded with zeros or not, depending on the platform. -/
def yearText (pad : Bool) (y : Nat) : PyStr :=
  if pad ∨ 1000 ≤ y then digitsN 4 y else if 100 ≤ y then digitsN 3 y else if 10 ≤ y then digitsN 2 y else digitsN 1 y

/-- `%z` -/
def offsetText : Option Int → PyStr
  | none => []
  | some o =>
    let us := o.natAbs
    (if o < 0 then '-' else '+') :: (digitsN 2 (us / 3600000000) ++ digitsN 2 (us / 60000000 % 60) ++
      if us % 60000000 = 0 then []
      else digitsN 2 (us / 1000000 % 60) ++ if us % 1000000 = 0 then [] else '.' :: digitsN 6 (us % 1000000))

/-- `value.strftime(DATE_FORMAT)` (diffing.py:28, 94) -/
def dateText (pad : Bool) (t : DateTime) : PyStr :=
  yearText pad t.year ++ '-' :: (digitsN 2 t.month ++ '-' :: digitsN 2 t.day)

/-- `value.strftime(DATETIME_FORMAT)` (diffing.py:27, 88) -/
def datetimeText (pad : Bool) (t : DateTime) : PyStr :=
  dateText pad t ++ 'T' :: (digitsN 2 t.hour ++ ':' :: (digitsN 2 t.minute ++ ':' :: (digitsN 2 t.second ++ '.' ::
    (digitsN 6 t.micro ++ offsetText t.offset))))

/-! ## Reading: `datetime.strptime`

A format is made a regular expression, which is matched with backtracking at the start of the text; then it is an error if something
remains, or if there is no such datetime. Simplified: texts are of ASCII characters only. -/

/-- A directive of a format. -/
inductive Dir
  | lit (c : Char)
  | Y | m | d | H | M | S | f | z
deriving DecidableEq

/-- The value of a digit; a space counts as zero. -/
def digitVal (c : Char) : Nat := c.toNat - 48

/-- `[a-b]` -/
def inRange (a b : Char) (c : Char) : Bool := decide (a.toNat ≤ c.toNat ∧ c.toNat ≤ b.toNat)

/-- One character, as a number. -/
def one (a : Char → Bool) : PyStr → List (Nat × PyStr)
  | x :: r => if a x then [(digitVal x, r)] else []
  | _ => []

/-- Two characters, as a number. -/
def two (a b : Char → Bool) : PyStr → List (Nat × PyStr)
  | x :: y :: r => if a x && b y then [(10 * digitVal x + digitVal y, r)] else []
  | _ => []

/-- `\d` -/
def isDig : Char → Bool := inRange '0' '9'

/-- `\d\d\d\d` -/
def four : PyStr → List (Nat × PyStr)
  | a :: b :: c :: d :: r =>
    if isDig a && isDig b && isDig c && isDig d then
      [(1000 * digitVal a + 100 * digitVal b + 10 * digitVal c + digitVal d, r)]
    else []
  | _ => []

/-- `[0-9]{1,n}`, the longest first, as millionths if `n` is 6: the number read so far is `acc`, which counts `scale`. -/
def fraction : Nat → Nat → Nat → PyStr → List (Nat × PyStr)
  | 0, _, _, _ => []
  | n + 1, acc, scale, c :: r =>
    if isDig c then
      let acc := 10 * acc + digitVal c
      fraction n acc (scale / 10) r ++ [(acc * (scale / 10), r)]
    else []
  | _ + 1, _, _, [] => []

/-- `:?` -/
def optColon : PyStr → List (Bool × PyStr)
  | ':' :: r => [(true, r), (false, ':' :: r)]
  | s => [(false, s)]

/-- What `%z` reads: the offset without its sign; `none` if colons are not used consistently, which is an error. -/
def zoneTail (s : PyStr) : List (Option Nat × PyStr) :=
  (two isDig isDig s).flatMap fun h => (optColon h.2).flatMap fun c1 => (two (inRange '0' '5') isDig c1.2).flatMap fun mi =>
    ((optColon mi.2).flatMap fun c2 => (two (inRange '0' '5') isDig c2.2).flatMap fun se =>
      let whole := (h.1 * 3600 + mi.1 * 60 + se.1) * 1000000
      (match se.2 with
        | '.' :: r => (fraction 6 0 1000000 r).map (fun fr => (if c1.1 = c2.1 then some (whole + fr.1) else none, fr.2))
        | _ => []) ++ [(if c1.1 = c2.1 then some whole else none, se.2)]) ++
    [(some ((h.1 * 3600 + mi.1 * 60) * 1000000), mi.2)]

/-- What a directive can read at the start of a text, in the order in which the regular expression tries it; `none` is an error
whatever follows (`_strptime.TimeRE` of Python). -/
def Dir.reads (s : PyStr) : Dir → List ((DateTime → Option DateTime) × PyStr)
  | .lit c => match s with
    | x :: r => if x.toLower = c.toLower then [(some, r)] else []
    | [] => []
  | .Y => (four s).map (fun v => (fun t => some { t with year := v.1 }, v.2))
  | .m => (two (inRange '1' '1') (inRange '0' '2') s ++ two (inRange '0' '0') (inRange '1' '9') s ++ one (inRange '1' '9') s).map
      (fun v => (fun t => some { t with month := v.1 }, v.2))
  | .d => (two (inRange '3' '3') (inRange '0' '1') s ++ two (inRange '1' '2') isDig s ++ two (inRange '0' '0') (inRange '1' '9') s ++
      one (inRange '1' '9') s ++ two (inRange ' ' ' ') (inRange '1' '9') s).map
      (fun v => (fun t => some { t with day := v.1 }, v.2))
  | .H => (two (inRange '2' '2') (inRange '0' '3') s ++ two (inRange '0' '1') isDig s ++ one isDig s).map
      (fun v => (fun t => some { t with hour := v.1 }, v.2))
  | .M => (two (inRange '0' '5') isDig s ++ one isDig s).map (fun v => (fun t => some { t with minute := v.1 }, v.2))
  | .S => (two (inRange '6' '6') (inRange '0' '1') s ++ two (inRange '0' '5') isDig s ++ one isDig s).map
      (fun v => (fun t => some { t with second := v.1 }, v.2))
  | .f => (fraction 6 0 1000000 s).map (fun v => (fun t => some { t with micro := v.1 }, v.2))
  | .z => match s with
    | '+' :: r => (zoneTail r).map (fun v => (fun t => v.1.map (fun o => { t with offset := some (o : Int) }), v.2))
    | '-' :: r => (zoneTail r).map (fun v => (fun t => v.1.map (fun o => { t with offset := some (-(o : Int)) }), v.2))
    | 'Z' :: r => [(fun t => some { t with offset := some 0 }, r)]
    | _ => []

/-- The first match, with what remains of the text. -/
def matchDirs : List Dir → PyStr → Option DateTime → Option (Option DateTime × PyStr)
  | [], s, t => some (t, s)
  | d :: ds, s, t => (d.reads s).findSome? (fun v => matchDirs ds v.2 (t.bind v.1))

/-- `datetime.strptime(s, format)`; `none` for `ValueError` -/
def strptime (ds : List Dir) (s : PyStr) : Option DateTime :=
  match matchDirs ds s (some {}) with
  | some (some t, []) => if t.valid then some t else none
  | _ => none

/-- The directives of a format, `none` if it has others. -/
def formatDirs : PyStr → Option (List Dir)
  | [] => some []
  | '%' :: c :: r =>
    (match c with
      | 'Y' => some Dir.Y | 'm' => some .m | 'd' => some .d | 'H' => some .H | 'M' => some .M | 'S' => some .S
      | 'f' => some .f | 'z' => some .z | _ => none).bind (fun d => (formatDirs r).map (d :: ·))
  | c :: r => if c = '%' || c.isWhitespace then none else (formatDirs r).map (.lit c :: ·)

/-- Does a directive come twice? -/
def repeatsDirs : List Dir → Bool
  | [] => false
  | .lit _ :: ds => repeatsDirs ds
  | d :: ds => ds.contains d || repeatsDirs ds

/-- The directives of a format in which none comes twice. -/
def parseFormat (f : PyStr) : Option (List Dir) := (formatDirs f).filter (fun ds => !repeatsDirs ds)

/-- `parse_to_timestamp(s, format)` (utils.py:32-51); `none` for `ValueError` -/
def readTimestamp (ds : List Dir) (s : PyStr) : Option Int := (strptime ds s).map (fun t => toTimestamp t.epochUtc)

/-- What `strptime` raises for formats in which a directive comes twice: `re.error`, as the names of groups have to be different. This is not a
`ValueError`. -/
inductive DateErr
  | redefinition
deriving DecidableEq

/-- The loop over the formats (parser.py:194-201) with all that it can raise. `other` is `parse_to_timestamp` for formats that are not modelled. -/
def dateLoop (other : PyStr → PyStr → Option Int) (s : PyStr) : List PyStr → Except DateErr (Option Int)
  | [] => .ok none
  | f :: fs =>
    match formatDirs f with
    | some ds =>
      if repeatsDirs ds then .error .redefinition
      else match readTimestamp ds s with
        | some ts => .ok (some ts)
        | none => dateLoop other s fs
    | none =>
      match other s f with
      | some ts => .ok (some ts)
      | none => dateLoop other s fs

end Splitgill
