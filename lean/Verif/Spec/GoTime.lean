import Verif.Spec.Rolling
import Verif.Model.GoTime

/-! # Specification vocabulary for time rolling by the calendar -/

namespace Log4g.Spec
open GoTime

/-! ## The Gregorian calendar -/

def LeapYear (y : Int) : Prop := (4 ∣ y ∧ ¬ 100 ∣ y) ∨ 400 ∣ y

instance (y : Int) : Decidable (LeapYear y) := inferInstanceAs (Decidable (_ ∨ _))

/-- The lengths of the months. -/
def monthLengths (y : Int) : List Int := [31, if LeapYear y then 29 else 28, 31, 30, 31, 30, 31, 31, 30, 31, 30, 31]

/-- The days from the first of January of the year 1 to a date. -/
def dayNumber (y : Int) (m d : Nat) : Int :=
  365 * (y - 1) + (y - 1) / 4 - (y - 1) / 100 + (y - 1) / 400 + ((monthLengths y).take (m - 1)).foldr (· + ·) 0 + (d - 1)

/-- There is this date and time of day. -/
def Exists (c : Civil) : Prop :=
  1 ≤ c.month ∧ c.month ≤ 12 ∧ 1 ≤ c.day ∧ (∃ len, (monthLengths c.year)[c.month - 1]? = some len ∧ (c.day : Int) ≤ len) ∧
  c.hour < 24 ∧ c.minute < 60 ∧ c.second < 60

/-- The seconds from the beginning of the year 1 to a date and time of day. -/
def secondsTo (c : Civil) : Int := dayNumber c.year c.month c.day * 86400 + c.hour * 3600 + c.minute * 60 + c.second

/-- A time zone whose clocks are always `off` seconds ahead of UTC. -/
def fixedZone (off : Int) : Zone := { lookup := fun _ => (off, -2 ^ 63, 2 ^ 63 - 1) }

/-- The seconds the clocks of a time zone are ahead of UTC at an instant (in nanoseconds since 1970). -/
def offsetAt (z : Zone) (t : Int) : Int := (z.lookup (t / 1000000000)).1

/-- At instant `t` (in nanoseconds since 1970) the clock and the calendar of the time zone show `c`. -/
def Reads (z : Zone) (t : Int) (c : Civil) : Prop :=
  Exists c ∧ secondsTo c = t / 1000000000 + offsetAt z t + dayNumber 1970 1 1 * 86400

/-- The calendar shows one of the years 0 to 9999, which have four digits. -/
def FourDigitYear (z : Zone) (t : Int) : Prop := ∃ c, Reads z t c ∧ 0 ≤ c.year ∧ c.year < 10000

/-! ## Patterns -/

/-- The fields of date and time, which patterns name by the numbers of a certain date. -/
inductive Field6 | year | month | day | hour | minute | second
  deriving DecidableEq

/-- The largest field first. -/
def Field6.rank : Field6 → Nat
  | .year => 0 | .month => 1 | .day => 2 | .hour => 3 | .minute => 4 | .second => 5

inductive DatePiece
  | field (f : Field6)
  | sep (c : Char)
  deriving DecidableEq

def DatePiece.text : DatePiece → Str
  | .field .year => c!"2006" | .field .month => c!"01" | .field .day => c!"02"
  | .field .hour => c!"15" | .field .minute => c!"04" | .field .second => c!"05"
  | .sep c => [c]

def patternText (ps : List DatePiece) : Str := ps.flatMap DatePiece.text

open scoped List in
/-- The pattern names the fields from the year down to the one of rank `k`, in any order, with any separators: these are no digits, no
slashes and none of the letters J, M, P and p; and there is no full stop after seconds, which Go would take for the beginning of a fraction. -/
structure NamesDownTo (ps : List DatePiece) (k : Nat) : Prop where
  fields : ∀ f, .field f ∈ ps ↔ f.rank ≤ k
  seps : ∀ c, .sep c ∈ ps → c ∉ c!"0123456789/JMPp"
  stop : ¬ [.field .second, .sep '.'] <:+: ps

def twoDigits (n : Nat) : Str := [Strconv.digitChar (n / 10 % 10), Strconv.digitChar (n % 10)]

def fourDigits (n : Nat) : Str := twoDigits (n / 100) ++ twoDigits n

/-- What a piece of a pattern stands for. -/
def DatePiece.at (c : Civil) : DatePiece → Str
  | .field .year => fourDigits c.year.toNat
  | .field .month => twoDigits c.month
  | .field .day => twoDigits c.day
  | .field .hour => twoDigits c.hour
  | .field .minute => twoDigits c.minute
  | .field .second => twoDigits c.second
  | .sep c => [c]

/-- The name of the period. -/
def nameAt (ps : List DatePiece) (c : Civil) : Str := ps.flatMap (DatePiece.at c)

/-- `b` is the beginning of the year (month, day, hour, minute, second, if `k` is 1, 2, 3, 4, 5) in which `c` is. -/
def BeginningOf (k : Nat) (c b : Civil) : Prop :=
  b.year = c.year ∧ b.month = (if 1 ≤ k then c.month else 1) ∧ b.day = (if 2 ≤ k then c.day else 1) ∧
  b.hour = (if 3 ≤ k then c.hour else 0) ∧ b.minute = (if 4 ≤ k then c.minute else 0) ∧ b.second = (if 5 ≤ k then c.second else 0)

/-- The seconds a period has at least, for days, hours and so on; for months and years too it is taken to be a day. -/
def shortest (k : Nat) : Int := if k ≤ 2 then 86400 else if k = 3 then 3600 else if k = 4 then 60 else 1

/-- Between `T0` and `T1` the clock is not put back into a period (year, month, …) that is over. -/
def NeverBack (z : Zone) (k : Nat) (T0 T1 : Int) : Prop :=
  ∀ s t c c' b b', T0 ≤ s → s ≤ t → t ≤ T1 → Reads z s c → Reads z t c' → BeginningOf k c b → BeginningOf k c' b' → secondsTo b ≤ secondsTo b'

/-- The clocks of the time zone are never by a whole period further ahead than at other times. -/
def SmallChanges (z : Zone) (k : Nat) : Prop := ∀ u v, (z.lookup u).1 - (z.lookup v).1 < shortest k

/-- `n` is the name of a backup made in a period that begins before `b0`. -/
def FromBefore (c : RCfg) (ps : List DatePiece) (k : Nat) (b0 : Civil) (n : Str) : Prop :=
  ∃ c' b', Exists c' ∧ 0 ≤ c'.year ∧ c'.year < 10000 ∧ n = backupName c.mode c.fileName (nameAt ps c') ∧ BeginningOf k c' b' ∧ secondsTo b' < secondsTo b0

/-- `n` is the name of a backup made in the period that begins at `b`. -/
def OfPeriod (c : RCfg) (ps : List DatePiece) (k : Nat) (b : Civil) (n : Str) : Prop :=
  ∃ c', Exists c' ∧ 0 ≤ c'.year ∧ c'.year < 10000 ∧ n = backupName c.mode c.fileName (nameAt ps c') ∧ BeginningOf k c' b

/-- At instant `t` the clock shows a time in the period that begins at `b`. -/
def DuringPeriod (z : Zone) (k : Nat) (t : Int) (b : Civil) : Prop := ∃ c, Reads z t c ∧ BeginningOf k c b

end Log4g.Spec
