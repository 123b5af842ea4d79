import Verif.Model.Rolling

/-! # Package `time` as time rolling uses it — `internal/output_rollingwriter.go:635, 650, 664-665, 681, 687`

Library behaviour (not code of the repository), needed because what time rolling does depends on how names of periods come out and
which instants they are read as: `Time.Format`, `time.ParseInLocation` and `time.Date` of Go 1.12 (go.mod), for layouts made of the
elements `2006`, `01`, `02`, `15`, `04`, `05` and other text.  Of layouts with other elements (names of months, fractions of seconds
and so on) nothing is said: there any library is possible. -/

namespace Log4g
namespace GoTime
open Strconv

/-! ## The calendar -/

/-- `isLeap` of package `time`.  (Used by `Format` and `ParseInLocation`, internal/output_rollingwriter.go:635, 650.) -/
def isLeap (year : Int) : Bool := year % 4 = 0 ∧ (year % 100 ≠ 0 ∨ year % 400 = 0)

/-- `daysBefore` of package `time`: the days of a year, not a leap year, before month `m + 1`.
(Used by `Format` and `ParseInLocation`, internal/output_rollingwriter.go:635, 650.) -/
def daysBefore : Nat → Int
  | 0 => 0 | 1 => 31 | 2 => 59 | 3 => 90 | 4 => 120 | 5 => 151 | 6 => 181 | 7 => 212 | 8 => 243 | 9 => 273 | 10 => 304 | 11 => 334 | _ => 365

/-- The first part of `absDate` of package `time`: the year of a day, and the day within the year.  Days are counted from
the first of January of the year 1.  (Go counts from the first of January of the year -292277022399, which is as
far in its 400 years.)  (Used by `Format`, internal/output_rollingwriter.go:635.) -/
def yearOf (d : Int) : Int × Int :=
  -- 400 years
  let n := d / 146097
  let y := 400 * n
  let d := d - 146097 * n
  -- 100 years
  let n := d / 36524
  let n := n - n / 4
  let y := y + 100 * n
  let d := d - 36524 * n
  -- 4 years
  let n := d / 1461
  let y := y + 4 * n
  let d := d - 1461 * n
  -- years
  let n := d / 365
  let n := n - n / 4
  (y + n + 1, d - 365 * n)

/-- The second part of `absDate`: the month and the day.  (Used by `Format`, internal/output_rollingwriter.go:635.) -/
def monthDay (leap : Bool) (yday : Int) : Nat × Nat :=
  if leap = true ∧ yday = 59 then (2, 29)
  else
    let day := if leap = true ∧ 59 < yday then yday - 1 else yday
    let month := (day / 31).toNat
    if daysBefore (month + 1) ≤ day then (month + 2, (day - daysBefore (month + 1) + 1).toNat)
    else (month + 1, (day - daysBefore month + 1).toNat)

/-- `daysIn` of package `time`.  (Used by `ParseInLocation`, internal/output_rollingwriter.go:650.) -/
def daysIn (month : Nat) (year : Int) : Int :=
  if month = 2 ∧ isLeap year then 29 else daysBefore month - daysBefore (month - 1)

/-- The days before a date, as in `time.Date`, counted as in `yearOf`; the month and the day exist.
(Used by `ParseInLocation`, internal/output_rollingwriter.go:650.) -/
def dayOf (year : Int) (month day : Nat) : Int :=
  let y := year - 1
  let n400 := y / 400
  let y := y - 400 * n400
  let n100 := y / 100
  let y := y - 100 * n100
  let n4 := y / 4
  let y := y - 4 * n4
  let d := 146097 * n400 + 36524 * n100 + 1461 * n4 + 365 * y
  let d := d + daysBefore (month - 1)
  let d := if isLeap year ∧ 3 ≤ month then d + 1 else d
  d + day - 1

/-! ## Local time -/

/-- `*time.Location`: `lookup(sec)` answers with the offset in use at that time and from when until when it is, all in seconds.
(`time.Local`, internal/output_rollingwriter.go:650.) -/
structure Zone where
  lookup : Int → Int × Int × Int

/-- The seconds between the beginning of the year 1 and that of 1970.  (`unixToInternal` of package `time`.)
(Used by `Format`, internal/output_rollingwriter.go:635.) -/
def unixToInternal : Int := 62135596800

/-- The date and the clock.  (What `Format` shows, internal/output_rollingwriter.go:635.) -/
structure Civil where
  year : Int
  month : Nat
  day : Nat
  hour : Nat
  minute : Nat
  second : Nat
  deriving DecidableEq

/-- Seconds on the local clock, since the year 1, at an instant (instants are nanoseconds since 1970).
(`Time.abs` of package `time`; used by `Format`, internal/output_rollingwriter.go:635.) -/
def Zone.clock (z : Zone) (t : Int) : Int := t / 1000000000 + (z.lookup (t / 1000000000)).1 + unixToInternal

/-- The date and the clock, by `absDate` and `absClock` of package `time`.  (Used by `Format`, internal/output_rollingwriter.go:635.) -/
def civil (abs : Int) : Civil :=
  let (year, yday) := yearOf (abs / 86400)
  let (month, day) := monthDay (isLeap year) yday
  let sec := (abs % 86400).toNat
  { year, month, day, hour := sec / 3600, minute := sec % 3600 / 60, second := sec % 60 }

/-- `time.Date`, for a date that exists: the instant.  (Used by `ParseInLocation`, internal/output_rollingwriter.go:650.) -/
def Zone.date (z : Zone) (c : Civil) (nsec : Nat) : Int :=
  let unix := dayOf c.year c.month c.day * 86400 + (c.hour * 3600 + c.minute * 60 + c.second : Nat) - unixToInternal
  let (offset, start, stop) := z.lookup unix
  let unix :=
    if offset ≠ 0 then
      let utc := unix - offset
      if utc < start then unix - (z.lookup (start - 1)).1
      else if stop ≤ utc then unix - (z.lookup stop).1
      else unix - offset
    else unix
  unix * 1000000000 + nsec

/-! ## Layouts -/

/-- What a layout is made of.  (internal/output_rolling.go:58; `nextStdChunk` of package `time`.) -/
inductive Elem
  | year | month | day | hour | minute | second
  | lit (c : Char)
  deriving DecidableEq

/-- The elements of a layout; `none` if there may be others than those of this model.  (`nextStdChunk` of package `time`; used by `Format`
and `ParseInLocation`, internal/output_rollingwriter.go:635, 650.) -/
def scan : Str → Option (List Elem)
  | [] => some []
  | c :: r =>
    match c, r with
    | '2', '0' :: '0' :: '6' :: r => (scan r).map (.year :: ·)
    | '0', '1' :: r => (scan r).map (.month :: ·)
    | '0', '2' :: r => (scan r).map (.day :: ·)
    | '0', '4' :: r => (scan r).map (.minute :: ·)
    | '0', '5' :: r => (scan r).map (.second :: ·)
    | '1', '5' :: r => (scan r).map (.hour :: ·)
    | c, r =>
      if c ∈ c!"012345JMPp" ∨ ((c = '.' ∨ c = ',') ∧ r.head? = some '9') then none
      else (scan r).map (.lit c :: ·)

/-- `appendInt` of package `time`.  (Used by `Format`, internal/output_rollingwriter.go:635.) -/
def pad (width : Nat) (x : Int) : Str :=
  (if x < 0 then c!"-" else []) ++ List.replicate (width - (natDigits x.natAbs).length) '0' ++ natDigits x.natAbs

/-- One element of `Format`.  (internal/output_rollingwriter.go:635) -/
def Elem.show (c : Civil) : Elem → Str
  | .year => pad 4 c.year
  | .month => pad 2 c.month
  | .day => pad 2 c.day
  | .hour => pad 2 c.hour
  | .minute => pad 2 c.minute
  | .second => pad 2 c.second
  | .lit c => [c]

/-- The value of a digit.  (`isDigit` of package `time`; used by `ParseInLocation`, internal/output_rollingwriter.go:650.) -/
def digit (c : Char) : Option Nat := if 48 ≤ c.toNat ∧ c.toNat ≤ 57 then some (c.toNat - 48) else none

/-- `getnum` of package `time`.  (Used by `ParseInLocation`, internal/output_rollingwriter.go:650.) -/
def getnum (fixed : Bool) (s : Str) : Option (Nat × Str) :=
  match s with
  | [] => none
  | a :: s =>
    match digit a, s with
    | none, _ => none
    | some x, [] => if fixed then none else some (x, [])
    | some x, b :: s =>
      match digit b with
      | some y => some (x * 10 + y, s)
      | none => if fixed then none else some (x, b :: s)

/-- The fraction of a second that may follow seconds though the layout has none: its digits, and the rest.
(Used by `ParseInLocation`, internal/output_rollingwriter.go:650.) -/
def fraction (s : Str) : Str × Str :=
  match s with
  | '.' :: a :: s => if (digit a).isSome then ((a :: s).takeWhile fun c => (digit c).isSome, (a :: s).dropWhile fun c => (digit c).isSome) else ([], '.' :: a :: s)
  | s => ([], s)

/-- The digits as nanoseconds: `parseNanoseconds` of package `time`; `none` is an error.  (Used by `ParseInLocation`, internal/output_rollingwriter.go:650.) -/
def nanoseconds (ds : Str) : Option Nat :=
  let n := ds.foldl (fun n c => n * 10 + (c.toNat - 48)) 0
  if 1000000000 ≤ n then none else some (n * 10 ^ (9 - ds.length))

/-- What `ParseInLocation` has read so far.  (internal/output_rollingwriter.go:650) -/
structure Read where
  civil : Civil := { year := 0, month := 1, day := 1, hour := 0, minute := 0, second := 0 }
  nsec : Nat := 0

/-- The loop of `time.ParseInLocation`; `sp` says that blanks of the layout have just been passed (`skip` of package `time`).
(internal/output_rollingwriter.go:650) -/
def parseElems : Bool → List Elem → Str → Read → Option Read
  | _, [], v, f => if v = [] then some f else none
  | sp, .lit ' ' :: es, v, f =>
    if sp then parseElems true es v f
    else if v.head?.any (· ≠ ' ') then none
    else parseElems true es (v.dropWhile (· = ' ')) f
  | _, .lit c :: es, v, f =>
    match v with
    | x :: v => if x = c then parseElems false es v f else none
    | [] => none
  | _, .year :: es, v, f =>
    match v with
    | a :: b :: c :: d :: v =>
      match digit a, digit b, digit c, digit d with
      | some a, some b, some c, some d => parseElems false es v { f with civil := { f.civil with year := (((a * 10 + b) * 10 + c) * 10 + d : Nat) } }
      | _, _, _, _ => none
    | _ => none
  | _, .month :: es, v, f =>
    match getnum true v with
    | some (n, v) => if n = 0 ∨ 12 < n then none else parseElems false es v { f with civil := { f.civil with month := n } }
    | none => none
  | _, .day :: es, v, f =>
    match getnum true v with
    | some (n, v) => parseElems false es v { f with civil := { f.civil with day := n } }
    | none => none
  | _, .hour :: es, v, f =>
    match getnum false v with
    | some (n, v) => if 24 ≤ n then none else parseElems false es v { f with civil := { f.civil with hour := n } }
    | none => none
  | _, .minute :: es, v, f =>
    match getnum true v with
    | some (n, v) => if 60 ≤ n then none else parseElems false es v { f with civil := { f.civil with minute := n } }
    | none => none
  | _, .second :: es, v, f =>
    match getnum true v with
    | some (n, v) =>
      if 60 ≤ n then none
      else match fraction v with
        | ([], v) => parseElems false es v { f with civil := { f.civil with second := n } }
        | (ds, v) => match nanoseconds ds with
          | none => none
          | some ns => parseElems false es v { civil := { f.civil with second := n }, nsec := ns }
    | none => none

/-- `time.ParseInLocation`: the instant.  (internal/output_rollingwriter.go:650, 664-665) -/
def Zone.parse (z : Zone) (es : List Elem) (v : Str) : Option Int :=
  match parseElems false es v {} with
  | none => none
  | some r => if (r.civil.day : Int) < 1 ∨ daysIn r.civil.month r.civil.year < r.civil.day then none else some (z.date r.civil r.nsec)

/-- Package `time` in the time zone `z`; for layouts that are not modelled, anything.  (internal/output_rollingwriter.go:635, 650, 664-665, 681, 687) -/
def library (z : Zone) (other : RLib) : RLib := { other with
  format := fun t pat => match scan pat with
    | some es => es.flatMap (Elem.show (civil (z.clock t)))
    | none => other.format t pat
  parse := fun pat v => match scan pat with
    | some es => z.parse es v
    | none => other.parse pat v
  zero := -(unixToInternal * 1000000000) }

end GoTime
end Log4g
