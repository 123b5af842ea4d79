import Verif.Model.Basic

/-!
# `strconv` as the code uses it

Library behaviour (not code of the repository), needed exactly because the code ignores the error
results and uses the numbers that come with them: `strconv.Atoi` (internal/output_base.go:78,90,
internal/output_rolling.go:77,83,89,96,104, internal/output_rollingwriter.go:575,586,587,605),
`strconv.ParseInt(s, 0, 32)` (internal/output_rolling.go:115) and `fmt.Sprintf("%d", v)`
(internal/output_rollingwriter.go:607).  `int` is taken to have 64 bits.
-/

namespace Log4g.Strconv

/-- The two kinds of error of `strconv.NumError`.
(Used at internal/output_base.go:78, 90, internal/output_rolling.go:77-115 and internal/output_rollingwriter.go:575, 586-587, 605.) -/
inductive Err | syntax | range
  deriving DecidableEq, Repr

/-- Value of one digit character in the sense of `strconv.ParseUint`: `0-9`, `a-z`, `A-Z`.
(Used at internal/output_base.go:78, 90, internal/output_rolling.go:77-115 and internal/output_rollingwriter.go:575, 586-587, 605.) -/
def digitVal (c : Char) : Option Nat :=
  if '0'.toNat ≤ c.toNat ∧ c.toNat ≤ '9'.toNat then some (c.toNat - '0'.toNat)
  else if 'a'.toNat ≤ c.toNat ∧ c.toNat ≤ 'z'.toNat then some (c.toNat - 'a'.toNat + 10)
  else if 'A'.toNat ≤ c.toNat ∧ c.toNat ≤ 'Z'.toNat then some (c.toNat - 'A'.toNat + 10)
  else none

/-- The loop of `strconv.ParseUint`: digits are consumed from the left; a bad digit is a syntax
error with value 0, exceeding `maxVal` is a range error with value `maxVal`, whichever comes first.
`us` says that underscores are skipped (base 0, Go 1.13 and later).
(Used at internal/output_base.go:78, 90, internal/output_rolling.go:77-115 and internal/output_rollingwriter.go:575, 586-587, 605.) -/
def parseLoop (us : Bool) (base maxVal : Nat) : Nat → Str → Nat × Option Err
  | acc, [] => (acc, none)
  | acc, c :: cs =>
    if us = true ∧ c = '_' then parseLoop us base maxVal acc cs
    else match digitVal c with
    | none => (0, some .syntax)
    | some d =>
      if base ≤ d then (0, some .syntax)
      else if maxVal < acc * base + d then (maxVal, some .range)
      else parseLoop us base maxVal (acc * base + d) cs

/-- `strconv.ParseUint(s, 10, 64)`.
(Used at internal/output_base.go:78, 90, internal/output_rolling.go:77-115 and internal/output_rollingwriter.go:575, 586-587, 605.) -/
def parseUint10 (s : Str) : Nat × Option Err :=
  if s = [] then (0, some .syntax) else parseLoop false 10 (2 ^ 64 - 1) 0 s

/-- Splits an optional sign off.
(Used at internal/output_base.go:78, 90, internal/output_rolling.go:77-115 and internal/output_rollingwriter.go:575, 586-587, 605.) -/
def splitSign : Str → Bool × Str
  | '-' :: s => (true, s)
  | '+' :: s => (false, s)
  | s => (false, s)

/-- The sign and range handling shared by `strconv.Atoi` and `strconv.ParseInt`, given the result
of the unsigned parse and the signed cutoff `2^(bits-1)`.
(Used at internal/output_base.go:78, 90, internal/output_rolling.go:77-115 and internal/output_rollingwriter.go:575, 586-587, 605.) -/
def signed (neg : Bool) (cutoff : Nat) : Nat × Option Err → Int × Option Err
  | (_, some .syntax) => (0, some .syntax)
  | (un, _) =>
    if neg = false ∧ cutoff ≤ un then ((cutoff : Int) - 1, some .range)
    else if neg = true ∧ cutoff < un then (-(cutoff : Int), some .range)
    else (if neg then -(un : Int) else (un : Int), none)

/-- `strconv.Atoi` on a 64-bit platform.  (The fast path for fewer than 19 characters gives the same
results as the slow path modelled here.).
(Used at internal/output_base.go:78, 90, internal/output_rolling.go:77-115 and internal/output_rollingwriter.go:575, 586-587, 605.) -/
def atoi (s : Str) : Int × Option Err :=
  if s = [] then (0, some .syntax)
  else
    let (neg, ds) := splitSign s
    signed neg (2 ^ 63) (parseUint10 ds)

/-- Which strconv is linked in: before Go 1.13, or since.  (The Go version that builds internal/output_rolling.go:115.) -/
inductive Toolchain | pre113 | since113
  deriving DecidableEq, Repr

/-- `lower(c)` of strconv for the prefix letters.  (Used at internal/output_rolling.go:115.) -/
def isLetter (c : Char) (l u : Char) : Bool := c = l || c = u

/-- The base selection of `strconv.ParseUint` with base 0: the base, the remaining digits, and
whether the prefix itself is malformed.  (Used at internal/output_rolling.go:115.) -/
def base0 (tc : Toolchain) : Str → Option (Nat × Str)
  | '0' :: c :: rest =>
    if isLetter c 'x' 'X' then
      if rest = [] then (match tc with | .pre113 => none | .since113 => some (8, c :: rest))
      else some (16, rest)
    else if tc = .since113 ∧ isLetter c 'b' 'B' ∧ rest ≠ [] then some (2, rest)
    else if tc = .since113 ∧ isLetter c 'o' 'O' ∧ rest ≠ [] then some (8, rest)
    else some (8, c :: rest)
  | ['0'] => some (8, [])
  | s => some (10, s)

/-- The scan of `strconv.underscoreOK`: `saw` is the kind of the previous character.
(Used at internal/output_rolling.go:115.) -/
inductive Saw | start | digit | underscore | other
  deriving DecidableEq

/-- The loop of `strconv.underscoreOK` (used at internal/output_rolling.go:115). -/
def underscoreScan (hex : Bool) : Saw → Str → Bool
  | saw, [] => saw ≠ .underscore
  | saw, c :: cs =>
    if ('0'.toNat ≤ c.toNat ∧ c.toNat ≤ '9'.toNat) ∨
       (hex = true ∧ (('a'.toNat ≤ c.toNat ∧ c.toNat ≤ 'f'.toNat) ∨
                      ('A'.toNat ≤ c.toNat ∧ c.toNat ≤ 'F'.toNat)))
    then underscoreScan hex .digit cs
    else if c = '_' then (if saw = .digit then underscoreScan hex .underscore cs else false)
    else if saw = .underscore then false
    else underscoreScan hex .other cs

/-- `strconv.underscoreOK` on a string without sign.  (Used at internal/output_rolling.go:115.) -/
def underscoreOK : Str → Bool
  | '0' :: c :: rest =>
    if isLetter c 'b' 'B' || isLetter c 'o' 'O' || isLetter c 'x' 'X' then
      underscoreScan (isLetter c 'x' 'X') .digit rest
    else underscoreScan false .start ('0' :: c :: rest)
  | s => underscoreScan false .start s

/-- `strconv.ParseUint(s, 0, 32)`.  (Used at internal/output_rolling.go:115.) -/
def parseUint0 (tc : Toolchain) (s : Str) : Nat × Option Err :=
  if s = [] then (0, some .syntax)
  else match base0 tc s with
  | none => (0, some .syntax)
  | some (base, ds) =>
    match parseLoop (tc = .since113) base (2 ^ 32 - 1) 0 ds with
    | (v, none) =>
      if tc = .since113 ∧ '_' ∈ ds ∧ underscoreOK s = false then (0, some .syntax) else (v, none)
    | r => r

/-- `strconv.ParseInt(s, 0, 32)`.  (Used at internal/output_rolling.go:115.) -/
def parseInt0 (tc : Toolchain) (s : Str) : Int × Option Err :=
  if s = [] then (0, some .syntax)
  else
    let (neg, ds) := splitSign s
    signed neg (2 ^ 31) (parseUint0 tc ds)

/-- The decimal digit character of `d < 10`.  (Used at internal/output_rollingwriter.go:607.) -/
def digitChar (d : Nat) : Char := Char.ofNat (48 + d)

/-- Decimal digits of a natural number.  (Used at internal/output_rollingwriter.go:607.) -/
def natDigits (n : Nat) : Str :=
  if n < 10 then [digitChar n] else natDigits (n / 10) ++ [digitChar (n % 10)]
decreasing_by omega

/-- `fmt.Sprintf("%d", v)`.  (Used at internal/output_rollingwriter.go:607.) -/
def itoa (v : Int) : Str :=
  if v < 0 then '-' :: natDigits v.natAbs else natDigits v.natAbs

/-- Two's complement wrap-around of 64-bit `int` arithmetic.  (internal/output_rolling.go:81, 87, 93, 100) -/
def wrap64 (x : Int) : Int := Int.bmod x (2 ^ 64)

end Log4g.Strconv
