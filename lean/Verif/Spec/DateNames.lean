import Verif.Spec.GoTime

/-! # Specification vocabulary: names that can be read as dates -/

namespace Log4g.Spec
open GoTime Strconv

/-- Every field occurs once at most, and separators are no digits, no slashes and none of the letters J, M, P and p. -/
structure PlainPattern (ps : List DatePiece) : Prop where
  once : ∀ f, ps.count (.field f) ≤ 1
  seps : ∀ c, .sep c ∈ ps → c ∉ c!"0123456789/JMPp"

/-- There is this date and time of day, in one of the years 0 to 9999. -/
def ProperDate (c : Civil) : Prop := Exists c ∧ 0 ≤ c.year ∧ c.year < 10000

/-- `s` is a way to write a piece of a pattern at `c`: the usual one, hours with one digit, seconds with a fraction, blanks more or
fewer than the pattern has. -/
inductive WaysToWrite (c : Civil) : DatePiece → Str → Prop
  | usual (p : DatePiece) : WaysToWrite c p (p.at c)
  | hour : c.hour < 10 → WaysToWrite c (.field .hour) [digitChar c.hour]
  | fraction {ds : Str} : ds ≠ [] → (∀ x ∈ ds, '0' ≤ x ∧ x ≤ '9') → WaysToWrite c (.field .second) (twoDigits c.second ++ '.' :: ds)
  | blanks (n : Nat) : WaysToWrite c (.sep ' ') (List.replicate n ' ')

/-- `v` is a way to write the date `c` by the pattern. -/
inductive WrittenAs (c : Civil) : List DatePiece → Str → Prop
  | nil : WrittenAs c [] []
  | cons {p : DatePiece} {ps : List DatePiece} {s v : Str} : WaysToWrite c p s → WrittenAs c ps v → WrittenAs c (p :: ps) (s ++ v)

end Log4g.Spec
