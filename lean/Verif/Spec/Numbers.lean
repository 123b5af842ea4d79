import Verif.Model.Basic

/-! # Specification of decimal and octal numerals, independent of any parser -/

namespace Log4g.Spec

/-- `c` is one of the characters `0` … `9`. -/
def IsDigit (c : Char) : Prop := 48 ≤ c.toNat ∧ c.toNat ≤ 57

instance (c : Char) : Decidable (IsDigit c) := inferInstanceAs (Decidable (_ ∧ _))

/-- The value of a digit string in base `b`. -/
def valueOf (b : Nat) (ds : Str) : Nat := ds.foldl (fun a c => a * b + (c.toNat - 48)) 0

/-- `ds` is an unsigned decimal numeral. -/
def Digits (ds : Str) : Prop := ds ≠ [] ∧ ∀ c ∈ ds, IsDigit c

/-- `s` is a decimal numeral (optional sign) and `n` its value. -/
inductive Decimal : Str → Int → Prop
  | plain {ds} : Digits ds → Decimal ds (valueOf 10 ds)
  | plus {ds} : Digits ds → Decimal ('+' :: ds) (valueOf 10 ds)
  | minus {ds} : Digits ds → Decimal ('-' :: ds) (-(valueOf 10 ds : Int))

/-- `s` is no decimal numeral. -/
def NotDecimal (s : Str) : Prop := ∀ n, ¬ Decimal s n

/-- `s` starts with a sign `sg` and a run of digits whose value does not fit 64 unsigned bits. -/
def Overlong (sg s : Str) : Prop :=
  ∃ ds rest, s = sg ++ ds ++ rest ∧ Digits ds ∧ 2 ^ 64 ≤ valueOf 10 ds

/-- `ds` is a string of octal digits. -/
def OctDigits (ds : Str) : Prop := ∀ c ∈ ds, 48 ≤ c.toNat ∧ c.toNat ≤ 55

end Log4g.Spec

namespace Log4g.Spec

/-- `c` is the digit of value `d` in base `b ≤ 16` (letters in either case). -/
def BaseDigit (b : Nat) (c : Char) (d : Nat) : Prop :=
  d < b ∧ (c!"0123456789abcdef"[d]? = some c ∨ c!"0123456789ABCDEF"[d]? = some c)

/-- Reading the digits `s` of base `b` after a value `acc` gives `n`; with `us`, one underscore may
stand before each digit. -/
inductive More (us : Bool) (b : Nat) : Nat → Str → Nat → Prop
  | done {acc} : More us b acc [] acc
  | digit {acc c d s n} : BaseDigit b c d → More us b (acc * b + d) s n → More us b acc (c :: s) n
  | underscore {acc c d s n} : us = true → BaseDigit b c d → More us b (acc * b + d) s n →
      More us b acc ('_' :: c :: s) n

/-- The integer literals of Go without sign: decimal, `0` octal and `0x` hexadecimal; with `us`
(Go 1.13) also `0b`, `0o` and underscores between digits or after the prefix. -/
inductive GoLit (us : Bool) : Str → Nat → Prop
  | dec {c d s n} : BaseDigit 10 c d → d ≠ 0 → More us 10 d s n → GoLit us (c :: s) n
  | oct {s n} : More us 8 0 s n → GoLit us ('0' :: s) n
  | hex {x s n} : x = 'x' ∨ x = 'X' → s ≠ [] → More us 16 0 s n → GoLit us ('0' :: x :: s) n
  | bin {x s n} : us = true → x = 'b' ∨ x = 'B' → s ≠ [] → More us 2 0 s n → GoLit us ('0' :: x :: s) n
  | oct' {x s n} : us = true → x = 'o' ∨ x = 'O' → s ≠ [] → More us 8 0 s n → GoLit us ('0' :: x :: s) n

/-- A literal with an optional plus sign. -/
def GoNat (us : Bool) (s : Str) (n : Nat) : Prop :=
  GoLit us s n ∨ ∃ t, s = '+' :: t ∧ GoLit us t n

end Log4g.Spec
