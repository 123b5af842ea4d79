import Verif.Model.Basic

/-! # Log levels — `api/logger_level.go` -/

namespace Log4g

/-- `type Level int` — api/logger_level.go:6.  Any integer can be used as a level.
Simplification: unbounded integers; the code never computes with levels, it only compares them. -/
abbrev Level := Int

namespace Level

-- The constants of api/logger_level.go:9-19 (`iota` from 0).
/-- api/logger_level.go:10. -/
def Uninitialized : Level := 0
/-- api/logger_level.go:11. -/
def All : Level := 1
/-- api/logger_level.go:12. -/
def Trace : Level := 2
/-- api/logger_level.go:13. -/
def Debug : Level := 3
/-- api/logger_level.go:14. -/
def Info : Level := 4
/-- api/logger_level.go:15. -/
def Warn : Level := 5
/-- api/logger_level.go:16. -/
def Error : Level := 6
/-- api/logger_level.go:17. -/
def Critical : Level := 7
/-- api/logger_level.go:18. -/
def Off : Level := 8

/-- `levelStrings` — api/logger_level.go:21-30. -/
def levelStrings : Map Level Str :=
  [(All, c!"ALL"), (Trace, c!"TRACE"), (Debug, c!"DEBUG"), (Info, c!"INFO"), (Warn, c!"WARN"),
   (Error, c!"ERROR"), (Critical, c!"CRITICAL"), (Off, c!"OFF")]

/-- `lvlStrings` — api/logger_level.go:32-41. -/
def lvlStrings : Map Level Str :=
  [(All, c!"ALL"), (Trace, c!"TAC"), (Debug, c!"DBG"), (Info, c!"INF"), (Warn, c!"WRN"),
   (Error, c!"ERR"), (Critical, c!"CRI"), (Off, c!"OFF")]

/-- `Level.String` — api/logger_level.go:44-46: a map lookup, `""` for a missing key. -/
def toStr (l : Level) : Str := (Map.get levelStrings l).getD []

/-- `Level.ShortStr` — api/logger_level.go:49-51. -/
def shortStr (l : Level) : Str := (Map.get lvlStrings l).getD []

/-- The characters that `unicode.ToUpper` maps to an ASCII capital, with that capital: the ASCII
small letters, U+0131 and U+017F (library behaviour used at api/logger_level.go:56). -/
def upperTable : Map Char Char :=
  [('a','A'),('b','B'),('c','C'),('d','D'),('e','E'),('f','F'),('g','G'),('h','H'),('i','I'),
   ('j','J'),('k','K'),('l','L'),('m','M'),('n','N'),('o','O'),('p','P'),('q','Q'),('r','R'),
   ('s','S'),('t','T'),('u','U'),('v','V'),('w','W'),('x','X'),('y','Y'),('z','Z'),
   ('ı','I'),('ſ','S')]

/-- `unicode.ToUpper`.  Simplification: a non-ASCII character other than U+0131 and U+017F is left
alone; Go may turn it into another non-ASCII character, which no level name contains either.
(Used at api/logger_level.go:56.) -/
def goUpper (c : Char) : Char := (Map.get upperTable c).getD c

/-- `strings.ToUpper`.  (Used at api/logger_level.go:56.) -/
def toUpper (s : Str) : Str := s.map goUpper

/-- `LevelFrom` — api/logger_level.go:54-61.  `order` is the order in which this particular call
iterates over the map `levelStrings`. -/
def LevelFrom (order : Map Level Str) (str : Str) : Level :=
  match order with
  | [] => Uninitialized
  | (k, v) :: rest => if toUpper str = v then k else LevelFrom rest str

/-- `LevelFrom` with the iteration order of the table's text; `Props/Level.lean` shows that every
other order gives the same answer.  (api/logger_level.go:54-61) -/
def levelFrom (str : Str) : Level := LevelFrom levelStrings str

end Level
end Log4g
