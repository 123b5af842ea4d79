import Verif.Model.Basic

/-! # Regular expressions — the part of Go's `regexp` that `internal/format_parser.go` uses

Go finds the leftmost match, and among the matches at that place the one a backtracking search finds
first.  `Re.run` lists all ways to match at a place, in the order of the backtracking search. -/

namespace Log4g

/-- Where a match attempt is: the position in the input, the input from there, and the groups matched so
far with their bounds.  (Go's package regexp, used at internal/format_parser.go:58, 124.) -/
structure MState where
  pos : Nat
  rest : Str
  caps : Map Nat (Nat × Nat)

/-- Regular expressions.  Repetition is only needed for single characters.
(Go's package regexp, as far as internal/format_parser.go:58 needs it.) -/
inductive Re
  /-- a character class -/
  | cls (p : Char → Bool)
  /-- `ab` -/
  | seq (a b : Re)
  /-- `c+`, greedy -/
  | plus (p : Char → Bool)
  /-- `c*?`, lazy -/
  | lazyStar (p : Char → Bool)
  /-- `(?:r)?`, greedy -/
  | opt (r : Re)
  /-- the capturing group number `n` -/
  | group (n : Nat) (r : Re)

/-- A single character.  (internal/format_parser.go:58) -/
def Re.chr (c : Char) : Re := .cls (· = c)

/-- The ways to match `c+`, the longest first.  (`[a-zA-Z0-9]+` in internal/format_parser.go:58.) -/
def greedyRuns (p : Char → Bool) : Nat → Str → List (Nat × Str)
  | _, [] => []
  | pos, c :: cs => if p c then greedyRuns p (pos + 1) cs ++ [(pos + 1, cs)] else []

/-- The ways to match `c*?`, the shortest first.  (`.*?` in internal/format_parser.go:58.) -/
def lazyRuns (p : Char → Bool) : Nat → Str → List (Nat × Str)
  | pos, [] => [(pos, [])]
  | pos, c :: cs => (pos, c :: cs) :: if p c then lazyRuns p (pos + 1) cs else []

/-- All ways to match, in the order of the backtracking search.
(Go's package regexp, used at internal/format_parser.go:124.) -/
def Re.run : Re → MState → List MState
  | .cls p, st => match st.rest with
    | [] => []
    | c :: cs => if p c then [{ st with pos := st.pos + 1, rest := cs }] else []
  | .seq a b, st => (a.run st).flatMap b.run
  | .plus p, st => (greedyRuns p st.pos st.rest).map fun x => { st with pos := x.1, rest := x.2 }
  | .lazyStar p, st => (lazyRuns p st.pos st.rest).map fun x => { st with pos := x.1, rest := x.2 }
  | .opt r, st => r.run st ++ [st]
  | .group n r, st => (r.run st).map fun st' => { st' with caps := Map.set st'.caps n (st.pos, st'.pos) }

/-- A match: its bounds and those of its groups.  (internal/format_parser.go:131-137) -/
structure Match where
  start : Nat
  stop : Nat
  caps : Map Nat (Nat × Nat)

/-- `FindAllStringSubmatchIndex(s, -1)`: the leftmost match, then the leftmost match behind it, and so on.
`skip` is how much of the last match is still ahead.  Simplification: for expressions that never match the
empty string.  (Used at internal/format_parser.go:124.) -/
def Re.findAll (r : Re) : (skip pos : Nat) → Str → List Match
  | _, _, [] => []
  | skip + 1, pos, _ :: cs => r.findAll skip (pos + 1) cs
  | 0, pos, c :: cs =>
    match (r.run ⟨pos, c :: cs, []⟩).head? with
    | none => r.findAll 0 (pos + 1) cs
    | some m => ⟨pos, m.pos, m.caps⟩ :: r.findAll (m.pos - pos - 1) (pos + 1) cs

end Log4g
