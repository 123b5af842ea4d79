import Verif.Model.Races

/-! # What a data race is

After the Go memory model (https://go.dev/ref/mem).  Nothing here is about log4g: an execution is a list of steps, and one step comes before
another if the same goroutine made it earlier, or if locks, channels, `go` statements, atomic variables or wait groups say so. -/

namespace Log4g.Races.Spec
open Log4g.Races

/-- One step is synchronised with another, directly.  `user` is what the program sees to by itself, with locks and channels of its own. -/
inductive Sync (user : Nat → Nat → Prop) (tr : List Entry) : Nat → Nat → Prop
  /-- the same goroutine -/
  | seq {i j a b} : i < j → tr[i]? = some a → tr[j]? = some b → a.who = b.who → Sync user tr i j
  /-- an unlock and a later lock -/
  | lock {i j a b m} : i < j → tr[i]? = some a → tr[j]? = some b → a.act = .unlock m → b.act = .lock m → Sync user tr i j
  /-- a `go` statement and the goroutine it starts -/
  | go {i j a b o} : i < j → tr[i]? = some a → tr[j]? = some b → a.act = .go o → b.act = .begin o → Sync user tr i j
  /-- a send and the receive of the value -/
  | message {i j b o e} : i < j → tr[j]? = some b → b.act = .recv o e i → Sync user tr i j
  /-- a receive and the send for which it makes room -/
  | room {i j b o e} : i < j → tr[j]? = some b → b.act = .send o e (some i) → Sync user tr i j
  /-- an atomic store and the loads that see it -/
  | atomic {i j a b o} : i < j → tr[i]? = some a → tr[j]? = some b → a.act = .store o → b.act = .load o → Sync user tr i j
  /-- `Done` and the return of `Wait` -/
  | done {i j a b o} : i < j → tr[i]? = some a → tr[j]? = some b → a.act = .done o → b.act = .waited o → Sync user tr i j
  /-- the program -/
  | user {i j} : i < j → j < tr.length → user i j → Sync user tr i j

/-- One step happens before another. -/
inductive Before (user : Nat → Nat → Prop) (tr : List Entry) : Nat → Nat → Prop
  | one {i j} : Sync user tr i j → Before user tr i j
  | more {i j k} : Before user tr i j → Sync user tr j k → Before user tr i k

/-- Two accesses to a variable by different goroutines, at least one of them a write, neither of which happens before the other. -/
def Race (user : Nat → Nat → Prop) (tr : List Entry) (l : Loc) : Prop :=
  ∃ i j a b w w', tr[i]? = some a ∧ tr[j]? = some b ∧ a.who ≠ b.who ∧ a.act = .acc w l ∧ b.act = .acc w' l ∧ (w = true ∨ w' = true) ∧
    i < j ∧ ¬ Before user tr i j

/-- The step at place `p` begins a call. -/
def Begins (tr : List Entry) (p : Nat) (a : Entry) : Prop := tr[p]? = some a ∧ a.cid = p

/-- The call begun at `p` has returned before step `q`. -/
def Finished (user : Nat → Nat → Prop) (tr : List Entry) (p q : Nat) : Prop :=
  ∃ k e res, tr[k]? = some e ∧ e.cid = p ∧ e.act = .ret res ∧ Before user tr k q

/-- The logger a call is made on. -/
def target : Task → Option Nat
  | .setLevel r _ => some r
  | .setCallerSkip r _ => some r
  | .setOutputs r _ => some r
  | .log r _ _ => some r
  | _ => none

/-- The outputs a call is given. -/
def given : Task → List Nat
  | .setOutputs _ os => os
  | .setFormatter o _ => [o]
  | _ => []

/-- A program has loggers and outputs only from the library: some call returned them, before they are used. -/
def Obtained (user : Nat → Nat → Prop) (tr : List Entry) : Prop :=
  ∀ q b, Begins tr q b →
    (∀ r, target b.task = some r → ∃ k e, tr[k]? = some e ∧ e.act = .ret (.logger r) ∧ Before user tr k q) ∧
    (∀ o ∈ given b.task, ∃ k e os, tr[k]? = some e ∧ e.act = .ret (.outputs os) ∧ o ∈ os ∧ Before user tr k q)

/-- Calls that set something in a logger. -/
def sets : Task → Option Nat
  | .setLevel r _ => some r
  | .setCallerSkip r _ => some r
  | .setOutputs r _ => some r
  | _ => none

/-- Calls that must not be made at the same time: a setter of a logger and a setter of the same logger; a setter or `SetConfig` and
a log call; a setter and `SetConfig`. -/
inductive Clash : Task → Task → Prop
  | setters {c d r} : sets c = some r → sets d = some r → Clash c d
  | setLog {c r r' lvl found} : sets c = some r → Clash c (.log r' lvl found)
  | setConfig {c r cfg ord} : sets c = some r → Clash c (.setConfig cfg ord)
  | configLog {cfg ord r lvl found} : Clash (.setConfig cfg ord) (.log r lvl found)

/-- The program does not make such calls at the same time: one has returned before the other begins. -/
def Ordered (user : Nat → Nat → Prop) (tr : List Entry) : Prop :=
  ∀ p q a b, Begins tr p a → Begins tr q b → a.who ≠ b.who → Clash a.task b.task → Finished user tr p q ∨ Finished user tr q p

/-- Nobody calls `SetFormatter` but the library. -/
def NoSetFormatter (tr : List Entry) : Prop := ∀ (i : Nat) (a : Entry) o f, tr[i]? = some a → a.task ≠ .setFormatter o f

/-- What an output answers to `CallerInfoFlag()`: an output of the program's what it likes, any other what its formatter answers. -/
def answers (sh : Shape) (f : Option Fmt) : Int :=
  match sh.how, f with
  | .user flag, _ => flag
  | _, none => 0
  | _, some f => f.flag

/-- The outputs there are answer 0, 1 or 2 (or less) to `CallerInfoFlag()`, as the text formatter does: no caller information, caller information, and with function. -/
def KnownFlags (s : State) : Prop := ∀ o, o < s.nout → answers (s.mem (.shape o)) (s.mem (.fmt o)) ≤ 2

end Log4g.Races.Spec
