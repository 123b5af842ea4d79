import Verif.Lemmas.MachineLive
import Verif.Props.Machine

/-! # C96: writing to files does not stop the program -/

namespace Log4g
open Spec Strconv
open scoped List
variable {V : Type}

namespace Demo

/-- An operating system in which everything fails. -/
def broken : Answers Nat := fun _ _ op =>
  match op with
  | .stat _ => none
  | .write _ _ => ((0, false) : Nat × Bool)
  | .readdir => none
  | .now => (0 : Int)
  | .archRead => ARead.failed
  | .rollRead _ => none
  | .mkdirAll _ | .openAppend _ _ | .close _ | .rename _ _ | .chmod _ _ | .remove _ | .tmpCreate | .tmpEntry _ _ | .tmpClose | .tmpRename _ | .tmpRemove => false

theorem broken_possible {up : Nat → Bool} {v0 : Nat → Volume} : PossibleAnswers env fhost up v0 broken := by
  rintro tr m - o c msg op k - - ⟨r, v', h', h⟩
  cases op <;> simp only [VolStep] at h
  case mkdirAll => exact ⟨_, _, rfl, rfl⟩
  case openAppend => exact ⟨_, _, rfl, rfl⟩
  case stat => exact ⟨_, _, rfl, rfl, trivial⟩
  case write =>
    obtain ⟨_, k, hk, _⟩ := h
    exact ⟨_, _, rfl, k, hk, by simp [broken], by simp [broken], rfl⟩
  case close => exact ⟨_, _, rfl, rfl⟩
  case readdir => exact ⟨_, _, rfl, rfl, trivial⟩
  case rename => exact ⟨_, _, rfl, rfl⟩
  case chmod => exact ⟨_, _, rfl, rfl⟩
  case remove => exact ⟨_, _, rfl, rfl⟩
  case now => exact ⟨_, _, rfl, rfl⟩
  case tmpCreate => exact ⟨_, _, rfl, by simp [broken]; exact .inl rfl⟩
  case archRead => exact ⟨_, _, rfl, rfl, rfl⟩
  case tmpClose => exact ⟨_, _, rfl, rfl⟩
  case tmpRemove => exact ⟨_, _, rfl, rfl⟩

/-- Goroutine 0 is in a log call and waits for its line to be written. -/
theorem filed_busy : ∃ tr m, MExec env fhost (newMachine (fun _ => false) fun _ => fvol.vol) tr m ∧ m.p.panicked = false ∧ m.p.w = wf ∧ m.by_ 1 = some 0 ∧ (m.wr 1).job ≠ none ∧
    progOf tr = fsetup ++ [.out 0 .begin] ++ logged.take 6 ∧ ∃ p, PExec env m.p [.ret 0, .out 0 (.took (some hi))] p ∧ p.panicked = false ∧ p.w = wf := by
  have hw := wf_files
  have g0 := fbegun
  generalize wf = w at hw g0
  obtain ⟨p1, p2, p3, p4, p5, p6, p7, a, w1, b, w2, c, w3, d, ⟨f1, f2, f3, f4, f5, f6, f7⟩, ⟨n2, n4, n6⟩, ⟨h1, h2, h3, h4, h5, h6, h7⟩, ⟨r1, r2, r3, r4, r5, r6, r7⟩⟩ := fprogram hw
  have hc0 : Calm (newMachine (fun _ => false) fun _ => fvol.vol : Machine Nat) := fun _ => ⟨rfl, rfl⟩
  obtain ⟨x1, hc1⟩ := quiet_lift (tr := []) (host := fhost) .nil hc0 (g0.trans a) (fun o c ho => by
    rw [f1] at ho
    rcases hw.only ho with ⟨rfl, _⟩ | ⟨rfl, _⟩
    · rw [hw.given0 f1, h1]; exact (given_first 0).symm
    · rw [hw.given1 f1, r1]; exact (given_first 1).symm)
  have hg : p2.given env 1 = p1.given env 1 ++ [[104, 105, 10]] := by rw [hw.given1 f2, hw.given1 f1, r2, r1]; rfl
  have st := MStep.write (host := fhost) w1 (calm_lets hc1 _) (o := 1) (by rw [f2]; exact hw.trace) hg
    (fun q c hq _ => given_one (mexec_inv x1).prog w1 (by rw [hg]; simp) hq) (hc1 1).1
  refine ⟨_, _, x1.snoc st, n2, f2, ?_, ?_, ?_⟩
  · simp [Machine.setWr, PLab.goroutine]
  · simp [Machine.setWr]
  · refine ⟨?_, p3, b, step_panicked w2, f3⟩
    rw [progOf_append]
    rfl

/-- Goroutine 1 is in the manager's `Close` and waits for the worker, who is writing. -/
theorem filed_closing : ∃ tr m, MExec env fhost (newMachine (fun _ => false) fun _ => fvol.vol) tr m ∧ m.p.panicked = false ∧ m.p.w = wf ∧ (m.wr 0).job ≠ none ∧
    progOf tr = fsetup ++ flogged ++ .close 1 [0, 1] :: fclosing.take 4 := by
  have hw := wf_files
  have g0 := fbegun
  generalize wf = w at hw g0
  obtain ⟨p1, p2, p3, p4, p5, p6, p7, a, w1, b, w2, c, w3, d, ⟨f1, f2, f3, f4, f5, f6, f7⟩, ⟨n2, n4, n6⟩, ⟨h1, h2, h3, h4, h5, h6, h7⟩, ⟨r1, r2, r3, r4, r5, r6, r7⟩⟩ := fprogram hw
  obtain ⟨mtr, m, e1, e2, _, e4, e5⟩ := run_lift (broken_possible (up := fun _ => false) (v0 := fun _ => fvol.vol)) .nil rfl
    (((((g0.trans a).snoc w1).trans b).snoc w2).trans c) (step_panicked w3)
  have hg : p6.given env 0 = m.p.given env 0 ++ [[]] := by rw [e4, hw.given0 f6, hw.given0 f5, h6, h5]; rfl
  have hs := step_from e4 w3
  have st := MStep.write (host := fhost) hs (calm_lets e5 _) (o := 0) (by rw [f6]; exact hw.log) hg
    (fun q c hq _ => given_one (mexec_inv e1).prog hs (by rw [hg]; simp) hq) (e5 0).1
  refine ⟨_, _, e1.snoc st, n6, f6, ?_, ?_⟩
  · simp [Machine.setWr]
  · rw [progOf_append, e2]
    rfl

end Demo

variable {env : PEnv V} {host : Host} {up : Nat → Bool} {v0 : Nat → Volume} {tr : List (MLab V)} {m : Machine V} {os : Answers V}

/-- C96: whatever a program can do without files, it can do with them: whatever the operating system answers, and whatever is
being written now, every run of the program that does not panic is the run of a program that writes its files. -/
theorem C96_any_run (hos : PossibleAnswers env host up v0 os) (h : MExec env host (newMachine up v0) tr m) (hp0 : m.p.panicked = false) {l : List (PLab V)} {p : PState V}
    (hs : PExec env m.p l p) (hp : p.panicked = false) :
    ∃ mtr m', MExec env host m mtr m' ∧ progOf mtr = l ∧ AnsweredBy os tr mtr ∧ m'.p = p ∧ ∀ o, (m'.wr o).job = none := by
  obtain ⟨mtr, m', h1, h2, h3, h4, h5⟩ := run_lift hos h hp0 hs hp
  exact ⟨mtr, m', h1, h2, h3, h4, fun o => (h5 o).1⟩

/-- The hypotheses of `C96_any_run` are met, in the middle of a write. -/
example : ∃ up v0 os tr m l p, PossibleAnswers Demo.env Demo.fhost up v0 os ∧ MExec Demo.env Demo.fhost (newMachine up v0) tr m ∧ m.p.panicked = false ∧ (m.wr 1).job ≠ none ∧
    PExec Demo.env m.p l p ∧ l ≠ [] ∧ p.panicked = false := by
  obtain ⟨tr, m, h1, h2, _, _, h5, _, p, h6, h7, h8⟩ := Demo.filed_busy
  exact ⟨_, _, _, tr, m, _, _, Demo.broken_possible, h1, h2, h5, h6, by simp, h7⟩

/-- C96, log calls: whatever the operating system answers, a log call or `Send` that has begun can return, as long as nothing has
been closed, with the help of nothing but the workers and writers. -/
theorem C96_log_returns (hos : PossibleAnswers env host up v0 os) (h : MExec env host (newMachine up v0) tr m) (hp : m.p.panicked = false)
    {t : Nat} {l : PLab V} {a b : List (PLab V)} (e : progOf tr = a ++ l :: b) (hl : Begins t l) (hb : .ret t ∉ b) (ho : ∀ o, Open o (progOf tr)) :
    ∃ mtr m' ls, MExec env host m mtr m' ∧ progOf mtr = ls ++ [.ret t] ∧ (∀ l ∈ ls, Helps t l) ∧ AnsweredBy os tr mtr ∧ m'.p.panicked = false := by
  have inv := mexec_inv h
  rw [e] at ho
  obtain ⟨ls, p, h1, h2, h3⟩ := C92_log_returns (e ▸ inv.prog) hl hb ho hp
  have hw : p.w = m.p.w := run_world (t := t) h1 (fun l hl => by
    rcases List.mem_append.mp hl with hl | hl
    · exact .inl (h3 l hl)
    · exact .inr (List.mem_singleton.mp hl))
  obtain ⟨mtr, m', g1, g2, g3, g4, _⟩ := run_lift hos h hp h1 h2
  exact ⟨mtr, m', ls, g1, g2, h3, g3, by rw [g4]; exact h2⟩

/-- The hypotheses of `C96_log_returns` are met: the goroutine waits for its line to be written. -/
example : ∃ up v0 os tr m a b ds, PossibleAnswers Demo.env Demo.fhost up v0 os ∧ MExec Demo.env Demo.fhost (newMachine up v0) tr m ∧ m.p.panicked = false ∧
    progOf tr = a ++ .log 0 ds :: b ∧ .ret 0 ∉ b ∧ (∀ o, Open o (progOf tr)) ∧ m.by_ 1 = some 0 ∧ (m.wr 1).job ≠ none := by
  obtain ⟨tr, m, h1, h2, h3, h4, h5, h6, _⟩ := Demo.filed_busy
  refine ⟨_, _, _, tr, m, Demo.fsetup ++ [.out 0 .begin], _, _, Demo.broken_possible, h1, h2, h6, by simp, fun o => ?_, h4, h5⟩
  rw [h6]
  constructor
  · intro t os h; simp [Demo.fsetup, Demo.logged] at h
  · intro t h; simp [Demo.fsetup, Demo.logged] at h

/-- C96, `Close`: whatever the operating system answers, the manager's `Close` can return, if the program does not close outputs
itself, with the help of nothing but the workers and writers. -/
theorem C96_close_returns (hos : PossibleAnswers env host up v0 os) (h : MExec env host (newMachine up v0) tr m) (hp : m.p.panicked = false)
    {t : Nat} {ids : List Nat} {a b : List (PLab V)} (e : progOf tr = a ++ .close t ids :: b) (hb : .ret t ∉ b) (ht : Tame (progOf tr)) :
    ∃ mtr m' ls, MExec env host m mtr m' ∧ progOf mtr = ls ++ [.ret t] ∧ (∀ l ∈ ls, Helps t l) ∧ AnsweredBy os tr mtr ∧ m'.p.panicked = false := by
  have inv := mexec_inv h
  rw [e] at ht
  obtain ⟨ls, p, h1, h2, h3⟩ := C89_close_returns (e ▸ inv.prog) hb ht hp
  have hw : p.w = m.p.w := run_world (t := t) h1 (fun l hl => by
    rcases List.mem_append.mp hl with hl | hl
    · exact .inl (h3 l hl)
    · exact .inr (List.mem_singleton.mp hl))
  obtain ⟨mtr, m', g1, g2, g3, g4, _⟩ := run_lift hos h hp h1 h2
  exact ⟨mtr, m', ls, g1, g2, h3, g3, by rw [g4]; exact h2⟩

/-- The hypotheses of `C96_close_returns` are met: `Close` waits for the worker, who is writing. -/
example : ∃ up v0 os tr m a b, PossibleAnswers Demo.env Demo.fhost up v0 os ∧ MExec Demo.env Demo.fhost (newMachine up v0) tr m ∧ m.p.panicked = false ∧
    progOf tr = a ++ .close 1 [0, 1] :: b ∧ .ret 1 ∉ b ∧ Tame (progOf tr) ∧ (m.wr 0).job ≠ none := by
  obtain ⟨tr, m, h1, h2, h3, h5, h6⟩ := Demo.filed_closing
  refine ⟨_, _, _, tr, m, Demo.fsetup ++ Demo.flogged, _, Demo.broken_possible, h1, h2, h6, by simp [Demo.fclosing], fun t o h => ?_, h5⟩
  rw [h6] at h; simp [Demo.fsetup, Demo.flogged, Demo.fclosing, Demo.logged] at h

end Log4g
