import Verif.Lemmas.LogAtomic
import Verif.Props.Logger

/-! # Logging while other goroutines change the configuration

`LogExec a w0 p0 k ms w p`: from `w0`, a log call with arguments `a` at `p0` has run `k` of its statements and is at `p`, while other
goroutines have run the statements `ms`, which made `w0` into `w`. -/

namespace Log4g
open Spec World
variable {V : Type}

/-- Runs a schedule: `none` is a statement of the log call, `some m` the statement `m` of another goroutine. -/
def simLog (a : LogArgs V) (w : World) (p : LogPc V) : List (Option Move) → World × LogPc V
  | [] => (w, p)
  | none :: s => simLog a w (p.step w a) s
  | some m :: s => simLog a (m.run w) p s

theorem simLog_exec (a : LogArgs V) {w0 w : World} {p0 p : LogPc V} {k : Nat} {ms : List Move} (s : List (Option Move))
    (h : LogExec a w0 p0 k ms w p) :
    ∃ k', LogExec a w0 p0 k' (ms ++ s.filterMap id) (simLog a w p s).1 (simLog a w p s).2 := by
  induction s generalizing k ms w p with
  | nil => exact ⟨k, by rw [List.filterMap_nil, List.append_nil]; exact h⟩
  | cons x s ih =>
    cases x with
    | none => simpa [simLog] using ih h.own
    | some m =>
      obtain ⟨k', hk⟩ := ih (h.other m)
      exact ⟨k', by simpa [simLog] using hk⟩

namespace Demo

/-- "x" logs errors only, to one output. -/
def cfgA : Config := { cfg with loggers := [⟨c!"root", c!"warn", [c!"o1"]⟩, ⟨c!"a", c!"debug", []⟩, ⟨c!"x", c!"error", [c!"o1"]⟩] }
/-- "x" has no outputs of its own. -/
def cfgB : Config := { cfg with loggers := [⟨c!"root", c!"warn", [c!"o1"]⟩, ⟨c!"a", c!"debug", []⟩, ⟨c!"x", c!"info", []⟩] }

def infoA : LogArgs Unit := ⟨0, Level.Info, c!"hi", []⟩
def errA : LogArgs Unit := ⟨0, Level.Error, c!"hi", []⟩
def traceA : LogArgs Unit := ⟨0, Level.Trace, c!"hi", []⟩

/-- `m` statements of the log call, then those of the other goroutine, then `j` of the log call. -/
def around (m : Nat) (ms : List Move) (j : Nat) : List (Option Move) :=
  List.replicate m none ++ ms.map some ++ List.replicate j none

theorem around_moves (m : Nat) (ms : List Move) (j : Nat) : (around m ms j).filterMap id = ms := by
  have h : ∀ k, (List.replicate k (none : Option Move)).filterMap id = [] := fun k => by induction k <;> simp_all
  simp [around, List.filterMap_append, h, List.filterMap_map]

theorem around_exec (a : LogArgs V) (w : World) (p : LogPc V) (m : Nat) (ms : List Move) (j : Nat) {o : Outcome V}
    (h : (simLog a w p (around m ms j)).2 = .done o) : ∃ k w', LogExec a w p k ms w' (.done o) := by
  obtain ⟨k, hk⟩ := simLog_exec a (around m ms j) (.refl (a := a) (w0 := w) (p0 := p))
  rw [around_moves, h] at hk
  exact ⟨k, _, hk⟩

/-- Where the messages of an outcome go. -/
def outs (o : Outcome V) : List Nat := o.deliveries.map (·.out)

/-- A logger "y" with an output of the program's own that wants no caller information. -/
def w2 : World := run w1 [.userOutput 0, .getLogger c!"y", .setOutputs 4 [2]]


theorem w2_reach : Reach w2 :=
  ((w1_reach.act (a := .userOutput 0) trivial).act (a := .getLogger c!"y") trivial).act (a := .setOutputs 4 [2])
    ⟨show 4 < 5 by decide, show ∀ o ∈ [2], o < 3 by decide⟩

end Demo

/-! ## C83 -/

/-- C83 is false, in four ways.  Each time one call runs while a message is logged.

* `SetConfig` that sets "x" from level info and outputs 1, 0 to level error and output 0: an info message goes to output 0 alone.  Before
  the call it would go to outputs 1 and 0, after it nowhere.
* `SetConfig` that takes the outputs of "x" away: an error message goes nowhere.  Before the call it would go to outputs 1 and 0, after it
  to output 0, the root's.
* `SetLevel` to "unset": a trace message goes to outputs 1 and 0, though neither the level before (info) nor the one after (warn, the
  root's) lets it pass.
* `SetOutputs` that replaces an output of the program's own by output 0, which wants caller information: output 0 is sent the message
  without.  Before the call it would not be sent it, after the call it would be sent it with caller information. -/
theorem C83_reconfigure_refuted :
    (∃ (w : World) (r : Nat) (a : LogArgs Unit) (cfg : Config) (order : List Nat), Reach w ∧ Map.get w.loggers c!"x" = some r ∧
      order.Perm (w.loggers.map (·.2)) ∧ (w.setConfig cfg order).1 = none ∧
      ∃ k w' o, LogExec a w (.printf [] r []) k (setConfigMoves w cfg order) w' (.done o) ∧ w' = (w.setConfig cfg order).2 ∧
        (w.printf a.now [] r [] a.lvl a.fmt a.args).deliveries.map (·.out) = [1, 0] ∧
        (w'.printf a.now [] r [] a.lvl a.fmt a.args).deliveries.map (·.out) = [] ∧ o.deliveries.map (·.out) = [0]) ∧
    (∃ (w : World) (r : Nat) (a : LogArgs Unit) (cfg : Config) (order : List Nat), Reach w ∧ Map.get w.loggers c!"x" = some r ∧
      order.Perm (w.loggers.map (·.2)) ∧ (w.setConfig cfg order).1 = none ∧
      ∃ k w' o, LogExec a w (.printf [] r []) k (setConfigMoves w cfg order) w' (.done o) ∧ w' = (w.setConfig cfg order).2 ∧
        (w.printf a.now [] r [] a.lvl a.fmt a.args).deliveries.map (·.out) = [1, 0] ∧
        (w'.printf a.now [] r [] a.lvl a.fmt a.args).deliveries.map (·.out) = [0] ∧ o.deliveries.map (·.out) = []) ∧
    (∃ (w : World) (r : Nat) (a : LogArgs Unit), Reach w ∧ Map.get w.loggers c!"x" = some r ∧
      ∃ k w' o, LogExec a w (.printf [] r []) k [.level r 0] w' (.done o) ∧ w' = w.setLevel r 0 ∧
        (w.printf a.now [] r [] a.lvl a.fmt a.args).deliveries.map (·.out) = [] ∧
        (w'.printf a.now [] r [] a.lvl a.fmt a.args).deliveries.map (·.out) = [] ∧ o.deliveries.map (·.out) = [1, 0]) ∧
    (∃ (w : World) (r : Nat) (a : LogArgs Unit) (ops : List Nat), Reach w ∧ Map.get w.loggers c!"y" = some r ∧ (∀ x ∈ ops, x < w.mgr.oheap.length) ∧
      ∃ k w' o, LogExec a w (.printf [] r []) k (setOutputsMoves r ops) w' (.done o) ∧ w' = w.setOutputs r ops ∧
        (∀ d ∈ (w.printf a.now [] r [] a.lvl a.fmt a.args).deliveries, d.out ≠ 0) ∧
        (∀ d ∈ (w'.printf a.now [] r [] a.lvl a.fmt a.args).deliveries, ∃ c, d.evt.ctx.value callerInfoKey = .ci c) ∧
        ∃ d ∈ o.deliveries, d.out = 0 ∧ d.evt.ctx.value callerInfoKey = .nil) := by
  refine ⟨⟨Demo.w1, 3, Demo.infoA, Demo.cfgA, [3, 2, 1, 0], Demo.w1_reach, rfl, ?_, rfl, ?_⟩,
    ⟨Demo.w1, 3, Demo.errA, Demo.cfgB, [3, 2, 1, 0], Demo.w1_reach, rfl, ?_, rfl, ?_⟩,
    ⟨Demo.w1, 3, Demo.traceA, Demo.w1_reach, rfl, ?_⟩, ⟨Demo.w2, 4, Demo.errA, [0], Demo.w2_reach, rfl, by decide, ?_⟩⟩
  · exact List.isPerm_iff.mp (by decide)
  · obtain ⟨k, w', h⟩ := Demo.around_exec Demo.infoA Demo.w1 (.printf [] 3 []) 4 (setConfigMoves Demo.w1 Demo.cfgA [3, 2, 1, 0]) 9 rfl
    have hw := (logExec_world h).trans (setConfig_run _ _ _)
    exact ⟨k, w', _, h, hw, rfl, by rw [hw]; rfl, rfl⟩
  · exact List.isPerm_iff.mp (by decide)
  · obtain ⟨k, w', h⟩ := Demo.around_exec Demo.errA Demo.w1 (.printf [] 3 []) 4 (setConfigMoves Demo.w1 Demo.cfgB [3, 2, 1, 0]) 9 rfl
    have hw := (logExec_world h).trans (setConfig_run _ _ _)
    exact ⟨k, w', _, h, hw, rfl, by rw [hw]; rfl, rfl⟩
  · obtain ⟨k, w', h⟩ := Demo.around_exec Demo.traceA Demo.w1 (.printf [] 3 []) 2 [.level 3 0] 9 rfl
    have hw := logExec_world h
    exact ⟨k, w', _, h, hw, rfl, by rw [hw]; rfl, rfl⟩
  · obtain ⟨k, w', h⟩ := Demo.around_exec Demo.errA Demo.w2 (.printf [] 4 []) 7 (setOutputsMoves 4 [0]) 9 rfl
    have hw := (logExec_world h).trans (setOutputs_run _ _ _)
    refine ⟨k, w', _, h, hw, ?_, ?_, ?_⟩
    · intro d hd
      have : d.out ∈ (Demo.w2.printf 0 [] 4 [] Level.Error c!"hi" ([] : List Unit)).deliveries.map (·.out) := List.mem_map.mpr ⟨d, hd, rfl⟩
      rw [show (Demo.w2.printf 0 [] 4 [] Level.Error c!"hi" ([] : List Unit)).deliveries.map (·.out) = [2] from rfl] at this
      simp at this; omega
    · intro d hd
      rw [hw] at hd
      have : d.evt.ctx.value callerInfoKey ∈
          ((Demo.w2.setOutputs 4 [0]).printf 0 [] 4 [] Level.Error c!"hi" ([] : List Unit)).deliveries.map (fun d => d.evt.ctx.value callerInfoKey) :=
        List.mem_map.mpr ⟨d, hd, rfl⟩
      rw [show ((Demo.w2.setOutputs 4 [0]).printf 0 [] 4 [] Level.Error c!"hi" ([] : List Unit)).deliveries.map
        (fun d => d.evt.ctx.value callerInfoKey) = [.ci _] from rfl] at this
      simp at this
      exact ⟨_, this⟩
    · exact ⟨_, .head _, rfl, rfl⟩

/-- C83, the part that holds.  Whatever other goroutines do while a message is logged:

* the outputs of the message get one event, which says what the call said, and they are all the outputs that one logger, between the one
  logged on and the root, had at some moment during the call;
* if meanwhile no logger between the one logged on and the root changes its level, or its having outputs or not, the message goes where it
  would have gone in one piece at some moment during the call;
* if meanwhile these loggers do not change at all, the call does what it would do alone;
* if meanwhile one level is set, to another than "unset", or the outputs of one logger are set, to some, and otherwise nobody sets levels
  or outputs, then the message goes where it would have gone before or where it would go after. -/
theorem C83_reconfigure_partial {w0 : World} (hw : Reach w0) {n : Str} {r : Nat} (hn : Map.get w0.loggers n = some r) {names : List Str}
    (hp : Path n names) (a : LogArgs V) {stack : List Frame} {ctx : Ctx V} {k : Nat} {ms : List Move} {w : World} {o : Outcome V}
    (hx : LogExec a w0 (.printf stack r ctx) k ms w (.done o)) :
    (o.deliveries = [] ∨ ∃ pre x rx l evt, pre <+: ms ∧ x ∈ names ∧ Map.get w0.loggers x = some rx ∧
      (runMoves w0 pre).heap[rx]? = some l ∧ o.deliveries = l.outputs.map (fun out => ⟨out, evt⟩) ∧
      evt.name = n ∧ evt.level = a.lvl ∧ evt.format = a.fmt ∧ evt.arguments = a.args ∧ evt.time = a.now) ∧
    ((∀ v, ctx.value callerInfoKey ≠ .user v) →
      (∀ pre, pre <+: ms → ∀ x ∈ names, ∀ rx l l', Map.get w0.loggers x = some rx → w0.heap[rx]? = some l →
        (runMoves w0 pre).heap[rx]? = some l' → l'.level = l.level ∧ (l'.outputs = [] ↔ l.outputs = [])) →
      ∃ pre, pre <+: ms ∧
        o.deliveries.map (·.out) = ((runMoves w0 pre).printf a.now stack r ctx a.lvl a.fmt a.args).deliveries.map (·.out)) ∧
    ((∀ pre, pre <+: ms → ∀ x ∈ names, ∀ rx, Map.get w0.loggers x = some rx → (runMoves w0 pre).heap[rx]? = w0.heap[rx]?) →
      o = w0.printf a.now stack r ctx a.lvl a.fmt a.args) ∧
    ((∀ v, ctx.value callerInfoKey ≠ .user v) → ∀ pre m post, ms = pre ++ m :: post →
      (∀ x ∈ pre ++ post, ∀ q, (∀ v, x ≠ .level q v) ∧ ∀ ops, x ≠ .outputs q ops) →
      ((∃ q v, m = .level q v ∧ v ≠ 0) ∨ ∃ q out ops, m = .outputs q (out :: ops)) →
      o.deliveries.map (·.out) = (w0.printf a.now stack r ctx a.lvl a.fmt a.args).deliveries.map (·.out) ∨
      o.deliveries.map (·.out) = ((runMoves w0 ms).printf a.now stack r ctx a.lvl a.fmt a.args).deliveries.map (·.out)) := by
  have inv := reach_inv hw
  have well := well_onWay inv hn
  have name := fun c hc => onWay_named inv hn hp (c := c) hc
  obtain ⟨l0, hl0, hname⟩ := inv.named _ _ hn
  refine ⟨?_, ?_, ?_, ?_⟩
  · rcases (exec_says well .refl hl0 hx).2 o rfl with h | ⟨pre, c, l, evt, h1, h2, h3, h4, h5⟩
    · exact .inl h
    · right
      obtain ⟨x, hx1, hx2⟩ := name c h2
      refine ⟨pre, x, c, l, evt, h1, hx1, hx2, h3, by rw [h4]; rfl, ?_, h5.2⟩
      rw [h5.1]
      exact hname
  · intro hc hag
    have hag' : ∀ pre, pre <+: ms → Agree (OnWay w0 r) w0 (runMoves w0 pre) := by
      intro pre hpre c hc l l' e e'
      obtain ⟨x, hx1, hx2⟩ := name c hc
      obtain ⟨y, z⟩ := hag pre hpre x hx1 c l l' hx2 e e'
      obtain ⟨l2, e2, _, e3⟩ := runMoves_keeps w0 pre c l e
      rw [e'] at e2; injection e2 with e2; subst e2
      exact ⟨y, z, e3⟩
    rcases exec_agree well (p0 := .printf stack r ctx) .refl hc hx (List.prefix_refl ms) hag' (fun o e => by cases e) with ⟨h, _⟩ | ⟨o1, pre, ho, hpre, e⟩
    · exact absurd rfl (h o)
    · injection ho with ho
      subst ho
      exact ⟨pre, hpre, e⟩
  · intro hsame
    exact exec_same well (p0 := .printf stack r ctx) .refl hx (List.prefix_refl ms) fun pre hpre c hc => by
      obtain ⟨x, hx1, hx2⟩ := name c hc
      exact hsame pre hpre x hx1 c hx2
  · rintro hc pre m post rfl hneu hm
    have neu : ∀ x ∈ pre ++ post, x.Neutral := by
      intro x hx
      have := hneu x hx
      cases x with
      | level q v => exact (this q).1 v rfl
      | outputs q ops => exact (this q).2 ops rfl
      | raise | skip | rest => trivial
    refine exec_switch well .refl hc hx (fun x hx => neu x (by simp [hx])) (fun x hx => neu x (by simp [hx])) ?_
    rcases hm with h | ⟨q, out, ops, rfl⟩
    · exact .inl h
    · exact .inr ⟨q, _, rfl, by simp⟩

/-- The way of "x". -/
theorem demo_path_x : Path c!"x" [c!"x", c!"root"] := by
  refine .step (by decide) (.inr ⟨?_, rfl⟩) .root
  rintro q ⟨hq, c, rest, _, e⟩
  have := congrArg List.length e
  have h0 : q.length ≠ 0 := fun h => hq (List.eq_nil_of_length_eq_zero h)
  simp at this; omega

/-- An error message on "x" while `SetOutputs` gives "x" one output in place of its two, and while its level is set to error: before the
message reaches its outputs, after two of its statements. -/
example : (∃ k w o, LogExec Demo.errA Demo.w1 (.printf [] 3 []) k (setOutputsMoves 3 [0]) w (.done o) ∧ o.deliveries.map (·.out) = [0]) ∧
    (∃ k w o, LogExec Demo.infoA Demo.w1 (.printf [] 3 []) k [.level 3 6] w (.done o) ∧ o.deliveries.map (·.out) = []) ∧
    (∃ k w o, LogExec Demo.infoA Demo.w1 (.printf [] 3 []) k [.level 3 6] w (.done o) ∧ o.deliveries.map (·.out) = [1, 0]) := by
  refine ⟨?_, ?_, ?_⟩
  · obtain ⟨k, w', h⟩ := Demo.around_exec Demo.errA Demo.w1 (.printf [] 3 []) 2 (setOutputsMoves 3 [0]) 9 rfl
    exact ⟨k, w', _, h, rfl⟩
  · obtain ⟨k, w', h⟩ := Demo.around_exec Demo.infoA Demo.w1 (.printf [] 3 []) 2 [.level 3 6] 9 rfl
    exact ⟨k, w', _, h, rfl⟩
  · obtain ⟨k, w', h⟩ := Demo.around_exec Demo.infoA Demo.w1 (.printf [] 3 []) 3 [.level 3 6] 9 rfl
    exact ⟨k, w', _, h, rfl⟩

/-- The theorem, used: whenever the level of "x" is set to error while an info message is logged on it, the message goes to outputs 1 and
0, or nowhere. -/
example (k : Nat) (w : World) (o : Outcome Unit) (hx : LogExec Demo.infoA Demo.w1 (.printf [] 3 []) k [.level 3 6] w (.done o)) :
    o.deliveries.map (·.out) = [1, 0] ∨ o.deliveries.map (·.out) = [] :=
  (C83_reconfigure_partial Demo.w1_reach (n := c!"x") rfl demo_path_x Demo.infoA hx).2.2.2 (by intro v; rw [empty_nil]; simp) [] (.level 3 6) [] rfl
    (by simp) (.inl ⟨3, 6, rfl, by decide⟩)

/-- And whenever its outputs are replaced by output 0 while an error message is logged on it, the message goes to outputs 1 and 0, or to
output 0. -/
example (k : Nat) (w : World) (o : Outcome Unit) (hx : LogExec Demo.errA Demo.w1 (.printf [] 3 []) k (setOutputsMoves 3 [0]) w (.done o)) :
    o.deliveries.map (·.out) = [1, 0] ∨ o.deliveries.map (·.out) = [0] := by
  obtain ⟨pre, ⟨t, ht⟩, h⟩ := (C83_reconfigure_partial Demo.w1_reach (n := c!"x") rfl demo_path_x Demo.errA hx).2.1
    (by intro v; rw [empty_nil]; simp) (by
      rintro pre ⟨t, ht⟩ x hx rx l l' e1 e2 e3
      have : pre = [] ∨ pre = [.outputs 3 [0]] ∨ pre = [.outputs 3 [0], .raise 3 0] := by
        rcases pre with _ | ⟨a, _ | ⟨b, _ | ⟨c, pre⟩⟩⟩ <;> simp_all [setOutputsMoves]
      have hx' : x = c!"x" ∨ x = c!"root" := by simpa using hx
      rcases hx' with rfl | rfl <;> cases e1 <;> cases e2 <;> rcases this with rfl | rfl | rfl <;> cases e3 <;> decide)
  rcases pre with _ | ⟨a, _ | ⟨b, _ | ⟨c, pre⟩⟩⟩ <;> simp [setOutputsMoves] at ht
  · exact .inl h
  · obtain ⟨rfl, rfl⟩ := ht; exact .inr h
  · obtain ⟨rfl, rfl, rfl⟩ := ht; exact .inr h

/-- While another logger is reconfigured the call does what it would do alone. -/
example (k : Nat) (w : World) (o : Outcome Unit) (hx : LogExec Demo.errA Demo.w1 (.printf [] 3 []) k [.level 1 6] w (.done o)) :
    o = Demo.w1.printf 0 [] 3 [] 6 c!"hi" [] :=
  (C83_reconfigure_partial Demo.w1_reach (n := c!"x") rfl demo_path_x Demo.errA hx).2.2.1 (by
    rintro pre ⟨t, ht⟩ x hx rx e1
    have : pre = [] ∨ pre = [.level 1 6] := by
      rcases pre with _ | ⟨a, _ | ⟨b, pre⟩⟩ <;> simp_all
    have hx' : x = c!"x" ∨ x = c!"root" := by simpa using hx
    rcases hx' with rfl | rfl <;> cases e1 <;> rcases this with rfl | rfl <;> rfl)

/-! ## C84 -/

/-- C84: a log call ends.  There is a number of steps, depending only on the logger, after which every log call on it has ended, whatever
other goroutines do meanwhile. -/
theorem C84_log_ends {w0 : World} (hw : Reach w0) {n : Str} {r : Nat} (hn : Map.get w0.loggers n = some r) :
    ∃ N, ∀ (a : LogArgs V) (stack : List Frame) (ctx : Ctx V) (k : Nat) (ms : List Move) (w : World) (p : LogPc V),
      LogExec a w0 (.printf stack r ctx) k ms w p → N ≤ k → ∃ o, p = .done o := by
  have inv := reach_inv hw
  refine ⟨r * (r + 3) + r + 8, fun a stack ctx k ms w p hx hk => ?_⟩
  rcases exec_todo (well_onWay inv hn) (p0 := .printf stack r ctx) .refl (K := r + 3)
    (fun c hc => by have := onWay_le inv hn hc; omega) hx with h | h
  · exact h
  · simp only [LogPc.todo] at h
    omega

/-- A call on "a/b", delegated twice, that has ended, though others set levels and skips in between. -/
example : ∃ o, (simLog Demo.errA Demo.w1 (.printf [] 2 []) (Demo.around 3 [.level 2 6, .skip 1 7] 18)).2 = .done o ∧
    o.deliveries.map (·.out) = [0] := ⟨_, rfl, rfl⟩

end Log4g
