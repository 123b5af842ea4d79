import Verif.Lemmas.Formatters
import Verif.Lemmas.FormatterWorlds
import Verif.Props.Output
import Verif.Props.Standard

/-! # Formatters that are set while an output is used: C114 -/

namespace Log4g
open Spec
open scoped List
variable {V : Type}

/-- C114 for synchronous outputs: however `Send` and `SetFormatter` calls are mixed, each accepted event is written as the
formatter says that was set last before it was sent; without formatter, in the default layout. -/
theorem C114_sync (lib : Lib V) (o : BaseOutput V) (cs : List (OutCall V)) :
    (cs.foldl (BaseOutput.call lib) o).w = o.w ++ (passing o.t (sentWith o.f cs)).map fun p => textOf lib p.1 p.2 :=
  (base_calls lib o cs).1

example : let es : List (OutCall Nat) := [.send Demo.event, .setFormatter (some fun _ => [66]), .send Demo.event, .setFormatter (some fun _ => [67]),
      .send { Demo.event with level := 1 }, .send Demo.event]
    (es.foldl (BaseOutput.call Demo.lib) { t := 4, f := some fun _ => [65] }).w = [[65], [66], [67]] ∧
    (sentWith (some fun _ => [65]) es).map (fun p => textOf Demo.lib p.1 p.2) = [[65], [66], [67], [67]] := by decide

/-- C114 for syslog outputs: an accepted event is handed to syslog as the formatter says that was set last; without
formatter, as its message. -/
theorem C114_syslog (lib : Lib V) (o : SyslogOutput V) (cs : List (OutCall V)) (e : Event V) (ht : o.t ≤ e.level)
    (call : Bytes → SysCall) (hc : Severity e.level call) :
    ((cs ++ [OutCall.send e]).foldl (SyslogOutput.call lib) o).w = (cs.foldl (SyslogOutput.call lib) o).w ++
      [call (match lastSet o.f cs with | some f => f e | none => utf8 (messageText lib e))] := by
  have key : ∀ (o : SyslogOutput V), (cs.foldl (SyslogOutput.call lib) o).f = lastSet o.f cs ∧ (cs.foldl (SyslogOutput.call lib) o).t = o.t := by
    induction cs with
    | nil => intro o; exact ⟨rfl, rfl⟩
    | cons c cs ih =>
      intro o
      rw [List.foldl_cons]
      cases c with
      | setFormatter g => exact ih (o.setFormatter g)
      | send d =>
        obtain ⟨-, -, -, k1, k2⟩ := C43_syslog lib o d
        obtain ⟨a, b⟩ := ih (o.send lib d)
        simp only [SyslogOutput.call]
        rw [a, b, k1, k2]
        exact ⟨rfl, rfl⟩
  obtain ⟨k1, k2⟩ := key o
  rw [List.foldl_append, List.foldl_cons, List.foldl_nil]
  simp only [SyslogOutput.call]
  rw [(C43_syslog lib _ e).2.1 (by rw [k2]; exact ht) call hc, k1]
  rfl

example : let cs : List (OutCall Nat) := [.send Demo.event, .setFormatter (some fun _ => [66]), .send Demo.event]
    (cs.foldl (SyslogOutput.call Demo.lib) { t := 4, f := some fun _ => [65] }).w = [.warning [65], .warning [66]] := by decide

/-- Two formatters. -/
def fmtA : Formatter Nat := fun _ => [65]
/-- The other. -/
def fmtB : Formatter Nat := fun _ => [66]

/-- An output that writes each event at once. -/
def refCfg : ACfg Nat := { queueSize := 4, batchNum := 1, t := 4, f := some fmtA }

/-- Goroutine 0 sends one event. -/
def refProg : Nat → List (ACall Nat) := fun t => if t = 0 then [.send Demo.event] else []

/-- The event is in the queue, and then the formatter is set. -/
theorem ref_queued (f : Option (Formatter Nat)) : RefExec refCfg (newRefitted refCfg refProg)
    [.step .begin, .step (.start 0 (.send Demo.event)), .step (.queued 0 Demo.event), .set f]
    { f := f, a := { chan := [some Demo.event], wait := 1, worker := .running,
                     th := ((((newAsync refProg).set 0 { pc := .sending Demo.event, todo := [] }).set 0 { pc := .idle, todo := [] }).th) } } := by
  have e0 : RefExec refCfg (newRefitted refCfg refProg) [] (newRefitted refCfg refProg) := .nil
  have e1 := RefExec.snoc e0 (.step (l := .begin) ⟨rfl, .begin rfl⟩)
  have e2 := RefExec.snoc e1 (.step (l := .start 0 (.send Demo.event)) ⟨rfl, .sendStart (cs := []) rfl rfl⟩)
  have e3 := RefExec.snoc e2 (.step (l := .queued 0 Demo.event) ⟨rfl, .sendQueue (cs := []) rfl rfl (by decide)⟩)
  exact RefExec.snoc e3 (.set (f := f) rfl)

/-- C114 fails for asynchronous outputs: an event that was sent and queued with one formatter set is written as another
says, which was set afterwards. -/
theorem C114_async_refuted : ∃ (cfg : ACfg Nat) (prog : Nat → List (ACall Nat)) (tr : List (RefLab Nat)) (s : Refitted Nat) (e : Event Nat),
    RefExec cfg (newRefitted cfg prog) tr s ∧ cfg.f = some fmtA ∧ queuedWith cfg.f tr = [(some fmtA, e)] ∧ cfg.t ≤ e.level ∧
    s.a.panicked = false ∧ s.a.writes.flatten = fmtB e ∧ fmtA e ≠ fmtB e :=
  ⟨refCfg, refProg, _, _, Demo.event,
    .snoc (ref_queued (some fmtB)) (.step (l := .took (some Demo.event)) ⟨rfl, .takeEvent (f := fmtB) rfl rfl rfl⟩),
    rfl, rfl, by decide, rfl, rfl, by decide⟩

/-- C114 fails altogether when the formatter is taken away: the program panics over an event that was accepted while
the output had a formatter. -/
theorem C114_nil_refuted : ∃ (cfg : ACfg Nat) (prog : Nat → List (ACall Nat)) (tr : List (RefLab Nat)) (s : Refitted Nat) (e : Event Nat),
    RefExec cfg (newRefitted cfg prog) tr s ∧ queuedWith cfg.f tr = [(some fmtA, e)] ∧ s.a.panicked = true ∧ s.a.writes.flatten = [] :=
  ⟨refCfg, refProg, _, _, Demo.event,
    .snoc (ref_queued none) (.step (l := .workerPanic) ⟨rfl, .takePanic rfl rfl rfl (by decide)⟩), rfl, rfl, rfl⟩

/-- C114, what holds for asynchronous outputs: the events are taken in the order they were queued, and what has been
written together with what waits in the buffer are the texts of the accepted ones among them, each by the formatter that
was set last when the worker took it.  (Not: when it was sent, `C114_async_refuted`.) -/
theorem C114_async_partial {cfg : ACfg V} {prog : Nat → List (ACall V)} {tr : List (RefLab V)} {s : Refitted V}
    (h : RefExec cfg (newRefitted cfg prog) tr s) :
    (takenWith cfg.f tr).map Prod.snd <+: (queuedWith cfg.f tr).map Prod.snd ∧
    (s.a.panicked = false → s.a.writes.flatten ++ s.a.buf = (passing cfg.t (takenWith cfg.f tr)).flatMap writtenAs) := by
  have inv := refexec_inv h
  obtain ⟨lost, he, -⟩ := inv.events
  exact ⟨⟨lost ++ eventsOf s.a.chan, by rw [he, List.append_assoc]⟩, inv.content⟩

/-- C114 for asynchronous outputs whose formatter is set only when the worker has taken all that was queued: what has been
written together with what waits in the buffer are the texts, each by the formatter that was set last when the event was
queued, of the accepted ones among the first events queued; the events not among these are still in the queue. -/
theorem C114_idle_partial {cfg : ACfg V} {prog : Nat → List (ACall V)} {tr : List (RefLab V)} {s : Refitted V}
    (h : RefExec cfg (newRefitted cfg prog) tr s) (hidle : SetWhenIdle tr) (hp : s.a.panicked = false) :
    ∃ now later, queuedWith cfg.f tr = now ++ later ∧ later.map Prod.snd = eventsOf s.a.chan ∧
      s.a.writes.flatten ++ s.a.buf = (passing cfg.t now).flatMap writtenAs := by
  have inv := refexec_inv h
  obtain ⟨later, hl⟩ := (refexec_idle h hidle).pre
  obtain ⟨lost, he, hn⟩ := inv.events
  obtain rfl := hn hp
  refine ⟨_, later, hl.symm, ?_, inv.content hp⟩
  rw [List.append_nil, ← hl, List.map_append] at he
  exact List.append_cancel_left he

/-- The formatter is set between two events, when the first has been taken. -/
example : ∃ (tr : List (RefLab Nat)) (s : Refitted Nat),
    RefExec refCfg (newRefitted refCfg fun t => if t = 0 then [.send Demo.event, .send Demo.event] else []) tr s ∧ SetWhenIdle tr ∧
    queuedWith refCfg.f tr = [(some fmtA, Demo.event), (some fmtB, Demo.event)] ∧ s.a.panicked = false ∧ s.a.writes.flatten = [65, 66] := by
  have e0 : RefExec refCfg (newRefitted refCfg fun t => if t = 0 then [.send Demo.event, .send Demo.event] else []) [] _ := .nil
  have e1 := RefExec.snoc e0 (.step (l := .begin) ⟨rfl, .begin rfl⟩)
  have e2 := RefExec.snoc e1 (.step (l := .start 0 (.send Demo.event)) ⟨rfl, .sendStart (cs := [.send Demo.event]) rfl rfl⟩)
  have e3 := RefExec.snoc e2 (.step (l := .queued 0 Demo.event) ⟨rfl, .sendQueue (cs := [.send Demo.event]) rfl rfl (by decide)⟩)
  have e4 := RefExec.snoc e3 (.step (l := .took (some Demo.event)) ⟨rfl, .takeEvent (f := fmtA) rfl rfl rfl⟩)
  have e5 := RefExec.snoc e4 (.set (f := some fmtB) rfl)
  have e6 := RefExec.snoc e5 (.step (l := .start 0 (.send Demo.event)) ⟨rfl, .sendStart (cs := []) rfl rfl⟩)
  have e7 := RefExec.snoc e6 (.step (l := .queued 0 Demo.event) ⟨rfl, .sendQueue (cs := []) rfl rfl (by decide)⟩)
  have e8 := RefExec.snoc e7 (.step (l := .took (some Demo.event)) ⟨rfl, .takeEvent (f := fmtB) rfl rfl rfl⟩)
  refine ⟨_, _, e8, ?_, rfl, rfl, rfl⟩
  intro x f y e
  rcases x with _ | ⟨a, _ | ⟨b, _ | ⟨c, _ | ⟨d, _ | ⟨g, _ | ⟨h, _ | ⟨i, _ | ⟨j, x⟩⟩⟩⟩⟩⟩⟩⟩ <;> simp at e
  obtain ⟨rfl, rfl, rfl, rfl, -⟩ := e
  rfl

end Log4g

/-! # The place of the call, when formatters are set later: C115 -/

namespace Log4g
open Spec World
variable {V : Type}

/-- A console whose lines are the messages. -/
def Demo.plainConsole : Config where
  formats := [some [(c!"name", c!"f"), (c!"type", c!"text"), (c!"layout", c!"%{msg}\n")]]
  outputs := [some [(c!"name", c!"o"), (c!"type", c!"console"), (c!"format", c!"f")]]
  loggers := [⟨c!"root", c!"debug", [c!"o"]⟩]

/-- A formatter of type "text" that prints file and line. -/
def Demo.siteFormatter : FmtObj := ⟨some [(c!"name", c!"g"), (c!"type", c!"text"), (c!"layout", c!"%{shortfile}:%{line} %{msg}\n")], 1⟩

def Demo.siteActs : List FmtAct := (initActs fun _ => false).map .lib ++
  [.lib (.setConfig Demo.plainConsole []), .lib (.getLogger c!"root"), .setFormatter 0 (some Demo.siteFormatter)]

def Demo.siteWorld : World := Demo.siteActs.foldl (fun w a => a.run w) {}

theorem Demo.site_steps : FmtSteps {} Demo.siteActs Demo.siteWorld := by
  have h0 : FmtSteps {} [] {} := .refl _
  have h1 := h0.tail (a := .lib (.registerFormatter c!"text" textCreator)) trivial
  have h2 := h1.tail (a := .lib (.registerOutput c!"console" okCreator)) trivial
  have h3 := h2.tail (a := .lib (.registerOutput c!"memory" okCreator)) trivial
  have h4 := h3.tail (a := .lib (.registerOutput c!"size_rolling_file" okCreator)) trivial
  have h5 := h4.tail (a := .lib (.registerOutput c!"time_rolling_file" okCreator)) trivial
  have h6 := h5.tail (a := .lib (.registerOutput c!"syslog" (syslogCreator fun _ => false))) trivial
  have h7 := h6.tail (a := .lib (.setConfig initConfig [])) (List.Perm.refl _)
  have h8 := h7.tail (a := .lib (.setConfig Demo.plainConsole [])) (List.Perm.refl _)
  have h9 := h8.tail (a := .lib (.getLogger c!"root")) trivial
  exact h9.tail (a := .setFormatter 0 (some Demo.siteFormatter)) (by show 0 < List.length _; decide)

/-- The stack on which the text formatter looks for the caller: `Format` of the layout, `Format` of the formatter
(internal/format_text.go:34), `Send` (internal/output_base.go:46), and what is below `Send`. -/
def Demo.formatStack : List Frame :=
  [⟨c!"internal/format_parser.go", 183, c!"github.com/xtfly/log4g/internal.(*StringFormatter).Format"⟩,
   ⟨c!"internal/format_text.go", 34, c!"github.com/xtfly/log4g/internal.(*textFormatter).Format"⟩,
   ⟨c!"internal/output_base.go", 46, c!"github.com/xtfly/log4g/internal.(*baseOutput).Send"⟩,
   writeFrame, printfFrame, methodFrame, ⟨c!"main.go", 12, c!"main.main"⟩]

/-- C115 is false: an output that a logger already has is given a formatter that wants file and line; the events the
logger sends to it carry no information on the caller, and the line that is printed names a file of the library. -/
theorem C115_late_formatter_refuted : ∃ (as : List FmtAct) (w : World) (r : Nat) (fr : Frame) (d : Delivery Nat),
    FmtSteps {} as w ∧ Map.get w.loggers c!"root" = some r ∧ skipOf (libCalls as) r = 0 ∧
    (w.call 0 [fr] r [] (.errorf c!"hi") []).deliveries = [d] ∧ Wants w d.out 1 ∧ fr.file = c!"main.go" ∧
    d.evt.ctx.value c!"__caller_info" = .nil ∧
    w.stdout .since113 Demo.lib Demo.formatStack (fun _ _ => []) (w.call 0 [fr] r [] (.errorf c!"hi") []) =
      [utf8 (c!"output_base.go:" ++ Demo.lib.sprintf c!"%v" [.int 46] ++ c!" hi\n")] :=
  ⟨_, Demo.siteWorld, 0, ⟨c!"main.go", 12, c!"main.main"⟩, _, Demo.site_steps, rfl, rfl, rfl,
    ⟨_, rfl, .inr ⟨by (intro f h; cases h), _, _, rfl, rfl, rfl⟩⟩, rfl, rfl, by rw [← bytes_eq]; decide +kernel⟩

/-- C115, what holds: whatever formatters are set on outputs, an event carries the information on the caller that an
output wants which receives it, if the loggers that have the output were given it after its formatter was set (not
having it at some moment since, or getting their outputs by `SetOutputs` since).  Formatters and the user's outputs
answer `CallerInfoFlag()` with 0, 1 or 2. -/
theorem C115_formatters_partial {as : List FmtAct} {w : World} (hw : FmtSteps {} as w) {r : Nat}
    (hf : ∀ fo ∈ w.mgr.fheap, fo.flag = 0 ∨ fo.flag = 1 ∨ fo.flag = 2)
    (hu : ∀ ob ∈ w.mgr.oheap, ∀ flag, ob.origin = .user flag → flag = 0 ∨ flag = 1 ∨ flag = 2)
    (now : Nat) (stack : List Frame) (ctx : Ctx V) (hctx : ctx.value callerInfoKey = .nil) (m : Method) (args : List V)
    (k : Nat) (hk : skipOf (libCalls as) r = k) (fr : Frame) (hfr : stack[k]? = some fr) :
    ∀ d ∈ (w.call now stack r ctx m args).deliveries,
      (∀ (r' : Nat) (l : Logger), w.heap[r']? = some l → d.out ∈ l.outputs → GivenSince as w r' d.out) →
      (Wants w d.out 1 ∨ Wants w d.out 2 →
        ∃ c, d.evt.ctx.value callerInfoKey = .ci c ∧ c.file = fr.file ∧ c.line = fr.line) ∧
      (Wants w d.out 2 → ∃ c, d.evt.ctx.value callerInfoKey = .ci c ∧
        (∀ pkg fun_, QualName fr.func pkg fun_ → c.pkg = pkg ∧ c.fun_ = fun_) ∧
        ((∀ pkg fun_, ¬ QualName fr.func pkg fun_) → c.pkg = c!"???" ∧ c.fun_ = c!"???")) := by
  intro d hd hgiven
  unfold call printf at hd
  cases hl0 : w.heap[r]? with
  | none => rw [hl0] at hd; simp [Outcome.deliveries] at hd
  | some l0 =>
    simp only [hl0] at hd
    obtain ⟨hops, rm, lm, ctx', hlm, hout, hc', hd'⟩ := write_delivery w now _ _ r ctx l0.name l0.callerSkip _ _ args hd
    have hskip : l0.callerSkip = 3 + k := by
      rw [((fmtSteps_skips hw) r).1 l0 hl0, hk]
    have hnil : Ctx.value ctx' callerInfoKey = .nil := by
      rcases hc' with rfl | rfl
      · exact hctx
      · exact empty_nil
    obtain ⟨hsite, s2, s3⟩ := dispatch_site lm hops [printfFrame, methodFrame] stack now ctx' l0.name
      (l0.callerSkip + hops) m.lvlFmt.1 m.lvlFmt.2 args hnil k (by rw [hskip]; simp; omega) d (by simpa using hd')
    have hle := given_pair (hgiven rm lm hlm hout) lm hlm hout
    have hle2 : lm.callerInfoFlag = 0 ∨ lm.callerInfoFlag = 1 ∨ lm.callerInfoFlag = 2 := by
      rcases (fmtSteps_finv hw finv_empty).from_ rm lm hlm with h | ⟨i, fo, h1, h2⟩ | ⟨o, ob, h1, h2⟩
      · exact .inl h
      · rw [← h2]; exact hf fo (List.mem_of_getElem? h1)
      · exact hu ob (List.mem_of_getElem? h1) _ h2
    refine ⟨?_, ?_⟩
    · intro hf
      have : w.mgr.outFlag d.out = 1 ∨ w.mgr.outFlag d.out = 2 := hf.imp (·.flag) (·.flag)
      have : lm.callerInfoFlag = 1 ∨ lm.callerInfoFlag = 2 := by omega
      obtain ⟨c, hc⟩ := s2 this
      obtain ⟨a, b, _⟩ := (hsite c hc).1 fr hfr
      exact ⟨c, hc, a, b⟩
    · intro hf
      have := hf.flag
      have h2 : lm.callerInfoFlag = 2 := by omega
      obtain ⟨c, hc⟩ := s2 (.inr h2)
      refine ⟨c, hc, ?_, ?_⟩
      · intro pkg fun_ hq
        have := s3 h2 c hc fr hfr
        rw [splitFunc_iff _ _ _ hq] at this
        exact ⟨congrArg Prod.fst this, congrArg Prod.snd this⟩
      · intro hq
        have := s3 h2 c hc fr hfr
        rw [splitFunc_none _ hq] at this
        exact ⟨congrArg Prod.fst this, congrArg Prod.snd this⟩

/-- After the formatter was set late, the logger is given its outputs again: the hypotheses are met, and the line names
the file of the caller. -/
example : ∃ (as : List FmtAct) (w : World), FmtSteps {} as w ∧ (∀ fo ∈ w.mgr.fheap, fo.flag = 0 ∨ fo.flag = 1 ∨ fo.flag = 2) ∧
    (∀ ob ∈ w.mgr.oheap, ∀ flag, ob.origin = .user flag → flag = 0 ∨ flag = 1 ∨ flag = 2) ∧
    (∀ (r' : Nat) (l : Logger), w.heap[r']? = some l → 0 ∈ l.outputs → GivenSince as w r' 0) ∧ Wants w 0 1 ∧ skipOf (libCalls as) 0 = 0 ∧
    w.stdout .since113 Demo.lib Demo.formatStack (fun _ _ => []) (w.call 0 [⟨c!"main.go", 12, c!"main.main"⟩] 0 [] (.errorf c!"hi") []) =
      [utf8 (c!"main.go:" ++ Demo.lib.sprintf c!"%v" [.int 12] ++ c!" hi\n")] := by
  have hs := Demo.site_steps.tail (a := .lib (.setOutputs 0 [0])) ⟨by decide, by (intro o ho; simp at ho; subst ho; decide)⟩
  refine ⟨_, _, hs, by decide, ?_, ?_, ⟨_, rfl, .inr ⟨by (intro f h; cases h), _, _, rfl, rfl, rfl⟩⟩, rfl, by rw [← bytes_eq]; decide +kernel⟩
  · intro ob hob flag h
    have hob : ob ∈ [(⟨.managed (some [(c!"name", c!"o"), (c!"type", c!"console"), (c!"format", c!"f")]), some 1⟩ : OutObj)] := hob
    simp at hob
    subst hob
    simp at h
  · intro r' l hl _
    refine ⟨_, [], _, (List.append_nil _).symm, hs, .refl _, by simp, ?_⟩
    have h0 : r' = 0 := by
      have := (List.getElem?_eq_some_iff.mp hl).1
      have : r' < 1 := this
      omega
    subst h0
    exact .inr ⟨_, _, rfl⟩

end Log4g
