import Verif.Lemmas.Nil
import Verif.Props.Panicking

/-! # C130: nil arguments -/

namespace Log4g
open Spec World
variable {V : Type}

/-! ## Configurations -/

/-- C130, what holds of configurations: a program that recovers the panics is, whatever it calls, in the state it would be in if it had
left out the calls `SetConfig(nil)`.  Each of these panics, and no other `SetConfig`. -/
theorem C130_config_partial {as : List NilAct} {w : World} (h : NilSteps {} as w) :
    Steps {} (withoutNil as) w ∧ ∀ cfg order, (w.setConfigPtr cfg order).1 = none ↔ cfg = none := by
  have app : ∀ a b, withoutNil (a ++ b) = withoutNil a ++ withoutNil b := by
    intro a b
    induction a with
    | nil => rfl
    | cons x a ih =>
      cases x with
      | act a => simp [withoutNil, ih]
      | setConfigPtr c o => cases c <;> simp [withoutNil, ih]
  constructor
  · induction h with
    | refl => exact .refl _
    | act _ hok ih => rw [app]; exact .tail ih hok
    | @config as w' cfg order _ hok ih =>
      rw [app]
      cases cfg with
      | none => simpa [withoutNil, NilAct.run, setConfigPtr] using ih
      | some cfg => exact Steps.tail ih (a := .setConfig cfg order) hok
  · intro cfg order
    cases cfg <;> simp [setConfigPtr]

/-! ## Outputs -/

theorem call_own {w : World} {r : Nat} {l : Logger} (hr : w.heap[r]? = some l) (hne : l.outputs ≠ []) (now : Nat) (stack : List Frame) (ctx : Ctx V) (m : Method) (args : List V)
    (hl : w.levelEnabled r m.lvlFmt.1 = true) :
    w.call now stack r ctx m args = .panic ∨ ∃ evt, w.call now stack r ctx m args = .sent (l.outputs.map fun o => ⟨o, evt⟩) := by
  obtain ⟨n, hn⟩ : ∃ n, w.heap.length = n + 1 := by
    have := (List.getElem?_eq_some_iff.mp hr).1
    exact ⟨w.heap.length - 1, by omega⟩
  simp only [World.call, printf, hr, hn, write, hl, hne, if_false, dispatch, Bool.true_eq_false]
  split
  · exact .inl rfl
  · exact .inr ⟨_, rfl⟩

/-- C130 fails for outputs: `SetOutputs` with nil among the outputs panics but the logger keeps them; from then on, whatever happens
until it is given other outputs, every log call that passes the level of the logger panics, and no output behind
the nil gets an event. -/
theorem C130_outputs_refuted {w : World} {r : Nat} {l : Logger} (hr : w.heap[r]? = some l) {z : Nat} {pre post : List Nat} (hz : z ∉ pre) :
    (w.setOutputsNil z r (pre ++ z :: post)).2 = false ∧
    (∃ l', (w.setOutputsNil z r (pre ++ z :: post)).1.heap[r]? = some l' ∧ l'.outputs = pre ++ z :: post) ∧
    ∀ (w' : World) (l' : Logger), w'.heap[r]? = some l' → l'.outputs = pre ++ z :: post →
      ∀ (now : Nat) (stack : List Frame) (ctx : Ctx V) (m : Method) (args : List V), w'.levelEnabled r m.lvlFmt.1 = true →
        (w'.callNil z now stack r ctx m args).2 = false ∧ ∀ d ∈ (w'.callNil z now stack r ctx m args).1, d.out ∈ pre := by
  refine ⟨by simp [setOutputsNil, hr, raiseFlagNil_eq _ _ _ _ hz], ⟨_, by simp only [setOutputsNil, World.update, List.getElem?_modify_eq, hr]; rfl, rfl⟩, ?_⟩
  intro w' l' hr' ho now stack ctx m args hl
  rcases call_own hr' (by simp [ho]) now stack ctx m args hl with h | ⟨evt, h⟩
  · simp [World.callNil, h]
  · simp only [World.callNil, h, ho, List.map_append, List.map_cons]
    rw [sendNil_some (z := z) (d := ⟨z, evt⟩) _ _ (by intro x hx; obtain ⟨o, ho, rfl⟩ := List.mem_map.mp hx; exact fun e => hz (e ▸ ho)) rfl]
    refine ⟨rfl, fun d hd => ?_⟩
    obtain ⟨o, ho, rfl⟩ := List.mem_map.mp hd
    exact ho

/-- C130, what holds of outputs: the call does nothing to other loggers, nor to the manager; when the logger is given outputs again, all is as if
it had been given those before the nil.  Where nothing is nil, everything is as without this section. -/
theorem C130_outputs_partial (w : World) (z r : Nat) {pre post : List Nat} (hz : z ∉ pre) :
    (∀ ops, (w.setOutputsNil z r (pre ++ z :: post)).1.setOutputs r ops = (w.setOutputs r pre).setOutputs r ops) ∧
    (∀ r', r' ≠ r → (w.setOutputsNil z r (pre ++ z :: post)).1.heap[r']? = w.heap[r']?) ∧
    (w.setOutputsNil z r (pre ++ z :: post)).1.mgr = w.mgr ∧ (w.setOutputsNil z r (pre ++ z :: post)).1.loggers = w.loggers ∧
    (∀ ops, z ∉ ops → w.setOutputsNil z r ops = (w.setOutputs r ops, true)) ∧
    ∀ (now : Nat) (stack : List Frame) (r' : Nat) (ctx : Ctx V) (m : Method) (args : List V) (ds : List (Delivery V)),
      w.call now stack r' ctx m args = .sent ds → (∀ d ∈ ds, d.out ≠ z) → w.callNil z now stack r' ctx m args = (ds, true) := by
  refine ⟨fun ops => ?_, fun r' h => ?_, rfl, rfl, fun ops h => ?_, fun now stack r' ctx m args ds h1 h2 => ?_⟩
  · simp only [setOutputsNil, World.setOutputs, World.update, raiseFlagNil_eq _ _ _ _ hz, List.modify_modify_eq]
    rfl
  · simp only [setOutputsNil, World.update]
    rw [List.getElem?_modify_ne _ _ (Ne.symm h)]
  · simp only [setOutputsNil, World.setOutputs, raiseFlagNil_none _ _ _ h]
    split <;> rfl
  · simp [World.callNil, h1, sendNil_none ds h2]

/-- The logger "x" of the sample program is given output 1, nil and output 0. -/
def nilWorld : World := (Demo.w1.setOutputsNil 7 3 [1, 7, 0]).1

/-- Its calls reach output 1 and panic; after it has been given output 0, all is well. -/
example : ((nilWorld.callNil 7 0 [] 3 [] (.errorf c!"hi") ([] : List Nat)).1.map (·.out), (nilWorld.callNil 7 0 [] 3 [] (.errorf c!"hi") ([] : List Nat)).2) = ([1], false) ∧
    (((nilWorld.setOutputs 3 [0]).callNil 7 0 [] 3 [] (.errorf c!"hi") ([] : List Nat)).1.map (·.out),
      ((nilWorld.setOutputs 3 [0]).callNil 7 0 [] 3 [] (.errorf c!"hi") ([] : List Nat)).2) = ([0], true) := by decide

/-! ## Events -/

/-- C130, what holds of events, for outputs that are not asynchronous: `Send(nil)` panics, and a program that recovers the panics has written what it
would have written without. -/
theorem C130_sync_partial (lib : Lib V) (es : List (Option (Event V))) :
    (∀ o : BaseOutput V, o.sendPtrs lib es = (eventsOf es).foldl (BaseOutput.send lib) o) ∧
    (∀ o : SyslogOutput V, o.sendPtrs lib es = (eventsOf es).foldl (SyslogOutput.send lib) o) ∧
    (∀ (o : BaseOutput V) (e : Option (Event V)), o.sendPtr lib e = none ↔ e = none) ∧
    ∀ (o : SyslogOutput V) (e : Option (Event V)), o.sendPtr lib e = none ↔ e = none := by
  refine ⟨?_, ?_, fun o e => by cases e <;> simp [BaseOutput.sendPtr], fun o e => by cases e <;> simp [SyslogOutput.sendPtr]⟩
  · induction es with
    | nil => intro o; rfl
    | cons e es ih =>
      intro o
      cases e with
      | none => simpa [BaseOutput.sendPtrs, BaseOutput.sendPtr, eventsOf] using ih o
      | some e => simpa [BaseOutput.sendPtrs, BaseOutput.sendPtr, eventsOf] using ih (o.send lib e)
  · induction es with
    | nil => intro o; rfl
    | cons e es ih =>
      intro o
      cases e with
      | none => simpa [SyslogOutput.sendPtrs, SyslogOutput.sendPtr, eventsOf] using ih o
      | some e => simpa [SyslogOutput.sendPtrs, SyslogOutput.sendPtr, eventsOf] using ih (o.send lib e)

/-- C130, what holds of events, for an asynchronous output to which any number of goroutines send nil, at any time: what has been written is the
beginning of what was queued in front of the first nil, in order; all of it once the worker has stopped.  If nobody calls
`Close`, nothing panics. -/
theorem C130_event_partial {cfg : ACfg V} {f : Formatter V} (hf : cfg.f = some f) {prog : Nat → List (ACall V)} {tr : List (NilLab V)} {s : NilState V}
    (h : NilExec cfg { a := newAsync prog } tr s) :
    (s.a.panicked = false → ∃ (es : List (Event V)) (post : List (Option (Event V))), putOf tr = es.map some ++ post ∧ (post = [] ∨ ∃ rest, post = none :: rest) ∧
      s.a.writes.flatten <+: (accepted cfg.t es).flatMap f ∧
      (s.a.worker = .stopped → post ≠ [] ∧ s.a.writes.flatten = (accepted cfg.t es).flatMap f)) ∧
    ((∀ t, ACall.close ∉ prog t) → s.a.panicked = false) := by
  refine ⟨fun hp => ?_, fun hc => (noClose_exec hf h ⟨hc, fun _ => .inl rfl, rfl, rfl⟩ rfl).2⟩
  have inv := nil_ainv h hp
  obtain ⟨a, b, bi⟩ := nil_binv hf h
  have hput := plainTr_put tr
  have split : ∀ xs : List (Option (Event V)), ∃ (es : List (Event V)) (post : List (Option (Event V))), xs = es.map some ++ post ∧ (post = [] ∨ ∃ rest, post = none :: rest) := by
    intro xs
    by_cases hn : none ∈ xs
    · obtain ⟨es, rest, e⟩ := split_none xs hn
      exact ⟨es, _, e, .inr ⟨rest, rfl⟩⟩
    · obtain ⟨es, e⟩ := all_some xs hn
      exact ⟨es, [], by simp [e], .inl rfl⟩
  have ev : ∀ es : List (Event V), eventsOf (es.map some) = es := by
    intro es
    simp only [eventsOf, List.filterMap_map]
    have : (id ∘ some : Event V → Option (Event V)) = some := rfl
    rw [this]; exact List.filterMap_some
  by_cases hw : s.a.worker = .stopped
  · obtain ⟨pre, h1, h2⟩ := inv.stopped hw
    obtain ⟨es, rfl⟩ := all_some pre h2
    have hb := bi.idle (by simp [hw])
    subst hb
    have hs := bi.split
    rw [h1, eventsOf_append, ev] at hs
    have he : s.a.writes.flatten = (accepted cfg.t es).flatMap f := by
      rw [bi.writes]; congr 1
      simpa [eventsOf] using hs.symm
    exact ⟨es, none :: s.a.chan, by rw [← hput, inv.queue, h1]; simp, .inr ⟨_, rfl⟩, he ▸ List.prefix_refl _, fun _ => ⟨by simp, he⟩⟩
  · have hnone : none ∉ takenOf (plainTr tr) := by
      cases hw' : s.a.worker with
      | stopped => exact absurd hw' hw
      | starting => rw [inv.starting hw']; simp
      | running => exact inv.running hw'
    obtain ⟨es, he⟩ := all_some _ hnone
    obtain ⟨es', post, h1, h2⟩ := split s.a.chan
    refine ⟨es ++ es', post, by rw [← hput, inv.queue, he, h1]; simp, h2, ?_, fun h => absurd h hw⟩
    have hs := bi.split
    rw [he, ev] at hs
    rw [bi.writes, accepted_append, hs]
    exact ⟨b.flatMap f ++ (accepted cfg.t es').flatMap f, by simp⟩

/-- Two goroutines send an event each; a queue for one event. -/
def nilProg : Nat → List (ACall Nat)
  | 0 | 1 => [.send Demo.evt]
  | _ => []

def nilCfg : ACfg Nat := { Demo.acfg with queueSize := 1 }

/-- After `Send(nil)`. -/
theorem nil_run : ∃ s, NilExec nilCfg { a := newAsync nilProg } [.nilStart, .lab .begin, .nilQueued, .lab (.took none), .lab (.start 0 (.send Demo.evt)), .lab (.queued 0 Demo.evt),
      .lab (.start 1 (.send Demo.evt))] s ∧ s.a.worker = .stopped ∧ s.a.chan = [some Demo.evt] ∧ s.a.panicked = false ∧ s.a.writes.flatten = [] ∧ (s.a.th 1).pc = .sending Demo.evt := by
  have h0 : NilExec nilCfg { a := newAsync nilProg } [] _ := .nil
  have h1 := h0.snoc (.start rfl rfl)
  have h2 := h1.snoc (.lib ⟨rfl, .begin rfl⟩)
  have h3 := h2.snoc (.queue rfl (by decide) rfl (by decide))
  have h4 := h3.snoc (.lib ⟨rfl, .takeNil rfl rfl⟩)
  have h5 := h4.snoc (.lib ⟨rfl, .sendStart (t := 0) (e := Demo.evt) rfl rfl⟩)
  have h6 := h5.snoc (.lib ⟨rfl, .sendQueue (t := 0) (e := Demo.evt) rfl rfl (by decide)⟩)
  have h7 := h6.snoc (.lib ⟨rfl, .sendStart (t := 1) (e := Demo.evt) rfl rfl⟩)
  exact ⟨_, h7, rfl, rfl, rfl, rfl, rfl⟩

/-- C130 fails for events: `Send(nil)` to an asynchronous output that nobody closes returns, and stops the worker.  An event that is sent and
accepted afterwards is never written, whatever happens, and once the queue is full a `Send` never returns. -/
theorem C130_event_refuted : ∃ (cfg : ACfg Nat) (f : Formatter Nat) (prog : Nat → List (ACall Nat)) (tr : List (NilLab Nat)) (s : NilState Nat) (e : Event Nat),
    cfg.f = some f ∧ f e ≠ [] ∧ cfg.t ≤ e.level ∧ (∀ t, ACall.close ∉ prog t) ∧ NilExec cfg { a := newAsync prog } tr s ∧ .nilQueued ∈ tr ∧ .lab (.queued 0 e) ∈ tr ∧
    .lab (.start 1 (.send e)) ∈ tr ∧
    ∀ tr' s', NilExec cfg s tr' s' → s'.a.writes.flatten = [] ∧ (s'.a.th 1).pc = .sending e := by
  obtain ⟨s, h, hw, hch, hp, hwr, hpc⟩ := nil_run
  have hnc : ∀ t, ACall.close ∉ nilProg t := by
    intro t
    match t with
    | 0 | 1 => simp [nilProg]
    | t + 2 => simp [nilProg]
  refine ⟨nilCfg, _, nilProg, _, s, Demo.evt, rfl, by simp, by decide, hnc, h, by simp, by simp, by simp, fun tr' s' h' => ?_⟩
  obtain ⟨_, h2, _, h4⟩ := stuck_exec (f := fun _ => [120]) rfl h' (noClose_exec (f := fun _ => [120]) rfl h ⟨hnc, fun _ => .inl rfl, rfl, rfl⟩ rfl).1 hp hw
  exact ⟨by rw [h2]; exact hwr, h4 (by simp [hch, nilCfg]) 1 _ hpc⟩

example : ∃ (tr : List (NilLab Nat)) (s : NilState Nat), NilExec nilCfg { a := newAsync nilProg } tr s ∧ s.a.panicked = false ∧ s.a.worker = .stopped ∧ putOf tr = [none, some Demo.evt] := by
  obtain ⟨s, h, hw, _, hp, _⟩ := nil_run
  exact ⟨_, s, h, hp, hw, rfl⟩

/-! ## Contexts -/

/-- C130, what holds of contexts: a log call of `WithCtx(nil)` panics exactly if it passes the level, does not go to the parent and
the logger has to find out where it was called from; then it has sent nothing.  Otherwise it sends what a call with an empty
context sends. -/
theorem C130_ctx_partial {w : World} {r : Nat} {l : Logger} (hr : w.heap[r]? = some l) (now : Nat) (stack : List Frame) (m : Method) (args : List V) :
    ((w.callNilCtx now stack r m args).1 = .panic ↔
      w.levelEnabled r m.lvlFmt.1 = true ∧ (l.outputs ≠ [] ∨ l.parent = none) ∧ (l.callerInfoFlag = 1 ∨ l.callerInfoFlag = 2)) ∧
    ((w.callNilCtx now stack r m args).1 ≠ .panic → (w.callNilCtx now stack r m args).1 = w.call now stack r [] m args) := by
  obtain ⟨n, hn⟩ : ∃ n, w.heap.length = n + 1 := by
    have := (List.getElem?_eq_some_iff.mp hr).1
    exact ⟨w.heap.length - 1, by omega⟩
  have calm : w.call now stack r ([] : Ctx V) m args ≠ .panic := by
    simp only [call, printf, hr]
    exact write_calm _ _ _ _ _ _ _ _ _ _
  simp only [callNilCtx, hr]
  by_cases he : w.levelEnabled r m.lvlFmt.1 = false
  · rw [if_pos he]
    refine ⟨⟨nofun, fun h => absurd h.1 (by simp [he])⟩, fun _ => ?_⟩
    simp [call, printf, hr, hn, World.write, he]
  · rw [if_neg he]
    by_cases hd : l.outputs = [] ∧ l.parent ≠ none
    · rw [if_pos hd]
      exact ⟨⟨fun h => absurd h calm, fun h => absurd hd (by rcases h.2.1 with h | h <;> simp [h])⟩, fun _ => rfl⟩
    · rw [if_neg hd]
      have hd' : l.outputs ≠ [] ∨ l.parent = none := by
        by_cases ho : l.outputs = []
        · exact .inr (Classical.byContradiction fun h => hd ⟨ho, h⟩)
        · exact .inl ho
      by_cases hf : l.callerInfoFlag = ciFuncFlag ∨ l.callerInfoFlag = ciFileFlag
      · rw [if_pos hf]
        exact ⟨⟨fun _ => ⟨by simpa using he, hd', hf.symm⟩, fun _ => rfl⟩, fun h => absurd rfl h⟩
      · rw [if_neg hf]
        refine ⟨⟨nofun, fun h => absurd h.2.2.symm hf⟩, fun _ => ?_⟩
        have hf1 : ¬ l.callerInfoFlag = ciFuncFlag := fun h => hf (.inl h)
        have hf2 : ¬ l.callerInfoFlag = ciFileFlag := fun h => hf (.inr h)
        simp only [call, printf, hr, hn, World.write, if_neg he]
        split
        · rename_i ho
          split
          · rename_i p hp
            exact absurd ⟨ho, by rw [hp]; nofun⟩ hd
          · simp [dispatch, hf1, hf2]
        · simp [dispatch, hf1, hf2]

/-- C130, what holds of contexts, for a line: the text formatter panics over an event with the nil context exactly if the layout has a verb other than those
that can be printed without; otherwise the line is made as for other events. -/
theorem C130_ctx_line_partial {layout : Str} {parts : List Part} (h : parser layout = some parts) {ps : List Piece} (hcut : Cut layout ps)
    (lib : Lib V) (stack : List Frame) (e : Event V) (ci : CallerInfo) :
    (formatNilCtx lib stack e parts = none ↔ ∃ n sp, .verb n sp ∈ ps ∧ n ∉ contextFree) ∧
    ((∀ n sp, .verb n sp ∈ ps → n ∈ contextFree) → ∃ line, formatNilCtx lib stack e parts = some line ∧ Line lib e ci ps line) := by
  obtain rfl := (C33_lossless h).2.2 ps hcut
  obtain ⟨hc, hp⟩ := parser_pieces h
  have good : (∀ n sp, .verb n sp ∈ parts.map pieceOf → n ∈ contextFree) → ∃ line, formatNilCtx lib stack e parts = some line ∧ Line lib e ci (parts.map pieceOf) line := by
    intro hall
    have hno : parts.any Part.looksUp = false := by
      rw [Bool.eq_false_iff]
      intro hh
      rw [hp] at hh
      obtain ⟨n, sp, h1, h2⟩ := (looksUp_any _).mp hh
      exact h2 (hall n sp h1)
    have dis : ∀ n ∈ contextFree, n ∉ fileVerbs ++ funcVerbs := by decide
    obtain ⟨s, e', a, _, b⟩ := format_line lib stack (Same.refl e) (ci := ci) (cut_spec_ne hc)
      ⟨fun ⟨n, sp, h1, h2⟩ => absurd h2 (dis n (hall n sp h1)), fun ⟨n, sp, h1, h2⟩ => absurd (List.mem_append_right _ h2) (dis n (hall n sp h1))⟩
    rw [← hp] at a
    exact ⟨s, by simp [formatNilCtx, hno, a], b⟩
  refine ⟨⟨fun hn => ?_, fun hn => ?_⟩, good⟩
  · refine Classical.byContradiction fun hh => ?_
    obtain ⟨line, h1, _⟩ := good fun n sp h1 => Classical.byContradiction fun h2 => hh ⟨n, sp, h1, h2⟩
    rw [h1] at hn; cases hn
  · have := (looksUp_any _).mpr hn
    rw [← hp] at this
    simp [formatNilCtx, this]

/-- A layout that prints a field; where the call was made is not asked for. -/
def fieldParts : List Part := (parser c!"%{user}").getD []

/-- A configuration with this layout, and the logger "x". -/
def fieldWorld : World := Demo.run {} [.registerFormatter c!"text" (fun _ _ => .ok (callerInfoFlag fieldParts)), .registerOutput c!"console" (fun _ _ => .ok ()),
  .setConfig Demo.cfg [], .getLogger c!"x"]

theorem fieldWorld_reach : Reach fieldWorld := by
  have h1 : Reach {} := ⟨[], .refl _⟩
  have h2 := h1.act (a := .registerFormatter c!"text" (fun _ _ => .ok (callerInfoFlag fieldParts))) trivial
  have h3 := h2.act (a := .registerOutput c!"console" (fun _ _ => .ok ())) trivial
  have h4 := h3.act (a := .setConfig Demo.cfg []) (List.Perm.refl _)
  exact h4.act (a := .getLogger c!"x") trivial

/-- The event of the log call with the nil context. -/
def nilCtxEvt : Event Nat := { format := c!"hi", arguments := [], name := c!"x", level := Level.Error, time := 0, callDepth := 3, ctx := [] }

/-- The event of another log call. -/
def fieldEvt : Event Nat := { nilCtxEvt with ctx := Ctx.withValue [] c!"user" (.user 1) }

/-- The formatter; the events without values in their contexts are those with the nil context. -/
def fieldFmt : Shaky Nat := fun e => match e.ctx with
  | [] => (formatNilCtx Demo.lib [] e fieldParts).map Str.bytes
  | _ => (format Demo.lib [] e fieldParts).map fun x => Str.bytes x.1

def fieldProg : Nat → List (ACall Nat)
  | 0 => [.send fieldEvt]
  | 1 => [.send nilCtxEvt]
  | _ => []

/-- C130 fails for contexts: with a layout that prints a field the log call of `WithCtx(nil)` returns, but the formatter panics over its event, where it does not
panic over one with the empty context; when the output is asynchronous, this ends the program, and an event of another call is lost. -/
theorem C130_ctx_refuted : ∃ (layout : Str) (parts : List Part) (w : World) (r : Nat) (e : Event Nat), parser layout = some parts ∧
    Reach w ∧ Map.get w.loggers c!"x" = some r ∧ (∃ ds, w.callNilCtx 0 [] r (.errorf c!"hi") [] = (.sent ds, true) ∧ ∃ d ∈ ds, d.evt = e) ∧
    formatNilCtx Demo.lib [] e parts = none ∧ format Demo.lib [] e parts ≠ none ∧
    ∃ (cfg : ACfg Nat) (g : Shaky Nat) (prog : Nat → List (ACall Nat)) (tr : List (ALab Nat)) (s : AState Nat) (e1 : Event Nat),
      ShakyExec cfg g (newAsync prog) tr s ∧ queuedOf tr = [some e1, some e] ∧ cfg.t ≤ e1.level ∧ g e = (formatNilCtx Demo.lib [] e parts).map Str.bytes ∧
      g e1 = (format Demo.lib [] e1 parts).map (fun x => Str.bytes x.1) ∧ g e1 ≠ none ∧ s.panicked = true ∧ s.writes = [] := by
  have h0 : ShakyExec Demo.acfg fieldFmt (newAsync fieldProg) [] _ := .nil
  have h1 := h0.snoc (.calm ⟨rfl, .begin rfl⟩ (fun _ h => by cases h))
  have h2 := h1.snoc (.calm ⟨rfl, .sendStart (t := 0) (e := fieldEvt) rfl rfl⟩ (fun _ h => by cases h))
  have h3 := h2.snoc (.calm ⟨rfl, .sendQueue (t := 0) (e := fieldEvt) rfl rfl (by decide)⟩ (fun _ h => by cases h))
  have h4 := h3.snoc (.calm ⟨rfl, .sendStart (t := 1) (e := nilCtxEvt) rfl rfl⟩ (fun _ h => by cases h))
  have h5 := h4.snoc (.calm ⟨rfl, .sendQueue (t := 1) (e := nilCtxEvt) rfl rfl (by decide)⟩ (fun _ h => by cases h))
  have h6 := h5.snoc (.calm (l := .took (some fieldEvt)) ⟨rfl, .takeEvent rfl rfl rfl⟩ (fun e h _ => by cases h; decide +kernel))
  have h7 := h6.snoc (.panic rfl rfl rfl (by decide) (by decide +kernel))
  exact ⟨c!"%{user}", fieldParts, fieldWorld, 1, nilCtxEvt, by decide +kernel, fieldWorld_reach, rfl, ⟨_, rfl, _, .head _, rfl⟩, by decide +kernel, by decide +kernel,
    _, _, _, _, _, fieldEvt, h7, rfl, by decide, rfl, rfl, by decide +kernel, rfl, rfl⟩

/-- With the layouts `%{level} %{msg}` and `%{shortfile} %{msg}`. -/
example : ∃ parts, parser c!"%{level} %{msg}" = some parts ∧ formatNilCtx Demo.lib [] nilCtxEvt parts ≠ none := ⟨_, rfl, by decide +kernel⟩
example : ∃ parts, parser c!"%{shortfile} %{msg}" = some parts ∧ formatNilCtx Demo.lib [] nilCtxEvt parts = none := ⟨_, rfl, by decide +kernel⟩

/-- The logger "x" of the sample program, which wants caller information. -/
example : (Demo.w1.callNilCtx 0 [] 3 (.errorf c!"hi") ([] : List Nat)).1 = .panic := rfl

end Log4g
