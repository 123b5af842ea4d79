import Verif.Model.LogThreads
import Verif.Lemmas.Printf

namespace Log4g
open Spec World
variable {V : Type}

/-! ## The statements of calls add up to the calls -/

theorem runMoves_append (w : World) (ms ms' : List Move) : runMoves w (ms ++ ms') = runMoves (runMoves w ms) ms' := by
  simp [runMoves, List.foldl_append]

theorem update_update (w : World) (r : Nat) (f g : Logger → Logger) :
    (w.update r f).update r g = w.update r (g ∘ f) := by
  simp only [update]
  congr 1
  apply List.ext_getElem?
  intro i
  simp only [List.getElem?_modify]
  cases w.heap[i]? with
  | none => rfl
  | some l => by_cases h : r = i <;> simp [h]

theorem raises_run (w : World) (r : Nat) (ops : List Nat) :
    runMoves w (ops.map (.raise r)) = w.update r fun l => { l with callerInfoFlag := raiseFlag w.mgr l.callerInfoFlag ops } := by
  induction ops generalizing w with
  | nil =>
    simp only [List.map_nil, runMoves, List.foldl_nil, raiseFlag]
    have : (fun l : Logger => { l with callerInfoFlag := l.callerInfoFlag }) = id := by funext l; rfl
    rw [this]
    simp [update]
  | cons o os ih =>
    rw [List.map_cons]
    show runMoves (w.raiseOne r o) _ = _
    rw [ih]
    simp only [raiseOne]
    rw [update_update]
    rfl

theorem setOutputs_run (w : World) (r : Nat) (ops : List Nat) : runMoves w (setOutputsMoves r ops) = w.setOutputs r ops := by
  show runMoves (w.assignOutputs r ops) _ = _
  rw [raises_run]
  simp only [assignOutputs]
  rw [update_update]
  rfl

theorem configure_run (w : World) (r : Nat) (name : Str) : runMoves w (configureMoves w r name) = w.configure r name := by
  unfold configureMoves configure
  rcases h : w.mgr.getLoggerOutputs name with ⟨e | ⟨ops, lvl⟩, m⟩
  · simp [runMoves, Move.run]
  · show runMoves (Move.run (Move.run w (.rest m w.root w.loggers [])) (.level r lvl)) _ = _
    rw [setOutputs_run]
    simp [Move.run]

theorem notify_run (w : World) (order : List Nat) : runMoves w (notifyMoves w order) = w.notify order := by
  induction order generalizing w with
  | nil => rfl
  | cons r rs ih =>
    simp only [notifyMoves, notify]
    cases w.heap[r]? with
    | none => exact ih w
    | some l => simp only [runMoves_append, configure_run, ih]

/-- The statements of `SetConfig` do what the model's `setConfig` does in one go. -/
theorem setConfig_run (w : World) (cfg : Config) (order : List Nat) :
    runMoves w (setConfigMoves w cfg order) = (w.setConfig cfg order).2 := by
  unfold setConfigMoves setConfig
  cases validateConfig cfg with
  | some e => rfl
  | none =>
    simp only [← notify_run]
    simp [runMoves, Move.run]

/-! ## What other goroutines leave alone -/

/-- Loggers keep their names and parents. -/
def KeepsTree (w w' : World) : Prop :=
  ∀ (r : Nat) l, w.heap[r]? = some l → ∃ l', w'.heap[r]? = some l' ∧ l'.name = l.name ∧ l'.parent = l.parent

theorem KeepsTree.refl (w : World) : KeepsTree w w := fun _ l h => ⟨l, h, rfl, rfl⟩

theorem KeepsTree.trans {a b c : World} (h : KeepsTree a b) (h' : KeepsTree b c) : KeepsTree a c := by
  intro r l e
  obtain ⟨l1, e1, n1, p1⟩ := h r l e
  obtain ⟨l2, e2, n2, p2⟩ := h' r l1 e1
  exact ⟨l2, e2, n2.trans n1, p2.trans p1⟩

theorem update_keeps (w : World) (r : Nat) (f : Logger → Logger) (hn : ∀ l, (f l).name = l.name)
    (hp : ∀ l, (f l).parent = l.parent) : KeepsTree w (w.update r f) := by
  intro r' l h
  rw [update_heap]
  split
  · exact ⟨f l, by simp [h], hn l, hp l⟩
  · exact ⟨l, h, rfl, rfl⟩

theorem Move.keeps (w : World) (m : Move) : KeepsTree w (m.run w) := by
  cases m with
  | level r lvl => exact update_keeps _ _ _ (fun _ => rfl) (fun _ => rfl)
  | outputs r ops => exact update_keeps _ _ _ (fun _ => rfl) (fun _ => rfl)
  | raise r o => exact update_keeps _ _ _ (fun _ => rfl) (fun _ => rfl)
  | skip r k => exact update_keeps _ _ _ (fun _ => rfl) (fun _ => rfl)
  | rest m root ls new =>
    intro r l h
    refine ⟨l, ?_, rfl, rfl⟩
    simp only [Move.run]
    rw [List.getElem?_append_left (heap_lt h)]
    exact h

theorem runMoves_keeps (w : World) (ms : List Move) : KeepsTree w (runMoves w ms) := by
  induction ms generalizing w with
  | nil => exact .refl w
  | cons m ms ih => exact (m.keeps w).trans (ih (m.run w))

theorem logExec_world {a : LogArgs V} {w0 w : World} {p0 p : LogPc V} {k : Nat} {ms : List Move}
    (h : LogExec a w0 p0 k ms w p) : w = runMoves w0 ms := by
  induction h with
  | refl => rfl
  | own _ ih => exact ih
  | other m _ ih => rw [runMoves_append, ih]; rfl

/-! ## The way up -/

/-- The loggers from `r` up to the root. -/
inductive OnWay (w : World) (r : Nat) : Nat → Prop
  | refl : OnWay w r r
  | up {c p l} : OnWay w r c → w.heap[c]? = some l → l.parent = some p → OnWay w r p

/-- Every logger of `P` exists, and its parent is in `P` and older. -/
def Well (w : World) (P : Nat → Prop) : Prop :=
  ∀ c, P c → ∃ l, w.heap[c]? = some l ∧ ∀ p, l.parent = some p → p < c ∧ P p

theorem onWay_named {w : World} (inv : WInv w) {n : Str} {r : Nat} (hn : Map.get w.loggers n = some r)
    {ps : List Str} (hp : Path n ps) {c : Nat} (h : OnWay w r c) : ∃ x ∈ ps, Map.get w.loggers x = some c := by
  have key : ∀ c, OnWay w r c → ∃ x qs, Path x qs ∧ (∀ y ∈ qs, y ∈ ps) ∧ Map.get w.loggers x = some c := by
    intro c h
    induction h with
    | refl => exact ⟨n, ps, hp, fun _ h => h, hn⟩
    | up _ hl hpar ih =>
      obtain ⟨x, qs, h1, h2, h3⟩ := ih
      cases h1 with
      | root =>
        obtain ⟨l', a, b, c⟩ := up_root inv h3
        rw [hl] at a; injection a with a; subst a
        rw [hpar] at c; simp at c
      | step hne hpo hps =>
        obtain ⟨l', rp, a, b, c, d, e⟩ := up_step inv h3 hne hpo
        rw [hl] at a; injection a with a; subst a
        rw [hpar] at c; injection c with c; subst c
        exact ⟨_, _, hps, fun y hy => h2 y (by simp [hy]), e⟩
  obtain ⟨x, qs, h1, h2, h3⟩ := key c h
  obtain ⟨rest, rfl⟩ := path_cons h1
  exact ⟨x, h2 x (by simp), h3⟩

theorem well_onWay {w : World} (inv : WInv w) {n : Str} {r : Nat} (hn : Map.get w.loggers n = some r) :
    Well w (OnWay w r) := by
  intro c hc
  obtain ⟨ps, hp⟩ := path_exists n
  obtain ⟨x, _, hx⟩ := onWay_named inv hn hp hc
  obtain ⟨l, h1, h2⟩ := inv.named _ _ hx
  refine ⟨l, h1, fun p hpar => ⟨?_, .up hc h1 hpar⟩⟩
  by_cases hr : l.name = rootLoggerName
  · rw [inv.parentRoot c l h1 hr] at hpar; simp at hpar
  · obtain ⟨p', lp, a, b, _, d⟩ := inv.parent c l h1 hr
    rw [hpar] at a; injection a with a; subst a; exact d

theorem Well.keeps {w w' : World} {P : Nat → Prop} (h : Well w P) (hk : KeepsTree w w') : Well w' P := by
  intro c hc
  obtain ⟨l, h1, h2⟩ := h c hc
  obtain ⟨l', h3, _, h4⟩ := hk c l h1
  exact ⟨l', h3, fun p hp => h2 p (h4 ▸ hp)⟩

theorem walk_fuel {w : World} {P : Nat → Prop} (hw : Well w P) {c : Nat} (hc : P c) {f f' : Nat} (h : c < f) (h' : c < f') :
    w.levelWalk f (some c) = w.levelWalk f' (some c) := by
  induction f generalizing c f' with
  | zero => omega
  | succ f ih =>
    obtain ⟨f', rfl⟩ : ∃ k, f' = k + 1 := ⟨f' - 1, by omega⟩
    obtain ⟨l, h1, h2⟩ := hw c hc
    simp only [levelWalk, h1]
    split
    · rfl
    · cases hp : l.parent with
      | none => simp [levelWalk]
      | some p =>
        obtain ⟨a, b⟩ := h2 p hp
        exact ih b (by omega) (by omega)

/-- The result of the loop of `Level()` from `cl` on. -/
def walkFrom (w : World) : Option Nat → Level
  | none => Level.Off
  | some c => w.level c

theorem level_rec {w : World} {P : Nat → Prop} (hw : Well w P) {c : Nat} (hc : P c) {l : Logger} (hl : w.heap[c]? = some l) :
    w.level c = if l.level ≠ Level.Uninitialized then l.level else walkFrom w l.parent := by
  obtain ⟨l', h1, h2⟩ := hw c hc
  rw [hl] at h1; injection h1 with h1; subst h1
  have hlt := heap_lt hl
  unfold level
  rw [walk_fuel hw hc hlt (Nat.lt_succ_self c)]
  simp only [levelWalk, hl]
  split
  · rfl
  · cases hp : l.parent with
    | none => simp [levelWalk, walkFrom]
    | some p =>
      obtain ⟨a, b⟩ := h2 p hp
      simp only [walkFrom, level]
      obtain ⟨lp, h3, _⟩ := hw p b
      rw [walk_fuel hw b a (heap_lt h3)]

/-! ## The loggers a message goes through, in one go -/

theorem write_fuel {w : World} {P : Nat → Prop} (hw : Well w P) (now : Nat) {r : Nat} (hr : P r) {f f' : Nat}
    (h : r < f) (h' : r < f') (stack : List Frame) (ctx : Ctx V) (name : Str) (skip : Int) (lvl : Level) (fmt : Str) (args : List V) :
    w.write now f stack r ctx name skip lvl fmt args = w.write now f' stack r ctx name skip lvl fmt args := by
  induction f generalizing r f' stack ctx skip with
  | zero => omega
  | succ f ih =>
    obtain ⟨f', rfl⟩ : ∃ k, f' = k + 1 := ⟨f' - 1, by omega⟩
    obtain ⟨l, h1, h2⟩ := hw r hr
    simp only [write, h1]
    split
    · rfl
    · split
      · cases hp : l.parent with
        | none => rfl
        | some p =>
          obtain ⟨a, b⟩ := h2 p hp
          exact ih b (by omega) (by omega) _ _ _
      · rfl

/-- `write` behind the level check. -/
def afterO (w : World) (a : LogArgs V) (f : WriteCall V) : Outcome V :=
  match w.heap[f.r]? with
  | none => .sent []
  | some l =>
    if l.outputs = [] then
      match l.parent with
      | some p => w.write a.now (p + 1) (writeFrame :: f.stack) p [] f.name (f.skip + 1) a.lvl a.fmt a.args
      | none => dispatch l (writeFrame :: f.stack) a.now f.ctx f.name f.skip a.lvl a.fmt a.args
    else dispatch l (writeFrame :: f.stack) a.now f.ctx f.name f.skip a.lvl a.fmt a.args

theorem write_rec {w : World} {P : Nat → Prop} (hw : Well w P) (a : LogArgs V) (f : WriteCall V) (hr : P f.r) {fuel : Nat} (hf : f.r < fuel) :
    w.write a.now fuel f.stack f.r f.ctx f.name f.skip a.lvl a.fmt a.args =
      if w.level f.r ≤ a.lvl then afterO w a f else .sent [] := by
  obtain ⟨fuel, rfl⟩ : ∃ k, fuel = k + 1 := ⟨fuel - 1, by omega⟩
  obtain ⟨l, h1, h2⟩ := hw _ hr
  rw [write]
  simp only [afterO, h1, levelEnabled]
  by_cases h : w.level f.r ≤ a.lvl
  · simp only [h, decide_true, if_true, Bool.true_eq_false, if_false]
    split
    · cases hp : l.parent with
      | none => rfl
      | some p =>
        obtain ⟨x, y⟩ := h2 p hp
        exact write_fuel hw _ y (by omega) (by omega) _ _ _ _ _ _ _
    · rfl
  · simp [h]

/-- What the rest of the log call would send if nobody interfered. -/
def restO (w : World) (a : LogArgs V) : LogPc V → Outcome V
  | .printf stack r ctx => w.printf a.now stack r ctx a.lvl a.fmt a.args
  | .level f c => if walkFrom w c ≤ a.lvl then afterO w a f else .sent []
  | .level2 f c =>
    match w.heap[c]? with
    | none => .sent []
    | some l => if l.level ≤ a.lvl then afterO w a f else .sent []
  | .outs f => afterO w a f
  | .flag f =>
    match w.heap[f.r]? with
    | none => .sent []
    | some l => dispatch l (writeFrame :: f.stack) a.now f.ctx f.name f.skip a.lvl a.fmt a.args
  | .flag2 f =>
    match w.heap[f.r]? with
    | none => .sent []
    | some l =>
      match (if l.callerInfoFlag = ciFileFlag then (getCallerInfo (callerFrame :: writeFrame :: f.stack) (LogPc.event a f) false).map (·.2)
        else some (LogPc.event a f)) with
      | none => .panic
      | some evt => .sent (l.outputs.map fun o => ⟨o, evt⟩)
  | .send r evt =>
    match w.heap[r]? with
    | none => .sent []
    | some l => .sent (l.outputs.map fun o => ⟨o, evt⟩)
  | .done o => o

/-- The loggers a log call looks at. -/
def LogPc.Within (P : Nat → Prop) : LogPc V → Prop
  | .printf _ r _ => P r
  | .level f c => P f.r ∧ ∀ x, c = some x → P x
  | .level2 f c => P f.r ∧ P c
  | .outs f | .flag f | .flag2 f => P f.r
  | .send r _ => P r
  | .done _ => True

theorem capture_within {P : Nat → Prop} (a : LogArgs V) (f : WriteCall V) (b : Bool) (h : P f.r) : (LogPc.capture a f b).Within P := by
  unfold LogPc.capture
  split
  · trivial
  · exact h

theorem step_within {w : World} {P : Nat → Prop} (hw : Well w P) (a : LogArgs V) {p : LogPc V} (h : p.Within P) :
    (p.step w a).Within P := by
  cases p with
  | printf stack r ctx =>
    simp only [LogPc.step]
    split
    · trivial
    · exact ⟨h, fun x hx => by injection hx with hx; subst hx; exact h⟩
  | level f c =>
    cases c with
    | none => simp only [LogPc.step]; split <;> first | exact h.1 | trivial
    | some c =>
      obtain ⟨l, h1, h2⟩ := hw c (h.2 c rfl)
      simp only [LogPc.step, h1]
      split
      · exact ⟨h.1, h.2 c rfl⟩
      · exact ⟨h.1, fun x hx => (h2 x hx).2⟩
  | level2 f c =>
    simp only [LogPc.step]
    split
    · trivial
    · split <;> first | exact h.1 | trivial
  | outs f =>
    obtain ⟨l, h1, h2⟩ := hw f.r h
    simp only [LogPc.step, h1]
    split
    · split
      · rename_i p hp
        exact ⟨(h2 p hp).2, fun x hx => by injection hx with hx; subst hx; exact (h2 p hp).2⟩
      · exact h
    · exact h
  | flag f =>
    simp only [LogPc.step]
    split
    · trivial
    · split
      · exact capture_within _ _ _ h
      · exact h
  | flag2 f =>
    simp only [LogPc.step]
    split
    · trivial
    · split
      · exact capture_within _ _ _ h
      · exact h
  | send r evt =>
    simp only [LogPc.step]
    split <;> trivial
  | done o => trivial

theorem rest_capture (w : World) (a : LogArgs V) (f : WriteCall V) (b : Bool) {l : Logger} (hl : w.heap[f.r]? = some l) :
    restO w a (LogPc.capture a f b) =
      match (getCallerInfo (callerFrame :: writeFrame :: f.stack) (LogPc.event a f) b).map (·.2) with
      | none => .panic
      | some evt => .sent (l.outputs.map fun o => ⟨o, evt⟩) := by
  unfold LogPc.capture
  cases getCallerInfo (callerFrame :: writeFrame :: f.stack) (LogPc.event a f) b with
  | none => rfl
  | some p => simp only [restO, hl, Option.map_some]

/-- A statement does not change what the log call would send if nobody interfered. -/
theorem rest_step {w : World} {P : Nat → Prop} (hw : Well w P) (a : LogArgs V) {p : LogPc V} (h : p.Within P) :
    restO w a (p.step w a) = restO w a p := by
  cases p with
  | printf stack r ctx =>
    obtain ⟨l, h1, h2⟩ := hw r h
    simp only [LogPc.step, h1, restO, walkFrom, World.printf]
    exact (write_rec hw a ⟨printfFrame :: stack, r, ctx, l.name, l.callerSkip⟩ h (heap_lt h1)).symm
  | level f c =>
    cases c with
    | none =>
      by_cases hl : Level.Off ≤ a.lvl <;> simp only [LogPc.step, restO, walkFrom, hl, if_true, if_false]
    | some c =>
      obtain ⟨l, h1, h2⟩ := hw c (h.2 c rfl)
      simp only [LogPc.step, h1, restO, walkFrom, level_rec hw (h.2 c rfl) h1]
      by_cases hl : l.level = Level.Uninitialized
      · simp only [hl, ne_eq, not_true_eq_false, if_false]
        rfl
      · simp only [hl, ne_eq, not_false_eq_true, if_true, restO, h1]
  | level2 f c =>
    obtain ⟨l, h1, h2⟩ := hw c h.2
    by_cases hl : l.level ≤ a.lvl <;> simp only [LogPc.step, h1, restO, hl, if_true, if_false]
  | outs f =>
    obtain ⟨l, h1, h2⟩ := hw f.r h
    by_cases ho : l.outputs = []
    · simp only [LogPc.step, h1, restO, afterO, ho, if_true]
      cases hp : l.parent with
      | none => simp only [restO, h1]
      | some p =>
        simp only [restO, walkFrom]
        exact (write_rec hw a ⟨writeFrame :: f.stack, p, [], f.name, f.skip + 1⟩ (h2 p hp).2 (Nat.lt_succ_self p)).symm
    · simp only [LogPc.step, h1, restO, afterO, ho, if_false]
  | flag f =>
    obtain ⟨l, h1, h2⟩ := hw f.r h
    by_cases hf : l.callerInfoFlag = ciFuncFlag
    · have e : LogPc.step w a (.flag f) = LogPc.capture a f true := by simp only [LogPc.step, h1, hf, if_true]
      rw [e, rest_capture w a f true h1]
      simp only [restO, h1, dispatch, hf, if_true]
      rfl
    · simp only [LogPc.step, hf, if_false, restO, h1, dispatch]
      rfl
  | flag2 f =>
    obtain ⟨l, h1, h2⟩ := hw f.r h
    by_cases hf : l.callerInfoFlag = ciFileFlag
    · have e : LogPc.step w a (.flag2 f) = LogPc.capture a f false := by simp only [LogPc.step, h1, hf, if_true]
      rw [e, rest_capture w a f false h1]
      simp only [restO, h1, hf, if_true]
    · simp only [LogPc.step, hf, if_false, restO, h1]
  | send r evt =>
    obtain ⟨l, h1, h2⟩ := hw r h
    simp only [LogPc.step, h1, restO]
  | done o => rfl

/-! ## Nobody touches the loggers on the way -/

theorem step_congr {w w' : World} {P : Nat → Prop} (h : ∀ c, P c → w'.heap[c]? = w.heap[c]?) (a : LogArgs V) {p : LogPc V}
    (hp : p.Within P) : p.step w' a = p.step w a := by
  cases p with
  | printf stack r ctx => simp only [LogPc.step, h r hp]
  | level f c =>
    cases c with
    | none => rfl
    | some c => simp only [LogPc.step, h c (hp.2 c rfl)]
  | level2 f c => simp only [LogPc.step, h c hp.2]
  | outs f => simp only [LogPc.step, h f.r hp]
  | flag f => simp only [LogPc.step, h f.r hp]
  | flag2 f => simp only [LogPc.step, h f.r hp]
  | send r evt => simp only [LogPc.step, h r hp]
  | done o => rfl

theorem prefix_snoc {α : Type} {l : List α} {x : α} {t : List α} (h : l ++ [x] <+: t) : l <+: t :=
  (List.prefix_append l [x]).trans h

theorem exec_within {a : LogArgs V} {w0 w : World} {p0 p : LogPc V} {k : Nat} {ms : List Move} {P : Nat → Prop}
    (hw : Well w0 P) (h0 : p0.Within P) (hx : LogExec a w0 p0 k ms w p) : p.Within P := by
  induction hx with
  | refl => exact h0
  | own hx ih =>
    refine step_within ?_ a ih
    rw [logExec_world hx]
    exact hw.keeps (runMoves_keeps _ _)
  | other _ _ ih => exact ih

theorem exec_same {a : LogArgs V} {w0 w : World} {p0 p : LogPc V} {k : Nat} {ms total : List Move} {P : Nat → Prop}
    (hw : Well w0 P) (h0 : p0.Within P) (hx : LogExec a w0 p0 k ms w p) (ht : ms <+: total)
    (hsame : ∀ pre, pre <+: total → ∀ c, P c → (runMoves w0 pre).heap[c]? = w0.heap[c]?) :
    restO w0 a p = restO w0 a p0 := by
  induction hx with
  | refl => rfl
  | own hx ih =>
    have hin := exec_within hw h0 hx
    have hwd := logExec_world hx
    rw [step_congr (w := w0) (fun c hc => by rw [hwd]; exact hsame _ ht c hc) a hin, rest_step hw a hin]
    exact ih ht
  | other m _ ih => exact ih (prefix_snoc ht)

/-! ## Levels stay, and loggers with outputs keep some -/

/-- Levels stay, and a logger with outputs has some and a logger without has none. -/
def Agree (P : Nat → Prop) (w w' : World) : Prop :=
  ∀ c, P c → ∀ l l', w.heap[c]? = some l → w'.heap[c]? = some l' →
    l'.level = l.level ∧ (l'.outputs = [] ↔ l.outputs = []) ∧ l'.parent = l.parent

theorem Agree.symm {P : Nat → Prop} {w w' : World} (h : Agree P w w') : Agree P w' w := fun c hc l l' e e' =>
  ⟨(h c hc l' l e' e).1.symm, (h c hc l' l e' e).2.1.symm, (h c hc l' l e' e).2.2.symm⟩

theorem Agree.trans {P : Nat → Prop} {a b c : World} (hb : Well b P) (h : Agree P a b) (h' : Agree P b c) : Agree P a c := by
  intro x hx l l' e e'
  obtain ⟨m, hm, _⟩ := hb x hx
  obtain ⟨a1, a2, a3⟩ := h x hx l m e hm
  obtain ⟨b1, b2, b3⟩ := h' x hx m l' hm e'
  exact ⟨b1.trans a1, b2.trans a2, b3.trans a3⟩

/-- The context holds no foreign value under the library's key. -/
def Clean (ctx : Ctx V) : Prop := ∀ v, ctx.value callerInfoKey ≠ .user v

theorem clean_nil : Clean ([] : Ctx V) := by
  intro v h; rw [empty_nil] at h; simp at h

/-- The outputs something is sent to. -/
def outsOf (o : Outcome V) : List Nat := o.deliveries.map (·.out)

theorem dispatch_outs {l : Logger} {stack : List Frame} {now : Nat} {ctx : Ctx V} {name : Str} {skip : Int}
    {lvl : Level} {fmt : Str} {args : List V} (h : Clean ctx) :
    outsOf (dispatch l stack now ctx name skip lvl fmt args) = l.outputs := by
  obtain ⟨evt, he⟩ := dispatch_sent (l := l) (stack := stack) (now := now) (name := name) (skip := skip) (lvl := lvl) (fmt := fmt) (args := args)
    (show ¬ ∃ v, ctx.value callerInfoKey = .user v from fun ⟨v, hv⟩ => h v hv)
  rw [he]; exact map_out _ _

theorem write_outs (w : World) (now fuel : Nat) (stack stack' : List Frame) (r : Nat) (ctx ctx' : Ctx V) (h : Clean ctx) (h' : Clean ctx')
    (name name' : Str) (skip skip' : Int) (lvl : Level) (fmt : Str) (args : List V) :
    outsOf (w.write now fuel stack r ctx name skip lvl fmt args) = outsOf (w.write now fuel stack' r ctx' name' skip' lvl fmt args) := by
  induction fuel generalizing stack stack' r ctx ctx' skip skip' with
  | zero => rfl
  | succ f ih =>
    simp only [write]
    cases w.heap[r]? with
    | none => rfl
    | some l =>
      dsimp only
      by_cases he : w.levelEnabled r lvl = false
      · simp only [he, if_true]
      · simp only [he, if_false]
        by_cases ho : l.outputs = []
        · simp only [ho, if_true]
          cases l.parent with
          | none => exact (dispatch_outs h).trans (dispatch_outs h').symm
          | some p => exact ih _ _ _ _ _ clean_nil clean_nil _ _
        · simp only [ho, if_false]
          exact (dispatch_outs h).trans (dispatch_outs h').symm

theorem after_outs (w : World) (a : LogArgs V) (f f' : WriteCall V) (hr : f.r = f'.r) (h : Clean f.ctx) (h' : Clean f'.ctx) :
    outsOf (afterO w a f) = outsOf (afterO w a f') := by
  simp only [afterO, hr]
  cases w.heap[f'.r]? with
  | none => rfl
  | some l =>
    dsimp only
    by_cases ho : l.outputs = []
    · simp only [ho, if_true]
      cases l.parent with
      | none => exact (dispatch_outs h).trans (dispatch_outs h').symm
      | some p => exact write_outs _ _ _ _ _ _ _ _ clean_nil clean_nil _ _ _ _ _ _ _
    · simp only [ho, if_false]
      exact (dispatch_outs h).trans (dispatch_outs h').symm

/-- The contexts of a log call are clean. -/
def LogPc.CleanPc : LogPc V → Prop
  | .printf _ _ ctx => Clean ctx
  | .level f _ | .level2 f _ | .outs f | .flag f | .flag2 f => Clean f.ctx
  | .send _ _ | .done _ => True

theorem capture_clean (a : LogArgs V) (f : WriteCall V) (b : Bool) (h : Clean f.ctx) :
    ∃ evt, LogPc.capture a f b = .send f.r evt := by
  unfold LogPc.capture
  cases hg : getCallerInfo (callerFrame :: writeFrame :: f.stack) (LogPc.event a f) b with
  | some p => exact ⟨p.2, rfl⟩
  | none =>
    exfalso
    unfold getCallerInfo at hg
    simp only [LogPc.event] at hg
    split at hg
    · rename_i v hv; exact h v hv
    · simp at hg
    · simp at hg

theorem step_clean (w : World) (a : LogArgs V) {p : LogPc V} (h : p.CleanPc) : (p.step w a).CleanPc := by
  cases p with
  | printf stack r ctx =>
    simp only [LogPc.step]
    split
    · trivial
    · exact h
  | level f c =>
    cases c with
    | none => simp only [LogPc.step]; split <;> first | exact h | trivial
    | some c =>
      simp only [LogPc.step]
      split
      · split <;> first | exact h | trivial
      · split <;> exact h
  | level2 f c =>
    simp only [LogPc.step]
    split
    · trivial
    · split <;> first | exact h | trivial
  | outs f =>
    simp only [LogPc.step]
    split
    · trivial
    · split
      · split
        · exact clean_nil
        · exact h
      · exact h
  | flag f =>
    simp only [LogPc.step]
    split
    · trivial
    · split
      · obtain ⟨evt, e⟩ := capture_clean a f true h
        rw [e]; trivial
      · exact h
  | flag2 f =>
    simp only [LogPc.step]
    split
    · trivial
    · split
      · obtain ⟨evt, e⟩ := capture_clean a f false h
        rw [e]; trivial
      · trivial
  | send r evt =>
    simp only [LogPc.step]
    split <;> trivial
  | done o => trivial

theorem flag2_outs (w : World) (a : LogArgs V) (f : WriteCall V) (h : Clean f.ctx) {l : Logger} (hl : w.heap[f.r]? = some l) :
    outsOf (restO w a (.flag2 f)) = l.outputs := by
  by_cases hf : l.callerInfoFlag = ciFileFlag
  · obtain ⟨evt, e⟩ := capture_clean a f false h
    have e2 := rest_capture w a f false hl
    simp only [restO, hl, hf, if_true]
    rw [← e2, e]
    simp only [restO, hl]
    exact map_out _ _
  · simp only [restO, hl, hf, if_false]
    exact map_out _ _

/-- A statement run in another world of the execution does not change where the message would go. -/
theorem outs_step {w w' : World} {P : Nat → Prop} (hw : Well w P) (hw' : Well w' P) (ha : Agree P w w') (a : LogArgs V) {p : LogPc V}
    (h : p.Within P) (hc : p.CleanPc) (hs : ∀ r evt, p ≠ .send r evt) :
    outsOf (restO w a (p.step w' a)) = outsOf (restO w a p) := by
  cases p with
  | printf stack r ctx =>
    obtain ⟨l, h1, h2⟩ := hw r h
    obtain ⟨l', h1', h2'⟩ := hw' r h
    rw [← rest_step hw a h]
    simp only [LogPc.step, h1, h1', restO]
    by_cases hl : walkFrom w (some r) ≤ a.lvl
    · simp only [hl, if_true]
      exact after_outs _ _ _ _ rfl hc hc
    · simp only [hl, if_false]
  | level f c =>
    rw [← rest_step hw a h]
    cases c with
    | none => rfl
    | some c =>
      obtain ⟨l, h1, h2⟩ := hw c (h.2 c rfl)
      obtain ⟨l', h1', h2'⟩ := hw' c (h.2 c rfl)
      obtain ⟨x, y, z⟩ := ha c (h.2 c rfl) l l' h1 h1'
      simp only [LogPc.step, h1, h1', x, z]
  | level2 f c =>
    rw [← rest_step hw a h]
    obtain ⟨l, h1, h2⟩ := hw c h.2
    obtain ⟨l', h1', h2'⟩ := hw' c h.2
    obtain ⟨x, y, z⟩ := ha c h.2 l l' h1 h1'
    simp only [LogPc.step, h1, h1', x]
  | outs f =>
    rw [← rest_step hw a h]
    obtain ⟨l, h1, h2⟩ := hw f.r h
    obtain ⟨l', h1', h2'⟩ := hw' f.r h
    obtain ⟨x, y, z⟩ := ha f.r h l l' h1 h1'
    simp only [LogPc.step, h1, h1', y, z]
  | flag f =>
    obtain ⟨l, h1, h2⟩ := hw f.r h
    obtain ⟨l', h1', h2'⟩ := hw' f.r h
    have e : outsOf (restO w a (.flag f)) = l.outputs := by
      simp only [restO, h1]; exact dispatch_outs hc
    rw [e]
    by_cases hf : l'.callerInfoFlag = ciFuncFlag
    · obtain ⟨evt, e2⟩ := capture_clean a f true hc
      have e3 : LogPc.step w' a (.flag f) = .send f.r evt := by simp only [LogPc.step, h1', hf, if_true, e2]
      rw [e3]
      simp only [restO, h1]
      exact map_out _ _
    · have e3 : LogPc.step w' a (.flag f) = .flag2 f := by simp only [LogPc.step, h1', hf, if_false]
      rw [e3]
      exact flag2_outs w a f hc h1
  | flag2 f =>
    obtain ⟨l, h1, h2⟩ := hw f.r h
    obtain ⟨l', h1', h2'⟩ := hw' f.r h
    rw [flag2_outs w a f hc h1]
    by_cases hf : l'.callerInfoFlag = ciFileFlag
    · obtain ⟨evt, e2⟩ := capture_clean a f false hc
      have e3 : LogPc.step w' a (.flag2 f) = .send f.r evt := by simp only [LogPc.step, h1', hf, if_true, e2]
      rw [e3]
      simp only [restO, h1]
      exact map_out _ _
    · have e3 : LogPc.step w' a (.flag2 f) = .send f.r (LogPc.event a f) := by simp only [LogPc.step, h1', hf, if_false]
      rw [e3]
      simp only [restO, h1]
      exact map_out _ _
  | send r evt => exact absurd rfl (hs r evt)
  | done o => rfl

theorem exec_clean {a : LogArgs V} {w0 w : World} {p0 p : LogPc V} {k : Nat} {ms : List Move}
    (h0 : p0.CleanPc) (hx : LogExec a w0 p0 k ms w p) : p.CleanPc := by
  induction hx with
  | refl => exact h0
  | own hx ih => exact step_clean _ a ih
  | other _ _ ih => exact ih

theorem exec_agree {a : LogArgs V} {w0 w : World} {p0 p : LogPc V} {k : Nat} {ms total : List Move} {P : Nat → Prop}
    (hw : Well w0 P) (h0 : p0.Within P) (hc : p0.CleanPc) (hx : LogExec a w0 p0 k ms w p) (ht : ms <+: total)
    (hag : ∀ pre, pre <+: total → Agree P w0 (runMoves w0 pre)) (hp0 : ∀ o, p0 ≠ .done o) :
    ((∀ o, p ≠ .done o) ∧ ∀ pre, pre <+: total → outsOf (restO (runMoves w0 pre) a p) = outsOf (restO (runMoves w0 pre) a p0)) ∨
    (∃ o pre, p = .done o ∧ pre <+: total ∧ outsOf o = outsOf (restO (runMoves w0 pre) a p0)) := by
  induction hx with
  | refl => exact .inl ⟨hp0, fun _ _ => rfl⟩
  | @own k ms w p hx ih =>
    have hin := exec_within hw h0 hx
    have hcl := exec_clean hc hx
    have hwd := logExec_world hx
    rcases ih ht with ⟨hnd, heq⟩ | ⟨o, pre, rfl, h1, h2⟩
    · have hwell : ∀ pre, Well (runMoves w0 pre) P := fun pre => hw.keeps (runMoves_keeps _ _)
      by_cases hs : ∃ r evt, p = .send r evt
      · obtain ⟨r, evt, rfl⟩ := hs
        obtain ⟨l, h1, _⟩ := hwell ms r hin
        have e := rest_step (hwell ms) a hin
        rw [hwd]
        have e2 : LogPc.step (runMoves w0 ms) a (.send r evt) = .done (.sent (l.outputs.map fun o => ⟨o, evt⟩)) := by simp only [LogPc.step, h1]
        rw [e2] at e
        refine .inr ⟨_, ms, e2, ht, ?_⟩
        rw [← heq ms ht, ← e]
        rfl
      · have hstep : ∀ pre, pre <+: total → outsOf (restO (runMoves w0 pre) a (p.step w a)) = outsOf (restO (runMoves w0 pre) a p0) := by
          intro pre hpre
          rw [← heq pre hpre, hwd]
          refine outs_step (hwell pre) (hwell ms) ?_ a hin hcl (fun r evt h => hs ⟨r, evt, h⟩)
          exact (hag pre hpre).symm.trans hw (hag ms ht)
        by_cases hd : ∃ o, p.step w a = .done o
        · obtain ⟨o, ho⟩ := hd
          refine .inr ⟨o, ms, ho, ht, ?_⟩
          rw [← hstep ms ht, ho]
          rfl
        · exact .inl ⟨fun o ho => hd ⟨o, ho⟩, hstep⟩
    · exact .inr ⟨o, pre, rfl, h1, h2⟩
  | other m _ ih => exact ih (prefix_snoc ht)

/-! ## What is sent, whatever happens -/

theorem callerInfo_keeps {stack : List Frame} {e evt : Event V} {b : Bool} {ci : CallerInfo}
    (h : getCallerInfo stack e b = some (ci, evt)) :
    evt.name = e.name ∧ evt.level = e.level ∧ evt.format = e.format ∧ evt.arguments = e.arguments ∧ evt.time = e.time := by
  unfold getCallerInfo at h
  simp only at h
  split at h
  · simp at h
  · injection h with h; injection h with _ h; subst h; exact ⟨rfl, rfl, rfl, rfl, rfl⟩
  · injection h with h; injection h with _ h; subst h; exact ⟨rfl, rfl, rfl, rfl, rfl⟩

/-- The event says what the call said. -/
def Says (a : LogArgs V) (n : Str) (evt : Event V) : Prop :=
  evt.name = n ∧ evt.level = a.lvl ∧ evt.format = a.fmt ∧ evt.arguments = a.args ∧ evt.time = a.now

/-- What a log call has ready to send says what the call said. -/
def LogPc.SaysPc (a : LogArgs V) (n : Str) (r : Nat) : LogPc V → Prop
  | .printf _ r' _ => r' = r
  | .level f _ | .level2 f _ | .outs f | .flag f | .flag2 f => f.name = n
  | .send _ evt => Says a n evt
  | .done _ => True

theorem capture_says (a : LogArgs V) (f : WriteCall V) (b : Bool) {n : Str} (h : f.name = n) (r : Nat) : (LogPc.capture a f b).SaysPc a n r := by
  unfold LogPc.capture
  cases hg : getCallerInfo (callerFrame :: writeFrame :: f.stack) (LogPc.event a f) b with
  | none => trivial
  | some p =>
    obtain ⟨ci, evt⟩ := p
    obtain ⟨h1, h2⟩ := callerInfo_keeps hg
    exact ⟨h1.trans h, h2⟩

theorem step_says {w : World} (a : LogArgs V) {n : Str} {r : Nat} (hr : ∀ l, w.heap[r]? = some l → l.name = n) {p : LogPc V}
    (h : p.SaysPc a n r) : (p.step w a).SaysPc a n r := by
  cases p with
  | printf stack r' ctx =>
    obtain rfl : r' = r := h
    cases e : w.heap[r']? with
    | none => simp only [LogPc.step, e]; trivial
    | some l => simp only [LogPc.step, e]; exact hr l e
  | level f c =>
    cases c with
    | none => simp only [LogPc.step]; split <;> first | exact h | trivial
    | some c =>
      simp only [LogPc.step]
      split
      · split <;> first | exact h | trivial
      · split <;> exact h
  | level2 f c =>
    simp only [LogPc.step]
    split
    · trivial
    · split <;> first | exact h | trivial
  | outs f =>
    simp only [LogPc.step]
    split
    · trivial
    · split
      · split <;> exact h
      · exact h
  | flag f =>
    simp only [LogPc.step]
    split
    · trivial
    · split
      · exact capture_says a f true h r
      · exact h
  | flag2 f =>
    simp only [LogPc.step]
    split
    · trivial
    · split
      · exact capture_says a f false h r
      · exact ⟨h, rfl, rfl, rfl, rfl⟩
  | send r evt =>
    simp only [LogPc.step]
    split <;> trivial
  | done o => trivial

theorem step_done {w : World} (a : LogArgs V) {p : LogPc V} {o : Outcome V} (h : p.step w a = .done o) :
    o.deliveries = [] ∨ p = .done o ∨ ∃ r evt l, p = .send r evt ∧ w.heap[r]? = some l ∧ o = .sent (l.outputs.map fun x => ⟨x, evt⟩) := by
  have hcap : ∀ (f : WriteCall V) b, LogPc.capture a f b = .done o → o.deliveries = [] := by
    intro f b h
    unfold LogPc.capture at h
    split at h
    · injection h with h; subst h; rfl
    · simp at h
  cases p with
  | printf stack r ctx =>
    simp only [LogPc.step] at h
    split at h
    · injection h with h; subst h; exact .inl rfl
    · simp at h
  | level f c =>
    cases c with
    | none =>
      simp only [LogPc.step] at h
      split at h
      · simp at h
      · injection h with h; subst h; exact .inl rfl
    | some c =>
      simp only [LogPc.step] at h
      split at h
      · split at h
        · simp at h
        · injection h with h; subst h; exact .inl rfl
      · split at h <;> simp at h
  | level2 f c =>
    simp only [LogPc.step] at h
    split at h
    · injection h with h; subst h; exact .inl rfl
    · split at h
      · simp at h
      · injection h with h; subst h; exact .inl rfl
  | outs f =>
    simp only [LogPc.step] at h
    split at h
    · injection h with h; subst h; exact .inl rfl
    · split at h
      · split at h <;> simp at h
      · simp at h
  | flag f =>
    simp only [LogPc.step] at h
    split at h
    · injection h with h; subst h; exact .inl rfl
    · split at h
      · exact .inl (hcap _ _ h)
      · simp at h
  | flag2 f =>
    simp only [LogPc.step] at h
    split at h
    · injection h with h; subst h; exact .inl rfl
    · split at h
      · exact .inl (hcap _ _ h)
      · simp at h
  | send r evt =>
    simp only [LogPc.step] at h
    split at h
    · injection h with h; subst h; exact .inl rfl
    · rename_i l e
      injection h with h; subst h
      exact .inr (.inr ⟨r, evt, l, rfl, e, rfl⟩)
  | done o' => exact .inr (.inl h)

theorem exec_says {a : LogArgs V} {w0 w : World} {stack : List Frame} {r : Nat} {ctx : Ctx V} {p : LogPc V} {k : Nat} {ms : List Move}
    {P : Nat → Prop} (hw : Well w0 P) (hr : P r) {l0 : Logger} (hl0 : w0.heap[r]? = some l0)
    (hx : LogExec a w0 (.printf stack r ctx) k ms w p) :
    p.SaysPc a l0.name r ∧
    ∀ o, p = .done o → o.deliveries = [] ∨
      ∃ pre c l evt, pre <+: ms ∧ P c ∧ (runMoves w0 pre).heap[c]? = some l ∧ o = .sent (l.outputs.map fun x => ⟨x, evt⟩) ∧ Says a l0.name evt := by
  induction hx with
  | refl => exact ⟨rfl, fun o h => by simp at h⟩
  | other m hx ih =>
    refine ⟨ih.1, fun o ho => ?_⟩
    rcases ih.2 o ho with h | ⟨pre, c, l, evt, h1, h2⟩
    · exact .inl h
    · exact .inr ⟨pre, c, l, evt, h1.trans (List.prefix_append _ _), h2⟩
  | @own k ms w p hx ih =>
    have hin := exec_within hw (p0 := .printf stack r ctx) hr hx
    have hwd := logExec_world hx
    refine ⟨step_says a ?_ ih.1, fun o ho => ?_⟩
    · intro l hl
      obtain ⟨l', e2, e3, _⟩ := runMoves_keeps w0 ms r l0 hl0
      rw [← hwd, hl] at e2; injection e2 with e2; subst e2
      exact e3
    · rcases step_done a ho with h | h | ⟨c, evt, l, rfl, h1, h2⟩
      · exact .inl h
      · exact ih.2 o h
      · exact .inr ⟨ms, c, l, evt, List.prefix_refl _, hin, hwd ▸ h1, h2, ih.1⟩

/-! ## A log call ends -/

/-- How many statements a log call has still to run at most; `K` exceeds the numbers of the loggers. -/
def LogPc.todo (K : Nat) : LogPc V → Nat
  | .printf _ r _ => r * K + r + 7
  | .level f (some c) => f.r * K + c + 6
  | .level f none => f.r * K + 5
  | .level2 f _ => f.r * K + 5
  | .outs f => f.r * K + 4
  | .flag f => f.r * K + 3
  | .flag2 f => f.r * K + 2
  | .send _ _ => 1
  | .done _ => 0

theorem step_todo {w : World} {P : Nat → Prop} (hw : Well w P) {K : Nat} (hK : ∀ c, P c → c + 3 ≤ K) (a : LogArgs V) {p : LogPc V}
    (h : p.Within P) (hd : ∀ o, p ≠ .done o) : (p.step w a).todo K < p.todo K := by
  have hcap : ∀ (f : WriteCall V) b, (LogPc.capture a f b).todo K ≤ 1 := by
    intro f b
    unfold LogPc.capture
    split <;> simp [LogPc.todo]
  cases p with
  | printf stack r ctx =>
    obtain ⟨l, h1, h2⟩ := hw r h
    simp only [LogPc.step, h1, LogPc.todo]
    omega
  | level f c =>
    cases c with
    | none =>
      simp only [LogPc.step]
      split <;> simp only [LogPc.todo] <;> omega
    | some c =>
      obtain ⟨l, h1, h2⟩ := hw c (h.2 c rfl)
      simp only [LogPc.step, h1]
      split
      · simp only [LogPc.todo]; omega
      · cases hp : l.parent with
        | none => simp only [LogPc.todo]; omega
        | some p =>
          have := (h2 p hp).1
          simp only [LogPc.todo]; omega
  | level2 f c =>
    obtain ⟨l, h1, h2⟩ := hw c h.2
    simp only [LogPc.step, h1]
    split <;> simp only [LogPc.todo] <;> omega
  | outs f =>
    obtain ⟨l, h1, h2⟩ := hw f.r h
    simp only [LogPc.step, h1]
    split
    · split
      · rename_i p hp
        have a1 := (h2 p hp).1
        have a2 := hK p (h2 p hp).2
        have a3 : (p + 1) * K ≤ f.r * K := Nat.mul_le_mul_right K a1
        rw [Nat.succ_mul] at a3
        simp only [LogPc.todo]; omega
      · simp only [LogPc.todo]; omega
    · simp only [LogPc.todo]; omega
  | flag f =>
    obtain ⟨l, h1, h2⟩ := hw f.r h
    simp only [LogPc.step, h1]
    split
    · have := hcap f true
      refine Nat.lt_of_le_of_lt this ?_
      simp only [LogPc.todo]; omega
    · simp only [LogPc.todo]; omega
  | flag2 f =>
    obtain ⟨l, h1, h2⟩ := hw f.r h
    simp only [LogPc.step, h1]
    split
    · have := hcap f false
      refine Nat.lt_of_le_of_lt this ?_
      simp only [LogPc.todo]; omega
    · simp only [LogPc.todo]; omega
  | send r evt =>
    simp only [LogPc.step]
    split <;> simp [LogPc.todo]
  | done o => exact absurd rfl (hd o)

theorem exec_todo {a : LogArgs V} {w0 w : World} {p0 p : LogPc V} {k : Nat} {ms : List Move} {P : Nat → Prop}
    (hw : Well w0 P) (h0 : p0.Within P) {K : Nat} (hK : ∀ c, P c → c + 3 ≤ K) (hx : LogExec a w0 p0 k ms w p) :
    (∃ o, p = .done o) ∨ p.todo K + k ≤ p0.todo K := by
  induction hx with
  | refl => exact .inr (Nat.le_refl _)
  | other _ _ ih => exact ih
  | @own k ms w p hx ih =>
    rcases ih with ⟨o, rfl⟩ | h
    · exact .inl ⟨o, rfl⟩
    · by_cases hd : ∃ o, p = .done o
      · obtain ⟨o, rfl⟩ := hd; exact .inl ⟨o, rfl⟩
      · have := step_todo (w := w) (by rw [logExec_world hx]; exact hw.keeps (runMoves_keeps _ _)) hK a (exec_within hw h0 hx)
          (fun o ho => hd ⟨o, ho⟩)
        right; omega

theorem onWay_le {w : World} (inv : WInv w) {n : Str} {r : Nat} (hn : Map.get w.loggers n = some r) {c : Nat} (h : OnWay w r c) : c ≤ r := by
  induction h with
  | refl => exact Nat.le_refl _
  | up h1 h2 h3 ih =>
    obtain ⟨l, e, f⟩ := well_onWay inv hn _ h1
    rw [h2] at e; injection e with e; subst e
    have := (f _ h3).1
    omega

end Log4g
