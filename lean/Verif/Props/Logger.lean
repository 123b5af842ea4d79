import Verif.Lemmas.Printf
import Verif.Lemmas.Own
import Verif.Props.Demo

/-! # Properties of loggers: C03–C09, C11–C16

`r` is the logger `GetLogger(n)` answered: `Map.get w.loggers n = some r`.  `now` is the clock, `stack`
the call stack below the library, with the function that made the call on top. -/

namespace Log4g
open Spec World
variable {V : Type}

/-! ## C03 -/

/-- C03: the gate is a threshold, for `LevelEnabled` and for the methods. -/
theorem C03_threshold {w : World} (hw : Reach w) {n : Str} {r : Nat} (hn : Map.get w.loggers n = some r) :
    (∀ l, w.levelEnabled r l = true ↔ w.level r ≤ l) ∧
    (∀ l l', l ≤ l' → w.levelEnabled r l = true → w.levelEnabled r l' = true) ∧
    (w.traceEnabled r = w.levelEnabled r 2 ∧ w.debugEnabled r = w.levelEnabled r 3 ∧
     w.infoEnabled r = w.levelEnabled r 4 ∧ w.warnEnabled r = w.levelEnabled r 5 ∧
     w.errorEnabled r = w.levelEnabled r 6 ∧ w.criticalEnabled r = w.levelEnabled r 7) ∧
    (∀ (now : Nat) (stack : List Frame) (ctx : Ctx V) (lvl : Level) (fmt : Str) (args : List V),
      w.levelEnabled r lvl = false → w.printf now stack r ctx lvl fmt args = .sent []) ∧
    (∀ (now : Nat) (stack : List Frame) (ctx : Ctx V) (lvl : Level) (fmt : Str) (args : List V) (ops : List Nat),
      (∀ v, ctx.value callerInfoKey ≠ .user v) → HasOutputs w n ops → ops ≠ [] →
      w.levelEnabled r lvl = true → (w.printf now stack r ctx lvl fmt args).deliveries.map (·.out) = ops) ∧
    (∀ (now : Nat) (stack : List Frame) (ctx : Ctx V) (fmt : Str) (args : List V),
      ∃ st, w.call now stack r ctx (.tracef fmt) args = w.printf now st r ctx 2 fmt args ∧
        w.call now stack r ctx .trace args = w.printf now st r ctx 2 [] args ∧
        w.call now stack r ctx (.debugf fmt) args = w.printf now st r ctx 3 fmt args ∧
        w.call now stack r ctx .debug args = w.printf now st r ctx 3 [] args ∧
        w.call now stack r ctx (.infof fmt) args = w.printf now st r ctx 4 fmt args ∧
        w.call now stack r ctx .info args = w.printf now st r ctx 4 [] args ∧
        w.call now stack r ctx (.warnf fmt) args = w.printf now st r ctx 5 fmt args ∧
        w.call now stack r ctx .warn args = w.printf now st r ctx 5 [] args ∧
        w.call now stack r ctx (.errorf fmt) args = w.printf now st r ctx 6 fmt args ∧
        w.call now stack r ctx .error args = w.printf now st r ctx 6 [] args ∧
        w.call now stack r ctx (.criticalf fmt) args = w.printf now st r ctx 7 fmt args ∧
        w.call now stack r ctx .critical args = w.printf now st r ctx 7 [] args) := by
  have inv := reach_inv hw
  have hiff : ∀ l, w.levelEnabled r l = true ↔ w.level r ≤ l := by intro l; simp [levelEnabled]
  refine ⟨hiff, ?_, ⟨rfl, rfl, rfl, rfl, rfl, rfl⟩, ?_, ?_, ?_⟩
  · intro l l' h h'
    rw [hiff] at *
    exact Int.le_trans h' h
  · intro now stack ctx lvl fmt args hd
    exact printf_disabled inv now hn stack ctx fmt args hd
  · intro now stack ctx lvl fmt args ops hctx ho hne hen
    obtain ⟨names, hp⟩ := path_exists n
    obtain ⟨post, hN⟩ := nearest_own hn hp ho hne hen
    obtain ⟨l0, l, _, _, hlo, e⟩ := printf_at inv now hp hn stack ctx fmt args hN
    obtain ⟨evt, hev⟩ := dispatch_sent (l := l) (stack := List.replicate (([] : List Str).length + 1) writeFrame ++ printfFrame :: stack)
        (now := now) (name := n) (skip := l0.callerSkip + ([] : List Str).length) (lvl := lvl) (fmt := fmt)
        (args := args) (ite_user hctx (([] : List Str) = []))
    rw [e, hev, Outcome.deliveries, map_out, hlo]
  · intro now stack ctx fmt args
    exact ⟨methodFrame :: stack, rfl, rfl, rfl, rfl, rfl, rfl, rfl, rfl, rfl, rfl, rfl, rfl⟩

/-- The logger "x" of the sample program has level Info and two outputs. -/
example : Map.get Demo.w1.loggers c!"x" = some 3 ∧ Demo.w1.infoEnabled 3 = true ∧ Demo.w1.debugEnabled 3 = false ∧
    HasOutputs Demo.w1 c!"x" [1, 0] := ⟨rfl, rfl, rfl, _, rfl, rfl⟩

/-! ## C04 -/

/-- C04 is false: `Printf` with level Off passes a logger whose level is Off. -/
theorem C04_off_refuted : ∃ (w : World) (n : Str) (r : Nat), Reach w ∧ Map.get w.loggers n = some r ∧
    w.level r = Level.Off ∧
    ∃ lvl fmt, ((w.printf 0 [] r [] lvl fmt ([] : List Unit)).deliveries) ≠ [] := by
  refine ⟨(Demo.w1.setLevel 3 Level.Off), c!"x", 3, ?_, rfl, rfl, Level.Off, c!"hello", ?_⟩
  · exact Demo.w1_reach.act (a := .setLevel 3 Level.Off) (show 3 < 4 by decide)
  · intro h
    have := congrArg List.length h
    revert this; decide

/-- C04, all but that: no method, and no `Printf` below Off, delivers anything. -/
theorem C04_off_partial {w : World} (hw : Reach w) {n : Str} {r : Nat} (hn : Map.get w.loggers n = some r)
    (hoff : w.level r = Level.Off) :
    (∀ now stack (ctx : Ctx V) m args, (w.call now stack r ctx m args) = .sent []) ∧
    (∀ now stack (ctx : Ctx V) lvl fmt args, lvl < Level.Off → w.printf now stack r ctx lvl fmt args = .sent []) := by
  have inv := reach_inv hw
  have hd : ∀ lvl : Level, lvl < Level.Off → w.levelEnabled r lvl = false := by
    intro lvl hl
    simp only [levelEnabled, hoff, decide_eq_false_iff_not]
    exact Int.not_le.mpr hl
  refine ⟨?_, ?_⟩
  · intro now stack ctx m args
    refine printf_disabled inv now hn _ ctx _ args (hd _ ?_)
    cases m <;> simp [Method.lvlFmt, Level.Off, Level.Trace, Level.Debug, Level.Info, Level.Warn, Level.Error, Level.Critical]
  · intro now stack ctx lvl fmt args hl
    exact printf_disabled inv now hn stack ctx fmt args (hd lvl hl)

/-- A program whose logger has level Off. -/
example : Reach (Demo.w1.setLevel 3 Level.Off) ∧ Map.get (Demo.w1.setLevel 3 Level.Off).loggers c!"x" = some 3 ∧
    (Demo.w1.setLevel 3 Level.Off).level 3 = Level.Off :=
  ⟨Demo.w1_reach.act (a := .setLevel 3 Level.Off) (show 3 < 4 by decide), rfl, rfl⟩

/-! ## C05, C06 -/

/-- C05: parents are decided by names. -/
theorem C05_hierarchy {w : World} (hw : Reach w) {n : Str} {r : Nat} (hn : Map.get w.loggers n = some r) :
    (n = c!"root" → ∃ l, loggerAt w n = some l ∧ l.parent = none) ∧
    (n ≠ c!"root" → ∃ l p rp, loggerAt w n = some l ∧ ParentOf n p ∧ Map.get w.loggers p = some rp ∧ l.parent = some rp) := by
  have inv := reach_inv hw
  constructor
  · rintro rfl
    obtain ⟨l, h1, h2, h3⟩ := up_root inv hn
    exact ⟨l, loggerAt_of_get hn h1, h3⟩
  · intro hne
    obtain ⟨p, hp⟩ := parentOf_exists n
    obtain ⟨l, rp, h1, h2, h3, _, h4⟩ := up_step inv hn hne hp
    exact ⟨l, p, rp, loggerAt_of_get hn h1, hp, h4, h3⟩

/-- The parent name is unique, so `C05_hierarchy` leaves no choice. -/
theorem C05_parent_unique {n p q : Str} (h : ParentOf n p) (h' : ParentOf n q) : p = q := parentOf_unique h h'

/-- "a/b" and its parent "a". -/
example : Map.get Demo.w1.loggers c!"a/b" = some 2 ∧ Map.get Demo.w1.loggers c!"a" = some 1 ∧
    (loggerAt Demo.w1 c!"a/b").map (·.parent) = some (some 1) := ⟨rfl, rfl, rfl⟩

/-- C06: one logger per name, for ever. -/
theorem C06_one_logger_per_name {w : World} (hw : Reach w) (n : Str) :
    (∀ as w', Steps (w.getLogger n).2 as w' → w'.getLogger n = ((w.getLogger n).1, w')) ∧
    (w.getLogger []).1 = (w.getLogger c!"root").1 ∧
    (∀ m, n ≠ [] → m ≠ [] → n ≠ m → ∀ as w', Steps (w.getLogger n).2 as w' → (w'.getLogger m).1 ≠ (w.getLogger n).1) ∧
    (∀ as w' r, Steps w as w' → Map.get w.loggers n = some r → Map.get w'.loggers n = some r) := by
  have inv := reach_inv hw
  have gs := getLogger_spec inv n
  refine ⟨?_, rfl, ?_, ?_⟩
  · intro as w' hs
    obtain ⟨i, x⟩ := steps_inv gs.inv hs
    have hg := x.loggers _ _ gs.get
    have gs' := getLogger_spec i n
    have e := gs'.old _ hg
    have hg' := gs'.get
    rw [e, hg] at hg'
    injection hg' with hg'
    exact Prod.ext hg'.symm e
  · intro m hn hm hne as w' hs he
    obtain ⟨i, x⟩ := steps_inv gs.inv hs
    have gs' := getLogger_spec i m
    have hgn := gs'.ext.loggers _ _ (x.loggers _ _ gs.get)
    have hgm := gs'.get
    rw [if_neg hn] at hgn
    rw [if_neg hm, he] at hgm
    obtain ⟨l1, a1, b1⟩ := gs'.inv.named _ _ hgn
    obtain ⟨l2, a2, b2⟩ := gs'.inv.named _ _ hgm
    rw [a1] at a2; injection a2 with a2; subst a2
    exact hne (b1.symm.trans b2)
  · intro as w' r hs hg
    exact (steps_inv inv hs).2.loggers _ _ hg

example : (Demo.w1.getLogger c!"a/b").1 = 2 ∧ (Demo.w1.getLogger c!"y").1 = 4 := ⟨rfl, rfl⟩

/-! ## C07 -/

/-- C07: the effective level is that of the nearest logger on the path to the root that has one, Off
if there is none; the walk ends. -/
theorem C07_level_inheritance {w : World} (hw : Reach w) {n : Str} {r : Nat} (hn : Map.get w.loggers n = some r) :
    (∃ lvl, w.levelWalk w.heap.length (some r) = some lvl) ∧ ∃ names, Path n names ∧
    ((∃ pre m post, names = pre ++ m :: post ∧ (∀ x ∈ pre, NoLevel w x) ∧ HasLevel w m (w.level r)) ∨
     ((∀ x ∈ names, NoLevel w x) ∧ w.level r = Level.Off)) := by
  have inv := reach_inv hw
  obtain ⟨names, hp⟩ := path_exists n
  obtain ⟨lvl, h1, h2⟩ := levelWalk_spec inv hp hn (lt_heap inv hn)
  refine ⟨⟨lvl, h1⟩, names, hp, ?_⟩
  have : w.level r = lvl := by simp [level, h1]
  rw [this]
  exact h2

/-- The path is unique, so `C07_level_inheritance` and `C08_output_inheritance` leave no choice. -/
theorem C07_path_unique {n : Str} {ps qs : List Str} (h : Path n ps) (h' : Path n qs) : ps = qs := path_unique h h'

theorem demo_path : Path c!"a/b" [c!"a/b", c!"a", c!"root"] := by
  refine .step (by decide) (.inl ⟨⟨by decide, '/', c!"b", .inl rfl, rfl⟩, ?_⟩)
    (.step (by decide) (.inr ⟨?_, rfl⟩) .root)
  · rintro q ⟨_, c, rest, hc, e⟩
    have := congrArg List.length e
    simp at this ⊢
    cases rest with
    | nil =>
      have h2 := congrArg List.getLast? e
      simp at h2; subst h2; rcases hc with h | h <;> simp at h
    | cons x xs => simp at this; omega
  · rintro q ⟨hq, c, rest, _, e⟩
    have := congrArg List.length e
    have h0 : q.length ≠ 0 := fun h => hq (List.eq_nil_of_length_eq_zero h)
    simp at this; omega

/-- A program in which a level is inherited over two steps. -/
example : Map.get Demo.w1.loggers c!"a/b" = some 2 ∧ Demo.w1.level 2 = Level.Warn ∧ NoLevel Demo.w1 c!"a/b" ∧
    NoLevel Demo.w1 c!"a" ∧ HasLevel Demo.w1 c!"root" Level.Warn :=
  ⟨rfl, rfl, ⟨_, rfl, rfl⟩, ⟨_, rfl, rfl⟩, ⟨_, rfl, rfl, by decide⟩⟩

/-- C07: a logger below the root for which no configuration has had an entry and whose `SetLevel` nobody has called has no level of its
own, and the level of its parent; without a call of `SetOutputs` it has no outputs of its own. -/
theorem C07_unset {as : List Act} {w : World} (h : Steps {} as w) {n : Str} {r : Nat} (hn : Map.get w.loggers n = some r) (hroot : n ≠ c!"root")
    (hcfg : ∀ as1 as2 w1, as = as1 ++ as2 → Steps {} as1 w1 → NoLogger w1.mgr.config n) :
    ((∀ lvl, .setLevel r lvl ∉ as) → NoLevel w n ∧ ∃ p rp, ParentOf n p ∧ Map.get w.loggers p = some rp ∧ w.level r = w.level rp) ∧
    ((∀ ops, .setOutputs r ops ∉ as) → HasOutputs w n []) := by
  have hw : Reach w := ⟨as, h⟩
  have inv := reach_inv hw
  obtain ⟨l, hl, hname⟩ := inv.named n r hn
  have hat : loggerAt w n = some l := loggerAt_of_get hn hl
  have hb := blank hroot h hcfg hl hname
  refine ⟨fun hs => ?_, fun hs => ⟨l, hat, hb.2 hs⟩⟩
  have hno : NoLevel w n := ⟨l, hat, hb.1 hs⟩
  refine ⟨hno, ?_⟩
  obtain ⟨_, names, hp, hlev⟩ := C07_level_inheritance hw hn
  cases hp with
  | root => exact absurd rfl hroot
  | @step _ p names' hne hpar hp' =>
    obtain ⟨_, p', rp, _, hpar', hgp, _⟩ := (C05_hierarchy hw hn).2 hroot
    have := parentOf_unique hpar hpar'
    subst this
    refine ⟨p, rp, hpar, hgp, ?_⟩
    obtain ⟨_, names2, hp2, hlev2⟩ := C07_level_inheritance hw hgp
    have := path_unique hp2 hp'
    subst this
    have excl : ∀ {x lvl}, NoLevel w x → HasLevel w x lvl → False := by
      rintro x lvl ⟨l1, k1, k2⟩ ⟨l2, k3, k4, k5⟩
      rw [k1] at k3; cases k3
      exact k5 (k4 ▸ k2)
    have excl' : ∀ {x lvl lvl'}, HasLevel w x lvl → HasLevel w x lvl' → lvl = lvl' := by
      rintro x lvl lvl' ⟨l1, k1, k2, _⟩ ⟨l2, k3, k4, _⟩
      rw [k1] at k3; cases k3
      exact k2.symm.trans k4
    rcases hlev with ⟨pre, m, post, e, h1, h2⟩ | ⟨h1, h2⟩
    · cases pre with
      | nil =>
        obtain ⟨rfl, _⟩ := List.cons.inj e
        exact (excl hno h2).elim
      | cons x pre =>
        obtain ⟨_, e'⟩ := List.cons.inj e
        rcases hlev2 with ⟨pre2, m2, post2, e2, g1, g2⟩ | ⟨g1, g2⟩
        · rw [e'] at e2
          rcases List.append_eq_append_iff.mp e2 with ⟨d, k1, k2⟩ | ⟨d, k1, k2⟩
          · cases d with
            | nil => obtain ⟨rfl, _⟩ := List.cons.inj k2; exact excl' h2 g2
            | cons z d => obtain ⟨rfl, _⟩ := List.cons.inj k2; exact (excl (g1 m (by rw [k1]; simp)) h2).elim
          · cases d with
            | nil => obtain ⟨rfl, _⟩ := List.cons.inj k2; exact excl' h2 g2
            | cons z d => obtain ⟨rfl, _⟩ := List.cons.inj k2; exact (excl (h1 m2 (by rw [k1]; simp)) g2).elim
        · exact (excl (g1 m (by rw [e']; simp)) h2).elim
    · rcases hlev2 with ⟨pre2, m2, post2, e2, g1, g2⟩ | ⟨g1, g2⟩
      · exact (excl (h1 m2 (by rw [e2]; simp)) g2).elim
      · rw [h2, g2]

/-- The hypotheses of `C07_unset` are met by the logger "a/b" of the sample program. -/
example : Steps {} Demo.acts Demo.w1 ∧ Map.get Demo.w1.loggers c!"a/b" = some 2 ∧ (∀ lvl, .setLevel 2 lvl ∉ Demo.acts) ∧ (∀ ops, .setOutputs 2 ops ∉ Demo.acts) ∧
    ∀ as1 as2 w1, Demo.acts = as1 ++ as2 → Steps {} as1 w1 → NoLogger w1.mgr.config c!"a/b" := by
  refine ⟨Demo.w1_steps, rfl, by simp [Demo.acts, Demo.acts0], by simp [Demo.acts, Demo.acts0], fun as1 as2 w1 e h => ?_⟩
  have e1 := steps_run h
  subst e1
  have hk : as1 = Demo.acts.take as1.length := by rw [e]; simp
  have hle : as1.length ≤ 7 := by have := congrArg List.length e; simp [Demo.acts, Demo.acts0] at this; omega
  rw [hk]
  generalize as1.length = k at hle
  match k, hle with
  | 0, _ | 1, _ | 2, _ => intro x hx; cases hx
  | 3, _ | 4, _ | 5, _ | 6, _ | 7, _ => exact (by decide : ∀ x ∈ Demo.cfg.loggers, x.name ≠ c!"a/b")

/-! ## C08, C09 -/

/-- C08: a message goes exactly once to each output of the nearest logger with outputs, provided the
loggers up to that one let it pass, and nowhere else. -/
theorem C08_output_inheritance {w : World} (hw : Reach w) {n : Str} {r : Nat} (hn : Map.get w.loggers n = some r)
    {names : List Str} (hp : Path n names) (now : Nat) (stack : List Frame) (ctx : Ctx V)
    (hctx : ∀ v, ctx.value callerInfoKey ≠ .user v) (lvl : Level) (fmt : Str) (args : List V) :
    (∀ pre m post ops, Nearest w lvl names pre m post ops →
      ∃ evt, w.printf now stack r ctx lvl fmt args = .sent (ops.map fun o => ⟨o, evt⟩)) ∧
    (∀ d ∈ (w.printf now stack r ctx lvl fmt args).deliveries,
      ∃ pre m post ops, Nearest w lvl names pre m post ops ∧ d.out ∈ ops) := by
  have inv := reach_inv hw
  constructor
  · intro pre m post ops hN
    obtain ⟨l0, l, _, _, ho, e⟩ := printf_at inv now hp hn stack ctx fmt args hN
    obtain ⟨evt, hev⟩ := dispatch_sent (l := l) (stack := List.replicate (pre.length + 1) writeFrame ++ printfFrame :: stack)
        (now := now) (name := n) (skip := l0.callerSkip + pre.length) (lvl := lvl) (fmt := fmt)
        (args := args) (ite_user hctx (pre = []))
    exact ⟨evt, by rw [e, hev, ho]⟩
  · intro d hd
    obtain ⟨pre, m, post, ops, _, _, hN, ho, _⟩ := printf_delivery inv now hp hn stack ctx fmt args hd
    exact ⟨pre, m, post, ops, hN, ho⟩

/-- In the sample program a message of "a/b" goes to the output of the root logger, two steps up. -/
theorem demo_nearest : Nearest Demo.w1 Level.Error [c!"a/b", c!"a", c!"root"] [c!"a/b", c!"a"] c!"root" [] [0] := by
  refine ⟨rfl, ?_, ⟨_, rfl, rfl⟩, by decide, ?_⟩
  · intro x hx
    simp at hx
    rcases hx with rfl | rfl
    · exact ⟨_, rfl, rfl⟩
    · exact ⟨_, rfl, rfl⟩
  · intro x hx
    simp at hx
    rcases hx with rfl | rfl | rfl
    · exact ⟨2, rfl, rfl⟩
    · exact ⟨1, rfl, rfl⟩
    · exact ⟨0, rfl, rfl⟩

example : ∃ evt : Event Unit, Demo.w1.printf 0 [] 2 [] Level.Error c!"hi" [] = .sent [⟨0, evt⟩] :=
  (C08_output_inheritance Demo.w1_reach (n := c!"a/b") rfl demo_path 0 [] [] (by intro v; rw [empty_nil]; simp) Level.Error
    c!"hi" []).1 _ _ _ _ demo_nearest

/-- C09 is false: the level of the ancestor that owns the outputs decides too. -/
theorem C09_own_level_refuted : ∃ (w : World) (n : Str) (r : Nat) (names : List Str) (lvl : Level),
    Reach w ∧ Map.get w.loggers n = some r ∧ Path n names ∧ w.levelEnabled r lvl = true ∧
    (∃ m ∈ names, ∃ ops, HasOutputs w m ops ∧ ops ≠ []) ∧
    w.printf 0 [] r [] lvl c!"hello" ([] : List Unit) = .sent [] := by
  refine ⟨Demo.w1.setLevel 2 Level.Debug, c!"a/b", 2, _, Level.Debug, ?_, rfl, demo_path, rfl, ?_, rfl⟩
  · exact Demo.w1_reach.act (a := .setLevel 2 Level.Debug) (show 2 < 4 by decide)
  · exact ⟨c!"root", by simp, [0], ⟨_, rfl, rfl⟩, by simp⟩

/-- C09, what holds: the own level decides when no logger up to the one with outputs is stricter. -/
theorem C09_own_level_partial {w : World} (hw : Reach w) {n : Str} {r : Nat} (hn : Map.get w.loggers n = some r)
    {names : List Str} (hp : Path n names) (now : Nat) (stack : List Frame) (ctx : Ctx V)
    (hctx : ∀ v, ctx.value callerInfoKey ≠ .user v) (lvl : Level) (fmt : Str) (args : List V)
    {pre post : List Str} {m : Str} {ops : List Nat} (hs : names = pre ++ m :: post)
    (hempty : ∀ x ∈ pre, HasOutputs w x []) (ho : HasOutputs w m ops) (hne : ops ≠ [])
    (hle : ∀ x ∈ pre ++ [m], ∀ rx, Map.get w.loggers x = some rx → w.level rx ≤ w.level r)
    (hen : w.level r ≤ lvl) :
    (w.printf now stack r ctx lvl fmt args).deliveries.map (·.out) = ops := by
  have inv := reach_inv hw
  have hN : Nearest w lvl names pre m post ops := by
    refine ⟨hs, hempty, ho, hne, ?_⟩
    intro x hx
    obtain ⟨rx, hrx⟩ := on_path inv hn hp x (by
      rw [hs]
      rcases List.mem_append.mp hx with h | h
      · simp [h]
      · simp at h; simp [h])
    refine ⟨rx, hrx, ?_⟩
    simp only [levelEnabled, decide_eq_true_eq]
    exact Int.le_trans (hle x hx rx hrx) hen
  obtain ⟨evt, e⟩ := (C08_output_inheritance hw hn hp now stack ctx hctx lvl fmt args).1 pre m post ops hN
  rw [e, Outcome.deliveries, map_out]

/-- C09, what holds, exactly: the message is delivered to the outputs of the nearest logger with outputs if every logger up to that
one lets it pass, and to no output otherwise. -/
theorem C09_gates_partial {w : World} (hw : Reach w) {n : Str} {r : Nat} (hn : Map.get w.loggers n = some r)
    {names : List Str} (hp : Path n names) (now : Nat) (stack : List Frame) (ctx : Ctx V)
    (hctx : ∀ v, ctx.value callerInfoKey ≠ .user v) (lvl : Level) (fmt : Str) (args : List V)
    {pre post : List Str} {m : Str} {ops : List Nat} (hs : names = pre ++ m :: post)
    (hempty : ∀ x ∈ pre, HasOutputs w x []) (ho : HasOutputs w m ops) (hne : ops ≠ []) :
    ((∀ x ∈ pre ++ [m], ∀ rx, Map.get w.loggers x = some rx → w.level rx ≤ lvl) →
      (w.printf now stack r ctx lvl fmt args).deliveries.map (·.out) = ops) ∧
    ((∃ x ∈ pre ++ [m], ∃ rx, Map.get w.loggers x = some rx ∧ lvl < w.level rx) →
      (w.printf now stack r ctx lvl fmt args).deliveries = []) := by
  have inv := reach_inv hw
  refine ⟨fun hle => ?_, fun ⟨x, hx, rx, hrx, hlt⟩ => ?_⟩
  · have hN : Nearest w lvl names pre m post ops := by
      refine ⟨hs, hempty, ho, hne, ?_⟩
      intro x hx
      obtain ⟨rx, hrx⟩ := on_path inv hn hp x (by
        rw [hs]
        rcases List.mem_append.mp hx with h | h
        · simp [h]
        · simp at h; simp [h])
      refine ⟨rx, hrx, ?_⟩
      simp only [levelEnabled, decide_eq_true_eq]
      exact hle x hx rx hrx
    obtain ⟨evt, e⟩ := (C08_output_inheritance hw hn hp now stack ctx hctx lvl fmt args).1 pre m post ops hN
    rw [e, Outcome.deliveries, map_out]
  · cases hd : (w.printf now stack r ctx lvl fmt args).deliveries with
    | nil => rfl
    | cons d ds =>
      obtain ⟨pre', m', post', ops', hN, _⟩ := (C08_output_inheritance hw hn hp now stack ctx hctx lvl fmt args).2 d (by rw [hd]; simp)
      have none_of : ∀ {y os}, HasOutputs w y [] → HasOutputs w y os → os = [] := by
        rintro y os ⟨l, h1, h2⟩ ⟨l', h1', h2'⟩
        rw [h1] at h1'; cases h1'
        rw [← h2', h2]
      have key : pre = pre' ∧ m = m' := by
        have e : pre ++ m :: post = pre' ++ m' :: post' := by rw [← hs, hN.split]
        rcases List.append_eq_append_iff.mp e with ⟨as, h1, h2⟩ | ⟨as, h1, h2⟩
        · cases as with
          | nil => simp at h1 h2; exact ⟨h1.symm, h2.1⟩
          | cons a as =>
            simp at h2
            exact absurd (none_of (hN.empty m (by rw [h1, h2.1]; simp)) ho) hne
        · cases as with
          | nil => simp at h1 h2; exact ⟨h1, h2.1.symm⟩
          | cons a as =>
            simp at h2
            exact absurd (none_of (hempty m' (by rw [h1, h2.1]; simp)) hN.outs) hN.ne
      obtain ⟨rfl, rfl⟩ := key
      obtain ⟨ry, h1, h2⟩ := hN.enabled x hx
      rw [hrx] at h1; cases h1
      simp only [levelEnabled, decide_eq_true_eq] at h2
      exact absurd h2 (Int.not_le.mpr hlt)

/-- In the sample program with the level of "a/b" set to Debug, the root logger keeps a debug message of "a/b" back. -/
example : Reach (Demo.w1.setLevel 2 Level.Debug) ∧ ([c!"a/b", c!"a", c!"root"] : List Str) = [c!"a/b", c!"a"] ++ c!"root" :: [] ∧
    (∀ x ∈ [c!"a/b", c!"a"], HasOutputs (Demo.w1.setLevel 2 Level.Debug) x []) ∧ HasOutputs (Demo.w1.setLevel 2 Level.Debug) c!"root" [0] ∧
    (∃ x ∈ [c!"a/b", c!"a"] ++ [c!"root"], ∃ rx, Map.get (Demo.w1.setLevel 2 Level.Debug).loggers x = some rx ∧ Level.Debug < (Demo.w1.setLevel 2 Level.Debug).level rx) := by
  refine ⟨Demo.w1_reach.act (a := .setLevel 2 Level.Debug) (show 2 < 4 by decide), rfl, ?_, ⟨_, rfl, rfl⟩, c!"root", by simp, 0, rfl, by decide⟩
  intro x hx
  simp at hx
  rcases hx with rfl | rfl <;> exact ⟨_, rfl, rfl⟩

/-- The sample program again: nobody on the way to the root is stricter than "a/b". -/
example : ∀ x ∈ [c!"a/b", c!"a"] ++ [c!"root"], ∀ rx, Map.get Demo.w1.loggers x = some rx →
    Demo.w1.level rx ≤ Demo.w1.level 2 := by
  intro x hx rx h
  simp at hx
  rcases hx with rfl | rfl | rfl
  · obtain rfl : 2 = rx := Option.some.inj h; exact Int.le_refl _
  · obtain rfl : 1 = rx := Option.some.inj h; exact Int.le_refl _
  · obtain rfl : 0 = rx := Option.some.inj h; exact Int.le_refl _

/-! ## C11, C12 -/

/-- C11: every event carries the caller's logger name, level, format and arguments. -/
theorem C11_attribution {w : World} (hw : Reach w) {n : Str} {r : Nat} (hn : Map.get w.loggers n = some r)
    (now : Nat) (stack : List Frame) (ctx : Ctx V) (args : List V) :
    (∀ lvl fmt, ∀ d ∈ (w.printf now stack r ctx lvl fmt args).deliveries,
      d.evt.name = n ∧ d.evt.level = lvl ∧ d.evt.format = fmt ∧ d.evt.arguments = args ∧ d.evt.time = now) ∧
    (∀ m lvl fmt, Logs m lvl fmt → ∀ d ∈ (w.call now stack r ctx m args).deliveries,
      d.evt.name = n ∧ d.evt.level = lvl ∧ d.evt.format = fmt.getD [] ∧ d.evt.arguments = args ∧ d.evt.time = now) := by
  have inv := reach_inv hw
  obtain ⟨names, hp⟩ := path_exists n
  have key : ∀ stack lvl fmt, ∀ d ∈ (w.printf now stack r ctx lvl fmt args).deliveries,
      d.evt.name = n ∧ d.evt.level = lvl ∧ d.evt.format = fmt ∧ d.evt.arguments = args ∧ d.evt.time = now := by
    intro stack lvl fmt d hd
    obtain ⟨pre, m, post, ops, l0, l, _, _, _, _, _, e⟩ := printf_delivery inv now hp hn stack ctx fmt args hd
    rw [e] at hd
    rcases dispatch_out l (List.replicate (pre.length + 1) writeFrame ++ printfFrame :: stack) now
        (if pre = [] then ctx else []) n (l0.callerSkip + pre.length) lvl fmt args with h | ⟨evt, h, a, b, c, f, g, _⟩
    · rw [h] at hd; simp [Outcome.deliveries] at hd
    · rw [h] at hd
      simp only [Outcome.deliveries, List.mem_map] at hd
      obtain ⟨o, _, rfl⟩ := hd
      exact ⟨a, b, c, f, g⟩
  refine ⟨key stack, ?_⟩
  intro m lvl fmt hm
  cases hm <;> exact key _ _ _

/-- The event of "a/b" delivered by the root logger says "a/b". -/
example : (Demo.w1.printf 0 [] 2 [] Level.Error c!"hi" ([] : List Unit)).deliveries.map (fun d => (d.out, d.evt.name)) =
    [(0, c!"a/b")] := rfl

/-- C12 is false: a logger without outputs of its own loses the fields. -/
theorem C12_fields_refuted : ∃ (w : World) (n : Str) (r : Nat) (fields : List (Field Nat)) (key : Str) (v : CtxVal Nat),
    Reach w ∧ Map.get w.loggers n = some r ∧ key ≠ callerInfoKey ∧ LastField fields key v ∧ v ≠ .nil ∧
    ∃ d ∈ (w.call 0 [] r (withFields fields) .error []).deliveries, d.evt.ctx.value key = .nil := by
  refine ⟨Demo.w1, c!"a/b", 2, [⟨c!"user", .user 7⟩], c!"user", .user 7, Demo.w1_reach, rfl, by decide, ?_, by simp, ?_⟩
  · exact ⟨[], [], _, rfl, rfl, rfl, by simp⟩
  · exact ⟨_, List.mem_cons_self, rfl⟩

/-- C12, what holds: from a logger with outputs of its own, fields and contexts reach every output. -/
theorem C12_fields_partial {w : World} (hw : Reach w) {n : Str} {r : Nat} (hn : Map.get w.loggers n = some r)
    {ops : List Nat} (hown : HasOutputs w n ops) (hne : ops ≠ [])
    (now : Nat) (stack : List Frame) (lvl : Level) (fmt : Str) (args : List V) (key : Str) (hk : key ≠ callerInfoKey) :
    (∀ (fields : List (Field V)) v, LastField fields key v →
      ∀ d ∈ (w.printf now stack r (withFields fields) lvl fmt args).deliveries, d.evt.ctx.value key = v) ∧
    (∀ ctx : Ctx V, ∀ d ∈ (w.printf now stack r (withCtx ctx) lvl fmt args).deliveries,
      d.evt.ctx.value key = ctx.value key) := by
  have inv := reach_inv hw
  obtain ⟨names, hp⟩ := path_exists n
  have key2 : ∀ ctx : Ctx V, ∀ d ∈ (w.printf now stack r ctx lvl fmt args).deliveries, d.evt.ctx.value key = ctx.value key := by
    intro ctx d hd
    obtain ⟨pre, m, post, ops', l0, l, hN, _, _, _, _, e⟩ := printf_delivery inv now hp hn stack ctx fmt args hd
    have hpre : pre = [] := by
      obtain ⟨qs, hq⟩ := path_cons hp
      cases pre with
      | nil => rfl
      | cons y ys =>
        exfalso
        have hs := hN.split
        rw [hq] at hs; simp at hs
        obtain ⟨rfl, _⟩ := hs
        obtain ⟨l1, a1, b1⟩ := hN.empty n (by simp)
        obtain ⟨l2, a2, b2⟩ := hown
        rw [a1] at a2; injection a2 with a2; subst a2
        exact hne (b2.symm.trans b1)
    subst hpre
    rw [e] at hd
    rcases dispatch_out l (List.replicate (([] : List Str).length + 1) writeFrame ++ printfFrame :: stack) now
        (if ([] : List Str) = [] then ctx else []) n (l0.callerSkip + ([] : List Str).length) lvl fmt args with
        h | ⟨evt, h, _, _, _, _, _, hv, _⟩
    · rw [h] at hd; simp [Outcome.deliveries] at hd
    · rw [h] at hd
      simp only [Outcome.deliveries, List.mem_map] at hd
      obtain ⟨o, _, rfl⟩ := hd
      exact hv key hk
  refine ⟨?_, fun ctx => key2 ctx⟩
  intro fields v hl d hd
  rw [key2 _ d hd]
  exact (withFields_value fields key).1 v hl

/-- C12, the rest: from a logger without outputs of its own, no field and no context reaches any output. -/
theorem C12_inherited_partial {w : World} (hw : Reach w) {n : Str} {r : Nat} (hn : Map.get w.loggers n = some r)
    (hown : HasOutputs w n []) (now : Nat) (stack : List Frame) (ctx : Ctx V) (lvl : Level) (fmt : Str) (args : List V) (key : Str) (hk : key ≠ callerInfoKey) :
    ∀ d ∈ (w.printf now stack r ctx lvl fmt args).deliveries, d.evt.ctx.value key = .nil := by
  intro d hd
  have inv := reach_inv hw
  obtain ⟨names, hp⟩ := path_exists n
  obtain ⟨pre, m, post, ops', l0, l, hN, _, _, _, _, e⟩ := printf_delivery inv now hp hn stack ctx fmt args hd
  have hpre : pre ≠ [] := by
    rintro rfl
    obtain ⟨qs, hq⟩ := path_cons hp
    have hs := hN.split
    rw [hq] at hs; simp at hs
    obtain ⟨rfl, _⟩ := hs
    obtain ⟨l1, a1, b1⟩ := hN.outs
    obtain ⟨l2, a2, b2⟩ := hown
    rw [a1] at a2; injection a2 with a2; subst a2
    exact hN.ne (b1.symm.trans b2)
  rw [e, if_neg hpre] at hd
  rcases dispatch_out l (List.replicate (pre.length + 1) writeFrame ++ printfFrame :: stack) now
      ([] : Ctx V) n (l0.callerSkip + pre.length) lvl fmt args with h | ⟨evt, h, _, _, _, _, _, hv, _⟩
  · rw [h] at hd; simp [Outcome.deliveries] at hd
  · rw [h] at hd
    simp only [Outcome.deliveries, List.mem_map] at hd
    obtain ⟨o, _, rfl⟩ := hd
    rw [hv key hk]; rfl

/-- In the sample program "a/b" has no outputs of its own, and its messages are delivered. -/
example : HasOutputs Demo.w1 c!"a/b" [] ∧ Map.get Demo.w1.loggers c!"a/b" = some 2 ∧
    (Demo.w1.call 0 [] 2 (withFields [⟨c!"k", .user 1⟩]) .error [9]).deliveries.map (fun d => (d.out, d.evt.ctx.value c!"k")) = [(0, .nil)] :=
  ⟨⟨_, rfl, rfl⟩, rfl, rfl⟩

/-- A key given twice: the last value is delivered. -/
example : (Demo.w1.call 0 [] 3 (withFields [⟨c!"k", .user 1⟩, ⟨c!"k", .user 2⟩]) .info [9]).deliveries.map
    (fun d => (d.out, d.evt.ctx.value c!"k")) = [(1, .user 2), (0, .user 2)] := rfl

/-! ## C13, C14, C15 -/

/-- C13: the recorded call site of the twelve methods is the caller's, whatever the number of
delegation steps, shifted by the caller skip. -/
theorem C13_call_site {as : List Act} {w : World} (hw : Steps {} as w) {n : Str} {r : Nat}
    (hn : Map.get w.loggers n = some r) (now : Nat) (stack : List Frame) (ctx : Ctx V)
    (hctx : ctx.value callerInfoKey = .nil) (m : Method) (args : List V) (k : Nat) (hk : skipOf as r = k) :
    ∀ d ∈ (w.call now stack r ctx m args).deliveries, ∀ c, d.evt.ctx.value callerInfoKey = .ci c →
      (∀ fr, stack[k]? = some fr → c.file = fr.file ∧ c.line = fr.line ∧ c.pcName = some fr.func) ∧
      (stack[k]? = none → c.file = c!"???" ∧ c.line = 0) := by
  have inv := reach_inv ⟨as, hw⟩
  obtain ⟨names, hp⟩ := path_exists n
  intro d hd
  obtain ⟨pre, m', post, ops, l0, l, _, _, hl0, _, _, e⟩ := printf_delivery inv now hp hn (methodFrame :: stack) ctx _ args hd
  have hskip : l0.callerSkip = 3 + k := by
    obtain ⟨l1, h1, _⟩ := inv.named _ _ hn
    have := (skip_history hw r).1 l1 h1
    rw [loggerAt_of_get hn h1] at hl0
    injection hl0 with hl0
    rw [← hl0, this, hk]
  have hd' := hd
  unfold call at hd'
  rw [e] at hd'
  have := dispatch_site l pre.length [printfFrame, methodFrame] stack now (if pre = [] then ctx else []) n
    (l0.callerSkip + pre.length) m.lvlFmt.1 m.lvlFmt.2 args (ite_nil hctx _) k (by rw [hskip]; simp; omega) d (by simpa using hd')
  exact this.1

/-- In the sample program the site is recorded: from "a/b", two steps below the outputs. -/
example : (Demo.w1.call 0 [⟨c!"main.go", 12, c!"main.main"⟩] 2 ([] : Ctx Unit) .error []).deliveries.map
    (fun d => d.evt.ctx.value callerInfoKey) =
    [.ci { file := c!"main.go", line := 12, pkg := c!"main", fun_ := c!"main", pcName := some c!"main.main" }] := rfl

/-- C14 is false: `Printf` records the caller's caller. -/
theorem C14_printf_site_refuted : ∃ (as : List Act) (w : World) (n : Str) (r : Nat) (stack : List Frame) (fr : Frame),
    Steps {} as w ∧ Map.get w.loggers n = some r ∧ skipOf as r = 0 ∧ stack[0]? = some fr ∧
    ∃ d ∈ (w.printf 0 stack r [] Level.Error c!"hello" ([] : List Unit)).deliveries, ∃ c,
      d.evt.ctx.value callerInfoKey = .ci c ∧ (c.file, c.line) ≠ (fr.file, fr.line) := by
  refine ⟨_, Demo.w1, c!"x", 3, [⟨c!"a.go", 1, c!"main.f"⟩, ⟨c!"main.go", 12, c!"main.main"⟩], _, Demo.w1_steps, rfl, rfl, rfl,
    _, List.mem_cons_self, _, rfl, by decide⟩

/-- C14, what the code does: `Printf` records the frame one above the one it should, always (so it
is right after `SetCallerSkip(-1)`). -/
theorem C14_printf_site_partial {as : List Act} {w : World} (hw : Steps {} as w) {n : Str} {r : Nat}
    (hn : Map.get w.loggers n = some r) (now : Nat) (stack : List Frame) (ctx : Ctx V)
    (hctx : ctx.value callerInfoKey = .nil) (lvl : Level) (fmt : Str) (args : List V) (j : Nat) (hj : skipOf as r + 1 = j) :
    ∀ d ∈ (w.printf now stack r ctx lvl fmt args).deliveries, ∀ c, d.evt.ctx.value callerInfoKey = .ci c →
      (∀ fr, stack[j]? = some fr → c.file = fr.file ∧ c.line = fr.line ∧ c.pcName = some fr.func) ∧
      (stack[j]? = none → c.file = c!"???" ∧ c.line = 0) := by
  have inv := reach_inv ⟨as, hw⟩
  obtain ⟨names, hp⟩ := path_exists n
  intro d hd
  obtain ⟨pre, m', post, ops, l0, l, _, _, hl0, _, _, e⟩ := printf_delivery inv now hp hn stack ctx fmt args hd
  have hskip : l0.callerSkip = 2 + j := by
    obtain ⟨l1, h1, _⟩ := inv.named _ _ hn
    have := (skip_history hw r).1 l1 h1
    rw [loggerAt_of_get hn h1] at hl0
    injection hl0 with hl0
    rw [← hl0, this]; omega
  have hd' := hd
  rw [e] at hd'
  have := dispatch_site l pre.length [printfFrame] stack now (if pre = [] then ctx else []) n
    (l0.callerSkip + pre.length) lvl fmt args (ite_nil hctx _) j (by rw [hskip]; simp; omega) d (by simpa using hd')
  exact this.1

example : Steps {} Demo.acts Demo.w1 ∧ skipOf Demo.acts 3 + 1 = (1 : Nat) := ⟨Demo.w1_steps, rfl⟩

/-- C15: the event carries caller information whenever a receiving output wants it, in the detail
the most demanding one wants. -/
theorem C15_caller_info {as : List Act} {w : World} (hw : Steps {} as w) {n : Str} {r : Nat}
    (hn : Map.get w.loggers n = some r)
    (hflags : ∀ o flag, Wants w o flag → flag = 0 ∨ flag = 1 ∨ flag = 2)
    (now : Nat) (stack : List Frame) (ctx : Ctx V) (hctx : ctx.value callerInfoKey = .nil) (m : Method) (args : List V)
    (k : Nat) (hk : skipOf as r = k) (fr : Frame) (hfr : stack[k]? = some fr) :
    ∀ d ∈ (w.call now stack r ctx m args).deliveries,
      (Wants w d.out 1 ∨ Wants w d.out 2 →
        ∃ c, d.evt.ctx.value callerInfoKey = .ci c ∧ c.file = fr.file ∧ c.line = fr.line) ∧
      (Wants w d.out 2 → ∃ c, d.evt.ctx.value callerInfoKey = .ci c ∧
        (∀ pkg fun_, QualName fr.func pkg fun_ → c.pkg = pkg ∧ c.fun_ = fun_) ∧
        ((∀ pkg fun_, ¬ QualName fr.func pkg fun_) → c.pkg = c!"???" ∧ c.fun_ = c!"???")) := by
  have inv := reach_inv ⟨as, hw⟩
  obtain ⟨names, hp⟩ := path_exists n
  intro d hd
  have hsite := C13_call_site hw hn now stack ctx hctx m args k hk d hd
  obtain ⟨pre, m', post, ops, l0, l, hN, hout, hl0, hl, hlo, e⟩ :=
    printf_delivery inv now hp hn (methodFrame :: stack) ctx _ args hd
  have hskip : l0.callerSkip = 3 + k := by
    obtain ⟨l1, h1, _⟩ := inv.named _ _ hn
    have := (skip_history hw r).1 l1 h1
    rw [loggerAt_of_get hn h1] at hl0
    injection hl0 with hl0
    rw [← hl0, this, hk]
  have hd' := hd
  unfold call at hd'
  rw [e] at hd'
  obtain ⟨_, s2, s3⟩ := dispatch_site l pre.length [printfFrame, methodFrame] stack now (if pre = [] then ctx else []) n
    (l0.callerSkip + pre.length) m.lvlFmt.1 m.lvlFmt.2 args (ite_nil hctx _) k (by rw [hskip]; simp; omega) d (by simpa using hd')
  -- the logger that delivers has a flag at least as high
  obtain ⟨rm, hrm⟩ := on_path inv hn hp m' (by rw [hN.split]; simp)
  obtain ⟨lm, hlm, _⟩ := inv.named _ _ hrm
  have : lm = l := by
    rw [loggerAt_of_get hrm hlm] at hl; exact Option.some.inj hl
  subst this
  have hle := inv.flags rm lm hlm d.out (by rw [hlo]; exact hout)
  have hle2 : lm.callerInfoFlag = 0 ∨ lm.callerInfoFlag = 1 ∨ lm.callerInfoFlag = 2 := by
    rcases inv.flagFrom rm lm hlm with h | ⟨o, h1, h2⟩
    · exact .inl h
    · rw [← h2]
      rcases wants_or w o with h3 | h3
      · exact .inl h3
      · exact hflags o _ h3
  refine ⟨?_, ?_⟩
  · intro hf
    have : w.mgr.outFlag d.out = 1 ∨ w.mgr.outFlag d.out = 2 := hf.imp (·.flag) (·.flag)
    have : lm.callerInfoFlag = 1 ∨ lm.callerInfoFlag = 2 := by omega
    obtain ⟨c, hc⟩ := s2 this
    obtain ⟨a, b, _⟩ := (hsite c hc).1 fr hfr
    exact ⟨c, hc, a, b⟩
  · intro hf
    have := hf.flag
    have h2 : lm.callerInfoFlag = 2 := by omega
    obtain ⟨c, hc⟩ := s2 (.inr h2)
    refine ⟨c, hc, ?_, ?_⟩
    · intro pkg fun_ hq
      have := s3 h2 c hc fr hfr
      rw [splitFunc_iff _ _ _ hq] at this
      exact ⟨congrArg Prod.fst this, congrArg Prod.snd this⟩
    · intro hq
      have := s3 h2 c hc fr hfr
      rw [splitFunc_none _ hq] at this
      exact ⟨congrArg Prod.fst this, congrArg Prod.snd this⟩

example : (∀ o flag, Wants Demo.w1 o flag → flag = 0 ∨ flag = 1 ∨ flag = 2) ∧
    Wants Demo.w1 1 2 ∧ QualName c!"github.com/a/b.(*T).f" c!"github.com/a/b" c!"(*T).f" := by
  refine ⟨?_, ⟨_, rfl, .inr ⟨by (intro f h; cases h), _, _, rfl, rfl, rfl⟩⟩, rfl, c!"github.com/a/", c!"b", rfl, by decide, by decide, by decide, by decide, .inr ⟨c!"github.com/a", rfl⟩⟩
  intro o flag h
  have ho : o = 0 ∨ o = 1 := by
    have : Demo.w1.mgr.oheap.length = 2 := rfl
    obtain ⟨ob, h, _⟩ := h
    have := (List.getElem?_eq_some_iff.mp h).1
    omega
  have := h.flag
  rcases ho with rfl | rfl <;> subst this <;> decide

/-! ## C16 -/

/-- C16 is false: a field named like the library's own key makes the call panic. -/
theorem C16_no_panic_refuted : ∃ (w : World) (n : Str) (r : Nat) (fields : List (Field Nat)),
    Reach w ∧ Map.get w.loggers n = some r ∧ w.call 0 [] r (withFields fields) .error [] = .panic :=
  ⟨Demo.w1, c!"x", 3, [⟨c!"__caller_info", .user 1⟩], Demo.w1_reach, rfl, rfl⟩

/-- C16, exactly: a call panics exactly when the last field named "__caller_info" has a value, the
logger lets the message pass and has outputs (or is the root), and caller information is wanted. -/
theorem C16_no_panic_partial {w : World} (hw : Reach w) {n : Str} {r : Nat} {l : Logger}
    (hn : Map.get w.loggers n = some r) (hl : loggerAt w n = some l)
    (now : Nat) (stack : List Frame) (lvl : Level) (fmt : Str) (args : List V) (fields : List (Field V)) :
    w.printf now stack r (withFields fields) lvl fmt args = .panic ↔
      ((∃ v, LastField fields c!"__caller_info" (.user v)) ∧ w.levelEnabled r lvl = true ∧
       (l.outputs ≠ [] ∨ n = c!"root") ∧ (l.callerInfoFlag = 1 ∨ l.callerInfoFlag = 2)) := by
  have inv := reach_inv hw
  obtain ⟨names, hp⟩ := path_exists n
  obtain ⟨l0, hl0, hc⟩ := printf_spec inv now hp hn stack (withFields fields) lvl fmt args
  obtain ⟨l1, hh, hname⟩ := inv.named _ _ hn
  have hl1 : l1 = l := by rw [loggerAt_of_get hn hh] at hl; exact Option.some.inj hl
  subst hl1
  have hlast : (∃ v, (withFields fields).value callerInfoKey = .user v) ↔ ∃ v, LastField fields c!"__caller_info" (.user v) := by
    constructor
    · rintro ⟨v, hv⟩
      rcases lastField_or fields c!"__caller_info" with ⟨x, hx⟩ | h
      · have := (withFields_value fields c!"__caller_info").1 x hx
        have e : x = .user v := by rw [← this]; exact hv
        exact ⟨v, e ▸ hx⟩
      · have := (withFields_value fields c!"__caller_info").2 h
        rw [show callerInfoKey = c!"__caller_info" from rfl, this] at hv
        simp at hv
    · rintro ⟨v, hv⟩
      exact ⟨v, (withFields_value fields c!"__caller_info").1 _ hv⟩
  obtain ⟨qs, hq⟩ := path_cons hp
  constructor
  · intro hpan
    rcases hc with ⟨pre, m, post, l', he, e⟩ | ⟨pre, m, post, _, e⟩
    · rw [e] at hpan
      obtain ⟨hf, v, hv⟩ := (dispatch_panic ..).mp hpan
      have hpre : pre = [] := by
        by_cases h : pre = []
        · exact h
        · rw [if_neg h, empty_nil] at hv; simp at hv
      subst hpre
      rw [if_pos rfl] at hv
      have hs := he.split
      rw [hq] at hs; simp at hs
      obtain ⟨rfl, rfl⟩ := hs
      have hll : l1 = l' := by
        have := he.at_
        rw [loggerAt_of_get hn hh] at this; exact Option.some.inj this
      subst hll
      refine ⟨hlast.mp ⟨v, hv⟩, (enables_iff hn lvl).mp he.enabledHere, ?_, hf⟩
      rcases he.outs with h | h
      · exact .inl h
      · right
        subst h
        rw [hq] at hp
        cases hp with
        | root => rfl
        | step _ _ hp' => obtain ⟨_, h⟩ := path_cons hp'; simp at h
    · rw [e] at hpan; simp at hpan
  · rintro ⟨hf, hen, ho, hflag⟩
    have hE : Enables w n lvl := (enables_iff hn lvl).mpr hen
    rcases hc with ⟨pre, m, post, l', he, e⟩ | ⟨pre, m, post, hs, e⟩
    · have hpre : pre = [] := by
        cases pre with
        | nil => rfl
        | cons y ys =>
          exfalso
          have hs := he.split
          rw [hq] at hs; simp at hs
          obtain ⟨rfl, hs⟩ := hs
          rcases ho with ho | ho
          · have := (hasOutputs_iff hn hh []).mp (he.empty n (by simp))
            exact ho this
          · subst ho
            have := path_unique hp .root
            rw [this] at hq; simp at hq
            rw [hq] at hs; simp at hs
      subst hpre
      have hs := he.split
      rw [hq] at hs; simp at hs
      obtain ⟨rfl, rfl⟩ := hs
      have hll : l1 = l' := by
        have := he.at_
        rw [loggerAt_of_get hn hh] at this; exact Option.some.inj this
      subst hll
      rw [e]
      refine (dispatch_panic ..).mpr ⟨hflag, ?_⟩
      rw [if_pos rfl]
      exact hlast.mpr hf
    · exfalso
      cases pre with
      | nil =>
        have hs' := hs.split
        rw [hq] at hs'; simp at hs'
        exact hs.disabled (hs'.1 ▸ hE)
      | cons y ys =>
        have hs' := hs.split
        rw [hq] at hs'; simp at hs'
        obtain ⟨rfl, hs'⟩ := hs'
        rcases ho with ho | ho
        · exact ho ((hasOutputs_iff hn hh []).mp (hs.empty n (by simp)))
        · subst ho
          have := path_unique hp .root
          rw [this] at hq; simp at hq
          rw [hq] at hs'; simp at hs'

/-- Fields with ordinary names do no harm. -/
example : ¬ ∃ v, LastField [⟨c!"user", CtxVal.user 1⟩] c!"__caller_info" (CtxVal.user v) := by
  rintro ⟨v, pre, post, f, e, hk, _⟩
  have : f ∈ [(⟨c!"user", CtxVal.user 1⟩ : Field Nat)] := by rw [e]; simp
  simp at this
  subst this
  revert hk; decide

end Log4g
