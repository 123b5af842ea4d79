import Verif.Lemmas.Async
import Verif.Lemmas.Standard

/-! # The library as it comes: C81, C82 -/

namespace Log4g
open Spec World Strconv
variable {V : Type}

/-! ## C82 -/

/-- C82: what a log call prints on standard output if its receivers are synchronous console outputs with text
formatters, and outputs that are no consoles: one line per console whose threshold lets it pass, made of the layout of
that output, with the place of the call. -/
theorem C82_console {up : Nat → Bool} {as : List Act} {w : World} (h : Program up as w) {n : Str} {r : Nat}
    (hn : Map.get w.loggers n = some r) {names : List Str} (hpath : Path n names)
    (now : Nat) (stack : List Frame) (ctx : Ctx V) (hctx : ctx.value c!"__caller_info" = .nil)
    (m : Method) (lvl : Level) (fmt : Option Str) (hm : Logs m lvl fmt) (args : List V)
    (k : Nat) (hk : skipOf as r = k) (fr : Frame) (hfr : stack[k]? = some fr)
    {pre post : List Str} {top : Str} {ops : List Nat} (hN : Nearest w lvl names pre top post ops)
    (cs : List (Option (Level × Str))) (hlen : cs.length = ops.length)
    (hcs : ∀ (i : Nat) o t layout, ops[i]? = some o → cs[i]? = some (some (t, layout)) → TextConsole w o t layout)
    (hno : ∀ (i : Nat) o, ops[i]? = some o → cs[i]? = some none → NoConsole w o)
    (tc : Toolchain) (lib : Lib V) (stack' : List Frame) (other : Nat → Formatter V) :
    ∃ e : Event V, e.name = n ∧ e.level = lvl ∧ e.format = fmt.getD [] ∧ e.arguments = args ∧ e.time = now ∧
      Printed lib fr e lvl cs (w.stdout tc lib stack' other (w.call now stack r ctx m args)) := by
  have hml : m.lvlFmt.1 = lvl := by cases hm <;> rfl
  obtain ⟨evt, he⟩ := (C08_output_inheritance h.reach hn hpath now (methodFrame :: stack) ctx
    (by intro v hv; rw [show ctx.value callerInfoKey = .nil from hctx] at hv; simp at hv) m.lvlFmt.1 m.lvlFmt.2 args).1
    pre top post ops (by rw [hml]; exact hN)
  have hcall : w.call now stack r ctx m args = .sent (ops.map fun o => ⟨o, evt⟩) := he
  have hattr := (C11_attribution h.reach hn now stack ctx args).2 m lvl fmt hm
  rw [hcall] at hattr
  simp only [Outcome.deliveries, List.mem_map, forall_exists_index, and_imp, forall_apply_eq_imp_iff₂] at hattr
  obtain ⟨o0, ho0⟩ : ∃ o, o ∈ ops := List.exists_mem_of_ne_nil _ hN.ne
  obtain ⟨a1, a2, a3, a4, a5⟩ := hattr o0 ho0
  refine ⟨evt, a1, a2, a3, a4, a5, ?_⟩
  have key : ∀ o ∈ ops, ∀ t layout, TextConsole w o t layout →
      (lvl < t → w.sendWrites tc lib stack' other ⟨o, evt⟩ = []) ∧
      (t ≤ lvl → ∃ ps ci text, Cut layout ps ∧ Site fr ci ps ∧ Line lib evt ci ps text ∧
        w.sendWrites tc lib stack' other ⟨o, evt⟩ = [text.bytes]) := by
    intro o ho t layout hc
    have := console_line h hn now stack ctx hctx (m := m) (args := args) hk hfr tc lib stack' other (d := ⟨o, evt⟩)
      (by rw [hcall]; simp only [Outcome.deliveries, List.mem_map]; exact ⟨o, ho, rfl⟩) hc
    rwa [show (⟨o, evt⟩ : Delivery V).evt.level = lvl from a2] at this
  have hkind : ∀ o t layout, TextConsole w o t layout → ∃ ob k, w.mgr.oheap[o]? = some ob ∧ ob.kind tc = .console k := by
    intro o t layout hc
    obtain ⟨cfg, i, fo, h1, h2, _⟩ := hc.made
    exact ⟨_, newConsoleOutput cfg, h1, by simp [OutObj.kind, CfgMap.type, h2]⟩
  rw [hcall, World.stdout, Outcome.deliveries]
  clear hN hcall he hattr ho0
  induction ops generalizing cs with
  | nil =>
    cases cs with
    | nil => exact .nil
    | cons _ _ => simp at hlen
  | cons o ops ih =>
    cases cs with
    | nil => simp at hlen
    | cons c cs =>
      have ih := ih cs (by simpa using hlen) (fun i o' t' l' h1 h2 => hcs (i + 1) o' t' l' h1 h2) (fun i o' h1 h2 => hno (i + 1) o' h1 h2)
        (fun o' ho' => key o' (by simp [ho']))
      simp only [List.map_cons, List.flatMap_cons]
      cases c with
      | none =>
        have hquiet : ∃ ob, w.mgr.oheap[o]? = some ob ∧ ∀ k, ob.kind tc ≠ .console k := by
          rcases hno 0 o rfl rfl with ⟨cfg, f, h1, h2⟩ | ⟨flag, f, h1⟩
          · refine ⟨_, h1, fun k hk => ?_⟩
            have h2 : cfg.type ≠ c!"console" := h2
            simp only [OutObj.kind, if_neg h2] at hk
            repeat' (first | (split at hk) | (simp at hk))
          · exact ⟨_, h1, fun k hk => by simp [OutObj.kind] at hk⟩
        obtain ⟨ob, h1, h2⟩ := hquiet
        simp only [h1]
        cases hk : ob.kind tc <;> first | exact absurd hk (h2 _) | exact .other ih
      | some c =>
        obtain ⟨t, layout⟩ := c
        have hc : TextConsole w o t layout := hcs 0 o t layout rfl rfl
        obtain ⟨ob, kd, h1, h2⟩ := hkind o t layout hc
        obtain ⟨k1, k2⟩ := key o (by simp) t layout hc
        simp only [h1, h2]
        by_cases hl : lvl < t
        · rw [k1 hl]
          exact .quiet hl ih
        · obtain ⟨ps, ci, text, c1, c2, c3, c4⟩ := k2 (Int.not_lt.mp hl)
          rw [c4, bytes_eq]
          exact .line (Int.not_lt.mp hl) c1 c2 c3 ih

/-- A program with two consoles, one of which only takes errors. -/
def Demo.consoles : Config where
  formats := [some [(c!"name", c!"f1"), (c!"type", c!"text"), (c!"layout", c!"%{lvl} %{shortfunc}:%{line} %{msg}\n")],
              some [(c!"name", c!"f2"), (c!"type", c!"text"), (c!"layout", c!"%{module} %{msg}\n")]]
  outputs := [some [(c!"name", c!"o1"), (c!"type", c!"console"), (c!"format", c!"f1")],
              some [(c!"name", c!"o2"), (c!"type", c!"console"), (c!"format", c!"f2"), (c!"threshold", c!"error")],
              some [(c!"name", c!"m1"), (c!"type", c!"memory"), (c!"format", c!"f2")]]
  loggers := [⟨c!"root", c!"debug", [c!"o2", c!"o1", c!"m1"]⟩]

def Demo.wc : World := [Act.setConfig Demo.consoles [], .getLogger c!"a/b"].foldl (fun w a => a.run w) (initWorld fun _ => false)

theorem Demo.wc_program : Program (fun _ => false) [.setConfig Demo.consoles [], .getLogger c!"a/b"] Demo.wc := by
  constructor
  · have h0 : Steps {} [] {} := .refl _
    have h1 := h0.tail (a := .registerFormatter c!"text" textCreator) trivial
    have h2 := h1.tail (a := .registerOutput c!"console" okCreator) trivial
    have h3 := h2.tail (a := .registerOutput c!"memory" okCreator) trivial
    have h4 := h3.tail (a := .registerOutput c!"size_rolling_file" okCreator) trivial
    have h5 := h4.tail (a := .registerOutput c!"time_rolling_file" okCreator) trivial
    have h6 := h5.tail (a := .registerOutput c!"syslog" (syslogCreator fun _ => false)) trivial
    have h7 := h6.tail (a := .setConfig initConfig []) (List.Perm.refl _)
    have h8 := h7.tail (a := .setConfig Demo.consoles []) (List.Perm.refl _)
    exact h8.tail (a := .getLogger c!"a/b") trivial
  · intro a ha
    simp only [List.mem_cons, List.not_mem_nil, or_false] at ha
    rcases ha with rfl | rfl <;> trivial

/-- The hypotheses of `C82_console` are met: two text consoles, with different thresholds, and an output that is none. -/
example : NoConsole Demo.wc 2 := .inl ⟨_, _, rfl, by decide⟩
example : TextConsole Demo.wc 0 6 c!"%{module} %{msg}\n" ∧ TextConsole Demo.wc 1 1 c!"%{lvl} %{shortfunc}:%{line} %{msg}\n" :=
  ⟨⟨some [(c!"name", c!"o2"), (c!"type", c!"console"), (c!"format", c!"f2"), (c!"threshold", c!"error")], 0,
      ⟨some [(c!"name", c!"f2"), (c!"type", c!"text"), (c!"layout", c!"%{module} %{msg}\n")], 0⟩,
      rfl, rfl, by decide, threshold_named _, rfl, rfl, rfl⟩,
   ⟨some [(c!"name", c!"o1"), (c!"type", c!"console"), (c!"format", c!"f1")], 1,
      ⟨some [(c!"name", c!"f1"), (c!"type", c!"text"), (c!"layout", c!"%{lvl} %{shortfunc}:%{line} %{msg}\n")], 2⟩,
      rfl, rfl, by decide, threshold_named _, rfl, rfl, rfl⟩⟩

/-- An error of "a/b" is printed twice, a warning once. -/
example : Map.get Demo.wc.loggers c!"a/b" = some 2 ∧
    Demo.wc.stdout .since113 Demo.lib [] (fun _ _ => []) (Demo.wc.call 0 [⟨c!"main.go", 12, c!"main.main"⟩] 2 [] (.errorf c!"hi") []) =
      [Str.bytes c!"a/b hi\n", Str.bytes c!"ERR main:%v hi\n"] ∧
    Demo.wc.stdout .since113 Demo.lib [] (fun _ _ => []) (Demo.wc.call 0 [⟨c!"main.go", 12, c!"main.main"⟩] 2 [] (.warnf c!"hi") []) =
      [Str.bytes c!"WRN main:%v hi\n"] := by decide +kernel

/-! ## C81 -/

/-- C81: a program that configures nothing sees every message of every logger once on standard output, as a line
that shows time, level, process, logger, message and the place of the call. -/
theorem C81_default {up : Nat → Bool} {as : List Act} {w : World} (hw : Steps {} (initActs up ++ as) w) (hask : ∀ a ∈ as, Asks a)
    {n : Str} {r : Nat} (hn : Map.get w.loggers n = some r)
    (now : Nat) (stack : List Frame) (ctx : Ctx V) (hctx : ctx.value c!"__caller_info" = .nil)
    (m : Method) (lvl : Level) (fmt : Option Str) (hm : Logs m lvl fmt) (args : List V)
    (k : Nat) (hk : skipOf as r = k) (fr : Frame) (hfr : stack[k]? = some fr)
    (tc : Toolchain) (lib : Lib V) (stack' : List Frame) (other : Nat → Formatter V) :
    ∃ name msg pkg fun_ file, (lvl, name) ∈ [((2 : Int), c!"TRACE"), (3, c!"DEBUG"), (4, c!"INFO"), (5, c!"WARN"), (6, c!"ERROR"), (7, c!"CRITICAL")] ∧
      Message lib fmt args msg ∧ (QualName fr.func pkg fun_ ∨ ((∀ p f, ¬ QualName fr.func p f) ∧ pkg = c!"???" ∧ fun_ = c!"???")) ∧ BaseName fr.file file ∧
      w.stdout tc lib stack' other (w.call now stack r ctx m args) = [utf8 (
        lib.timeFormat now c!"2006-01-02T15:04:05.000Z07:00" ++ c!"|" ++ lib.sprintf c!"%-5s" [.str name] ++
        c!"|" ++ lib.sprintf c!"%6d" [.int lib.pid] ++ c!"|" ++ n ++ c!" >> " ++ msg ++ c!" (" ++ fun_ ++
        c!"@" ++ pkg ++ c!"/" ++ file ++ c!":" ++ lib.sprintf c!"%v" [.int fr.line] ++ c!") \n")] := by
  have hP : Program up as w := ⟨hw, by
    intro a ha
    have := hask a ha
    cases a <;> simp only [Asks] at this <;> trivial⟩
  have inv := reach_inv hP.reach
  obtain ⟨names, hpath⟩ := path_exists n
  have hl1 : (1 : Int) ≤ lvl := by cases hm <;> decide
  obtain ⟨hmgr, pre, hN⟩ := def_nearest inv (defInv_steps hP.after hask) hn hpath hl1
  have hc := rootMgr_console up hmgr
  obtain ⟨e, e1, e2, e3, e4, e5, hpr⟩ := C82_console hP hn hpath now stack ctx hctx m lvl fmt hm args k hk fr hfr hN
    [some (1, initLayout)] rfl (by
      intro i o t l h1 h2
      cases i with
      | zero =>
        simp at h1 h2; obtain ⟨h2, h3⟩ := h2; subst h1; subst h2; subst h3; exact hc
      | succ i => simp at h1) (by intro i o h1 h2; cases i <;> simp at h2) tc lib stack' other
  generalize w.stdout tc lib stack' other (w.call now stack r ctx m args) = out at hpr
  cases hpr with
  | quiet h _ => exact absurd hl1 (Int.not_le.mpr h)
  | @line _ _ _ out ps ci text _ hcut hsite hline hrest =>
    cases hrest
    have hps : ps = initPieces := by
      have h1 := initLayout_parts
      cases hp : parser initLayout with
      | none => rw [hp] at h1; simp at h1
      | some parts =>
        rw [hp] at h1
        injection h1 with h1
        rw [(C33_lossless hp).2.2 ps hcut]; exact h1
    subst hps
    obtain ⟨s1, s2⟩ := hsite
    obtain ⟨f1, f2⟩ := s1 ⟨c!"line", none, by decide, by decide⟩
    obtain ⟨q1, q2⟩ := s2 ⟨c!"longpkg", none, by decide, by decide⟩
    refine ⟨Level.toStr e.level, e.message lib, ci.pkg, ci.fun_, goBase fr.file, ?_, ?_, ?_, goBase_spec _, ?_⟩
    · rw [e2]
      cases hm <;> decide
    · rw [← e4]; exact message_of lib e3
    · by_cases hq : ∃ p f, QualName fr.func p f
      · obtain ⟨p, f, hq⟩ := hq
        obtain ⟨g1, g2⟩ := q1 p f hq
        rw [g1, g2]; exact .inl hq
      · have hno : ∀ p f, ¬ QualName fr.func p f := fun p f h => hq ⟨p, f, h⟩
        exact .inr ⟨hno, q2 hno⟩
    · rw [init_line lib hline, e1, e5, f1, f2]

/-- A program that asks for one logger and logs. -/
example : let w := ((initWorld fun _ => false).getLogger c!"app/db").2
    (∃ as, Steps {} (initActs (fun _ => false) ++ as) w ∧ ∀ a ∈ as, Asks a) ∧ Map.get w.loggers c!"app/db" = some 2 ∧
    w.stdout .since113 Demo.lib [] (fun _ _ => []) (w.call 0 [⟨c!"src/main.go", 12, c!"example.com/app.run"⟩] 2 [] (.tracef c!"hi") []) =
      [Str.bytes (defaultTimeLayout ++ c!"|%-5s|%6d|app/db >> hi (run@example.com/app/main.go:%v) \n")] := by
  refine ⟨⟨[.getLogger c!"app/db"], ?_, by simp [Asks]⟩, by decide +kernel, by decide +kernel⟩
  have h0 : Steps {} [] {} := .refl _
  have h1 := h0.tail (a := .registerFormatter c!"text" textCreator) trivial
  have h2 := h1.tail (a := .registerOutput c!"console" okCreator) trivial
  have h3 := h2.tail (a := .registerOutput c!"memory" okCreator) trivial
  have h4 := h3.tail (a := .registerOutput c!"size_rolling_file" okCreator) trivial
  have h5 := h4.tail (a := .registerOutput c!"time_rolling_file" okCreator) trivial
  have h6 := h5.tail (a := .registerOutput c!"syslog" (syslogCreator fun _ => false)) trivial
  have h7 := h6.tail (a := .setConfig initConfig []) (List.Perm.refl _)
  exact h7.tail (a := .getLogger c!"app/db") trivial

end Log4g
