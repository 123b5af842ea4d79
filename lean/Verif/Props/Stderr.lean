import Verif.Lemmas.Stderr
import Verif.Lemmas.FairRuns
import Verif.Props.Machine

/-! # C127: what is reported on standard error -/

namespace Log4g
open Spec Strconv
open scoped List
variable {V : Type}

namespace Demo

/-- The file is not made: the directory cannot be. -/
def lostIO : List ShLab := [.sys 1 ⟨.mkdirAll traceR.dirPerm, false⟩, .ret 1 [104, 105, 10] (0, false)]

theorem lost_io : ∃ s, ShExec 0o022 demoRLib (writers [logR, traceR]) { vol := fvol.vol } (.start 1 [104, 105, 10] :: lostIO) s ∧ (∀ q, (s.wr q).job = none) ∧ s.vol = fvol.vol := by
  have h0 : ShExec 0o022 demoRLib (writers [logR, traceR]) { vol := fvol.vol } [] _ := .start
  have h1 := h0.step (.start (i := 1) (c := traceR) (msg := [104, 105, 10]) rfl rfl)
  have h2 := h1.step (.sys (i := 1) (o := .mkdirAll traceR.dirPerm) (r := false) rfl ⟨rfl, rfl⟩)
  have h3 := h2.step (.ret (i := 1) (res := (0, false)) rfl)
  refine ⟨_, h3, fun q => ?_, rfl⟩
  by_cases e : q = 1
  · subst e; rfl
  · simp [Shared.set, e]

/-- When the configuration is set. -/
def readyM (w : World) : Machine Nat := { p := { w := w }, vol := fun _ => fvol.vol }

/-- The configuration is set, and nothing else. -/
theorem set_up : EExec env fhost (newMachine (fun _ => false) fun _ => fvol.vol) (fsetup.map .prog) (readyM wf)
    [.path c!"logs/", .path c!"logs/"] := by
  have hc0 : Calm (newMachine (fun _ => false) fun _ => fvol.vol : Machine Nat) := fun _ => ⟨rfl, rfl⟩
  have a0 : EExec env fhost (newMachine (fun _ => false) fun _ => fvol.vol) [] _ [] := .nil
  have p1 : PStep env (newProgram fun _ => false) (.act (.setConfig filed [])) { w := (Act.setConfig filed []).run (initWorld fun _ => false) } :=
    ⟨rfl, .act (a := .setConfig filed []) (List.Perm.refl _) trivial (by simp [Act.panics]) (fun _ => rfl)⟩
  have p2 : PStep env { w := (Act.setConfig filed []).run (initWorld fun _ => false) } (.act (.getLogger c!"a")) ({ w := wf } : PState Nat) :=
    ⟨rfl, .act (a := .getLogger c!"a") trivial trivial (by simp [Act.panics]) (fun _ => rfl)⟩
  have g1 : ∀ o, (({ w := (Act.setConfig filed []).run (initWorld fun _ => false) } : PState Nat)).given env o = [] := by
    intro o; unfold PState.given; split <;> rfl
  have g2 : ∀ o, (({ w := wf } : PState Nat)).given env o = [] := by intro o; unfold PState.given; split <;> rfl
  have a1 := a0.snoc (.prog (host := fhost) p1 (calm_lets hc0 _) fun o c _ => by rw [g1]; exact (given_first o).symm) .act
  have a2 := a1.snoc (.prog (host := fhost) p2 (calm_lets hc0 _) fun o c _ => by rw [g2]; exact (g1 o).symm) .act
  exact a2

/-- A message is logged, and the write of the synchronous output fails; the call returns. -/
theorem lost : ∃ tr m, MExec env fhost (readyM wf) tr m ∧
    progOf tr = .out 0 .begin :: logged.take 5 ++ [.plain 0 1 (.send hi), .ret 0, .out 0 (.took (some hi))] ∧
    ioIn 0 tr = .start 1 [104, 105, 10] :: lostIO ∧ m.p.w = wf ∧ m.vol 0 = fvol.vol ∧ Calm m := by
  have hw := wf_files
  have g0 := fbegun
  have su := eexec_mexec set_up
  generalize wf = w at hw g0 su ⊢
  obtain ⟨p1, p2, p3, p4, p5, p6, p7, a, w1, b, w2, c, w3, d, ⟨f1, f2, f3, f4, f5, f6, f7⟩, ⟨n2, n4, n6⟩, ⟨h1, h2, h3, h4, h5, h6, h7⟩, ⟨r1, r2, r3, r4, r5, r6, r7⟩⟩ := fprogram hw
  obtain ⟨s, hs, hj, hv⟩ := lost_io
  have s1 := hs.mono (writers_of hw)
  have hc0 : Calm (readyM w) := fun _ => ⟨rfl, rfl⟩
  obtain ⟨x1, hc1⟩ := quiet_lift (host := fhost) (mexec_inv su).prog hc0 a (hw.same rfl f1 (by rw [h1]; rfl) (by rw [r1]; rfl))
  have y1 := su.trans x1
  obtain ⟨u1, m1, x2, i1, i2, i3, i4, hc2, _⟩ := write_lift y1 hc1 w1 n2 (o := 1) (k := 0) (c := traceR) (bs := [104, 105, 10]) (by rw [f2]; exact hw.trace) rfl
    (by rw [hw.given1 f2, hw.given1 f1, r2, r1]; rfl) (t := lostIO) (s := s) (by rw [f2]; exact (fview p1).symm ▸ s1)
    (fun l hl => by
      rcases List.mem_cons.mp hl with rfl | hl
      · exact .inl ⟨_, _, rfl⟩
      · rw [List.mem_singleton.mp hl]; exact .inr ⟨_, _, _, rfl⟩) hj
  have y2 := y1.trans x2
  obtain ⟨x3, hc3⟩ := quiet_lift (host := fhost) (mexec_inv y2).prog hc2 (run_from i3 b) (hw.same (by rw [i3, f2]) f3 (by rw [i3, h2, h3]) (by rw [i3, r3]))
  refine ⟨_, _, (x1.trans x2).trans x3, ?_, ?_, f3, ?_, hc3⟩
  · simp only [progOf_append, i1]; rfl
  · simp only [ioIn_append, i2, io_prog, List.append_nil, List.nil_append]
  · show m1.vol 0 = _
    have := congrArg Shared.vol i4
    rw [← hv, ← this]; rfl

theorem sys_place {env : PEnv V} {host : Host} {m0 m : Machine V} {tr : List (MLab V)} (h : MExec env host m0 tr m) {k o : Nat} {x : (op : Sys) × op.Resp} (hx : .sys k o x ∈ tr) :
    ∃ d, k = host.place d := by
  induction h with
  | nil => cases hx
  | snoc _ hs ih =>
    rcases List.mem_append.mp hx with hx | hx
    · exact ih hx
    · have hx := List.mem_singleton.mp hx
      cases hs <;> cases hx
      exact ⟨_, rfl⟩

theorem sys_io {tr : List (MLab V)} {k o : Nat} {x : (op : Sys) × op.Resp} (hx : .sys k o x ∈ tr) : .sys o x ∈ ioIn k tr := by
  unfold ioIn
  exact List.mem_flatMap.mpr ⟨_, hx, by simp⟩

theorem lost_returned : Returned 0 (fsetup ++ (.out 0 .begin :: logged.take 5 ++ [.plain 0 1 (.send hi), .ret 0, .out 0 (.took (some hi))])) := by
  have h0 : Returned 0 ([.out 0 (.took (some hi))] : List (PLab Nat)) := returned_cons (by simp [Begins]) (returned_nil 0)
  have h1 : Returned 0 ([.ret 0, .out 0 (.took (some hi))] : List (PLab Nat)) := returned_cons (by simp [Begins]) h0
  have h2 : Returned 0 ([.plain 0 1 (.send hi), .ret 0, .out 0 (.took (some hi))] : List (PLab Nat)) := returned_cons (by simp [Begins]) h1
  exact returned_cons (by simp [Begins]) (returned_cons (by simp [Begins]) (returned_cons (by simp [Begins]) (returned_cons (by simp) (returned_cons (by simp [Begins])
    (returned_cons (by simp [Begins]) (returned_cons (by simp [Begins]) (returned_cons (by simp [Begins]) h2)))))))

/-- A root logger without outputs. -/
def deaf : Config := { loggers := [⟨c!"root", c!"all", []⟩] }

def wq : World := [Act.setConfig deaf [], .getLogger c!"a"].foldl (fun w a => a.run w) (initWorld fun _ => false)

/-- A message is logged to it. -/
theorem deaf_run : ∃ tr m m', EExec env fhost (newMachine (fun _ => false) fun _ => fvol.vol) tr m [] ∧ MStep env fhost m (.prog (.log 0 [])) m' ∧
    Reports env m m' (.prog (.log 0 [])) [.warning c!"a"] := by
  have hc0 : Calm (newMachine (fun _ => false) fun _ => fvol.vol : Machine Nat) := fun _ => ⟨rfl, rfl⟩
  have a0 : EExec env fhost (newMachine (fun _ => false) fun _ => fvol.vol) [] _ [] := .nil
  have p1 : PStep env (newProgram fun _ => false) (.act (.setConfig deaf [])) { w := (Act.setConfig deaf []).run (initWorld fun _ => false) } :=
    ⟨rfl, .act (a := .setConfig deaf []) (List.Perm.refl _) trivial (by simp [Act.panics]) (fun _ => rfl)⟩
  have p2 : PStep env { w := (Act.setConfig deaf []).run (initWorld fun _ => false) } (.act (.getLogger c!"a")) ({ w := wq } : PState Nat) :=
    ⟨rfl, .act (a := .getLogger c!"a") trivial trivial (by simp [Act.panics]) (fun _ => rfl)⟩
  have g1 : ∀ (w : World) o, ({ w := w } : PState Nat).given env o = [] := by intro w o; unfold PState.given; split <;> rfl
  have hp : wq.printf 0 [] 1 ([] : Ctx Nat) Level.Info c!"hi" [] = .sent [] := by rfl
  have a1 := a0.snoc (.prog (host := fhost) p1 (calm_lets hc0 _) fun o c _ => by rw [g1]; exact (given_first o).symm) .act
  have a2 := a1.snoc (.prog (host := fhost) p2 (calm_lets hc0 _) fun o c _ => by rw [g1]; exact (g1 _ o).symm) .act
  have e : wq.printfWarned 1 Level.Info = [.warning c!"a"] := by decide +kernel
  refine ⟨_, _, _, a2, .prog (host := fhost) ⟨rfl, .log (t := 0) (ds := []) rfl (show 1 < wq.heap.length by decide) hp⟩ (calm_lets hc0 _) fun o c _ => rfl,
    by rw [← e]; exact .log (show 1 < wq.heap.length by decide) hp⟩

end Demo

variable {env : PEnv V} {host : Host} {up : Nat → Bool} {v0 : Nat → Volume} {tr : List (MLab V)} {m : Machine V} {rs : List Report}

/-- C127, refuted: a goroutine has logged a message to an output, and the call has returned; the write of it has failed, nothing was
written to any file; and nothing has been reported, except that paths were printed. -/
theorem C127_lost_refuted : ∃ (env : PEnv Nat) (host : Host) (up : Nat → Bool) (v0 : Nat → Volume) (tr : List (MLab Nat)) (m : Machine Nat) (rs : List Report) (t o k : Nat) (e : Event Nat)
    (bs : Bytes), EExec env host (newMachine up v0) tr m rs ∧ sentBy t o (progOf tr) = [e] ∧ Returned t (progOf tr) ∧ bs ≠ [] ∧ ShLab.ret o bs (0, false) ∈ ioIn k tr ∧
      (∀ q, (m.wr q).job = none) ∧ (m.vol k = v0 k) ∧ (∀ x ∈ rs, ∃ d, x = .path d) := by
  obtain ⟨tr, m, h, e1, e2, hw, hv, hc⟩ := Demo.lost
  obtain ⟨rs, h'⟩ := mexec_eexec h
  have hx := Demo.set_up.trans h'
  have inv := eexec_inv hx
  have hio : ioIn 0 (Demo.fsetup.map .prog ++ tr) = .start 1 [104, 105, 10] :: Demo.lostIO := by rw [ioIn_append, Demo.io_prog, e2]; rfl
  have hpr : progOf (Demo.fsetup.map .prog ++ tr) = Demo.fsetup ++ (.out 0 .begin :: Demo.logged.take 5 ++ [.plain 0 1 (.send Demo.hi), .ret 0, .out 0 (.took (some Demo.hi))]) := by
    rw [progOf_append, e1]; rfl
  refine ⟨_, _, _, _, _, m, _, 0, 1, 0, Demo.hi, [104, 105, 10], hx, by rw [hpr]; rfl, by rw [hpr]; exact Demo.lost_returned, by simp, by rw [hio]; simp [Demo.lostIO],
    fun q => (hc q).1, hv, ?_⟩
  intro x hxm
  cases x with
  | path d => exact ⟨d, rfl⟩
  | removal n =>
    have : n ∈ removalsIn (([.path c!"logs/", .path c!"logs/"] : List Report) ++ rs) := List.mem_filterMap.mpr ⟨_, hxm, rfl⟩
    rw [inv.removals] at this
    obtain ⟨l, hl, e⟩ := List.mem_filterMap.mp this
    split at e
    · rename_i k o n'
      obtain ⟨d, hd⟩ := Demo.sys_place (eexec_mexec hx) hl
      have := Demo.sys_io hl
      rw [show k = 0 from hd, hio] at this
      simp [Demo.lostIO] at this
    · cases e
  | warning n =>
    have h1 : n ∈ warningsIn (([.path c!"logs/", .path c!"logs/"] : List Report) ++ rs) := List.mem_filterMap.mpr ⟨_, hxm, rfl⟩
    have h2 := inv.warnings
    have h3 : unsent (Demo.fsetup.map .prog ++ tr) = 0 := by
      unfold unsent
      rw [List.length_eq_zero_iff, List.filter_eq_nil_iff]
      intro l hl
      split
      · rename_i t
        have : .log t [] ∈ progOf (Demo.fsetup.map .prog ++ tr) := List.mem_flatMap.mpr ⟨_, hl, by simp⟩
        rw [hpr] at this
        simp [Demo.fsetup, Demo.logged] at this
      · simp
    rw [h3] at h2
    rw [List.length_eq_zero_iff.mp (by omega : (warningsIn _).length = 0)] at h1
    cases h1

/-- C127, refuted: a program has done nothing but set a configuration and get a logger, and something is on standard error. -/
theorem C127_quiet_refuted : ∃ (env : PEnv Nat) (host : Host) (up : Nat → Bool) (v0 : Nat → Volume) (tr : List (MLab Nat)) (m : Machine Nat) (rs : List Report),
    EExec env host (newMachine up v0) tr m rs ∧ (∀ l ∈ tr, ∃ a, l = .prog (.act a)) ∧ rs ≠ [] :=
  ⟨_, _, _, _, _, _, _, Demo.set_up, by simp [Demo.fsetup], by simp⟩

/-- C127, what holds: in any program, with any schedule and whatever the operating system answers, the removals of backups that failed
are reported, one line each and in their order; for each rolling output that was made the directory of its file is printed, in the order in which they were made;
and there is at most one warning for each message that went to no output.  There is nothing else. -/
theorem C127_reports_partial (h : EExec env host (newMachine up v0) tr m rs) :
    removalsIn rs = removalsFailed tr ∧ (∃ os, RollingOuts env.tc m.p.w os ∧ pathsIn rs = os.map (·.2.dirPath)) ∧ (warningsIn rs).length ≤ unsent tr := by
  have inv := eexec_inv h
  obtain ⟨os, h1, h2⟩ := rollingOuts_of env.tc m.p.w
  refine ⟨inv.removals, ⟨os, h1, ?_⟩, inv.warnings⟩
  rw [inv.paths, h2]
  refine List.map_congr_left fun x hx => ?_
  exact (rollOf_usual (rolling_iff.mp ((h1.all x.1 x.2).mp hx))).1

example : ∃ tr m rs, EExec Demo.env Demo.fhost (newMachine (fun _ => false) fun _ => Demo.fvol.vol) tr m rs ∧ pathsIn rs = [c!"logs/", c!"logs/"] := ⟨_, _, _, Demo.set_up, rfl⟩

/-- C127, what holds: a message logged to a logger is warned about if all loggers from this one up to the root
let it pass and have no outputs, with the name of this logger; it goes to no output then.  Otherwise there is no warning. -/
theorem C127_call_partial {w : World} (h : Reach w) {n : Str} {r : Nat} (hr : Map.get w.loggers n = some r) {names : List Str} (hp : Path n names) (lvl : Level) :
    (Unheard w lvl names → w.printfWarned r lvl = [.warning n] ∧
      ∀ now stack (ctx : Ctx V) fmt args ds, w.printf now stack r ctx lvl fmt args = .sent ds → ds = []) ∧
    (¬ Unheard w lvl names → w.printfWarned r lvl = []) := by
  have winv := reach_inv h
  rcases printfWarned_spec winv hp hr lvl with ⟨hu, e⟩ | ⟨hu, e⟩
  · exact ⟨fun _ => ⟨e, fun _ _ _ _ _ _ he => warned_unsent winv hp hr he hu⟩, fun h => absurd hu h⟩
  · exact ⟨fun h => absurd h hu, fun _ => e⟩

example : Reach Demo.wq ∧ Map.get Demo.wq.loggers c!"a" = some 1 ∧ Path c!"a" [c!"a", c!"root"] ∧ Unheard Demo.wq Level.Info [c!"a", c!"root"] := by
  obtain ⟨as, h⟩ := initWorld_reach fun _ => false
  refine ⟨⟨_, (h.tail (a := .setConfig Demo.deaf []) (List.Perm.refl _)).tail (a := .getLogger c!"a") trivial⟩, rfl, ?_, ?_⟩
  · refine .step (by decide) (.inr ⟨?_, rfl⟩) .root
    rintro q ⟨hq, c, rest, _, e⟩
    have := congrArg List.length e
    have h0 : q.length ≠ 0 := fun h => hq (List.eq_nil_of_length_eq_zero h)
    simp at this; omega
  · intro x hx
    simp only [List.mem_cons, List.not_mem_nil, or_false] at hx
    rcases hx with rfl | rfl
    · exact ⟨⟨_, rfl, rfl⟩, 1, rfl, by decide +kernel⟩
    · exact ⟨⟨_, rfl, rfl⟩, 0, rfl, by decide +kernel⟩

/-- C127, what holds: at any moment of any program, a message logged is warned about if all loggers from the one it was logged to up to the root
let it pass and have no outputs, with the name of the logger it was logged to; it goes to no output then.  Otherwise there is no warning. -/
theorem C127_warned_partial (h : EExec env host (newMachine up v0) tr m rs) {t : Nat} {ds : List (World.Delivery V)} {m' : Machine V} {xs : List Report}
    (hx : Reports env m m' (.prog (.log t ds)) xs) :
    ∃ now stack n r names ctx lvl fmt args, Map.get m.p.w.loggers n = some r ∧ Path n names ∧ m.p.w.printf now stack r ctx lvl fmt args = .sent ds ∧
      (Unheard m.p.w lvl names → xs = [.warning n] ∧ ds = []) ∧ (¬ Unheard m.p.w lvl names → xs = []) := by
  have winv := (pexec_inv (mexec_inv (eexec_mexec h)).prog).world
  generalize hl : MLab.prog (PLab.log t ds) = lab at hx
  cases hx with
  | @log t' now stack r ctx lvl fmt args ds' hr he =>
    cases hl
    obtain ⟨n, ps, hn, hp⟩ := logger_path winv hr
    refine ⟨now, stack, n, r, ps, ctx, lvl, fmt, args, hn, hp, he, fun hu => ⟨?_, warned_unsent winv hp hn he hu⟩, fun hu => ?_⟩
    · rcases printfWarned_spec winv hp hn lvl with ⟨_, e⟩ | ⟨hu', _⟩
      · exact e
      · exact absurd hu hu'
    · rcases printfWarned_spec winv hp hn lvl with ⟨hu', _⟩ | ⟨_, e⟩
      · exact absurd hu' hu
      · exact e
  | @quiet l h1 h2 => cases hl; exact absurd rfl (h2 _ _)
  | _ => cases hl

example : ∃ tr m m' rs xs, EExec Demo.env Demo.fhost (newMachine (fun _ => false) fun _ => Demo.fvol.vol) tr m rs ∧ Reports Demo.env m m' (.prog (.log 0 [])) xs ∧ xs = [.warning c!"a"] := by
  obtain ⟨tr, m, m', h1, _, h2⟩ := Demo.deaf_run
  exact ⟨tr, m, m', _, _, h1, h2, rfl⟩

end Log4g
