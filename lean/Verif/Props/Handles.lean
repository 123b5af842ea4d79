import Verif.Lemmas.Handles
import Verif.Props.Shared
import Verif.Props.Machine

/-! # C122, C123: open files -/

namespace Log4g
open Spec
variable {V : Type}

/-- C122, one writer: whatever it is given to write, whatever the operating system answers and wherever the process dies, it opens a
file only when it has none open; it writes to the open file only; and while a file is open it renames, removes and reads none. -/
theorem C122_writer {umask : Nat} {lib : RLib} {c : RCfg} {d0 d d' : Disk} {ms : List Bytes} {tr tr' : STrace} {rw : RW} {msg : Bytes}
    (h : Session umask lib c d0 ms tr d rw) (hs : Stops umask (c.write lib rw msg) d tr' d') : ∃ f, InOrder none (tr ++ tr') f := by
  obtain ⟨f, a, b⟩ := tries_inOrder h
  obtain ⟨f', x⟩ := ordered_stops hs (ordered_write lib c rw msg b)
  exact ⟨f', inOrder_append a x⟩

/-- The hypotheses of `C122_writer` are met: the writer rolls. -/
example : Session 0o022 demoRLib demoRCfg demoDisk0.disk [[2], [3], [4], [5, 5, 5]] demoRun4.tr demoRun4.L'.disk demoRun4.rw ∧
    Stops 0o022 (demoRCfg.write demoRLib demoRun4.rw [6]) demoRun4.L'.disk demoStop5.tr demoStop5.L'.disk ∧ rolls demoRun4.tr = 2 ∧ openCount demoRun4.tr = 3 :=
  ⟨demoRun4.session, demoStop5.stops, by decide +kernel, by decide +kernel⟩

/-- C122, the `Close` of a writer, which no output calls: a writer may be closed and written to in any order, and the calls still come in order. -/
theorem C122_closes {umask : Nat} {lib : RLib} {c : RCfg} {d0 d d' : Disk} {tr tr' : STrace} {rw : RW} {msg : Bytes}
    (h : Uses umask lib c d0 tr d rw) (hs : Stops umask (c.write lib rw msg) d tr' d') : ∃ f, InOrder none (tr ++ tr') f := by
  obtain ⟨f, a, b⟩ := uses_inOrder h
  obtain ⟨f', x⟩ := ordered_stops hs (ordered_write lib c rw msg b)
  exact ⟨f', inOrder_append a x⟩

/-- C122, the `Close` of a writer: afterwards it has no file open, even if it reports an error; and it has changed no file. -/
theorem C122_close {umask : Nat} {lib : RLib} {c : RCfg} {d0 d d' : Disk} {tr tr' : STrace} {rw rw' : RW} {ok : Bool}
    (h : Uses umask lib c d0 tr d rw) (hr : Runs umask (RCfg.close rw) d tr' (ok, rw') d') :
    InOrder none (tr ++ tr') none ∧ openCount (tr ++ tr') = closeCount (tr ++ tr') ∧ d' = d := by
  obtain ⟨f, a, b⟩ := uses_inOrder h
  obtain ⟨h1, h2, _⟩ := close_runs b hr
  have hi := inOrder_append a h1
  refine ⟨hi, ?_, h2⟩
  have := inOrder_counts hi
  simpa using this

/-- The hypotheses of `C122_closes` and `C122_close` are met: the writer has rolled, is closed, and closed again. -/
example : ∃ tr1 tr2 d rw, Uses 0o022 demoRLib demoRCfg demoDisk0.disk tr1 d rw ∧ openCount tr1 = 3 ∧ Runs 0o022 (RCfg.close rw) d tr2 (true, { rw with file := none }) d ∧
    closeCount tr2 = 1 ∧ Runs 0o022 (RCfg.close { rw with file := none }) d [] (true, { rw with file := none }) d := by
  have hf : demoRun4.rw.file = some .opened := by decide +kernel
  refine ⟨demoRun4.tr, [⟨.close demoRun4.rw.name, true⟩], _, _, session_uses demoRun4.session, by decide +kernel, ?_, by rfl, .ret⟩
  unfold RCfg.close
  rw [hf]
  exact .call rfl .ret

/-- C122, several writers in one directory, whose programs may end and be started again: each of them by itself; and it has a file
open if and only if it has opened one more than it has closed. -/
theorem C122_shared {umask : Nat} {lib : RLib} {cs : Nat → Option RCfg} {v : Volume} {tr : List ShLab} {s : Shared}
    (h : ShExec umask lib cs { vol := v } tr s) (i : Nat) : (∃ f, InOrder none (callsSince i tr) f) ∧
      openCount (callsSince i tr) = closeCount (callsSince i tr) + if (s.wr i).fd = none then 0 else 1 := by
  obtain ⟨f, a, b⟩ := shared_keeps h i
  refine ⟨⟨f, a⟩, ?_⟩
  have := inOrder_counts a
  rw [if_pos rfl, Nat.add_zero] at this
  rw [this]
  simp only [b.fd]

/-- The hypothesis of `C122_shared` is met: two writers that roll at the same time; one of them ends. -/
example : ShExec 0o022 demoRLib zippedCfg { vol := pairVol.vol } zippedRun.tr zippedRun.L'.shared ∧
    openCount (callsSince 0 zippedRun.tr) = 2 ∧ closeCount (callsSince 0 zippedRun.tr) = 1 ∧ openCount (callsSince 1 zippedRun.tr) = 1 ∧ closeCount (callsSince 1 zippedRun.tr) = 0 :=
  ⟨zippedRun.exec, by decide +kernel, by decide +kernel, by decide +kernel, by decide +kernel⟩

variable {env : PEnv V} {host : Host} {up : Nat → Bool} {v0 : Nat → Volume} {tr : List (MLab V)} {m : Machine V}

/-- C122, a whole program: the calls each of its outputs makes come in order, whatever goroutines do; so an output has at most one file
open. -/
theorem C122_program (h : MExec env host (newMachine up v0) tr m) (o : Nat) : (∃ f, InOrder none (callsBy o tr) f) ∧
    closeCount (callsBy o tr) ≤ openCount (callsBy o tr) ∧ openCount (callsBy o tr) ≤ closeCount (callsBy o tr) + 1 := by
  obtain ⟨f, a, _⟩ := machine_keeps h o
  have := inOrder_counts a
  rw [if_pos rfl, Nat.add_zero] at this
  refine ⟨⟨f, a⟩, ?_, ?_⟩ <;> split at this <;> omega

/-- The hypothesis of `C122_program` is met. -/
example : ∃ up v0 tr m, MExec Demo.env Demo.fhost (newMachine up v0) tr m ∧ openCount (callsBy 0 tr) = 2 ∧ closeCount (callsBy 0 tr) = 1 := by
  obtain ⟨tr1, m1, tr2, m2, h1, h2, e1, e2, e3, e4, f1, f2, g1, g2⟩ := Demo.filed_run
  refine ⟨_, _, tr1 ++ tr2, m2, h1.trans h2, ?_⟩
  rw [callsBy_place (k := 0) (fun _ => rfl) (h1.trans h2), ioIn_append, e3, e4]
  decide +kernel

/-- C123 is false: when `Close` of the manager has returned, all goroutines are idle and no worker is left, the outputs still have the
files open; no call failed. -/
theorem C123_close_refuted : ∃ (up : Nat → Bool) (v0 : Nat → Volume) (tr : List (MLab Nat)) (m : Machine Nat) (a : List (PLab Nat)),
    MExec Demo.env Demo.fhost (newMachine up v0) tr m ∧ CloseCall 1 [0, 1] a (progOf tr) ∧
    ∀ o, o = 0 ∨ o = 1 → LogCallsOk (callsBy o tr) ∧ (m.wr o).job = none ∧ openCount (callsBy o tr) = closeCount (callsBy o tr) + 1 := by
  obtain ⟨tr1, m1, tr2, m2, h1, h2, e1, e2, e3, e4, f1, f2, g1, g2⟩ := Demo.filed_run
  refine ⟨_, _, tr1 ++ tr2, m2, Demo.fsetup ++ Demo.flogged, h1.trans h2, ⟨Demo.fclosing, by rw [progOf_append, e1, e2]; simp, by simp [Demo.fclosing]⟩, fun o ho => ?_⟩
  rw [callsBy_place (k := 0) (fun _ => rfl) (h1.trans h2), ioIn_append, e3, e4]
  refine ⟨?_, (g2 o).1, ?_⟩
  · rcases ho with rfl | rfl <;> exact logCallsOkB_ok (by decide +kernel)
  · rcases ho with rfl | rfl <;> decide +kernel

/-- C123, what is the case: an output that has written something has its file open until it next writes — that its manager is
closed, or anything else happens, does not close it. -/
theorem C123_held_partial {a b : List (MLab V)} {k o n : Nat} {bs : Bytes} (h : MExec env host (newMachine up v0) (a ++ .done k o bs (n, true) :: b) m)
    (hb : ∀ j x, MLab.sys j o x ∉ b) : openCount (callsBy o (a ++ .done k o bs (n, true) :: b)) = closeCount (callsBy o (a ++ .done k o bs (n, true) :: b)) + 1 := by
  have e : a ++ MLab.done k o bs (n, true) :: b = (a ++ [.done k o bs (n, true)]) ++ b := by simp
  rw [e] at h ⊢
  obtain ⟨m1, x, _⟩ := h.split
  obtain ⟨f, io⟩ := done_holds x
  have := inOrder_counts io
  rw [callsBy_append, callsBy_nil hb, callsBy_append, callsBy_nil (tr := [.done k o bs (n, true)]) (by simp)]
  simpa using this

/-- Whether the last thing is this return. -/
def lastRetB (o : Nat) (bs : Bytes) (res : Nat × Bool) (tr : List ShLab) : Bool :=
  match tr.getLast? with
  | some (.ret i b r) => decide (i = o) && decide (b = bs) && decide (r = res)
  | _ => false

theorem lastRetB_ok {o : Nat} {bs : Bytes} {res : Nat × Bool} {tr : List ShLab} (h : lastRetB o bs res tr = true) : ∃ x, tr = x ++ [.ret o bs res] := by
  unfold lastRetB at h
  split at h
  · rename_i e
    simp only [Bool.and_eq_true, decide_eq_true_eq] at h
    obtain ⟨⟨rfl, rfl⟩, rfl⟩ := h
    obtain ⟨x, hx⟩ := List.getLast?_eq_some_iff.mp e
    exact ⟨x, hx⟩
  · cases h

/-- The hypotheses of `C123_held_partial` are met, with the manager closed after the write. -/
example : ∃ up v0 a b m p, MExec Demo.env Demo.fhost (newMachine up v0) (a ++ .done 0 0 [] (0, true) :: b) m ∧ (∀ j x, MLab.sys j 0 x ∉ b) ∧
    CloseCall 1 [0, 1] p (progOf (a ++ .done 0 0 [] (0, true) :: b)) := by
  obtain ⟨tr1, m1, tr2, m2, h1, h2, e1, e2, e3, e4, f1, f2, g1, g2⟩ := Demo.filed_run
  obtain ⟨x, hx⟩ := lastRetB_ok (o := 0) (bs := []) (res := (0, true)) (tr := Demo.seg1.1 ++ Demo.seg2.1 ++ Demo.seg3.1) (by decide +kernel)
  have hio : ioIn 0 (tr1 ++ tr2) = x ++ [.ret 0 [] (0, true)] := by rw [ioIn_append, e3, e4, hx]
  obtain ⟨a, b, e, hb⟩ := ioIn_done hio
  have h := h1.trans h2
  have hp : progOf (tr1 ++ tr2) = (Demo.fsetup ++ Demo.flogged) ++ .close 1 [0, 1] :: Demo.fclosing ++ [.ret 1] := by rw [progOf_append, e1, e2]; simp
  rw [e] at h hp
  refine ⟨_, _, a, b, m2, Demo.fsetup ++ Demo.flogged, h, ?_, Demo.fclosing, hp, by simp [Demo.fclosing]⟩
  exact no_sys_in (k := 0) (fun j x hm => sys_place (fun _ => rfl) h (List.mem_append_right _ (List.mem_cons_of_mem _ hm))) (by rw [hb]; rfl)

end Log4g
