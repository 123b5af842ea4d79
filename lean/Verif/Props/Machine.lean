import Verif.Lemmas.MachineRuns
import Verif.Lemmas.SystemOrder
import Verif.Props.System
import Verif.Props.Rolling

/-! # C95: whole programs, down to the disk -/

namespace Log4g
open Spec Strconv
open scoped List
variable {V : Type}

/-! ## A program with two rolling outputs -/

namespace Demo

/-- An asynchronous and a synchronous output with files in one directory. -/
def filed : Config where
  formats := [some [(c!"name", c!"f2"), (c!"type", c!"text"), (c!"layout", c!"%{msg}\n")]]
  outputs := [some [(c!"name", c!"a1"), (c!"type", c!"size_rolling_file"), (c!"file", c!"logs/log"), (c!"size", c!"2"), (c!"backups", c!"1"), (c!"archive", c!"zip"),
                (c!"async", c!"true"), (c!"queue_size", c!"2"), (c!"batch_num", c!"2"), (c!"format", c!"f2")],
              some [(c!"name", c!"s1"), (c!"type", c!"size_rolling_file"), (c!"file", c!"logs/trace"), (c!"size", c!"2"), (c!"backups", c!"2"), (c!"format", c!"f2")]]
  loggers := [⟨c!"root", c!"all", [c!"a1", c!"s1"]⟩]

def wf : World := [Act.setConfig filed [], .getLogger c!"a"].foldl (fun w a => a.run w) (initWorld fun _ => false)

def logR : RCfg := { demoRCfg with maxRolls := 1, archive := .zip, dirPath := c!"logs/", archivePath := c!"logs/" }
def traceR : RCfg := { demoRCfg with fileName := c!"trace", dirPath := c!"logs/", archivePath := c!"logs/" }

/-- All paths lead to directory 0. -/
def fhost : Host := { umask := 0o022, lib := demoRLib, place := fun _ => 0 }

def fvol : LVol := { names := [(c!"log.7", .file 0), (c!"log", .file 1), (c!"other", .file 2)], nodes := [([9], 0o444), ([1, 1], 0o600), ([5], 0o600)] }

theorem wf_out : AsyncOut env wf 0 bcfg := ⟨⟨.managed (filed.outputs[0]'(by decide)), some 0⟩, 2, 2, rfl, .inr ⟨_, rfl⟩, rfl, rfl, rfl⟩

theorem wf_fit : Fit wf := ⟨by rfl, by decide, async_of wf_out, by rfl, by decide +kernel, List.Perm.refl _⟩

theorem wf_sync : SyncOut env wf 1 Level.All fun stack => wf.formatterOf lib stack env.other ⟨.managed (filed.outputs[1]'(by decide)), some 0⟩ :=
  ⟨_, rfl, fun _ => rfl, .inr (.inr ⟨_, rfl⟩)⟩

/-- What the runs below need to know of the world. -/
structure Files (w : World) : Prop extends Fit w where
  log : w.rollOf env.tc 0 = some logR
  trace : w.rollOf env.tc 1 = some traceR
  two : w.mgr.oheap.length = 2

theorem wf_files : Files wf := { wf_fit with log := by rfl, trace := by rfl, two := by rfl }

theorem Files.only {w : World} (hw : Files w) {o : Nat} {c : RCfg} (h : w.rollOf env.tc o = some c) : (o = 0 ∧ c = logR) ∨ (o = 1 ∧ c = traceR) := by
  have := rollOf_lt h
  rw [hw.two] at this
  match o, this with
  | 0, _ => rw [hw.log] at h; cases h; exact .inl ⟨rfl, rfl⟩
  | 1, _ => rw [hw.trace] at h; cases h; exact .inr ⟨rfl, rfl⟩

theorem Files.given0 {w : World} (hw : Files w) {p : PState Nat} (e : p.w = w) : p.given env 0 = (p.a 0).writes := by unfold PState.given; rw [e, hw.async]
theorem Files.given1 {w : World} (hw : Files w) {p : PState Nat} (e : p.w = w) : p.given env 1 = p.wrote 1 := by unfold PState.given; rw [e, hw.none]
theorem given_first (o : Nat) : (newProgram fun _ => false : PState Nat).given env o = [] := by unfold PState.given; split <;> rfl

theorem Files.same {w : World} (hw : Files w) {p p' : PState Nat} (e : p.w = w) (e' : p'.w = w) (h0 : (p'.a 0).writes = (p.a 0).writes) (h1 : p'.wrote 1 = p.wrote 1) :
    ∀ o c, p'.w.rollOf env.tc o = some c → p'.given env o = p.given env o := by
  intro o c h
  rw [e'] at h
  rcases hw.only h with ⟨rfl, _⟩ | ⟨rfl, _⟩
  · rw [hw.given0 e, hw.given0 e', h0]
  · rw [hw.given1 e, hw.given1 e', h1]

theorem _root_.Log4g.PExec.here {s s' : PState Nat} {tr : List (PLab Nat)} (_ : PExec env s tr s') : PExec env s' [] s' := .nil
theorem _root_.Log4g.PExec.go {s s' s'' : PState Nat} {tr : List (PLab Nat)} {l : PLab Nat} (_ : PExec env s tr s') (h : PStep env s' l s'') : PStep env s' l s'' := h

theorem run_from {p0 p p' : PState Nat} {l : List (PLab Nat)} (e : p0 = p) (h : PExec env p l p') : PExec env p0 l p' := e ▸ h
theorem step_from {p0 p p' : PState Nat} {l : PLab Nat} (e : p0 = p) (h : PStep env p l p') : PStep env p0 l p' := e ▸ h

theorem io_prog {k : Nat} (l : List (PLab Nat)) : ioIn k (l.map .prog) = [] := by
  induction l with
  | nil => rfl
  | cons x l ih => rw [List.map_cons, show MLab.prog x :: l.map .prog = [MLab.prog x] ++ l.map .prog from rfl, ioIn_append, ih]; rfl

theorem fview (p : PState Nat) : ({ (newMachine (fun _ => false) fun _ => fvol.vol : Machine Nat) with p := p } : Machine Nat).view env fhost 0 = { vol := fvol.vol } := by
  simp only [Machine.view, newMachine, Shared.mk.injEq, true_and]
  funext o; split <;> rfl

/-- The writes: by `trace`, then by `log`, and then an empty one, with which `log` rolls. -/
def seg (L : LShared) (ms : List SMove) (h : (shMoves 0o022 demoRLib (writers [logR, traceR]) [] L ms).isSome = true) : List ShLab × LShared :=
  (shMoves 0o022 demoRLib (writers [logR, traceR]) [] L ms).get h

theorem seg_ok {L : LShared} {ms : List SMove} (h : (shMoves 0o022 demoRLib (writers [logR, traceR]) [] L ms).isSome = true) :
    ShExec 0o022 demoRLib (writers [logR, traceR]) L.shared (seg L ms h).1 (seg L ms h).2.shared := shMoves_ok .start (by rw [seg, Option.some_get])

def seg1 := seg { vol := fvol } (whole 1 [104, 105, 10] 4) (by decide +kernel)
def seg2 := seg seg1.2 (whole 0 [104, 105, 10] 4) (by decide +kernel)
def seg3 := seg seg2.2 (whole 0 [] 14) (by decide +kernel)

/-- Whether it is the beginning of a write, calls, and the return; and nobody is writing. -/
def callsB (o : Nat) (bs : Bytes) : List ShLab → Bool
  | .start i msg :: t => decide (i = o ∧ msg = bs) && t.all fun | .sys _ _ | .ret _ _ _ => true | _ => false
  | _ => false

theorem callsB_ok {o : Nat} {bs : Bytes} {t : List ShLab} (h : callsB o bs t = true) : ∃ t', t = .start o bs :: t' ∧ CallsOnly t' := by
  unfold callsB at h
  split at h
  · rename_i i msg t'
    simp only [Bool.and_eq_true, decide_eq_true_eq, List.all_eq_true] at h
    obtain ⟨⟨rfl, rfl⟩, h⟩ := h
    refine ⟨t', rfl, fun l hl => ?_⟩
    have := h l hl
    cases l with
    | sys i x => exact .inl ⟨i, x, rfl⟩
    | ret i m r => exact .inr ⟨i, m, r, rfl⟩
    | start _ _ => simp at this
    | die _ _ => simp at this
  · cases h

theorem jobs_ok {L : LShared} (h : (L.wr.all fun x => (L.at' x.1).job.isNone) = true) (q : Nat) : (L.shared.wr q).job = none := by
  show ((L.wr.get q).getD {}).job = none
  cases e : L.wr.get q with
  | none => rfl
  | some x =>
    have := List.all_eq_true.mp h _ (Map.mem_of_get e)
    simpa [LShared.at', e] using this

/-- The program logs; the worker takes the event and writes it; then `Close`. -/
def flogged : List (PLab Nat) := .out 0 .begin :: logged ++ [.out 0 (.took (some hi)), .out 0 .tick]
def fclosing : List (PLab Nat) :=
  [.enter 1 0 .close, .out 0 (.start 1 .close), .out 0 (.requested 1), .out 0 (.took none), .out 0 (.waited 1),
   .out 0 (.stored 1), .out 0 (.closed 1), .leave 1 0, .plain 1 1 .close]

def fsetup : List (PLab Nat) := [.act (.setConfig filed []), .act (.getLogger c!"a")]

theorem fbegun : PExec env (newProgram fun _ => false) fsetup { w := wf } := by
  have h0 : PExec env (newProgram fun _ => false) [] _ := .nil
  have h1 := h0.snoc ⟨rfl, .act (a := .setConfig filed []) (List.Perm.refl _) trivial (by simp [Act.panics]) (fun _ => rfl)⟩
  exact h1.snoc ⟨rfl, .act (a := .getLogger c!"a") trivial trivial (by simp [Act.panics]) (fun _ => rfl)⟩

theorem writers_of {w : World} (hw : Files w) : ∀ i c, writers [logR, traceR] i = some c → writersIn env.tc fhost w 0 i = some c := by
  intro i c h
  match i, h with
  | 0, h => cases h; exact writersIn_iff.mpr ⟨hw.log, rfl⟩
  | 1, h => cases h; exact writersIn_iff.mpr ⟨hw.trace, rfl⟩

/-- What the program does between the writes. -/
theorem fprogram {w : World} (hw : Files w) : ∃ p1 p2 p3 p4 p5 p6 p7 : PState Nat,
    PExec env { w := w } (.out 0 .begin :: logged.take 5) p1 ∧ PStep env p1 (.plain 0 1 (.send hi)) p2 ∧ PExec env p2 [.ret 0, .out 0 (.took (some hi))] p3 ∧
    PStep env p3 (.out 0 .tick) p4 ∧ PExec env p4 (.close 1 [0, 1] :: fclosing.take 3) p5 ∧ PStep env p5 (.out 0 (.took none)) p6 ∧
    PExec env p6 (fclosing.drop 4 ++ [.ret 1]) p7 ∧ (p1.w = w ∧ p2.w = w ∧ p3.w = w ∧ p4.w = w ∧ p5.w = w ∧ p6.w = w ∧ p7.w = w) ∧
    (p2.panicked = false ∧ p4.panicked = false ∧ p6.panicked = false) ∧
    ((p1.a 0).writes = [] ∧ (p2.a 0).writes = [] ∧ (p3.a 0).writes = [] ∧ (p4.a 0).writes = [plain hi] ∧ (p5.a 0).writes = [plain hi] ∧
      (p6.a 0).writes = [plain hi, []] ∧ (p7.a 0).writes = [plain hi, []]) ∧
    (p1.wrote 1 = [] ∧ p2.wrote 1 = [[104, 105, 10]] ∧ p3.wrote 1 = p2.wrote 1 ∧ p4.wrote 1 = p2.wrote 1 ∧ p5.wrote 1 = p2.wrote 1 ∧ p6.wrote 1 = p2.wrote 1 ∧
      p7.wrote 1 = p2.wrote 1) := by
  have a0 : PExec env ({ w := w } : PState Nat) [] _ := .nil
  have a1 := a0.snoc ⟨rfl, .out (o := 0) hw.async ⟨rfl, .begin rfl⟩⟩
  have a2 := a1.snoc ⟨rfl, .log (t := 0) rfl hw.heap hw.hi⟩
  have a3 := a2.snoc ⟨rfl, .enter (t := 0) rfl hw.async⟩
  have a4 := a3.snoc ⟨rfl, .out (o := 0) hw.async ⟨rfl, .sendStart (t := 0) (e := hi) rfl rfl⟩⟩
  have a5 := a4.snoc ⟨rfl, .out (o := 0) hw.async ⟨rfl, .sendQueue (t := 0) (e := hi) rfl rfl (show (0 : Nat) < 2 by decide)⟩⟩
  have a6 := a5.snoc ⟨rfl, .leave (t := 0) rfl rfl⟩
  have w1 := a6.go ⟨rfl, .send (t := 0) [] rfl hw.none⟩
  have b0 := (a6.snoc w1).here
  have b1 := b0.snoc ⟨rfl, .ret (t := 0) rfl⟩
  have b2 := b1.snoc ⟨rfl, .out (o := 0) hw.async ⟨rfl, .takeEvent rfl rfl rfl⟩⟩
  have w2 := b2.go ⟨rfl, .out (o := 0) hw.async ⟨rfl, .tick rfl⟩⟩
  have c0 := (b2.snoc w2).here
  have c1 := c0.snoc ⟨rfl, .close (t := 1) (os := [0, 1]) rfl rfl hw.outputs⟩
  have c2 := c1.snoc ⟨rfl, .enter (t := 1) rfl hw.async⟩
  have c3 := c2.snoc ⟨rfl, .out (o := 0) hw.async ⟨rfl, .closeStart (t := 1) rfl rfl⟩⟩
  have c4 := c3.snoc ⟨rfl, .out (o := 0) hw.async ⟨rfl, .closeRequest (t := 1) rfl rfl (show (0 : Nat) < 2 by decide)⟩⟩
  have w3 := c4.go ⟨rfl, .out (o := 0) hw.async ⟨rfl, .takeNil rfl rfl⟩⟩
  have d0 := (c4.snoc w3).here
  have d1 := d0.snoc ⟨rfl, .out (o := 0) hw.async ⟨rfl, .closeWait (t := 1) rfl rfl⟩⟩
  have d2 := d1.snoc ⟨rfl, .out (o := 0) hw.async ⟨rfl, .closeStore (t := 1) rfl⟩⟩
  have d3 := d2.snoc ⟨rfl, .out (o := 0) hw.async ⟨rfl, .closeChan (t := 1) rfl rfl⟩⟩
  have d4 := d3.snoc ⟨rfl, .leave (t := 1) rfl rfl⟩
  have d5 := d4.snoc ⟨rfl, .closed (t := 1) rfl hw.none⟩
  have d6 := d5.snoc ⟨rfl, .ret (t := 1) rfl⟩
  exact ⟨_, _, _, _, _, _, _, a6, w1, b2, w2, c4, w3, d6, ⟨rfl, rfl, rfl, rfl, rfl, rfl, rfl⟩, ⟨rfl, rfl, rfl⟩, ⟨rfl, rfl, rfl, rfl, rfl, rfl, rfl⟩,
    ⟨rfl, hw.write, rfl, rfl, rfl, rfl, rfl⟩⟩

/-- The run of the program, with its files, up to the second write and to the end. -/
theorem filed_both : ∃ tr1 m1 tr2 m2, MExec env fhost (newMachine (fun _ => false) fun _ => fvol.vol) tr1 m1 ∧ MExec env fhost m1 tr2 m2 ∧
    progOf tr1 = fsetup ++ flogged ∧ progOf tr2 = .close 1 [0, 1] :: fclosing ++ [.ret 1] ∧ ioIn 0 tr1 = seg1.1 ++ seg2.1 ∧ ioIn 0 tr2 = seg3.1 ∧
    m1.p.w = wf ∧ m2.p.w = wf ∧ Calm m1 ∧ Calm m2 ∧ m1.view env fhost 0 = seg2.2.shared := by
  have hw := wf_files
  have g0 := fbegun
  generalize wf = w at hw g0
  obtain ⟨p1, p2, p3, p4, p5, p6, p7, a, w1, b, w2, c, w3, d, ⟨f1, f2, f3, f4, f5, f6, f7⟩, ⟨n2, n4, n6⟩, ⟨h1, h2, h3, h4, h5, h6, h7⟩, ⟨r1, r2, r3, r4, r5, r6, r7⟩⟩ := fprogram hw
  -- the files
  obtain ⟨t1, e1, k1⟩ := callsB_ok (o := 1) (bs := [104, 105, 10]) (t := seg1.1) (by decide +kernel)
  obtain ⟨t2, e2, k2⟩ := callsB_ok (o := 0) (bs := [104, 105, 10]) (t := seg2.1) (by decide +kernel)
  obtain ⟨t3, e3, k3⟩ := callsB_ok (o := 0) (bs := []) (t := seg3.1) (by decide +kernel)
  have s1 := (seg_ok (L := { vol := fvol }) (ms := whole 1 [104, 105, 10] 4) (by decide +kernel)).mono (writers_of hw)
  have s2 := (seg_ok (L := seg1.2) (ms := whole 0 [104, 105, 10] 4) (by decide +kernel)).mono (writers_of hw)
  have s3 := (seg_ok (L := seg2.2) (ms := whole 0 [] 14) (by decide +kernel)).mono (writers_of hw)
  rw [show (seg _ _ _).1 = .start 1 [104, 105, 10] :: t1 from e1] at s1
  rw [show (seg _ _ _).1 = .start 0 [104, 105, 10] :: t2 from e2] at s2
  rw [show (seg _ _ _).1 = .start 0 [] :: t3 from e3] at s3
  -- together
  have hx0 : MExec env fhost (newMachine (fun _ => false) fun _ => fvol.vol) [] _ := .nil
  have hc0 : Calm (newMachine (fun _ => false) fun _ => fvol.vol : Machine Nat) := fun _ => ⟨rfl, rfl⟩
  obtain ⟨x1, hc1⟩ := quiet_lift (tr := []) (host := fhost) .nil hc0 (g0.trans a) (fun o c ho => by
    rw [f1] at ho
    rcases hw.only ho with ⟨rfl, _⟩ | ⟨rfl, _⟩
    · rw [hw.given0 f1, h1]; exact (given_first 0).symm
    · rw [hw.given1 f1, r1]; exact (given_first 1).symm)
  have y1 := hx0.trans x1
  obtain ⟨u1, m1, x2, i1, i2, i3, i4, hc2, _⟩ := write_lift y1 hc1 w1 n2 (o := 1) (k := 0) (c := traceR) (bs := [104, 105, 10]) (by rw [f2]; exact hw.trace) rfl
    (by rw [hw.given1 f2, hw.given1 f1, r2, r1]; rfl) (t := t1) (s := seg1.2.shared) (by rw [fview, f2]; exact s1) k1 (jobs_ok (by decide +kernel))
  have y2 := y1.trans x2
  obtain ⟨x3, hc3⟩ := quiet_lift (host := fhost) (mexec_inv y2).prog hc2 (run_from i3 b) (hw.same (by rw [i3, f2]) f3 (by rw [i3, h2, h3]) (by rw [i3, r3]))
  have y3 := y2.trans x3
  have v3 : ({ m1 with p := p3 } : Machine Nat).view env fhost 0 = seg1.2.shared := by
    rw [← i4]
    exact view_same (ext_exec (pexec_inv (mexec_inv y2).prog) (run_from i3 b)) (fun o ho => ((mexec_inv y2).idle o ho).1) 0
  obtain ⟨u2, m2, x4, j1, j2, j3, j4, hc4, _⟩ := write_lift y3 hc3 w2 n4 (o := 0) (k := 0) (c := logR) (bs := [104, 105, 10]) (by rw [f4]; exact hw.log) rfl
    (by rw [hw.given0 f4, hw.given0 f3, h4, h3, plain_hi]; rfl) (t := t2) (s := seg2.2.shared) (by rw [v3, f4]; exact s2) k2 (jobs_ok (by decide +kernel))
  have y4 := y3.trans x4
  obtain ⟨x5, hc5⟩ := quiet_lift (host := fhost) (mexec_inv y4).prog hc4 (run_from j3 c) (hw.same (by rw [j3, f4]) f5 (by rw [j3, h4, h5]) (by rw [j3, r5, r4]))
  have y5 := y4.trans x5
  have v5 : ({ m2 with p := p5 } : Machine Nat).view env fhost 0 = seg2.2.shared := by
    rw [← j4]
    exact view_same (ext_exec (pexec_inv (mexec_inv y4).prog) (run_from j3 c)) (fun o ho => ((mexec_inv y4).idle o ho).1) 0
  obtain ⟨u3, m3, x6, l1, l2, l3, l4, hc6, _⟩ := write_lift y5 hc5 w3 n6 (o := 0) (k := 0) (c := logR) (bs := []) (by rw [f6]; exact hw.log) rfl
    (by rw [hw.given0 f6, hw.given0 f5, h6, h5]; rfl) (t := t3) (s := seg3.2.shared) (by rw [v5, f6]; exact s3) k3 (jobs_ok (by decide +kernel))
  have y6 := y5.trans x6
  obtain ⟨x7, hc7⟩ := quiet_lift (host := fhost) (mexec_inv y6).prog hc6 (run_from l3 d) (hw.same (by rw [l3, f6]) f7 (by rw [l3, h6, h7]) (by rw [l3, r7, r6]))
  refine ⟨_, m2, _, _, y4, (x5.trans x6).trans x7, ?_, ?_, ?_, ?_, by rw [j3, f4], f7, hc4, hc7, j4⟩
  · simp only [progOf_append, i1, j1]; rfl
  · simp only [progOf_append, l1]; rfl
  · simp only [ioIn_append, i2, j2, e1, e2, io_prog, List.append_nil]; rfl
  · simp only [ioIn_append, l2, e3, io_prog, List.append_nil, List.nil_append]

theorem filed_run : ∃ tr1 m1 tr2 m2, MExec env fhost (newMachine (fun _ => false) fun _ => fvol.vol) tr1 m1 ∧ MExec env fhost m1 tr2 m2 ∧
    progOf tr1 = fsetup ++ flogged ∧ progOf tr2 = .close 1 [0, 1] :: fclosing ++ [.ret 1] ∧ ioIn 0 tr1 = seg1.1 ++ seg2.1 ∧ ioIn 0 tr2 = seg3.1 ∧
    m1.p.w = wf ∧ m2.p.w = wf ∧ Calm m1 ∧ Calm m2 := by
  obtain ⟨tr1, m1, tr2, m2, h1, h2, e1, e2, e3, e4, f1, f2, g1, g2, _⟩ := filed_both
  exact ⟨tr1, m1, tr2, m2, h1, h2, e1, e2, e3, e4, f1, f2, g1, g2⟩

/-! What the theorems below ask for. -/

theorem filed_apart {m : Machine Nat} (h : m.p.w = wf) : Neighbourly env.tc fhost m.p.w 0 := by
  rw [h]
  constructor
  · intro o o' c c' hne h1 h2 _ _
    rcases wf_files.only (rolling_iff.mp h1) with ⟨rfl, rfl⟩ | ⟨rfl, rfl⟩ <;> rcases wf_files.only (rolling_iff.mp h2) with ⟨rfl, rfl⟩ | ⟨rfl, rfl⟩
    · exact absurd rfl hne
    · exact apart_post rfl rfl (by decide) (by decide)
    · exact apart_post rfl rfl (by decide) (by decide)
    · exact absurd rfl hne
  · intro o o' c c' h1 h2 _ _ _ h
    have h := (mine_iff c' _).mpr h
    rcases wf_files.only (rolling_iff.mp h2) with ⟨rfl, rfl⟩ | ⟨rfl, rfl⟩
    · rw [show logR.mine tempDir = false by decide +kernel] at h; cases h
    · rw [show traceR.mine tempDir = false by decide +kernel] at h; cases h

theorem fvol_dir : fvol.vol.dir = (LDisk.disk { files := [(c!"log.7", .file [9] 0o444), (c!"log", .file [1, 1] 0o600), (c!"other", .file [5] 0o600)] }).dir := by
  funext n
  simp only [Volume.dir, LVol.vol, fvol, LDisk.disk, Map.get]
  by_cases h1 : c!"log.7" = n
  · simp [h1]
  · by_cases h2 : c!"log" = n
    · simp [h1, h2]
    · by_cases h3 : c!"other" = n <;> simp [h1, h2, h3]

theorem filed_log {tr : List (MLab Nat)} {m : Machine Nat} (h : m.p.w = wf) (hr : rolls (callsOf 0 (ioIn 0 tr)) ≤ 1) : Housed env fhost (fun _ => fvol.vol) tr m 0 logR 0 [c!"log.7"] :=
  ⟨by rw [h]; exact rolling_iff.mpr wf_files.log, rfl, filed_apart h, oneName_of (by decide +kernel), by rw [fvol_dir]; exact backupsB_ok (by decide +kernel),
    .size (max := 2) (B := 7) rfl (by decide) (by decide) demo_numbers (by omega)⟩

theorem filed_trace {tr : List (MLab Nat)} {m : Machine Nat} (h : m.p.w = wf) (hr : rolls (callsOf 1 (ioIn 0 tr)) ≤ 1) : Housed env fhost (fun _ => fvol.vol) tr m 1 traceR 0 [] :=
  ⟨by rw [h]; exact rolling_iff.mpr wf_files.trace, rfl, filed_apart h, oneName_of (by decide +kernel), by rw [fvol_dir]; exact backupsB_ok (by decide +kernel),
    .size (max := 2) (B := 0) rfl (by decide) (by decide) (by simp) (by omega)⟩

theorem flogged_open : Open 0 (fsetup ++ flogged) := by
  constructor
  · intro t os h; simp [fsetup, flogged, logged] at h
  · intro t h; simp [fsetup, flogged, logged] at h

end Demo

variable {env : PEnv V} {host : Host} {up : Nat → Bool} {v0 : Nat → Volume} {tr : List (MLab V)} {m : Machine V} {o : Nat} {c : RCfg} {k : Nat} {hs0 : List Str}

/-- C95, asynchronous outputs: at any moment of any program that has not closed the output, if no call to the operating system
failed for it, except perhaps for archives, the backups and the log file hold, after what the directory held and except for whole backups that rolling
removed, the texts of all events that every goroutine has logged to it, in the order of the calls, up to a
part of one batch and the last events, which are less than queue and batch hold. -/
theorem C95_on_disk (h : MExec env host (newMachine up v0) tr m) (hd : Housed env host v0 tr m o c k hs0) (hok : LogCallsOk (callsOf o (ioIn k tr)))
    {cfg : ACfg V} (hc : AsyncOut env m.p.w o cfg) (ho : Open o (progOf tr)) :
    ∃ f written batch waiting part, cfg.f = some f ∧
      KeepsLog host.lib c (files c (v0 k).dir hs0) ((accepted cfg.t (written.map (·.2))).map f ++ part) (m.vol k).dir ∧
      part.length ≤ 1 ∧ part.flatten <+: textsOf cfg f batch ∧ ((m.wr o).job = none → batch = [] ∧ part = []) ∧
      (accepted cfg.t (batch.map (·.2))).length ≤ cfg.batchNum ∧ (accepted cfg.t (waiting.map (·.2))).length < cfg.queueSize + cfg.batchNum ∧
      InTime o (progOf tr) (written ++ batch ++ waiting) ∧
      ∀ t, shareOf t (written ++ batch ++ waiting) <+: sentBy t o (progOf tr) ∧
        ∀ a b, progOf tr = a ++ b → Returned t a → sentBy t o a <+: shareOf t (written ++ batch ++ waiting) := by
  have inv := mexec_inv h
  have pinv := pexec_inv inv.prog
  have hc := async_of hc
  obtain ⟨⟨f, hf⟩, _, hb, _⟩ := asyncOf_cfg pinv.world hc
  obtain ⟨before, part, h1, h2, h3, hnil, h4⟩ := disk_messages inv hd.order (rolling_iff.mp hd.out) hd.place hd.apart hd.backups hd.names hok
  have hgiven : m.p.given env o = (m.p.a o).writes := by unfold PState.given; rw [hc]
  rw [hgiven] at h1
  obtain ⟨gs1, gs2, written, batch, waiting, e1, e2, e3, e4, e5, e6, e7, e8⟩ := written_groups hf hb (pinv.proj o cfg hc) h1
  refine ⟨f, written, batch, waiting, part, hf, ?_, h2, ?_, ?_, ?_, e8, by rw [← e1]; exact async_inTime inv.prog hc, fun t => ?_⟩
  · have := keeps_regroup (lib := host.lib) (c := c) (F0 := files c (v0 k).dir hs0) (xs := gs1.map (·.map f) ++ part.map (fun x => [x])) (d := (m.vol k).dir)
      (by rw [List.map_append, List.map_map, List.map_map]
          rw [e2] at h4
          simpa [Function.comp_def, List.flatMap] using h4)
    rw [List.flatten_append, show (part.map fun x => [x]).flatten = part by rw [← List.flatMap_def]; simp] at this
    rw [← e4, List.map_flatten]
    exact this
  · rw [e3] at h3
    rw [textsOf, ← e5]
    simpa [List.flatMap, List.map_flatten, List.flatten_flatten, Function.comp_def] using h3
  · intro hj
    have hdo : doing (m.wr o) = [] := by simp [doing, hj]
    rw [hdo] at e3 h3
    exact ⟨e7 (List.map_eq_nil_iff.mp e3.symm), hnil hj⟩
  · rw [← e5]
    have : gs2.length ≤ 1 := by
      have := congrArg List.length e3
      rw [List.length_map] at this
      rw [← this]
      unfold doing
      cases (m.wr o).job <;> simp
    match gs2, this with
    | [], _ => simp
    | [g], _ => simpa using e6 g (by simp)
  · rw [← e1]
    refine ⟨(all_queued inv.prog hc ho t).1, ?_⟩
    intro a b e hr
    have ho' : Open o a := by rw [e] at ho; exact open_left ho
    rw [async_returned inv.prog hc t e ho' hr, e, outLabs_append, pairsOf_append, shareOf_append]
    exact List.prefix_append _ _

/-- The hypotheses of `C95_on_disk` are met, with an event that was logged and written. -/
example : ∃ up v0 tr m c, MExec Demo.env Demo.fhost (newMachine up v0) tr m ∧ Housed Demo.env Demo.fhost v0 tr m 0 c 0 [c!"log.7"] ∧ LogCallsOk (callsOf 0 (ioIn 0 tr)) ∧
    AsyncOut Demo.env m.p.w 0 Demo.bcfg ∧ Open 0 (progOf tr) ∧ sentBy 0 0 (progOf tr) = [Demo.hi] ∧ deedsIn 0 0 tr m = [.wrote [104, 105, 10] 3 true] := by
  obtain ⟨tr1, m1, tr2, m2, h1, h2, e1, e2, e3, e4, f1, f2, g1, g2⟩ := Demo.filed_run
  refine ⟨_, _, tr1, m1, _, h1, Demo.filed_log f1 ?_, ?_, by rw [f1]; exact Demo.wf_out, by rw [e1]; exact Demo.flogged_open, by rw [e1]; rfl, ?_⟩
  · rw [e3]; decide +kernel
  · rw [e3]; exact logCallsOkB_ok ((by decide +kernel))
  · rw [deedsIn, (g1 0).1, e3, List.append_nil]; decide +kernel


/-- C95, whatever fails and whatever is closed: what an asynchronous output has given to its writer is batches of texts of events,
as often and in the order logged by each goroutine; and the files hold the pieces of these which the writer wrote. -/
theorem C95_faults (h : MExec env host (newMachine up v0) tr m) (hd : Housed env host v0 tr m o c k hs0) (hrm : RemovesOk (callsOf o (ioIn k tr)))
    {cfg : ACfg V} (hc : AsyncOut env m.p.w o cfg) :
    ∃ f written ps, cfg.f = some f ∧ Batched cfg f written (messages (deedsIn k o tr m)) ∧ (∀ t, shareOf t written <+ sentBy t o (progOf tr)) ∧
      PiecesOf (deedsIn k o tr m) ps ∧ KeepsLog host.lib c (files c (v0 k).dir hs0) ps (m.vol k).dir := by
  have inv := mexec_inv h
  have pinv := pexec_inv inv.prog
  have hc := async_of hc
  obtain ⟨⟨f, hf⟩, _, hb, _⟩ := asyncOf_cfg pinv.world hc
  obtain ⟨ps, h1, h2⟩ := disk_pieces inv hd.order (rolling_iff.mp hd.out) hd.place hd.apart hd.backups hd.names hrm
  have hgiven : m.p.given env o = (m.p.a o).writes := by unfold PState.given; rw [hc]
  obtain ⟨gs1, gs2, written, batch, waiting, e1, e2, e3, e4, e5, e6, e7, e8⟩ := written_groups hf hb (pinv.proj o cfg hc) (w1 := (m.p.a o).writes) (w2 := []) (by simp)
  refine ⟨f, written, ps, hf, ⟨gs1, e4, ?_⟩, fun t => ?_, h1, h2⟩
  · rw [given_messages inv (rolling_iff.mp hd.out) hd.place, hgiven, e2]
  · have := queued_logged inv.prog hc t
    rw [e1, List.append_assoc, shareOf_append] at this
    exact (List.sublist_append_left _ _).trans this

/-- The hypotheses of `C95_faults` are met, when the output has been closed. -/
example : ∃ up v0 tr m c, MExec Demo.env Demo.fhost (newMachine up v0) tr m ∧ Housed Demo.env Demo.fhost v0 tr m 0 c 0 [c!"log.7"] ∧ RemovesOk (callsOf 0 (ioIn 0 tr)) ∧
    AsyncOut Demo.env m.p.w 0 Demo.bcfg ∧ rolls (callsOf 0 (ioIn 0 tr)) = 1 ∧ deedsIn 0 0 tr m = [.wrote [104, 105, 10] 3 true, .wrote [] 0 true] := by
  obtain ⟨tr1, m1, tr2, m2, h1, h2, e1, e2, e3, e4, f1, f2, g1, g2⟩ := Demo.filed_run
  refine ⟨_, _, tr1 ++ tr2, m2, _, h1.trans h2, Demo.filed_log f2 ?_, ?_, by rw [f2]; exact Demo.wf_out, ?_, ?_⟩
  · rw [ioIn_append, e3, e4]; decide +kernel
  · rw [ioIn_append, e3, e4]; exact removesOkB_ok (by decide +kernel)
  · rw [ioIn_append, e3, e4]; decide +kernel
  · rw [deedsIn, (g2 0).1, ioIn_append, e3, e4, List.append_nil]; decide +kernel


/-- C95, synchronous outputs: if no call to the operating system failed, except perhaps for archives, the files hold the lines of all events that every
goroutine has logged, up to a part of the line that is being written; a log call that has returned has its line in the file. -/
theorem C95_sync (h : MExec env host (newMachine up v0) tr m) (hd : Housed env host v0 tr m o c k hs0) (hok : LogCallsOk (callsOf o (ioIn k tr)))
    {l : Level} {f : List Frame → Option (Formatter V)} (hc : SyncOut env m.p.w o l f) :
    ∃ done current after part, KeepsLog host.lib c (files c (v0 k).dir hs0) (linesOf env.lib l f done ++ part) (m.vol k).dir ∧
      part.length ≤ 1 ∧ part.flatten <+: (linesOf env.lib l f current).flatten ∧ current.length ≤ 1 ∧ linesOf env.lib l f after = [] ∧
      ((m.wr o).job = none → current = [] ∧ after = [] ∧ part = []) ∧ InTime o (progOf tr) (calls (done ++ current ++ after)) ∧
      ∀ t, shareOf t (calls (done ++ current ++ after)) <+: sentBy t o (progOf tr) ∧
        ∀ a b, progOf tr = a ++ b → Returned t a → sentBy t o a <+: shareOf t (calls (done ++ after)) := by
  have inv := mexec_inv h
  obtain ⟨before, part, h1, h2, h3, hnil, h4⟩ := disk_messages inv hd.order (rolling_iff.mp hd.out) hd.place hd.apart hd.backups hd.names hok
  obtain ⟨done, current, after, e1, e2, e3, e4, e5, e6, e7⟩ := sync_split inv (mexec_waits h) (rolling_iff.mp hd.out) hc h1
  refine ⟨done, current, after, part, by rw [e2]; exact h4, h2, by rw [e3]; exact h3, e5, e4, fun hj => ⟨(e6 hj).1, (e6 hj).2, hnil hj⟩, by rw [e1]; exact plain_inTime inv.prog (sync_none hc),
    fun t => ⟨?_, e7 t⟩⟩
  rw [e1]
  exact (plain_order inv.prog (sync_none hc) t).1

/-- The hypotheses of `C95_sync` are met, with an event that was logged and written. -/
example : ∃ up v0 tr m c f, MExec Demo.env Demo.fhost (newMachine up v0) tr m ∧ Housed Demo.env Demo.fhost v0 tr m 1 c 0 [] ∧ LogCallsOk (callsOf 1 (ioIn 0 tr)) ∧
    SyncOut Demo.env m.p.w 1 Level.All f ∧ sentBy 0 1 (progOf tr) = [Demo.hi] ∧ deedsIn 0 1 tr m = [.wrote [104, 105, 10] 3 true] := by
  obtain ⟨tr1, m1, tr2, m2, h1, h2, e1, e2, e3, e4, f1, f2, g1, g2⟩ := Demo.filed_run
  refine ⟨_, _, tr1, m1, _, _, h1, Demo.filed_trace f1 ?_, ?_, by rw [f1]; exact Demo.wf_sync, by rw [e1]; rfl, ?_⟩
  · rw [e3]; decide +kernel
  · rw [e3]; exact logCallsOkB_ok ((by decide +kernel))
  · rw [deedsIn, (g1 1).1, e3, List.append_nil]; decide +kernel


/-- C95, closing: if the worker has begun when the manager's `Close` is done waiting for it and the output has not been closed before, then when
`Close` returns nothing is being written any more, and, if no call to the operating system failed, except perhaps for archives, the files hold everything
logged by calls that had returned when `Close` was called. -/
theorem C95_closed (h : MExec env host (newMachine up v0) tr m) (hd : Housed env host v0 tr m o c k hs0) (hok : LogCallsOk (callsOf o (ioIn k tr)))
    {cfg : ACfg V} (hc : AsyncOut env m.p.w o cfg) {t : Nat} {os : List Nat} {a : List (PLab V)} (hcall : CloseCall t os a (progOf tr))
    (hopen : Open o a) (hbegin : WorkerFirst o (progOf tr)) :
    (m.wr o).job = none ∧ ∃ f before later, cfg.f = some f ∧
      KeepsLog host.lib c (files c (v0 k).dir hs0) ((accepted cfg.t ((before ++ later).map (·.2))).map f) (m.vol k).dir ∧
      InTime o (progOf tr) (before ++ later) ∧
      ∀ u, (Returned u a → shareOf u before = sentBy u o a) ∧ (∀ x y, a = x ++ y → Returned u x → sentBy u o x <+: shareOf u before) ∧
        shareOf u (before ++ later) <+ sentBy u o (progOf tr) := by
  have inv := mexec_inv h
  have pinv := pexec_inv inv.prog
  have hc := async_of hc
  obtain ⟨⟨f, hf⟩, _, hb, _⟩ := asyncOf_cfg pinv.world hc
  obtain ⟨hp, _, hcl⟩ := close_done hcall inv.prog
  have hos : o ∈ os := closes_all hcall inv.prog (by rw [hc]; simp)
  obtain ⟨b, e, hb'⟩ := hcall
  have e' : progOf tr = a ++ (.close t os :: b ++ [.ret t]) := by rw [e]; simp
  have hx := pinv.proj o cfg hc
  rw [e', outLabs_append] at hx
  have hreq : none ∉ queuedOf (outLabs o a) := by
    obtain ⟨s1, h1, h2⟩ := (e' ▸ inv.prog).split
    have inv1 := pexec_inv h1
    cases hc1 : s1.w.asyncOf env o with
    | none => rw [(inv1.none o hc1).1]; simp [queuedOf]
    | some cfg1 => exact (never_closed (fun u => (inv1.opened o hopen u).2) (inv1.proj o cfg1 hc1)).2.2.2.1
  have hclosed := hcl o hos (by rw [hc]; simp)
  obtain ⟨_, later, rest, g1, _, gs, g3, g4⟩ := closed_written hf hx (pinv.sound hp o) hclosed (by rw [← outLabs_append, ← e']; exact workerFirst_labs hbegin) hreq
  have hj : (m.wr o).job = none := closed_idle h hbegin (.inr hclosed)
  obtain ⟨before, part, h1, h2, h3, hnil, h4⟩ := disk_messages inv hd.order (rolling_iff.mp hd.out) hd.place hd.apart hd.backups hd.names hok
  have hdo : doing (m.wr o) = [] := by simp [doing, hj]
  have hgiven : m.p.given env o = (m.p.a o).writes := by unfold PState.given; rw [hc]
  rw [hdo, List.append_nil, hgiven] at h1
  have hpart : part = [] := hnil hj
  rw [hpart, List.append_nil, ← h1, g3] at h4
  have ht := async_inTime inv.prog hc
  rw [e', outLabs_append, g1, ← e'] at ht
  refine ⟨hj, f, _, later, hf, ?_, inTime_prefix ht, fun u => ⟨fun hr => (async_returned inv.prog hc u e' hopen hr).symm, fun x y ea hr => ?_, ?_⟩⟩
  · rw [← g4, List.map_flatten]
    refine keeps_regroup ?_
    rw [List.map_map]
    simpa [Function.comp_def, List.flatMap] using h4
  · rw [async_returned inv.prog hc u (show progOf tr = x ++ (y ++ (.close t os :: b ++ [.ret t])) by rw [e', ea]; simp) (open_left (ea ▸ hopen)) hr, ea, outLabs_append, pairsOf_append, shareOf_append]
    exact List.prefix_append _ _
  · have hq := queued_logged inv.prog hc u
    rw [e', outLabs_append, g1, shareOf_append] at hq
    rw [e']
    exact (List.sublist_append_left _ _).trans hq

/-- The hypotheses of `C95_closed` are met. -/
example : ∃ up v0 tr m c a, MExec Demo.env Demo.fhost (newMachine up v0) tr m ∧ Housed Demo.env Demo.fhost v0 tr m 0 c 0 [c!"log.7"] ∧ LogCallsOk (callsOf 0 (ioIn 0 tr)) ∧
    AsyncOut Demo.env m.p.w 0 Demo.bcfg ∧ CloseCall 1 [0, 1] a (progOf tr) ∧ Open 0 a ∧ WorkerFirst 0 (progOf tr) ∧ sentBy 0 0 a = [Demo.hi] := by
  obtain ⟨tr1, m1, tr2, m2, h1, h2, e1, e2, e3, e4, f1, f2, g1, g2⟩ := Demo.filed_run
  refine ⟨_, _, tr1 ++ tr2, m2, _, _, h1.trans h2, Demo.filed_log f2 ?_, ?_, by rw [f2]; exact Demo.wf_out,
    ⟨Demo.fclosing, by rw [progOf_append, e1, e2]; simp, by simp [Demo.fclosing]⟩, Demo.flogged_open,
    by rw [progOf_append, e1, e2]; exact workerFirst_of (by simp [Demo.flogged]) (by simp [Demo.flogged, Demo.fsetup, Demo.logged]), rfl⟩
  · rw [ioIn_append, e3, e4]; decide +kernel
  · rw [ioIn_append, e3, e4]; exact logCallsOkB_ok ((by decide +kernel))


end Log4g
