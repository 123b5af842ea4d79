import Verif.Props.EndToEnd

/-! # What becomes of lines whose write fails -/

namespace Log4g
open Spec

variable {V : Type} {cfg : ACfg V} {umask : Nat} {lib : RLib} {c : RCfg}

/-- What a session writes, with the results of its writes. -/
theorem session_later {d0 d : Disk} {ms : List Bytes} {tr : STrace} {rw : RW} (h : Session umask lib c d0 ms tr d rw) :
    ∃ rs : List (Nat × Bool), Later umask lib c d0 {} ms tr rs d rw ∧ rs.length = ms.length ∧
      (∀ x ∈ ms.zip rs, x.2.1 ≤ x.1.length ∧ (x.2.2 = true → x.2.1 = x.1.length)) ∧ (chunks tr).flatten = ((ms.zip rs).map fun x => x.1.take x.2.1).flatten := by
  induction h with
  | start => exact ⟨[], .start, rfl, by simp, rfl⟩
  | @write ms tr d rw m tr' res rw' d' hs hr ih =>
    obtain ⟨rs, h1, h2, h3, h4⟩ := ih
    obtain ⟨n, ok⟩ := res
    have hz : (ms ++ [m]).zip (rs ++ [(n, ok)]) = ms.zip rs ++ [(m, (n, ok))] := by rw [List.zip_append h2.symm]; rfl
    refine ⟨rs ++ [(n, ok)], .write h1 hr, by simp [h2], fun x hx => ?_, ?_⟩
    · rw [hz] at hx
      rcases List.mem_append.mp hx with hx | hx
      · exact h3 x hx
      · obtain rfl := List.mem_singleton.mp hx
        rcases write_chunks hr with ⟨_, rfl, rfl⟩ | ⟨_, h5, h6⟩
        · simp
        · exact ⟨h5, h6⟩
    · rw [hz, chunks_append, List.flatten_append, h4, List.map_append, List.flatten_append]
      congr 1
      rcases write_chunks hr with ⟨h5, rfl, _⟩ | ⟨h5, _⟩ <;> simp [h5]

/-! ## The concrete case: three events, each a batch of its own; the disk is full at the second -/

def full (l : Level) : Event Nat := { Demo.evt with level := l }

def fullCfg : ACfg Nat := { queueSize := 3, batchNum := 1, t := Level.All, f := some fun e => [UInt8.ofNat e.level.toNat] }

def fullProg : Nat → List (ACall Nat) := fun t => if t = 0 then [.send (full 3), .send (full 4), .send (full 5), .close] else []

def fullRCfg : RCfg := { demoRCfg with kind := .size 100 }

def fullWrite1 : SimWrite 0o022 demoRLib fullRCfg (fun _ => (false, 0)) [3] {} demoDisk0 := simWrite _ _ _ _ _ _ _ (by decide +kernel)
def fullWrite2 : SimWrite 0o022 demoRLib fullRCfg (fun _ => (true, 0)) [4] fullWrite1.rw' fullWrite1.L' := simWrite _ _ _ _ _ _ _ (by decide +kernel)
def fullWrite3 : SimWrite 0o022 demoRLib fullRCfg (fun _ => (false, 0)) [5] fullWrite2.rw' fullWrite2.L' := simWrite _ _ _ _ _ _ _ (by decide +kernel)
def fullWrite4 : SimWrite 0o022 demoRLib fullRCfg (fun _ => (false, 0)) [] fullWrite3.rw' fullWrite3.L' := simWrite _ _ _ _ _ _ _ (by decide +kernel)

theorem fullExec : ∃ tr s, OExec fullCfg 0o022 demoRLib fullRCfg (newOutput demoDisk0.disk fullProg) tr (fullWrite1.tr ++ fullWrite2.tr ++ fullWrite3.tr ++ fullWrite4.tr) s ∧
    s.a.panicked = false ∧ s.a.worker = .stopped ∧ queuedOf tr = [some (full 3), some (full 4), some (full 5), none] ∧ s.disk = fullWrite4.L'.disk := by
  have h0 : OExec fullCfg 0o022 demoRLib fullRCfg (newOutput demoDisk0.disk fullProg) [] [] _ := .nil
  have h1 := h0.snoc (.quiet (s := newOutput demoDisk0.disk fullProg) ⟨rfl, .begin rfl⟩ rfl)
  have h2 := h1.snoc (.quiet ⟨rfl, .sendStart (t := 0) (e := full 3) rfl rfl⟩ rfl)
  have h3 := h2.snoc (.quiet ⟨rfl, .sendQueue (t := 0) (e := full 3) rfl rfl (by decide)⟩ rfl)
  have h4 := h3.snoc (.flush ⟨rfl, .takeEvent (f := fun e => [UInt8.ofNat e.level.toNat]) rfl rfl rfl⟩ rfl fullWrite1.runs)
  have h5 := h4.snoc (.quiet ⟨rfl, .sendStart (t := 0) (e := full 4) rfl rfl⟩ rfl)
  have h6 := h5.snoc (.quiet ⟨rfl, .sendQueue (t := 0) (e := full 4) rfl rfl (by decide)⟩ rfl)
  have h7 := h6.snoc (.flush ⟨rfl, .takeEvent (f := fun e => [UInt8.ofNat e.level.toNat]) rfl rfl rfl⟩ rfl fullWrite2.runs)
  have h8 := h7.snoc (.quiet ⟨rfl, .sendStart (t := 0) (e := full 5) rfl rfl⟩ rfl)
  have h9 := h8.snoc (.quiet ⟨rfl, .sendQueue (t := 0) (e := full 5) rfl rfl (by decide)⟩ rfl)
  have h10 := h9.snoc (.flush ⟨rfl, .takeEvent (f := fun e => [UInt8.ofNat e.level.toNat]) rfl rfl rfl⟩ rfl fullWrite3.runs)
  have h11 := h10.snoc (.quiet ⟨rfl, .closeStart (t := 0) rfl rfl⟩ rfl)
  have h12 := h11.snoc (.quiet ⟨rfl, .closeRequest (t := 0) rfl rfl (by decide)⟩ rfl)
  have h13 := h12.snoc (.flush ⟨rfl, .takeNil rfl rfl⟩ rfl fullWrite4.runs)
  exact ⟨_, _, by simpa using h13, rfl, rfl, rfl, rfl⟩

/-- C79 fails: of three accepted events, the second is not on the disk, though only one operation of the system failed
and nothing has been rolled. -/
theorem C79_lines_lost_refuted : ∃ (cfg : ACfg Nat) (f : Formatter Nat) (c : RCfg) (lib : RLib) (d0 : Disk) (prog : Nat → List (ACall Nat)) (tr : List (ALab Nat)) (st : STrace)
    (s : OState Nat) (a b e : Event Nat) (old : Bytes), cfg.f = some f ∧ OExec cfg 0o022 lib c (newOutput d0 prog) tr st s ∧ s.a.panicked = false ∧ s.a.worker = .stopped ∧
    queuedOf tr = [some a, some b, some e, none] ∧ accepted cfg.t [a, b, e] = [a, b, e] ∧ f b ≠ [] ∧ OneFailed st ∧ rolls st = 0 ∧
    (∃ p, d0.dir c.fileName = some (.file old p)) ∧ ∃ p, s.disk.dir c.fileName = some (.file (old ++ f a ++ f e) p) := by
  obtain ⟨tr, s, h, h1, h2, h3, h4⟩ := fullExec
  refine ⟨fullCfg, _, fullRCfg, demoRLib, demoDisk0.disk, fullProg, tr, _, s, full 3, full 4, full 5, [1], rfl, h, h1, h2, h3, rfl, by simp, oneFailedB_ok (by decide +kernel),
    by decide +kernel, ⟨_, rfl⟩, ?_⟩
  rw [h4]
  exact ⟨0o600, by decide +kernel⟩

/-- C79, what holds: what is missing are the unwritten ends of the writes that failed, and nothing else (removals of
backups being successful): of each batch the number of bytes is there which the writer reported, all if it reported
success. -/
theorem C79_lines_lost_partial {max : Int} (hk : c.kind = .size max) {d0 : Disk} {hs0 : List Str}
    (hb : Backups lib c d0.dir hs0) {B : Int} (hB : 0 ≤ B) (hnum : ∀ n ∈ hs0, ∀ v, Backup lib c n v → v ≤ B)
    {prog : Nat → List (ACall V)} {tr : List (ALab V)} {st : STrace} {s : OState V} (h : OExec cfg umask lib c (newOutput d0 prog) tr st s)
    (hrm : RemovesOk st) (hnr : B + rolls st < 2 ^ 63) :
    ∃ rs : List (Nat × Bool), Later umask lib c d0 {} s.a.writes st rs s.disk s.rw ∧ rs.length = s.a.writes.length ∧ (∀ x ∈ s.a.writes.zip rs, x.2.2 = true → x.2.1 = x.1.length) ∧
      ∃ hs dropped, Backups lib c s.disk.dir hs ∧ (dropped = [] ∨ c.maxRolls ≤ hs.length) ∧
        dropped ++ (files c s.disk.dir hs).flatten = (files c d0.dir hs0).flatten ++ ((s.a.writes.zip rs).map fun x => x.1.take x.2.1).flatten := by
  obtain ⟨_, hss⟩ := oexec_parts h
  obtain ⟨rs, h1, h2, h3, h4⟩ := session_later hss
  obtain ⟨hs, dropped, groups, k1, k2, k3, k4⟩ := C54_size_rolling_gap_free hk hb hB hnum hss.life hrm hnr
  refine ⟨rs, h1, h2, fun x hx => (h3 x hx).2, hs, dropped.flatten, k1, k4.imp (by rintro rfl; rfl) id, ?_⟩
  rw [← List.flatten_append, ← k3, ← h4, ← List.flatten_append, ← k2, List.flatten_flatten]

/- The hypotheses hold in the concrete case, where a write fails. -/
example : fullRCfg.kind = .size 100 ∧ Backups demoRLib fullRCfg demoDisk0.disk.dir [c!"log.7"] ∧ RemovesOk (fullWrite1.tr ++ fullWrite2.tr ++ fullWrite3.tr ++ fullWrite4.tr) ∧
    (7 : Int) + rolls (fullWrite1.tr ++ fullWrite2.tr ++ fullWrite3.tr ++ fullWrite4.tr) < 2 ^ 63 ∧ fullWrite2.res = (0, false) :=
  ⟨rfl, backupsB_ok (by decide +kernel), removesOkB_ok (by decide +kernel), by decide +kernel, by decide +kernel⟩

end Log4g
