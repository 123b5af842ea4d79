import Verif.Lemmas.Space
import Verif.Props.RollingRestarts
import Verif.Props.RetentionProgram

/-! # C126: the log takes limited space -/

namespace Log4g
open Spec
open scoped List

section
variable {lib : RLib} {c : RCfg} {umask : Nat}

/-- C126, files, for both kinds of rolling: with at most `N` backups to begin with, and no fewer configured, whatever fails and however often the program dies
or starts anew, at any moment of any write there are at most `N` backups and the log file, one more for each removal that
failed and one more for each time the program died before. -/
theorem C126_files (hmax : 0 < c.maxRolls) {N : Int} (hN : c.maxRolls ≤ N) {d0 d d' : Disk} (h0 : AtMost lib c d0.dir N) {ds : List Deed} {tr tr' : STrace} {rw : RW}
    {msg : Bytes} (h : LifeOf umask lib c d0 ds tr d rw) (hs : Stops umask (c.write lib rw msg) d tr' d') :
    FilesAtMost lib c d'.dir (N + 1 + failedRemovals (tr ++ tr') + deaths ds) := by
  have := (stops_files hmax (by omega) (life_knows (lifeOf_life h)) hs (lifeOf_atMost hmax hN h0 h)).2
  refine filesAtMost_mono this ?_
  rw [failedRemovals_append]
  omega

/-- C126, size rolling: if messages have at most `L` bytes and the files at first fewer than `K`, each of those files has fewer than `K + L` bytes, and `L`
more for each new start. -/
theorem C126_space {max K : Int} {L : Nat} (hk : c.kind = .size max) (hpos : 0 < max) (hmax : 0 < c.maxRolls) {N : Int} (hN : c.maxRolls ≤ N) (hK : max ≤ K)
    {d0 d d' : Disk} (h0 : AtMost lib c d0.dir N) (hd0 : ∀ n, LogName lib c n → ((fileText d0.dir n).length : Int) < K) {ds : List Deed} {tr tr' : STrace} {rw : RW} {msg : Bytes}
    (h : LifeOf umask lib c d0 ds tr d rw) (hs : Stops umask (c.write lib rw msg) d tr' d') (hms : ∀ m ∈ ds, m.text.length ≤ L) (hm : msg.length ≤ L) :
    Below lib c d'.dir ((N + 1 + failedRemovals (tr ++ tr') + deaths ds) * (K + L * (restarts ds + 1))) := by
  have hL : (0 : Int) ≤ L * (restarts ds + 1) := Int.mul_nonneg (by omega) (by omega)
  refine files_below (by omega) (by omega) (C126_files hmax hN h0 h hs) fun n hn => ?_
  have hdata : ∀ {n data p}, LogName lib c n → d0.dir n = some (.file data p) → (data.length : Int) < K := by
    intro n data p hn e
    have := hd0 n hn
    simpa [fileText, e] using this
  have hz := lifeOf_sizes hk hpos hK (fun data p e => hdata (.inl rfl) e) h hms
  obtain ⟨t2, res, rw2, hr⟩ := stops_stays hz.knows hs
  have hR : (0 : Int) ≤ (restarts ds : Int) * L := Int.mul_nonneg (by omega) (by omega)
  have hz := sizes_write hk hpos (by omega) (by omega) (Int.ofNat_le.mpr hm) hz hr
  have e : K + (restarts ds : Int) * L + L = K + L * (restarts ds + 1) := by rw [Int.mul_add, Int.mul_comm]; omega
  rw [← e]
  unfold fileText
  split
  · rename_i data p he
    rcases hn with rfl | ⟨v, hv⟩
    · exact hz.cur data p he
    · rcases hz.backs n v hv data p he with hx | ⟨_, hx⟩
      · have := hdata (.inr ⟨v, hv⟩) hx; omega
      · exact hx
  · simp; omega

/-- C126, in the simplest case: a program that does not die, in a directory without log files, when all removals succeed.  At any moment all
files together have fewer bytes than the number of backups and one more, times the limit and the length of the longest message. -/
theorem C126_alive {max : Int} {L : Nat} (hk : c.kind = .size max) (hpos : 0 < max) (hmax : 0 < c.maxRolls) {d0 d d' : Disk} (h0 : ∀ n, LogName lib c n → d0.dir n = none)
    {ds : List Deed} {tr tr' : STrace} {rw : RW} {msg : Bytes} (h : LifeOf umask lib c d0 ds tr d rw) (hs : Stops umask (c.write lib rw msg) d tr' d')
    (hms : ∀ x ∈ ds, ∃ m n ok, x = .wrote m n ok ∧ m.length ≤ L) (hm : msg.length ≤ L) (hrm : RemovesOk (tr ++ tr')) :
    Below lib c d'.dir ((c.maxRolls + 1) * (max + L)) := by
  have hf : failedRemovals (tr ++ tr') = 0 := by
    unfold failedRemovals
    rw [List.countP_eq_zero]
    intro x hx
    split
    · rename_i n
      exact absurd (hrm n false hx) (by simp)
    · simp
  have hd : deaths ds = 0 := by
    unfold deaths
    rw [List.countP_eq_zero]
    intro x hx
    obtain ⟨m, n, ok, rfl, _⟩ := hms x hx
    simp
  have hr : restarts ds = 0 := by
    clear h hd
    induction ds with
    | nil => rfl
    | cons x ds ih =>
      obtain ⟨m, n, ok, rfl, _⟩ := hms x (by simp)
      exact ih fun y hy => hms y (by simp [hy])
  have := C126_space hk hpos hmax (Int.le_refl _) (Int.le_refl max) (d0 := d0) (fun hs hnd hall => ?_) (fun n hn => ?_) h hs (fun x hx => ?_) hm
  · rw [hf, hd, hr] at this
    simpa using this
  · cases hs with
    | nil => simp; omega
    | cons n hs =>
      obtain ⟨hv, x, y, e⟩ := hall n (by simp)
      rw [h0 n (.inr hv)] at e; cases e
  · simp [fileText, h0 n hn, hpos]
  · obtain ⟨m, n, ok, rfl, hm⟩ := hms x hx
    exact hm

/-! A program that dies in the middle of its first roll, and goes on: two backups, of which one had to go. -/

theorem demo_atMost : AtMost demoRLib demoRCfg demoDisk0.disk.dir 2 := atMost_mono (backups_atMost demoDisk0_backups) (by decide)

/- The hypotheses of `C126_files` and `C126_space` are met. -/
example : 0 < demoRCfg.maxRolls ∧ (∀ n, LogName demoRLib demoRCfg n → ((fileText demoDisk0.disk.dir n).length : Int) < 2) ∧ AtMost demoRLib demoRCfg demoDisk0.disk.dir 2 ∧
    ∃ ds tr d rw tr' d', LifeOf 0o022 demoRLib demoRCfg demoDisk0.disk ds tr d rw ∧ Stops 0o022 (demoRCfg.write demoRLib rw [5]) d tr' d' ∧ (∀ m ∈ ds, m.text.length ≤ 2) ∧
      deaths ds = 1 ∧ restarts ds = 1 ∧ 0 < rolls (tr ++ tr') ∧ fileText d'.dir c!"log" ≠ [] := by
  refine ⟨by decide, fun n _ => ?_, demo_atMost, [.wrote [2, 2] 2 true, .died [3], .wrote [4] 1 true], deedA.tr ++ deedB.tr ++ deedC.tr, deedC.L'.disk, deedC.rw', [], _, ?_, .here, by decide, by decide, by decide, ?_, ?_⟩
  · by_cases h1 : n = c!"log.7"
    · subst h1; decide
    · by_cases h2 : n = c!"log"
      · subst h2; decide
      · by_cases h3 : n = c!"other"
        · subst h3; decide
        · have : demoDisk0.disk.dir n = none := by
            simp [LDisk.disk, demoDisk0, Map.get, Ne.symm h1, Ne.symm h2, Ne.symm h3]
          simp [fileText, this]
  · have ha : deedA.res = (2, true) := by decide +kernel
    have hc : deedC.res = (1, true) := by decide +kernel
    have h1 := deedA.runs
    have h3 := deedC.runs
    rw [ha] at h1
    rw [hc] at h3
    exact .write (.crash (.write .start h1) deedB.stops) h3
  · rw [List.append_nil]; decide +kernel
  · decide +kernel

/-! A program that begins with nothing, and is about to roll. -/

/-- A directory with nothing in it. -/
def bareDisk : LDisk := { files := [] }

def bareA : SimWrite 0o022 demoRLib demoRCfg (allWell 0) [2, 2] {} bareDisk := simWrite _ _ _ _ _ _ _ (by decide +kernel)
def bareB : SimWrite 0o022 demoRLib demoRCfg (allWell 1) [3] bareA.rw' bareA.L' := simWrite _ _ _ _ _ _ _ (by decide +kernel)
def bareC : SimStop 0o022 demoRLib demoRCfg (allWell 1) 3 [4, 4] bareB.rw' bareB.L' := simStop _ _ _ _ _ _ _ _ (by decide +kernel)

/- The hypotheses of `C126_alive` are met. -/
example : (∀ n, LogName demoRLib demoRCfg n → bareDisk.disk.dir n = none) ∧
    LifeOf 0o022 demoRLib demoRCfg bareDisk.disk [.wrote [2, 2] 2 true, .wrote [3] 1 true] (bareA.tr ++ bareB.tr) bareB.L'.disk bareB.rw' ∧
    Stops 0o022 (demoRCfg.write demoRLib bareB.rw' [4, 4]) bareB.L'.disk bareC.tr bareC.L'.disk ∧ RemovesOk (bareA.tr ++ bareB.tr ++ bareC.tr) ∧ 0 < rolls (bareA.tr ++ bareB.tr) := by
  have ha : bareA.res = (2, true) := by decide +kernel
  have hb : bareB.res = (1, true) := by decide +kernel
  have h1 := bareA.runs
  have h2 := bareB.runs
  rw [ha] at h1
  rw [hb] at h2
  exact ⟨fun _ _ => rfl, .write (.write .start h1) h2, bareC.stops, removesOkB_ok (by decide +kernel), by decide +kernel⟩

end

section
variable {V : Type} {env : PEnv V} {host : Host} {up : Nat → Bool} {v0 : Nat → Volume} {tr : List (MLab V)} {m : Machine V} {o : Nat} {c : RCfg} {k : Nat}

/-- C126, whole programs, both kinds of rolling: other outputs keep away from the files of this one.  Whatever fails, at every moment the log file and its backups are no more files
than the backups that are kept, or were there when the program began, and one more, and one more for each removal that failed. -/
theorem C126_program_files (h : MExec env host (newMachine up v0) tr m) (ho : RollingOut env.tc m.p.w o c) (hk : host.place c.dirPath = k)
    (hn : Neighbourly env.tc host m.p.w k) (hv : OneName (v0 k)) {N : Int} (hN : c.maxRolls ≤ N) (h0 : AtMost host.lib c (v0 k).dir N) :
    FilesAtMost host.lib c (m.vol k).dir (N + 1 + failedRemovals (callsOf o (ioIn k tr))) := by
  have inv := mexec_inv h
  have hr := rolling_iff.mp ho
  have hmax := rollOf_keeps hr
  obtain ⟨t1, t2, d, tmp, rw, msg, hl, hs, e, _⟩ := machine_alone inv hv hr hk hn
  have := C126_files hmax hN (own_atMost.mpr h0) hl hs
  rw [← e, sifts_failed, (wrote_only o (ioIn_lives k tr)).1] at this
  exact own_filesAtMost.mp (filesAtMost_mono this (by omega))

/-- C126, whole programs: if the output is given at most `L` bytes at a time to write, and the files at first had fewer than `K` bytes, they have fewer than `K + L` bytes each at
every moment. -/
theorem C126_program (h : MExec env host (newMachine up v0) tr m) (ho : RollingOut env.tc m.p.w o c) (hk : host.place c.dirPath = k)
    (hn : Neighbourly env.tc host m.p.w k) (hv : OneName (v0 k)) {N : Int} (hN : c.maxRolls ≤ N) (h0 : AtMost host.lib c (v0 k).dir N)
    {max K : Int} (hkind : c.kind = .size max) (hpos : 0 < max) (hK : max ≤ K) (hsmall : ∀ n, LogName host.lib c n → ((fileText (v0 k).dir n).length : Int) < K)
    {L : Nat} (hL : ∀ msg ∈ messages (deedsIn k o tr m), msg.length ≤ L) :
    Below host.lib c (m.vol k).dir ((N + 1 + failedRemovals (callsOf o (ioIn k tr))) * (K + L)) := by
  have inv := mexec_inv h
  have hr := rolling_iff.mp ho
  have hmax := rollOf_keeps hr
  obtain ⟨t1, t2, d, tmp, rw, msg, hl, hs, e, hd⟩ := machine_alone inv hv hr hk hn
  have hds : ∀ x ∈ deedsOf o (ioIn k tr), x.text.length ≤ L := by
    intro x hx
    obtain ⟨msg, n, ok, rfl⟩ := (wrote_only o (ioIn_lives k tr)).2.2 x hx
    refine hL msg ?_
    unfold deedsIn messages
    exact List.mem_flatMap.mpr ⟨_, List.mem_append_left _ hx, by simp⟩
  have := C126_space hkind hpos hmax hN hK (own_atMost.mpr h0) (fun n hn => by rw [own_text hn]; exact hsmall n hn) hl hs hds ?_
  · rw [← e, sifts_failed, (wrote_only o (ioIn_lives k tr)).1, (wrote_only o (ioIn_lives k tr)).2.1] at this
    simpa using own_below.mp this
  · rcases hd with rfl | hd
    · simp
    · exact hL msg hd

/-- C126, whole programs, asynchronous outputs: if the texts of the accepted events sent to the output have at most `l` bytes, the files have fewer than the limit and `batch_num` times `l` bytes each. -/
theorem C126_program_async (h : MExec env host (newMachine up v0) tr m) (ho : RollingOut env.tc m.p.w o c) (hk : host.place c.dirPath = k)
    (hn : Neighbourly env.tc host m.p.w k) (hv : OneName (v0 k)) {N : Int} (hN : c.maxRolls ≤ N) (h0 : AtMost host.lib c (v0 k).dir N)
    {max K : Int} (hkind : c.kind = .size max) (hpos : 0 < max) (hK : max ≤ K) (hsmall : ∀ n, LogName host.lib c n → ((fileText (v0 k).dir n).length : Int) < K)
    {cfg : ACfg V} {f : Formatter V} (hc : AsyncOut env m.p.w o cfg) (hf : cfg.f = some f) {l : Nat} (hl : ∀ t, ∀ e ∈ sentBy t o (progOf tr), cfg.t ≤ e.level → (f e).length ≤ l) :
    Below host.lib c (m.vol k).dir ((N + 1 + failedRemovals (callsOf o (ioIn k tr))) * (K + cfg.batchNum * l)) := by
  have inv := mexec_inv h
  have hr := rolling_iff.mp ho
  have pinv := pexec_inv inv.prog
  have hc := async_of hc
  obtain ⟨_, _, hb, _⟩ := asyncOf_cfg pinv.world hc
  have := C126_program h ho hk hn hv hN h0 hkind hpos hK hsmall (L := cfg.batchNum * l) ?_
  · simpa using this
  · rw [given_messages inv hr hk]
    unfold PState.given
    rw [hc]
    obtain ⟨gs1, gs2, written, batch, waiting, e1, e2, e3, e4, e5, e6, e7, e8⟩ := written_groups hf hb (pinv.proj o cfg hc) (w1 := []) (w2 := (m.p.a o).writes) (by simp)
    simp only [e3]
    intro msg hm
    obtain ⟨g, hg, rfl⟩ := List.mem_map.mp hm
    refine flatMap_length (e6 g hg) fun e he => ?_
    have hin : e ∈ gs2.flatten := List.mem_flatten.mpr ⟨g, hg, he⟩
    rw [e5] at hin
    obtain ⟨hin, hlv⟩ := List.mem_filter.mp hin
    obtain ⟨⟨u, e'⟩, hy, rfl⟩ := List.mem_map.mp hin
    refine hl u e' ?_ (by simpa using hlv)
    have hq := queued_logged inv.prog hc u
    rw [e1, shareOf_append, shareOf_append] at hq
    refine (((List.sublist_append_right _ _).trans (List.sublist_append_left _ _)).trans hq).subset ?_
    exact List.mem_map.mpr ⟨(u, e'), List.mem_filter.mpr ⟨hy, by simp⟩, rfl⟩

/-- C126, whole programs, synchronous outputs: if the lines of the accepted events sent to the output have at most `l` bytes, the files have fewer than the limit and `l` bytes each. -/
theorem C126_program_sync (h : MExec env host (newMachine up v0) tr m) (ho : RollingOut env.tc m.p.w o c) (hk : host.place c.dirPath = k)
    (hn : Neighbourly env.tc host m.p.w k) (hv : OneName (v0 k)) {N : Int} (hN : c.maxRolls ≤ N) (h0 : AtMost host.lib c (v0 k).dir N)
    {max K : Int} (hkind : c.kind = .size max) (hpos : 0 < max) (hK : max ≤ K) (hsmall : ∀ n, LogName host.lib c n → ((fileText (v0 k).dir n).length : Int) < K)
    {lev : Level} {f : List Frame → Option (Formatter V)} (hc : SyncOut env m.p.w o lev f) {l : Nat}
    (hl : ∀ t, ∀ e ∈ sentBy t o (progOf tr), lev ≤ e.level → ∀ stack, (textOf env.lib (f stack) e).length ≤ l) :
    Below host.lib c (m.vol k).dir ((N + 1 + failedRemovals (callsOf o (ioIn k tr))) * (K + l)) := by
  have inv := mexec_inv h
  have hr := rolling_iff.mp ho
  refine C126_program h ho hk hn hv hN h0 hkind hpos hK hsmall ?_
  rw [given_messages inv hr hk]
  obtain ⟨q, hq⟩ := pexec_sinv inv.prog
  unfold PState.given
  rw [sync_none hc]
  simp only
  rw [hq.wrote, sync_lines hc]
  intro msg hm
  obtain ⟨y, hy, rfl⟩ := List.mem_map.mp hm
  obtain ⟨u, e, stack⟩ := y
  obtain ⟨hy, hlv⟩ := List.mem_filter.mp hy
  refine hl u e ?_ (by simpa using hlv) stack
  have h2 := (plain_order inv.prog (sync_none hc) u).1
  rw [← hq.made] at h2
  exact h2.subset (List.mem_map.mpr ⟨(u, e), List.mem_filter.mpr ⟨List.mem_map.mpr ⟨_, hy, rfl⟩, by simp⟩, rfl⟩)

/-! Cases: the program of C95. -/

theorem Demo.filed_small (n : Str) : ((fileText Demo.fvol.vol.dir n).length : Int) < 3 := by
  rw [Demo.fvol_dir]
  by_cases h1 : n = c!"log.7"
  · subst h1; decide
  · by_cases h2 : n = c!"log"
    · subst h2; decide
    · by_cases h3 : n = c!"other"
      · subst h3; decide
      · simp [fileText, LDisk.disk, Map.get, Ne.symm h1, Ne.symm h2, Ne.symm h3]

theorem Demo.filed_sent {t o : Nat} {e : Event Nat} (h : e ∈ sentBy t o (Demo.fsetup ++ Demo.flogged)) : e = Demo.hi := by
  simp only [sentBy, Demo.fsetup, Demo.flogged, Demo.logged, List.mem_flatMap] at h
  obtain ⟨x, hx, he⟩ := h
  simp only [List.cons_append, List.nil_append, List.mem_cons, List.not_mem_nil, or_false] at hx
  rcases hx with rfl | rfl | rfl | rfl | rfl | rfl | rfl | rfl | rfl | rfl | rfl | rfl <;> simp only [List.not_mem_nil] at he
  split at he
  · obtain ⟨d, hd, rfl⟩ := List.mem_map.mp he
    obtain ⟨hd, _⟩ := List.mem_filter.mp hd
    simp only [List.mem_cons, List.not_mem_nil, or_false] at hd
    rcases hd with rfl | rfl <;> rfl
  · cases he

/- The hypotheses of the theorems on programs are met, by an asynchronous output and a synchronous one in the same directory, after the first has rolled. -/
example : ∃ up v0 tr m c c', MExec Demo.env Demo.fhost (newMachine up v0) tr m ∧ RollingOut Demo.env.tc m.p.w 0 c ∧ RollingOut Demo.env.tc m.p.w 1 c' ∧
    Demo.fhost.place c.dirPath = 0 ∧ Demo.fhost.place c'.dirPath = 0 ∧ Neighbourly Demo.env.tc Demo.fhost m.p.w 0 ∧ OneName (v0 0) ∧
    AtMost Demo.fhost.lib c (v0 0).dir c.maxRolls ∧ AtMost Demo.fhost.lib c' (v0 0).dir c'.maxRolls ∧ c.kind = .size 2 ∧ c'.kind = .size 2 ∧
    (∀ n, ((fileText (v0 0).dir n).length : Int) < 3) ∧ (∀ msg ∈ messages (deedsIn 0 0 tr m), msg.length ≤ 3) ∧ rolls (callsOf 0 (ioIn 0 tr)) = 1 := by
  obtain ⟨tr1, m1, tr2, m2, h1, h2, e1, e2, e3, e4, f1, f2, g1, g2⟩ := Demo.filed_run
  have hd : Housed Demo.env Demo.fhost (fun _ => Demo.fvol.vol) (tr1 ++ tr2) m2 0 Demo.logR 0 [c!"log.7"] := Demo.filed_log f2 (by rw [ioIn_append, e3, e4]; decide +kernel)
  have hd' : Housed Demo.env Demo.fhost (fun _ => Demo.fvol.vol) (tr1 ++ tr2) m2 1 Demo.traceR 0 [] := Demo.filed_trace f2 (by rw [ioIn_append, e3, e4]; decide +kernel)
  refine ⟨_, _, tr1 ++ tr2, m2, _, _, h1.trans h2, hd.out, hd'.out, rfl, rfl, hd.apart, hd.order, atMost_mono (backups_atMost hd.backups) (by decide), atMost_mono (backups_atMost hd'.backups) (by decide),
    rfl, rfl, Demo.filed_small, ?_, ?_⟩
  · rw [deedsIn, (g2 0).1, ioIn_append, e3, e4, List.append_nil]; decide +kernel
  · rw [ioIn_append, e3, e4]; decide +kernel

/- And the lines are as long as they are. -/
example : ∃ up v0 tr m f, MExec Demo.env Demo.fhost (newMachine up v0) tr m ∧ AsyncOut Demo.env m.p.w 0 Demo.bcfg ∧ SyncOut Demo.env m.p.w 1 Level.All f ∧
    (∀ t, ∀ e ∈ sentBy t 0 (progOf tr), (Demo.plain e).length ≤ 3) ∧ Demo.bcfg.f = some Demo.plain ∧
    (∀ t, ∀ e ∈ sentBy t 1 (progOf tr), ∀ stack, (textOf Demo.env.lib (f stack) e).length ≤ 3) ∧ sentBy 0 1 (progOf tr) = [Demo.hi] := by
  obtain ⟨tr1, m1, tr2, m2, h1, h2, e1, e2, e3, e4, f1, f2, g1, g2⟩ := Demo.filed_run
  refine ⟨_, _, tr1, m1, _, h1, by rw [f1]; exact Demo.wf_out, by rw [f1]; exact Demo.wf_sync, fun t e he => ?_, rfl, fun t e he stack => ?_, by rw [e1]; rfl⟩
  · rw [e1] at he
    rw [Demo.filed_sent he, Demo.plain_hi]; decide
  · rw [e1] at he
    rw [Demo.filed_sent he]
    have : textOf Demo.env.lib (Demo.wf.formatterOf Demo.lib stack Demo.env.other ⟨.managed (Demo.filed.outputs[1]'(by decide)), some 0⟩) Demo.hi = [104, 105, 10] := by rfl
    rw [this]; decide

end

end Log4g
