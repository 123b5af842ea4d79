import Verif.Lemmas.RollForced
import Verif.Props.RollingFaults
import Verif.Props.RollingConfig
import Verif.Props.GoTime

/-! # C120 — nothing is lost as long as the operating system does what it can -/

namespace Log4g
open Spec Strconv

variable {lib : RLib} {c : RCfg} {umask : Nat}

/-! ## What holds -/

/-- C120, what holds: the file has a name, which is not that of a directory, and so have the backups; then, through all crashes
and restarts, if the operating system refuses nothing it could do, every write succeeds and writes the whole message. -/
theorem C120_writes_partial {d0 : Disk} (hlimit : ∀ max, c.kind = .size max → 0 < max) (hname : ¬ NoName c.fileName) (hfew : FewEntries d0)
    (hfile : d0.dir c.fileName ≠ some .dir) (hnumbers : ∀ max, c.kind = .size max → ∀ n, LikeBackup c n → d0.dir n ≠ some .dir)
    (hstamps : ∀ pat, c.kind = .time pat → ∀ t, '/' ∉ lib.format t pat ∧ '\x00' ∉ lib.format t pat ∧ d0.dir (backupName c.mode c.fileName (lib.format t pat)) ≠ some .dir)
    {tr tr' : STrace} {d d' : Disk} {rw rw' : RW} {m : Bytes} {res : Nat × Bool} (h : Life umask lib c d0 tr d rw)
    (hr : Runs umask (c.write lib rw m) d tr' (res, rw') d') (hfo : OnlyForced umask d0 (tr ++ tr')) : res = (m.length, true) := by
  have hroom : RoomFor lib c d0 := ⟨hlimit, hname, hfew, hfile, hnumbers, hstamps⟩
  have key : Fine lib c rw := by
    have hfo' := forced_left hfo
    clear hr hfo
    induction h with
    | start => exact ⟨.inr ⟨rfl, rfl, rfl⟩, fun _ _ => .inl rfl⟩
    | write hl hr ih => exact (fine_write hroom (leads_life hl) (ih (forced_left hfo')) (life_knows hl) hr (forced_right hfo' (leads_life hl))).2
    | crash _ _ _ => exact ⟨.inr ⟨rfl, rfl, rfl⟩, fun _ _ => .inl rfl⟩
    | restart _ _ => exact ⟨.inr ⟨rfl, rfl, rfl⟩, fun _ _ => .inl rfl⟩
  exact (fine_write hroom (leads_life h) key (life_knows h) hr (forced_right hfo (leads_life h))).1

theorem pad_neither (w : Nat) (x : Int) : '/' ∉ GoTime.pad w x ∧ '\x00' ∉ GoTime.pad w x := by
  have h := natDigits_neither x.natAbs
  unfold GoTime.pad
  split <;> simp [h]

/-- With patterns of the calendar (C118) and no zero characters in them, the names of periods are as they should be. -/
theorem C120_calendar {z : GoTime.Zone} {other : RLib} {ps : List DatePiece} {k : Nat} (hp : NamesDownTo ps k) (h0 : .sep '\x00' ∉ ps) (t : Int) :
    '/' ∉ (GoTime.library z other).format t (patternText ps) ∧ '\x00' ∉ (GoTime.library z other).format t (patternText ps) := by
  simp only [GoTime.library, scan_pattern ps hp.seps]
  have key : ∀ x, (x = '/' ∨ x = '\x00') → x ∉ (ps.map Spec.DatePiece.elem).flatMap (GoTime.Elem.show (GoTime.civil (z.clock t))) := by
    intro x hx hm
    obtain ⟨e, he, hm⟩ := List.mem_flatMap.mp hm
    obtain ⟨q, hq, rfl⟩ := List.mem_map.mp he
    have hn : ∀ w v, x ∉ GoTime.pad w v := fun w v => by
      rcases hx with rfl | rfl
      · exact (pad_neither w v).1
      · exact (pad_neither w v).2
    cases q with
    | sep y =>
      simp only [Spec.DatePiece.elem, GoTime.Elem.show, List.mem_singleton] at hm
      subst hm
      rcases hx with rfl | rfl
      · exact hp.seps _ hq (by decide)
      · exact h0 hq
    | field f => cases f <;> exact hn _ _ hm
  exact ⟨key _ (.inl rfl), key _ (.inr rfl)⟩

example : NamesDownTo dailyPieces 2 ∧ .sep '\x00' ∉ dailyPieces ∧ dailyCfg.kind = .time (patternText dailyPieces) := ⟨daily_names, by decide, rfl⟩

/-- Whether all refusals are of names that cannot be. -/
def forcedB (L : LDisk) (tr : STrace) : Bool :=
  tr.all fun x => !failedB x || match x.1 with
    | .rename _ b => !properName b || decide (Map.get L.files b = some .dir)
    | .openAppend n _ => !properName n
    | _ => false

theorem forcedB_ok {L : LDisk} {tr : STrace} (hclean : L.files.all (fun e => properName e.1) = true) (h : forcedB L tr = true) : OnlyForced umask L.disk tr := by
  refine forced_of (fun n hn => ?_) fun x hx hf => ?_
  · cases e : L.disk.dir n with
    | none => rfl
    | some v => exact absurd hn (properName_iff.mp (List.all_eq_true.mp hclean _ (Map.mem_of_get e)))
  · have := List.all_eq_true.mp h x hx
    rw [(failedB_iff x).mpr hf] at this
    obtain ⟨o, r⟩ := x
    cases o <;> simp at this
    case rename a b => exact .inl ⟨a, b, rfl, this⟩
    case openAppend n p => exact .inr ⟨n, p, rfl, this⟩

theorem listed_few (L : LDisk) : FewEntries L.disk :=
  ⟨L.files.map (·.1), fun n hn => by
    cases e : L.disk.dir n with
    | none => exact absurd e hn
    | some v => exact List.mem_map.mpr ⟨_, Map.mem_of_get e, rfl⟩⟩

theorem listed_nodir {L : LDisk} (h : L.files.all (fun e => decide (e.2 ≠ .dir)) = true) (n : Str) : L.disk.dir n ≠ some .dir := fun e => by
  have := List.all_eq_true.mp h _ (Map.mem_of_get e)
  simp at this

/-- Size rolling, with a roll in the last write. -/
example : (∀ max, demoRCfg.kind = .size max → 0 < max) ∧ ¬ NoName demoRCfg.fileName ∧ FewEntries demoDisk0.disk ∧ (∀ n, demoDisk0.disk.dir n ≠ some .dir) ∧
    Life 0o022 demoRLib demoRCfg demoDisk0.disk demoRun4.tr demoRun4.L'.disk demoRun4.rw ∧
    Runs 0o022 (demoRCfg.write demoRLib demoRun4.rw [6]) demoRun4.L'.disk demoWrite5.tr (demoWrite5.res, demoWrite5.rw') demoWrite5.L'.disk ∧
    OnlyForced 0o022 demoDisk0.disk (demoRun4.tr ++ demoWrite5.tr) ∧ rolls demoWrite5.tr = 1 :=
  ⟨fun _ h => by cases h; decide, by rw [← properName_iff]; decide, listed_few _, listed_nodir (by decide +kernel), demoRun4.life, demoWrite5.runs, forcedB_ok (by decide +kernel) (by decide +kernel),
    demoWrite5_rolls⟩

/-- Time rolling: the names of periods. -/
example : demoTCfg.kind = .time c!"x" ∧ (∀ t, '/' ∉ demoRLib.format t c!"x" ∧ '\x00' ∉ demoRLib.format t c!"x") ∧
    Life 0o022 demoRLib demoTCfg demoTDisk0.disk demoTRun.tr demoTRun.L'.disk demoTRun.rw ∧ OnlyForced 0o022 demoTDisk0.disk demoTRun.tr ∧ rolls demoTRun.tr = 2 :=
  ⟨rfl, fun t => itoa_neither t, demoTRun.life, forcedB_ok (by decide +kernel) (by decide +kernel), by decide +kernel⟩

/-! ## What fails -/

theorem noName_write {rw rw' : RW} {bs : Bytes} {d d' : Disk} {tr : STrace} {res : Nat × Bool} (hp : properName c.fileName = false) (hd : d.dir c.fileName = none)
    (hf : rw.file = none) (h : Runs umask (c.write lib rw bs) d tr (res, rw') d') : res = (0, false) ∧ rw'.file = none ∧ d' = d := by
  have hcreate : ∀ {rw rw' : RW} {tr : STrace} {ok : Bool} {d'}, rw.file = none → Runs umask (c.createFile rw) d tr (ok, rw') d' → ok = false ∧ rw'.file = none ∧ d' = d := by
    intro rw rw' tr ok d' hf g
    rw [RCfg.createFile] at g
    cases g with
    | @call _ _ _ r d1 tr _ _ hs g =>
      simp only [SysStep] at hs
      subst hs
      cases r with
      | false => cases g; exact ⟨rfl, hf, rfl⟩
      | true =>
        cases g with
        | @call _ _ _ r d2 tr _ _ hs g =>
          cases r with
          | false => simp only [SysStep, Bool.false_eq_true, if_false] at hs; subst hs; cases g; exact ⟨rfl, rfl, rfl⟩
          | true => simp only [SysStep, if_true, hd] at hs; rw [hp] at hs; cases hs.1
  obtain ⟨t1, b, rw1, d1, t2, rw2, d2, k1, k2⟩ := runs_write h
  obtain ⟨rfl, _⟩ := runs_needsToRoll k1
  have hf1 : rw1.file = none := by rw [(Prog.Does.runs (does_needsToRoll lib c rw) k1).1]; exact hf
  have hroll : ∀ {ok}, Runs umask (c.roll lib rw1) d1 t2 (ok, rw2) d2 → ok = false ∧ d2 = d1 ∧ rw2 = rw1 := by
    intro ok hr
    rcases runs_roll hr with ⟨a, b, h3⟩ | ⟨h3, _⟩
    · rcases h3 with ⟨_, _, h3⟩ | ⟨h3, _⟩ | ⟨h3, _⟩
      · exact ⟨a, b, h3⟩
      · rw [hf1] at h3; cases h3
      · rw [hf1] at h3; cases h3
    · rw [hf1] at h3; cases h3
  rcases k2 with ⟨_, hr, rfl, rfl, rfl, rfl⟩ | ⟨hr, t3, ha, rfl⟩
  · obtain ⟨_, rfl, rfl⟩ := hroll hr
    exact ⟨rfl, hf1, rfl⟩
  · rcases hr with ⟨_, hr⟩ | ⟨_, rfl, rfl, rfl⟩
    · cases (hroll hr).1
    · rcases runs_append ha with ⟨_, hc, rfl⟩ | ⟨_, _, _, _, hc, _, _⟩
      · obtain ⟨_, a, b⟩ := hcreate hf1 hc
        exact ⟨rfl, a, b⟩
      · rcases hc with ⟨_, hc⟩ | ⟨hn, _⟩
        · cases (hcreate hf1 hc).1
        · exact absurd hf1 hn

theorem baseName_last {dir last : Str} (hdir : dir = [] ∨ ∃ p, dir = p ++ ['/']) (hlast : '/' ∉ last) : baseName (dir ++ last) = last := by
  have htake : ∀ l r : Str, '/' ∉ l → (r = [] ∨ ∃ q, r = '/' :: q) → (l ++ r).takeWhile (· ≠ '/') = l := by
    intro l r hl hr
    induction l with
    | nil =>
      rcases hr with rfl | ⟨q, rfl⟩
      · rfl
      · simp
    | cons x l ih =>
      have hx : x ≠ '/' := fun e => hl (by simp [e])
      rw [List.cons_append, List.takeWhile_cons_of_pos (by simpa using hx), ih fun h => hl (List.mem_cons_of_mem _ h)]
  unfold baseName
  rw [List.reverse_append, htake _ _ (by simpa using hlast), List.reverse_reverse]
  rcases hdir with rfl | ⟨p, rfl⟩
  · exact .inl rfl
  · exact .inr ⟨p.reverse, by simp⟩

/-- C120 fails, first case: the configuration of a rolling output does not say which file, or names a directory (the path ends in a
slash, or in `.` or `..`).  It is accepted, and every write fails, whatever the operating system does; nothing is written. -/
theorem C120_no_file_refuted {cfg : CfgMap} (hty : cfg.at c!"type" = c!"size_rolling_file" ∨ cfg.at c!"type" = c!"time_rolling_file") {dir last : Str}
    (hfile : cfg.at c!"file" = dir ++ last) (hdir : dir = [] ∨ ∃ p, dir = p ++ ['/']) (hlast : last = [] ∨ last = ['.'] ∨ last = ['.', '.']) (tc : Toolchain) :
    ∃ c, newRollingWriter tc cfg = some c ∧ ∀ umask lib d ms tr rs d' rw', (∀ n, NoName n → d.dir n = none) →
      Later umask lib c d {} ms tr rs d' rw' → d' = d ∧ ∀ r ∈ rs, r = (0, false) := by
  have hbase : baseName (cfg.at c!"file") = last := by
    rw [hfile]
    refine baseName_last hdir ?_
    rcases hlast with rfl | rfl | rfl <;> decide
  have hc : ∃ c, newRollingWriter tc cfg = some c ∧ c.fileName = last := by
    replace hty : cfg.type = _ ∨ cfg.type = _ := hty
    rcases hty with h | h
    · refine ⟨_, by simp only [newRollingWriter]; rw [if_pos h], ?_⟩
      simpa [newRollingFileWriter] using hbase
    · refine ⟨_, by simp only [newRollingWriter]; rw [if_neg (by rw [h]; decide), if_pos h], ?_⟩
      simpa [newRollingFileWriter] using hbase
  obtain ⟨c, hc, hn⟩ := hc
  refine ⟨c, hc, fun umask lib d ms tr rs d' rw' hclean hl => ?_⟩
  have hno : NoName c.fileName := by
    rw [hn]
    rcases hlast with rfl | rfl | rfl
    · exact .inl rfl
    · exact .inr (.inl rfl)
    · exact .inr (.inr (.inl rfl))
  have hp : properName c.fileName = false := by
    cases hx : properName c.fileName with
    | false => rfl
    | true => exact absurd hno (properName_iff.mp hx)
  have key : d' = d ∧ (∀ r ∈ rs, r = (0, false)) ∧ rw'.file = none := by
    induction hl with
    | start => exact ⟨rfl, by simp, rfl⟩
    | write _ hr ih =>
      obtain ⟨rfl, h1, h2⟩ := ih
      obtain ⟨rfl, h3, rfl⟩ := noName_write hp (hclean _ hno) h2 hr
      refine ⟨rfl, fun r hm => ?_, h3⟩
      rcases List.mem_append.mp hm with hm | hm
      · exact h1 r hm
      · simpa using hm
  exact ⟨key.1, key.2.1⟩

theorem rolls_refused {tr : STrace} (h : ∀ x ∈ tr, ∀ a b, x.1 = .rename a b → x.2 ≍ false) : rolls tr = 0 := rolls_zero' h

/-- C120 fails, second case: the names of periods have slashes.  Then, whatever the operating system does, no backup is ever made, and the first
message of every new period is lost. -/
theorem C120_slash_refuted {pat : Str} (hk : c.kind = .time pat) (hsl : ∀ t, '/' ∈ lib.format t pat) {d0 d : Disk} {ws : List (STrace × (Nat × Bool))} {rw : RW}
    (h : Tries umask lib c d0 ws d rw) :
    (∀ w ∈ ws, rolls w.1 = 0) ∧ (∀ n, n ≠ c.fileName → d.dir n = d0.dir n) ∧
    (ws ≠ [] → ∀ m tr res rw' d', Runs umask (c.write lib rw m) d tr (res, rw') d' →
      (∀ t', (clocks tr).head? = some t' → ∀ v ∈ ws, ∀ t ∈ clocks v.1, lib.format t' pat ≠ lib.format t pat) → res = (0, false) ∧ d' = d) := by
  have hstuck : ∀ {t : Int} {rw : RW} {d : Disk}, rw.timeName = lib.format t pat → Stuck umask lib c rw d := by
    intro t rw d ht names tag _ htag
    unfold NextTag at htag
    rw [hk] at htag
    simp only at htag
    refine .inr ?_
    cases hx : properName (backupName c.mode c.fileName tag) with
    | false => rfl
    | true =>
      refine absurd (.inr (.inr (.inr (.inl ?_)))) (properName_iff.mp hx)
      rw [htag, ht]
      cases c.mode <;> simp [backupName, hsl t]
  have hwrite : ∀ {ws : List (STrace × (Nat × Bool))} {d d' : Disk} {rw rw' : RW} {m : Bytes} {tr : STrace} {res : Nat × Bool}, Tries umask lib c d0 ws d rw →
      Runs umask (c.write lib rw m) d tr (res, rw') d' → rolls tr = 0 ∧ (∀ n, n ≠ c.fileName → d'.dir n = d.dir n) := by
    intro ws d d' rw rw' m tr res hl hr
    rcases time_after hk hl with ⟨rfl, rfl⟩ | ⟨w, _, _, v, _, t, _, ht⟩
    · rcases write_cases (fun h => by cases h) hr with ⟨h1, h2⟩ | ⟨_, _, _, _, _, _, _, hneed, hf, _⟩
      · exact ⟨rolls_zero' h1, h2⟩
      · rw [(Prog.Does.runs (does_needsToRoll lib c {}) hneed).1] at hf; cases hf
    · obtain ⟨⟨h1, h2⟩, _⟩ := stuck_write (tries_knows hl) (hstuck ht) hr
      exact ⟨rolls_zero' h1, h2⟩
  refine ⟨?_, ?_, fun hne m tr res rw' d' hr hcl => ?_⟩
  · induction h with
    | start => simp
    | write hl hr ih =>
      intro w hw
      rcases List.mem_append.mp hw with hw | hw
      · exact ih w hw
      · simp only [List.mem_singleton] at hw; subst hw; exact (hwrite hl hr).1
  · induction h with
    | start => simp
    | write hl hr ih => exact fun n hn => by rw [(hwrite hl hr).2 n hn, ih n hn]
  · rcases time_after hk h with ⟨rfl, _⟩ | ⟨w, _, _, v, hv, t, ht, e⟩
    · exact absurd rfl hne
    · have hcl' : ∃ t', (clocks tr).head? = some t' := by
        obtain ⟨t1, b, rw1, d1, t2, rw2, d2, k1, k2⟩ := runs_write hr
        obtain ⟨_, k3⟩ := runs_needsToRoll k1
        rcases k3 with ⟨_, hk', _⟩ | ⟨_, t', _, rfl, _⟩
        · rw [hk] at hk'; cases hk'
        · exact ⟨t', by rcases k2 with ⟨_, _, rfl, _⟩ | ⟨_, t3, _, rfl⟩ <;> simp [clocks, clocks_append]⟩
      obtain ⟨t', ht'⟩ := hcl'
      have := (stuck_write (tries_knows h) (hstuck e) hr).2 (.inr ⟨pat, t', hk, by rw [e]; exact List.ne_nil_of_mem (hsl t), ht', by rw [e]; exact hcl t' ht' v hv t ht⟩)
      exact ⟨this.1, this.2.1⟩

/-- With Go's calendar: such are the names of the pattern `2006/01/02`. -/
theorem slashes_in_names (z : GoTime.Zone) (other : RLib) (t : Int) : '/' ∈ (GoTime.library z other).format t c!"2006/01/02" := by
  have hs : ∃ es, GoTime.scan c!"2006/01/02" = some es ∧ GoTime.Elem.lit '/' ∈ es := ⟨_, rfl, by decide⟩
  obtain ⟨es, h1, h2⟩ := hs
  simp only [GoTime.library, h1]
  exact List.mem_flatMap.mpr ⟨_, h2, by simp [GoTime.Elem.show]⟩

/-- C120 fails, third case: a directory has the name of the first backup, and there are no backups.  When the file has reached its limit all later
writes fail, whatever the operating system does. -/
theorem C120_directory_refuted {max : Int} (hk : c.kind = .size max) {d0 d : Disk} (hnone : ∀ n v, Backup lib c n v → ¬ Regular d0.dir n)
    (hdir : d0.dir (backupName c.mode c.fileName ['1']) = some .dir) {ws : List (STrace × (Nat × Bool))} {rw : RW} (h : Tries umask lib c d0 ws d rw)
    {w : STrace × (Nat × Bool)} (hw : ws.getLast? = some w) (hok : w.2.2 = true) {data : Bytes} {p : Nat} (hfull : d.dir c.fileName = some (.file data p)) (hmax : max ≤ data.length) :
    ∀ ms tr rs d' rw', Later umask lib c d rw ms tr rs d' rw' → (∀ r ∈ rs, r = (0, false)) ∧ d' = d := by
  have hbne : ∀ {n v}, Backup lib c n v → n ≠ c.fileName := by
    rintro n v ⟨tag, rfl, _⟩
    exact backupName_ne _ _ _
  have hstuck : ∀ {rw : RW} {d : Disk}, (∀ n, n ≠ c.fileName → d.dir n = d0.dir n) → Stuck umask lib c rw d := by
    intro rw d hsame names tag hrd htag
    have hnil : c.historyOf lib names = [] := by
      refine List.eq_nil_iff_forall_not_mem.mpr fun n hn => ?_
      obtain ⟨⟨v, hv⟩, hr⟩ := ((history_ascending (lib := lib) (c := c) hrd).all n).mp hn
      refine hnone n v hv ?_
      rw [Regular, ← hsame n (hbne hv)]
      exact hr
    unfold NextTag at htag
    rw [hk] at htag
    simp only [hnil] at htag
    have : tag = ['1'] := by rw [htag]; show itoa (wrap64 (0 + 1)) = ['1']; decide +kernel
    subst this
    exact .inl (by rw [hsame _ (backupName_ne _ _ _)]; exact hdir)
  have hsame : (∀ n, n ≠ c.fileName → d.dir n = d0.dir n) ∧ (∀ w, ws.getLast? = some w → w.2.2 = true → rw.file = some .opened) := by
    clear hw hok hfull
    induction h with
    | start => exact ⟨fun _ _ => rfl, by simp⟩
    | write hl hr ih =>
      refine ⟨fun n hn => ?_, fun w hw hok => ?_⟩
      · rw [(stuck_write (tries_knows hl) (hstuck ih.1) hr).1.2 n hn, ih.1 n hn]
      · simp only [List.getLast?_append, List.getLast?_singleton, Option.some_or, Option.some.injEq] at hw
        subst hw
        exact ((write_dir (tries_knows hl) hr).2.1 hok).1
  have hop := hsame.2 w hw hok
  obtain ⟨_, data', p', e, hsize⟩ := tries_knows h hop
  rw [hfull] at e; cases e
  intro ms tr rs d' rw' hl
  have key : ((∀ r ∈ rs, r = (0, false)) ∧ d' = d) ∧ (rw' = rw ∨ Lost max rw') := by
    induction hl with
    | start => exact ⟨⟨by simp, rfl⟩, .inl rfl⟩
    | write _ hr ih =>
      obtain ⟨⟨h1, rfl⟩, h2⟩ := ih
      have hall : ∀ {r : Nat × Bool} {rs}, (∀ r ∈ rs, r = (0, false)) → r = (0, false) → ∀ x ∈ rs ++ [r], x = (0, false) := by
        rintro r rs h1 rfl x hx
        rcases List.mem_append.mp hx with hx | hx
        · exact h1 x hx
        · simpa using hx
      rcases h2 with rfl | h2
      · obtain ⟨a, b, e, f⟩ := (stuck_write (tries_knows h) (hstuck hsame.1) hr).2 (.inl ⟨max, hk, by omega⟩)
        exact ⟨⟨hall h1 a, b⟩, .inr ⟨e, by omega⟩⟩
      · obtain ⟨_, a, b, e⟩ := lost_write hk h2 hr
        subst b
        exact ⟨⟨hall h1 a, e⟩, .inr h2⟩
  exact key.1

/-! In each case there are runs in which nothing is refused that could be done. -/

/-- The configuration does not say which file. -/
def namelessCfg : CfgMap := some [(c!"type", c!"size_rolling_file"), (c!"size", c!"1K")]
def namelessR : RCfg := (newRollingWriter .since113 namelessCfg).get (by decide +kernel)
def namelessRun : SimRun 0o022 demoRLib namelessR allWell [[2], [3]] demoDisk0 := simRun _ _ _ _ _ _ (by decide +kernel)

example : newRollingWriter .since113 namelessCfg = some namelessR ∧ namelessCfg.at c!"file" = [] ++ [] ∧
    Session 0o022 demoRLib namelessR demoDisk0.disk [[2], [3]] namelessRun.tr namelessRun.L'.disk namelessRun.rw ∧ OnlyForced 0o022 demoDisk0.disk namelessRun.tr ∧
    namelessRun.ress = [(0, false), (0, false)] ∧ namelessRun.L' = demoDisk0 :=
  ⟨(Option.some_get _).symm, by decide, namelessRun.session, forcedB_ok (by decide +kernel) (by decide +kernel), by decide +kernel, by decide +kernel⟩

/-- The names of the days have slashes; four messages on three days. -/
def slashCfg : RCfg := { demoRCfg with kind := .time c!"2006/01/02" }
def slash1 : SimWrite 0o022 dailyLib slashCfg (dailyClock 0) [1] {} dailyDisk0 := simWrite _ _ _ _ _ _ _ (by decide +kernel)
def slash2 : SimWrite 0o022 dailyLib slashCfg (dailyClock 1) [2] slash1.rw' slash1.L' := simWrite _ _ _ _ _ _ _ (by decide +kernel)
def slash3 : SimWrite 0o022 dailyLib slashCfg (dailyClock 2) [3] slash2.rw' slash2.L' := simWrite _ _ _ _ _ _ _ (by decide +kernel)
def slash4 : SimWrite 0o022 dailyLib slashCfg (dailyClock 3) [4] slash3.rw' slash3.L' := simWrite _ _ _ _ _ _ _ (by decide +kernel)

example : slashCfg.kind = .time c!"2006/01/02" ∧ (∀ t, '/' ∈ dailyLib.format t c!"2006/01/02") ∧
    Tries 0o022 dailyLib slashCfg dailyDisk0.disk [(slash1.tr, slash1.res), (slash2.tr, slash2.res), (slash3.tr, slash3.res)] slash3.L'.disk slash3.rw' ∧
    Runs 0o022 (slashCfg.write dailyLib slash3.rw' [4]) slash3.L'.disk slash4.tr (slash4.res, slash4.rw') slash4.L'.disk ∧
    OnlyForced 0o022 dailyDisk0.disk (slash1.tr ++ slash2.tr ++ slash3.tr ++ slash4.tr) ∧
    [slash1.res, slash2.res, slash3.res, slash4.res] = [(1, true), (0, false), (1, true), (0, false)] ∧
    (∀ t', (clocks slash4.tr).head? = some t' → ∀ v ∈ [(slash1.tr, slash1.res), (slash2.tr, slash2.res), (slash3.tr, slash3.res)], ∀ t ∈ clocks v.1,
      dailyLib.format t' c!"2006/01/02" ≠ dailyLib.format t c!"2006/01/02") :=
  ⟨rfl, slashes_in_names _ _, .write (.write (.write .start slash1.runs) slash2.runs) slash3.runs, slash4.runs, forcedB_ok (by decide +kernel) (by decide +kernel), by decide +kernel, by
    have h : (clocks slash4.tr).head? = some 1582992001000000000 := by decide +kernel
    rw [h]
    rintro t' ht
    cases ht
    decide +kernel⟩

/-- A directory has the name of the first backup. -/
def blockedDisk : LDisk := { files := [(c!"log.1", .dir)] }
def blocked1 : SimWrite 0o022 demoRLib demoRCfg (allWell 0) [1, 2] {} blockedDisk := simWrite _ _ _ _ _ _ _ (by decide +kernel)
def blocked2 : SimWrite 0o022 demoRLib demoRCfg (allWell 0) [3] blocked1.rw' blocked1.L' := simWrite _ _ _ _ _ _ _ (by decide +kernel)

example : demoRCfg.kind = .size 2 ∧ (∀ n v, Backup demoRLib demoRCfg n v → ¬ Regular blockedDisk.disk.dir n) ∧ blockedDisk.disk.dir (backupName demoRCfg.mode demoRCfg.fileName ['1']) = some .dir ∧
    Tries 0o022 demoRLib demoRCfg blockedDisk.disk [(blocked1.tr, blocked1.res)] blocked1.L'.disk blocked1.rw' ∧ blocked1.res = (2, true) ∧
    blocked1.L'.disk.dir c!"log" = some (.file [1, 2] 0o600) ∧ Later 0o022 demoRLib demoRCfg blocked1.L'.disk blocked1.rw' [[3]] blocked2.tr [blocked2.res] blocked2.L'.disk blocked2.rw' ∧
    OnlyForced 0o022 blockedDisk.disk (blocked1.tr ++ blocked2.tr) ∧ blocked2.res = (0, false) :=
  ⟨rfl, fun n v _ ⟨data, p, e⟩ => by
    have := Map.mem_of_get e
    simp [blockedDisk] at this, by decide +kernel, .write .start blocked1.runs, by decide +kernel, by decide +kernel, by simpa using Later.write .start blocked2.runs,
    forcedB_ok (by decide +kernel) (by decide +kernel), by decide +kernel⟩

end Log4g
