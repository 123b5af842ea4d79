import Verif.Lemmas.SharedGrow
import Verif.Lemmas.SharedHomes
import Verif.Lemmas.SharedSim
import Verif.Lemmas.RollDemo

/-! # Properties of several rolling writers in one directory -/

namespace Log4g
open Spec Strconv

variable {lib : RLib} {c : RCfg} {umask : Nat} {cs : Nat → Option RCfg}

theorem apart_symm {a b : RCfg} (h : Apart a b) : Apart b a := fun n h1 h2 => h n h2 h1

/-- C93, what holds: as long as no name concerns two of the writers, whatever is written by whom, in whatever order the calls
of the writers reach the operating system, whatever fails and whoever dies: of each writer, the directory holds what it
would hold if the writer were alone in a directory with its own files. -/
theorem C93_as_if_alone_partial (hap : AllApart cs) (hna : ArchivesApart cs) {v0 : Volume} (hv : OneName v0) {tr : List ShLab} {s : Shared}
    (hx : ShExec umask lib cs { vol := v0 } tr s) {i : Nat} (hi : cs i = some c) :
    ∃ (d0 d : Disk) (calls : STrace) (rw : RW), LifeOf umask lib c d0 (deedsOf i tr ++ pending s i) calls d rw ∧
      (∀ n, NameOf c n → d0.dir n = v0.dir n ∧ d.dir n = s.vol.dir n) ∧ (∀ n, ¬ NameOf c n → d0.dir n = none ∧ d.dir n = none) ∧
      calls.map Sigma.fst = (callsOf i tr).map Sigma.fst := by
  obtain ⟨rw, _, h⟩ := sh_life hap hna hv hx hi
  refine ⟨_, _, _, rw, h, fun n hn => ?_, fun n hn => ?_, by simp [RCfg.sifts, Function.comp_def]⟩
  · have hn := (mine_iff c n).mpr hn
    exact ⟨own_dir hn, own_dir hn⟩
  · have hn : ¬ c.mine n = true := fun h => hn ((mine_iff c n).mp h)
    simp [Volume.own, hn]

/-- C93, what holds, for size-rolling: of each writer the directory holds a gap-free final part of what it has been given. -/
theorem C93_neighbours_partial {max : Int} (hap : AllApart cs) (hna : ArchivesApart cs) {v0 : Volume} (hv : OneName v0) {tr : List ShLab} {s : Shared}
    (hx : ShExec umask lib cs { vol := v0 } tr s) {i : Nat} (hi : cs i = some c) (hk : c.kind = .size max)
    {hs0 : List Str} (hb : Backups lib c v0.dir hs0) {B : Int} (hB : 0 ≤ B) (hnum : ∀ n ∈ hs0, ∀ v, Backup lib c n v → v ≤ B)
    (hrm : RemovesOk (callsOf i tr)) (hnr : B + rolls (callsOf i tr) < 2 ^ 63) :
    ∃ ps, PiecesOf (deedsOf i tr ++ pending s i) ps ∧ KeepsLog lib c (files c v0.dir hs0) ps s.vol.dir := by
  obtain ⟨rw, _, h⟩ := sh_life hap hna hv hx hi
  obtain ⟨ps, h1, h2⟩ := C54_messages hk (own_backups.mpr hb) hB hnum h (sifts_removes hrm) (by rw [sifts_rolls]; exact hnr)
  rw [own_files hb] at h2
  exact ⟨ps, h1, own_keeps h2⟩

/-- C93, what holds, for time-rolling. -/
theorem C93_neighbours_time_partial {pat : Str} (hap : AllApart cs) (hna : ArchivesApart cs) {v0 : Volume} (hv : OneName v0) {tr : List ShLab} {s : Shared}
    (hx : ShExec umask lib cs { vol := v0 } tr s) {i : Nat} (hi : cs i = some c) (hk : c.kind = .time pat) {start : Int → Int} {T0 T1 : Int} (hp : Periods lib pat start T0 T1)
    {hs0 : List Str} (hb : Backups lib c v0.dir hs0) (hold : ∀ n ∈ hs0, ∀ v, Backup lib c n v → v < start T0)
    (hrm : RemovesOk (callsOf i tr)) (hclock : (clocks (callsOf i tr)).Pairwise (· ≤ ·)) (hT : ∀ t ∈ clocks (callsOf i tr), T0 ≤ t ∧ t ≤ T1) :
    ∃ ps, PiecesOf (deedsOf i tr ++ pending s i) ps ∧ KeepsLog lib c (files c v0.dir hs0) ps s.vol.dir := by
  obtain ⟨rw, _, h⟩ := sh_life hap hna hv hx hi
  obtain ⟨ps, h1, h2⟩ := C67_messages_partial hk hp (own_backups.mpr hb) hold h (sifts_removes hrm) (by rw [sifts_clocks]; exact hclock)
    (by rw [sifts_clocks]; exact hT)
  rw [own_files hb] at h2
  exact ⟨ps, h1, own_keeps h2⟩

/-- Writers by number. -/
def writers (l : List RCfg) : Nat → Option RCfg := fun i => l[i]?

theorem writers_apart {l : List RCfg} (h : l.Pairwise Apart) : AllApart (writers l) := by
  intro i j a b hij hi hj
  obtain ⟨hil, rfl⟩ := List.getElem?_eq_some_iff.mp hi
  obtain ⟨hjl, rfl⟩ := List.getElem?_eq_some_iff.mp hj
  rw [List.pairwise_iff_getElem] at h
  rcases Nat.lt_or_gt_of_ne hij with l | l
  · exact h i j hil hjl l
  · exact apart_symm (h j i hjl hil l)

theorem writers_archives {l : List RCfg} (h : ∀ c ∈ l, c.archive = .none) : ArchivesApart (writers l) :=
  ⟨fun _ c hi => .inl (h c (List.mem_of_getElem? hi)), fun _ _ c _ hi _ ha => absurd (h c (List.mem_of_getElem? hi)) ha⟩

theorem writers_temp {l : List RCfg} (h : ∀ c ∈ l, c.exploded = false ∧ c.archivePath = c.dirPath ∧ c.mine tempDir = false) : ArchivesApart (writers l) :=
  ⟨fun _ c hi => .inr ⟨(h c (List.mem_of_getElem? hi)).1, (h c (List.mem_of_getElem? hi)).2.1⟩,
    fun _ _ _ c' _ hj _ hn => by have := (mine_iff c' _).mpr hn; rw [(h c' (List.mem_of_getElem? hj)).2.2] at this; cases this⟩

/-! Two writers, `log` and `trace`, whose rolls overlap. -/

/-- In one go. -/
def whole (i : Nat) (msg : Bytes) (calls : Nat) : List SMove := .start i msg :: (List.replicate calls (.call i 0) ++ [.ret i])

def pairCfg : Nat → Option RCfg := writers [demoRCfg, { demoRCfg with fileName := c!"trace" }]

def pairVol : LVol := { names := [(c!"log.7", .file 0), (c!"log", .file 1), (c!"other", .file 2)], nodes := [([9], 0o444), ([1], 0o600), ([5], 0o600)] }

/-- Both fill their files; then both roll at the same time, and the second writer dies before it has done. -/
def pairRun : ShRun 0o022 demoRLib pairCfg pairVol (whole 0 [2] 4 ++ whole 1 [7, 7] 4 ++ [.start 0 [3], .start 1 [8]] ++
    [.call 0 0, .call 1 0, .call 0 0, .call 1 0, .call 1 0, .call 0 0, .call 0 0, .call 1 0, .call 0 0, .call 0 0, .call 0 0, .call 0 0, .ret 0, .die 1] ++
    whole 1 [6] 4) :=
  shRun _ _ _ _ _ (by decide +kernel)

theorem pairRun_contents : pairRun.L'.vol.contents = [(c!"trace", [6]), (c!"log", [3]), (c!"log.8", [1, 2]), (c!"trace.1", [7, 7]), (c!"log.7", [9]), (c!"other", [5])] := by
  decide +kernel

/-- Post-fixed names are apart if neither file name is a beginning of the other. -/
theorem apart_post {a b : RCfg} (ha : a.mode = .post) (hb : b.mode = .post) (h1 : ¬ a.fileName <+: b.fileName) (h2 : ¬ b.fileName <+: a.fileName) : Apart a b := by
  have pre : ∀ (c : RCfg) n, c.mode = .post → NameOf c n → c.fileName <+: n := by
    rintro c n hm (rfl | ⟨tag, rfl, _⟩)
    · exact List.prefix_refl _
    · rw [hm]; exact List.prefix_append _ _
  intro n hn hn'
  rcases List.prefix_or_prefix_of_prefix (pre a n ha hn) (pre b n hb hn') with h | h
  · exact h1 h
  · exact h2 h

theorem pair_apart : AllApart pairCfg := by
  refine writers_apart (List.pairwise_pair.mpr (apart_post rfl rfl ?_ ?_)) <;> decide

/-- Whether no file has two names and all have numbers. -/
def LVol.okB (L : LVol) : Bool := decide (L.names.Pairwise fun x y => x.2 = .dir ∨ x.2 ≠ y.2) && L.names.all fun x => match x.2 with | .file k => decide (k < L.nodes.length) | .dir => true

theorem oneName_of {L : LVol} (h : L.okB = true) : OneName L.vol := by
  simp only [LVol.okB, Bool.and_eq_true, decide_eq_true_eq, List.all_eq_true] at h
  obtain ⟨h1, h2⟩ := h
  constructor
  · intro a b k ha hb
    have ha' := Map.mem_of_get (m := L.names) ha
    have hb' := Map.mem_of_get (m := L.names) hb
    rw [List.pairwise_iff_getElem] at h1
    obtain ⟨i, hi, ei⟩ := List.getElem_of_mem ha'
    obtain ⟨j, hj, ej⟩ := List.getElem_of_mem hb'
    rcases Nat.lt_trichotomy i j with l | l | l
    · have := h1 i j hi hj l
      rw [ei, ej] at this; simp at this
    · subst l
      rw [ei] at ej; cases ej; rfl
    · have := h1 j i hj hi l
      rw [ei, ej] at this; simp at this
  · intro a k ha
    have := h2 _ (Map.mem_of_get (m := L.names) ha)
    simpa [LVol.vol] using this

theorem pairVol_backups : Backups demoRLib demoRCfg pairVol.vol.dir [c!"log.7"] := by
  have h := demoDisk0_backups
  have e : pairVol.vol.dir = demoDisk0.disk.dir := by
    funext n
    simp only [Volume.dir, LVol.vol, pairVol, LDisk.disk, demoDisk0, Map.get]
    by_cases h1 : c!"log.7" = n
    · simp [h1]
    · by_cases h2 : c!"log" = n
      · simp [h1, h2]
      · by_cases h3 : c!"other" = n <;> simp [h1, h2, h3]
  rw [e]; exact h

example : AllApart pairCfg ∧ ArchivesApart pairCfg ∧ OneName pairVol.vol ∧ ShExec 0o022 demoRLib pairCfg { vol := pairVol.vol } pairRun.tr pairRun.L'.shared ∧
    Backups demoRLib demoRCfg pairVol.vol.dir [c!"log.7"] ∧ RemovesOk (callsOf 0 pairRun.tr) ∧ rolls (callsOf 0 pairRun.tr) = 1 ∧ rolls (callsOf 1 pairRun.tr) = 1 :=
  ⟨pair_apart, writers_archives (by decide), oneName_of (by decide +kernel), pairRun.exec, pairVol_backups, removesOkB_ok (by decide +kernel), by decide +kernel, by decide +kernel⟩

/-! The same with archives, and one backup each. -/

def zippedCfg : Nat → Option RCfg := writers [{ demoRCfg with archive := .zip, maxRolls := 1 }, { demoRCfg with fileName := c!"trace", archive := .gzip, maxRolls := 1 }]

/-- The first writer has a backup already; when it rolls, it does not get it into an archive, and removes it; the second writer
rolls at the same time. -/
def zippedRun : ShRun 0o022 demoRLib zippedCfg pairVol (whole 0 [2] 4 ++ whole 1 [7, 7] 4 ++ [.start 0 [3], .start 1 [8]] ++
    [.call 0 0, .call 1 0, .call 0 0, .call 1 0, .call 1 0, .call 0 0, .call 0 0, .call 1 0] ++ List.replicate 10 (.call 0 0) ++ [.ret 0, .die 1] ++ whole 1 [6, 6] 4) :=
  shRun _ _ _ _ _ (by decide +kernel)

theorem zippedRun_contents : zippedRun.L'.vol.names.map (·.1) = [c!"trace", c!"log", c!".log4g_tmp", c!"log.8", c!"trace.1", c!"other"] ∧
    zippedRun.L'.vol.contents = [(c!"trace", [6, 6]), (c!"log", [3]), (c!"log.8", [1, 2]), (c!"trace.1", [7, 7]), (c!"other", [5])] := by
  decide +kernel

example : AllApart zippedCfg ∧ ArchivesApart zippedCfg ∧ OneName pairVol.vol ∧ ShExec 0o022 demoRLib zippedCfg { vol := pairVol.vol } zippedRun.tr zippedRun.L'.shared ∧
    RemovesOk (callsOf 0 zippedRun.tr) ∧ rolls (callsOf 0 zippedRun.tr) = 1 ∧ rolls (callsOf 1 zippedRun.tr) = 1 :=
  ⟨writers_apart (List.pairwise_pair.mpr (apart_post rfl rfl (by decide) (by decide))), writers_temp (by decide +kernel), oneName_of (by decide +kernel), zippedRun.exec,
    removesOkB_ok (by decide +kernel), by decide +kernel, by decide +kernel⟩

/-- C93 does not hold of all writers with different files: `log`, when it rolls, takes the log file of its neighbour `log.5`
for one of its backups and removes it. -/
def alikeCfg : Nat → Option RCfg := writers [{ demoRCfg with maxRolls := 1 }, { demoRCfg with fileName := c!"log.5" }]

def alikeRun : ShRun 0o022 demoRLib alikeCfg { names := [], nodes := [] } (whole 1 [7] 4 ++ whole 0 [2, 2] 4 ++ whole 0 [3] 9) :=
  shRun _ _ _ _ _ (by decide +kernel)

theorem alikeRun_contents : alikeRun.L'.vol = { names := [(c!"log", .file 2), (c!"log.6", .file 1)], nodes := [([7], 0o600), ([2, 2], 0o500), ([3], 0o600)] } := by
  decide +kernel

/-- Whether no call of the writer failed. -/
theorem noneFailed_of {i : Nat} {tr : List ShLab} (h : (callsOf i tr).all (fun x => !failedB x) = true) : NoneFailed (callsOf i tr) := noneFailedB_ok h

theorem alike_kept : ¬ KeepsLog demoRLib { demoRCfg with fileName := c!"log.5" } [] [[7]] alikeRun.L'.shared.vol.dir := by
  rintro ⟨hs, dropped, groups, hb, h1, h2, h3⟩
  have hn : hs = [] := by
    cases hs with
    | nil => rfl
    | cons n hs =>
      exfalso
      obtain ⟨⟨v, tag, rfl, _⟩, data, p, hd⟩ := (hb.all n).mp (by simp)
      have : alikeRun.L'.shared.vol.dir (backupName .post c!"log.5" tag) = none := by
        show alikeRun.L'.vol.vol.dir _ = none
        rw [alikeRun_contents]
        simp [Volume.dir, LVol.vol, Map.get, backupName]
      have hd : alikeRun.L'.shared.vol.dir (backupName .post c!"log.5" tag) = _ := hd
      rw [this] at hd; cases hd
  subst hn
  have hdir : alikeRun.L'.shared.vol.dir c!"log.5" = none := by
    show alikeRun.L'.vol.vol.dir _ = none
    rw [alikeRun_contents]
    decide
  have hf : files { demoRCfg with fileName := c!"log.5" } alikeRun.L'.shared.vol.dir [] = [] := by
    simp only [files, current, hdir, List.map_nil, List.append_nil]
  rw [hf, List.append_nil] at h2
  rcases h3 with rfl | h3
  · rw [List.map_eq_nil_iff] at h2
    subst h2
    simp at h1
  · simp [demoRCfg] at h3

/-- C93, refuted: two writers with different files, nothing fails, the second writes once and is told that all went well;
afterwards the directory does not hold it. -/
theorem C93_neighbours_refuted : ∃ (a b : RCfg) (v0 : Volume) (tr : List ShLab) (s : Shared),
    a.fileName ≠ b.fileName ∧ 0 < b.maxRolls ∧ OneName v0 ∧ ShExec 0o022 demoRLib (writers [a, b]) { vol := v0 } tr s ∧ NoneFailed (callsOf 0 tr) ∧ NoneFailed (callsOf 1 tr) ∧
    (∀ n, v0.dir n = none) ∧ deedsOf 1 tr = [.wrote [7] 1 true] ∧ ¬ KeepsLog demoRLib b [] [[7]] s.vol.dir := by
  refine ⟨_, _, _, alikeRun.tr, alikeRun.L'.shared, by decide, by decide, oneName_of (by decide), alikeRun.exec, noneFailed_of (by decide +kernel), noneFailed_of (by decide +kernel), fun n => rfl, by decide +kernel, alike_kept⟩

/-- C93.  Entries that concern none of the writers are not touched; only a directory for temporary files may be new. -/
theorem C93_others_untouched (hna : ArchivesApart cs) (hap : AllApart cs) {v0 : Volume} (hv : OneName v0) {tr : List ShLab} {s : Shared}
    (hx : ShExec umask lib cs { vol := v0 } tr s) {n : Str} (hn : ∀ i c, cs i = some c → ¬ NameOf c n)
    (ht : n = tempDir → v0.dir n = none → ∀ i c, cs i = some c → c.archive = .none) : s.vol.dir n = v0.dir n := by
  induction hx with
  | start => rfl
  | @step tr s l s' hx hs ih =>
    cases hs with
    | start _ _ => exact ih
    | ret _ => exact ih
    | die => exact ih
    | @sys i msg o k r v' h' hj hs =>
      have inv := sh_inv hap hna hv hx
      have hi : ∃ c, cs i = some c := by
        cases hc : cs i with
        | none => rw [inv.none i hc] at hj; cases hj
        | some c => exact ⟨c, rfl⟩
      obtain ⟨c, hi⟩ := hi
      obtain ⟨b, h1, h2⟩ := inv.opened i c hi
      rw [hj] at h2
      obtain ⟨hm, _⟩ := h2
      rw [← ih]
      have hn' : ¬ c.mine n = true := fun h => hn _ c hi ((mine_iff c n).mp h)
      by_cases ha : c.archive = .none
      · exact (other_entry inv.sound hm h1 hs hn' fun h => absurd ha h).1
      · by_cases e : n = tempDir
        · have hnone : s.vol.dir n ≠ none := fun h => ha (ht e (ih ▸ h) _ c hi)
          by_cases ho : o = .tmpCreate
          · subst ho
            rcases (temp_step hs).2 with rfl | ⟨h, rfl⟩
            · rfl
            · subst e; exact absurd (by simp [Volume.dir, h]) hnone
          · exact (other_entry_log inv.sound ho hm h1 hs hn').1
        · exact (other_entry inv.sound hm h1 hs hn' fun _ => e).1

example : ∀ i c, pairCfg i = some c → ¬ NameOf c c!"other" := by
  intro i c hc
  have hc := List.mem_of_getElem? hc
  simp only [List.mem_cons, List.not_mem_nil, or_false] at hc
  rw [← mine_iff]
  rcases hc with rfl | rfl <;> decide +kernel

/-! ## Writers with the same file -/

/-- C94, what holds: as long as nobody rolls, whatever is written by whom, fails or dies, and whichever files are the same:
the pieces of messages that the writers write can be put in an order, in which those of each writer are in the order in
which it was given them, such that each log file holds, behind what it held before, the pieces of its writers in this order. -/
theorem C94_same_file_partial (hna : ∀ i c, cs i = some c → Usual c) {v0 : Volume} (hv : OneName v0) {tr : List ShLab} {s : Shared}
    (hx : ShExec umask lib cs { vol := v0 } tr s) (hr : ∀ i, rolls (callsOf i tr) = 0) :
    ∃ order : List (Nat × Bytes), (∀ i, PiecesOf (deedsOf i tr ++ pending s i) ((order.filter fun x => x.1 = i).map (·.2))) ∧
      ∀ n, dataOf s.vol.dir n = dataOf v0.dir n ++ ((order.filter fun x => (cs x.1).map RCfg.fileName = some n).map (·.2)).flatten :=
  ⟨piecesIn tr, fun i => sh_pieces_pending (fun _ => rfl) hx i, (grow_inv hna hv hx hr).data⟩

def sameCfg : Nat → Option RCfg := writers [{ demoRCfg with maxRolls := 1 }, { demoRCfg with maxRolls := 1 }]

/-- The two take turns; the file is below the limit. -/
def sameRun : ShRun 0o022 demoRLib sameCfg { names := [], nodes := [] } (whole 0 [1] 4 ++ [.start 1 [2, 2], .call 1 0, .call 1 0, .call 1 0, .start 0 [3, 3], .call 0 0, .call 1 0, .ret 0, .ret 1]) :=
  shRun _ _ _ _ _ (by decide +kernel)

example : (∀ i c, sameCfg i = some c → Usual c) ∧ OneName (LVol.vol { names := [], nodes := [] }) ∧ ShExec 0o022 demoRLib sameCfg { vol := LVol.vol { names := [], nodes := [] } } sameRun.tr sameRun.L'.shared ∧
    rolls (callsOf 0 sameRun.tr) = 0 ∧ rolls (callsOf 1 sameRun.tr) = 0 ∧ sameRun.L'.vol.contents = [(c!"log", [1, 3, 3, 2, 2])] :=
  ⟨(writers_archives (by decide)).usual, oneName_of (by decide), sameRun.exec, by decide +kernel, by decide +kernel, by decide +kernel⟩

/-- The first writer rolls twice while the second has the first file open. -/
def lostRun : ShRun 0o022 demoRLib sameCfg { names := [], nodes := [] }
    (whole 1 [1] 4 ++ whole 0 [2, 2] 4 ++ whole 0 [3, 3] 8 ++ whole 0 [4] 9 ++ whole 1 [6] 1) :=
  shRun _ _ _ _ _ (by decide +kernel)

theorem lostRun_contents : lostRun.L'.vol.contents = [(c!"log", [4]), (c!"log.2", [3, 3])] := by decide +kernel

theorem contents_of {L : LVol} {n : Str} {data : Bytes} {p : Nat} (h : L.vol.dir n = some (.file data p)) : (n, data) ∈ L.contents := by
  rw [Volume.dir] at h
  split at h
  · cases h
  · cases h
  · rename_i k hk
    cases h
    exact List.mem_filterMap.mpr ⟨(n, .file k), Map.mem_of_get hk, rfl⟩

theorem ends_with_ret {tr : List ShLab} {i : Nat} {msg : Bytes} {res : Nat × Bool}
    (h : (tr.getLast?.any fun l => match l with | .ret j m r => decide (j = i ∧ m = msg ∧ r = res) | _ => false) = true) : ∃ t, tr = t ++ [.ret i msg res] := by
  cases hl : tr.getLast? with
  | none => rw [hl] at h; cases h
  | some l =>
    rw [hl] at h
    refine ⟨tr.dropLast, ?_⟩
    cases l <;> simp only [Option.any_some, decide_eq_true_eq, Bool.false_eq_true] at h
    obtain ⟨rfl, rfl, rfl⟩ := h
    obtain ⟨t, ht⟩ := List.getLast?_eq_some_iff.mp hl
    rw [ht]; simp

/-- C94, what else holds, whatever is rolled, fails or dies, and whichever files are the same: every piece goes to one file, and a
file holds what it held before and then all pieces that went to it, in the order in which they were written, those of each
writer in the order in which it was given them; no file has two names.  What is lost is only what is in files that were
removed or replaced: if nobody removes a file and every backup gets a name that was not taken before, all pieces are there. -/
theorem C94_one_home_partial {v0 : Volume} (hv : OneName v0) {tr : List ShLab} {s : Shared} (hx : ShExec umask lib cs { vol := v0 } tr s) :
    ∃ order : List (Nat × Nat × Bytes), (∀ i, PiecesOf (deedsOf i tr ++ pending s i) ((order.filter fun x => x.1 = i).map (·.2.2))) ∧ OneName s.vol ∧
      (∀ n k, s.vol.names n = some (.file k) →
        dataOf s.vol.dir n = (if k < v0.next then (v0.nodes k).1 else []) ++ ((order.filter fun x => x.2.1 = k).map (·.2.2)).flatten) ∧
      ((∀ i n, .sys i ⟨.remove n, true⟩ ∉ tr) → FreshBackups v0 tr → ∀ x ∈ order, ∃ n, s.vol.names n = some (.file x.2.1)) := by
  obtain ⟨order, h1, inv⟩ := homes_inv hv hx
  refine ⟨order, fun i => ?_, inv.sound, fun n k hn => ?_, fun hrm hre x hx' => ?_⟩
  · have := sh_pieces_pending (fun _ => rfl) hx i
    rw [piecesBy, ← h1] at this
    simpa [List.filter_map, Function.comp_def] using this
  · have := inv.data k (inv.sound.new n k hn)
    rw [← show heldAt v0 k = (if k < v0.next then (v0.nodes k).1 else []) from rfl, ← this]
    simp [dataOf, dir_file hn]
  · exact named_inv hx hrm hre _ (inv.homes x hx').1 (inv.homes x hx').2

/-- Two writers with the same file and no limit on backups; the first rolls, the second goes on with the file it has open. -/
def keptCfg : Nat → Option RCfg := writers [{ demoRCfg with maxRolls := 0 }, { demoRCfg with maxRolls := 0 }]

def keptRun : ShRun 0o022 demoRLib keptCfg { names := [], nodes := [] } (whole 1 [1] 4 ++ whole 0 [2, 2] 4 ++ whole 0 [3, 3] 8 ++ whole 1 [6] 1) :=
  shRun _ _ _ _ _ (by decide +kernel)

/-- Nobody removes a file, and no roll takes a name from `taken`, of a file that was opened or of a roll before. -/
def tidyB (taken : List Str) : List ShLab → Bool
  | [] => true
  | .sys _ ⟨.remove _, r⟩ :: tr => !(r : Bool) && tidyB taken tr
  | .sys _ ⟨.rename _ b, r⟩ :: tr => (!(r : Bool) || !taken.contains b) && tidyB (b :: taken) tr
  | .sys _ ⟨.openAppend b _, _⟩ :: tr => tidyB (b :: taken) tr
  | _ :: tr => tidyB taken tr

theorem tidyB_ok {taken : List Str} {tr : List ShLab} (h : tidyB taken tr = true) : (∀ i n, .sys i ⟨.remove n, true⟩ ∉ tr) ∧
    ∀ t1 i a b t2, tr = t1 ++ .sys i ⟨.rename a b, true⟩ :: t2 → b ∉ taken ∧ (∀ j a', .sys j ⟨.rename a' b, true⟩ ∉ t1) ∧ ∀ j p, .sys j ⟨.openAppend b p, true⟩ ∉ t1 := by
  induction tr generalizing taken with
  | nil => exact ⟨by simp, by intro t1 i a b t2 e; simp at e⟩
  | cons x tr ih =>
    have step : ∀ {taken' : List Str}, tidyB taken' tr = true → (∀ y, y ∈ taken → y ∈ taken') →
        (∀ i n, x ≠ .sys i ⟨.remove n, true⟩) → (∀ i a b, x = .sys i ⟨.rename a b, true⟩ → b ∉ taken ∧ b ∈ taken') → (∀ i b p, x = .sys i ⟨.openAppend b p, true⟩ → b ∈ taken') →
        (∀ i n, .sys i ⟨.remove n, true⟩ ∉ x :: tr) ∧
        ∀ t1 i a b t2, x :: tr = t1 ++ .sys i ⟨.rename a b, true⟩ :: t2 → b ∉ taken ∧ (∀ j a', .sys j ⟨.rename a' b, true⟩ ∉ t1) ∧ ∀ j p, .sys j ⟨.openAppend b p, true⟩ ∉ t1 := by
      intro taken' h0 h1 h2 h3 h4
      obtain ⟨k1, k2⟩ := ih h0
      refine ⟨fun i n hm => ?_, fun t1 i a b t2 e => ?_⟩
      · rcases List.mem_cons.mp hm with e | hm
        · exact h2 i n e.symm
        · exact k1 i n hm
      · cases t1 with
        | nil =>
          simp only [List.nil_append, List.cons.injEq] at e
          exact ⟨(h3 i a b e.1).1, by simp, by simp⟩
        | cons y t1 =>
          simp only [List.cons_append, List.cons.injEq] at e
          obtain ⟨rfl, e⟩ := e
          obtain ⟨g1, g2, g3⟩ := k2 t1 i a b t2 e
          refine ⟨fun hb => g1 (h1 b hb), fun j a' hm => ?_, fun j p hm => ?_⟩
          · rcases List.mem_cons.mp hm with e | hm
            · exact g1 (h3 j a' b e.symm).2
            · exact g2 j a' hm
          · rcases List.mem_cons.mp hm with e | hm
            · exact g1 (h4 j b p e.symm)
            · exact g3 j p hm
    cases x with
    | start i m => exact step h (fun _ h => h) (by simp) (by simp) (by simp)
    | ret i m r => exact step h (fun _ h => h) (by simp) (by simp) (by simp)
    | die i m => exact step h (fun _ h => h) (by simp) (by simp) (by simp)
    | sys i y =>
      obtain ⟨o, r⟩ := y
      cases o with
      | remove n =>
        simp only [tidyB, Bool.and_eq_true, Bool.not_eq_true'] at h
        refine step h.2 (fun _ h => h) ?_ (by simp) (by simp)
        intro j m e
        simp only [ShLab.sys.injEq, Sigma.mk.injEq, Sys.remove.injEq] at e
        obtain ⟨_, e, h2⟩ := e
        subst e
        have := eq_of_heq h2
        rw [this] at h
        simp at h
      | rename a b =>
        simp only [tidyB, Bool.and_eq_true, Bool.or_eq_true, Bool.not_eq_true'] at h
        refine step h.2 (fun _ h => List.mem_cons_of_mem _ h) (by simp) ?_ (by simp)
        intro j a' b' e
        simp only [ShLab.sys.injEq, Sigma.mk.injEq, Sys.rename.injEq] at e
        obtain ⟨_, ⟨rfl, rfl⟩, h2⟩ := e
        have e2 := eq_of_heq h2
        refine ⟨fun hb => ?_, List.mem_cons_self⟩
        rcases h.1 with h1 | h1
        · rw [e2] at h1; cases h1
        · rw [List.contains_eq_mem] at h1; simp at h1; exact h1 hb
      | openAppend b p =>
        simp only [tidyB] at h
        refine step h (fun _ h => List.mem_cons_of_mem _ h) (by simp) (by simp) ?_
        intro j b' p' e
        simp only [ShLab.sys.injEq, Sigma.mk.injEq, Sys.openAppend.injEq] at e
        obtain ⟨_, ⟨rfl, _⟩, _⟩ := e
        exact List.mem_cons_self
      | _ => exact step h (fun _ h => h) (by simp) (by simp) (by simp)

/-- The hypotheses of `C94_one_home_partial` are met, those at the end too, with a roll and a message that is in the backup. -/
example : OneName (LVol.vol { names := [], nodes := [] }) ∧ ShExec 0o022 demoRLib keptCfg { vol := LVol.vol { names := [], nodes := [] } } keptRun.tr keptRun.L'.shared ∧
    (∀ i n, .sys i ⟨.remove n, true⟩ ∉ keptRun.tr) ∧ FreshBackups (LVol.vol { names := [], nodes := [] }) keptRun.tr ∧ rolls (callsOf 0 keptRun.tr) = 1 ∧
    keptRun.L'.vol.contents = [(c!"log", [3, 3]), (c!"log.1", [1, 2, 2, 6])] := by
  obtain ⟨h1, h2⟩ := tidyB_ok (taken := []) (tr := keptRun.tr) (by decide +kernel)
  exact ⟨oneName_of (by decide), keptRun.exec, h1, fun t1 i a b t2 e => ⟨rfl, (h2 t1 i a b t2 e).2⟩, by decide +kernel, by decide +kernel⟩

/-- C94, refuted: two writers with the same configuration and nothing that fails; a message whose write has just returned
that all went well is in no file. -/
theorem C94_same_file_refuted : ∃ (c : RCfg) (tr tr' : List ShLab) (s : Shared) (v0 : Volume), OneName v0 ∧ ShExec 0o022 demoRLib (writers [c, c]) { vol := v0 } tr s ∧
    NoneFailed (callsOf 0 tr) ∧ NoneFailed (callsOf 1 tr) ∧ tr = tr' ++ [.ret 1 [6] (1, true)] ∧ ∀ n data p, s.vol.dir n = some (.file data p) → 6 ∉ data := by
  obtain ⟨t, e⟩ := ends_with_ret (tr := lostRun.tr) (i := 1) (msg := [6]) (res := (1, true)) (by decide +kernel)
  refine ⟨_, lostRun.tr, t, lostRun.L'.shared, _, oneName_of (L := { names := [], nodes := [] }) (by decide), lostRun.exec, noneFailed_of (by decide +kernel), noneFailed_of (by decide +kernel), e, fun n data p h => ?_⟩
  have h := contents_of (L := lostRun.L'.vol) h
  rw [lostRun_contents] at h
  simp only [List.mem_cons, List.not_mem_nil, or_false, Prod.mk.injEq] at h
  rcases h with ⟨_, rfl⟩ | ⟨_, rfl⟩ <;> decide

end Log4g
