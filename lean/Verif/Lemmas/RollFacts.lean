import Verif.Lemmas.RollRuns
import Verif.Lemmas.RollPlans

/-! # Facts about single writes -/

namespace Log4g
open Spec

variable {lib : RLib} {c : RCfg} {umask : Nat}

theorem Spec.Session.life {d0 d : Disk} {ms : List Bytes} {tr : STrace} {rw : RW} (h : Session umask lib c d0 ms tr d rw) : Life umask lib c d0 tr d rw := by
  induction h with
  | start => exact .start
  | write _ hr ih => exact .write ih hr

theorem runs_needsToRoll {rw rw' : RW} {d d' : Disk} {tr : STrace} {b : Bool} (h : Runs umask (c.needsToRoll lib rw) d tr (b, rw') d') :
    d' = d ∧ ((∃ max, c.kind = .size max ∧ tr = [] ∧ rw' = rw ∧ b = decide (rw.size ≥ max)) ∨
      (∃ pat t, c.kind = .time pat ∧ tr = [⟨.now, t⟩] ∧
        (rw.timeName = [] ∧ b = false ∧ rw' = { rw with timeName := lib.format t pat } ∨
         rw.timeName ≠ [] ∧ b = decide (lib.format t pat ≠ rw.timeName) ∧ rw' = rw))) := by
  rw [RCfg.needsToRoll] at h
  cases hk : c.kind with
  | size max =>
    rw [hk] at h
    cases h
    exact ⟨rfl, .inl ⟨max, rfl, rfl, rfl, rfl⟩⟩
  | time pat =>
    rw [hk] at h
    cases h with
    | @call _ _ _ t d1 tr _ _ hs h =>
      simp only [SysStep] at hs
      subst hs
      change Runs umask (if rw.timeName = [] then pure (false, { rw with timeName := lib.format t pat }) else pure (decide (lib.format t pat ≠ rw.timeName), rw)) _ _ _ _ at h
      split at h
      · rename_i he
        cases h
        exact ⟨rfl, .inr ⟨pat, t, rfl, rfl, .inl ⟨he, rfl, rfl⟩⟩⟩
      · rename_i he
        cases h
        exact ⟨rfl, .inr ⟨pat, t, rfl, rfl, .inr ⟨he, rfl, rfl⟩⟩⟩

/-- Opening and writing only touch the current file. -/
theorem append_other {rw rw' : RW} {bs : Bytes} {d d' : Disk} {tr : STrace} {res : Nat × Bool} (hn : rw.file = some .opened → rw.name = c.fileName)
    (h : Runs umask (c.append rw bs) d tr (res, rw') d') {n : Str} (hne : n ≠ c.fileName) : d'.dir n = d.dir n := by
  have step : ∀ {α : Type} {p : Prog α} {d d' : Disk} {tr : STrace} {a : α}, p.All (touchOp (· = c.fileName)) → Runs umask p d tr a d' → d'.dir n = d.dir n :=
    fun h hr => touch_stops h hr.stops hne
  have hput : ∀ {rw rw' : RW} {d d' : Disk} {tr : STrace}, (rw.file = some .opened → rw.name = c.fileName) → Runs umask (RCfg.put rw bs) d tr (res, rw') d' → d'.dir n = d.dir n := by
    intro rw rw' d d' tr hn h
    rcases runs_put h with ⟨hf, _, _, hs⟩ | ⟨_, _, _, _, rfl⟩
    · exact touch_step (own := (· = c.fileName)) (by simp only [touchOp]; exact hn hf) hs hne
    · rfl
  have hcr : ∀ {rw rw' : RW} {d d' : Disk} {tr : STrace} {ok : Bool}, Runs umask (c.createFile rw) d tr (ok, rw') d' → d'.dir n = d.dir n :=
    fun h => step (Prog.All.mono (all_createFile c _) (openOp_touch (own := (· = c.fileName)) rfl)) h
  rcases runs_append h with ⟨_, hc, _⟩ | ⟨t1, rw1, d1, t2, hc, hp, _⟩
  · exact hcr hc
  · rcases hc with ⟨hf, hc⟩ | ⟨_, _, rfl, rfl⟩
    · rw [hput ?_ hp, hcr hc]
      obtain ⟨n, rfl, _⟩ := (runs_createFile hc).1 rfl
      exact fun _ => rfl
    · exact hput hn hp

theorem nodup_length_le {α : Type} [DecidableEq α] {xs ys : List α} (hn : xs.Nodup) (hs : ∀ x ∈ xs, x ∈ ys) : xs.length ≤ ys.length := by
  induction xs generalizing ys with
  | nil => simp
  | cons x xs ih =>
    obtain ⟨h1, h2⟩ := List.nodup_cons.mp hn
    have := ih (ys := ys.erase x) h2 fun z hz => by
      have hne : z ≠ x := by rintro rfl; exact h1 hz
      exact (List.mem_erase_of_ne hne).mpr (hs z (by simp [hz]))
    rw [List.length_erase_of_mem (hs x (by simp))] at this
    have hp := List.length_pos_of_mem (hs x (by simp))
    simp; omega

theorem Spec.Backups.nodup {d : Dir} {hs : List Str} (h : Backups lib c d hs) : hs.Nodup := by
  rw [List.nodup_iff_pairwise_ne]
  refine h.order.imp_of_mem ?_
  rintro a b ha _ hab rfl
  obtain ⟨⟨v, hv⟩, _⟩ := (h.all a).mp ha
  exact absurd (hab v v hv hv) (by omega)

theorem rolls_zero {tr : STrace} (h : ∀ x ∈ tr, ∀ a b, x.1 ≠ .rename a b) : rolls tr = 0 := by
  induction tr with
  | nil => rfl
  | cons x xs ih =>
    obtain ⟨o, r⟩ := x
    have := ih fun y hy => h y (by simp [hy])
    have h0 := h ⟨o, r⟩ (by simp)
    cases o <;> simp_all [rolls]

theorem append_norename {rw rw' : RW} {bs : Bytes} {d d' : Disk} {tr : STrace} {res : Nat × Bool}
    (h : Runs umask (c.append rw bs) d tr (res, rw') d') : ∀ x ∈ tr, ∀ a b, x.1 ≠ .rename a b := by
  have hcr : ∀ {rw rw' : RW} {d d' : Disk} {tr : STrace} {ok : Bool}, Runs umask (c.createFile rw) d tr (ok, rw') d' → ∀ x ∈ tr, ∀ a b, x.1 ≠ .rename a b := by
    intro rw rw' d d' tr ok h x hx a b he
    have := Prog.All.runs (all_createFile c rw) h x hx
    rw [he] at this; exact this
  have hp : ∀ {rw rw' : RW} {d d' : Disk} {tr : STrace}, Runs umask (RCfg.put rw bs) d tr (res, rw') d' → ∀ x ∈ tr, ∀ a b, x.1 ≠ .rename a b := by
    intro rw rw' d d' tr h x hx a b
    rcases runs_put h with ⟨_, rfl, _, _⟩ | ⟨_, rfl, _⟩
    · simp only [List.mem_singleton] at hx; subst hx; simp
    · simp at hx
  rcases runs_append h with ⟨_, hc, _⟩ | ⟨t1, rw1, d1, t2, hc, hp', rfl⟩
  · exact hcr hc
  · intro x hx
    rcases List.mem_append.mp hx with hx | hx
    · rcases hc with ⟨_, hc⟩ | ⟨_, rfl, _⟩
      · exact hcr hc x hx
      · simp at hx
    · exact hp hp' x hx

/-- A write either leaves all files but the current one alone, or has rolled. -/
theorem write_cases {rw rw' : RW} {bs : Bytes} {d d' : Disk} {tr : STrace} {res : Nat × Bool} (hn : rw.file = some .opened → rw.name = c.fileName)
    (h : Runs umask (c.write lib rw bs) d tr (res, rw') d') :
    ((∀ x ∈ tr, ∀ a b, x.1 = .rename a b → x.2 ≍ false) ∧ ∀ n, n ≠ c.fileName → d'.dir n = d.dir n) ∨
    (∃ t0 rw1 names t1 rw2 d2 t2, Runs umask (c.needsToRoll lib rw) d t0 (true, rw1) d ∧ rw1.file = some .opened ∧ rw1.name = c.fileName ∧
      SysStep umask d .readdir (some names) d ∧
      Runs umask (c.rollOver lib { rw1 with file := none } (c.historyOf lib names)) d t1 (true, rw2) d2 ∧ rw2.file = none ∧
      Runs umask (c.append rw2 bs) d2 t2 (res, rw') d' ∧ tr = t0 ++ [⟨.close c.fileName, true⟩, ⟨.readdir, some names⟩] ++ t1 ++ t2) := by
  obtain ⟨t1, b, rw1, d1, t2, rw2, d2, h1, h2⟩ := runs_write h
  have hq1 := Prog.All.runs (all_needsToRoll lib c rw) h1
  obtain ⟨rfl, _⟩ := runs_needsToRoll h1
  have hprop := Prog.Does.runs (does_needsToRoll lib c rw) h1
  have hn1 : rw1.file = some .opened → rw1.name = c.fileName := by
    rw [hprop.1, hprop.2.1]; exact hn
  have nr1 : ∀ x ∈ t1, ∀ a b, x.1 = .rename a b → x.2 ≍ false := fun x hx a b he => by
    have e := hq1 x hx; rw [he] at e; cases e
  rcases h2 with ⟨rfl, hr, rfl, rfl, rfl, rfl⟩ | ⟨hr, t3, ha, rfl⟩
  · rcases runs_roll hr with ⟨_, rfl, h3⟩ | ⟨hf, names, t4, hrd, rfl, ho⟩
    · refine .inl ⟨?_, fun _ _ => rfl⟩
      intro x hx a b he
      rcases List.mem_append.mp hx with hx | hx
      · exact nr1 x hx a b he
      · rcases h3 with ⟨_, rfl, _⟩ | ⟨_, rfl, _⟩ | ⟨_, rfl, _⟩
        · simp at hx
        · simp only [List.mem_singleton] at hx; subst hx; cases he
        · simp only [List.mem_cons, List.not_mem_nil, or_false] at hx
          rcases hx with rfl | rfl <;> cases he
    · obtain ⟨tag, t5, hk, h5⟩ := runs_rollOver ho
      rcases h5 with ⟨_, rfl, rfl⟩ | ⟨h5, _⟩
      · refine .inl ⟨?_, fun _ _ => rfl⟩
        intro x hx a b he
        simp only [List.mem_append, List.mem_cons, List.not_mem_nil, or_false] at hx
        rcases hx with hx | (rfl | rfl) | hx | rfl
        · exact nr1 x hx a b he
        · cases he
        · cases he
        · rcases hk with ⟨_, _, rfl, _⟩ | ⟨_, _, _, rfl, _⟩
          · simp at hx
          · simp only [List.mem_singleton] at hx; subst hx; cases he
        · exact HEq.rfl
      · cases h5
  · rcases hr with ⟨rfl, hr⟩ | ⟨_, rfl, rfl, rfl⟩
    · rcases runs_roll hr with ⟨h3, _⟩ | ⟨hf, names, t4, hrd, rfl, ho⟩
      · cases h3
      · have hfile := Prog.Does.runs (does_rollOver (own := fun _ => True) (lib := lib) (c := c) (rw := { rw1 with file := none }) rfl trivial (fun _ _ => trivial) fun _ _ => trivial) ho
        refine .inr ⟨t1, rw1, names, t4, rw2, d2, t3, h1, hf, hn1 hf, hrd, ho, hfile.1, ha, ?_⟩
        rw [hn1 hf]; simp
    · refine .inl ⟨?_, fun n hne => append_other hn1 ha hne⟩
      intro x hx a b he
      simp only [List.append_nil] at hx
      rcases List.mem_append.mp hx with hx | hx
      · exact nr1 x hx a b he
      · exact absurd he (append_norename ha x hx a b)

theorem rolls_zero' {tr : STrace} (h : ∀ x ∈ tr, ∀ a b, x.1 = .rename a b → x.2 ≍ false) : rolls tr = 0 := by
  induction tr with
  | nil => rfl
  | cons x xs ih =>
    obtain ⟨o, r⟩ := x
    have := ih fun y hy => h y (by simp [hy])
    have h0 := h ⟨o, r⟩ (by simp)
    cases o <;> simp_all [rolls]

/-- After a roll the backups are those kept. -/
theorem rolled_backups {rw1 rw2 : RW} {d d2 : Disk} {t1 : STrace} {hs : List Str} (hmax : 0 < c.maxRolls) (hname : rw1.name = c.fileName)
    (hb : ∀ n, (∃ v, Backup lib c n v) → Regular d.dir n → n ∈ hs)
    (ho : Runs umask (c.rollOver lib { rw1 with file := none } hs) d t1 (true, rw2) d2) :
    ∃ L : List Str, (L.length : Int) ≤ c.maxRolls ∧ ∀ n, (∃ v, Backup lib c n v) → Regular d2.dir n → (⟨.remove n, false⟩ : (o : Sys) × o.Resp) ∉ t1 → n ∈ L := by
  obtain ⟨tag, t5, _, h5⟩ := runs_rollOver ho
  rcases h5 with ⟨h5, _⟩ | ⟨_, d1, r, d1', t2, hr, hch, rfl, h5⟩
  · cases h5
  · simp only [SysStep, if_true] at hr
    obtain ⟨data, p, e1, _, _, rfl⟩ := hr
    have hb1 : ∀ n, (∃ v, Backup lib c n v) → Regular ((d.put rw1.name none).put (backupName c.mode c.fileName tag) (some (.file data p))).dir n → n ∈ hs ++ [backupName c.mode c.fileName tag] := by
      intro n hv hreg
      simp only [Regular, put_dir] at hreg
      by_cases e : n = backupName c.mode c.fileName tag
      · simp [e]
      · rw [if_neg e] at hreg
        by_cases e2 : n = rw1.name
        · rw [if_pos e2] at hreg; obtain ⟨_, _, h⟩ := hreg; cases h
        · rw [if_neg e2] at hreg; exact List.mem_append_left _ (hb n hv hreg)
    have hb2 : ∀ n, (∃ v, Backup lib c n v) → Regular d1'.dir n → n ∈ hs ++ [backupName c.mode c.fileName tag] := by
      intro n hv hreg
      refine hb1 n hv ?_
      simp only [SysStep] at hch
      split at hch
      · obtain ⟨data', p', e3, rfl⟩ := hch
        by_cases e : n = backupName c.mode c.fileName tag
        · subst e; exact ⟨data', p', e3⟩
        · obtain ⟨x, y, h⟩ := hreg
          rw [put_dir, if_neg e] at h
          exact ⟨x, y, h⟩
      · rw [hch] at hreg; exact hreg
    rcases h5 with ⟨hgt, hdel⟩ | ⟨hgt, _, rfl⟩
    · obtain ⟨t6, d6, t7, hd6, _, hrem, rfl, _⟩ := runs_deleteOldRolls hdel
      obtain ⟨k1, _, k3⟩ := runs_removeAll hrem
      refine ⟨(hs ++ [backupName c.mode c.fileName tag]).drop (c.excess (hs ++ [backupName c.mode c.fileName tag]).length), ?_, ?_⟩
      · rw [List.length_drop, RCfg.excess, if_neg (by omega)]
        simp only [List.length_append, List.length_cons, List.length_nil] at hgt ⊢
        omega
      · intro n hv hreg hrm
        have hreg1 : Regular d1'.dir n := by
          rcases k1 n with h | ⟨_, h⟩
          · obtain ⟨x, y, hx⟩ := hreg
            exact ⟨x, y, by rw [← hd6, ← h]; exact hx⟩
          · obtain ⟨x, y, hx⟩ := hreg
            rw [h] at hx; cases hx
        have hm := hb2 n hv hreg1
        rw [← List.take_append_drop (c.excess (hs ++ [backupName c.mode c.fileName tag]).length) (hs ++ [backupName c.mode c.fileName tag])] at hm
        rcases List.mem_append.mp hm with hm | hm
        · obtain ⟨x, y, hx⟩ := hreg
          rw [k3 n hm fun h => hrm (by simp [h])] at hx; cases hx
        · exact hm
    · exact ⟨_, by simp only [List.length_append, List.length_cons, List.length_nil]; omega, fun n hv hreg _ => hb2 n hv hreg⟩

theorem historyOf_mem {names : List Str} {n : Str} {v : Int} (hv : Backup lib c n v) (hn : n ∈ names) : n ∈ c.historyOf lib names := by
  obtain ⟨h1, h2⟩ := (backup_iff lib c n v).mp hv
  simp only [RCfg.historyOf, List.mem_map, RCfg.sortFileRollNamesAsc]
  refine ⟨c.getFileRollName n, (lib.sort_perm _ _).mem_iff.mpr (List.mem_filter.mpr ⟨?_, (valid_iff lib c _).mpr ⟨v, h2⟩⟩), ?_⟩
  · exact List.mem_map.mpr ⟨n, List.mem_filter.mpr ⟨hn, h1⟩, rfl⟩
  · rw [createFull_eq]; exact (backup_of_hasRollName c n h1).symm

/-- The backups after a write that rolls. -/
theorem write_rolled {rw rw' : RW} {bs : Bytes} {d d' : Disk} {tr : STrace} {res : Nat × Bool} (hmax : 0 < c.maxRolls) (hn : rw.file = some .opened → rw.name = c.fileName)
    (h : Runs umask (c.write lib rw bs) d tr (res, rw') d') (hroll : 0 < rolls tr) {hs : List Str} (hnd : hs.Nodup)
    (hall : ∀ n ∈ hs, (∃ v, Backup lib c n v) ∧ Regular d'.dir n ∧ (⟨.remove n, false⟩ : (o : Sys) × o.Resp) ∉ tr) : (hs.length : Int) ≤ c.maxRolls := by
  rcases write_cases hn h with ⟨h1, _⟩ | ⟨t0, rw1, names, t1, rw2, d2, t2, _, hf1, hn1, hrd, ho, hf2, ha, rfl⟩
  · rw [rolls_zero' h1] at hroll; omega
  · obtain ⟨L, hL, hmem⟩ := rolled_backups hmax hn1 (fun n ⟨v, hv⟩ hreg => historyOf_mem hv ((hrd.2.2 n).mpr hreg)) ho
    have : hs.length ≤ L.length := nodup_length_le hnd fun n hn' => by
      obtain ⟨⟨v, hv⟩, hreg, hrm⟩ := hall n hn'
      refine hmem n ⟨v, hv⟩ ?_ fun h => hrm (by simp [h])
      obtain ⟨x, y, hx⟩ := hreg
      refine ⟨x, y, ?_⟩
      rw [← append_other (fun h => by rw [hf2] at h; cases h) ha (n := n) (by rintro rfl; exact current_not_backup lib c v hv)]
      exact hx
    omega

end Log4g
