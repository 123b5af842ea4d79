import Verif.Lemmas.RollOps

/-! # The runs of a roll -/

namespace Log4g
open Spec

variable {lib : RLib} {c : RCfg} {umask : Nat}

/-! ## Files that are not the writer's own -/

/-- Calls that touch only the writer's own names. -/
def touchOp (own : Str → Prop) : Sys → Prop
  | .rename a b => own a ∧ own b
  | .chmod n _ => own n
  | .remove n => own n
  | .openAppend n _ => own n
  | .write n _ => own n
  | _ => True

theorem touch_step {own : Str → Prop} {d d' : Disk} {o : Sys} {r : o.Resp} (h : touchOp own o) (hs : SysStep umask d o r d') {n : Str} (hn : ¬ own n) :
    d'.dir n = d.dir n := by
  have ne : ∀ m, own m → n ≠ m := by rintro m hm rfl; exact hn hm
  by_cases hq : quiet o = true
  · rw [quiet_step hq hs]
  · cases o <;> simp only [quiet, not_true_eq_false, reduceCtorEq, Bool.false_eq_true, not_false_eq_true] at hq <;> simp only [SysStep, touchOp] at hs h
    case openAppend m p =>
      split at hs
      · split at hs
        · rw [hs.2, put_dir, if_neg (ne _ h)]
        · rw [hs]
        · exact hs.elim
      · rw [hs]
    case write m bs =>
      obtain ⟨_, _, _, _, _, rfl⟩ := hs
      rw [put_dir, if_neg (ne _ h)]
    case rename a b =>
      split at hs
      · obtain ⟨_, _, _, _, _, rfl⟩ := hs
        rw [put_dir, if_neg (ne _ h.2), put_dir, if_neg (ne _ h.1)]
      · rw [hs]
    case chmod m p =>
      split at hs
      · obtain ⟨_, _, _, rfl⟩ := hs
        rw [put_dir, if_neg (ne _ h)]
      · rw [hs]
    case remove m =>
      split at hs
      · rcases hs with ⟨_, rfl⟩ | ⟨_, _, _, rfl⟩
        · rfl
        · rw [put_dir, if_neg (ne _ h)]
      · rw [hs]

theorem touch_stops {α : Type} {own : Str → Prop} {p : Prog α} {d d' : Disk} {tr : STrace} (h : p.All (touchOp own)) (hs : Stops umask p d tr d') {n : Str}
    (hn : ¬ own n) : d'.dir n = d.dir n := by
  induction hs with
  | here => rfl
  | call hs _ ih => rw [ih (h.2 _), touch_step h.1 hs hn]

theorem rollOp_touch {own : Str → Prop} (o : Sys) (h : rollOp own o) : touchOp own o := by
  cases o <;> simp_all [rollOp, touchOp]

theorem does_needsToRoll (lib : RLib) (c : RCfg) (rw : RW) : (c.needsToRoll lib rw).Does (· = .now)
    (fun br => br.2.file = rw.file ∧ br.2.name = rw.name ∧ br.2.size = rw.size ∧
      (br.2.timeName = rw.timeName ∨ br.1 = false ∧ rw.timeName = [] ∧ ∃ t pat, c.kind = .time pat ∧ br.2.timeName = lib.format t pat)) := by
  rw [RCfg.needsToRoll]
  cases hk : c.kind with
  | size max => exact ⟨rfl, rfl, rfl, .inl rfl⟩
  | time pat =>
    refine ⟨rfl, fun t => ?_⟩
    show Prog.Does _ _ (if _ then _ else _)
    split
    · rename_i he; exact ⟨rfl, rfl, rfl, .inr ⟨rfl, he, t, pat, rfl, rfl⟩⟩
    · exact ⟨rfl, rfl, rfl, .inl rfl⟩

theorem does_createFile (c : RCfg) {rw : RW} (hf : rw.file = none) : (c.createFile rw).Does (openOp c)
    (fun br => (br.1 = true → br.2.file = some .opened) ∧ (br.2.file = some .opened → br.2.name = c.fileName) ∧ br.2.timeName = rw.timeName) := by
  rw [RCfg.createFile]
  refine ⟨trivial, fun b => ?_⟩
  cases b
  · exact ⟨by simp, by simp [hf], rfl⟩
  · refine ⟨⟨rfl, rfl⟩, fun b => ?_⟩
    cases b
    · exact ⟨by simp, by simp, rfl⟩
    · refine ⟨trivial, fun r => ?_⟩
      cases r with
      | none => exact ⟨trivial, fun _ => ⟨by simp, by simp, rfl⟩⟩
      | some n => exact ⟨by simp, by simp, rfl⟩

theorem openOp_touch {own : Str → Prop} (hcur : own c.fileName) (o : Sys) (h : openOp c o) : touchOp own o := by
  cases o <;> simp_all [openOp, touchOp]

/-- A write touches only the current file and names that a roll may give or find. -/
theorem touch_write {own : Str → Prop} {rw : RW} {bs : Bytes} (hcur : own c.fileName) (hn : rw.file = some .opened → rw.name = c.fileName)
    (hh : ∀ n v, Backup lib c n v → own n) (hnew : ∀ tag, TagOf c rw tag → own (backupName c.mode c.fileName tag)) :
    (c.write lib rw bs).Does (touchOp own) (fun br => br.2.file = some .opened → br.2.name = c.fileName) := by
  have hput : ∀ rw1 : RW, (rw1.file = some .opened → rw1.name = c.fileName) → (RCfg.put rw1 bs).Does (touchOp own) (fun br => br.2.file = some .opened → br.2.name = c.fileName) := by
    intro rw1 h
    rw [RCfg.put]
    split
    · rename_i hf
      refine ⟨by simp only [touchOp]; rw [h hf]; exact hcur, fun _ => h⟩
    · exact h
  have happ : ∀ rw1 : RW, (rw1.file = some .opened → rw1.name = c.fileName) → (c.append rw1 bs).Does (touchOp own) (fun br => br.2.file = some .opened → br.2.name = c.fileName) := by
    intro rw1 h
    rw [RCfg.append]
    split
    · rename_i hf
      refine Prog.Does.bind ((does_createFile c hf).mono (openOp_touch hcur) fun _ h => h) ?_
      rintro ⟨ok, rw2⟩ ⟨_, h2, _⟩
      dsimp only at h2 ⊢
      split
      · exact h2
      · exact hput rw2 h2
    · exact hput rw1 h
  rw [RCfg.write]
  refine Prog.Does.bind ((does_needsToRoll lib c rw).mono (fun o h => by rw [h]; trivial) fun _ h => h) ?_
  rintro ⟨b, rw1⟩ ⟨h1, h2, h3, h4⟩
  dsimp only at h1 h2 h3 h4 ⊢
  have hn1 : rw1.file = some .opened → rw1.name = c.fileName := by rw [h1, h2]; exact hn
  split
  · rename_i hb
    have ht : rw1.timeName = rw.timeName := by
      rcases h4 with h4 | ⟨h4, _⟩
      · exact h4
      · rw [hb] at h4; cases h4
    refine Prog.Does.bind ((does_roll (own := own) (lib := lib) (c := c) (rw := rw1) (fun h => by rw [hn1 h]; exact hcur) hh ?_).mono (fun o h => rollOp_touch o h) fun _ h => h) ?_
    · intro tag h
      apply hnew tag
      unfold TagOf at h ⊢
      rw [ht] at h; exact h
    · rintro ⟨ok, rw2⟩ ⟨h5, _⟩
      dsimp only at h5 ⊢
      split
      · exact fun h => absurd h h5
      · exact happ rw2 fun h => absurd h h5
  · exact happ rw1 hn1

/-- The name of the open file along a life. -/
theorem life_name {d0 d : Disk} {tr : STrace} {rw : RW} (hl : Life umask lib c d0 tr d rw) : rw.file = some .opened → rw.name = c.fileName := by
  induction hl with
  | start => simp
  | write _ hr ih => exact Prog.Does.runs (touch_write (own := fun _ => True) trivial ih (fun _ _ _ => trivial) fun _ _ => trivial) hr
  | crash => simp
  | restart => simp

theorem life_untouched {own : Str → Prop} (hcur : own c.fileName) (hh : ∀ n v, Backup lib c n v → own n)
    (hnew : ∀ rw tag, TagOf c rw tag → own (backupName c.mode c.fileName tag)) {d0 d : Disk} {tr : STrace} {rw : RW} (hl : Life umask lib c d0 tr d rw)
    {n : Str} (hn : ¬ own n) : d.dir n = d0.dir n := by
  induction hl with
  | start => rfl
  | write hl hr ih => rw [← ih]; exact touch_stops (touch_write hcur (life_name hl) hh (hnew _)).all hr.stops hn
  | crash hl hr ih => rw [← ih]; exact touch_stops (touch_write hcur (life_name hl) hh (hnew _)).all hr hn
  | restart _ ih => exact ih

/-! ## Decomposition -/

theorem Quiet.runs {α : Type} {p : Prog α} (h : Quiet p) {d d' : Disk} {tr : STrace} {a : α} (hr : Runs umask p d tr a d') :
    d'.dir = d.dir ∧ ∀ x ∈ tr, quiet x.1 = true := by
  induction hr with
  | ret => exact ⟨rfl, by simp⟩
  | @call o k d r d' tr a d'' hs _ ih =>
    obtain ⟨h1, h2⟩ := ih (h.2 _)
    refine ⟨by rw [h1, quiet_step h.1 hs], ?_⟩
    intro x hx
    rcases List.mem_cons.mp hx with rfl | hx
    · exact h.1
    · exact h2 x hx

/-- How many rolls are deleted. -/
def RCfg.excess (c : RCfg) (n : Nat) : Nat := if c.maxRolls ≤ 0 then 0 else ((n : Int) - c.maxRolls).toNat

/-- The deletion: things that leave the directory alone, then the removals. -/
theorem runs_deleteOldRolls {hs : List Str} {d d' : Disk} {tr : STrace} (h : Runs umask (c.deleteOldRolls hs) d tr () d') :
    ∃ t1 d1 t2, d1.dir = d.dir ∧ (∀ x ∈ t1, quiet x.1 = true) ∧ Runs umask (removeAll (hs.take (c.excess hs.length))) d1 t2 () d' ∧ tr = t1 ++ t2 ∧
      (c.archive = .none → t1 = []) := by
  rw [RCfg.deleteOldRolls] at h
  unfold RCfg.excess
  split at h
  · rename_i h0
    cases h
    exact ⟨[], d, [], rfl, by simp, by rw [if_pos h0]; exact .ret, rfl, fun _ => rfl⟩
  · rename_i h0
    dsimp only at h
    split at h
    · rename_i h1
      cases h
      refine ⟨[], d, [], rfl, by simp, ?_, rfl, fun _ => rfl⟩
      rw [if_neg h0]
      have : ((hs.length : Int) - c.maxRolls).toNat = 0 := by omega
      rw [this]; exact .ret
    · rw [if_neg h0]
      split at h
      · rename_i ha
        obtain ⟨t1, _, d1, t2, h1, h2, rfl⟩ := runs_bind h
        obtain ⟨q1, q2⟩ := (Quiet.sys (o := .mkdirAll c.dirPerm) rfl).runs h1
        split at h2
        · obtain ⟨t2, _, d2, t3, k2, h3, rfl⟩ := runs_bind h2
          obtain ⟨q3, q4⟩ := (quiet_each c _).runs k2
          refine ⟨t1 ++ t2, d2, t3, by rw [q3, q1], ?_, h3, by simp, fun h => absurd h ha⟩
          intro x hx
          rcases List.mem_append.mp hx with hx | hx
          · exact q2 x hx
          · exact q4 x hx
        · obtain ⟨t2, _, d2, t3, k2, h3, rfl⟩ := runs_bind h2
          obtain ⟨q3, q4⟩ := (quiet_unexploded _).runs k2
          refine ⟨t1 ++ t2, d2, t3, by rw [q3, q1], ?_, h3, by simp, fun h => absurd h ha⟩
          intro x hx
          rcases List.mem_append.mp hx with hx | hx
          · exact q2 x hx
          · exact q4 x hx
      · exact ⟨[], d, tr, rfl, by simp, h, rfl, fun _ => rfl⟩

theorem runs_removeAll {ns : List Str} {d d' : Disk} {tr : STrace} (h : Runs umask (removeAll ns) d tr () d') :
    (∀ n, d'.dir n = d.dir n ∨ n ∈ ns ∧ d'.dir n = none) ∧ (∀ x ∈ tr, ∃ n ∈ ns, x.1 = .remove n) ∧
      (∀ n ∈ ns, (⟨.remove n, false⟩ : (o : Sys) × o.Resp) ∉ tr → d'.dir n = none) := by
  induction ns generalizing d tr with
  | nil => cases h; simp
  | cons n ns ih =>
    cases h with
    | @call _ _ _ r d1 tr _ _ hs h =>
      have hs0 := hs
      obtain ⟨h1, h2, h3⟩ := ih h
      simp only [SysStep] at hs
      have hd1 : ∀ m, d1.dir m = d.dir m ∨ m = n ∧ d1.dir m = none := by
        intro m
        split at hs
        · rcases hs with ⟨_, rfl⟩ | ⟨_, _, _, rfl⟩
          · exact .inl rfl
          · rw [put_dir]
            by_cases e : m = n
            · rw [if_pos e]; exact .inr ⟨e, rfl⟩
            · rw [if_neg e]; exact .inl rfl
        · rw [hs]; exact .inl rfl
      refine ⟨?_, ?_, ?_⟩
      · intro m
        rcases h1 m with k | ⟨k, k'⟩
        · rcases hd1 m with h4 | ⟨rfl, h4⟩
          · exact .inl (by rw [k, h4])
          · exact .inr ⟨by simp, by rw [k, h4]⟩
        · exact .inr ⟨by simp [k], k'⟩
      · intro x hx
        rcases List.mem_cons.mp hx with rfl | hx
        · exact ⟨n, by simp, rfl⟩
        · obtain ⟨m, hm, e⟩ := h2 x hx
          exact ⟨m, by simp [hm], e⟩
      · intro m hm hok
        rcases List.mem_cons.mp hm with rfl | hm
        · have hr : r = true := by
            cases r with
            | true => rfl
            | false => exact absurd (List.mem_cons_self ..) hok
          subst hr
          simp only [if_true] at hs
          have e1 : d1.dir m = none := by
            rcases hs with ⟨k, rfl⟩ | ⟨_, _, _, rfl⟩
            · exact k
            · simp [put_dir]
          rcases h1 m with k | ⟨_, k⟩
          · rw [k, e1]
          · exact k
        · exact h3 m hm fun h => hok (List.mem_cons_of_mem _ h)

/-- A roll, after the file is closed and the history read. -/
theorem runs_rollOver {rw rw' : RW} {hs : List Str} {d d' : Disk} {tr : STrace} {ok : Bool} (h : Runs umask (c.rollOver lib rw hs) d tr (ok, rw') d') :
    ∃ tag t1, ((∃ max, c.kind = .size max ∧ t1 = [] ∧ rw' = rw ∧ tag = Strconv.itoa (Strconv.wrap64 ((match hs.getLast? with
          | some latest => (Strconv.atoi (c.getFileRollName latest)).1
          | none => 0) + 1))) ∨
        (∃ pat t, c.kind = .time pat ∧ t1 = [⟨.now, t⟩] ∧ rw' = { rw with timeName := lib.format t pat } ∧ tag = rw.timeName)) ∧
      ((ok = false ∧ tr = t1 ++ [⟨.rename rw.name (backupName c.mode c.fileName tag), false⟩] ∧ d' = d) ∨
       (ok = true ∧ ∃ d1 r d2 t2, SysStep umask d (.rename rw.name (backupName c.mode c.fileName tag)) true d1 ∧
          SysStep umask d1 (.chmod (backupName c.mode c.fileName tag) c.backPerm) r d2 ∧
          tr = t1 ++ [⟨.rename rw.name (backupName c.mode c.fileName tag), true⟩, ⟨.chmod (backupName c.mode c.fileName tag) c.backPerm, r⟩] ++ t2 ∧
          (((hs.length + 1 : Nat) : Int) > c.maxRolls ∧ Runs umask (c.deleteOldRolls (hs ++ [backupName c.mode c.fileName tag])) d2 t2 () d' ∨
            ¬ ((hs.length + 1 : Nat) : Int) > c.maxRolls ∧ t2 = [] ∧ d' = d2))) := by
  have key : ∀ {tag : Str} {rw1 : RW} {d0 : Disk} {tr : STrace}, rw1.name = rw.name → d0 = d →
      Runs umask (do
        let newHistoryName := c.createFullFileName c.fileName tag
        if (← sys (.rename rw1.name newHistoryName)) = false then return (false, rw1)
        let _ ← sys (.chmod newHistoryName c.backPerm)
        let history := hs ++ [newHistoryName]
        if (history.length : Int) > c.maxRolls then c.deleteOldRolls history
        return (true, rw1)) d0 tr (ok, rw') d' → rw' = rw1 ∧
      ((ok = false ∧ tr = [⟨.rename rw.name (backupName c.mode c.fileName tag), false⟩] ∧ d' = d) ∨
       (ok = true ∧ ∃ d1 r d2 t2, SysStep umask d (.rename rw.name (backupName c.mode c.fileName tag)) true d1 ∧
          SysStep umask d1 (.chmod (backupName c.mode c.fileName tag) c.backPerm) r d2 ∧
          tr = [⟨.rename rw.name (backupName c.mode c.fileName tag), true⟩, ⟨.chmod (backupName c.mode c.fileName tag) c.backPerm, r⟩] ++ t2 ∧
          (((hs.length + 1 : Nat) : Int) > c.maxRolls ∧ Runs umask (c.deleteOldRolls (hs ++ [backupName c.mode c.fileName tag])) d2 t2 () d' ∨
            ¬ ((hs.length + 1 : Nat) : Int) > c.maxRolls ∧ t2 = [] ∧ d' = d2))) := by
    clear h
    intro tag rw1 d0 tr hn hd h
    subst hd
    rw [createFull_eq, hn] at h
    cases h with
    | @call _ _ _ r d1 tr _ _ hs1 h =>
      cases r with
      | false =>
        simp only [SysStep, Bool.false_eq_true, if_false] at hs1
        subst hs1
        cases h
        exact ⟨rfl, .inl ⟨rfl, rfl, rfl⟩⟩
      | true =>
        cases h with
        | @call _ _ _ r2 d2 tr _ _ hs2 h =>
          have e : ((hs ++ [backupName c.mode c.fileName tag]).length : Int) = ((hs.length + 1 : Nat) : Int) := by simp
          change Runs umask (if ((hs ++ [backupName c.mode c.fileName tag]).length : Int) > c.maxRolls then
            c.deleteOldRolls (hs ++ [backupName c.mode c.fileName tag]) >>= fun _ => pure (true, rw1) else pure (true, rw1)) _ _ _ _ at h
          rw [e] at h
          split at h
          · rename_i hgt
            obtain ⟨t2, ⟨⟩, d3, t3, h3, h4, rfl⟩ := runs_bind h
            cases h4
            exact ⟨rfl, .inr ⟨rfl, d1, r2, d2, t2, hs1, hs2, by simp, .inl ⟨hgt, h3⟩⟩⟩
          · rename_i hgt
            cases h
            exact ⟨rfl, .inr ⟨rfl, d1, r2, _, [], hs1, hs2, by simp, .inr ⟨hgt, rfl, rfl⟩⟩⟩
  rw [RCfg.rollOver, RCfg.getNewHistoryRollFileName] at h
  cases hk : c.kind with
  | size max =>
    rw [hk] at h
    obtain ⟨rfl, h⟩ := key rfl rfl h
    exact ⟨_, [], .inl ⟨max, rfl, rfl, rfl, rfl⟩, h⟩
  | time pat =>
    rw [hk] at h
    cases h with
    | @call _ _ _ t d1 tr _ _ hs1 h =>
      obtain ⟨rfl, k⟩ := key (tag := rw.timeName) (rw1 := { rw with timeName := lib.format t pat }) rfl hs1 h
      refine ⟨rw.timeName, [⟨.now, t⟩], .inr ⟨pat, t, rfl, rfl, rfl, rfl⟩, ?_⟩
      rcases k with ⟨rfl, rfl, k⟩ | ⟨rfl, d1, r, d2, t2, h1, h2, rfl, h3⟩
      · exact .inl ⟨rfl, rfl, k⟩
      · exact .inr ⟨rfl, d1, r, d2, t2, h1, h2, rfl, h3⟩

/-- A roll. -/
theorem runs_roll {rw rw' : RW} {d d' : Disk} {tr : STrace} {ok : Bool} (h : Runs umask (c.roll lib rw) d tr (ok, rw') d') :
    (ok = false ∧ d' = d ∧ ((rw.file ≠ some .opened ∧ tr = [] ∧ rw' = rw) ∨
      (rw.file = some .opened ∧ tr = [⟨.close rw.name, false⟩] ∧ rw' = { rw with file := some .dead }) ∨
      (rw.file = some .opened ∧ tr = [⟨.close rw.name, true⟩, ⟨.readdir, none⟩] ∧ rw' = { rw with file := none }))) ∨
    (rw.file = some .opened ∧ ∃ names t2, SysStep umask d .readdir (some names) d ∧ tr = [⟨.close rw.name, true⟩, ⟨.readdir, some names⟩] ++ t2 ∧
      Runs umask (c.rollOver lib { rw with file := none } (c.historyOf lib names)) d t2 (ok, rw') d') := by
  rw [RCfg.roll] at h
  split at h
  · rename_i hf; cases h; exact .inl ⟨rfl, rfl, .inl ⟨by rw [hf]; simp, rfl, rfl⟩⟩
  · rename_i hf; cases h; exact .inl ⟨rfl, rfl, .inl ⟨by rw [hf]; simp, rfl, rfl⟩⟩
  · rename_i hf
    cases h with
    | @call _ _ _ r d1 tr _ _ hs1 h =>
      simp only [SysStep] at hs1
      subst hs1
      cases r with
      | false => cases h; exact .inl ⟨rfl, rfl, .inr (.inl ⟨hf, rfl, rfl⟩)⟩
      | true =>
        rw [RCfg.getSortedLogHistory] at h
        cases h with
        | @call _ _ _ r d2 tr _ _ hs2 h =>
          cases r with
          | none =>
            cases h
            simp only [SysStep] at hs2
            exact .inl ⟨rfl, hs2.1, .inr (.inr ⟨hf, rfl, rfl⟩)⟩
          | some names =>
            have e := hs2.1
            subst e
            exact .inr ⟨hf, names, tr, hs2, rfl, h⟩

end Log4g
