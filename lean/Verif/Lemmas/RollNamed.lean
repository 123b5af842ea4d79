import Verif.Lemmas.RollDates2
import Verif.Lemmas.RollArchive

/-! # Which backups are there -/

namespace Log4g
open Spec Strconv
open scoped List

variable {lib : RLib} {c : RCfg} {umask : Nat}

/-- The names of the backups made, oldest first. -/
def made : STrace → List Str
  | [] => []
  | ⟨.rename _ b, true⟩ :: tr => b :: made tr
  | _ :: tr => made tr

/-- The names of the files to be removed. -/
def removed : STrace → List Str
  | [] => []
  | ⟨.remove n, _⟩ :: tr => n :: removed tr
  | _ :: tr => removed tr

theorem made_cons (x : (o : Sys) × o.Resp) (tr : STrace) : made (x :: tr) = made [x] ++ made tr := by
  obtain ⟨o, r⟩ := x
  cases o <;> try rfl
  case rename => cases r <;> rfl

theorem made_append (a b : STrace) : made (a ++ b) = made a ++ made b := by
  induction a with
  | nil => rfl
  | cons x a ih => rw [List.cons_append, made_cons, ih, made_cons x a, List.append_assoc]

theorem removed_append (a b : STrace) : removed (a ++ b) = removed a ++ removed b := by
  induction a with
  | nil => rfl
  | cons x a ih =>
    obtain ⟨o, r⟩ := x
    cases o <;> simp [removed, ih]

theorem mem_made {n : Str} {tr : STrace} : n ∈ made tr ↔ Moved tr n := by
  induction tr with
  | nil => simp [made, Moved]
  | cons x tr ih =>
    rw [made_cons, List.mem_append, ih]
    obtain ⟨o, r⟩ := x
    constructor
    · rintro (h | ⟨a, h⟩)
      · cases o <;> try cases h
        case rename a b =>
          cases r
          · cases h
          · simp only [made, List.mem_singleton] at h; subst h; exact ⟨a, by simp⟩
      · exact ⟨a, by simp [h]⟩
    · rintro ⟨a, h⟩
      rcases List.mem_cons.mp h with h | h
      · cases h; exact .inl (by simp [made])
      · exact .inr ⟨a, h⟩

theorem made_none {tr : STrace} (h : noMove tr) : made tr = [] := by
  cases hm : made tr with
  | nil => rfl
  | cons n ns =>
    obtain ⟨a, ha⟩ := mem_made.mp (show n ∈ made tr by rw [hm]; simp)
    exact absurd ha (h a n)

theorem removed_none {tr : STrace} (h : ∀ x ∈ tr, ∀ n, x.1 ≠ .remove n) : removed tr = [] := by
  induction tr with
  | nil => rfl
  | cons x tr ih =>
    obtain ⟨o, r⟩ := x
    have := ih fun y hy => h y (by simp [hy])
    cases o <;> first | exact this | exact absurd rfl (h _ (List.mem_cons_self ..) _)

/-- One call that makes no backup. -/
theorem backups_step {d d' : Disk} {o : Sys} {r : o.Resp} (ho : moveOp c o) (hs : SysStep umask d o r d') {hs0 : List Str} (hb : Backups lib c d.dir hs0)
    (h1 : noMove [⟨o, r⟩]) (h2 : ∀ n, o ≠ .remove n) : Backups lib c d'.dir hs0 := by
  by_cases hq : quiet o = true
  · rw [quiet_step hq hs]; exact hb
  refine hb.congr fun n hv => ?_
  have hn : n ≠ c.fileName := by
    rintro rfl
    obtain ⟨v, hv⟩ := hv
    exact current_not_backup lib c v hv
  cases o <;> simp only [quiet, not_true_eq_false, reduceCtorEq, Bool.false_eq_true, not_false_eq_true] at hq <;> simp only [SysStep, moveOp] at hs ho
  case openAppend m p =>
    subst ho
    split at hs
    · split at hs
      · rw [hs.2]; simp [Regular, put_dir, hn]
      · rw [hs]
      · exact hs.elim
    · rw [hs]
  case write m bs =>
    subst ho
    obtain ⟨_, _, _, _, _, rfl⟩ := hs
    simp [Regular, put_dir, hn]
  case rename a b =>
    cases r
    · simp only [Bool.false_eq_true, if_false] at hs; rw [hs]
    · exact absurd (by simp) (h1 a b)
  case chmod m p =>
    split at hs
    · obtain ⟨data, q, e, rfl⟩ := hs
      by_cases hm : n = m
      · subst hm; simp [Regular, put_dir, e]
      · simp [Regular, put_dir, hm]
    · rw [hs]
  case remove m => exact absurd rfl (h2 m)

/-- Removing the oldest. -/
theorem backups_remove {d d' : Disk} {n : Str} {hs : List Str} (h : SysStep umask d (.remove n) true d') (hb : Backups lib c d.dir (n :: hs)) : Backups lib c d'.dir hs := by
  obtain ⟨⟨v, hv⟩, data, p, e⟩ := (hb.all n).mp (by simp)
  simp only [SysStep, if_true] at h
  rcases h with ⟨h, _⟩ | ⟨_, _, _, rfl⟩
  · rw [e] at h; cases h
  · have hord := List.pairwise_cons.mp hb.order
    have hnot : n ∉ hs := fun hm => absurd (hord.1 n hm v v hv hv) (by omega)
    refine ⟨fun m => ?_, hord.2⟩
    by_cases hm : m = n
    · subst hm; simp [hnot, Regular, put_dir]
    · have := hb.all m
      simp only [List.mem_cons, hm, false_or] at this
      rw [this]; simp [Regular, put_dir, hm]

theorem backups_stops {α : Type} {p : Prog α} {d d' : Disk} {tr : STrace} (hp : p.All (moveOp c)) (hs : Stops umask p d tr d') {bs : List Str} (hb : Backups lib c d.dir bs)
    (hm : noMove tr) (hr : RemovesOk tr) (hpre : removed tr <+: bs) : ∃ k, Backups lib c d'.dir (bs.drop k) := by
  induction hs generalizing bs with
  | here => exact ⟨0, hb⟩
  | @call o k d r d1 tr d2 hs _ ih =>
    have hm' : noMove tr := fun a b h => hm a b (by simp [h])
    have hr' : RemovesOk tr := fun n q h => hr n q (by simp [h])
    by_cases ho : ∃ n, o = .remove n
    · obtain ⟨n, rfl⟩ := ho
      have : r = true := hr n r (by simp)
      subst this
      obtain ⟨rest, hrest⟩ := hpre
      cases bs with
      | nil => simp [removed] at hrest
      | cons m bs =>
        simp only [removed, List.cons_append, List.cons.injEq] at hrest
        obtain ⟨rfl, hrest⟩ := hrest
        obtain ⟨j, hj⟩ := ih (hp.2 _) (backups_remove hs hb) hm' hr' ⟨rest, hrest⟩
        exact ⟨j + 1, by simpa using hj⟩
    · have ho : ∀ n, o ≠ .remove n := fun n e => ho ⟨n, e⟩
      have h1 := backups_step hp.1 hs hb (fun a b h => hm a b (by simp only [List.mem_singleton] at h; rw [h]; simp)) ho
      refine ih (hp.2 _) h1 hm' hr' ?_
      have : removed (⟨o, r⟩ :: tr) = removed tr := by
        cases o <;> first | rfl | exact absurd rfl (ho _)
      rw [this] at hpre
      exact hpre

/-- Files are removed in order. -/
theorem removed_removeAll {ns : List Str} {d d' : Disk} {tr : STrace} (h : Stops umask (removeAll ns) d tr d') : removed tr <+: ns := by
  induction ns generalizing d tr with
  | nil => cases h; exact List.nil_prefix
  | cons n ns ih =>
    change Stops umask (.call _ _) d tr d' at h
    cases h with
    | here => exact List.nil_prefix
    | call _ h => exact List.cons_prefix_cons.mpr ⟨rfl, ih h⟩

theorem quiet_removed {α : Type} {p : Prog α} (hq : Quiet p) {d d' : Disk} {tr : STrace} (h : Stops umask p d tr d') : removed tr = [] ∧ noMove tr := by
  have := Prog.All.stops (f := fun o => quiet o = true) (Quiet.all hq fun _ h => h) h
  refine ⟨removed_none fun x hx n e => ?_, fun a b hm => ?_⟩
  · have := this x hx; rw [e] at this; cases this
  · have := this _ hm; cases this

theorem removed_delete {hs : List Str} {d d' : Disk} {tr : STrace} (h : Stops umask (c.deleteOldRolls hs) d tr d') : removed tr <+: hs := by
  have fin : ∀ {k d tr}, Stops umask (removeAll (hs.take k)) d tr d' → removed tr <+: hs := fun h => (removed_removeAll h).trans (List.take_prefix _ _)
  have two : ∀ {α : Type} {p : Prog α} {k d tr}, Quiet p → Stops umask (p >>= fun _ => removeAll (hs.take k)) d tr d' → removed tr <+: hs := by
    intro α p k d tr hq h
    rcases stops_bind h with h | ⟨t1, _, _, t2, h1, h2, rfl⟩
    · rw [(quiet_removed hq h).1]; exact List.nil_prefix
    · rw [removed_append, (quiet_removed hq h1.stops).1]; exact fin h2
  rw [RCfg.deleteOldRolls] at h
  split at h
  · cases h; exact List.nil_prefix
  · dsimp only at h
    split at h
    · cases h; exact List.nil_prefix
    · split at h
      · change Stops umask (.call _ _) d tr d' at h
        cases h with
        | here => exact List.nil_prefix
        | @call _ _ _ r _ tr _ _ h =>
          show removed tr <+: hs
          change Stops umask (if c.exploded = true then _ else _) _ tr d' at h
          split at h
          · exact two (quiet_each c _) h
          · exact two (quiet_unexploded _) h
      · exact fin h

/-- The log file becomes the newest backup. -/
theorem backups_rename {d d' : Disk} {n : Str} {v : Int} {hs : List Str} (h : SysStep umask d (.rename c.fileName n) true d') (hv : Backup lib c n v) (hb : Backups lib c d.dir hs)
    (hbig : ∀ m ∈ hs, ∀ w, Backup lib c m w → w < v) : Backups lib c d'.dir (hs ++ [n]) := by
  simp only [SysStep, if_true] at h
  obtain ⟨data, p, e, _, hne, rfl⟩ := h
  refine ⟨fun m => ?_, List.pairwise_append.mpr ⟨hb.order, by simp, fun a ha b hb' v1 w1 h1 h2 => ?_⟩⟩
  · rw [List.mem_append, hb.all]
    by_cases hm : m = n
    · subst hm; simp [Regular, put_dir, show ∃ v, Backup lib c m v from ⟨v, hv⟩]
    · by_cases hc : m = c.fileName
      · subst hc
        simp [Regular, put_dir, hm, current_not_backup lib c]
      · simp [Regular, put_dir, hm, hc]
  · simp only [List.mem_singleton] at hb'; subst hb'
    rw [backup_unique h2 hv]
    exact hbig a ha v1 h1

theorem quiet_newName (hs : List Str) (rw : RW) : Quiet (c.getNewHistoryRollFileName lib rw hs) := by
  rw [RCfg.getNewHistoryRollFileName]
  cases c.kind with
  | size max => trivial
  | time pat => exact ⟨rfl, fun _ => trivial⟩

theorem newName_name {hs : List Str} {rw rw' : RW} {tag : Str} {d d' : Disk} {tr : STrace} (h : Runs umask (c.getNewHistoryRollFileName lib rw hs) d tr (tag, rw') d') : rw'.name = rw.name := by
  rw [RCfg.getNewHistoryRollFileName] at h
  cases hk : c.kind with
  | size max => rw [hk] at h; cases h; rfl
  | time pat =>
    rw [hk] at h
    change Runs umask (.call _ _) d tr _ d' at h
    cases h with
    | call _ h => cases h; rfl

/-- The backups after a roll, or part of one. -/
theorem stops_roll_names {rw : RW} (hn : rw.file = some .opened → rw.name = c.fileName) {d d' : Disk} {tr : STrace} (h : Stops umask (c.roll lib rw) d tr d') {hs : List Str}
    (hb : Backups lib c d.dir hs) (hr : RemovesOk tr) (hbig : ∀ n, Moved tr n → ∃ w, Backup lib c n w ∧ ∀ m ∈ hs, ∀ w', Backup lib c m w' → w' < w) :
    ∃ k, Backups lib c d'.dir ((hs ++ made tr).drop k) := by
  have still_there : ∀ {tr : STrace} {d' : Disk}, d'.dir = d.dir → noMove tr → ∃ k, Backups lib c d'.dir ((hs ++ made tr).drop k) := by
    intro tr d' e1 e2
    rw [e1, made_none e2]
    exact ⟨0, by simpa using hb⟩
  have none : ∀ {α : Type} {a : α} {d d' : Disk} {tr : STrace}, Stops umask (.ret a) d tr d' → tr = [] ∧ d' = d := by
    intro α a d d' tr h; cases h; exact ⟨rfl, rfl⟩
  rw [RCfg.roll] at h
  split at h
  · obtain ⟨rfl, rfl⟩ := none h; exact still_there rfl (by simp [noMove])
  · obtain ⟨rfl, rfl⟩ := none h; exact still_there rfl (by simp [noMove])
  · rename_i hf
    have hn := hn hf
    change Stops umask (.call _ _) d tr d' at h
    cases h with
    | here => exact still_there rfl (by simp [noMove])
    | @call _ _ _ r d1 tr _ hstep h =>
      simp only [SysStep] at hstep
      subst hstep
      cases r with
      | false => obtain ⟨rfl, rfl⟩ := none h; exact still_there rfl (by simp [noMove])
      | true =>
        change Stops umask (.call _ _) _ tr d' at h
        cases h with
        | here => exact still_there rfl (by simp [noMove])
        | @call _ _ _ r d2 tr _ hstep h =>
          simp only [SysStep] at hstep
          obtain ⟨rfl, hstep⟩ := hstep
          cases r with
          | none => obtain ⟨rfl, rfl⟩ := none h; exact still_there rfl (by simp [noMove])
          | some names =>
            have hhist : c.historyOf lib names = hs := history_eq hb hstep.1 hstep.2
            change Stops umask (c.rollOver lib _ (c.historyOf lib names)) _ tr d' at h
            rw [hhist, RCfg.rollOver] at h
            rcases stops_bind h with h | ⟨t1, ⟨tag, rw1⟩, d3, t2, h1, h2, rfl⟩
            · have hq := (quiet_removed (quiet_newName _ _) h).2
              refine still_there ?_ ?_
              · exact quiet_stops (Quiet.all (quiet_newName _ _) fun _ h => h) h
              · intro a b hm
                simp only [List.mem_cons, reduceCtorEq, Sigma.mk.injEq, false_and, false_or] at hm
                exact hq a b hm
            · have hq := (quiet_removed (quiet_newName _ _) h1.stops).2
              have hd3 : d3.dir = d2.dir := quiet_stops (Quiet.all (quiet_newName _ _) fun _ h => h) h1.stops
              have hnm : rw1.name = c.fileName := (newName_name h1).trans hn
              have hmade : ∀ x w, noMove w → made (⟨.close rw.name, true⟩ :: ⟨.readdir, some names⟩ :: (t1 ++ x :: w)) = made [x] := by
                intro x w hw
                rw [made_cons, made_cons ⟨.readdir, some names⟩, made_append, made_none hq, made_cons x, made_none hw]
                simp [made]
              change Stops umask (.call _ _) _ t2 d' at h2
              cases h2 with
              | here =>
                refine still_there hd3 ?_
                intro a b hm
                simp only [List.append_nil, List.mem_cons, reduceCtorEq, Sigma.mk.injEq, false_and, false_or] at hm
                exact hq a b hm
              | @call _ _ _ r d4 t2 _ hstep2 h2 =>
                cases r with
                | false =>
                  obtain ⟨rfl, rfl⟩ := none h2
                  simp only [SysStep, Bool.false_eq_true, if_false] at hstep2
                  refine still_there (by rw [hstep2, hd3]) ?_
                  intro a b hm
                  simp only [List.mem_cons, List.mem_append, reduceCtorEq, Sigma.mk.injEq, false_and, false_or, List.not_mem_nil, or_false] at hm
                  rcases hm with hm | hm
                  · exact hq a b hm
                  · obtain ⟨hm1, hm2⟩ := hm
                    cases hm1
                    simp at hm2
                | true =>
                  obtain ⟨w, hw1, hw2⟩ := hbig (c.createFullFileName c.fileName tag) ⟨rw1.name, by simp⟩
                  rw [hnm] at hstep2
                  have hb4 := backups_rename hstep2 hw1 (by rw [hd3]; exact hb) hw2
                  have hne : c.createFullFileName c.fileName tag ≠ c.fileName := by rw [createFull_eq]; exact backupName_ne _ _ _
                  have hall : ∀ n ∈ hs ++ [c.createFullFileName c.fileName tag], n ≠ c.fileName := by
                    intro n hn'
                    rcases List.mem_append.mp hn' with hn' | hn'
                    · exact hb.ne_current hn'
                    · simp only [List.mem_singleton] at hn'; rw [hn']; exact hne
                  have hrest : ∀ {d5 d' : Disk} {t3 : STrace} {a : Bool × RW}, Stops umask (do
                      if ((hs ++ [c.createFullFileName c.fileName tag]).length : Int) > c.maxRolls then c.deleteOldRolls (hs ++ [c.createFullFileName c.fileName tag])
                      return a) d5 t3 d' → noMove t3 ∧ removed t3 <+: hs ++ [c.createFullFileName c.fileName tag] := by
                    intro d5 d' t3 a h
                    change Stops umask (if _ then _ else _) d5 t3 d' at h
                    split at h
                    · rcases stops_bind h with h | ⟨t4, _, _, t5, h4, h5, rfl⟩
                      · exact ⟨noMove_still (Prog.All.stops (all_delete_still _) h), removed_delete h⟩
                      · obtain ⟨rfl, _⟩ := none h5
                        rw [List.append_nil]
                        exact ⟨noMove_still (Prog.All.stops (all_delete_still _) h4.stops), removed_delete h4.stops⟩
                    · obtain ⟨rfl, _⟩ := none h
                      exact ⟨by simp [noMove], List.nil_prefix⟩
                  have hw : noMove t2 ∧ removed t2 <+: hs ++ [c.createFullFileName c.fileName tag] := by
                    change Stops umask (.call _ _) d4 t2 d' at h2
                    cases h2 with
                    | here => exact ⟨by simp [noMove], List.nil_prefix⟩
                    | @call _ _ _ r _ t3 _ _ h3 =>
                      obtain ⟨g1, g2⟩ := hrest h3
                      refine ⟨fun a b hm => ?_, g2⟩
                      simp only [List.mem_cons, reduceCtorEq, Sigma.mk.injEq, false_and, false_or] at hm
                      exact g1 a b hm
                  rw [hmade _ _ hw.1]
                  refine backups_stops ?_ h2 hb4 hw.1 (fun n q hm => hr n q (by simp [hm])) hw.2
                  refine ⟨trivial, fun _ => ?_⟩
                  show Prog.All _ (if _ then _ else _)
                  split
                  · exact Prog.All.bind (delete_move hall) fun _ => trivial
                  · trivial

theorem all_append_move {rw : RW} {bs : Bytes} (hn : rw.file = some .opened → rw.name = c.fileName) : (c.append rw bs).All fun o => moveOp c o ∧ still o ∧ ∀ n, o ≠ .remove n := by
  have ho : ∀ o, openOp c o → moveOp c o ∧ still o ∧ ∀ n, o ≠ .remove n := fun o h => by
    refine ⟨openOp_move o h, ⟨fun e => ?_, fun a b e => ?_⟩, fun n e => ?_⟩ <;> rw [e] at h <;> exact h
  have hput : ∀ rw1 : RW, (rw1.file = some .opened → rw1.name = c.fileName) → (RCfg.put rw1 bs).All fun o => moveOp c o ∧ still o ∧ ∀ n, o ≠ .remove n := by
    intro rw1 h
    rw [RCfg.put]
    split
    · rename_i hf
      exact ⟨⟨h hf, ⟨by simp, by simp⟩, by simp⟩, fun _ => trivial⟩
    · trivial
  rw [RCfg.append]
  split
  · rename_i hf
    refine Prog.Does.all (Prog.Does.bind ((does_createFile c hf).mono ho fun _ h => h) (R := fun _ => True) ?_)
    rintro ⟨ok, rw2⟩ ⟨_, h2, _⟩
    dsimp only at h2 ⊢
    split
    · trivial
    · exact (hput rw2 h2).does
  · exact hput rw hn

/-- The backups after a write, or part of one. -/
theorem stops_write_names {rw : RW} {bs : Bytes} (hn : rw.file = some .opened → rw.name = c.fileName) {d d' : Disk} {tr : STrace} (h : Stops umask (c.write lib rw bs) d tr d') {hs : List Str}
    (hb : Backups lib c d.dir hs) (hr : RemovesOk tr) (hbig : ∀ n, Moved tr n → ∃ w, Backup lib c n w ∧ ∀ m ∈ hs, ∀ w', Backup lib c m w' → w' < w) :
    ∃ k, Backups lib c d'.dir ((hs ++ made tr).drop k) := by
  have app : ∀ {rw1 : RW} {d1 d2 : Disk} {t : STrace} {hs1 : List Str}, (rw1.file = some .opened → rw1.name = c.fileName) → Stops umask (c.append rw1 bs) d1 t d2 → Backups lib c d1.dir hs1 →
      made t = [] ∧ Backups lib c d2.dir hs1 := by
    intro rw1 d1 d2 t hs1 h1 h2 h3
    have hall := all_append_move (bs := bs) h1
    have hm : noMove t := noMove_still fun x hx' => (Prog.All.stops hall h2 x hx').2.1
    refine ⟨made_none hm, ?_⟩
    generalize c.append rw1 bs = p at hall h2
    clear hm
    induction h2 with
    | here => exact h3
    | call hs _ ih =>
      exact ih (backups_step hall.1.1 hs h3 (fun a b hm => by
        simp only [List.mem_singleton] at hm
        have := hall.1.2.1.2 a b
        cases hm
        exact this rfl) hall.1.2.2) (hall.2 _)
  have quietN : Quiet (c.needsToRoll lib rw) := by
    rw [RCfg.needsToRoll]
    cases c.kind with
    | size max => trivial
    | time pat =>
      refine ⟨rfl, fun t => ?_⟩
      show Quiet (if _ then _ else _)
      split <;> trivial
  rw [RCfg.write] at h
  rcases stops_bind h with h1 | ⟨t1, ⟨b, rw1⟩, d1, t2, k1, g, rfl⟩
  · rw [quiet_stops (Quiet.all quietN fun _ h => h) h1, made_none (quiet_removed quietN h1).2]
    exact ⟨0, by simpa using hb⟩
  have hd1 := quiet_stops (Quiet.all quietN fun _ h => h) k1.stops
  have hm1 := made_none (quiet_removed quietN k1.stops).2
  have hn1 : rw1.file = some .opened → rw1.name = c.fileName := by
    obtain ⟨h1, h2, _⟩ := Prog.Does.runs (does_needsToRoll lib c rw) k1
    dsimp only at h1 h2
    rw [h1, h2]; exact hn
  rw [← hd1] at hb
  rw [made_append, hm1, List.nil_append]
  dsimp only at g
  split at g
  · rcases stops_bind g with g1 | ⟨t3, ⟨ok, rw2⟩, d2, t4, g1, g2, rfl⟩
    · refine stops_roll_names hn1 g1 hb (fun n q hm => hr n q (by simp [hm])) ?_
      rintro n ⟨a, hm⟩
      exact hbig n ⟨a, by simp [hm]⟩
    · obtain ⟨k, hk⟩ := stops_roll_names hn1 g1.stops hb (fun n q hm => hr n q (by simp [hm])) (by
        rintro n ⟨a, hm⟩
        exact hbig n ⟨a, by simp [hm]⟩)
      have h5 := Prog.Does.runs (does_roll (own := fun _ => True) (lib := lib) (c := c) (rw := rw1) (fun _ => trivial) (fun _ _ _ => trivial) fun _ _ => trivial) g1
      dsimp only at g2 h5
      split at g2
      · cases g2; rw [List.append_nil]; exact ⟨k, hk⟩
      · obtain ⟨e1, e2⟩ := app (fun h => absurd h h5.1) g2 hk
        rw [made_append, e1, List.append_nil]
        exact ⟨k, e2⟩
  · obtain ⟨e1, e2⟩ := app hn1 g hb
    rw [e1, List.append_nil]
    exact ⟨0, e2⟩

variable {pat : Str} {start : Int → Int} {T0 T1 : Int}

theorem backup_start (hk : c.kind = .time pat) (hp : Periods lib pat start T0 T1) {t : Int} (h0 : T0 ≤ t) (h1 : t ≤ T1) : Backup lib c (backupName c.mode c.fileName (lib.format t pat)) (start t) :=
  ⟨_, rfl, by rw [hk]; exact .time (hp.nonempty t h0 h1) (hp.parse t h0 h1)⟩

/-- If no removal fails, the last of the backups made are there. -/
theorem life_names (hk : c.kind = .time pat) (hp : Periods lib pat start T0 T1) {d0 d : Disk} {hs0 : List Str} (hb : Backups lib c d0.dir hs0)
    (hold : ∀ n ∈ hs0, ∀ v, Backup lib c n v → v < start T0) {tr : STrace} {rw : RW} (hl : Life umask lib c d0 tr d rw) (hrm : RemovesOk tr)
    (hc : (clocks tr).Pairwise (· ≤ ·)) (hT : ∀ t ∈ clocks tr, T0 ≤ t ∧ t ≤ T1) : ∃ hs, hs <:+ hs0 ++ made tr ∧ Backups lib c d.dir hs := by
  have step : ∀ {tr tr' : STrace} {d d' : Disk} {rw : RW} {bs : Bytes}, Life umask lib c d0 tr d rw → Stops umask (c.write lib rw bs) d tr' d' → RemovesOk (tr ++ tr') →
      (clocks (tr ++ tr')).Pairwise (· ≤ ·) → (∀ t ∈ clocks (tr ++ tr'), T0 ≤ t ∧ t ≤ T1) →
      (RemovesOk tr → (clocks tr).Pairwise (· ≤ ·) → (∀ t ∈ clocks tr, T0 ≤ t ∧ t ≤ T1) → ∃ hs, hs <:+ hs0 ++ made tr ∧ Backups lib c d.dir hs) →
      ∃ hs, hs <:+ hs0 ++ made (tr ++ tr') ∧ Backups lib c d'.dir hs := by
    intro tr tr' d d' rw bs hl hs hrm hc hT ih
    have hc1 := hc
    have hT1 := hT
    rw [clocks_append] at hc1 hT1
    have hc2 := (List.pairwise_append.mp hc1).1
    have hT2 : ∀ t ∈ clocks tr, T0 ≤ t ∧ t ≤ T1 := fun t ht => hT1 t (by simp [ht])
    obtain ⟨i1, i2⟩ := life_dated hk hp hl hc2 hT2
    have hd := dated_step hk hp hs hc hT i1 i2
    obtain ⟨bs0, hsuf, hbs⟩ := ih (fun n q hm => hrm n q (by simp [hm])) hc2 hT2
    obtain ⟨k, hk'⟩ := stops_write_names (life_name hl) hs hbs (fun n q hm => hrm n q (by simp [hm])) (by
      rintro n ⟨a, hm⟩
      obtain ⟨u, v, e⟩ := List.append_of_mem hm
      obtain ⟨t0, l, h1, ⟨h2, h3, h4⟩, _⟩ := hd (tr ++ u) a n v (by rw [e]; simp)
      have ht0 : T0 ≤ t0 ∧ t0 ≤ T1 := hT t0 (by rw [e, ← List.append_assoc, clocks_append]; simp [h2])
      refine ⟨start t0, by rw [h1]; exact backup_start hk hp ht0.1 ht0.2, fun m hm w' hw' => ?_⟩
      rcases List.mem_append.mp (hsuf.subset hm) with hm | hm
      · have := hold m hm w' hw'
        have := hp.mono T0 t0 (Int.le_refl _) ht0.1 ht0.2
        omega
      · obtain ⟨b, hm⟩ := mem_made.mp hm
        obtain ⟨t, q1, q2, q3⟩ := h4 m ⟨b, by simp [hm]⟩
        have ht : T0 ≤ t ∧ t ≤ T1 := hT t (by rw [e, ← List.append_assoc, clocks_append]; simp [q1])
        rw [backup_unique hw' (by rw [q2]; exact backup_start hk hp ht.1 ht.2)]
        exact q3)
    refine ⟨_, ?_, hk'⟩
    obtain ⟨pre, hpre⟩ := hsuf
    refine (List.drop_suffix k _).trans ⟨pre, ?_⟩
    rw [made_append, ← List.append_assoc, hpre, List.append_assoc]
  induction hl with
  | start => exact ⟨hs0, by simp [made], hb⟩
  | restart _ ih => exact ih hrm hc hT
  | crash hl hs ih => exact step hl hs hrm hc hT ih
  | write hl hr ih => exact step hl hr.stops hrm hc hT ih

/-- The write that put a piece on the disk. -/
theorem stamped_split {l : Option Int} {tr : STrace} {p q : List (Option Int × Bytes)} {s : Option Int} {bs : Bytes} (h : stampedFrom l tr = p ++ (s, bs) :: q) :
    ∃ u n b r v, tr = u ++ ⟨.write n b, r⟩ :: v ∧ p = stampedFrom l u ∧ bs = b.take r.1 ∧ s = (clocks u).getLast?.or l ∧ q = stampedFrom s v := by
  induction tr generalizing l p with
  | nil => cases p <;> cases h
  | cons x tr ih =>
    have rest : ∀ l', stampedFrom l (x :: tr) = stampedFrom l' tr → (∀ u, stampedFrom l (x :: u) = stampedFrom l' u) → (∀ u, (clocks (x :: u)).getLast?.or l = (clocks u).getLast?.or l') →
        ∃ u n b r v, x :: tr = u ++ ⟨.write n b, r⟩ :: v ∧ p = stampedFrom l u ∧ bs = b.take r.1 ∧ s = (clocks u).getLast?.or l ∧ q = stampedFrom s v := by
      intro l' e1 e2 e3
      rw [e1] at h
      obtain ⟨u, n, b, r, v, rfl, h2, h3, h4, h5⟩ := ih h
      exact ⟨x :: u, n, b, r, v, rfl, by rw [e2, h2], h3, by rw [e3, h4], h5⟩
    obtain ⟨o, r⟩ := x
    cases o
    case now =>
      refine rest (some r) rfl (fun _ => rfl) ?_
      intro u; simp only [clocks]; cases h : clocks u <;> simp [List.getLast?_cons]
    case write n b =>
      cases p with
      | nil =>
        simp only [stampedFrom, List.nil_append, List.cons.injEq, Prod.mk.injEq] at h
        obtain ⟨⟨rfl, rfl⟩, rfl⟩ := h
        exact ⟨[], n, b, r, tr, rfl, rfl, rfl, by simp [clocks], rfl⟩
      | cons y p =>
        simp only [stampedFrom, List.cons_append, List.cons.injEq] at h
        obtain ⟨rfl, h⟩ := h
        obtain ⟨u, n', b', r', v, rfl, h2, h3, h4, h5⟩ := ih h
        exact ⟨⟨.write n b, r⟩ :: u, n', b', r', v, rfl, by rw [h2]; rfl, h3, h4, h5⟩
    all_goals exact rest l rfl (fun _ => rfl) (fun _ => rfl)

theorem first_move (tr : STrace) : noMove tr ∨ ∃ u a n v, tr = u ++ ⟨.rename a n, true⟩ :: v ∧ noMove u := by
  induction tr with
  | nil => exact .inl (by simp [noMove])
  | cons x tr ih =>
    by_cases hx : ∃ a n, x = ⟨.rename a n, true⟩
    · obtain ⟨a, n, rfl⟩ := hx
      exact .inr ⟨[], a, n, tr, rfl, by simp [noMove]⟩
    · rcases ih with ih | ⟨u, a, n, v, rfl, h⟩
      · left
        intro a b hm
        rcases List.mem_cons.mp hm with hm | hm
        · exact hx ⟨a, b, hm.symm⟩
        · exact ih a b hm
      · refine .inr ⟨x :: u, a, n, v, rfl, ?_⟩
        intro a b hm
        rcases List.mem_cons.mp hm with hm | hm
        · exact hx ⟨a, b, hm.symm⟩
        · exact h a b hm

/-- Without a roll, the current file grows. -/
theorem since_grows (b : List (Option Int × Bytes)) (u : STrace) {v : STrace} (hv : noMove v) : since b (u ++ v) = since b u ++ stampedFrom (clocks u).getLast? v := by
  have h1 := (sinceFold u none b).1
  rw [Option.or_none] at h1
  have e : u.foldl sinceStep (none, b) = ((clocks u).getLast?, since b u) := by rw [← h1]; rfl
  rw [since, List.foldl_append, e]
  rcases (sinceFold v (clocks u).getLast? (since b u)).2 with ⟨_, h⟩ | ⟨x, a, n, y, rfl, _⟩
  · exact h
  · exact absurd (by simp) (hv a n)

/-- A backup is made once. -/
theorem move_unique (hk : c.kind = .time pat) (hp : Periods lib pat start T0 T1) {tr u u' v v' : STrace} {a a' n : Str} (hT : ∀ t ∈ clocks tr, T0 ≤ t ∧ t ≤ T1)
    (hd : Dated lib c pat start tr) (e : tr = u ++ ⟨.rename a n, true⟩ :: v) (e' : tr = u' ++ ⟨.rename a' n, true⟩ :: v') : u = u' := by
  -- a second roll to the same name
  have key : ∀ {u w v : STrace} {a a' : Str}, tr = (u ++ ⟨.rename a n, true⟩ :: w) ++ ⟨.rename a' n, true⟩ :: v → False := by
    intro u w v a a' e
    obtain ⟨t0, l, h1, ⟨h2, h3, h4⟩, _⟩ := hd _ a' n v e
    obtain ⟨t, q1, q2, q3⟩ := h4 n ⟨a, by simp⟩
    have ht0 := hT t0 (by rw [e, clocks_append]; simp [h2])
    have ht := hT t (by rw [e, clocks_append]; simp [q1])
    have b1 := backup_start (c := c) hk hp ht0.1 ht0.2
    have b2 := backup_start (c := c) hk hp ht.1 ht.2
    rw [← h1] at b1
    rw [← q2] at b2
    have := backup_unique b1 b2
    omega
  rcases split_append (e.symm.trans e') with ⟨w, e1, _⟩ | ⟨w, e1, e2⟩
  · rw [e1] at e
    exact (key e).elim
  · cases w with
    | nil => rw [e1, List.append_nil]
    | cons y w =>
      simp only [List.cons_append, List.cons.injEq] at e2
      rw [e1, ← e2.1] at e'
      exact (key e').elim

end Log4g
