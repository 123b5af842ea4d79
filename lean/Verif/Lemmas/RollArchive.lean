import Verif.Lemmas.RollFaults
import Verif.Lemmas.RollNew

/-! # What becomes of the archive -/

namespace Log4g
open Spec Strconv

variable {lib : RLib} {c : RCfg} {umask : Nat} {α : Type}

/-- Calls that leave the archives alone. -/
def noArch (o : Sys) : Prop := ∀ n, o ≠ .tmpRename n

theorem noArch_step {d d' : Disk} {o : Sys} {r : o.Resp} (h : noArch o) (hs : SysStep umask d o r d') : d'.arch = d.arch := by
  cases o <;> simp only [SysStep] at hs
  case tmpRename n => exact absurd rfl (h n)
  case openAppend =>
    split at hs
    · split at hs
      · rw [hs.2]; rfl
      · rw [hs]
      · exact hs.elim
    · rw [hs]
  case write => obtain ⟨_, _, _, _, _, rfl⟩ := hs; rfl
  case rename =>
    split at hs
    · obtain ⟨_, _, _, _, _, rfl⟩ := hs; rfl
    · rw [hs]
  case chmod =>
    split at hs
    · obtain ⟨_, _, _, rfl⟩ := hs; rfl
    · rw [hs]
  case remove =>
    split at hs
    · rcases hs with ⟨_, rfl⟩ | ⟨_, _, _, rfl⟩ <;> rfl
    · rw [hs]
  case tmpEntry =>
    split at hs
    · obtain ⟨_, _, rfl⟩ := hs; rfl
    · rw [hs]
  case tmpCreate => split at hs <;> rw [hs]
  case tmpRemove => split at hs <;> rw [hs]
  case stat => rw [hs.1]
  case readdir => rw [hs.1]
  case archRead => rw [hs.1]
  case rollRead => rw [hs.1]
  all_goals rw [hs]

theorem noArch_stops {p : Prog α} {d d' : Disk} {tr : STrace} (h : p.All noArch) (hs : Stops umask p d tr d') : d'.arch = d.arch := by
  induction hs with
  | here => rfl
  | call hs _ ih => rw [ih (h.2 _), noArch_step h.1 hs]

theorem quiet_stops {p : Prog α} {d d' : Disk} {tr : STrace} (h : p.All (quiet · = true)) (hs : Stops umask p d tr d') : d'.dir = d.dir := by
  induction hs with
  | here => rfl
  | call hs _ ih => rw [ih (h.2 _), quiet_step h.1 hs]

theorem noArch_copy (es : Entries) : (copyEntries es).All noArch := by
  induction es with
  | nil => exact trivial
  | cons e es ih =>
    refine Prog.All.bind (Prog.All.sys (by simp [noArch])) fun b => ?_
    cases b
    · exact trivial
    · exact ih

theorem noArch_add (ns : List Str) : (addFiles ns).All noArch := by
  induction ns with
  | nil => exact trivial
  | cons n ns ih =>
    refine Prog.All.bind (Prog.All.sys (by simp [noArch])) fun r => ?_
    cases r with
    | none => exact trivial
    | some data =>
      refine Prog.All.bind (Prog.All.sys (by simp [noArch])) fun b => ?_
      cases b
      · exact trivial
      · exact ih

theorem runs_copy {es : Entries} {d d' : Disk} {tr : STrace} {ok : Bool} (h : Runs umask (copyEntries es) d tr ok d') :
    (NoneFailed tr → ok = true) ∧ (ok = true → ∀ es0, d.tmp = some es0 → d'.tmp = some (es0 ++ es)) := by
  induction es generalizing d tr with
  | nil => cases h; simp
  | cons e es ih =>
    cases h with
    | @call _ _ _ r d1 tr _ _ hs h =>
      cases r with
      | false => cases h; exact ⟨fun hn => absurd rfl (hn _ (List.mem_cons_self ..)), by simp⟩
      | true =>
        obtain ⟨h1, h2⟩ := ih h
        refine ⟨fun hn => h1 fun x hx => hn x (by simp [hx]), fun hok es0 he => ?_⟩
        simp only [SysStep, if_true] at hs
        obtain ⟨es1, he1, rfl⟩ := hs
        rw [he] at he1; cases he1
        rw [h2 hok (es0 ++ [e]) rfl]; simp

/-- `new` has the files `ns` with their contents. -/
def Contains (d : Dir) (ns : List Str) (new : Entries) : Prop := new.map Prod.fst = ns ∧ ∀ e ∈ new, ∃ p, d e.1 = some (.file e.2 p)

theorem runs_add {ns : List Str} {d d' : Disk} {tr : STrace} {ok : Bool} (h : Runs umask (addFiles ns) d tr ok d') :
    (NoneFailed tr → ok = true) ∧ (ok = true → ∀ es0, d.tmp = some es0 → ∃ new, d'.tmp = some (es0 ++ new) ∧ Contains d.dir ns new) := by
  induction ns generalizing d tr with
  | nil => cases h; exact ⟨fun _ => rfl, fun _ es0 h => ⟨[], by simpa using h, rfl, by simp⟩⟩
  | cons n ns ih =>
    cases h with
    | @call _ _ _ r d1 tr _ _ hs h =>
      cases r with
      | none => cases h; exact ⟨fun hn => absurd rfl (hn _ (List.mem_cons_self ..)), by simp⟩
      | some data =>
        simp only [SysStep] at hs
        obtain ⟨rfl, p, hd⟩ := hs
        cases h with
        | @call _ _ _ r d2 tr _ _ hs h =>
          cases r with
          | false => cases h; exact ⟨fun hn => absurd rfl (hn ⟨.tmpEntry n data, false⟩ (by simp)), by simp⟩
          | true =>
            obtain ⟨h1, h2⟩ := ih h
            refine ⟨fun hn => h1 fun x hx => hn x (by simp [hx]), fun hok es0 he => ?_⟩
            simp only [SysStep, if_true] at hs
            obtain ⟨es1, he1, rfl⟩ := hs
            rw [he] at he1; cases he1
            obtain ⟨new, e1, e2, e3⟩ := h2 hok (es0 ++ [(n, data)]) rfl
            refine ⟨(n, data) :: new, by rw [e1]; simp, by simp [e2], ?_⟩
            intro e hm
            rcases List.mem_cons.mp hm with rfl | hm
            · exact ⟨p, hd⟩
            · exact e3 e hm

/-- The archive file has been replaced by one with the files `ns` added. -/
def AddedTo (d : Disk) (ns : List Str) (d' : Disk) : Prop :=
  ∃ old new, archived d = some old ∧ Contains d.dir ns new ∧ d'.arch = fun n => if n = [] then .file (old ++ new) else d.arch n

/-- The archive under construction. -/
def unexplodedBody (ns : List Str) : Prog Bool := do
  match ← sys .archRead with
  | .failed => return false
  | .absent => addFiles ns
  | .entries es => if (← copyEntries es) = false then return false else addFiles ns

theorem body_noArch (ns : List Str) : (unexplodedBody ns).All noArch := by
  refine Prog.All.bind (Prog.All.sys (by simp [noArch])) fun r => ?_
  cases r with
  | failed => exact trivial
  | absent => exact noArch_add ns
  | entries es =>
    refine Prog.All.bind (noArch_copy es) fun b => ?_
    cases b
    · exact trivial
    · exact noArch_add ns

theorem archives_quiet {p : Prog α} (h : Archives p) : p.All (quiet · = true) := h.mono fun o h => by cases o <;> simp_all [archOp, quiet]

theorem runs_body {ns : List Str} {d d' : Disk} {tr : STrace} {ok : Bool} (h : Runs umask (unexplodedBody ns) d tr ok d') (ht : d.tmp = some []) :
    (NoneFailed tr → ok = true) ∧ (ok = true → ∃ old new, archived d = some old ∧ Contains d.dir ns new ∧ d'.tmp = some (old ++ new)) := by
  cases h with
  | @call _ _ _ r d1 tr _ _ hs h =>
    simp only [SysStep] at hs
    obtain ⟨rfl, hs⟩ := hs
    cases r with
    | failed => cases h; exact ⟨fun hn => absurd trivial (hn ⟨.archRead, .failed⟩ (by simp)), by simp⟩
    | absent =>
      obtain ⟨h1, h2⟩ := runs_add h
      refine ⟨fun hn => h1 fun x hx => hn x (by simp [hx]), fun hok => ?_⟩
      obtain ⟨new, e1, e2⟩ := h2 hok [] ht
      exact ⟨[], new, by simp [archived, hs], e2, e1⟩
    | entries es =>
      obtain ⟨t1, b, d2, t2, h1, h2, rfl⟩ := runs_bind (p := copyEntries es) h
      obtain ⟨c1, c2⟩ := runs_copy h1
      have hdir : d2.dir = d1.dir := quiet_stops (archives_quiet (archives_copy es)) h1.stops
      cases b with
      | false =>
        cases h2
        exact ⟨fun hn => absurd (c1 fun x hx => hn x (by simp [hx])) (by simp), by simp⟩
      | true =>
        have h2 : Runs umask (addFiles ns) d2 t2 ok d' := h2
        obtain ⟨a1, a2⟩ := runs_add h2
        refine ⟨fun hn => a1 fun x hx => hn x (by simp [hx]), fun hok => ?_⟩
        obtain ⟨new, e1, e2⟩ := a2 hok ([] ++ es) (c2 rfl [] ht)
        exact ⟨es, new, by simp [archived, hs], by rw [← hdir]; exact e2, by simpa using e1⟩

/-- At every point the archive file is as before or complete. -/
theorem stops_unexploded {ns : List Str} {d d' : Disk} {tr : STrace} (h : Stops umask (archiveUnexplodedLogs ns) d tr d') : d'.arch = d.arch ∨ AddedTo d ns d' := by
  have hb : archiveUnexplodedLogs ns = (do
      if (← sys .tmpCreate) = false then return false
      let ok ← unexplodedBody ns
      let closed ← sys .tmpClose
      if ok && closed then sys (.tmpRename [])
      else
        let _ ← sys .tmpRemove
        return false) := rfl
  rw [hb] at h
  cases h with
  | here => exact .inl rfl
  | @call _ _ _ r d1 tr _ hs h =>
    cases r with
    | false =>
      have e := noArch_step (by simp [noArch]) hs
      cases h; exact .inl e
    | true =>
      simp only [SysStep, if_true] at hs
      have hs : d1 = { d with tmp := some [] } := hs
      rcases stops_bind (p := unexplodedBody ns) h with h | ⟨t1, ok, d2, t2, h1, h2, rfl⟩
      · left
        rw [noArch_stops (body_noArch ns) h, hs]
      · have ha : d2.arch = d.arch := by rw [noArch_stops (body_noArch ns) h1.stops, hs]
        cases h2 with
        | here => exact .inl ha
        | @call _ _ _ r d3 tr _ hs3 h3 =>
          have hs3 : d3 = d2 := hs3
          subst hs3
          cases ok with
          | false =>
            left
            rw [noArch_stops (p := (sys .tmpRemove >>= fun _ => pure false)) (Prog.All.bind (Prog.All.sys (by simp [noArch])) fun _ => trivial) h3, ha]
          | true =>
            cases r with
            | false =>
              left
              rw [noArch_stops (p := (sys .tmpRemove >>= fun _ => pure false)) (Prog.All.bind (Prog.All.sys (by simp [noArch])) fun _ => trivial) h3, ha]
            | true =>
              have h3 : Stops umask (sys (.tmpRename [])) d3 tr d' := h3
              cases h3 with
              | here => exact .inl ha
              | @call _ _ _ r d4 tr _ hs4 h4 =>
                cases h4
                cases r with
                | false => left; have : d' = d3 := hs4; rw [this, ha]
                | true =>
                  right
                  simp only [SysStep, if_true] at hs4
                  obtain ⟨es, he, _, rfl⟩ := hs4
                  obtain ⟨old, new, o1, o2, o3⟩ := (runs_body h1 (by rw [hs])).2 rfl
                  rw [he] at o3; cases o3
                  refine ⟨old, new, ?_, ?_, ?_⟩
                  · rw [← o1, hs]; rfl
                  · rw [hs] at o2; exact o2
                  · rw [← ha]

/-- When nothing fails the archive file is complete. -/
theorem runs_unexploded {ns : List Str} {d d' : Disk} {tr : STrace} {ok : Bool} (h : Runs umask (archiveUnexplodedLogs ns) d tr ok d') (hn : NoneFailed tr) : AddedTo d ns d' := by
  have hb : archiveUnexplodedLogs ns = (do
      if (← sys .tmpCreate) = false then return false
      let ok ← unexplodedBody ns
      let closed ← sys .tmpClose
      if ok && closed then sys (.tmpRename [])
      else
        let _ ← sys .tmpRemove
        return false) := rfl
  rw [hb] at h
  cases h with
  | @call _ _ _ r d1 tr _ _ hs h =>
    cases r with
    | false => exact absurd rfl (hn ⟨.tmpCreate, false⟩ (by simp))
    | true =>
      simp only [SysStep, if_true] at hs
      have hs : d1 = { d with tmp := some [] } := hs
      obtain ⟨t1, ok', d2, t2, h1, h2, rfl⟩ := runs_bind (p := unexplodedBody ns) h
      have ha : d2.arch = d.arch := by rw [noArch_stops (body_noArch ns) h1.stops, hs]
      obtain ⟨b1, b2⟩ := runs_body h1 (by rw [hs])
      have hok : ok' = true := b1 fun x hx => hn x (by simp [hx])
      subst hok
      cases h2 with
      | @call _ _ _ r d3 tr _ _ hs3 h3 =>
        have hs3 : d3 = d2 := hs3
        subst hs3
        cases r with
        | false => exact absurd rfl (hn ⟨.tmpClose, false⟩ (by simp))
        | true =>
          have h3 : Runs umask (sys (.tmpRename [])) d3 tr ok d' := h3
          cases h3 with
          | @call _ _ _ r d4 tr _ _ hs4 h4 =>
            cases h4
            cases ok with
            | false => exact absurd rfl (hn ⟨.tmpRename [], false⟩ (by simp))
            | true =>
              simp only [SysStep, if_true] at hs4
              obtain ⟨es, he, _, rfl⟩ := hs4
              obtain ⟨old, new, o1, o2, o3⟩ := b2 rfl
              rw [he] at o3; cases o3
              refine ⟨old, new, ?_, ?_, ?_⟩
              · rw [← o1, hs]; rfl
              · rw [hs] at o2; exact o2
              · rw [← ha]


theorem noArch_remove (ns : List Str) : (removeAll ns).All noArch := (all_removeAll_remove ns).mono fun o h => by
  obtain ⟨n, rfl⟩ := h; simp [noArch]

/-- The archive during the deletion, with an archive file. -/
theorem stops_delete {hs : List Str} (he : c.exploded = false) {d d' : Disk} {tr : STrace} (h : Stops umask (c.deleteOldRolls hs) d tr d') :
    d'.arch = d.arch ∨ AddedTo d (hs.take (hs.length - c.maxRolls.toNat)) d' := by
  rw [RCfg.deleteOldRolls] at h
  split at h
  · cases h; exact .inl rfl
  · rename_i h0
    dsimp only at h
    split at h
    · cases h; exact .inl rfl
    · have hk : ((hs.length : Int) - c.maxRolls).toNat = hs.length - c.maxRolls.toNat := by omega
      rw [hk] at h
      split at h
      · rw [he] at h
        rcases stops_bind h with h | ⟨t1, r, d1, t2, h1, h2, rfl⟩
        · left; exact noArch_stops (Prog.All.sys (by simp [noArch])) h
        · have e1 : d1 = d := by
            cases h1 with
            | call hs h1 => cases h1; exact hs
          subst e1
          simp only [Bool.false_eq_true, if_false] at h2
          rcases stops_bind h2 with h2 | ⟨t3, r, d2, t4, h3, h4, rfl⟩
          · exact stops_unexploded h2
          · have := noArch_stops (noArch_remove _) h4
            rcases stops_unexploded h3.stops with h | ⟨old, new, o1, o2, o3⟩
            · left; rw [this, h]
            · right; exact ⟨old, new, o1, o2, by rw [this, o3]⟩
      · left; exact noArch_stops (noArch_remove _) h

theorem runs_remove_mem {ns : List Str} {d d' : Disk} {tr : STrace} (h : Runs umask (removeAll ns) d tr () d') {n : Str} : (∃ r, (⟨.remove n, r⟩ : (o : Sys) × o.Resp) ∈ tr) ↔ n ∈ ns := by
  induction ns generalizing d tr with
  | nil => cases h; simp
  | cons m ns ih =>
    cases h with
    | @call _ _ _ r d1 tr _ _ hs h =>
      rw [List.mem_cons, ← ih h]
      constructor
      · rintro ⟨r', hm⟩
        rcases List.mem_cons.mp hm with e | hm
        · cases e; exact .inl rfl
        · exact .inr ⟨r', hm⟩
      · rintro (rfl | ⟨r', hm⟩)
        · exact ⟨r, by simp⟩
        · exact ⟨r', by simp [hm]⟩

/-- The deletion when nothing fails, with an archive file. -/
theorem runs_delete_archives {hs : List Str} (he : c.exploded = false) (ha : c.archive ≠ .none) {d d' : Disk} {tr : STrace} (h : Runs umask (c.deleteOldRolls hs) d tr () d') (hn : NoneFailed tr) :
    (∀ x ∈ tr, ∀ n, x.1 ≠ .remove n) ∨ (AddedTo d (hs.take (hs.length - c.maxRolls.toNat)) d' ∧
      ∀ n, (∃ r, (⟨.remove n, r⟩ : (o : Sys) × o.Resp) ∈ tr) ↔ n ∈ hs.take (hs.length - c.maxRolls.toNat)) := by
  rw [RCfg.deleteOldRolls] at h
  split at h
  · cases h; exact .inl (by simp)
  · rename_i h0
    dsimp only at h
    split at h
    · cases h; exact .inl (by simp)
    · have hk : ((hs.length : Int) - c.maxRolls).toNat = hs.length - c.maxRolls.toNat := by omega
      rw [hk, he] at h
      obtain ⟨t1, r, d1, t2, h1, h2, rfl⟩ := runs_bind h
      have e1 : d1 = d ∧ t1 = [⟨.mkdirAll c.dirPerm, r⟩] := by
        cases h1 with
        | call hs h1 => cases h1; exact ⟨hs, rfl⟩
      obtain ⟨rfl, rfl⟩ := e1
      simp only [Bool.false_eq_true, if_false] at h2
      obtain ⟨t3, r, d2, t4, h3, h4, rfl⟩ := runs_bind h2
      obtain ⟨old, new, o1, o2, o3⟩ := runs_unexploded h3 fun x hx => hn x (by simp [hx])
      refine .inr ⟨⟨old, new, o1, o2, by rw [noArch_stops (noArch_remove _) h4.stops, o3]⟩, fun n => ?_⟩
      rw [← runs_remove_mem h4]
      constructor
      · rintro ⟨r', hm⟩
        simp only [List.mem_append, List.mem_singleton] at hm
        rcases hm with hm | hm | hm
        · cases hm
        · exact absurd (Prog.All.runs (archives_unexploded _) h3 _ hm) (by simp [archOp])
        · exact ⟨r', hm⟩
      · rintro ⟨r', hm⟩
        exact ⟨r', by simp [hm]⟩

/-- The history of a directory. -/
theorem history_ascending {names : List Str} {d : Disk} (h : SysStep umask d .readdir (some names) d) : Ascending lib c d.dir (c.historyOf lib names) := by
  simp only [SysStep, true_and] at h
  obtain ⟨hnd, hall⟩ := h
  refine ⟨fun n => ⟨fun hn => ⟨mem_historyOf hn, (hall n).mp (historyOf_sub hn)⟩, fun ⟨⟨v, hv⟩, hr⟩ => historyOf_mem hv ((hall n).mpr hr)⟩, ?_, ?_⟩
  · have h1 : (((names.filter c.hasRollName).map c.getFileRollName).filter (c.isFileRollNameValid lib)).Nodup := by
      refine List.Pairwise.filter _ ?_
      refine List.Pairwise.of_map (S := (· ≠ ·)) (c.createFullFileName c.fileName) (fun a b hab e => hab (by rw [e])) ?_
      rw [List.map_map]
      have : (names.filter c.hasRollName).map (c.createFullFileName c.fileName ∘ c.getFileRollName) = names.filter c.hasRollName := by
        rw [List.map_congr_left (g := id), List.map_id]
        intro n hn
        simp only [Function.comp, createFull_eq]
        exact (backup_of_hasRollName c n (List.mem_filter.mp hn).2).symm
      rw [this]
      exact List.Pairwise.filter _ hnd
    have h2 := (lib.sort_perm (c.key lib) _).nodup_iff.mpr h1
    simp only [RCfg.historyOf, RCfg.sortFileRollNamesAsc]
    refine List.Pairwise.of_map (S := (· ≠ ·)) c.getFileRollName (fun a b hab e => hab (by rw [e])) ?_
    rw [List.map_map]
    rw [List.map_congr_left (g := id), List.map_id]
    · exact h2
    · intro n _
      simp only [Function.comp, createFull_eq, getFileRollName_backup, id]
  · refine (historyOf_sorted lib c names).imp ?_
    intro a b hab v w hv hw
    rw [backup_key hv, backup_key hw] at hab
    exact hab

theorem noArch_append (c : RCfg) (rw : RW) (bs : Bytes) : (c.append rw bs).All noArch := by
  have hput : ∀ rw : RW, (RCfg.put rw bs).All noArch := by
    intro rw
    rw [RCfg.put]
    split
    · exact Prog.All.bind (Prog.All.sys (by simp [noArch])) fun _ => trivial
    · trivial
  rw [RCfg.append]
  split
  · refine Prog.All.bind ((all_createFile c rw).mono fun o h => ?_) fun a => ?_
    · intro n e; rw [e] at h; exact h
    · obtain ⟨ok, rw1⟩ := a
      cases ok
      · trivial
      · exact hput _
  · exact hput _

/-- What a roll does before the deletion. -/
def Rolling (umask : Nat) (lib : RLib) (c : RCfg) (d : Disk) (tr : STrace) (hs : List Str) (b : Str) (d2 : Disk) : Prop :=
  ∃ d1 r, SysStep umask d (.rename c.fileName b) true d1 ∧ SysStep umask d1 (.chmod b c.backPerm) r d2 ∧ (⟨.rename c.fileName b, true⟩ : (o : Sys) × o.Resp) ∈ tr ∧
    Ascending lib c d.dir hs ∧ ∃ tag, b = backupName c.mode c.fileName tag

/-- The archive at any point of a roll. -/
theorem stops_rollOver {rw : RW} (hname : rw.name = c.fileName) {names : List Str} {d d' : Disk} {tr : STrace} (hrd : SysStep umask d .readdir (some names) d)
    (h : Stops umask (c.rollOver lib rw (c.historyOf lib names)) d tr d') :
    d'.arch = d.arch ∨ ∃ b d2 u, Rolling umask lib c d tr (c.historyOf lib names) b d2 ∧ Stops umask (c.deleteOldRolls (c.historyOf lib names ++ [b])) d2 u d' := by
  have key : ∀ (tag : Str) (rw' : RW) (t0 : STrace) {tr}, rw'.name = c.fileName → Stops umask (do
        let newHistoryName := c.createFullFileName c.fileName tag
        if (← sys (.rename rw'.name newHistoryName)) = false then return (false, rw')
        let _ ← sys (.chmod newHistoryName c.backPerm)
        let history := c.historyOf lib names ++ [newHistoryName]
        if (history.length : Int) > c.maxRolls then c.deleteOldRolls history
        return (true, rw')) d tr d' →
      d'.arch = d.arch ∨ ∃ b d2 u, Rolling umask lib c d (t0 ++ tr) (c.historyOf lib names) b d2 ∧ Stops umask (c.deleteOldRolls (c.historyOf lib names ++ [b])) d2 u d' := by
    intro tag rw' t0 tr hn h
    cases h with
    | here => exact .inl rfl
    | @call _ _ _ r d1 tr _ hs1 h =>
      have a1 := noArch_step (by simp [noArch]) hs1
      cases r with
      | false => cases h; exact .inl a1
      | true =>
        cases h with
        | here => exact .inl a1
        | @call _ _ _ r d2 tr _ hs2 h =>
          have a2 := noArch_step (by simp [noArch]) hs2
          have h : Stops umask (if ((c.historyOf lib names ++ [c.createFullFileName c.fileName tag]).length : Int) > c.maxRolls then
              (c.deleteOldRolls (c.historyOf lib names ++ [c.createFullFileName c.fileName tag]) >>= fun _ => pure (true, rw')) else pure (true, rw')) d2 tr d' := h
          rw [hn] at hs1
          rw [createFull_eq] at hs1 hs2 h
          have hroll : ∀ tr, Rolling umask lib c d (t0 ++ ⟨.rename rw'.name (c.createFullFileName c.fileName tag), true⟩ :: tr) (c.historyOf lib names) (backupName c.mode c.fileName tag) d2 := by
            intro tr
            rw [createFull_eq, hn]
            exact ⟨d1, r, hs1, hs2, by simp, history_ascending hrd, tag, rfl⟩
          split at h
          · rcases stops_bind h with h | ⟨t1, _, d3, t2, h1, h2, rfl⟩
            · exact .inr ⟨_, d2, _, hroll _, h⟩
            · cases h2
              exact .inr ⟨_, d2, _, hroll _, h1.stops⟩
          · cases h
            left; rw [a2, a1]
  rw [RCfg.rollOver, RCfg.getNewHistoryRollFileName] at h
  cases hk : c.kind with
  | size max => rw [hk] at h; exact key _ _ [] hname h
  | time pat =>
    rw [hk] at h
    cases h with
    | here => exact .inl rfl
    | @call _ _ _ r d1 tr _ hs h =>
      have hs : d1 = d := hs
      subst hs
      exact key rw.timeName { rw with timeName := lib.format r pat } [_] hname h

theorem Rolling.append {d d2 : Disk} {tr : STrace} {hs : List Str} {b : Str} (h : Rolling umask lib c d tr hs b d2) (a z : STrace) : Rolling umask lib c d (a ++ tr ++ z) hs b d2 := by
  obtain ⟨d1, r, h1, h2, h3, h4⟩ := h
  exact ⟨d1, r, h1, h2, by simp [h3], h4⟩

theorem stops_roll {rw : RW} (hname : rw.file = some .opened → rw.name = c.fileName) {d d' : Disk} {tr : STrace} (h : Stops umask (c.roll lib rw) d tr d') :
    d'.arch = d.arch ∨ ∃ hs b d2 u, Rolling umask lib c d tr hs b d2 ∧ Stops umask (c.deleteOldRolls (hs ++ [b])) d2 u d' := by
  rw [RCfg.roll] at h
  split at h
  · cases h; exact .inl rfl
  · cases h; exact .inl rfl
  · rename_i hf
    cases h with
    | here => exact .inl rfl
    | @call _ _ _ r d1 tr _ hs h =>
      have hs : d1 = d := hs
      subst hs
      cases r with
      | false => cases h; exact .inl rfl
      | true =>
        cases h with
        | here => exact .inl rfl
        | @call _ _ _ r d2 tr _ hs h =>
          have hrd := hs
          obtain ⟨rfl, _⟩ : d2 = d1 ∧ _ := hs
          cases r with
          | none => cases h; exact .inl rfl
          | some names =>
            rcases stops_rollOver (rw := { rw with file := none }) (hname hf) hrd h with h | ⟨b, d3, u, h1, h2⟩
            · exact .inl h
            · exact .inr ⟨_, b, d3, u, by simpa using h1.append [⟨.close rw.name, true⟩, ⟨.readdir, some names⟩] [], h2⟩

/-- The archive at any point of a write. -/
theorem stops_write {rw : RW} (hname : rw.file = some .opened → rw.name = c.fileName) {bs : Bytes} {d d' : Disk} {tr : STrace} (h : Stops umask (c.write lib rw bs) d tr d') :
    d'.arch = d.arch ∨ ∃ hs b d2 u d3, Rolling umask lib c d tr hs b d2 ∧ Stops umask (c.deleteOldRolls (hs ++ [b])) d2 u d3 ∧ d'.arch = d3.arch := by
  rw [RCfg.write] at h
  rcases stops_bind h with h | ⟨t1, ⟨b, rw1⟩, d1, t2, h1, h2, rfl⟩
  · left
    exact noArch_stops ((all_needsToRoll lib c rw).mono fun o h => by rw [h]; simp [noArch]) h
  · obtain ⟨rfl, _⟩ := runs_needsToRoll h1
    have hprop := Prog.Does.runs (does_needsToRoll lib c rw) h1
    have hn1 : rw1.file = some .opened → rw1.name = c.fileName := by rw [hprop.1, hprop.2.1]; exact hname
    cases b with
    | false => left; exact noArch_stops (noArch_append c rw1 bs) h2
    | true =>
      simp only [if_true] at h2
      rcases stops_bind h2 with h2 | ⟨t3, ⟨ok, rw2⟩, d2, t4, h3, h4, rfl⟩
      · rcases stops_roll hn1 h2 with h | ⟨hs, b, d3, u, h1, h2⟩
        · exact .inl h
        · exact .inr ⟨hs, b, d3, u, d', by simpa using h1.append t1 [], h2, rfl⟩
      · have e : d'.arch = d2.arch := by
          cases ok with
          | false => cases h4; rfl
          | true => exact noArch_stops (noArch_append c rw2 bs) h4
        rcases stops_roll hn1 h3.stops with h | ⟨hs, b, d3, u, h1, h2⟩
        · left; rw [e, h]
        · exact .inr ⟨hs, b, d3, u, d2, by simpa using h1.append t1 t4, h2, e⟩

theorem rolling_data {d d2 : Disk} {tr : STrace} {hs : List Str} {b : Str} (h : Rolling umask lib c d tr hs b d2) :
    d2.arch = d.arch ∧ ∀ n, n ≠ c.fileName → dataOf d2.dir n = if n = b then dataOf d.dir c.fileName else dataOf d.dir n := by
  obtain ⟨d1, r, h1, h2, _⟩ := h
  have e1 := noArch_step (by simp [noArch]) h1
  have e2 := noArch_step (by simp [noArch]) h2
  refine ⟨by rw [e2, e1], fun n hn => ?_⟩
  simp only [SysStep, if_true] at h1
  obtain ⟨data, p, f1, _, _, rfl⟩ := h1
  have hd1 : dataOf ((d.put c.fileName none).put b (some (.file data p))).dir n = if n = b then dataOf d.dir c.fileName else dataOf d.dir n := by
    simp only [dataOf, put_dir, f1]
    by_cases hb : n = b
    · simp [hb]
    · simp [hb, hn]
  cases r with
  | false =>
    have : d2 = _ := h2
    rw [this]; exact hd1
  | true =>
    simp only [SysStep, if_true] at h2
    obtain ⟨data2, p2, f2, rfl⟩ := h2
    rw [← hd1]
    simp only [dataOf, put_dir] at f2 ⊢
    by_cases hb : n = b
    · simp [hb] at f2 ⊢; exact f2.1.symm
    · simp [hb]

/-- The entries added in the course of a roll. -/
theorem added_packed {d d2 d' : Disk} {tr : STrace} {hs : List Str} {b : Str} (hr : Rolling umask lib c d tr hs b d2) (ha : AddedTo d2 ((hs ++ [b]).take ((hs ++ [b]).length - c.maxRolls.toNat)) d') :
    ∃ old new, archived d = some old ∧ Packed lib c d.dir tr new ∧ ∀ n, d'.arch n = if n = [] then .file (old ++ new) else d.arch n := by
  obtain ⟨e1, e2⟩ := rolling_data hr
  obtain ⟨old, new, o1, ⟨o2, o3⟩, o4⟩ := ha
  obtain ⟨_, _, _, _, g1, g2, tag, g3⟩ := hr
  refine ⟨old, new, by simpa [archived, e1] using o1, ⟨hs, b, g2, g1, by simpa using o2, fun e he => ?_⟩, fun n => by rw [o4, e1]⟩
  obtain ⟨p, hp⟩ := o3 e he
  have hne : e.1 ≠ c.fileName := by
    have : e.1 ∈ new.map Prod.fst := List.mem_map_of_mem he
    rw [o2] at this
    rcases List.mem_append.mp (List.mem_of_mem_take this) with hm | hm
    · obtain ⟨⟨v, hv⟩, _⟩ := (g2.all _).mp hm
      intro h; rw [h] at hv; exact current_not_backup lib c v hv
    · simp only [List.mem_singleton] at hm
      rw [hm, g3]
      intro h
      have := hasRollName_backup c tag
      rw [h, hasRollName_current] at this; cases this
  have := e2 e.1 hne
  have hdat : dataOf d2.dir e.1 = e.2 := by simp [dataOf, hp]
  rw [hdat] at this
  split <;> rename_i hb
  · rw [if_pos hb] at this; exact this.symm
  · rw [if_neg hb] at this; exact this.symm

theorem newRollingWriter_archive {tc : Toolchain} {cfg : CfgMap} {c : RCfg} (h : newRollingWriter tc cfg = some c) : c.archivePath = c.dirPath ∧ c.exploded = false := by
  simp only [newRollingWriter, newRollingFileWriter, if_true] at h
  split at h
  · cases h; exact ⟨rfl, rfl⟩
  · split at h
    · cases h; exact ⟨rfl, rfl⟩
    · cases h

end Log4g
