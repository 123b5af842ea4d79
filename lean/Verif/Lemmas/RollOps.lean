import Verif.Lemmas.Rolling

/-! # Which calls the parts of a write make -/

namespace Log4g
open Spec

/-- All calls of a program are `f`. -/
def Prog.All {α : Type} (f : Sys → Prop) : Prog α → Prop
  | .ret _ => True
  | .call o k => f o ∧ ∀ r, (k r).All f

variable {f : Sys → Prop} {α β : Type}

theorem Prog.All.bind {p : Prog α} {g : α → Prog β} (hp : p.All f) (hf : ∀ a, (g a).All f) : (p >>= g).All f := by
  show (p.bind g).All f
  induction p with
  | ret a => exact hf a
  | call o k ih => exact ⟨hp.1, fun r => ih r (hp.2 r)⟩

theorem Prog.All.sys {o : Sys} (h : f o) : (sys o).All f := ⟨h, fun _ => trivial⟩

theorem Quiet.all {p : Prog α} (h : Quiet p) (hf : ∀ o, quiet o = true → f o) : p.All f := by
  induction p with
  | ret a => trivial
  | call o k ih => exact ⟨hf o h.1, fun r => ih r (h.2 r)⟩

theorem Prog.All.runs {umask : Nat} {p : Prog α} {d d' : Disk} {tr : STrace} {a : α} (h : p.All f) (hr : Runs umask p d tr a d') : ∀ x ∈ tr, f x.1 := by
  induction hr with
  | ret => simp
  | call _ _ ih =>
    intro x hx
    rcases List.mem_cons.mp hx with rfl | hx
    · exact h.1
    · exact ih (h.2 _) x hx

theorem Prog.All.stops {umask : Nat} {p : Prog α} {d d' : Disk} {tr : STrace} (h : p.All f) (hr : Stops umask p d tr d') : ∀ x ∈ tr, f x.1 := by
  induction hr with
  | here => simp
  | call _ _ ih =>
    intro x hx
    rcases List.mem_cons.mp hx with rfl | hx
    · exact h.1
    · exact ih (h.2 _) x hx

theorem Prog.All.mono {p : Prog α} {g : Sys → Prop} (h : p.All f) (hf : ∀ o, f o → g o) : p.All g := by
  induction p with
  | ret a => trivial
  | call o k ih => exact ⟨hf o h.1, fun r => ih r (h.2 r)⟩

/-- All calls of a program are `f`, and what it returns is `Q`. -/
def Prog.Does {α : Type} (f : Sys → Prop) (Q : α → Prop) : Prog α → Prop
  | .ret a => Q a
  | .call o k => f o ∧ ∀ r, (k r).Does f Q

theorem Prog.Does.bind {p : Prog α} {g : α → Prog β} {Q : α → Prop} {R : β → Prop} (hp : p.Does f Q) (hf : ∀ a, Q a → (g a).Does f R) : (p >>= g).Does f R := by
  show (p.bind g).Does f R
  induction p with
  | ret a => exact hf a hp
  | call o k ih => exact ⟨hp.1, fun r => ih r (hp.2 r)⟩

theorem Prog.Does.all {p : Prog α} {Q : α → Prop} (hp : p.Does f Q) : p.All f := by
  induction p with
  | ret a => trivial
  | call o k ih => exact ⟨hp.1, fun r => ih r (hp.2 r)⟩

theorem Prog.Does.mono {p : Prog α} {Q R : α → Prop} {g : Sys → Prop} (hp : p.Does f Q) (hf : ∀ o, f o → g o) (hq : ∀ a, Q a → R a) : p.Does g R := by
  induction p with
  | ret a => exact hq a hp
  | call o k ih => exact ⟨hf o hp.1, fun r => ih r (hp.2 r)⟩

theorem Prog.All.does {p : Prog α} (hp : p.All f) : p.Does f fun _ => True := by
  induction p with
  | ret a => trivial
  | call o k ih => exact ⟨hp.1, fun r => ih r (hp.2 r)⟩

theorem Prog.Does.runs {umask : Nat} {p : Prog α} {Q : α → Prop} {d d' : Disk} {tr : STrace} {a : α} (hp : p.Does f Q) (hr : Runs umask p d tr a d') : Q a := by
  induction hr with
  | ret => exact hp
  | call _ _ ih => exact ih (hp.2 _)

/-- Calls made while rolling, with `own` the names involved. -/
def rollOp (own : Str → Prop) : Sys → Prop
  | .rename a b => own a ∧ own b
  | .chmod n _ => own n
  | .remove n => own n
  | .openAppend _ _ => False
  | .write _ _ => False
  | _ => True

theorem quiet_rollOp (own : Str → Prop) (o : Sys) (h : quiet o = true) : rollOp own o := by
  cases o <;> simp_all [quiet, rollOp]

variable {lib : RLib} {c : RCfg} {own : Str → Prop}

theorem all_removeAll {ns : List Str} (h : ∀ n ∈ ns, own n) : (removeAll ns).All (rollOp own) := by
  induction ns with
  | nil => trivial
  | cons n ns ih => exact Prog.All.bind (Prog.All.sys (h n (by simp))) fun _ => ih fun m hm => h m (by simp [hm])

theorem all_deleteOldRolls {hs : List Str} (h : ∀ n ∈ hs, own n) : (c.deleteOldRolls hs).All (rollOp own) := by
  have fin : ∀ k, (removeAll (hs.take k)).All (rollOp own) := fun k => all_removeAll fun n hn => h n (List.mem_of_mem_take hn)
  rw [RCfg.deleteOldRolls]
  split
  · trivial
  · dsimp only
    split
    · trivial
    · split
      · refine Prog.All.bind (Prog.All.sys trivial) fun _ => ?_
        split
        · exact Prog.All.bind ((quiet_each c _).all (quiet_rollOp own)) fun _ => fin _
        · exact Prog.All.bind ((quiet_unexploded _).all (quiet_rollOp own)) fun _ => fin _
      · exact fin _

/-- The tags a roll may give: a number, or the period recorded. -/
def TagOf (c : RCfg) (rw : RW) (tag : Str) : Prop :=
  match c.kind with
  | .size _ => ∃ v, tag = Strconv.itoa (Strconv.wrap64 v)
  | .time _ => tag = rw.timeName

theorem mem_historyOf {names : List Str} {n : Str} (h : n ∈ c.historyOf lib names) :
    ∃ v, Backup lib c n v := by
  simp only [RCfg.historyOf, List.mem_map, RCfg.sortFileRollNamesAsc] at h
  obtain ⟨tag, ht, rfl⟩ := h
  have ht := (lib.sort_perm _ _).mem_iff.mp ht
  obtain ⟨v, hv⟩ := (valid_iff lib c tag).mp (List.mem_filter.mp ht).2
  exact ⟨v, tag, createFull_eq c _ _, hv⟩

theorem does_rollOver {rw : RW} (hf : rw.file = none) (hn : own rw.name) {hs : List Str} (hh : ∀ n ∈ hs, own n)
    (hnew : ∀ tag, TagOf c rw tag → own (backupName c.mode c.fileName tag)) :
    (c.rollOver lib rw hs).Does (rollOp own) (fun br => br.2.file = none ∧ br.2.name = rw.name ∧ br.2.size = rw.size) := by
  have key : ∀ tag (rw' : RW), TagOf c rw tag → rw'.file = none → rw'.name = rw.name → rw'.size = rw.size →
      Prog.Does (rollOp own) (fun br => br.2.file = none ∧ br.2.name = rw.name ∧ br.2.size = rw.size) (do
        let newHistoryName := c.createFullFileName c.fileName tag
        if (← sys (.rename rw'.name newHistoryName)) = false then return (false, rw')
        let _ ← sys (.chmod newHistoryName c.backPerm)
        let history := hs ++ [newHistoryName]
        if (history.length : Int) > c.maxRolls then c.deleteOldRolls history
        return (true, rw')) := by
    intro tag rw' ht hf' he hz
    have ho := hnew tag ht
    rw [← createFull_eq] at ho
    refine ⟨⟨by rw [he]; exact hn, ho⟩, fun b => ?_⟩
    cases b with
    | false => exact ⟨hf', he, hz⟩
    | true =>
      refine ⟨ho, fun _ => ?_⟩
      show Prog.Does _ _ (if _ then _ else _)
      split
      · refine Prog.Does.bind (Prog.All.does (all_deleteOldRolls ?_)) fun _ _ => ⟨hf', he, hz⟩
        intro n hn
        rcases List.mem_append.mp hn with hn | hn
        · exact hh n hn
        · simp only [List.mem_singleton] at hn; subst hn; exact ho
      · exact ⟨hf', he, hz⟩
  rw [RCfg.rollOver, RCfg.getNewHistoryRollFileName]
  cases hk : c.kind with
  | size max => exact key _ _ (by simp [TagOf, hk]; exact ⟨_, rfl⟩) hf rfl rfl
  | time pat =>
    refine ⟨trivial, fun t => ?_⟩
    exact key rw.timeName { rw with timeName := lib.format t pat } (by simp [TagOf, hk]) hf rfl rfl

theorem does_roll {rw : RW} (hn : rw.file = some .opened → own rw.name) (hh : ∀ n v, Backup lib c n v → own n)
    (hnew : ∀ tag, TagOf c rw tag → own (backupName c.mode c.fileName tag)) :
    (c.roll lib rw).Does (rollOp own) (fun br => br.2.file ≠ some .opened ∧ br.2.name = rw.name ∧ br.2.size = rw.size) := by
  rw [RCfg.roll]
  split
  · rename_i hf; exact ⟨by rw [hf]; simp, rfl, rfl⟩
  · rename_i hf; exact ⟨by rw [hf]; simp, rfl, rfl⟩
  · rename_i hf
    refine ⟨trivial, fun b => ?_⟩
    cases b with
    | false => exact ⟨by simp, rfl, rfl⟩
    | true =>
      rw [RCfg.getSortedLogHistory]
      refine ⟨trivial, fun r => ?_⟩
      cases r with
      | none => exact ⟨by simp, rfl, rfl⟩
      | some names =>
        refine Prog.Does.mono (does_rollOver (rw := { rw with file := none }) (hs := c.historyOf lib names) (lib := lib) rfl (hn hf) (fun n hn => ?_) hnew)
          (fun _ h => h) (fun _ h => ⟨by rw [h.1]; simp, h.2⟩)
        obtain ⟨v, hv⟩ := mem_historyOf hn
        exact hh n v hv

theorem all_roll {rw : RW} (hn : rw.file = some .opened → own rw.name) (hh : ∀ n v, Backup lib c n v → own n)
    (hnew : ∀ tag, TagOf c rw tag → own (backupName c.mode c.fileName tag)) :
    (c.roll lib rw).All (rollOp own) := (does_roll hn hh hnew).all

/-- Calls made to open the file. -/
def openOp (c : RCfg) : Sys → Prop
  | .openAppend n p => n = c.fileName ∧ p = c.filePerm
  | .mkdirAll _ | .stat _ | .close _ => True
  | _ => False

theorem all_createFile (c : RCfg) (rw : RW) : (c.createFile rw).All (openOp c) := by
  rw [RCfg.createFile]
  refine Prog.All.bind (Prog.All.sys trivial) fun b => ?_
  split
  · trivial
  · refine Prog.All.bind (Prog.All.sys ⟨rfl, rfl⟩) fun b => ?_
    split
    · trivial
    · refine Prog.All.bind (Prog.All.sys trivial) fun r => ?_
      cases r with
      | none => exact Prog.All.bind (Prog.All.sys trivial) fun _ => trivial
      | some n => trivial

theorem all_needsToRoll (lib : RLib) (c : RCfg) (rw : RW) : (c.needsToRoll lib rw).All (· = .now) := by
  rw [RCfg.needsToRoll]
  cases c.kind with
  | size max => trivial
  | time pat =>
    refine Prog.All.bind (Prog.All.sys rfl) fun t => ?_
    dsimp only
    split <;> trivial

/-- How a write goes: the check, perhaps a roll, perhaps the opening of the file, perhaps the write itself. -/
theorem runs_write {umask : Nat} {rw rw' : RW} {bs : Bytes} {d d' : Disk} {tr : STrace} {res : Nat × Bool}
    (h : Runs umask (c.write lib rw bs) d tr (res, rw') d') :
    ∃ t1 b rw1 d1 t2 rw2 d2, Runs umask (c.needsToRoll lib rw) d t1 (b, rw1) d1 ∧
      ((b = true ∧ Runs umask (c.roll lib rw1) d1 t2 (false, rw2) d2 ∧ tr = t1 ++ t2 ∧ res = (0, false) ∧ rw' = rw2 ∧ d' = d2) ∨
       ((b = true ∧ Runs umask (c.roll lib rw1) d1 t2 (true, rw2) d2 ∨ b = false ∧ t2 = [] ∧ rw2 = rw1 ∧ d2 = d1) ∧
        ∃ t3, Runs umask (c.append rw2 bs) d2 t3 (res, rw') d' ∧ tr = t1 ++ t2 ++ t3)) := by
  rw [RCfg.write] at h
  obtain ⟨t1, ⟨b, rw1⟩, d1, t2, h1, h2, rfl⟩ := runs_bind h
  cases b with
  | false =>
    simp only [Bool.false_eq_true, if_false] at h2
    exact ⟨t1, false, rw1, d1, [], rw1, d1, h1, .inr ⟨.inr ⟨rfl, rfl, rfl, rfl⟩, t2, h2, by simp⟩⟩
  | true =>
    simp only [if_true] at h2
    obtain ⟨t2, ⟨ok, rw2⟩, d2, t3, h2, h3, rfl⟩ := runs_bind h2
    cases ok with
    | false =>
      simp only [if_true] at h3
      cases h3
      exact ⟨t1, true, rw1, d1, t2, _, _, h1, .inl ⟨rfl, h2, by simp, rfl, rfl, rfl⟩⟩
    | true =>
      simp only [Bool.true_eq_false, if_false] at h3
      exact ⟨t1, true, rw1, d1, t2, rw2, d2, h1, .inr ⟨.inl ⟨rfl, h2⟩, t3, h3, by simp⟩⟩

/-- How the file is opened and written. -/
theorem runs_append {umask : Nat} {rw rw' : RW} {bs : Bytes} {d d' : Disk} {tr : STrace} {res : Nat × Bool}
    (h : Runs umask (c.append rw bs) d tr (res, rw') d') :
    (rw.file = none ∧ Runs umask (c.createFile rw) d tr (false, rw') d' ∧ res = (0, false)) ∨
    (∃ t1 rw1 d1 t2, (rw.file = none ∧ Runs umask (c.createFile rw) d t1 (true, rw1) d1 ∨ rw.file ≠ none ∧ t1 = [] ∧ rw1 = rw ∧ d1 = d) ∧
      Runs umask (RCfg.put rw1 bs) d1 t2 (res, rw') d' ∧ tr = t1 ++ t2) := by
  rw [RCfg.append] at h
  split at h
  · rename_i hf
    obtain ⟨t1, ⟨ok, rw1⟩, d1, t2, h1, h2, rfl⟩ := runs_bind h
    cases ok with
    | false =>
      simp only [if_true] at h2
      cases h2
      exact .inl ⟨hf, by simpa using h1, rfl⟩
    | true =>
      simp only [Bool.true_eq_false, if_false] at h2
      exact .inr ⟨t1, rw1, d1, t2, .inl ⟨hf, h1⟩, h2, rfl⟩
  · rename_i hf
    exact .inr ⟨[], rw, d, tr, .inr ⟨hf, rfl, rfl, rfl⟩, h, rfl⟩

theorem runs_put {umask : Nat} {rw rw' : RW} {bs : Bytes} {d d' : Disk} {tr : STrace} {res : Nat × Bool}
    (h : Runs umask (RCfg.put rw bs) d tr (res, rw') d') :
    (rw.file = some .opened ∧ tr = [⟨.write rw.name bs, res⟩] ∧ rw' = { rw with size := rw.size + res.1 } ∧ SysStep umask d (.write rw.name bs) res d') ∨
    (rw.file ≠ some .opened ∧ tr = [] ∧ res = (0, false) ∧ rw' = rw ∧ d' = d) := by
  rw [RCfg.put] at h
  split at h
  · rename_i hf
    cases h with
    | call hs h =>
      cases h
      exact .inl ⟨hf, rfl, rfl, hs⟩
  · rename_i hf
    cases h
    exact .inr ⟨hf, rfl, rfl, rfl, rfl⟩

theorem runs_createFile {umask : Nat} {rw rw' : RW} {d d' : Disk} {tr : STrace} {ok : Bool}
    (h : Runs umask (c.createFile rw) d tr (ok, rw') d') :
    (ok = true → ∃ n : Nat, rw' = { rw with name := c.fileName, file := some .opened, size := n } ∧
      tr = [⟨.mkdirAll c.dirPerm, true⟩, ⟨.openAppend c.fileName c.filePerm, true⟩, ⟨.stat c.fileName, some n⟩] ∧
      SysStep umask d (.openAppend c.fileName c.filePerm) true d' ∧ ∃ data p, d'.dir c.fileName = some (.file data p) ∧ n = data.length) ∧
    (ok = false → rw'.file ≠ some .opened ∨ rw' = rw) ∧ (ok = false → rw.file = none → rw'.file = none) ∧ (ok = false → rw'.size = rw.size) ∧ rw'.timeName = rw.timeName := by
  rw [RCfg.createFile] at h
  cases h with
  | @call _ _ _ r d1 _ _ _ hs h =>
    simp only [SysStep] at hs
    subst hs
    cases r with
    | false => cases h; simp
    | true =>
      cases h with
      | @call _ _ _ r d2 _ _ _ hs h =>
        cases r with
        | false => cases h; simp
        | true =>
          cases h with
          | @call _ _ _ r d3 _ _ _ hs2 h =>
            cases r with
            | none =>
              cases h with
              | call hs3 h => cases h; simp
            | some n =>
              cases h
              simp only [SysStep] at hs2
              obtain ⟨rfl, data, p, e, hz⟩ := hs2
              refine ⟨fun _ => ⟨n, rfl, rfl, hs, data, p, e, hz⟩, by simp, by simp, by simp, rfl⟩

theorem chunks_nil {tr : STrace} (h : ∀ x ∈ tr, ∀ n bs, x.1 ≠ .write n bs) : chunks tr = [] := by
  induction tr with
  | nil => rfl
  | cons x xs ih =>
    obtain ⟨o, r⟩ := x
    have := ih fun y hy => h y (by simp [hy])
    have h0 := h ⟨o, r⟩ (by simp)
    cases o <;> simp_all [chunks]

/-- A write puts at most one piece on the disk; if it succeeds, the whole. -/
theorem write_chunks {umask : Nat} {rw rw' : RW} {bs : Bytes} {d d' : Disk} {tr : STrace} {n : Nat} {ok : Bool}
    (h : Runs umask (c.write lib rw bs) d tr ((n, ok), rw') d') :
    (chunks tr = [] ∧ n = 0 ∧ ok = false) ∨ (chunks tr = [bs.take n] ∧ n ≤ bs.length ∧ (ok = true → n = bs.length)) := by
  obtain ⟨t1, b, rw1, d1, t2, rw2, d2, h1, h2⟩ := runs_write h
  have c1 : chunks t1 = [] := chunks_nil fun x hx n bs => by rw [Prog.All.runs (all_needsToRoll lib c rw) h1 x hx]; simp
  have croll : ∀ {r : Bool}, Runs umask (c.roll lib rw1) d1 t2 (r, rw2) d2 → chunks t2 = [] := by
    intro r h
    refine chunks_nil fun x hx n bs he => ?_
    have := Prog.All.runs (all_roll (lib := lib) (c := c) (rw := rw1) (own := fun _ => True) (fun _ => trivial) (fun _ _ _ => trivial) fun _ _ => trivial) h x hx
    rw [he] at this; exact this
  rcases h2 with ⟨_, hr, rfl, hres, _⟩ | ⟨hr, t3, ha, rfl⟩
  · left
    cases hres
    exact ⟨by rw [chunks_append, c1, croll hr]; rfl, rfl, rfl⟩
  · have c2 : chunks t2 = [] := by
      rcases hr with ⟨_, hr⟩ | ⟨_, rfl, _⟩
      · exact croll hr
      · rfl
    rw [chunks_append, chunks_append, c1, c2]
    have copen : ∀ {t r d d' rw rw'}, Runs umask (c.createFile rw) d t (r, rw') d' → chunks t = [] := by
      intro t r d d' rw rw' h
      refine chunks_nil fun x hx n bs he => ?_
      have := Prog.All.runs (all_createFile c rw) h x hx
      rw [he] at this; exact this
    rcases runs_append ha with ⟨_, hc, hres⟩ | ⟨t4, rw4, d4, t5, hc, hp, rfl⟩
    · left
      cases hres
      exact ⟨by rw [copen hc]; rfl, rfl, rfl⟩
    · have c4 : chunks t4 = [] := by
        rcases hc with ⟨_, hc⟩ | ⟨_, rfl, _⟩
        · exact copen hc
        · rfl
      rw [chunks_append, c4]
      rcases runs_put hp with ⟨_, rfl, _, hs⟩ | ⟨_, rfl, hres, _⟩
      · right
        obtain ⟨_, _, _, hle, hok, _⟩ := hs
        exact ⟨rfl, hle, hok⟩
      · left
        cases hres
        exact ⟨rfl, rfl, rfl⟩

end Log4g
