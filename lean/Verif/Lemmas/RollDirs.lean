import Verif.Lemmas.RollNew

/-! # What a write does to the directory -/

namespace Log4g
open Spec Strconv

variable {lib : RLib} {c : RCfg} {umask : Nat}

/-- What is written goes to the end of the current file, which is created if it is not there. -/
def Appended (umask : Nat) (c : RCfg) (d d' : Dir) (bs : Bytes) (res : Nat × Bool) : Prop :=
  (res = (0, false) ∧ d' c.fileName = d c.fileName) ∨
  (d c.fileName = none ∧ d' c.fileName = some (.file (bs.take res.1) (reduced umask c.filePerm))) ∨
  (∃ data p, d c.fileName = some (.file data p) ∧ d' c.fileName = some (.file (data ++ bs.take res.1) p))

theorem append_dir {rw rw' : RW} {bs : Bytes} {d d' : Disk} {tr : STrace} {res : Nat × Bool} (hk : Knows c rw d)
    (h : Runs umask (c.append rw bs) d tr (res, rw') d') :
    Knows c rw' d' ∧ (∀ n, n ≠ c.fileName → d'.dir n = d.dir n) ∧ Appended umask c d.dir d'.dir bs res ∧ (res.2 = true → rw'.file = some .opened ∧ res.1 = bs.length) := by
  rcases runs_append h with ⟨hf, hc, rfl⟩ | ⟨t1, rw1, d1, t2, hc, hp, rfl⟩
  · obtain ⟨h1, h2, h3, _⟩ := create_cases hf hc
    obtain ⟨e1, _⟩ := h3 rfl
    refine ⟨fun h => (by rw [e1] at h; cases h), h1, ?_, fun h => by cases h⟩
    rcases h2 with h2 | ⟨h2, h4⟩
    · exact .inl ⟨rfl, h2⟩
    · exact .inr (.inl ⟨h2, by simpa using h4⟩)
  · have hk1 : Knows c rw1 d1 := by
      rcases hc with ⟨hf, hc⟩ | ⟨_, _, rfl, rfl⟩
      · exact ((create_cases hf hc).2.2.2 rfl).2
      · exact hk
    obtain ⟨h1, h2, h3, h4⟩ := put_cases hk1 hp
    have hres : res.2 = true → rw'.file = some .opened ∧ res.1 = bs.length := by
      intro hr
      rcases runs_put hp with ⟨hf, _, _, hs⟩ | ⟨_, _, rfl, _⟩
      · obtain ⟨_, _, _, _, hn, _⟩ := hs
        exact ⟨by rw [h1, hf], hn hr⟩
      · cases hr
    have hfail : d' = d1 ∧ rw' = rw1 → res.2 = false ∨ rw1.file = some .opened := by
      intro _
      rcases runs_put hp with ⟨hf, _, _, hs⟩ | ⟨_, _, rfl, _⟩
      · exact .inr hf
      · exact .inl rfl
    rcases hc with ⟨hf, hc⟩ | ⟨hf, _, rfl, rfl⟩
    · obtain ⟨k1, k2, _, k4⟩ := create_cases hf hc
      have ho := (k4 rfl).1
      refine ⟨h2, fun n hn => by rw [h3 n hn, k1 n hn], ?_, hres⟩
      rcases runs_put hp with ⟨_, _, _, hs⟩ | ⟨hno, _⟩
      · obtain ⟨hname, _⟩ := hk1 ho
        simp only [SysStep] at hs
        obtain ⟨data', p', e', hle, _, rfl⟩ := hs
        rw [hname] at e' ⊢
        rcases k2 with k2 | ⟨k2, k5⟩
        · rw [k2] at e'
          exact .inr (.inr ⟨data', p', e', by rw [put_dir, if_pos rfl]⟩)
        · rw [k5] at e'; cases e'
          exact .inr (.inl ⟨k2, by rw [put_dir, if_pos rfl]; simp⟩)
      · exact absurd ho hno
    · refine ⟨h2, h3, ?_, hres⟩
      rcases runs_put hp with ⟨ho, _, _, hs⟩ | ⟨_, _, rfl, _, rfl⟩
      · obtain ⟨hname, _⟩ := hk1 ho
        simp only [SysStep] at hs
        obtain ⟨data', p', e', hle, _, rfl⟩ := hs
        rw [hname] at e' ⊢
        exact .inr (.inr ⟨data', p', e', by rw [put_dir, if_pos rfl]⟩)
      · exact .inl ⟨rfl, rfl⟩

/-- What a write does to the directory. -/
theorem write_dir {rw rw' : RW} {bs : Bytes} {d d' : Disk} {tr : STrace} {res : Nat × Bool} (hk : Knows c rw d)
    (h : Runs umask (c.write lib rw bs) d tr (res, rw') d') :
    Knows c rw' d' ∧ (res.2 = true → rw'.file = some .opened ∧ res.1 = bs.length) ∧
    ((rolls tr = 0 ∧ (∀ n, n ≠ c.fileName → d'.dir n = d.dir n) ∧ Appended umask c d.dir d'.dir bs res) ∨
     (∃ (data : Bytes) (p : Nat) (tag : Str) (q : Nat) (d2 : Disk), rolls tr = 1 ∧ d.dir c.fileName = some (.file data p) ∧ TagOf c rw tag ∧ (ChmodsOk tr → q = c.backPerm) ∧ d2.dir c.fileName = none ∧
      (∀ n, n ≠ c.fileName → n ≠ backupName c.mode c.fileName tag → d2.dir n = d.dir n ∨ d2.dir n = none) ∧
      (d2.dir (backupName c.mode c.fileName tag) = some (.file data q) ∨ d2.dir (backupName c.mode c.fileName tag) = none) ∧
      (∀ n, n ≠ c.fileName → d'.dir n = d2.dir n) ∧ Appended umask c d2.dir d'.dir bs res)) := by
  rcases write_cases (knows_name hk) h with ⟨h1, h2⟩ | ⟨t0, rw1, names, t1, rw2, d2, t2, hneed, hf, hname, hrd, ho, hf2, ha, htr⟩
  · obtain ⟨t1, b, rw1, d1, t2, rw2, d2, k1, k2⟩ := runs_write h
    obtain ⟨rfl, _⟩ := runs_needsToRoll k1
    have hprop := Prog.Does.runs (does_needsToRoll lib c rw) k1
    have hk1 : Knows c rw1 d1 := by
      intro hf
      rw [hprop.1] at hf
      obtain ⟨a, b⟩ := hk hf
      exact ⟨by rw [hprop.2.1, a], by rw [hprop.2.2.1]; exact b⟩
    rcases k2 with ⟨rfl, hroll, rfl, rfl, rfl, rfl⟩ | ⟨hroll, t3, ha, rfl⟩
    · have hno : rw'.file ≠ some .opened := (Prog.Does.runs (does_roll (own := fun _ => True) (lib := lib) (c := c) (rw := rw1) (fun _ => trivial) (fun _ _ _ => trivial) fun _ _ => trivial) hroll).1
      have hd : d' = d1 := by
        rcases runs_roll hroll with ⟨_, rfl, _⟩ | ⟨_, _, _, _, _, ho⟩
        · rfl
        · obtain ⟨_, _, _, h5⟩ := runs_rollOver ho
          rcases h5 with ⟨_, _, h5⟩ | ⟨h5, _⟩
          · exact h5
          · cases h5
      subst hd
      exact ⟨fun hf => absurd hf hno, fun h => (by cases h), .inl ⟨rolls_zero' h1, h2, .inl ⟨rfl, rfl⟩⟩⟩
    · rcases hroll with ⟨rfl, hroll⟩ | ⟨rfl, rfl, rfl, rfl⟩
      · exfalso
        rcases runs_roll hroll with ⟨h3, _⟩ | ⟨_, _, _, _, rfl, ho⟩
        · cases h3
        · obtain ⟨tag, _, _, h5⟩ := runs_rollOver ho
          rcases h5 with ⟨h5, _⟩ | ⟨_, _, _, _, _, _, _, rfl, _⟩
          · cases h5
          · exact absurd (h1 ⟨.rename rw1.name (backupName c.mode c.fileName tag), true⟩ (by simp) _ _ rfl) (by simp)
      · obtain ⟨a1, a2, a3, a4⟩ := append_dir hk1 ha
        exact ⟨a1, a4, .inl ⟨rolls_zero' h1, a2, a3⟩⟩
  · have hprop := Prog.Does.runs (does_needsToRoll lib c rw) hneed
    have hfo : rw.file = some .opened := by rw [← hprop.1]; exact hf
    obtain ⟨_, data, p, he, _⟩ := hk hfo
    obtain ⟨tag, q, htag, hq, hc1, hc2, hc3⟩ := rolled_dir (rw := { rw1 with file := none }) hname ho he
    have htag' : TagOf c rw tag := by
      have ht : rw1.timeName = rw.timeName := by
        rcases hprop.2.2.2 with h4 | ⟨h4, _⟩
        · exact h4
        · cases h4
      unfold TagOf at htag ⊢
      cases hkind : c.kind with
      | size max => rw [hkind] at htag; exact htag
      | time pat => rw [hkind] at htag; simp only at htag ⊢; rw [htag, ht]
    obtain ⟨a1, a2, a3, a4⟩ := append_dir (c := c) (rw := rw2) (fun hx => by rw [hf2] at hx; cases hx) ha
    have hrolls : rolls tr = 1 := by
      have z0 : rolls t0 = 0 := rolls_zero fun x hx a b he => by
        have := Prog.All.runs (all_needsToRoll lib c rw) hneed x hx; rw [he] at this; cases this
      have z2 : rolls t2 = 0 := rolls_zero fun x hx a b => append_norename ha x hx a b
      have z1 : rolls t1 = 1 := by
        obtain ⟨_, t5, hk5, h5⟩ := runs_rollOver ho
        have z5 : rolls t5 = 0 := by rcases hk5 with ⟨_, _, rfl, _⟩ | ⟨_, _, _, rfl, _⟩ <;> rfl
        rcases h5 with ⟨h5, _⟩ | ⟨_, _, _, _, t6, _, _, rfl, h6⟩
        · cases h5
        · have z6 : rolls t6 = 0 := by
            rcases h6 with ⟨_, h6⟩ | ⟨_, rfl, _⟩
            · exact rolls_zero fun x hx a b => deleteOldRolls_norename h6 hx a b
            · rfl
          simp [rolls_append, rolls, z5, z6]
      rw [htr]
      simp [rolls_append, rolls, z0, z1, z2]
    refine ⟨a1, a4, .inr ⟨data, p, tag, q, d2, hrolls, he, htag', fun hok => hq fun n p r hm => hok n p r ?_, hc1, hc2, hc3, a2, a3⟩⟩
    rw [htr]; simp [hm]

theorem noneFailed_append {a b : STrace} : NoneFailed (a ++ b) ↔ NoneFailed a ∧ NoneFailed b := by
  constructor
  · exact fun h => ⟨fun x hx => h x (by simp [hx]), fun x hx => h x (by simp [hx])⟩
  · rintro ⟨h1, h2⟩ x hx
    rcases List.mem_append.mp hx with hx | hx
    · exact h1 x hx
    · exact h2 x hx

theorem logCallsOk_append {a b : STrace} : LogCallsOk (a ++ b) ↔ LogCallsOk a ∧ LogCallsOk b := by
  constructor
  · exact fun h => ⟨fun x hx => h x (by simp [hx]), fun x hx => h x (by simp [hx])⟩
  · rintro ⟨h1, h2⟩ x hx
    rcases List.mem_append.mp hx with hx | hx
    · exact h1 x hx
    · exact h2 x hx

theorem logCallsOk_of {tr : STrace} (h : NoneFailed tr) : LogCallsOk tr := fun x hx _ => h x hx

theorem chmodsOk_of_logCalls {tr : STrace} (h : LogCallsOk tr) : ChmodsOk tr := by
  intro n p r hm
  have := h _ hm (by simp [ForArchive])
  simpa [Failed] using this

theorem removesOk_of_logCalls {tr : STrace} (h : LogCallsOk tr) : RemovesOk tr := by
  intro n r hm
  have := h _ hm (by simp [ForArchive])
  simpa [Failed] using this

theorem chmodsOk_of_noneFailed {tr : STrace} (h : NoneFailed tr) : ChmodsOk tr := chmodsOk_of_logCalls (logCallsOk_of h)

theorem removesOk_of_noneFailed {tr : STrace} (h : NoneFailed tr) : RemovesOk tr := removesOk_of_logCalls (logCallsOk_of h)

theorem put_ok {rw rw' : RW} {bs : Bytes} {d d' : Disk} {tr : STrace} {res : Nat × Bool} (hf : rw.file = some .opened) (h : Runs umask (RCfg.put rw bs) d tr (res, rw') d')
    (hnf : LogCallsOk tr) : res.2 = true := by
  rcases runs_put h with ⟨_, rfl, _⟩ | ⟨hn, _⟩
  · have := hnf ⟨.write rw.name bs, res⟩ (by simp) (by simp [ForArchive])
    simpa [Failed] using this
  · exact absurd hf hn

theorem createFile_ok {rw rw' : RW} {d d' : Disk} {tr : STrace} {ok : Bool} (h : Runs umask (c.createFile rw) d tr (ok, rw') d') (hnf : LogCallsOk tr) : ok = true := by
  rw [RCfg.createFile] at h
  cases h with
  | @call _ _ _ r d1 tr _ _ _ h =>
    cases r with
    | false => exact absurd rfl (hnf ⟨.mkdirAll c.dirPerm, false⟩ (by simp) (by simp [ForArchive]))
    | true =>
      cases h with
      | @call _ _ _ r d2 tr _ _ _ h =>
        cases r with
        | false => exact absurd rfl (hnf ⟨.openAppend c.fileName c.filePerm, false⟩ (by simp) (by simp [ForArchive]))
        | true =>
          cases h with
          | @call _ _ _ r d3 tr _ _ _ h =>
            cases r with
            | none => exact absurd rfl (hnf ⟨.stat c.fileName, none⟩ (by simp) (by simp [ForArchive]))
            | some n => cases h; rfl

theorem append_ok {rw rw' : RW} {bs : Bytes} {d d' : Disk} {tr : STrace} {res : Nat × Bool} (hdead : rw.file ≠ some .dead)
    (h : Runs umask (c.append rw bs) d tr (res, rw') d') (hnf : LogCallsOk tr) : res.2 = true := by
  rcases runs_append h with ⟨hf, hc, _⟩ | ⟨t1, rw1, d1, t2, hc, hp, rfl⟩
  · cases createFile_ok hc hnf
  · obtain ⟨_, n2⟩ := logCallsOk_append.mp hnf
    refine put_ok ?_ hp n2
    rcases hc with ⟨hf, hc⟩ | ⟨hf, _, rfl, _⟩
    · exact ((create_cases hf hc).2.2.2 rfl).1
    · cases hx : rw1.file with
      | none => exact absurd hx hf
      | some x =>
        cases x with
        | opened => rfl
        | dead => exact absurd hx hdead

theorem roll_ok {rw rw' : RW} {d d' : Disk} {tr : STrace} {ok : Bool} (hf : rw.file = some .opened) (h : Runs umask (c.roll lib rw) d tr (ok, rw') d') (hnf : LogCallsOk tr) :
    ok = true ∧ rw'.file = none := by
  rcases runs_roll h with ⟨_, _, h3⟩ | ⟨_, names, t4, _, rfl, ho⟩
  · rcases h3 with ⟨h3, _⟩ | ⟨_, rfl, _⟩ | ⟨_, rfl, _⟩
    · exact absurd hf h3
    · exact absurd rfl (hnf ⟨.close rw.name, false⟩ (by simp) (by simp [ForArchive]))
    · exact absurd rfl (hnf ⟨.readdir, none⟩ (by simp) (by simp [ForArchive]))
  · have hfile := Prog.Does.runs (does_rollOver (own := fun _ => True) (lib := lib) (c := c) (rw := { rw with file := none }) rfl trivial (fun _ _ => trivial) fun _ _ => trivial) ho
    refine ⟨?_, hfile.1⟩
    obtain ⟨tag, t5, _, h5⟩ := runs_rollOver ho
    rcases h5 with ⟨rfl, rfl, _⟩ | ⟨rfl, _⟩
    · exact absurd rfl (hnf ⟨.rename rw.name (backupName c.mode c.fileName tag), false⟩ (by simp) (by simp [ForArchive]))
    · rfl

/-- When no call fails, a write succeeds unless the writer has lost its file. -/
theorem write_ok {rw rw' : RW} {bs : Bytes} {d d' : Disk} {tr : STrace} {res : Nat × Bool} (hdead : rw.file ≠ some .dead)
    (hroll : ∀ t1 rw1, t1 <+: tr → Runs umask (c.needsToRoll lib rw) d t1 (true, rw1) d → rw.file = some .opened)
    (h : Runs umask (c.write lib rw bs) d tr (res, rw') d') (hnf : LogCallsOk tr) : res.2 = true := by
  obtain ⟨t1, b, rw1, d1, t2, rw2, d2, k1, k2⟩ := runs_write h
  obtain ⟨rfl, _⟩ := runs_needsToRoll k1
  have hprop := Prog.Does.runs (does_needsToRoll lib c rw) k1
  rcases k2 with ⟨rfl, hr, rfl, _⟩ | ⟨hr, t3, ha, rfl⟩
  · obtain ⟨_, n2⟩ := logCallsOk_append.mp hnf
    have := roll_ok (by rw [hprop.1]; exact hroll t1 rw1 (List.prefix_append _ _) k1) hr n2
    cases this.1
  · obtain ⟨n1, n3⟩ := logCallsOk_append.mp hnf
    obtain ⟨_, n2⟩ := logCallsOk_append.mp n1
    rcases hr with ⟨rfl, hr⟩ | ⟨_, rfl, rfl, rfl⟩
    · have := roll_ok (by rw [hprop.1]; exact hroll t1 rw1 (by rw [List.append_assoc]; exact List.prefix_append _ _) k1) hr n2
      exact append_ok (by rw [this.2]; simp) ha n3
    · exact append_ok (by rw [hprop.1]; exact hdead) ha n3

/-- A write that finds that it has to roll, and succeeds, has rolled. -/
theorem write_must_roll {max : Int} (hkind : c.kind = .size max) {rw rw' : RW} {bs : Bytes} {d d' : Disk} {tr : STrace} {res : Nat × Bool}
    (h : Runs umask (c.write lib rw bs) d tr (res, rw') d') : (rw.size < max → rolls tr = 0) ∧ (max ≤ rw.size → res.2 = true → 0 < rolls tr) := by
  obtain ⟨t1, b, rw1, d1, t2, rw2, d2, k1, k2⟩ := runs_write h
  obtain ⟨_, k3⟩ := runs_needsToRoll k1
  rcases k3 with ⟨max', hk', rfl, rfl, rfl⟩ | ⟨_, _, hk', _⟩
  · rw [hkind] at hk'; cases hk'
    refine ⟨fun hlt => ?_, fun hge hres => ?_⟩
    · rcases k2 with ⟨hb, _⟩ | ⟨hr, t3, ha, rfl⟩
      · simp at hb; omega
      · rcases hr with ⟨hb, _⟩ | ⟨_, rfl, _, _⟩
        · simp at hb; omega
        · simpa using rolls_zero fun x hx a b => append_norename ha x hx a b
    · rcases k2 with ⟨_, _, _, rfl, _⟩ | ⟨hr, t3, ha, rfl⟩
      · cases hres
      · rcases hr with ⟨_, hr⟩ | ⟨hb, _⟩
        · rcases runs_roll hr with ⟨h3, _⟩ | ⟨_, _, _, _, rfl, ho⟩
          · cases h3
          · obtain ⟨_, _, _, h5⟩ := runs_rollOver ho
            rcases h5 with ⟨h5, _⟩ | ⟨_, _, _, _, _, _, _, rfl, _⟩
            · cases h5
            · simp [rolls_append, rolls]; omega
        · simp at hb; omega
  · rw [hkind] at hk'; cases hk'

theorem session_knows {d0 d : Disk} {ms : List Bytes} {tr : STrace} {rw : RW} (h : Session umask lib c d0 ms tr d rw) : Knows c rw d := by
  induction h with
  | start => intro h; cases h
  | write _ hr ih => exact (write_dir ih hr).1

theorem life_knows {d0 d : Disk} {tr : STrace} {rw : RW} (h : Life umask lib c d0 tr d rw) : Knows c rw d := by
  induction h with
  | start => intro h; cases h
  | write _ hr ih => exact (write_dir ih hr).1
  | crash _ _ _ => intro h; cases h
  | restart _ _ => intro h; cases h

end Log4g
