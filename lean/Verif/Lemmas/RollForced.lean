import Verif.Spec.RollForced
import Verif.Lemmas.RollDates
import Verif.Lemmas.RollFaults

/-! # An operating system that does what it can -/

namespace Log4g
open Spec Strconv
open scoped List

variable {lib : RLib} {c : RCfg} {umask : Nat}

theorem properName_iff {n : Str} : properName n = true ↔ ¬ NoName n := by
  unfold properName NoName
  simp only [Bool.and_eq_true, decide_eq_true_eq, Bool.not_eq_true', List.contains_eq_mem, decide_eq_false_iff_not, not_or]
  constructor
  · rintro ⟨⟨⟨⟨a, b⟩, c⟩, d⟩, e⟩; exact ⟨a, b, c, d, e⟩
  · rintro ⟨a, b, c, d, e⟩; exact ⟨⟨⟨⟨a, b⟩, c⟩, d⟩, e⟩

theorem leads_append {d d1 d2 : Disk} {a b : STrace} (h : Leads umask d a d1) (h2 : Leads umask d1 b d2) : Leads umask d (a ++ b) d2 := by
  induction h with
  | nil => exact h2
  | cons hs _ ih => exact .cons hs (ih h2)

theorem leads_runs {α : Type} {p : Prog α} {d d' : Disk} {tr : STrace} {x : α} (h : Runs umask p d tr x d') : Leads umask d tr d' := by
  induction h with
  | ret => exact .nil
  | call hs _ ih => exact .cons hs ih

theorem leads_stops {α : Type} {p : Prog α} {d d' : Disk} {tr : STrace} (h : Stops umask p d tr d') : Leads umask d tr d' := by
  induction h with
  | here => exact .nil
  | call hs _ ih => exact .cons hs ih

theorem leads_life {d0 d : Disk} {tr : STrace} {rw : RW} (h : Life umask lib c d0 tr d rw) : Leads umask d0 tr d := by
  induction h with
  | start => exact .nil
  | write _ hr ih => exact leads_append ih (leads_runs hr)
  | crash _ hr ih => exact leads_append ih (leads_stops hr)
  | restart _ ih => exact ih

theorem forced_left {d : Disk} {a b : STrace} (h : OnlyForced umask d (a ++ b)) : OnlyForced umask d a := by
  intro x o r y e ha hrm hf
  exact h x o r (y ++ b) (by rw [e]; simp) ha hrm hf

theorem forced_right {d d1 : Disk} {a b : STrace} (h : OnlyForced umask d (a ++ b)) (hl : Leads umask d a d1) : OnlyForced umask d1 b := by
  intro x o r y e ha hrm hf d2 h2
  exact h (a ++ x) o r y (by rw [e]; simp) ha hrm hf d2 (leads_append hl h2)

theorem forced_head {d : Disk} {o : Sys} {r : o.Resp} {tr : STrace} (h : OnlyForced umask d (⟨o, r⟩ :: tr)) (ha : ¬ ForArchive o) (hrm : ∀ n, o ≠ .remove n)
    {r' : o.Resp} {d2 : Disk} (hs : SysStep umask d o r' d2) (hok : ¬ Failed ⟨o, r'⟩) : ¬ Failed ⟨o, r⟩ :=
  fun hf => hok (h [] o r tr rfl ha hrm hf d .nil r' d2 hs)

theorem forced_tail {d d1 : Disk} {o : Sys} {r : o.Resp} {tr : STrace} (h : OnlyForced umask d (⟨o, r⟩ :: tr)) (hs : SysStep umask d o r d1) : OnlyForced umask d1 tr :=
  forced_right (a := [⟨o, r⟩]) h (.cons hs .nil)

/-! ## What no call changes -/

theorem put_isdir {d : Disk} {n m : Str} {x : Option Node} (h0 : d.dir n ≠ some .dir) (hx : x ≠ some .dir) : (d.put n x).dir m = some .dir ↔ d.dir m = some .dir := by
  rw [put_dir]
  split
  · rename_i h; subst h; exact ⟨fun h => absurd h hx, fun h => absurd h h0⟩
  · exact .rfl

/-- Directories stay, and none appears. -/
theorem step_dirs {d d' : Disk} {o : Sys} {r : o.Resp} (h : SysStep umask d o r d') (m : Str) : d'.dir m = some .dir ↔ d.dir m = some .dir := by
  cases o with
  | mkdirAll _ => simp only [SysStep] at h; subst h; rfl
  | close _ => simp only [SysStep] at h; subst h; rfl
  | now => simp only [SysStep] at h; subst h; rfl
  | tmpClose => simp only [SysStep] at h; subst h; rfl
  | stat n => rw [h.1]
  | readdir => rw [h.1]
  | archRead => rw [h.1]
  | rollRead n => rw [h.1]
  | tmpCreate => simp only [SysStep] at h; split at h <;> (subst h; rfl)
  | tmpRemove => simp only [SysStep] at h; split at h <;> (subst h; rfl)
  | tmpEntry n b =>
    simp only [SysStep] at h
    split at h
    · obtain ⟨es, _, rfl⟩ := h; rfl
    · subst h; rfl
  | tmpRename n =>
    simp only [SysStep] at h
    split at h
    · obtain ⟨es, _, _, rfl⟩ := h; rfl
    · subst h; rfl
  | openAppend n p =>
    simp only [SysStep] at h
    split at h
    · split at h
      · rename_i hn; rw [h.2]; exact put_isdir (by rw [hn]; simp) (by simp)
      · subst h; rfl
      · exact h.elim
    · subst h; rfl
  | write n bs =>
    obtain ⟨data, p, hn, _, _, rfl⟩ := h
    exact put_isdir (by rw [hn]; simp) (by simp)
  | rename a b =>
    simp only [SysStep] at h
    split at h
    · obtain ⟨data, p, ha, ⟨hb, _⟩, hne, rfl⟩ := h
      rw [put_isdir (by rw [put_dir]; split <;> simp_all) (by simp)]
      exact put_isdir (by rw [ha]; simp) (by simp)
    · subst h; rfl
  | chmod n p =>
    simp only [SysStep] at h
    split at h
    · obtain ⟨data, q, hn, rfl⟩ := h
      exact put_isdir (by rw [hn]; simp) (by simp)
    · subst h; rfl
  | remove n =>
    simp only [SysStep] at h
    split at h
    · rcases h with ⟨_, rfl⟩ | ⟨data, q, hn, rfl⟩
      · rfl
      · exact put_isdir (by rw [hn]; simp) (by simp)
    · subst h; rfl

/-- What has no proper name is not made. -/
theorem step_improper {d d' : Disk} {o : Sys} {r : o.Resp} (h : SysStep umask d o r d') {m : Str} (hm : properName m = false) (h0 : d.dir m = none) : d'.dir m = none := by
  have hput : ∀ (d : Disk) (n : Str) (x : Option Node), d.dir m = none → (n = m → x = none) → (d.put n x).dir m = none := by
    intro d n x h1 h2
    rw [put_dir]
    split
    · rename_i e; exact h2 e.symm
    · exact h1
  cases o with
  | mkdirAll _ => simp only [SysStep] at h; subst h; exact h0
  | close _ => simp only [SysStep] at h; subst h; exact h0
  | now => simp only [SysStep] at h; subst h; exact h0
  | tmpClose => simp only [SysStep] at h; subst h; exact h0
  | stat n => rw [h.1]; exact h0
  | readdir => rw [h.1]; exact h0
  | archRead => rw [h.1]; exact h0
  | rollRead n => rw [h.1]; exact h0
  | tmpCreate => simp only [SysStep] at h; split at h <;> (subst h; exact h0)
  | tmpRemove => simp only [SysStep] at h; split at h <;> (subst h; exact h0)
  | tmpEntry n b =>
    simp only [SysStep] at h
    split at h
    · obtain ⟨es, _, rfl⟩ := h; exact h0
    · subst h; exact h0
  | tmpRename n =>
    simp only [SysStep] at h
    split at h
    · obtain ⟨es, _, _, rfl⟩ := h; exact h0
    · subst h; exact h0
  | openAppend n p =>
    simp only [SysStep] at h
    split at h
    · split at h
      · rw [h.2]; exact hput _ _ _ h0 fun e => by rw [e, hm] at h; cases h.1
      · subst h; exact h0
      · exact h.elim
    · subst h; exact h0
  | write n bs =>
    obtain ⟨data, p, hn, _, _, rfl⟩ := h
    exact hput _ _ _ h0 fun e => by rw [e, h0] at hn; cases hn
  | rename a b =>
    simp only [SysStep] at h
    split at h
    · obtain ⟨data, p, ha, ⟨hb, hp⟩, hne, rfl⟩ := h
      exact hput _ _ _ (hput _ _ _ h0 fun _ => rfl) fun e => by rw [e, hm] at hp; cases hp
    · subst h; exact h0
  | chmod n p =>
    simp only [SysStep] at h
    split at h
    · obtain ⟨data, q, hn, rfl⟩ := h
      exact hput _ _ _ h0 fun e => by rw [e, h0] at hn; cases hn
    · subst h; exact h0
  | remove n =>
    simp only [SysStep] at h
    split at h
    · rcases h with ⟨_, rfl⟩ | ⟨data, q, hn, rfl⟩
      · exact h0
      · exact hput _ _ _ h0 fun _ => rfl
    · subst h; exact h0

theorem few_put {d : Disk} {n : Str} {x : Option Node} (h : FewEntries d) : FewEntries (d.put n x) := by
  obtain ⟨ns, h⟩ := h
  refine ⟨n :: ns, fun m hm => ?_⟩
  rw [put_dir] at hm
  split at hm
  · rename_i e; rw [e]; exact List.mem_cons_self ..
  · exact List.mem_cons_of_mem _ (h m hm)

theorem step_few {d d' : Disk} {o : Sys} {r : o.Resp} (h : SysStep umask d o r d') (h0 : FewEntries d) : FewEntries d' := by
  cases o with
  | mkdirAll _ => simp only [SysStep] at h; subst h; exact h0
  | close _ => simp only [SysStep] at h; subst h; exact h0
  | now => simp only [SysStep] at h; subst h; exact h0
  | tmpClose => simp only [SysStep] at h; subst h; exact h0
  | stat n => rw [h.1]; exact h0
  | readdir => rw [h.1]; exact h0
  | archRead => rw [h.1]; exact h0
  | rollRead n => rw [h.1]; exact h0
  | tmpCreate => simp only [SysStep] at h; split at h <;> (subst h; exact h0)
  | tmpRemove => simp only [SysStep] at h; split at h <;> (subst h; exact h0)
  | tmpEntry n b =>
    simp only [SysStep] at h
    split at h
    · obtain ⟨es, _, rfl⟩ := h; exact h0
    · subst h; exact h0
  | tmpRename n =>
    simp only [SysStep] at h
    split at h
    · obtain ⟨es, _, _, rfl⟩ := h; exact h0
    · subst h; exact h0
  | openAppend n p =>
    simp only [SysStep] at h
    split at h
    · split at h
      · rw [h.2]; exact few_put h0
      · subst h; exact h0
      · exact h.elim
    · subst h; exact h0
  | write n bs =>
    obtain ⟨data, p, hn, _, _, rfl⟩ := h
    exact few_put h0
  | rename a b =>
    simp only [SysStep] at h
    split at h
    · obtain ⟨data, p, ha, ⟨hb, hp⟩, hne, rfl⟩ := h
      exact few_put (few_put h0)
    · subst h; exact h0
  | chmod n p =>
    simp only [SysStep] at h
    split at h
    · obtain ⟨data, q, hn, rfl⟩ := h
      exact few_put h0
    · subst h; exact h0
  | remove n =>
    simp only [SysStep] at h
    split at h
    · rcases h with ⟨_, rfl⟩ | ⟨data, q, hn, rfl⟩
      · exact h0
      · exact few_put h0
    · subst h; exact h0

theorem leads_dirs {d d' : Disk} {tr : STrace} (h : Leads umask d tr d') (m : Str) : d'.dir m = some .dir ↔ d.dir m = some .dir := by
  induction h with
  | nil => rfl
  | cons hs _ ih => rw [ih, step_dirs hs]

theorem leads_improper {d d' : Disk} {tr : STrace} (h : Leads umask d tr d') {m : Str} (hm : properName m = false) (h0 : d.dir m = none) : d'.dir m = none := by
  induction h with
  | nil => exact h0
  | cons hs _ ih => exact ih (step_improper hs hm h0)

theorem leads_few {d d' : Disk} {tr : STrace} (h : Leads umask d tr d') (h0 : FewEntries d) : FewEntries d' := by
  induction h with
  | nil => exact h0
  | cons hs _ ih => exact ih (step_few hs h0)

/-- A directory with so many entries can be read. -/
theorem few_listing {d : Disk} (h : FewEntries d) : ∃ names : List Str, names.Nodup ∧ ∀ n, n ∈ names ↔ ∃ data perm, d.dir n = some (.file data perm) := by
  obtain ⟨ns, h⟩ := h
  have key : ∀ ns : List Str, ∃ names : List Str, names.Nodup ∧ ∀ n, n ∈ names ↔ n ∈ ns ∧ ∃ data perm, d.dir n = some (.file data perm) := by
    intro ns
    induction ns with
    | nil => exact ⟨[], List.nodup_nil, by simp⟩
    | cons m ns ih =>
      obtain ⟨names, h1, h2⟩ := ih
      by_cases hm : m ∉ names ∧ ∃ data perm, d.dir m = some (.file data perm)
      · refine ⟨m :: names, List.nodup_cons.mpr ⟨hm.1, h1⟩, fun n => ?_⟩
        rw [List.mem_cons, List.mem_cons, h2]
        constructor
        · rintro (rfl | ⟨a, b⟩)
          · exact ⟨.inl rfl, hm.2⟩
          · exact ⟨.inr a, b⟩
        · rintro ⟨rfl | a, b⟩
          · exact .inl rfl
          · exact .inr ⟨a, b⟩
      · refine ⟨names, h1, fun n => ?_⟩
        rw [h2, List.mem_cons]
        constructor
        · rintro ⟨a, b⟩; exact ⟨.inr a, b⟩
        · rintro ⟨rfl | a, b⟩
          · by_cases hn : n ∈ names
            · exact (h2 n).mp hn
            · exact absurd ⟨hn, b⟩ hm
          · exact ⟨a, b⟩
  obtain ⟨names, h1, h2⟩ := key ns
  refine ⟨names, h1, fun n => ?_⟩
  rw [h2]
  exact ⟨fun h => h.2, fun ⟨a, b, e⟩ => ⟨h n (by rw [e]; simp), a, b, e⟩⟩

/-! ## What succeeds if it can -/

theorem put_forced {rw rw' : RW} {bs : Bytes} {d d' : Disk} {tr : STrace} {res : Nat × Bool} (hf : rw.file = some .opened) (hk : Knows c rw d)
    (h : Runs umask (RCfg.put rw bs) d tr (res, rw') d') (hfo : OnlyForced umask d tr) : res.2 = true := by
  rcases runs_put h with ⟨_, rfl, _⟩ | ⟨hn, _⟩
  · obtain ⟨hname, data, p, he, _⟩ := hk hf
    have := forced_head hfo (by simp [ForArchive]) (by simp) (r' := (bs.length, true)) (d2 := d.put rw.name (some (.file (data ++ bs.take bs.length) p)))
      ⟨data, p, by rw [hname]; exact he, Nat.le_refl _, fun _ => rfl, rfl⟩ (by simp [Failed])
    simpa [Failed] using this
  · exact absurd hf hn

theorem createFile_forced {rw rw' : RW} {d d' : Disk} {tr : STrace} {ok : Bool} (h : Runs umask (c.createFile rw) d tr (ok, rw') d')
    (hp : properName c.fileName = true) (hd : d.dir c.fileName ≠ some .dir) (hfo : OnlyForced umask d tr) : ok = true := by
  rw [RCfg.createFile] at h
  cases h with
  | @call _ _ _ r d1 tr _ _ hs h =>
    cases r with
    | false => exact absurd rfl (forced_head hfo (by simp [ForArchive]) (by simp) (r' := true) (d2 := d) rfl (by simp [Failed]))
    | true =>
      have hfo1 := forced_tail hfo hs
      simp only [SysStep] at hs
      subst hs
      cases h with
      | @call _ _ _ r d2 tr _ _ hs h =>
        cases r with
        | false =>
          refine absurd rfl (forced_head hfo1 (by simp [ForArchive]) (by simp) (r' := true) (d2 := match d1.dir c.fileName with
            | none => d1.put c.fileName (some (.file [] (c.filePerm &&& (0o777 ^^^ (umask &&& 0o777)))))
            | some _ => d1) ?_ (by simp [Failed]))
          simp only [SysStep, if_true]
          cases hx : d1.dir c.fileName with
          | none => exact ⟨hp, rfl⟩
          | some x =>
            cases x with
            | file _ _ => rfl
            | dir => exact absurd hx hd
        | true =>
          have hfo2 := forced_tail hfo1 hs
          have hreg : ∃ data p, d2.dir c.fileName = some (.file data p) := by
            simp only [SysStep, if_true] at hs
            split at hs
            · rw [hs.2]; exact ⟨_, _, by rw [put_dir, if_pos rfl]⟩
            · rename_i data p hx; rw [hs]; exact ⟨_, _, hx⟩
            · exact hs.elim
          obtain ⟨data, p, hreg⟩ := hreg
          cases h with
          | @call _ _ _ r d3 tr _ _ hs h =>
            cases r with
            | none => exact absurd rfl (forced_head hfo2 (by simp [ForArchive]) (by simp) (r' := some data.length) (d2 := d2) ⟨rfl, data, p, hreg, rfl⟩ (by simp [Failed]))
            | some n => cases h; rfl

theorem append_forced {rw rw' : RW} {bs : Bytes} {d d' : Disk} {tr : STrace} {res : Nat × Bool} (hdead : rw.file ≠ some .dead) (hk : Knows c rw d)
    (hp : properName c.fileName = true) (hd : d.dir c.fileName ≠ some .dir)
    (h : Runs umask (c.append rw bs) d tr (res, rw') d') (hfo : OnlyForced umask d tr) : res.2 = true := by
  rcases runs_append h with ⟨hf, hc, _⟩ | ⟨t1, rw1, d1, t2, hc, hput, rfl⟩
  · cases createFile_forced hc hp hd hfo
  · rcases hc with ⟨hf, hc⟩ | ⟨hf, rfl, rfl, rfl⟩
    · have := (create_cases hf hc).2.2.2 rfl
      exact put_forced this.1 this.2 hput (forced_right hfo (leads_runs hc))
    · refine put_forced ?_ hk hput hfo
      cases hx : rw1.file with
      | none => exact absurd hx hf
      | some x =>
        cases x with
        | opened => rfl
        | dead => exact absurd hx hdead

theorem roll_forced {rw rw' : RW} {d d' : Disk} {tr : STrace} {ok : Bool} (hf : rw.file = some .opened) (hk : Knows c rw d) (hfew : FewEntries d)
    (htag : ∀ tag, TagOf c rw tag → properName (backupName c.mode c.fileName tag) = true ∧ d.dir (backupName c.mode c.fileName tag) ≠ some .dir)
    (h : Runs umask (c.roll lib rw) d tr (ok, rw') d') (hfo : OnlyForced umask d tr) : ok = true ∧ rw'.file = none := by
  have hd0 : SysStep umask d (.close rw.name) true d := rfl
  obtain ⟨hname, data, p, he, _⟩ := hk hf
  rcases runs_roll h with ⟨_, _, h3⟩ | ⟨_, names, t4, hrd, rfl, ho⟩
  · rcases h3 with ⟨h3, _⟩ | ⟨_, rfl, _⟩ | ⟨_, rfl, _⟩
    · exact absurd hf h3
    · exact absurd rfl (forced_head hfo (by simp [ForArchive]) (by simp) (r' := true) (d2 := d) rfl (by simp [Failed]))
    · obtain ⟨names, h1, h2⟩ := few_listing hfew
      exact absurd rfl (forced_head (forced_tail hfo hd0) (by simp [ForArchive]) (by simp) (r' := some names) (d2 := d) ⟨rfl, h1, h2⟩ (by simp [Failed]))
  · have hfile := Prog.Does.runs (does_rollOver (own := fun _ => True) (lib := lib) (c := c) (rw := { rw with file := none }) rfl trivial (fun _ _ => trivial) fun _ _ => trivial) ho
    refine ⟨?_, hfile.1⟩
    have hfo2 := forced_right hfo (Leads.cons hd0 (Leads.cons hrd .nil))
    obtain ⟨tag, t5, ht5, h5⟩ := runs_rollOver ho
    rcases h5 with ⟨rfl, rfl, _⟩ | ⟨rfl, _⟩
    · have ht : TagOf c rw tag ∧ Leads umask d t5 d := by
        unfold TagOf
        rcases ht5 with ⟨max, hkd, rfl, _, rfl⟩ | ⟨pat, t, hkd, rfl, _, rfl⟩
        · rw [hkd]; exact ⟨⟨_, rfl⟩, .nil⟩
        · rw [hkd]; exact ⟨rfl, .cons (show SysStep umask d .now t d from rfl) .nil⟩
      obtain ⟨hpr, hnd⟩ := htag tag ht.1
      have := forced_head (forced_right hfo2 ht.2) (by simp [ForArchive]) (by simp) (r' := true)
        (d2 := (d.put rw.name none).put (backupName c.mode c.fileName tag) (some (.file data p))) (by
          simp only [SysStep, if_true]
          exact ⟨data, p, by rw [hname]; exact he, ⟨hnd, hpr⟩, by rw [hname]; exact fun e => backupName_ne _ _ _ e.symm, rfl⟩) (by simp [Failed])
      exact absurd rfl this
    · rfl

/-- A write succeeds if nothing is refused that could be done. -/
theorem write_forced {rw rw' : RW} {bs : Bytes} {d d' : Disk} {tr : STrace} {res : Nat × Bool} (hdead : rw.file ≠ some .dead) (hk : Knows c rw d) (hfew : FewEntries d)
    (hp : properName c.fileName = true) (hd : d.dir c.fileName ≠ some .dir)
    (hroll : ∀ t1 rw1, Runs umask (c.needsToRoll lib rw) d t1 (true, rw1) d → rw.file = some .opened ∧
      ∀ tag, TagOf c rw tag → properName (backupName c.mode c.fileName tag) = true ∧ d.dir (backupName c.mode c.fileName tag) ≠ some .dir)
    (h : Runs umask (c.write lib rw bs) d tr (res, rw') d') (hfo : OnlyForced umask d tr) : res.2 = true := by
  obtain ⟨t1, b, rw1, d1, t2, rw2, d2, k1, k2⟩ := runs_write h
  obtain ⟨rfl, _⟩ := runs_needsToRoll k1
  have hprop := Prog.Does.runs (does_needsToRoll lib c rw) k1
  have hk1 : Knows c rw1 d1 := by
    intro hf
    rw [hprop.1] at hf
    obtain ⟨a, b⟩ := hk hf
    exact ⟨by rw [hprop.2.1, a], by rw [hprop.2.2.1]; exact b⟩
  have hr1 : b = true → ∀ tag, TagOf c rw1 tag → TagOf c rw tag := by
    rintro rfl tag ht
    have ht' : rw1.timeName = rw.timeName := by
      rcases hprop.2.2.2 with h4 | ⟨h4, _⟩
      · exact h4
      · cases h4
    unfold TagOf at ht ⊢
    cases hkind : c.kind with
    | size max => rw [hkind] at ht; exact ht
    | time pat => rw [hkind] at ht; simp only at ht ⊢; rw [ht, ht']
  rcases k2 with ⟨rfl, hr, rfl, _⟩ | ⟨hr, t3, ha, rfl⟩
  · have := roll_forced (by rw [hprop.1]; exact (hroll _ _ k1).1) hk1 hfew (fun tag ht => (hroll _ _ k1).2 tag (hr1 rfl tag ht)) hr (forced_right hfo (leads_runs k1))
    cases this.1
  · have hfo' := hfo
    rw [List.append_assoc] at hfo'
    rcases hr with ⟨rfl, hr⟩ | ⟨_, rfl, rfl, rfl⟩
    · have hfo2 := forced_right hfo' (leads_runs k1)
      have := roll_forced (by rw [hprop.1]; exact (hroll _ _ k1).1) hk1 hfew (fun tag ht => (hroll _ _ k1).2 tag (hr1 rfl tag ht)) hr (forced_left hfo2)
      refine append_forced (by rw [this.2]; simp) (fun hx => by rw [this.2] at hx; cases hx) hp ?_ ha (forced_right hfo2 (leads_runs hr))
      rw [ne_eq, leads_dirs (leads_runs hr)]
      exact hd
    · exact append_forced (by rw [hprop.1]; exact hdead) hk1 hp hd ha (forced_right hfo' (leads_runs k1))

/-! ## Names, and lives -/

/-- The names of backups are proper if that of the file is. -/
theorem backup_proper {m : NameMode} {file tag : Str} (hf : ¬ NoName file) (h1 : '/' ∉ tag) (h2 : '\x00' ∉ tag) : properName (backupName m file tag) = true := by
  rw [properName_iff]
  unfold NoName at hf ⊢
  simp only [not_or] at hf ⊢
  obtain ⟨a, b, _, e, f⟩ := hf
  have hlen : 0 < file.length := List.length_pos_iff.mpr a
  have key : ∀ s : Str, s.length ≤ 2 → (∀ x ∈ s, x = '.') → backupName m file tag ≠ s := by
    intro s hl hs he
    have hin : ∀ x ∈ file, x = '.' := fun x hx => hs x (by rw [← he]; cases m <;> simp [backupName, hx])
    have hlen2 : file.length + 1 + tag.length ≤ 2 := by
      have := congrArg List.length he
      cases m <;> simp [backupName] at this <;> omega
    have h1 : file.length = 1 := by omega
    obtain ⟨x, rfl⟩ := List.length_eq_one_iff.mp h1
    exact b (by rw [hin x (by simp)])
  refine ⟨key _ (by simp) (by simp), key _ (by simp) (by simp), key _ (by simp) (by simp), ?_, ?_⟩
  · cases m <;> simp [backupName, e, h1]
  · cases m <;> simp [backupName, f, h2]

theorem digitChar_neither (n : Nat) (h : n < 10) : digitChar n ≠ '/' ∧ digitChar n ≠ '\x00' := by
  have : ∀ n : Fin 10, digitChar n.val ≠ '/' ∧ digitChar n.val ≠ '\x00' := by decide
  exact this ⟨n, h⟩

theorem natDigits_neither (n : Nat) : '/' ∉ natDigits n ∧ '\x00' ∉ natDigits n := by
  rw [natDigits]
  split
  · rename_i h
    have := digitChar_neither n h
    simp [this.1.symm, this.2.symm]
  · have h1 := digitChar_neither (n % 10) (Nat.mod_lt _ (by decide))
    have h2 := natDigits_neither (n / 10)
    simp [h1.1.symm, h1.2.symm, h2]

theorem itoa_neither (v : Int) : '/' ∉ itoa v ∧ '\x00' ∉ itoa v := by
  unfold itoa
  split
  · simp [natDigits_neither]
  · exact natDigits_neither _

/-- Between writes a writer has its file open, or is as new. -/
def Fine (lib : RLib) (c : RCfg) (rw : RW) : Prop :=
  (rw.file = some .opened ∨ rw.file = none ∧ rw.size = 0 ∧ rw.timeName = []) ∧
    ∀ pat, c.kind = .time pat → rw.timeName = [] ∨ ∃ t, rw.timeName = lib.format t pat

/-- What the writer needs of the names and of the directory it finds. -/
structure RoomFor (lib : RLib) (c : RCfg) (d0 : Disk) : Prop where
  limit : ∀ max, c.kind = .size max → 0 < max
  name : ¬ NoName c.fileName
  few : FewEntries d0
  file : d0.dir c.fileName ≠ some .dir
  numbers : ∀ max, c.kind = .size max → ∀ n, LikeBackup c n → d0.dir n ≠ some .dir
  stamps : ∀ pat, c.kind = .time pat → ∀ t, '/' ∉ lib.format t pat ∧ '\x00' ∉ lib.format t pat ∧ d0.dir (backupName c.mode c.fileName (lib.format t pat)) ≠ some .dir

theorem write_timeName {pat : Str} (hkind : c.kind = .time pat) {rw rw' : RW} {bs : Bytes} {d d' : Disk} {tr : STrace} {res : Nat × Bool}
    (h : Runs umask (c.write lib rw bs) d tr (res, rw') d') (ht : rw.timeName = [] ∨ ∃ t, rw.timeName = lib.format t pat) : rw'.timeName = [] ∨ ∃ t, rw'.timeName = lib.format t pat := by
  rcases (time_leaves hkind h).2 with ⟨e, _⟩ | ⟨t, _, e⟩
  · rw [e]; exact ht
  · exact .inr ⟨t, e⟩

theorem fine_write {d0 d d' : Disk} {tr0 tr : STrace} {rw rw' : RW} {m : Bytes} {res : Nat × Bool} (hroom : RoomFor lib c d0) (hl : Leads umask d0 tr0 d)
    (hfine : Fine lib c rw) (hk : Knows c rw d) (h : Runs umask (c.write lib rw m) d tr (res, rw') d') (hfo : OnlyForced umask d tr) :
    res = (m.length, true) ∧ Fine lib c rw' := by
  have hok : res.2 = true := by
    refine write_forced ?_ hk (leads_few hl hroom.few) (properName_iff.mpr hroom.name) (by rw [ne_eq, leads_dirs hl]; exact hroom.file) (fun t1 rw1 hn => ?_) h hfo
    · rcases hfine.1 with h | ⟨h, _⟩ <;> rw [h] <;> simp
    · obtain ⟨_, k3⟩ := runs_needsToRoll hn
      rcases k3 with ⟨max, hkd, _, _, hb⟩ | ⟨pat, t, hkd, _, k3⟩
      · have hb : max ≤ rw.size := by simpa using hb.symm
        refine ⟨?_, fun tag ht => ?_⟩
        · rcases hfine.1 with h | ⟨_, h, _⟩
          · exact h
          · have := hroom.limit max hkd; omega
        · rw [TagOf, hkd] at ht
          obtain ⟨v, rfl⟩ := ht
          refine ⟨backup_proper hroom.name (itoa_neither _).1 (itoa_neither _).2, ?_⟩
          rw [ne_eq, leads_dirs hl]
          refine hroom.numbers max hkd _ ⟨_, rfl, ?_⟩
          rw [hkd]
          exact decimal_tag_range v
      · rcases k3 with ⟨_, h, _⟩ | ⟨hne, _, _⟩
        · cases h
        · refine ⟨?_, fun tag ht => ?_⟩
          · rcases hfine.1 with h | ⟨_, _, h⟩
            · exact h
            · exact absurd h hne
          · rw [TagOf, hkd] at ht
            subst ht
            rcases hfine.2 pat hkd with h | ⟨t, ht⟩
            · exact absurd h hne
            · obtain ⟨a, b, e⟩ := hroom.stamps pat hkd t
              rw [ht]
              refine ⟨backup_proper hroom.name a b, ?_⟩
              rw [ne_eq, leads_dirs hl]
              exact e
  obtain ⟨n, ok⟩ := res
  cases hok
  obtain ⟨_, h2, _⟩ := write_dir hk h
  obtain ⟨hop, hlen⟩ := h2 rfl
  simp only at hlen
  rw [hlen]
  exact ⟨rfl, .inl hop, fun pat hkd => write_timeName hkd h (hfine.2 pat hkd)⟩

/-! ## Backups that cannot be made -/

/-- The tags the writer may choose for the next backup. -/
def NextTag (lib : RLib) (c : RCfg) (rw : RW) (names : List Str) (tag : Str) : Prop :=
  match c.kind with
  | .size _ => tag = itoa (wrap64 ((match (c.historyOf lib names).getLast? with
    | some latest => (atoi (c.getFileRollName latest)).1
    | none => 0) + 1))
  | .time _ => tag = rw.timeName

/-- No backup can be made now. -/
def Stuck (umask : Nat) (lib : RLib) (c : RCfg) (rw : RW) (d : Disk) : Prop :=
  ∀ names tag, SysStep umask d .readdir (some names) d → NextTag lib c rw names tag →
    d.dir (backupName c.mode c.fileName tag) = some .dir ∨ properName (backupName c.mode c.fileName tag) = false

theorem stuck_rollOver {rw rw' : RW} {names : List Str} {d d' : Disk} {tr : STrace} {ok : Bool} (hrd : SysStep umask d .readdir (some names) d)
    (hst : ∀ tag, NextTag lib c rw names tag → d.dir (backupName c.mode c.fileName tag) = some .dir ∨ properName (backupName c.mode c.fileName tag) = false)
    (h : Runs umask (c.rollOver lib rw (c.historyOf lib names)) d tr (ok, rw') d') : ok = false ∧ d' = d := by
  obtain ⟨tag, t1, h1, h2⟩ := runs_rollOver h
  have ht : NextTag lib c rw names tag := by
    unfold NextTag
    rcases h1 with ⟨max, hk, _, _, e⟩ | ⟨pat, t, hk, _, _, e⟩
    · rw [hk]; exact e
    · rw [hk]; exact e
  rcases h2 with ⟨rfl, _, rfl⟩ | ⟨_, d1, r, d2, t2, hs, _⟩
  · exact ⟨rfl, rfl⟩
  · simp only [SysStep, if_true] at hs
    obtain ⟨_, _, _, ⟨hd, hp⟩, _⟩ := hs
    rcases hst tag ht with h | h
    · exact absurd h hd
    · rw [h] at hp; cases hp

/-- It is time to roll. -/
def MustRoll (lib : RLib) (c : RCfg) (rw : RW) (tr : STrace) : Prop :=
  (∃ max, c.kind = .size max ∧ max ≤ rw.size) ∨
  (∃ pat t, c.kind = .time pat ∧ rw.timeName ≠ [] ∧ (clocks tr).head? = some t ∧ lib.format t pat ≠ rw.timeName)

/-- Then a write makes none, and fails if it should. -/
theorem stuck_write {rw rw' : RW} {bs : Bytes} {d d' : Disk} {tr : STrace} {res : Nat × Bool} (hk : Knows c rw d) (hst : Stuck umask lib c rw d)
    (h : Runs umask (c.write lib rw bs) d tr (res, rw') d') :
    ((∀ x ∈ tr, ∀ a b, x.1 = .rename a b → x.2 ≍ false) ∧ ∀ n, n ≠ c.fileName → d'.dir n = d.dir n) ∧
    (MustRoll lib c rw tr → res = (0, false) ∧ d' = d ∧ rw'.file ≠ some .opened ∧ rw'.size = rw.size) := by
  constructor
  · rcases write_cases (knows_name hk) h with h1 | ⟨t0, rw1, names, t1, rw2, d2, t2, hneed, hf, hname, hrd, ho, hf2, ha, htr⟩
    · exact h1
    · have hprop := Prog.Does.runs (does_needsToRoll lib c rw) hneed
      have ht : rw1.timeName = rw.timeName := by
        rcases hprop.2.2.2 with h4 | ⟨h4, _⟩
        · exact h4
        · cases h4
      have := stuck_rollOver hrd (fun tag htag => hst names tag hrd (by
        unfold NextTag at htag ⊢
        cases hkind : c.kind with
        | size max => rw [hkind] at htag; exact htag
        | time pat => rw [hkind] at htag; simp only at htag ⊢; rw [htag, ht])) ho
      cases this.1
  · intro hm
    obtain ⟨t1, b, rw1, d1, t2, rw2, d2, k1, k2⟩ := runs_write h
    obtain ⟨rfl, k3⟩ := runs_needsToRoll k1
    have hb : b = true ∧ rw1 = rw := by
      rcases hm with ⟨max, hkd, hle⟩ | ⟨pat, t, hkd, hne, hhd, hdiff⟩
      · rcases k3 with ⟨max', hkd', _, rfl, rfl⟩ | ⟨_, _, hkd', _⟩
        · rw [hkd] at hkd'; cases hkd'; exact ⟨by simpa using hle, rfl⟩
        · rw [hkd] at hkd'; cases hkd'
      · rcases k3 with ⟨max', hkd', _⟩ | ⟨pat', t', hkd', rfl, k3⟩
        · rw [hkd] at hkd'; cases hkd'
        · rw [hkd] at hkd'; cases hkd'
          have e : t' = t := by
            rcases k2 with ⟨_, _, rfl, _⟩ | ⟨_, t3, _, rfl⟩ <;> simpa [clocks, clocks_append] using hhd
          subst e
          rcases k3 with ⟨h0, _⟩ | ⟨_, rfl, rfl⟩
          · exact absurd h0 hne
          · exact ⟨by simpa using hdiff, rfl⟩
    obtain ⟨rfl, rfl⟩ := hb
    have hroll : ∀ {ok}, Runs umask (c.roll lib rw1) d1 t2 (ok, rw2) d2 → ok = false ∧ d2 = d1 := by
      intro ok hr
      rcases runs_roll hr with ⟨a, b, _⟩ | ⟨_, names, t4, hrd, rfl, ho⟩
      · exact ⟨a, b⟩
      · exact stuck_rollOver hrd (fun tag htag => hst names tag hrd (by
          unfold NextTag at htag ⊢
          cases hkind : c.kind with
          | size max => rw [hkind] at htag; exact htag
          | time pat => rw [hkind] at htag; exact htag)) ho
    rcases k2 with ⟨_, hr, rfl, rfl, rfl, rfl⟩ | ⟨hr, t3, ha, rfl⟩
    · have hx := Prog.Does.runs (does_roll (own := fun _ => True) (lib := lib) (c := c) (rw := rw1) (fun _ => trivial) (fun _ _ _ => trivial) fun _ _ => trivial) hr
      exact ⟨rfl, (hroll hr).2, hx.1, hx.2.2⟩
    · rcases hr with ⟨_, hr⟩ | ⟨hb, _⟩
      · cases (hroll hr).1
      · cases hb

theorem tries_knows {d0 d : Disk} {ws : List (STrace × (Nat × Bool))} {rw : RW} (h : Tries umask lib c d0 ws d rw) : Knows c rw d := by
  induction h with
  | start => intro h; cases h
  | write _ hr ih => exact (write_dir ih hr).1

/-- A call is refused with reason if it is to give a file a name that cannot be. -/
theorem forced_of {d0 : Disk} {tr : STrace} (hclean : ∀ n, NoName n → d0.dir n = none)
    (h : ∀ x ∈ tr, Failed x → (∃ a b, x.1 = .rename a b ∧ (properName b = false ∨ d0.dir b = some .dir)) ∨ ∃ n p, x.1 = .openAppend n p ∧ properName n = false) :
    OnlyForced umask d0 tr := by
  intro a o r b e _ _ hf d1 hl r' d2 hs
  have hno : ∀ {n}, properName n = false → d1.dir n = none := fun {n} hp => leads_improper hl hp (hclean n (by
    rcases Classical.em (NoName n) with h | h
    · exact h
    · rw [properName_iff.mpr h] at hp; cases hp))
  rcases h ⟨o, r⟩ (by rw [e]; simp) hf with ⟨x, y, rfl, hp⟩ | ⟨n, p, rfl, hp⟩
  · cases r' with
    | false => rfl
    | true =>
      simp only [SysStep, if_true] at hs
      obtain ⟨_, _, _, ⟨h1, h2⟩, _⟩ := hs
      rcases hp with hp | hp
      · rw [hp] at h2; cases h2
      · exact absurd ((leads_dirs hl y).mpr hp) h1
  · cases r' with
    | false => rfl
    | true =>
      simp only [SysStep, if_true, hno hp] at hs
      rw [hp] at hs; cases hs.1

end Log4g
