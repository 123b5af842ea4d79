import Verif.Lemmas.RollFaults

/-! # Writes with time rolling -/

namespace Log4g
open Spec Strconv

variable {lib : RLib} {c : RCfg} {umask : Nat}

theorem append_calls {rw rw' : RW} {bs : Bytes} {d d' : Disk} {tr : STrace} {res : Nat × Bool} (h : Runs umask (c.append rw bs) d tr (res, rw') d') :
    ∀ x ∈ tr, openOp c x.1 ∨ ∃ n, x.1 = .write n bs := by
  intro x hx
  rcases runs_append h with ⟨_, hc, _⟩ | ⟨t4, rw4, d4, t5, hc, hp, rfl⟩
  · exact .inl (Prog.All.runs (all_createFile c rw) hc x hx)
  · rcases List.mem_append.mp hx with hx | hx
    · rcases hc with ⟨_, hc⟩ | ⟨_, rfl, _⟩
      · exact .inl (Prog.All.runs (all_createFile c rw) hc x hx)
      · cases hx
    · rcases runs_put hp with ⟨_, rfl, _⟩ | ⟨_, rfl, _⟩
      · simp only [List.mem_singleton] at hx; rw [hx]; exact .inr ⟨_, rfl⟩
      · cases hx

/-- Calls that neither look at the clock nor rename. -/
def still (o : Sys) : Prop := o ≠ .now ∧ ∀ a b, o ≠ .rename a b

theorem append_still {rw rw' : RW} {bs : Bytes} {d d' : Disk} {tr : STrace} {res : Nat × Bool} (h : Runs umask (c.append rw bs) d tr (res, rw') d') :
    ∀ x ∈ tr, still x.1 := by
  intro x hx
  rcases append_calls h x hx with h | ⟨n, h⟩
  · refine ⟨fun e => ?_, fun a b e => ?_⟩ <;> rw [e] at h <;> exact h
  · rw [h]; exact ⟨by simp, by simp⟩

theorem delete_still {hs : List Str} {d d' : Disk} {tr : STrace} (h : Runs umask (c.deleteOldRolls hs) d tr () d') : ∀ x ∈ tr, still x.1 := by
  intro x hx
  rcases Prog.All.runs (all_delete c hs) h x hx with h | ⟨n, h⟩
  · refine ⟨fun e => ?_, fun a b e => ?_⟩ <;> rw [e] at h <;> cases h
  · rw [h]; exact ⟨by simp, by simp⟩

/-- How a write with time rolling goes. -/
theorem time_write {pat : Str} (hk : c.kind = .time pat) {rw rw' : RW} {bs : Bytes} {d d' : Disk} {tr : STrace} {res : Nat × Bool} (hn : rw.file = some .opened → rw.name = c.fileName)
    (h : Runs umask (c.write lib rw bs) d tr (res, rw') d') : ∃ t,
    ((rw.timeName = [] ∨ lib.format t pat = rw.timeName) ∧ ∃ u, tr = ⟨.now, t⟩ :: u ∧ Runs umask (c.append { rw with timeName := lib.format t pat } bs) d u (res, rw') d') ∨
    (rw.timeName ≠ [] ∧ lib.format t pat ≠ rw.timeName ∧
      ((res = (0, false) ∧ d' = d ∧ rw'.timeName = rw.timeName ∧
        (tr = [⟨.now, t⟩] ∧ rw.file ≠ some .opened ∨ rw.file = some .opened ∧ (tr = [⟨.now, t⟩, ⟨.close c.fileName, false⟩] ∨ tr = [⟨.now, t⟩, ⟨.close c.fileName, true⟩, ⟨.readdir, none⟩]))) ∨
       ∃ names t2, rw.file = some .opened ∧ SysStep umask d .readdir (some names) d ∧
        ((res = (0, false) ∧ d' = d ∧ rw' = { rw with file := none, timeName := lib.format t2 pat } ∧
          tr = [⟨.now, t⟩, ⟨.close c.fileName, true⟩, ⟨.readdir, some names⟩, ⟨.now, t2⟩, ⟨.rename c.fileName (backupName c.mode c.fileName rw.timeName), false⟩]) ∨
         ∃ d1 r d2 u v d3, SysStep umask d (.rename c.fileName (backupName c.mode c.fileName rw.timeName)) true d1 ∧
          SysStep umask d1 (.chmod (backupName c.mode c.fileName rw.timeName) c.backPerm) r d2 ∧
          tr = [⟨.now, t⟩, ⟨.close c.fileName, true⟩, ⟨.readdir, some names⟩, ⟨.now, t2⟩, ⟨.rename c.fileName (backupName c.mode c.fileName rw.timeName), true⟩,
            ⟨.chmod (backupName c.mode c.fileName rw.timeName) c.backPerm, r⟩] ++ u ++ v ∧
          (((((c.historyOf lib names).length + 1 : Nat) : Int) > c.maxRolls ∧ Runs umask (c.deleteOldRolls (c.historyOf lib names ++ [backupName c.mode c.fileName rw.timeName])) d2 u () d3) ∨
            u = [] ∧ d3 = d2) ∧
          Runs umask (c.append { rw with file := none, timeName := lib.format t2 pat } bs) d3 v (res, rw') d'))) := by
  obtain ⟨t1, b, rw1, d1, t2, rw2, d2, k1, k2⟩ := runs_write h
  obtain ⟨rfl, k3⟩ := runs_needsToRoll k1
  rcases k3 with ⟨_, hk', _⟩ | ⟨pat', t, hk', rfl, k3⟩
  · rw [hk] at hk'; cases hk'
  rw [hk] at hk'; cases hk'
  refine ⟨t, ?_⟩
  by_cases hb : b = true
  · subst hb
    rcases k3 with ⟨_, hx, _⟩ | ⟨hne, hb, rfl⟩
    · cases hx
    have hb : lib.format t pat ≠ rw1.timeName := by simpa using hb.symm
    refine .inr ⟨hne, hb, ?_⟩
    rcases k2 with ⟨_, hr, rfl, rfl, rfl, rfl⟩ | ⟨⟨_, hr⟩ | ⟨hx, _⟩, t3, ha, rfl⟩
    · rcases runs_roll hr with ⟨_, rfl, ⟨h3, rfl, rfl⟩ | ⟨h3, rfl, rfl⟩ | ⟨h3, rfl, rfl⟩⟩ | ⟨h3, names, t4, hrd, rfl, ho⟩
      · exact .inl ⟨rfl, rfl, rfl, .inl ⟨rfl, h3⟩⟩
      · exact .inl ⟨rfl, rfl, rfl, .inr ⟨h3, .inl (by rw [hn h3]; rfl)⟩⟩
      · exact .inl ⟨rfl, rfl, rfl, .inr ⟨h3, .inr (by rw [hn h3]; rfl)⟩⟩
      · obtain ⟨tag, t5, h5, h6⟩ := runs_rollOver ho
        rcases h5 with ⟨_, h5, _⟩ | ⟨pat', t', hp, rfl, rfl, rfl⟩
        · rw [hk] at h5; cases h5
        rw [hk] at hp; cases hp
        rcases h6 with ⟨_, rfl, rfl⟩ | ⟨h6, _⟩
        · refine .inr ⟨names, t', h3, hrd, .inl ⟨rfl, rfl, rfl, ?_⟩⟩
          rw [hn h3]; rfl
        · cases h6
    · rcases runs_roll hr with ⟨h3, _⟩ | ⟨h3, names, t4, hrd, rfl, ho⟩
      · cases h3
      obtain ⟨tag, t5, h5, h6⟩ := runs_rollOver ho
      rcases h5 with ⟨_, h5, _⟩ | ⟨pat', t', hp, rfl, rfl, rfl⟩
      · rw [hk] at h5; cases h5
      rw [hk] at hp; cases hp
      rcases h6 with ⟨h6, _⟩ | ⟨_, d3, r, d4, u, h7, h8, rfl, h9⟩
      · cases h6
      refine .inr ⟨names, t', h3, hrd, .inr ⟨d3, r, d4, u, t3, d2, ?_, h8, ?_, ?_, ha⟩⟩
      · have h7 : SysStep umask d1 (.rename rw1.name (backupName c.mode c.fileName rw1.timeName)) true d3 := h7
        rw [hn h3] at h7; exact h7
      · rw [hn h3]; simp
      · rcases h9 with h9 | ⟨_, h9, h10⟩
        · exact .inl h9
        · exact .inr ⟨h9, h10⟩
    · cases hx
  · left
    have hb : b = false := by simpa using hb
    subst hb
    have hrw : rw1 = { rw with timeName := lib.format t pat } ∧ (rw.timeName = [] ∨ lib.format t pat = rw.timeName) := by
      rcases k3 with ⟨h0, _, rfl⟩ | ⟨_, hb, rfl⟩
      · exact ⟨rfl, .inl h0⟩
      · have hb : lib.format t pat = rw1.timeName := by simpa using hb.symm
        rw [hb]; exact ⟨rfl, .inr rfl⟩
    obtain ⟨rfl, h0⟩ := hrw
    rcases k2 with ⟨hx, _⟩ | ⟨⟨hx, _⟩ | ⟨_, rfl, rfl, rfl⟩, t3, ha, rfl⟩
    · cases hx
    · cases hx
    · exact ⟨h0, t3, by simp, ha⟩

theorem still_look {s : Option Int × Option Int} {tr : STrace} (h : ∀ x ∈ tr, still x.1) : tr.foldl lookStep s = s := by
  induction tr generalizing s with
  | nil => rfl
  | cons x xs ih =>
    obtain ⟨o, r⟩ := x
    have h0 := h ⟨o, r⟩ (by simp)
    rw [List.foldl_cons]
    have : lookStep s ⟨o, r⟩ = s := by
      obtain ⟨p, l⟩ := s
      cases o <;> first
        | exact absurd rfl h0.1
        | exact absurd rfl (h0.2 _ _)
        | (cases p <;> rfl)
    rw [this]
    exact ih fun y hy => h y (by simp [hy])

theorem append_timeName {rw rw' : RW} {bs : Bytes} {d d' : Disk} {tr : STrace} {res : Nat × Bool} (h : Runs umask (c.append rw bs) d tr (res, rw') d') : rw'.timeName = rw.timeName := by
  rcases runs_append h with ⟨_, hc, _⟩ | ⟨t1, rw1, d1, t2, hc, hp, _⟩
  · exact (runs_createFile hc).2.2.2.2
  · have : rw1.timeName = rw.timeName := by
      rcases hc with ⟨_, hc⟩ | ⟨_, _, rfl, _⟩
      · exact (runs_createFile hc).2.2.2.2
      · rfl
    rcases runs_put hp with ⟨_, _, rfl, _⟩ | ⟨_, _, _, rfl, _⟩ <;> exact this

/-- The name recorded is that of the period of the current file. -/
theorem write_period {pat : Str} (hk : c.kind = .time pat) (hne : ∀ t, lib.format t pat ≠ []) {rw rw' : RW} {bs : Bytes} {d d' : Disk} {tr : STrace} {res : Nat × Bool}
    (hn : rw.file = some .opened → rw.name = c.fileName) (h : Runs umask (c.write lib rw bs) d tr (res, rw') d') {p l : Option Int}
    (hp : rw.timeName = match p with | none => [] | some t => lib.format t pat) :
    rw'.timeName = match (tr.foldl lookStep (p, l)).1 with | none => [] | some t => lib.format t pat := by
  obtain ⟨t, ⟨h1, u, rfl, ha⟩ | ⟨h1, h2, h3⟩⟩ := time_write hk hn h
  · rw [append_timeName ha, List.foldl_cons, still_look (append_still ha)]
    cases p with
    | none => rfl
    | some p =>
      simp only [lookStep]
      rcases h1 with h1 | h1
      · rw [hp] at h1; exact absurd h1 (hne p)
      · rw [h1]; exact hp
  · obtain ⟨p, rfl⟩ : ∃ q, p = some q := by
      cases p with
      | none => exact absurd hp h1
      | some p => exact ⟨p, rfl⟩
    rcases h3 with ⟨_, _, h3, ⟨rfl, _⟩ | ⟨_, rfl | rfl⟩⟩ | ⟨names, t2, _, _, ⟨_, _, rfl, rfl⟩ | ⟨_, _, _, u, v, _, _, _, rfl, hu, ha⟩⟩
    · rw [h3]; exact hp
    · rw [h3]; exact hp
    · rw [h3]; exact hp
    · rfl
    · rw [append_timeName ha, List.foldl_append, List.foldl_append, still_look (append_still ha), still_look (tr := u)]
      · rfl
      · rcases hu with ⟨_, hu⟩ | ⟨rfl, _⟩
        · exact delete_still hu
        · simp

theorem session_period {pat : Str} (hk : c.kind = .time pat) (hne : ∀ t, lib.format t pat ≠ []) {d0 d : Disk} {ms : List Bytes} {tr : STrace} {rw : RW}
    (h : Session umask lib c d0 ms tr d rw) : rw.timeName = match periodAt tr with | none => [] | some t => lib.format t pat := by
  induction h with
  | start => rfl
  | write hs hr ih =>
    rw [periodAt, List.foldl_append]
    exact write_period hk hne (life_name hs.life) hr ih

theorem stampedFrom_append (l : Option Int) (a b : STrace) : stampedFrom l (a ++ b) = stampedFrom l a ++ stampedFrom ((clocks a).getLast?.or l) b := by
  induction a generalizing l with
  | nil => simp [stampedFrom, clocks]
  | cons x xs ih =>
    obtain ⟨o, r⟩ := x
    cases o <;> simp [stampedFrom, clocks, ih]
    congr 1
    cases hc : clocks xs with
    | nil => rfl
    | cons y ys => simp [List.getLast?_cons]

theorem stampedFrom_still (l : Option Int) {tr : STrace} (h : ∀ x ∈ tr, still x.1) : stampedFrom l tr = (chunks tr).map fun b => (l, b) := by
  induction tr with
  | nil => rfl
  | cons x xs ih =>
    obtain ⟨o, r⟩ := x
    have h0 := h ⟨o, r⟩ (by simp)
    have := ih fun y hy => h y (by simp [hy])
    cases o <;> simp [stampedFrom, chunks, this]
    exact absurd rfl h0.1

/-- The pieces a write with time rolling puts on the disk belong to the period recorded. -/
theorem write_stamps {pat : Str} (hk : c.kind = .time pat) {rw rw' : RW} {bs : Bytes} {d d' : Disk} {tr : STrace} {res : Nat × Bool}
    (hn : rw.file = some .opened → rw.name = c.fileName) (h : Runs umask (c.write lib rw bs) d tr (res, rw') d') (hren : RenamesOk tr) :
    (d' = d ∧ rw'.timeName = rw.timeName ∧ ∀ l, stampedFrom l tr = []) ∨
    ∃ t, rw'.timeName = lib.format t pat ∧ (∀ l, stampedFrom l tr = (chunks tr).map fun b => (some t, b)) ∧
      (rolls tr = 0 ∧ (rw.timeName = [] ∨ rw.timeName = lib.format t pat) ∨ rolls tr = 1 ∧ rw.timeName ≠ []) := by
  obtain ⟨t, ⟨h1, u, rfl, ha⟩ | ⟨h1, h2, h3⟩⟩ := time_write hk hn h
  · refine .inr ⟨t, append_timeName ha, fun l => ?_, .inl ⟨?_, h1.imp_right fun h => h.symm⟩⟩
    · simp only [stampedFrom, chunks]; exact stampedFrom_still _ (append_still ha)
    · simp only [rolls]; exact rolls_zero fun x hx a b => (append_still ha x hx).2 a b
  · rcases h3 with ⟨_, rfl, h3, ⟨rfl, _⟩ | ⟨_, rfl | rfl⟩⟩ | ⟨names, t2, _, _, ⟨_, _, rfl, rfl⟩ | ⟨_, _, _, u, v, _, _, _, rfl, hu, ha⟩⟩
    · exact .inl ⟨rfl, h3, fun _ => rfl⟩
    · exact .inl ⟨rfl, h3, fun _ => rfl⟩
    · exact .inl ⟨rfl, h3, fun _ => rfl⟩
    · exact absurd (hren c.fileName (backupName c.mode c.fileName rw.timeName) false (by simp)) (by simp)
    · have hu' : ∀ x ∈ u, still x.1 := by
        rcases hu with ⟨_, hu⟩ | ⟨rfl, _⟩
        · exact delete_still hu
        · simp
      refine .inr ⟨t2, append_timeName ha, fun l => ?_, .inr ⟨?_, h1⟩⟩
      · have hx : ∀ x ∈ u ++ v, still x.1 := fun x hx => (List.mem_append.mp hx).elim (hu' x) (append_still ha x)
        rw [List.append_assoc]
        simp only [List.cons_append, List.nil_append, stampedFrom, chunks]
        exact stampedFrom_still _ hx
      · rw [rolls_append, rolls_append, rolls_zero fun x hx a b => (hu' x hx).2 a b, rolls_zero fun x hx a b => (append_still ha x hx).2 a b]
        rfl

theorem write_flat {rw rw' : RW} {bs : Bytes} {d d' : Disk} {tr : STrace} {res : Nat × Bool} (h : Runs umask (c.write lib rw bs) d tr (res, rw') d') :
    (chunks tr).flatten = bs.take res.1 := by
  obtain ⟨n, ok⟩ := res
  rcases write_chunks h with ⟨hx, rfl, _⟩ | ⟨hx, _⟩ <;> rw [hx] <;> simp

/-- The pieces a file with period `s` holds. -/
def Holds (lib : RLib) (pat s : Str) (cs : List (Option Int × Bytes)) (data : Bytes) : Prop :=
  (cs.map Prod.snd).flatten = data ∧ ∀ x ∈ cs, ∃ t, x.1 = some t ∧ lib.format t pat = s

/-- What the files of a time rolling writer hold. -/
structure Filed (lib : RLib) (c : RCfg) (pat : Str) (d0 : Dir) (tr : STrace) (d : Dir) (rw : RW) : Prop where
  cur : ∃ cs, cs <:+ stamped tr ∧ Holds lib pat rw.timeName cs (dataOf d c.fileName) ∧ (rw.timeName = [] → cs = [])
  old : ∀ n, n ≠ c.fileName → d n = d0 n ∨ d n = none ∨
    ∃ data p t cs, d n = some (.file data p) ∧ n = backupName c.mode c.fileName (lib.format t pat) ∧ cs <:+: stamped tr ∧ Holds lib pat (lib.format t pat) cs data

theorem appended_data {d d' : Dir} {bs : Bytes} {res : Nat × Bool} (h : Appended umask c d d' bs res) : dataOf d' c.fileName = dataOf d c.fileName ++ bs.take res.1 := by
  rcases h with ⟨rfl, h⟩ | ⟨h1, h2⟩ | ⟨data, p, h1, h2⟩
  · simp [dataOf, h]
  · simp [dataOf, h1, h2]
  · simp [dataOf, h1, h2]

theorem session_filed {pat : Str} (hk : c.kind = .time pat) (hne : ∀ t, lib.format t pat ≠ []) {d0 d : Disk} {ms : List Bytes} {tr : STrace} {rw : RW}
    (h : Session umask lib c d0 ms tr d rw) (hcur : dataOf d0.dir c.fileName = []) (hren : RenamesOk tr) : Filed lib c pat d0.dir tr d.dir rw := by
  induction h with
  | start => exact ⟨⟨[], List.nil_suffix, ⟨by rw [hcur]; rfl, by simp⟩, fun _ => rfl⟩, fun n _ => .inl rfl⟩
  | @write ms tr d rw m tr' res rw' d' hs hr ih =>
    have ih := ih fun a b r hm => hren a b r (by simp [hm])
    have hren' : RenamesOk tr' := fun a b r hm => hren a b r (by simp [hm])
    have hst : stamped (tr ++ tr') = stamped tr ++ stampedFrom ((clocks tr).getLast?.or none) tr' := stampedFrom_append none tr tr'
    obtain ⟨⟨cs, c1, ⟨c2, c3⟩, c4⟩, old⟩ := ih
    have hflat := write_flat hr
    have old' : ∀ n, n ≠ c.fileName → d.dir n = d0.dir n ∨ d.dir n = none ∨
        ∃ data p t cs, d.dir n = some (.file data p) ∧ n = backupName c.mode c.fileName (lib.format t pat) ∧ cs <:+: stamped (tr ++ tr') ∧ Holds lib pat (lib.format t pat) cs data := by
      intro n hn
      rcases old n hn with h | h | ⟨data, p, t, cs, h1, h2, h3, h4⟩
      · exact .inl h
      · exact .inr (.inl h)
      · exact .inr (.inr ⟨data, p, t, cs, h1, h2, by rw [hst]; exact h3.trans (List.prefix_append _ _).isInfix, h4⟩)
    have hmap : ∀ t : Int, (((chunks tr').map fun b => (some t, b)).map Prod.snd).flatten = m.take res.1 := fun t => by
      rw [List.map_map, show (Prod.snd ∘ fun b => (some t, b)) = (id : Bytes → Bytes) from rfl, List.map_id]; exact hflat
    rcases write_stamps hk (life_name hs.life) hr hren' with ⟨rfl, ht, hl⟩ | ⟨t, ht, hl, hcase⟩
    · rw [hl, List.append_nil] at hst
      exact ⟨⟨cs, by rw [hst]; exact c1, ⟨c2, by rw [ht]; exact c3⟩, by rw [ht]; exact c4⟩, old'⟩
    · rw [hl] at hst
      rcases write_dir (session_knows hs) hr with ⟨_, _, ⟨hz, hd1, hd2⟩ | ⟨data, p, tag, q, d2, hz, hdat, htag, _, hx1, hx2, hx3, hx4, hx5⟩⟩
      · rcases hcase with ⟨_, hcase⟩ | ⟨hz', _⟩
        · refine ⟨⟨cs ++ (chunks tr').map (fun b => (some t, b)), ?_, ⟨?_, ?_⟩, ?_⟩, fun n hn => by rw [hd1 n hn]; exact old' n hn⟩
          · rw [hst]; obtain ⟨u, hu⟩ := c1; exact ⟨u, by rw [← hu, List.append_assoc]⟩
          · rw [List.map_append, List.flatten_append, c2, hmap, appended_data hd2]
          · intro x hx
            rcases List.mem_append.mp hx with hx | hx
            · rcases hcase with h0 | h0
              · rw [c4 h0] at hx; cases hx
              · rw [ht, ← h0]; exact c3 x hx
            · obtain ⟨b, _, rfl⟩ := List.mem_map.mp hx
              exact ⟨t, rfl, ht.symm⟩
          · intro h0; rw [ht] at h0; exact absurd h0 (hne t)
        · omega
      · rcases hcase with ⟨hz', _⟩ | ⟨_, hne0⟩
        · omega
        · have htag : tag = rw.timeName := by simpa [TagOf, hk] using htag
          subst htag
          obtain ⟨t0, ht0⟩ : ∃ t0, rw.timeName = lib.format t0 pat := by
            have := session_period hk hne hs
            cases hp : periodAt tr with
            | none => rw [hp] at this; exact absurd this hne0
            | some t0 => rw [hp] at this; exact ⟨t0, this⟩
          refine ⟨⟨(chunks tr').map (fun b => (some t, b)), ?_, ⟨?_, ?_⟩, ?_⟩, fun n hn => ?_⟩
          · rw [hst]; exact List.suffix_append _ _
          · rw [hmap, appended_data hx5]; simp [dataOf, hx1]
          · intro x hx
            obtain ⟨b, _, rfl⟩ := List.mem_map.mp hx
            exact ⟨t, rfl, ht.symm⟩
          · intro h0; rw [ht] at h0; exact absurd h0 (hne t)
          · rw [hx4 n hn]
            by_cases hb : n = backupName c.mode c.fileName rw.timeName
            · rw [hb]
              rcases hx3 with hx3 | hx3
              · refine .inr (.inr ⟨data, q, t0, cs, hx3, by rw [ht0], ?_, ?_, ?_⟩)
                · rw [hst]; exact c1.isInfix.trans (List.prefix_append _ _).isInfix
                · rw [c2]; simp [dataOf, hdat]
                · rw [← ht0]; exact c3
              · exact .inr (.inl hx3)
            · rcases hx2 n hn hb with h | h
              · rw [h]; exact old' n hn
              · exact .inr (.inl h)

end Log4g
