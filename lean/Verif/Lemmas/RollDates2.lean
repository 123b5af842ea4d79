import Verif.Lemmas.RollDates

/-! # When files are renamed, with time rolling -/

namespace Log4g
open Spec Strconv
open scoped List

variable {lib : RLib} {c : RCfg} {umask : Nat}

theorem noMove_still {tr : STrace} (h : ∀ x ∈ tr, still x.1) : noMove tr := fun a b hm => (h _ hm).2 a b rfl

theorem all_append_still (rw : RW) (bs : Bytes) : (c.append rw bs).All still := by
  have ho : ∀ o, openOp c o → still o := fun o h => by
    refine ⟨fun e => ?_, fun a b e => ?_⟩ <;> rw [e] at h <;> exact h
  have hput : ∀ rw1 : RW, (RCfg.put rw1 bs).All still := by
    intro rw1
    rw [RCfg.put]
    split
    · exact ⟨⟨by simp, by simp⟩, fun _ => trivial⟩
    · trivial
  rw [RCfg.append]
  split
  · refine Prog.All.bind ((all_createFile c rw).mono ho) ?_
    rintro ⟨ok, rw2⟩
    dsimp only
    split
    · trivial
    · exact hput rw2
  · exact hput rw

theorem all_delete_still (hs : List Str) : (c.deleteOldRolls hs).All still := by
  refine (all_delete c hs).mono ?_
  rintro o (h | ⟨n, rfl⟩)
  · refine ⟨fun e => ?_, fun a b e => ?_⟩ <;> rw [e] at h <;> cases h
  · exact ⟨by simp, by simp⟩

/-- A roll renames at most once: the log file, after one look at the clock. -/
theorem stops_roll_move {pat : Str} (hk : c.kind = .time pat) {rw : RW} {d d' : Disk} {tr : STrace} (h : Stops umask (c.roll lib rw) d tr d') :
    noMove tr ∨ ∃ names t w, rw.file = some .opened ∧
      tr = [⟨.close rw.name, true⟩, ⟨.readdir, some names⟩, ⟨.now, t⟩, ⟨.rename rw.name (backupName c.mode c.fileName rw.timeName), true⟩] ++ w ∧ ∀ x ∈ w, still x.1 := by
  have none : ∀ {α : Type} {a : α} {d d' : Disk} {tr : STrace}, Stops umask (.ret a) d tr d' → tr = [] := by
    intro α a d d' tr h; cases h; rfl
  rw [RCfg.roll] at h
  split at h
  · rw [none h]; exact .inl (by simp [noMove])
  · rw [none h]; exact .inl (by simp [noMove])
  · rename_i hf
    change Stops umask (.call _ _) d tr d' at h
    cases h with
    | here => exact .inl (by simp [noMove])
    | @call _ _ _ r _ tr _ _ h =>
      cases r with
      | false => 
        rw [none h]; exact .inl (by simp [noMove])
      | true =>
        change Stops umask (.call _ _) _ tr d' at h
        cases h with
        | here => exact .inl (by simp [noMove])
        | @call _ _ _ r _ tr _ _ h =>
          cases r with
          | none => rw [none h]; exact .inl (by simp [noMove])
          | some names =>
            change Stops umask (c.rollOver lib _ _) _ tr d' at h
            rw [RCfg.rollOver, RCfg.getNewHistoryRollFileName, hk] at h
            change Stops umask (.call _ _) _ tr d' at h
            cases h with
            | here => exact .inl (by simp [noMove])
            | @call _ _ _ t _ tr _ _ h =>
              change Stops umask (.call _ _) _ tr d' at h
              cases h with
              | here => exact .inl (by simp [noMove])
              | @call _ _ _ r _ tr _ _ h =>
                cases r with
                | false => rw [none h]; exact .inl (by simp [noMove])
                | true =>
                  refine .inr ⟨names, t, tr, hf, by rw [← createFull_eq]; rfl, ?_⟩
                  refine Prog.All.stops (f := still) ?_ h
                  refine ⟨⟨by simp, by simp⟩, fun _ => ?_⟩
                  show Prog.All _ (if _ then _ else _)
                  split
                  · exact Prog.All.bind (all_delete_still _) fun _ => trivial
                  · trivial

/-- When a write renames, and what. -/
theorem stops_write_move {pat : Str} (hk : c.kind = .time pat) {rw : RW} {bs : Bytes} {d d' : Disk} {tr : STrace} (h : Stops umask (c.write lib rw bs) d tr d') {u v : STrace} {a n : Str}
    (he : tr = u ++ ⟨.rename a n, true⟩ :: v) : ∃ t t2, clocks u = [t, t2] ∧ (∀ l, stampedFrom l u = []) ∧ noMove u ∧ rw.timeName ≠ [] ∧ lib.format t pat ≠ rw.timeName ∧
      n = backupName c.mode c.fileName rw.timeName := by
  have hm : (⟨.rename a n, true⟩ : (o : Sys) × o.Resp) ∈ tr := by rw [he]; simp
  rw [RCfg.write] at h
  rcases stops_bind h with h1 | ⟨t1, ⟨b, rw1⟩, d1, tr2, k1, g, rfl⟩
  · have := Prog.All.stops (all_needsToRoll lib c rw) h1 _ hm
    cases this
  obtain ⟨rfl, k3⟩ := runs_needsToRoll k1
  rcases k3 with ⟨_, hk', _⟩ | ⟨pat', t, hk', rfl, k3⟩
  · rw [hk] at hk'; cases hk'
  rw [hk] at hk'; cases hk'
  by_cases hb : b = true
  · subst hb
    rcases k3 with ⟨_, hx, _⟩ | ⟨hne, hb, rfl⟩
    · cases hx
    have hb : lib.format t pat ≠ rw1.timeName := by simpa using hb.symm
    simp only [if_true] at g
    -- a roll, then perhaps calls that do not rename
    have key : ∀ tr3 w, Stops umask (c.roll lib rw1) d1 tr3 d' ∨ (∃ r d2, Runs umask (c.roll lib rw1) d1 tr3 r d2) → (∀ x ∈ w, still x.1) → tr2 = tr3 ++ w →
        ∃ t t2, clocks u = [t, t2] ∧ (∀ l, stampedFrom l u = []) ∧ noMove u ∧ rw1.timeName ≠ [] ∧ lib.format t pat ≠ rw1.timeName ∧ n = backupName c.mode c.fileName rw1.timeName := by
      intro tr3 w hr hw e
      subst e
      obtain ⟨d2, hr⟩ : ∃ d2, Stops umask (c.roll lib rw1) d1 tr3 d2 := by
        rcases hr with hr | ⟨r, d2, hr⟩
        · exact ⟨_, hr⟩
        · exact ⟨_, hr.stops⟩
      rcases stops_roll_move hk hr with h0 | ⟨names, t2, w2, _, rfl, h2⟩
      · rcases List.mem_append.mp hm with hm | hm
        · simp at hm
        · rcases List.mem_append.mp hm with hm | hm
          · exact absurd hm (h0 a n)
          · exact absurd rfl ((hw _ hm).2 a n)
      · have hq : ∀ x ∈ w2 ++ w, still x.1 := fun x hx => (List.mem_append.mp hx).elim (h2 x) (hw x)
        rw [List.append_assoc] at he
        generalize w2 ++ w = q at he hq
        -- the only place of a renaming
        rcases u with _ | ⟨x1, _ | ⟨x2, _ | ⟨x3, _ | ⟨x4, _ | ⟨x5, u⟩⟩⟩⟩⟩
        · simp at he
        · simp at he
        · simp at he
        · simp at he
        · simp only [List.cons_append, List.nil_append, List.cons.injEq] at he
          obtain ⟨rfl, rfl, rfl, rfl, e, rfl⟩ := he
          refine ⟨t, t2, rfl, fun _ => rfl, by simp [noMove], hne, hb, ?_⟩
          cases e; rfl
        · exfalso
          simp only [List.cons_append, List.nil_append, List.cons.injEq] at he
          obtain ⟨_, _, _, _, _, e⟩ := he
          exact (hq ⟨.rename a n, true⟩ (by rw [e]; simp)).2 a n rfl
    rcases stops_bind g with h | ⟨t3, ⟨ok, rw2⟩, d2, t4, h3, h4, rfl⟩
    · exact key tr2 [] (.inl h) (by simp) (by simp)
    · refine key t3 t4 (.inr ⟨_, _, h3⟩) ?_ rfl
      refine Prog.All.stops (f := still) ?_ h4
      dsimp only
      split
      · trivial
      · exact all_append_still _ _
  · exfalso
    have hb : b = false := by simpa using hb
    subst hb
    simp only [Bool.false_eq_true, if_false] at g
    rcases List.mem_append.mp hm with hm | hm
    · simp at hm
    · exact (Prog.All.stops (all_append_still rw1 bs) g _ hm).2 a n rfl

theorem stampedFrom_mem {l : Option Int} {tr : STrace} {x : Option Int × Bytes} (h : x ∈ stampedFrom l tr) : x.1 = l ∨ ∃ s ∈ clocks tr, x.1 = some s := by
  induction tr generalizing l with
  | nil => cases h
  | cons y tr ih =>
    obtain ⟨o, r⟩ := y
    cases o
    case now =>
      rcases ih (l := some r) h with h | ⟨s, h1, h2⟩
      · exact .inr ⟨r, by simp [clocks], h⟩
      · exact .inr ⟨s, by simp [clocks, h1], h2⟩
    case write n bs =>
      rcases List.mem_cons.mp (show x ∈ (l, bs.take r.1) :: stampedFrom l tr from h) with rfl | h
      · exact .inl rfl
      · exact ih h
    all_goals exact ih h

theorem stamped_mem {tr : STrace} {x : Option Int × Bytes} (h : x ∈ stamped tr) {s : Int} (hs : x.1 = some s) : s ∈ clocks tr := by
  rcases stampedFrom_mem h with h | ⟨s', h, e⟩
  · rw [hs] at h; cases h
  · rw [hs] at e; cases e; exact h

theorem clocks_still {tr : STrace} (h : ∀ x ∈ tr, still x.1) : clocks tr = [] := by
  induction tr with
  | nil => rfl
  | cons x tr ih =>
    obtain ⟨o, r⟩ := x
    have := ih fun y hy => h y (by simp [hy])
    cases o <;> first | exact this | exact absurd rfl (h _ (List.mem_cons_self ..)).1

/-- What is written after a look at the clock was written no earlier. -/
theorem stamped_after {u v : STrace} {l : Int} (hl : l ∈ clocks u) (hc : (clocks (u ++ v)).Pairwise (· ≤ ·)) {x : Option Int × Bytes}
    (hx : x ∈ stampedFrom (clocks u).getLast? v) : ∃ s, x.1 = some s ∧ s ∈ clocks (u ++ v) ∧ l ≤ s := by
  rw [clocks_append] at hc ⊢
  obtain ⟨h1, h2, h3⟩ := List.pairwise_append.mp hc
  rcases stampedFrom_mem hx with h | ⟨s, h, e⟩
  · rcases List.eq_nil_or_concat (clocks u) with h0 | ⟨k, t, h0⟩
    · rw [h0] at hl; cases hl
    · rw [List.concat_eq_append] at h0
      rw [h0] at h h1 hl
      refine ⟨t, by simpa using h, by simp [h0], ?_⟩
      rcases List.mem_append.mp hl with hl | hl
      · exact (List.pairwise_append.mp h1).2.2 l hl t (by simp)
      · simp only [List.mem_singleton] at hl; omega
  · exact ⟨s, e, by simp [h], h3 l hl s h⟩

/-- The roll with which a backup was made. -/
def Moved (tr : STrace) (n : Str) : Prop := ∃ a, (⟨.rename a n, true⟩ : (o : Sys) × o.Resp) ∈ tr

/-- Everything so far was written in the period of `t0` or before, and the backups made are of earlier periods. -/
def UpTo (lib : RLib) (c : RCfg) (pat : Str) (start : Int → Int) (tr : STrace) (t0 : Int) : Prop :=
  t0 ∈ clocks tr ∧ (∀ x ∈ stamped tr, ∀ s, x.1 = some s → start s ≤ start t0) ∧
  ∀ n, Moved tr n → ∃ t ∈ clocks tr, n = backupName c.mode c.fileName (lib.format t pat) ∧ start t < start t0

/-- Every backup was named after a period that was over, up to which everything had been written. -/
def Dated (lib : RLib) (c : RCfg) (pat : Str) (start : Int → Int) (tr : STrace) : Prop :=
  ∀ u a n v, tr = u ++ ⟨.rename a n, true⟩ :: v → ∃ t0 l, n = backupName c.mode c.fileName (lib.format t0 pat) ∧ UpTo lib c pat start u t0 ∧ l ∈ clocks u ∧ start t0 < start l

theorem split_append {α : Type} {a b u v : List α} {x : α} (h : a ++ b = u ++ x :: v) : (∃ w, a = u ++ x :: w ∧ v = w ++ b) ∨ ∃ w, u = a ++ w ∧ b = w ++ x :: v := by
  rcases List.append_eq_append_iff.mp h with ⟨w, h1, h2⟩ | ⟨w, h1, h2⟩
  · exact .inr ⟨w, h1, h2⟩
  · cases w with
    | nil =>
      simp only [List.nil_append, List.append_nil] at h1 h2
      exact .inr ⟨[], by simp [h1], by simp [h2]⟩
    | cons y w =>
      simp only [List.cons_append, List.cons.injEq] at h2
      obtain ⟨rfl, h2⟩ := h2
      exact .inl ⟨w, h1, h2⟩

variable {pat : Str} {start : Int → Int} {T0 T1 : Int}

/-- At the last look at the clock. -/
theorem dated_last (hp : Periods lib pat start T0 T1) {tr : STrace} (hd : Dated lib c pat start tr) (hc : (clocks tr).Pairwise (· ≤ ·)) (hT : ∀ t ∈ clocks tr, T0 ≤ t ∧ t ≤ T1)
    {ks : List Int} {t : Int} (he : clocks tr = ks ++ [t]) : UpTo lib c pat start tr t := by
  have ht : t ∈ clocks tr := by rw [he]; simp
  have hle : ∀ s ∈ clocks tr, s ≤ t := by
    intro s hs
    rw [he] at hs hc
    rcases List.mem_append.mp hs with hs | hs
    · exact (List.pairwise_append.mp hc).2.2 s hs t (by simp)
    · simp only [List.mem_singleton] at hs; omega
  refine ⟨ht, fun x hx s hs => ?_, fun n hn => ?_⟩
  · have := stamped_mem hx hs
    exact hp.mono s t (hT s this).1 (hle s this) (hT t ht).2
  · obtain ⟨a, hn⟩ := hn
    obtain ⟨u, v, rfl⟩ := List.append_of_mem hn
    obtain ⟨t0, l, h1, h2, h3, h4⟩ := hd u a n v rfl
    have hl : l ∈ clocks (u ++ ⟨.rename a n, true⟩ :: v) := by rw [clocks_append]; simp [h3]
    refine ⟨t0, by rw [clocks_append]; simp [h2.1], h1, ?_⟩
    have := hp.mono l t (hT l hl).1 (hle l hl) (hT t ht).2
    omega

theorem dated_step (hk : c.kind = .time pat) (hp : Periods lib pat start T0 T1) {tr tr' : STrace} {rw : RW} {bs : Bytes} {d d' : Disk} (hs : Stops umask (c.write lib rw bs) d tr' d')
    (hc : (clocks (tr ++ tr')).Pairwise (· ≤ ·)) (hT : ∀ t ∈ clocks (tr ++ tr'), T0 ≤ t ∧ t ≤ T1) (hd : Dated lib c pat start tr)
    (hy : rw.timeName = [] ∨ ∃ t0, rw.timeName = lib.format t0 pat ∧ UpTo lib c pat start tr t0) : Dated lib c pat start (tr ++ tr') := by
  intro u a n v e0
  rcases split_append e0 with ⟨w, rfl, _⟩ | ⟨w, rfl, e⟩
  · exact hd u a n w rfl
  · obtain ⟨t, t2, h1, h2, h3, h4, h5, h6⟩ := stops_write_move hk hs e
    rcases hy with hy | ⟨t0, hy, y1, y2, y3⟩
    · exact absurd hy h4
    have ht : t ∈ clocks (tr ++ tr') := by rw [clocks_append, e, clocks_append, h1]; simp
    have hle : t0 ≤ t := by
      rw [clocks_append, e, clocks_append, h1] at hc
      exact (List.pairwise_append.mp hc).2.2 t0 y1 t (by simp)
    have ht0 : t0 ∈ clocks (tr ++ tr') := by rw [clocks_append]; simp [y1]
    refine ⟨t0, t, by rw [h6, hy], ⟨by rw [clocks_append]; simp [y1], fun x hx => ?_, fun m hm => ?_⟩, by rw [clocks_append, h1]; simp, ?_⟩
    · rw [stamped, stampedFrom_append, h2, List.append_nil] at hx
      exact y2 x hx
    · obtain ⟨b, hm⟩ := hm
      rcases List.mem_append.mp hm with hm | hm
      · obtain ⟨t', q1, q2⟩ := y3 m ⟨b, hm⟩
        exact ⟨t', by rw [clocks_append]; simp [q1], q2⟩
      · exact absurd hm (h3 b m)
    · have h7 := hp.mono t0 t (hT t0 ht0).1 hle (hT t ht).2
      rcases Int.lt_or_eq_of_le h7 with h | h
      · exact h
      · exfalso
        rw [hy] at h5
        exact h5 (hp.same t0 t (hT t0 ht0).1 hle (hT t ht).2 h).symm

theorem life_dated (hk : c.kind = .time pat) (hp : Periods lib pat start T0 T1) {d0 d : Disk} {tr : STrace} {rw : RW} (hl : Life umask lib c d0 tr d rw)
    (hc : (clocks tr).Pairwise (· ≤ ·)) (hT : ∀ t ∈ clocks tr, T0 ≤ t ∧ t ≤ T1) :
    Dated lib c pat start tr ∧ (rw.timeName = [] ∨ ∃ t0, rw.timeName = lib.format t0 pat ∧ UpTo lib c pat start tr t0) := by
  have pre : ∀ {tr tr' : STrace}, (clocks (tr ++ tr')).Pairwise (· ≤ ·) → (∀ t ∈ clocks (tr ++ tr'), T0 ≤ t ∧ t ≤ T1) → (clocks tr).Pairwise (· ≤ ·) ∧ ∀ t ∈ clocks tr, T0 ≤ t ∧ t ≤ T1 := by
    intro tr tr' h1 h2
    rw [clocks_append] at h1 h2
    exact ⟨(List.pairwise_append.mp h1).1, fun t ht => h2 t (by simp [ht])⟩
  induction hl with
  | start => exact ⟨fun u a n v e => by simp at e, .inl rfl⟩
  | restart _ ih => exact ⟨(ih hc hT).1, .inl rfl⟩
  | crash hl hr ih =>
    obtain ⟨p1, p2⟩ := pre hc hT
    obtain ⟨i1, i2⟩ := ih p1 p2
    exact ⟨dated_step hk hp hr hc hT i1 i2, .inl rfl⟩
  | @write tr d rw bs tr' res rw' d' hl hr ih =>
    obtain ⟨p1, p2⟩ := pre hc hT
    obtain ⟨i1, i2⟩ := ih p1 p2
    have hd := dated_step hk hp hr.stops hc hT i1 i2
    refine ⟨hd, ?_⟩
    have at_last : ∀ ks t, clocks tr' = ks ++ [t] → rw'.timeName = lib.format t pat → rw'.timeName = [] ∨ ∃ t0, rw'.timeName = lib.format t0 pat ∧ UpTo lib c pat start (tr ++ tr') t0 := by
      intro ks t e1 e2
      exact .inr ⟨t, e2, dated_last hp hd hc hT (ks := clocks tr ++ ks) (by rw [clocks_append, e1, List.append_assoc])⟩
    have nothing : rw'.timeName = rw.timeName → (∀ l, stampedFrom l tr' = []) → noMove tr' → rw'.timeName = [] ∨ ∃ t0, rw'.timeName = lib.format t0 pat ∧ UpTo lib c pat start (tr ++ tr') t0 := by
      intro e1 e2 e3
      rw [e1]
      rcases i2 with i2 | ⟨t0, j0, j1, j2, j3⟩
      · exact .inl i2
      · refine .inr ⟨t0, j0, by rw [clocks_append]; simp [j1], fun x hx => ?_, fun m hm => ?_⟩
        · rw [stamped, stampedFrom_append, e2, List.append_nil] at hx
          exact j2 x hx
        · obtain ⟨b, hm⟩ := hm
          rcases List.mem_append.mp hm with hm | hm
          · obtain ⟨t', q1, q2⟩ := j3 m ⟨b, hm⟩
            exact ⟨t', by rw [clocks_append]; simp [q1], q2⟩
          · exact absurd hm (e3 b m)
    obtain ⟨t, ⟨h1, u, e, ha⟩ | ⟨h1, h2, h3⟩⟩ := time_write hk (life_name hl) hr
    · exact at_last [] t (by rw [e]; simp [clocks, clocks_still (append_still ha)]) (append_timeName ha)
    · rcases h3 with ⟨_, _, h3, ⟨e, _⟩ | ⟨_, e | e⟩⟩ | ⟨names, t2, _, _, ⟨_, _, e1, e⟩ | ⟨_, _, _, u, w, _, _, _, e, hu, ha⟩⟩
      · exact nothing h3 (by rw [e]; exact fun _ => rfl) (by rw [e]; simp [noMove])
      · exact nothing h3 (by rw [e]; exact fun _ => rfl) (by rw [e]; simp [noMove])
      · exact nothing h3 (by rw [e]; exact fun _ => rfl) (by rw [e]; simp [noMove])
      · exact at_last [t] t2 (by rw [e]; rfl) (by rw [e1])
      · have hu' : clocks u = [] := by
          rcases hu with ⟨_, hu⟩ | ⟨rfl, _⟩
          · exact clocks_still (delete_still hu)
          · rfl
        exact at_last [t] t2 (by rw [e, clocks_append, clocks_append, hu', clocks_still (append_still ha)]; rfl) (append_timeName ha)

/-- What has been written since the last roll was written after the last look at the clock before any roll. -/
theorem since_after {b : Bytes} {u u' w : STrace} {a m : Str} (he : u = u' ++ ⟨.rename a m, true⟩ :: w) (hc : (clocks u).Pairwise (· ≤ ·)) {l : Int} (hl : l ∈ clocks u')
    {x : Option Int × Bytes} (hx : x ∈ since [(none, b)] u) : ∃ s, x.1 = some s ∧ s ∈ clocks u ∧ l ≤ s := by
  rcases since_cases [(none, b)] u with ⟨h, _⟩ | ⟨u1, a1, m1, v1, e1, h1, h2⟩
  · exact absurd (by rw [he]; simp) (h a m)
  · rw [h2] at hx
    have hl1 : l ∈ clocks u1 := by
      rcases split_append (e1.symm.trans he) with ⟨w1, rfl, _⟩ | ⟨w1, rfl, e2⟩
      · rw [clocks_append]; simp [hl]
      · cases w1 with
        | nil => simpa using hl
        | cons y w1 =>
          simp only [List.cons_append, List.cons.injEq] at e2
          exact absurd (by rw [e2.2]; simp) (h1 a m)
    have hcl : clocks u = clocks (u1 ++ v1) := by rw [e1, clocks_append, clocks_append]; rfl
    rw [hcl] at hc ⊢
    exact stamped_after hl1 hc hx

end Log4g
