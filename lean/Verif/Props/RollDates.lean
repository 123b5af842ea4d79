import Verif.Props.GoTime
import Verif.Lemmas.RollNamed

/-! # In which file a message is, with time rolling -/

namespace Log4g
open Spec Strconv GoTime
open scoped List

variable {lib : RLib} {c : RCfg} {umask : Nat}

/-- C119.  With periods that do not go backwards or repeat, no clock going backwards and all backups there at first from
earlier periods, whatever fails and however often the process dies or restarts: what was in the log file at first and
everything written since, each piece with the time it was written, is in order; a backup of a period holds consecutive
pieces, all that was written before them or among them was written in that period or before, all that was written after
them in later periods, and none of them in the period of an earlier backup that is still there; and the log file holds
the last pieces, none of them written in the period of a backup that is still there or before. -/
theorem C119_found_by_time {pat : Str} (hk : c.kind = .time pat) {start : Int → Int} {T0 T1 : Int} (hp : Periods lib pat start T0 T1) {d0 d : Disk}
    (hold : ∀ n v, Backup lib c n v → Regular d0.dir n → v < start T0) {tr : STrace} {rw : RW}
    (hl : Life umask lib c d0 tr d rw) (hclock : (clocks tr).Pairwise (· ≤ ·)) (hT : ∀ t ∈ clocks tr, T0 ≤ t ∧ t ≤ T1) :
    (∀ n v, Backup lib c n v → Regular d.dir n → start T0 ≤ v → ∃ before held after, (none, dataOf d0.dir c.fileName) :: stamped tr = before ++ held ++ after ∧
      dataOf d.dir n = (held.map Prod.snd).flatten ∧
      (∀ x ∈ before ++ held, ∀ s, x.1 = some s → start s ≤ v) ∧ (∀ x ∈ after, ∃ s, x.1 = some s ∧ v < start s) ∧
      ∀ x ∈ held, ∀ s, x.1 = some s → ∀ m w, Backup lib c m w → Regular d.dir m → w < v → w < start s) ∧
    ∃ before held, (none, dataOf d0.dir c.fileName) :: stamped tr = before ++ held ∧ dataOf d.dir c.fileName = (held.map Prod.snd).flatten ∧
      ∀ x ∈ held, ∀ s, x.1 = some s → ∀ m w, Backup lib c m w → Regular d.dir m → w < start s := by
  obtain ⟨hd, _⟩ := life_dated hk hp hl hclock hT
  have hled := life_ledger hl
  have hcl : ∀ {u v : STrace}, tr = u ++ v → (clocks u).Pairwise (· ≤ ·) ∧ ∀ t ∈ clocks u, T0 ≤ t ∧ t ≤ T1 := by
    intro u v e
    rw [e, clocks_append] at hclock hT
    exact ⟨(List.pairwise_append.mp hclock).1, fun t ht => hT t (by simp [ht])⟩
  -- the place of a backup is the start of its period
  have val : ∀ {n v t}, Backup lib c n v → n = backupName c.mode c.fileName (lib.format t pat) → T0 ≤ t → t ≤ T1 → v = start t := by
    intro n v t hv e h0 h1
    exact backup_unique hv ⟨_, e, by rw [hk]; exact .time (hp.nonempty t h0 h1) (hp.parse t h0 h1)⟩
  have first : ∀ s ∈ clocks tr, start T0 ≤ start s := fun s hs => hp.mono _ _ (Int.le_refl _) (hT s hs).1 (hT s hs).2
  have made : ∀ m w, Backup lib c m w → Regular d.dir m → w < start T0 ∨
      ∃ u a v, tr = u ++ ⟨.rename a m, true⟩ :: v ∧ dataOf d.dir m = ((since [(none, dataOf d0.dir c.fileName)] u).map Prod.snd).flatten := by
    intro m w hm ⟨data, p, e⟩
    rcases hled.old m data p (by rintro rfl; exact current_not_backup lib c w hm) e with ⟨q, h⟩ | ⟨u, a, v, h1, h2⟩
    · exact .inl (hold m w hm ⟨data, q, h⟩)
    · exact .inr ⟨u, a, v, h1, by rw [← h2]; simp [dataOf, e]⟩
  refine ⟨?_, ?_⟩
  · intro n v hn hr hv
    rcases made n v hn hr with h | ⟨u, a, w, e, hdat⟩
    · omega
    obtain ⟨t0, l, h1, ⟨u1, u2, u3⟩, h3, h4⟩ := hd u a n w e
    obtain ⟨hcu, hTu⟩ := hcl e
    have hv0 := val hn h1 (hTu t0 u1).1 (hTu t0 u1).2
    obtain ⟨before, hb⟩ := since_suffix [(none, dataOf d0.dir c.fileName)] u
    refine ⟨before, since [(none, dataOf d0.dir c.fileName)] u, stampedFrom (clocks u).getLast? w, ?_, hdat, ?_, ?_, ?_⟩
    · rw [hb, e, stamped, stampedFrom_append]
      simp [stamped, stampedFrom]
    · intro x hx s hs
      rw [hb] at hx
      rcases List.mem_append.mp hx with hx | hx
      · simp only [List.mem_singleton] at hx; rw [hx] at hs; cases hs
      · rw [hv0]; exact u2 x hx s hs
    · intro x hx
      have hc : clocks (u ++ w) = clocks tr := by rw [e, clocks_append, clocks_append]; rfl
      obtain ⟨s, h5, h6, h7⟩ := stamped_after h3 (by rw [hc]; exact hclock) hx
      rw [hc] at h6
      have := hp.mono l s (hTu l h3).1 h7 (hT s h6).2
      exact ⟨s, h5, by omega⟩
    · intro x hx s hs m w' hm hmr hlt
      have hsc : s ∈ clocks tr := by
        have := (since_suffix [(none, dataOf d0.dir c.fileName)] u).subset hx
        rcases List.mem_append.mp this with hx | hx
        · simp only [List.mem_singleton] at hx; rw [hx] at hs; cases hs
        · rw [e, clocks_append]; simp [stamped_mem hx hs]
      rcases made m w' hm hmr with h | ⟨u', a', v', e', _⟩
      · have := first s hsc; omega
      · obtain ⟨t0', l', k1, ⟨k2, k3, k4⟩, k5, k6⟩ := hd u' a' m v' e'
        obtain ⟨_, hTu'⟩ := hcl e'
        have hv1 := val hm k1 (hTu' t0' k2).1 (hTu' t0' k2).2
        rcases split_append (e.symm.trans e') with ⟨w2, e2, _⟩ | ⟨w2, e2, e3⟩
        · obtain ⟨s', j1, j2, j3⟩ := since_after e2 hcu k5 hx
          rw [hs] at j1; cases j1
          have := hp.mono l' s (hTu' l' k5).1 j3 (hT s hsc).2
          omega
        · exfalso
          cases w2 with
          | nil =>
            simp only [List.nil_append, List.cons.injEq] at e3
            have hnm : n = m := by have := e3.1; cases this; rfl
            subst hnm
            have := backup_unique hm hn
            omega
          | cons y w2 =>
            simp only [List.cons_append, List.cons.injEq] at e3
            obtain ⟨t, q1, q2, q3⟩ := k4 n ⟨a, by rw [e2, ← e3.1]; simp⟩
            have := val hn q2 (hTu' t q1).1 (hTu' t q1).2
            omega
  · obtain ⟨before, hb⟩ := since_suffix [(none, dataOf d0.dir c.fileName)] tr
    refine ⟨before, _, hb.symm, hled.cur, ?_⟩
    intro x hx s hs m w hm hmr
    have hsc : s ∈ clocks tr := by
      have := (since_suffix [(none, dataOf d0.dir c.fileName)] tr).subset hx
      rcases List.mem_append.mp this with hx | hx
      · simp only [List.mem_singleton] at hx; rw [hx] at hs; cases hs
      · exact stamped_mem hx hs
    rcases made m w hm hmr with h | ⟨u', a', v', e', _⟩
    · have := first s hsc; omega
    · obtain ⟨t0', l', k1, ⟨k2, k3, k4⟩, k5, k6⟩ := hd u' a' m v' e'
      obtain ⟨_, hTu'⟩ := hcl e'
      have hv1 := val hm k1 (hTu' t0' k2).1 (hTu' t0' k2).2
      obtain ⟨s', j1, j2, j3⟩ := since_after e' hclock k5 hx
      rw [hs] at j1; cases j1
      have := hp.mono l' s (hTu' l' k5).1 j3 (hT s hsc).2
      omega

/-- C119, where a message is.  If also no removal fails, every piece written at a time `s`, if a backup of a period before that of
`s` is still there, is in the first backup of the period of `s` or a later one; or in the log file, if there is no such
backup: right after what was written before it, and right before what was written after it. -/
theorem C119_where {pat : Str} (hk : c.kind = .time pat) {start : Int → Int} {T0 T1 : Int} (hp : Periods lib pat start T0 T1) {d0 d : Disk} {hs0 : List Str}
    (hb : Backups lib c d0.dir hs0) (hold : ∀ n ∈ hs0, ∀ v, Backup lib c n v → v < start T0) {tr : STrace} {rw : RW}
    (hl : Life umask lib c d0 tr d rw) (hrm : RemovesOk tr) (hclock : (clocks tr).Pairwise (· ≤ ·)) (hT : ∀ t ∈ clocks tr, T0 ≤ t ∧ t ≤ T1)
    {earlier later : List (Option Int × Bytes)} {s : Int} {bs : Bytes} (hpiece : stamped tr = earlier ++ (some s, bs) :: later)
    (hkeep : ∃ m w, Backup lib c m w ∧ Regular d.dir m ∧ w < start s) :
    ∃ f before h1 h2 after,
      ((∃ t v, T0 ≤ t ∧ t ≤ T1 ∧ f = backupName c.mode c.fileName (lib.format t pat) ∧ Backup lib c f v ∧ Regular d.dir f ∧ start s ≤ v ∧ ∀ n w, Backup lib c n w → Regular d.dir n → start s ≤ w → v ≤ w) ∨
        (f = c.fileName ∧ ∀ n w, Backup lib c n w → Regular d.dir n → w < start s)) ∧
      dataOf d.dir f = ((h1 ++ (some s, bs) :: h2).map Prod.snd).flatten ∧
      (none, dataOf d0.dir c.fileName) :: earlier = before ++ h1 ∧ later = h2 ++ after := by
  obtain ⟨hd, _⟩ := life_dated hk hp hl hclock hT
  have hled := life_ledger hl
  obtain ⟨hs, hsuf, hbs⟩ := life_names hk hp hb hold hl hrm hclock hT
  obtain ⟨A, n, b, r, B, e, rfl, rfl, hs1, rfl⟩ := stamped_split hpiece
  rw [Option.or_none] at hs1
  have hsA : s ∈ clocks A := List.mem_of_getLast? hs1.symm
  have hsc : s ∈ clocks tr := by rw [e, clocks_append]; simp [hsA]
  have hTs := hT s hsc
  have first := hp.mono T0 s (Int.le_refl _) hTs.1 hTs.2
  obtain ⟨before, hbef⟩ := since_suffix [(none, dataOf d0.dir c.fileName)] A
  -- backups made before the piece was written
  have hA : ∀ m w, Backup lib c m w → Moved A m → w < start s := by
    rintro m w hm ⟨a, hma⟩
    obtain ⟨X, Y, rfl⟩ := List.append_of_mem hma
    obtain ⟨t0, l, k1, ⟨k2, _⟩, k5, k6⟩ := hd X a m (Y ++ ⟨.write n b, r⟩ :: B) (by rw [e]; simp)
    have hX : ∀ t ∈ clocks X, T0 ≤ t ∧ t ≤ T1 := fun t ht => hT t (by rw [e, clocks_append, clocks_append]; simp [ht])
    rw [backup_unique hm (by rw [k1]; exact backup_start hk hp (hX t0 k2).1 (hX t0 k2).2)]
    have hls : l ≤ s := by
      have hcA : (clocks (X ++ ⟨.rename a m, true⟩ :: Y)).Pairwise (· ≤ ·) := by
        rw [e, clocks_append] at hclock
        exact (List.pairwise_append.mp hclock).1
      have hlA : l ∈ clocks (X ++ ⟨.rename a m, true⟩ :: Y) := by rw [clocks_append]; simp [k5]
      rcases List.eq_nil_or_concat (clocks (X ++ ⟨.rename a m, true⟩ :: Y)) with h0 | ⟨ks, t, h0⟩
      · rw [h0] at hlA; cases hlA
      · rw [List.concat_eq_append] at h0
        rw [h0] at hs1 hcA hlA
        have : t = s := by simpa using hs1.symm
        subst this
        rcases List.mem_append.mp hlA with h | h
        · exact (List.pairwise_append.mp hcA).2.2 l h t (by simp)
        · simp only [List.mem_singleton] at h; omega
    have := hp.mono l s (hX l k5).1 hls hTs.2
    omega
  -- and those made after
  have after_start : ∀ u, A ++ [⟨.write n b, r⟩] <+: u → ∀ t0, UpTo lib c pat start u t0 → start s ≤ start t0 := by
    rintro u ⟨v, rfl⟩ t0 ⟨_, h, _⟩
    refine h (some s, b.take r.1) ?_ s rfl
    rw [stamped, stampedFrom_append, stampedFrom_append]
    simp [stampedFrom, ← hs1]
  have there : ∀ m w, Backup lib c m w → Regular d.dir m → m ∈ hs0 ∨ Moved tr m := by
    intro m w hm hr
    rcases List.mem_append.mp (hsuf.subset ((hbs.all m).mpr ⟨⟨w, hm⟩, hr⟩)) with h | h
    · exact .inl h
    · exact .inr (mem_made.mp h)
  rcases first_move B with hB | ⟨B1, a, f, B2, rfl, hB1⟩
  · -- in the log file
    have hW : noMove (⟨.write n b, r⟩ :: B) := fun x y hm => by
      simp only [List.mem_cons, reduceCtorEq, Sigma.mk.injEq, false_and, false_or] at hm
      exact hB x y hm
    refine ⟨c.fileName, before, since [(none, dataOf d0.dir c.fileName)] A, stampedFrom (some s) B, [], .inr ⟨rfl, fun m w hm hr => ?_⟩, ?_, by rw [hbef]; rfl, by simp⟩
    · rcases there m w hm hr with h | ⟨x, h⟩
      · have := hold m h w hm; omega
      · rw [e] at h
        rcases List.mem_append.mp h with h | h
        · exact hA m w hm ⟨x, h⟩
        · exact absurd h (hW x m)
    · rw [hled.cur, e, since_grows _ _ hW, ← hs1]; rfl
  · -- in a backup
    have hW : noMove (⟨.write n b, r⟩ :: B1) := fun x y hm => by
      simp only [List.mem_cons, reduceCtorEq, Sigma.mk.injEq, false_and, false_or] at hm
      exact hB1 x y hm
    have e2 : tr = (A ++ ⟨.write n b, r⟩ :: B1) ++ ⟨.rename a f, true⟩ :: B2 := by rw [e]; simp
    obtain ⟨t0, l, k1, k2, _, _⟩ := hd _ a f B2 e2
    have ht0 : T0 ≤ t0 ∧ t0 ≤ T1 := hT t0 (by rw [e2, clocks_append]; simp [k2.1])
    have hf : Backup lib c f (start t0) := by rw [k1]; exact backup_start hk hp ht0.1 ht0.2
    have hst : start s ≤ start t0 := after_start _ ⟨B1, by simp⟩ t0 k2
    -- later backups
    have later : ∀ m w, Backup lib c m w → Moved B2 m → start t0 < w := by
      rintro m w hm ⟨x, hx⟩
      obtain ⟨X, Y, rfl⟩ := List.append_of_mem hx
      obtain ⟨t1, l1, j1, ⟨j2, _, j4⟩, _⟩ := hd ((A ++ ⟨.write n b, r⟩ :: B1) ++ ⟨.rename a f, true⟩ :: X) x m Y (by rw [e2]; simp)
      have ht1 : T0 ≤ t1 ∧ t1 ≤ T1 := hT t1 (by
        have : tr = ((A ++ ⟨.write n b, r⟩ :: B1) ++ ⟨.rename a f, true⟩ :: X) ++ ⟨.rename x m, true⟩ :: Y := by rw [e2]; simp
        rw [this, clocks_append]; exact List.mem_append_left _ j2)
      obtain ⟨t, q1, q2, q3⟩ := j4 f ⟨a, by simp⟩
      have ht : T0 ≤ t ∧ t ≤ T1 := hT t (by
        have : tr = ((A ++ ⟨.write n b, r⟩ :: B1) ++ ⟨.rename a f, true⟩ :: X) ++ ⟨.rename x m, true⟩ :: Y := by rw [e2]; simp
        rw [this, clocks_append]; exact List.mem_append_left _ q1)
      rw [backup_unique hm (by rw [j1]; exact backup_start hk hp ht1.1 ht1.2)]
      rw [backup_unique hf (by rw [q2]; exact backup_start hk hp ht.1 ht.2)]
      exact q3
    have hcases : ∀ m w, Backup lib c m w → Regular d.dir m → w < start s ∨ m = f ∨ start t0 < w := by
      intro m w hm hr
      rcases there m w hm hr with h | ⟨x, h⟩
      · have := hold m h w hm; exact .inl (by omega)
      · rw [e2] at h
        rcases List.mem_append.mp h with h | h
        · rcases List.mem_append.mp h with h | h
          · exact .inl (hA m w hm ⟨x, h⟩)
          · exact absurd h (hW x m)
        · rcases List.mem_cons.mp h with h | h
          · cases h; exact .inr (.inl rfl)
          · exact .inr (.inr (later m w hm ⟨x, h⟩))
    have hreg : Regular d.dir f := by
      obtain ⟨m, w, hm, hmr, hlt⟩ := hkeep
      have hmem : m ∈ hs := (hbs.all m).mpr ⟨⟨w, hm⟩, hmr⟩
      obtain ⟨pre, hpre⟩ := hsuf
      have hmade : made tr = made (A ++ ⟨.write n b, r⟩ :: B1) ++ f :: made B2 := by rw [e2, made_append]; rfl
      rw [hmade, ← List.append_assoc] at hpre
      refine ((hbs.all f).mp ?_).2
      rcases List.append_eq_append_iff.mp hpre with ⟨x, _, h⟩ | ⟨x, _, h⟩
      · rw [h]; simp
      · have : m ∈ f :: made B2 := by rw [h]; simp [hmem]
        rcases List.mem_cons.mp this with rfl | this
        · have := backup_unique hm hf; omega
        · have := later m w hm (mem_made.mp this); omega
    refine ⟨f, before, since [(none, dataOf d0.dir c.fileName)] A, stampedFrom (some s) B1, stampedFrom ((clocks B1).getLast?.or (some s)) (⟨.rename a f, true⟩ :: B2),
      .inl ⟨t0, start t0, ht0.1, ht0.2, k1, hf, hreg, hst, fun m w hm hr hle => ?_⟩, ?_, by rw [hbef]; rfl, by rw [stampedFrom_append]⟩
    · rcases hcases m w hm hr with h | rfl | h
      · omega
      · rw [backup_unique hm hf]; exact Int.le_refl _
      · omega
    · obtain ⟨data, p, ef⟩ := hreg
      have hne : f ≠ c.fileName := by rintro rfl; exact current_not_backup lib c _ hf
      rcases hled.old f data p hne ef with ⟨q, h⟩ | ⟨u, a', v, e', h⟩
      · have := hold f ((hb.all f).mpr ⟨⟨_, hf⟩, _, _, h⟩) _ hf
        omega
      · have := move_unique hk hp hT hd e2 e'
        rw [dataOf_file ef, h, ← this, since_grows _ _ hW, ← hs1]; rfl

variable {z : Zone} {other : RLib} {ps : List DatePiece} {k : Nat}

theorem ofPeriod_backup (hp : NamesDownTo ps k) (hk : c.kind = .time (patternText ps)) {n : Str} {b : Civil} (h : OfPeriod c ps k b n) :
    ∃ c', Spec.Exists c' ∧ b = beginning k c' ∧ Backup (library z other) c n (z.date (beginning k c') 0) := by
  obtain ⟨c', he, hy, hy', hname, hb⟩ := h
  exact ⟨c', he, beginningOf_eq hb, _, hname, by rw [hk]; exact .time (name_nonempty hp c') (library_parse hp he ⟨hy, hy'⟩)⟩

theorem duringPeriod_eq {t : Int} {b : Civil} (h : DuringPeriod z k t b) : b = beginning k (shown z t) := by
  obtain ⟨c, hc, hb⟩ := h
  rw [reads_shown hc] at hb
  exact beginningOf_eq hb

theorem inPeriod (z : Zone) (k : Nat) (t : Int) : DuringPeriod z k t (beginning k (shown z t)) := ⟨_, shown_reads z t, beginning_of _ _⟩

theorem date_lt_iff (hz : SmallChanges z k) {c c' : Civil} (hc : Spec.Exists c) (hc' : Spec.Exists c') :
    z.date (beginning k c) 0 < z.date (beginning k c') 0 ↔ secondsTo (beginning k c) < secondsTo (beginning k c') := by
  refine ⟨fun h => ?_, date_lt hz hc hc'⟩
  rcases Int.lt_or_le (secondsTo (beginning k c)) (secondsTo (beginning k c')) with h' | h'
  · exact h'
  · have := date_le hz hc' hc h'
    omega

theorem date_le_iff (hz : SmallChanges z k) {c c' : Civil} (hc : Spec.Exists c) (hc' : Spec.Exists c') :
    z.date (beginning k c) 0 ≤ z.date (beginning k c') 0 ↔ secondsTo (beginning k c) ≤ secondsTo (beginning k c') := by
  have := date_lt_iff hz hc' hc
  omega

theorem fromBefore_lt (hp : NamesDownTo ps k) (hk : c.kind = .time (patternText ps)) (hz : SmallChanges z k) {T0 : Int} {b0 : Civil} (hb0 : DuringPeriod z k T0 b0) {n : Str}
    (h : FromBefore c ps k b0 n) {v : Int} (hv : Backup (library z other) c n v) : v < periodStart z k T0 := by
  obtain ⟨c', b', he, hy, hy', hname, hb', hlt⟩ := h
  obtain ⟨c'', he', hb'', hB⟩ := ofPeriod_backup (z := z) (other := other) hp hk ⟨c', he, hy, hy', hname, hb'⟩
  rw [hb'', duringPeriod_eq hb0] at hlt
  rw [backup_unique hv hB]
  exact date_lt hz he' (shown_reads z T0).1 hlt

/-- C119 by the calendar.  In a time zone whose clocks are not put back into a period that is over, if all backups there at first were made in
periods before the first one: a backup of one of the later periods holds consecutive pieces of the log; what is before or
in it was written in its period or an earlier one, what is after it in later periods; and the log file holds the last
pieces, which were written in later periods than those of all backups that are still there. -/
theorem C119_calendar (hp : NamesDownTo ps k) (hk : c.kind = .time (patternText ps)) (hz : SmallChanges z k) {T0 T1 : Int} (hback : NeverBack z k T0 T1)
    (hT : ∀ t, T0 ≤ t → t ≤ T1 → FourDigitYear z t) {b0 : Civil} (hb0 : DuringPeriod z k T0 b0) {d0 : Disk} {hs0 : List Str}
    (hb : Backups (library z other) c d0.dir hs0) (hold : ∀ n ∈ hs0, FromBefore c ps k b0 n) {tr : STrace} {d : Disk} {rw : RW}
    (hl : Life umask (library z other) c d0 tr d rw) (hclock : (clocks tr).Pairwise (· ≤ ·)) (ht : ∀ t ∈ clocks tr, T0 ≤ t ∧ t ≤ T1) :
    (∀ n b, OfPeriod c ps k b n → Regular d.dir n → secondsTo b0 ≤ secondsTo b → ∃ before held after, (none, dataOf d0.dir c.fileName) :: stamped tr = before ++ held ++ after ∧
      dataOf d.dir n = (held.map Prod.snd).flatten ∧
      (∀ x ∈ before ++ held, ∀ s b', x.1 = some s → DuringPeriod z k s b' → secondsTo b' ≤ secondsTo b) ∧
      (∀ x ∈ after, ∃ s, x.1 = some s ∧ ∀ b', DuringPeriod z k s b' → secondsTo b < secondsTo b')) ∧
    ∃ before held, (none, dataOf d0.dir c.fileName) :: stamped tr = before ++ held ∧ dataOf d.dir c.fileName = (held.map Prod.snd).flatten ∧
      ∀ x ∈ held, ∀ s b', x.1 = some s → DuringPeriod z k s b' → ∀ m b, OfPeriod c ps k b m → Regular d.dir m → secondsTo b < secondsTo b' := by
  have hP : Periods (library z other) (patternText ps) (periodStart z k) T0 T1 := calendar_periods hp hz hback hT
  have hold' : ∀ n v, Backup (library z other) c n v → Regular d0.dir n → v < periodStart z k T0 := fun n v hv hr =>
    fromBefore_lt hp hk hz hb0 (hold n ((hb.all n).mpr ⟨⟨v, hv⟩, hr⟩)) hv
  obtain ⟨h1, before, held, h2, h3, h4⟩ := C119_found_by_time hk hP hold' hl hclock ht
  refine ⟨fun n b hn hr hle => ?_, before, held, h2, h3, fun x hx s b' e hs m b hm hr => ?_⟩
  · obtain ⟨c', he, rfl, hB⟩ := ofPeriod_backup (z := z) (other := other) hp hk hn
    rw [duringPeriod_eq hb0] at hle
    obtain ⟨before, held, after, g1, g2, g3, g4, _⟩ := h1 n _ hB hr ((date_le_iff hz (shown_reads z T0).1 he).mpr hle)
    refine ⟨before, held, after, g1, g2, fun x hx s b' e hs => ?_, fun x hx => ?_⟩
    · rw [duringPeriod_eq hs]
      exact (date_le_iff hz (shown_reads z s).1 he).mp (g3 x hx s e)
    · obtain ⟨s, e, h⟩ := g4 x hx
      refine ⟨s, e, fun b' hs => ?_⟩
      rw [duringPeriod_eq hs]
      exact (date_lt_iff hz he (shown_reads z s).1).mp h
  · obtain ⟨c', he, rfl, hB⟩ := ofPeriod_backup (z := z) (other := other) hp hk hm
    rw [duringPeriod_eq hs]
    exact (date_lt_iff hz he (shown_reads z s).1).mp (h4 x hx s e m _ hB hr)

/-- C119 by the calendar, where a message is.  If also no removal fails: every piece written in a period, if a backup of an earlier
period is still there, is in the first backup of that period or a later one; or in the log file, if there is no such backup. -/
theorem C119_calendar_where (hp : NamesDownTo ps k) (hk : c.kind = .time (patternText ps)) (hz : SmallChanges z k) {T0 T1 : Int} (hback : NeverBack z k T0 T1)
    (hT : ∀ t, T0 ≤ t → t ≤ T1 → FourDigitYear z t) {b0 : Civil} (hb0 : DuringPeriod z k T0 b0) {d0 : Disk} {hs0 : List Str}
    (hb : Backups (library z other) c d0.dir hs0) (hold : ∀ n ∈ hs0, FromBefore c ps k b0 n) {tr : STrace} {d : Disk} {rw : RW}
    (hl : Life umask (library z other) c d0 tr d rw) (hrm : RemovesOk tr) (hclock : (clocks tr).Pairwise (· ≤ ·)) (ht : ∀ t ∈ clocks tr, T0 ≤ t ∧ t ≤ T1)
    {earlier later : List (Option Int × Bytes)} {s : Int} {bs : Bytes} (hpiece : stamped tr = earlier ++ (some s, bs) :: later) {b : Civil} (hs : DuringPeriod z k s b)
    (hkeep : ∃ m b', OfPeriod c ps k b' m ∧ Regular d.dir m ∧ secondsTo b' < secondsTo b) :
    ∃ f before h1 h2 after,
      ((∃ bf, OfPeriod c ps k bf f ∧ Regular d.dir f ∧ secondsTo b ≤ secondsTo bf ∧
          ∀ n b', OfPeriod c ps k b' n → Regular d.dir n → secondsTo b ≤ secondsTo b' → secondsTo bf ≤ secondsTo b') ∨
        (f = c.fileName ∧ ∀ n b', OfPeriod c ps k b' n → Regular d.dir n → secondsTo b' < secondsTo b)) ∧
      dataOf d.dir f = ((h1 ++ (some s, bs) :: h2).map Prod.snd).flatten ∧
      (none, dataOf d0.dir c.fileName) :: earlier = before ++ h1 ∧ later = h2 ++ after := by
  have hP : Periods (library z other) (patternText ps) (periodStart z k) T0 T1 := calendar_periods hp hz hback hT
  have hold' : ∀ n ∈ hs0, ∀ v, Backup (library z other) c n v → v < periodStart z k T0 := fun n hn v hv => fromBefore_lt hp hk hz hb0 (hold n hn) hv
  have eb := duringPeriod_eq hs
  subst eb
  have es := (shown_reads z s).1
  have hkeep' : ∃ m w, Backup (library z other) c m w ∧ Regular d.dir m ∧ w < periodStart z k s := by
    obtain ⟨m, b', hm, hr, hlt⟩ := hkeep
    obtain ⟨c', he, rfl, hB⟩ := ofPeriod_backup (z := z) (other := other) hp hk hm
    exact ⟨m, _, hB, hr, (date_lt_iff hz he es).mpr hlt⟩
  obtain ⟨f, before, h1, h2, after, hf, g1, g2, g3⟩ := C119_where hk hP hb hold' hl hrm hclock ht hpiece hkeep'
  refine ⟨f, before, h1, h2, after, ?_, g1, g2, g3⟩
  rcases hf with ⟨t, v, t0, t1, e, hB, hr, hle, hfirst⟩ | ⟨e, hnone⟩
  · have et := (shown_reads z t).1
    have hf : OfPeriod c ps k (beginning k (shown z t)) f :=
      ⟨_, et, (four_year (hT t t0 t1)).1, (four_year (hT t t0 t1)).2, by rw [e, library_format hp (hT t t0 t1)], beginning_of _ _⟩
    have hv : v = periodStart z k t := backup_unique hB (by rw [e]; exact backup_start hk hP t0 t1)
    subst hv
    refine .inl ⟨_, hf, hr, (date_le_iff hz es et).mp hle, fun n b' hn hr' hle' => ?_⟩
    obtain ⟨c', he, rfl, hB'⟩ := ofPeriod_backup (z := z) (other := other) hp hk hn
    exact (date_le_iff hz et he).mp (hfirst n _ hB' hr' ((date_le_iff hz es he).mpr hle'))
  · refine .inr ⟨e, fun n b' hn hr' => ?_⟩
    obtain ⟨c', he, rfl, hB'⟩ := ofPeriod_backup (z := z) (other := other) hp hk hn
    exact (date_lt_iff hz he es).mp (hnone n _ hB' hr')

/-! The backup log.0 from before, five messages in the periods 1, 1, 2, 3 and 3, and at most two backups. -/
theorem demo_old : ∀ n v, Backup demoRLib demoTCfg n v → Regular demoTDisk0.disk.dir n → v < id (1 : Int) := by
  intro n v hv hr
  have hb : Backups demoRLib demoTCfg demoTDisk0.disk.dir [c!"log.0"] := backupsB_ok (by decide +kernel)
  have hn := (hb.all n).mpr ⟨⟨v, hv⟩, hr⟩
  simp only [List.mem_singleton] at hn
  subst hn
  rw [← backup_key hv]
  decide

theorem demo_backup1 : Backup demoRLib demoTCfg c!"log.1" 1 := ⟨c!"1", rfl, .time (by decide) (by decide +kernel)⟩
theorem demo_backup2 : Backup demoRLib demoTCfg c!"log.2" 2 := ⟨c!"2", rfl, .time (by decide) (by decide +kernel)⟩

example : Life 0o022 demoRLib demoTCfg demoTDisk0.disk demoTRun.tr demoTRun.L'.disk demoTRun.rw ∧ (clocks demoTRun.tr).Pairwise (· ≤ ·) ∧ (∀ t ∈ clocks demoTRun.tr, 1 ≤ t ∧ t ≤ 9) ∧
    Regular demoTRun.L'.disk.dir c!"log.2" ∧ stamped demoTRun.tr = [(some 1, [2]), (some 1, [3])] ++ (some 2, [4]) :: [(some 3, [5, 5, 5]), (some 3, [6])] ∧
    (∃ m w, Backup demoRLib demoTCfg m w ∧ Regular demoTRun.L'.disk.dir m ∧ w < id (2 : Int)) ∧ dataOf demoTRun.L'.disk.dir c!"log.2" = [4] :=
  ⟨demoTRun.life, by decide +kernel, by decide +kernel, ⟨[4], 0o500, by decide +kernel⟩, by decide +kernel,
    ⟨c!"log.1", 1, demo_backup1, ⟨[2, 3], 0o500, by decide +kernel⟩, by decide⟩, by decide +kernel⟩

/-! After a restart: what was written in period 1 is in the backup of period 2. -/
example : Life 0o022 demoRLib demoTCfg ({ files := [] } : LDisk).disk ([] ++ lateWrite1.tr ++ lateWrite2.tr ++ lateWrite3.tr) lateWrite3.L'.disk lateWrite3.rw' ∧
    (clocks ([] ++ lateWrite1.tr ++ lateWrite2.tr ++ lateWrite3.tr)).Pairwise (· ≤ ·) ∧ stamped ([] ++ lateWrite1.tr ++ lateWrite2.tr ++ lateWrite3.tr) = [(some 1, [1]), (some 2, [2]), (some 3, [3])] ∧
    dataOf lateWrite3.L'.disk.dir c!"log.2" = [1, 2] ∧ dataOf lateWrite3.L'.disk.dir c!"log" = [3] :=
  ⟨.write (.write (.restart (.write .start lateWrite1.runs)) lateWrite2.runs) lateWrite3.runs, by decide +kernel, by decide +kernel, by decide +kernel, by decide +kernel⟩

/-! By the calendar: the run of daily rolling. -/
def feb29 : Civil := { year := 2020, month := 2, day := 29, hour := 0, minute := 0, second := 0 }
def feb29late : Civil := { year := 2020, month := 2, day := 29, hour := 23, minute := 59, second := 59 }

example : Life 0o022 dailyLib dailyCfg dailyDisk0.disk dailyRun.tr dailyRun.L'.disk dailyRun.rw ∧ (clocks dailyRun.tr).Pairwise (· ≤ ·) ∧ RemovesOk dailyRun.tr ∧
    DuringPeriod (fixedZone 28800) 2 1582905599000000000 feb28 ∧ DuringPeriod (fixedZone 28800) 2 1582991999999999999 feb29 ∧
    stamped dailyRun.tr = [(some 1582905599000000000, [1]), (some 1582905600000000000, [2])] ++ (some 1582991999999999999, [3]) :: [(some 1582992001000000000, [4])] ∧
    (∃ m b', OfPeriod dailyCfg dailyPieces 2 b' m ∧ Regular dailyRun.L'.disk.dir m ∧ secondsTo b' < secondsTo feb29) ∧
    dataOf dailyRun.L'.disk.dir c!"log.2020-02-29" = [2, 3] :=
  ⟨dailyRun.life, by decide +kernel, removesOkB_ok (by decide +kernel), ⟨_, feb28late_reads, ⟨rfl, rfl, rfl, rfl, rfl, rfl⟩⟩,
    ⟨feb29late, ⟨⟨by decide, by decide, by decide, ⟨29, rfl, by decide⟩, by decide, by decide, by decide⟩, by decide +kernel⟩, ⟨rfl, rfl, rfl, rfl, rfl, rfl⟩⟩, by decide +kernel,
    ⟨c!"log.2020-02-28", feb28, ⟨feb28, ⟨by decide, by decide, by decide, ⟨29, rfl, by decide⟩, by decide, by decide, by decide⟩, by decide, by decide, by decide +kernel, ⟨rfl, rfl, rfl, rfl, rfl, rfl⟩⟩,
      ⟨[1], 0o500, by decide +kernel⟩, by decide +kernel⟩, by decide +kernel⟩

end Log4g
