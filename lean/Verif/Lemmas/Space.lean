import Verif.Lemmas.RollRestarts
import Verif.Spec.Space
import Verif.Lemmas.RetentionProgram
import Verif.Props.RollingConfig

/-! # Lemmas for C126 -/

namespace Log4g
open Spec

variable {umask : Nat} {lib : RLib} {c : RCfg}

theorem deaths_append (a b : List Deed) : deaths (a ++ b) = deaths a + deaths b := by simp [deaths]

theorem failedRemovals_append (a b : STrace) : failedRemovals (a ++ b) = failedRemovals a + failedRemovals b := by simp [failedRemovals]

theorem atMost_mono {d : Dir} {N M : Int} (h : AtMost lib c d N) (hle : N ≤ M) : AtMost lib c d M := fun hs h1 h2 => Int.le_trans (h hs h1 h2) hle

theorem filesAtMost_mono {d : Dir} {N M : Int} (h : FilesAtMost lib c d N) (hle : N ≤ M) : FilesAtMost lib c d M := fun hs h1 h2 => Int.le_trans (h hs h1 h2) hle

/-- The log file is one more, if it is there. -/
theorem files_with {d : Dir} {N : Int} (h : AtMost lib c d N) : FilesAtMost lib c d (N + 1) := by
  intro ns hnd hall
  have := h (ns.filter fun n => n ≠ c.fileName) (hnd.filter _) fun n hn => by
    obtain ⟨hn, hne⟩ := List.mem_filter.mp hn
    obtain ⟨hl, hr⟩ := hall n hn
    exact ⟨hl.resolve_left (by simpa using hne), hr⟩
  have h2 : ns.length ≤ (c.fileName :: ns.filter fun n => n ≠ c.fileName).length := nodup_length_le hnd fun n hn => by
    by_cases e : n = c.fileName
    · simp [e]
    · exact List.mem_cons_of_mem _ (List.mem_filter.mpr ⟨hn, by simpa using e⟩)
  simp only [List.length_cons] at h2
  omega

theorem files_without {d : Dir} {N : Int} (h : AtMost lib c d N) (hc : d c.fileName = none) : FilesAtMost lib c d N := by
  intro ns hnd hall
  refine h ns hnd fun n hn => ?_
  obtain ⟨hl, hr⟩ := hall n hn
  refine ⟨hl.resolve_left ?_, hr⟩
  rintro rfl
  obtain ⟨_, _, e⟩ := hr
  rw [hc] at e; cases e

/-- Names whose removal failed. -/
theorem failed_names {tr : STrace} {ns : List Str} (hnd : ns.Nodup) (h : ∀ n ∈ ns, (⟨.remove n, false⟩ : (o : Sys) × o.Resp) ∈ tr) : ns.length ≤ failedRemovals tr := by
  have key : ∃ L : List Str, L.length = failedRemovals tr ∧ ∀ n, (⟨.remove n, false⟩ : (o : Sys) × o.Resp) ∈ tr → n ∈ L := by
    clear h hnd
    induction tr with
    | nil => exact ⟨[], rfl, fun n hn => by cases hn⟩
    | cons x tr ih =>
      obtain ⟨L, h1, h2⟩ := ih
      by_cases hx : ∃ n, x = (⟨.remove n, false⟩ : (o : Sys) × o.Resp)
      · obtain ⟨n, rfl⟩ := hx
        refine ⟨n :: L, by simp [failedRemovals, h1], fun m hm => ?_⟩
        rcases List.mem_cons.mp hm with e | hm
        · cases e; simp
        · exact List.mem_cons_of_mem _ (h2 m hm)
      · refine ⟨L, ?_, fun m hm => ?_⟩
        · rw [h1]
          unfold failedRemovals
          rw [List.countP_cons_of_neg]
          obtain ⟨o, r⟩ := x
          cases o <;> simp
          cases r with
          | true => simp
          | false => exact absurd ⟨_, rfl⟩ hx
        · rcases List.mem_cons.mp hm with e | hm
          · exact absurd ⟨m, e.symm⟩ hx
          · exact h2 m hm
  obtain ⟨L, h1, h2⟩ := key
  rw [← h1]
  exact nodup_length_le hnd fun n hn => h2 n (h n hn)

/-- Backups of which few were not removed. -/
theorem atMost_kept {d : Dir} {tr : STrace} {M : Int}
    (h : ∀ hs : List Str, hs.Nodup → (∀ n ∈ hs, (∃ v, Backup lib c n v) ∧ Regular d n ∧ (⟨.remove n, false⟩ : (o : Sys) × o.Resp) ∉ tr) → (hs.length : Int) ≤ M) :
    AtMost lib c d (M + failedRemovals tr) := by
  intro hs hnd hall
  classical
  have h1 := h (hs.filter fun n => decide ((⟨.remove n, false⟩ : (o : Sys) × o.Resp) ∉ tr)) (hnd.filter _) fun n hn => by
    obtain ⟨hn, hne⟩ := List.mem_filter.mp hn
    exact ⟨(hall n hn).1, (hall n hn).2, by simpa using hne⟩
  have h2 := failed_names (tr := tr) (ns := hs.filter fun n => !decide ((⟨.remove n, false⟩ : (o : Sys) × o.Resp) ∉ tr)) (hnd.filter _) fun n hn => by
    obtain ⟨hn, hne⟩ := List.mem_filter.mp hn
    simpa using hne
  have h3 : hs.length ≤ (hs.filter (fun n => decide ((⟨.remove n, false⟩ : (o : Sys) × o.Resp) ∉ tr)) ++
      hs.filter fun n => !decide ((⟨.remove n, false⟩ : (o : Sys) × o.Resp) ∉ tr)).length := nodup_length_le hnd fun n hn => by
    rw [List.mem_append, List.mem_filter, List.mem_filter]
    cases decide ((⟨.remove n, false⟩ : (o : Sys) × o.Resp) ∉ tr) <;> simp [hn]
  rw [List.length_append] at h3
  omega

/-- A write. -/
theorem write_atMost (hmax : 0 < c.maxRolls) {N : Int} (hN : c.maxRolls ≤ N) {rw rw' : RW} {bs : Bytes} {d d' : Disk} {tr : STrace} {res : Nat × Bool}
    (hk : Knows c rw d) (h : Runs umask (c.write lib rw bs) d tr (res, rw') d') (hf : AtMost lib c d.dir N) : AtMost lib c d'.dir (N + failedRemovals tr) := by
  by_cases hr : rolls tr = 0
  · refine atMost_mono (N := N) ?_ (by omega)
    rcases (write_dir hk h).2.2 with ⟨_, h2, _⟩ | ⟨_, _, _, _, _, h2, _⟩
    · intro hs hnd hall
      refine hf hs hnd fun n hn => ?_
      obtain ⟨⟨v, hv⟩, x, y, hx⟩ := hall n hn
      refine ⟨⟨v, hv⟩, x, y, ?_⟩
      rw [← h2 n (by rintro rfl; exact current_not_backup lib c v hv)]
      exact hx
    · omega
  · refine atMost_mono (atMost_kept (M := c.maxRolls) fun hs hnd hall => write_rolled hmax (knows_name hk) h (by omega) hnd hall) (by omega)

/-- A roll that has moved the log file away. -/
theorem moved_atMost {N : Int} {d d' : Dir} {b : Str} (h1 : ∀ n, n ≠ c.fileName → n ≠ b → d' n = d n ∨ d' n = none) (hf : AtMost lib c d N) : AtMost lib c d' (N + 1) := by
  intro hs hnd hall
  have := hf (hs.filter fun n => n ≠ b) (hnd.filter _) fun n hn => by
    obtain ⟨hn, hne⟩ := List.mem_filter.mp hn
    obtain ⟨⟨v, hv⟩, x, y, hx⟩ := hall n hn
    refine ⟨⟨v, hv⟩, x, y, ?_⟩
    rcases h1 n (by rintro rfl; exact current_not_backup lib c v hv) (by simpa using hne) with h | h
    · rw [← h]; exact hx
    · rw [h] at hx; cases hx
  have h2 : hs.length ≤ (b :: hs.filter fun n => n ≠ b).length := nodup_length_le hnd fun n hn => by
    by_cases e : n = b
    · simp [e]
    · exact List.mem_cons_of_mem _ (List.mem_filter.mpr ⟨hn, by simpa using e⟩)
  simp only [List.length_cons] at h2
  omega

theorem atMost_same {N : Int} {d d' : Dir} (h : ∀ n, n ≠ c.fileName → d' n = d n) (hf : AtMost lib c d N) : AtMost lib c d' N := by
  intro hs hnd hall
  refine hf hs hnd fun n hn => ?_
  obtain ⟨⟨v, hv⟩, x, y, hx⟩ := hall n hn
  refine ⟨⟨v, hv⟩, x, y, ?_⟩
  rw [← h n (by rintro rfl; exact current_not_backup lib c v hv)]
  exact hx

/-- Any moment of a write. -/
theorem stops_files (hmax : 0 < c.maxRolls) {N : Int} (hN : c.maxRolls ≤ N) {rw : RW} {bs : Bytes} {d d' : Disk} {tr : STrace}
    (hk : Knows c rw d) (h : Stops umask (c.write lib rw bs) d tr d') (hf : AtMost lib c d.dir N) :
    AtMost lib c d'.dir (N + 1 + failedRemovals tr) ∧ FilesAtMost lib c d'.dir (N + 1 + failedRemovals tr) := by
  have same : ∀ {d' : Disk}, (∀ n, n ≠ c.fileName → d'.dir n = d.dir n) → AtMost lib c d'.dir (N + 1 + failedRemovals tr) ∧ FilesAtMost lib c d'.dir (N + 1 + failedRemovals tr) := by
    intro d' hd
    have := atMost_same hd hf
    exact ⟨atMost_mono this (by omega), filesAtMost_mono (files_with this) (by omega)⟩
  rw [RCfg.write] at h
  rcases stops_bind h with h | ⟨t1, ⟨b, rw1⟩, d1, t2, h1, h2, rfl⟩
  · exact same fun n hn => touch_stops (own := (· = c.fileName)) ((all_needsToRoll lib c rw).mono fun o h => by rw [h]; trivial) h hn
  · obtain ⟨rfl, _⟩ := runs_needsToRoll h1
    have hprop := Prog.Does.runs (does_needsToRoll lib c rw) h1
    have hk1 : Knows c rw1 d1 := by
      intro hf
      rw [hprop.1] at hf
      obtain ⟨a, b⟩ := hk hf
      exact ⟨by rw [hprop.2.1, a], by rw [hprop.2.2.1]; exact b⟩
    cases b with
    | false =>
      obtain ⟨q, hq⟩ := stops_reaches h2
      obtain ⟨t3, ⟨res, rw'⟩, hr⟩ := (hq.safe (safe_append hk1 bs)).stays
      exact same fun n hn => append_other (knows_name hk1) (hq.runs hr) hn
    | true =>
      simp only [if_true] at h2
      have cut : ∀ {t : STrace} {d2 : Disk} {ok : Bool} {rw2 : RW}, Runs umask (c.roll lib rw1) d1 t (ok, rw2) d2 →
          (∀ n, n ≠ c.fileName → d2.dir n = d1.dir n) ∨ (ok = true ∧ d2.dir c.fileName = none ∧ AtMost lib c d2.dir (N + 1)) := by
        intro t d2 ok rw2 hr
        rcases runs_roll hr with ⟨_, rfl, _⟩ | ⟨hf1, names, t4, hrd, _, ho⟩
        · exact .inl fun _ _ => rfl
        · cases ok with
          | false =>
            obtain ⟨tag, t5, _, h5⟩ := runs_rollOver ho
            rcases h5 with ⟨_, _, rfl⟩ | ⟨h5, _⟩
            · exact .inl fun _ _ => rfl
            · cases h5
          | true =>
            obtain ⟨hn1, data, p, he, _⟩ := hk1 hf1
            obtain ⟨tag, q, _, _, hc1, hc2, hc3⟩ := rolled_dir (rw := { rw1 with file := none }) hn1 ho he
            exact .inr ⟨rfl, hc1, moved_atMost hc2 hf⟩
      rcases stops_bind h2 with h2 | ⟨t3, ⟨ok, rw2⟩, d2, t4, h3, h4, rfl⟩
      · obtain ⟨q, hq⟩ := stops_reaches h2
        obtain ⟨t3, ⟨ok, rw'⟩, hr⟩ := (hq.safe (Prog.All.safe ((all_roll (own := fun _ => True) (fun _ => trivial) (fun _ _ _ => trivial) fun _ _ => trivial).mono rollOp_failable) d1)).stays
        rcases cut (hq.runs hr) with hd | ⟨_, hc, ha⟩
        · exact same hd
        · exact ⟨atMost_mono ha (by omega), filesAtMost_mono (files_without ha hc) (by omega)⟩
      · cases ok with
        | false =>
          cases h4
          rcases cut h3 with hd | ⟨hx, _⟩
          · exact same hd
          · cases hx
        | true =>
          have hno := (Prog.Does.runs (does_roll (own := fun _ => True) (lib := lib) (c := c) (rw := rw1) (fun _ => trivial) (fun _ _ _ => trivial) fun _ _ => trivial) h3).1
          have hk2 : Knows c rw2 d2 := fun hx => absurd hx hno
          obtain ⟨q, hq⟩ := stops_reaches h4
          obtain ⟨t5, ⟨res, rw'⟩, hr⟩ := (hq.safe (safe_append hk2 bs)).stays
          have hd := fun n hn => append_other (knows_name hk2) (hq.runs hr) (n := n) hn
          rcases runs_roll h3 with ⟨h3, _⟩ | ⟨hf1, names, t6, hrd, rfl, ho⟩
          · cases h3
          · obtain ⟨L, hL, hmem⟩ := rolled_backups hmax (knows_name hk1 hf1) (fun n ⟨v, hv⟩ hreg => historyOf_mem hv ((hrd.2.2 n).mpr hreg)) ho
            have ha : AtMost lib c d2.dir (c.maxRolls + failedRemovals t6) := atMost_kept fun hs hnd hall => by
              have : hs.length ≤ L.length := nodup_length_le hnd fun n hn' => hmem n (hall n hn').1 (hall n hn').2.1 (hall n hn').2.2
              omega
            have ha := atMost_same hd ha
            have e : failedRemovals (t1 ++ ([⟨.close rw1.name, true⟩, ⟨.readdir, some names⟩] ++ t6 ++ t4)) ≥ failedRemovals t6 := by
              simp only [failedRemovals_append]; omega
            exact ⟨atMost_mono ha (by omega), filesAtMost_mono (files_with ha) (by omega)⟩

/-- The number of backups, whatever happens. -/
theorem lifeOf_atMost (hmax : 0 < c.maxRolls) {N : Int} (hN : c.maxRolls ≤ N) {d0 d : Disk} (h0 : AtMost lib c d0.dir N) {ds : List Deed} {tr : STrace} {rw : RW}
    (h : LifeOf umask lib c d0 ds tr d rw) : AtMost lib c d.dir (N + failedRemovals tr + deaths ds) := by
  induction h with
  | start => simpa [deaths, failedRemovals] using h0
  | @write ds tr d rw msg tr' n ok rw' d' hl hr ih =>
    have := write_atMost hmax (by omega) (life_knows (lifeOf_life hl)) hr ih
    refine atMost_mono this ?_
    rw [failedRemovals_append, deaths_append]
    simp [deaths]; omega
  | @crash ds tr d rw msg tr' d' hl hs ih =>
    have := (stops_files hmax (by omega) (life_knows (lifeOf_life hl)) hs ih).1
    refine atMost_mono this ?_
    rw [failedRemovals_append, deaths_append]
    simp [deaths]; omega
  | @restart ds tr d rw hl ih =>
    refine atMost_mono ih ?_
    rw [deaths_append]
    simp [deaths]

/-- Few files of limited length are short together. -/
theorem files_below {d : Dir} {N S : Int} (hN : 0 < N) (hS : 0 < S) (h : FilesAtMost lib c d N) (hs : ∀ n, LogName lib c n → ((fileText d n).length : Int) < S) : Below lib c d (N * S) := by
  intro ns hnd hall
  have h1 := h (ns.filter fun n => (fileText d n).length ≠ 0) (hnd.filter _) fun n hn => by
    obtain ⟨hn, hne⟩ := List.mem_filter.mp hn
    refine ⟨hall n hn, ?_⟩
    unfold fileText at hne
    split at hne
    · rename_i data p e; exact ⟨data, p, e⟩
    · simp at hne
  have h2 : ((ns.map fun n => (fileText d n).length).sum : Int) ≤ (ns.filter fun n => (fileText d n).length ≠ 0).length * (S - 1) := by
    clear h1 hnd h
    induction ns with
    | nil => simp
    | cons n ns ih =>
      have := ih fun m hm => hall m (by simp [hm])
      have hn := hs n (hall n (by simp))
      simp only [List.map_cons, List.sum_cons]
      by_cases e : (fileText d n).length = 0
      · rw [List.filter_cons_of_neg (by simpa using e), e]
        simpa using this
      · rw [List.filter_cons_of_pos (by simpa using e), List.length_cons]
        push_cast
        rw [Int.add_mul]
        omega
  refine Int.lt_of_le_of_lt h2 ?_
  have h3 : ((ns.filter fun n => (fileText d n).length ≠ 0).length : Int) * (S - 1) ≤ N * (S - 1) := Int.mul_le_mul_of_nonneg_right h1 (by omega)
  refine Int.lt_of_le_of_lt h3 ?_
  rw [Int.mul_sub]
  omega

theorem backups_atMost {d : Dir} {hs0 : List Str} (h : Backups lib c d hs0) : AtMost lib c d hs0.length := fun _ hnd hall =>
  Int.ofNat_le.mpr (nodup_length_le hnd fun n hn => (h.1 n).mpr (hall n hn))

theorem flatMap_length {α : Type} {f : α → Bytes} {l B : Nat} {xs : List α} (hx : xs.length ≤ B) (h : ∀ x ∈ xs, (f x).length ≤ l) : (xs.flatMap f).length ≤ B * l := by
  have : (xs.flatMap f).length ≤ xs.length * l := by
    clear hx
    induction xs with
    | nil => simp
    | cons x xs ih =>
      have h1 := h x (by simp)
      have h2 := ih fun y hy => h y (by simp [hy])
      rw [List.flatMap_cons, List.length_append, List.length_cons, Nat.add_mul]
      omega
  exact Nat.le_trans this (Nat.mul_le_mul_right l hx)

/-! ## Several writers -/

theorem sifts_failed (c : RCfg) (tr : STrace) : failedRemovals (c.sifts tr) = failedRemovals tr := by
  unfold RCfg.sifts failedRemovals
  rw [List.countP_map]
  congr 1
  funext x
  obtain ⟨o, r⟩ := x
  cases o <;> rfl

theorem logName_mine {n : Str} (h : LogName lib c n) : c.mine n = true := by
  rcases h with rfl | ⟨v, hv⟩
  · exact mine_current c
  · exact (mine_backup hv).1

theorem own_text {v : Volume} {tmp : Option Entries} {n : Str} (h : LogName lib c n) : fileText (v.own c tmp).dir n = fileText v.dir n := by
  unfold fileText; rw [own_dir (logName_mine h)]

theorem own_there {v : Volume} {tmp : Option Entries} {n : Str} (h : LogName lib c n) : Regular (v.own c tmp).dir n ↔ Regular v.dir n := by
  unfold Regular; rw [own_dir (logName_mine h)]

theorem own_atMost {v : Volume} {tmp : Option Entries} {N : Int} : AtMost lib c (v.own c tmp).dir N ↔ AtMost lib c v.dir N :=
  ⟨fun h hs h1 h2 => h hs h1 fun n hn => ⟨(h2 n hn).1, (own_there (.inr (h2 n hn).1)).mpr (h2 n hn).2⟩,
    fun h hs h1 h2 => h hs h1 fun n hn => ⟨(h2 n hn).1, (own_there (.inr (h2 n hn).1)).mp (h2 n hn).2⟩⟩

theorem own_filesAtMost {v : Volume} {tmp : Option Entries} {N : Int} : FilesAtMost lib c (v.own c tmp).dir N ↔ FilesAtMost lib c v.dir N :=
  ⟨fun h hs h1 h2 => h hs h1 fun n hn => ⟨(h2 n hn).1, (own_there (h2 n hn).1).mpr (h2 n hn).2⟩,
    fun h hs h1 h2 => h hs h1 fun n hn => ⟨(h2 n hn).1, (own_there (h2 n hn).1).mp (h2 n hn).2⟩⟩

theorem own_below {v : Volume} {tmp : Option Entries} {S : Int} : Below lib c (v.own c tmp).dir S ↔ Below lib c v.dir S := by
  have key : ∀ ns : List Str, (∀ n ∈ ns, LogName lib c n) → (ns.map fun n => (fileText (v.own c tmp).dir n).length) = ns.map fun n => (fileText v.dir n).length :=
    fun ns h => List.map_congr_left fun n hn => by rw [own_text (h n hn)]
  exact ⟨fun h ns h1 h2 => by have := h ns h1 h2; rwa [key ns h2] at this, fun h ns h1 h2 => by rw [key ns h2]; exact h ns h1 h2⟩

/-- Nobody dies in these. -/
def Lives (tr : List ShLab) : Prop := ∀ i x, ShLab.die i x ∉ tr

theorem wrote_only (i : Nat) {tr : List ShLab} (h : Lives tr) : deaths (deedsOf i tr) = 0 ∧ restarts (deedsOf i tr) = 0 ∧ ∀ x ∈ deedsOf i tr, ∃ msg n ok, x = .wrote msg n ok := by
  induction tr with
  | nil => exact ⟨rfl, rfl, fun x hx => by cases hx⟩
  | cons x tr ih =>
    have ih := ih fun j y hy => h j y (List.mem_cons_of_mem _ hy)
    cases x with
    | die j m => exact absurd (List.mem_cons_self ..) (h j m)
    | ret j msg res =>
      simp only [deedsOf]
      by_cases e : j = i
      · simp only [if_pos e]
        refine ⟨by simpa [deaths] using ih.1, by simpa [restarts] using ih.2.1, fun x hx => ?_⟩
        rcases List.mem_append.mp hx with hx | hx
        · exact ⟨_, _, _, List.mem_singleton.mp hx⟩
        · exact ih.2.2 x hx
      · simpa only [if_neg e, List.nil_append] using ih
    | _ => exact ih

variable {V : Type} {env : PEnv V} {host : Host} {up : Nat → Bool} {v0 : Nat → Volume} {tr : List (MLab V)} {m : Machine V} {o k : Nat}

theorem ioIn_lives (k : Nat) (tr : List (MLab V)) : Lives (ioIn k tr) := by
  intro i x hx
  obtain ⟨y, _, hy⟩ := List.mem_flatMap.mp hx
  cases y <;> simp only at hy <;> first | (cases hy; done) | (split at hy <;> simp at hy)

theorem rollOf_writer {tc : Strconv.Toolchain} {w : World} (h : w.rollOf tc o = some c) : ∃ cfg, newRollingWriter tc cfg = some c := by
  obtain ⟨ob, kind, _, h⟩ := rolling_iff.mpr h
  unfold OutObj.kind at h
  split at h
  · cases h
  · cases h
  · repeat' split at h
    all_goals first | (cases h; done) | skip
    cases h
    rename_i h
    unfold newRollingOutput at h
    split at h
    · cases h
    · rename_i hc
      split at h <;> (cases h; exact ⟨_, hc⟩)

theorem rollOf_keeps {tc : Strconv.Toolchain} {w : World} (h : w.rollOf tc o = some c) : 0 < c.maxRolls := by
  obtain ⟨cfg, h⟩ := rollOf_writer h
  have := (rollingWriter_ranges h).1.1
  omega

/-- The output by itself: its life, and a moment of the write it is in. -/
theorem machine_alone (inv : MInv env host up v0 tr m) (hv : OneName (v0 k)) (hr : m.p.w.rollOf env.tc o = some c) (hk : host.place c.dirPath = k)
    (hn : Neighbourly env.tc host m.p.w k) : ∃ t1 t2 d tmp rw msg, LifeOf host.umask host.lib c ((v0 k).own c) (deedsOf o (ioIn k tr)) t1 d rw ∧
      Stops host.umask (c.write host.lib rw msg) d t2 ((m.vol k).own c tmp) ∧ c.sifts (callsOf o (ioIn k tr)) = t1 ++ t2 ∧
      (msg = [] ∨ msg ∈ messages (deedsIn k o tr m)) := by
  obtain ⟨hap, hna⟩ := neighbours hn
  have hw : writersIn env.tc host m.p.w k o = some c := writersIn_iff.mpr ⟨hr, hk⟩
  have ha := (sh_inv hap hna hv (inv.dirs k)).alone o c hw
  unfold Alone at ha
  rw [view_wr hw] at ha
  cases hj : (m.wr o).job with
  | none =>
    rw [hj] at ha
    obtain ⟨tmp, hl⟩ := ha
    exact ⟨_, [], _, tmp, _, [], hl, .here, by simp, .inl rfl⟩
  | some x =>
    obtain ⟨msg, p⟩ := x
    rw [hj] at ha
    obtain ⟨t1, t2, d, tmp, hl, hs, e⟩ := ha
    refine ⟨t1, t2, d, tmp, _, msg, hl, hs.stops, e, .inr ?_⟩
    unfold deedsIn messages
    rw [hj]
    simp

end Log4g
