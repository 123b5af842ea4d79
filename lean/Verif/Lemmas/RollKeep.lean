import Verif.Lemmas.RollArchive
import Verif.Lemmas.RollTimes

/-! # With an archive, nothing is lost -/

namespace Log4g
open Spec Strconv

variable {lib : RLib} {c : RCfg} {umask : Nat}

theorem backups_unique {d : Dir} {xs ys : List Str} (hx : Backups lib c d xs) (hy : Backups lib c d ys) : xs = ys := by
  have ord : ∀ {hs}, Backups lib c d hs → hs.Pairwise fun a b => c.key lib (c.getFileRollName a) < c.key lib (c.getFileRollName b) := by
    intro hs hb
    refine hb.order.imp_of_mem ?_
    intro a b ha hb' h
    obtain ⟨v, hv⟩ := ((hb.all a).mp ha).1
    obtain ⟨w, hw⟩ := ((hb.all b).mp hb').1
    rw [backup_key hv, backup_key hw]
    exact h v w hv hw
  have nd : ∀ {hs}, Backups lib c d hs → hs.Nodup := fun hb => (ord hb).imp fun h e => by subst e; omega
  refine sorted_unique (fun n => c.key lib (c.getFileRollName n)) ?_ (ord hx) ((ord hy).imp fun h => by omega)
  rw [List.perm_ext_iff_of_nodup (nd hx) (nd hy)]
  intro n
  rw [hx.all, hy.all]

/-- What a deletion in which nothing fails does: it removes the oldest, not all, and has put them into the archives; `P`
says how the archives were, what has been added, and how they are. -/
def Deletes (umask : Nat) (c : RCfg) (P : (Str → ANode) → Entries → (Str → ANode) → Prop) : Prop :=
  ∀ {hs : List Str} {d d' : Disk} {tr : STrace}, hs.Nodup → hs ≠ [] → Runs umask (c.deleteOldRolls hs) d tr () d' → NoneFailed tr →
    ∃ k new, k < hs.length ∧ (∀ n, d'.dir n = if n ∈ hs.take k then none else d.dir n) ∧ P d.arch new d'.arch ∧ Contains d.dir (hs.take k) new

/-- The archive file, if readable, has got `new` at its end. -/
def AtEnd (a : Str → ANode) (new : Entries) (a' : Str → ANode) : Prop :=
  ∀ d d' : Disk, d.arch = a → d'.arch = a' → ∀ old, archived d = some old → archived d' = some (old ++ new)

/-- The deletion when nothing fails: the oldest are gone, and in the archive. -/
theorem delete_effect (he : c.exploded = false) (ha : c.archive ≠ .none) : Deletes umask c AtEnd := by
  intro hs d d' tr _ hne h hn
  have hlen : 0 < hs.length := by cases hs <;> simp at hne ⊢
  have none' : ∃ k new, k < hs.length ∧ (∀ n, d.dir n = if n ∈ hs.take k then none else d.dir n) ∧ AtEnd d.arch new d.arch ∧ Contains d.dir (hs.take k) new :=
    ⟨0, [], hlen, by simp, fun d1 d2 h1 h2 old ho => by rw [archived, h2, ← h1, List.append_nil]; exact ho, rfl, by simp⟩
  rw [RCfg.deleteOldRolls] at h
  split at h
  · cases h; exact none'
  · rename_i h0
    dsimp only at h
    split at h
    · cases h; exact none'
    · rw [he] at h
      obtain ⟨t1, r, d1, t2, h1, h2, rfl⟩ := runs_bind h
      have e1 : d1 = d ∧ t1 = [⟨.mkdirAll c.dirPerm, r⟩] := by
        cases h1 with
        | call hs h1 => cases h1; exact ⟨hs, rfl⟩
      obtain ⟨rfl, rfl⟩ := e1
      simp only [Bool.false_eq_true, if_false] at h2
      obtain ⟨t3, r, d2, t4, h3, h4, rfl⟩ := runs_bind h2
      obtain ⟨old', new, o1, o2, o3⟩ := runs_unexploded h3 fun x hx => hn x (by simp [hx])
      have hd := (Quiet.runs (quiet_unexploded _) h3).1
      have hrm : RemovesOk t4 := removesOk_of_noneFailed fun x hx => hn x (by simp [hx])
      obtain ⟨k1, _, k3⟩ := runs_removeAll h4
      refine ⟨_, new, ?_, fun n => ?_, ?_, o2⟩
      · omega
      · split
        · rename_i hm; exact k3 n hm fun h => by cases hrm _ _ h
        · rename_i hm
          rcases k1 n with k | ⟨k, _⟩
          · rw [k, hd]
          · exact absurd k hm
      · intro x x' hx hx' old ho
        have : archived d1 = some old := by rw [archived, ← hx]; exact ho
        rw [this] at o1; cases o1
        rw [archived, hx', noArch_stops (noArch_remove _) h4.stops, o3]; simp

theorem files_appended {d d' : Dir} {hs : List Str} {bs : Bytes} {res : Nat × Bool} (hb : ∀ n ∈ hs, n ≠ c.fileName) (hsame : ∀ n, n ≠ c.fileName → d' n = d n) (ha : Appended umask c d d' bs res) :
    (files c d' hs).flatten = (files c d hs).flatten ++ bs.take res.1 := by
  have h1 : hs.map (dataOf d') = hs.map (dataOf d) := List.map_congr_left fun n hn => by simp [dataOf, hsame n (hb n hn)]
  have h2 : ∀ d : Dir, (current c d).flatten = dataOf d c.fileName := by
    intro d
    simp only [current, dataOf]
    split <;> simp_all
  simp only [files, List.flatten_append, h1, h2, appended_data ha, List.append_assoc]

theorem current_flatten (c : RCfg) (d : Dir) : (current c d).flatten = dataOf d c.fileName := by
  simp only [current, dataOf]
  split <;> simp_all

/-- With archives, a write in which nothing fails moves the content of what it drops there. -/
theorem write_keeps {P : (Str → ANode) → Entries → (Str → ANode) → Prop} (hP0 : ∀ a, P a [] a) (hP : Deletes umask c P) {rw rw' : RW} {bs : Bytes} {d d' : Disk} {tr : STrace} {res : Nat × Bool} (hk : Knows c rw d)
    (h : Runs umask (c.write lib rw bs) d tr (res, rw') d') (hn : NoneFailed tr) 
    {hs hs' : List Str} (hb : Backups lib c d.dir hs) (hfresh : ∀ b, (⟨.rename c.fileName b, true⟩ : (o : Sys) × o.Resp) ∈ tr → ∃ v, Backup lib c b v ∧ ∀ n ∈ hs, ∀ w, Backup lib c n w → w < v) (hb' : Backups lib c d'.dir hs') :
    ∃ new, P d.arch new d'.arch ∧ ((hs' = hs ∧ new = []) ∨ (hs' ≠ [] ∧ ∃ b v, new.map Prod.fst ++ hs' = hs ++ [b] ∧ Backup lib c b v ∧ ∀ n ∈ hs, ∀ w, Backup lib c n w → w < v)) ∧
      (new.map Prod.snd).flatten ++ (files c d'.dir hs').flatten = (files c d.dir hs).flatten ++ bs.take res.1 := by
  rcases write_cases (knows_name hk) h with ⟨h1, h2⟩ | ⟨t0, rw1, names, t1, rw2, d2, t2, hneed, hf, hname, hrd, hro, hf2, hap, htr⟩
  · have hz := rolls_zero' h1
    have harch : d'.arch = d.arch := by
      rcases stops_write (knows_name hk) h.stops with h | ⟨_, b, _, _, _, ⟨_, _, _, _, hm, _⟩, _⟩
      · exact h
      · have := h1 _ hm _ _ rfl
        exact absurd (eq_of_heq this) (by simp)
    rcases write_dir hk h with ⟨_, _, ⟨_, hd1, hd2⟩ | ⟨_, _, _, _, _, hz', _⟩⟩
    · have hb2 : Backups lib c d'.dir hs := hb.congr fun n ⟨v, hv⟩ => by
        have : n ≠ c.fileName := by intro e; rw [e] at hv; exact current_not_backup lib c v hv
        simp [Regular, hd1 n this]
      rw [backups_unique hb' hb2]
      exact ⟨[], harch ▸ hP0 _, .inl ⟨rfl, rfl⟩, by simpa using files_appended (fun n hm => hb.ne_current hm) hd1 hd2⟩
    · omega
  · have hrd' := hrd
    simp only [SysStep, true_and] at hrd'
    obtain ⟨hnd, hall⟩ := hrd'
    rw [history_eq hb hnd hall] at hro
    obtain ⟨tag, t5, _, h5⟩ := runs_rollOver hro
    rcases h5 with ⟨h5, _⟩ | ⟨_, d3, r, d4, t6, hr1, hr2, hte, h5⟩
    · cases h5
    · subst hte
      have hname' : ({ rw1 with file := none } : RW).name = c.fileName := hname
      rw [hname'] at hr1 htr
      have hroll : Rolling umask lib c d tr hs (backupName c.mode c.fileName tag) d4 := by
        refine ⟨d3, r, hr1, hr2, by rw [htr]; simp, ?_, tag, rfl⟩
        rw [← history_eq hb hnd hall]; exact history_ascending hrd
      have hbn := hfresh (backupName c.mode c.fileName tag) (by rw [htr]; simp)
      obtain ⟨ea, ed⟩ := rolling_data hroll
      have hbne : backupName c.mode c.fileName tag ≠ c.fileName := by
        intro h
        have := hasRollName_backup c tag
        rw [h, hasRollName_current] at this; cases this
      generalize hbdef : backupName c.mode c.fileName tag = b at *
      obtain ⟨v, hv, hbig⟩ := hbn
      have hbmem : b ∉ hs := fun hm => by have := hbig b hm v hv; omega
      have hnb : NoneFailed t6 := fun x hx => hn x (by rw [htr]; simp [hx])
      have hLnd : (hs ++ [b]).Nodup := by
        have := history_ascending (lib := lib) (c := c) hrd
        rw [history_eq hb hnd hall] at this
        rw [List.nodup_append]
        exact ⟨this.nodup, by simp, fun a ha b' hb' e => by simp only [List.mem_singleton] at hb'; rw [e, hb'] at ha; exact hbmem ha⟩
      -- after the deletion
      have hdel : ∃ k new, k < (hs ++ [b]).length ∧ (∀ n, d2.dir n = if n ∈ (hs ++ [b]).take k then none else d4.dir n) ∧ P d.arch new d2.arch ∧ Contains d4.dir ((hs ++ [b]).take k) new := by
        rw [← ea]
        rcases h5 with ⟨_, hdel⟩ | ⟨_, _, rfl⟩
        · exact hP hLnd (by simp) hdel hnb
        · exact ⟨0, [], by simp, by simp, hP0 _, rfl, by simp⟩
      obtain ⟨k, new, hklt, hd2, ho2, hc1, hc2⟩ := hdel
      -- after the renaming
      simp only [SysStep, if_true] at hr1
      obtain ⟨data, p, e1, _, _, rfl⟩ := hr1
      have hd4 : d4.dir c.fileName = none ∧ (∃ q, d4.dir b = some (.file data q)) ∧ ∀ n, n ≠ c.fileName → n ≠ b → d4.dir n = d.dir n := by
        simp only [SysStep] at hr2
        split at hr2
        · obtain ⟨x, y, e3, rfl⟩ := hr2
          rw [put_dir, if_pos rfl] at e3; cases e3
          exact ⟨by simp [put_dir, Ne.symm hbne], ⟨c.backPerm, by simp [put_dir]⟩, fun n h1 h2 => by simp [put_dir, h1, h2]⟩
        · rw [hr2]
          exact ⟨by simp [put_dir, Ne.symm hbne], ⟨p, by simp [put_dir]⟩, fun n h1 h2 => by simp [put_dir, h1, h2]⟩
      obtain ⟨hcur, ⟨q, hdb⟩, hoth⟩ := hd4
      obtain ⟨_, hsame, happ, _⟩ := append_dir (c := c) (rw := rw2) (d := d2) (fun h => by rw [hf2] at h; cases h) hap
      have hL : ∀ n ∈ hs ++ [b], n ≠ c.fileName := by
        intro n hm
        rcases List.mem_append.mp hm with hm | hm
        · exact hb.ne_current hm
        · simp only [List.mem_singleton] at hm; rw [hm]; exact hbne
      have hsplit := List.take_append_drop k (hs ++ [b])
      have hdisj : ∀ n, n ∈ (hs ++ [b]).drop k → n ∉ (hs ++ [b]).take k := by
        intro n h1 h2
        rw [← hsplit, List.nodup_append] at hLnd
        exact hLnd.2.2 n h2 n h1 rfl
      have hreg4 : ∀ n, n ∈ hs ++ [b] → Regular d4.dir n := by
        intro n hm
        rcases List.mem_append.mp hm with hm | hm
        · obtain ⟨x, y, e⟩ := ((hb.all n).mp hm).2
          have : n ≠ b := fun e => hbmem (e ▸ hm)
          exact ⟨x, y, by rw [hoth n (hb.ne_current hm) this, e]⟩
        · simp only [List.mem_singleton] at hm; rw [hm]; exact ⟨_, _, hdb⟩
      have hb2 : Backups lib c d'.dir ((hs ++ [b]).drop k) := by
        refine ⟨fun n => ⟨fun hm => ?_, ?_⟩, ?_⟩
        · have hmL : n ∈ hs ++ [b] := List.mem_of_mem_drop hm
          have hreg : Regular d'.dir n := by
            obtain ⟨x, y, e⟩ := hreg4 n hmL
            exact ⟨x, y, by rw [hsame n (hL n hmL), hd2, if_neg (hdisj n hm), e]⟩
          refine ⟨?_, hreg⟩
          rcases List.mem_append.mp hmL with hm' | hm'
          · exact ((hb.all n).mp hm').1
          · simp only [List.mem_singleton] at hm'; rw [hm']; exact ⟨v, hv⟩
        · rintro ⟨⟨w, hw⟩, x, y, e⟩
          have hne : n ≠ c.fileName := by intro e; rw [e] at hw; exact current_not_backup lib c w hw
          rw [hsame n hne, hd2] at e
          split at e
          · cases e
          · rename_i hnt
            have : n ∈ hs ++ [b] := by
              by_cases hnb' : n = b
              · simp [hnb']
              · rw [hoth n hne hnb'] at e
                exact List.mem_append_left _ ((hb.all n).mpr ⟨⟨w, hw⟩, x, y, e⟩)
            rw [← hsplit] at this
            exact (List.mem_append.mp this).resolve_left hnt
        · refine List.Pairwise.sublist (List.drop_sublist k _) ?_
          rw [List.pairwise_append]
          refine ⟨hb.order, by simp, fun a hA b' hB x y hx hy => ?_⟩
          simp only [List.mem_singleton] at hB; subst hB
          have := hbig a hA x hx
          rw [backup_unique hy hv]; exact this
      rw [backups_unique hb' hb2]
      refine ⟨new, ?_, .inr ⟨?_, b, v, by rw [hc1, hsplit], hv, hbig⟩, ?_⟩
      · rw [noArch_stops (noArch_append c rw2 bs) hap.stops]; exact ho2
      · intro e
        have := congrArg List.length e
        simp only [List.length_drop, List.length_nil] at this
        omega
      · rw [files_appended (fun n hm => hL n (List.mem_of_mem_drop hm)) hsame happ, ← List.append_assoc]
        congr 1
        have hcur2 : current c d2.dir = [] := by
          rw [current, hd2]
          split
          · rename_i e; split at e
            · cases e
            · rw [hcur] at e; cases e
          · rfl
        have hnew : new.map Prod.snd = ((hs ++ [b]).take k).map (dataOf d4.dir) := by
          rw [← hc1, List.map_map]
          refine List.map_congr_left fun e he => ?_
          obtain ⟨p, hp⟩ := hc2 e he
          simp [dataOf, hp]
        have hrest : ((hs ++ [b]).drop k).map (dataOf d2.dir) = ((hs ++ [b]).drop k).map (dataOf d4.dir) :=
          List.map_congr_left fun n hm => by simp only [dataOf]; rw [hd2, if_neg (hdisj n hm)]
        rw [files, hcur2, List.append_nil, hrest, hnew, ← List.flatten_append, ← List.map_append, hsplit]
        rw [List.map_append, List.flatten_append, files, List.flatten_append, current_flatten]
        congr 2
        · refine List.map_congr_left fun n hm => ?_
          have : n ≠ b := fun e => hbmem (e ▸ hm)
          rw [ed n (hb.ne_current hm), if_neg this]
        · simp only [List.map_cons, List.map_nil, List.flatten_cons, List.flatten_nil, List.append_nil]
          rw [ed b hbne, if_pos rfl]

/-- When nothing fails, a writer that has not lost its file writes, and keeps it. -/
theorem open_ok (hmax : ∀ max, c.kind = .size max → 0 < max) {rw rw' : RW} {d d' : Disk} {m : Bytes} {tr : STrace} {res : Nat × Bool} (ho : rw = {} ∨ rw.file = some .opened)
    (hr : Runs umask (c.write lib rw m) d tr (res, rw') d') (hn : LogCallsOk tr) : res.2 = true := by
  refine write_ok (by rcases ho with ih | ih <;> simp [ih]) (fun t1 rw1 _ hneed => ?_) hr hn
  rcases ho with ih | ih
  · subst ih
    obtain ⟨_, hneed⟩ := runs_needsToRoll hneed
    rcases hneed with ⟨max', hk', _, _, hx⟩ | ⟨_, _, _, _, hx⟩
    · have := hmax _ hk'
      simp at hx; omega
    · rcases hx with ⟨_, hx, _⟩ | ⟨hx, _⟩
      · cases hx
      · exact absurd rfl hx
  · exact ih

/-- When nothing fails, a writer has its file open after the first write. -/
theorem session_open (hmax : ∀ max, c.kind = .size max → 0 < max) {d0 d : Disk} {ms : List Bytes} {tr : STrace} {rw : RW} (h : Session umask lib c d0 ms tr d rw) (hn : LogCallsOk tr) :
    rw = {} ∨ rw.file = some .opened := by
  induction h with
  | start => exact .inl rfl
  | @write ms tr d rw m tr' res rw' d' hs hr ih =>
    obtain ⟨h1, h2⟩ := logCallsOk_append.mp hn
    exact .inr ((write_dir (session_knows hs) hr).2.1 (open_ok hmax (ih h1) hr h2)).1

theorem session_ok (hmax : ∀ max, c.kind = .size max → 0 < max) {d0 d d' : Disk} {ms : List Bytes} {tr tr' : STrace} {rw rw' : RW} {m : Bytes} {res : Nat × Bool} (h : Session umask lib c d0 ms tr d rw)
    (hr : Runs umask (c.write lib rw m) d tr' (res, rw') d') (hn : LogCallsOk (tr ++ tr')) : res.2 = true := by
  obtain ⟨h1, h2⟩ := logCallsOk_append.mp hn
  exact open_ok hmax (session_open hmax h h1) hr h2

theorem append_noremove {rw rw' : RW} {bs : Bytes} {d d' : Disk} {tr : STrace} {res : Nat × Bool} (h : Runs umask (c.append rw bs) d tr (res, rw') d') (n : Str) (r : Bool) :
    (⟨.remove n, r⟩ : (o : Sys) × o.Resp) ∉ tr := by
  have hput : ∀ rw : RW, (RCfg.put rw bs).All fun o => ∀ m, o ≠ .remove m := by
    intro rw
    rw [RCfg.put]
    split
    · exact Prog.All.bind (Prog.All.sys (by simp)) fun _ => trivial
    · trivial
  have : (c.append rw bs).All fun o => ∀ m, o ≠ .remove m := by
    rw [RCfg.append]
    split
    · refine Prog.All.bind ((all_createFile c rw).mono fun o h => ?_) fun a => ?_
      · intro n e; rw [e] at h; exact h
      · obtain ⟨ok, rw1⟩ := a
        cases ok
        · trivial
        · exact hput _
    · exact hput _
  exact fun hm => Prog.All.runs this h _ hm n rfl

/-- Only a write that rolls removes anything. -/
theorem write_noremove {rw rw' : RW} {bs : Bytes} {d d' : Disk} {tr : STrace} {res : Nat × Bool} (h : Runs umask (c.write lib rw bs) d tr (res, rw') d')
    (h1 : ∀ x ∈ tr, ∀ a b, x.1 = .rename a b → x.2 ≍ false) (n : Str) (r : Bool) : (⟨.remove n, r⟩ : (o : Sys) × o.Resp) ∉ tr := by
  obtain ⟨t1, b1, rw1, d1, t2, rw2, d2, k1, k2⟩ := runs_write h
  have hq1 := Prog.All.runs (all_needsToRoll lib c rw) k1
  have nr1 : (⟨.remove n, r⟩ : (o : Sys) × o.Resp) ∉ t1 := fun hx => by
    have e := hq1 _ hx; cases e
  have key : ∀ {ok : Bool}, (∀ x ∈ t2, ∀ a b, x.1 = .rename a b → x.2 ≍ false) → Runs umask (c.roll lib rw1) d1 t2 (ok, rw2) d2 → (⟨.remove n, r⟩ : (o : Sys) × o.Resp) ∉ t2 := by
    intro ok hren hroll hm
    rcases runs_roll hroll with ⟨_, rfl, h3⟩ | ⟨hf, names, t4, hrd, rfl, ho⟩
    · rcases h3 with ⟨_, rfl, _⟩ | ⟨_, rfl, _⟩ | ⟨_, rfl, _⟩ <;> simp at hm
    · obtain ⟨tag, t5, hk, h5⟩ := runs_rollOver ho
      rcases h5 with ⟨_, rfl, _⟩ | ⟨_, _, _, _, t6, _, _, rfl, h6⟩
      · have hm5 : (⟨.remove n, r⟩ : (o : Sys) × o.Resp) ∉ t5 := by
          rcases hk with ⟨_, _, rfl, _⟩ | ⟨_, _, _, rfl, _⟩ <;> simp
        simp [hm5] at hm
      · have := hren ⟨.rename rw1.name (backupName c.mode c.fileName tag), true⟩ (by simp) _ _ rfl
        exact absurd (eq_of_heq this) (by simp)
  rcases k2 with ⟨hb, hr, rfl, _⟩ | ⟨hr, t3, ha, rfl⟩
  · have := key (fun x hx => h1 x (by simp [hx])) hr
    simp [nr1, this]
  · have hna := append_noremove ha n r
    rcases hr with ⟨hb, hr⟩ | ⟨_, rfl, _⟩
    · have := key (fun x hx => h1 x (by simp [hx])) hr
      simp [nr1, this, hna]
    · simp [nr1, hna]

end Log4g
