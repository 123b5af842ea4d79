import Verif.Lemmas.Shared
import Verif.Props.RollingWrites

/-! # Executions of several writers in one directory -/

namespace Log4g
open Spec Strconv

variable {umask : Nat} {lib : RLib} {cs : Nat → Option RCfg}

theorem callsOf_append (i : Nat) (a b : List ShLab) : callsOf i (a ++ b) = callsOf i a ++ callsOf i b := by
  induction a with
  | nil => rfl
  | cons x a ih => cases x <;> simp [callsOf, ih]

theorem deedsOf_append (i : Nat) (a b : List ShLab) : deedsOf i (a ++ b) = deedsOf i a ++ deedsOf i b := by
  induction a with
  | nil => rfl
  | cons x a ih =>
    cases x with
    | die j m => cases m <;> simp [deedsOf, ih]
    | _ => simp [deedsOf, ih]

/-- The calls as far as they concern the writer. -/
def RCfg.sifts (c : RCfg) (tr : STrace) : STrace := tr.map fun x => ⟨x.1, c.sift x.1 x.2⟩

theorem sifts_append (c : RCfg) (a b : STrace) : c.sifts (a ++ b) = c.sifts a ++ c.sifts b := by simp [RCfg.sifts]

/-- What is open. -/
def Opened (c : RCfg) (b : Bool) (s : Shared) (i : Nat) : Prop :=
  Holding c b s.vol (s.wr i).fd ∧
  match (s.wr i).job with
  | none => Settled c b (s.wr i).rw
  | some (_, p) => p.Tidy c (fun b br => Settled c b br.2) b

/-- The writer's run, seen by itself. -/
def Alone (umask : Nat) (lib : RLib) (c : RCfg) (v0 : Volume) (tr : List ShLab) (s : Shared) (i : Nat) : Prop :=
  match (s.wr i).job with
  | none => ∃ tmp, LifeOf umask lib c (v0.own c) (deedsOf i tr) (c.sifts (callsOf i tr)) (s.vol.own c tmp) (s.wr i).rw
  | some (msg, p) => ∃ t1 t2 d tmp, LifeOf umask lib c (v0.own c) (deedsOf i tr) t1 d (s.wr i).rw ∧
      Reaches umask (c.write lib (s.wr i).rw msg) d t2 p (s.vol.own c tmp) ∧ c.sifts (callsOf i tr) = t1 ++ t2

/-- What holds throughout. -/
structure ShInv (umask : Nat) (lib : RLib) (cs : Nat → Option RCfg) (v0 : Volume) (tr : List ShLab) (s : Shared) : Prop where
  sound : OneName s.vol
  none : ∀ i, cs i = none → (s.wr i).job = none
  opened : ∀ i c, cs i = some c → ∃ b, Opened c b s i
  alone : ∀ i c, cs i = some c → Alone umask lib c v0 tr s i

theorem wr_set (s : Shared) (i j : Nat) (x : Scribe) : (s.set i x).wr j = if j = i then x else s.wr j := rfl

theorem opened_other {c : RCfg} {b : Bool} {s s' : Shared} {i : Nat} (h : Opened c b s i) (hw : s'.wr i = s.wr i) (hn : s'.vol.names c.fileName = s.vol.names c.fileName) :
    Opened c b s' i := by
  unfold Opened at h ⊢
  rw [hw]
  exact ⟨fun hb => by rw [hn]; exact h.1 hb, h.2⟩

theorem alone_other {c : RCfg} {v0 : Volume} {tr : List ShLab} {l : ShLab} {s s' : Shared} {i : Nat} (h : Alone umask lib c v0 tr s i) (hw : s'.wr i = s.wr i)
    (hv : ∀ tmp, s'.vol.own c tmp = s.vol.own c tmp) (hc : callsOf i [l] = []) (hd : deedsOf i [l] = []) : Alone umask lib c v0 (tr ++ [l]) s' i := by
  unfold Alone at h ⊢
  simp only [hw, hv, callsOf_append, hc, deedsOf_append, hd, List.append_nil]
  exact h

theorem sh_inv (hap : ∀ (i j : Nat) (c c' : RCfg), i ≠ j → cs i = some c → cs j = some c' → Apart c c') (hna : ArchivesApart cs) {v0 : Volume} (hv : OneName v0)
    {tr : List ShLab} {s : Shared} (hx : ShExec umask lib cs { vol := v0 } tr s) : ShInv umask lib cs v0 tr s := by
  induction hx with
  | start => exact ⟨hv, fun _ _ => rfl, fun i c _ => ⟨false, by unfold Opened; exact ⟨fun h => (by cases h), rfl, fun h => (by cases h)⟩⟩, fun i c _ => ⟨_, .start⟩⟩
  | @step tr s l s' hx hs ih =>
    cases hs with
    | @start i c msg hi hj =>
      refine ⟨ih.sound, fun j hn => ?_, fun j c' hc => ?_, fun j c' hc => ?_⟩
      · have : j ≠ i := by rintro rfl; rw [hi] at hn; cases hn
        rw [wr_set, if_neg this]; exact ih.none j hn
      · by_cases e : j = i
        · subst e
          rw [hi] at hc; cases hc
          obtain ⟨b, h1, h2⟩ := ih.opened j c hi
          rw [hj] at h2
          refine ⟨b, ?_⟩
          unfold Opened
          rw [wr_set, if_pos rfl]
          exact ⟨h1, tidy_write ((hna.usual _ c hi).imp id And.left) h2⟩
        · obtain ⟨b, h⟩ := ih.opened j c' hc
          exact ⟨b, opened_other h (by rw [wr_set, if_neg e]) rfl⟩
      · by_cases e : j = i
        · subst e
          rw [hi] at hc; cases hc
          have h := ih.alone j c hi
          unfold Alone at h ⊢
          rw [hj] at h
          rw [wr_set, if_pos rfl, callsOf_append, deedsOf_append]
          obtain ⟨tmp, h⟩ := h
          exact ⟨_, [], s.vol.own c tmp, tmp, by simpa [deedsOf] using h, .here, by simp [callsOf]⟩
        · exact alone_other (ih.alone j c' hc) (by rw [wr_set, if_neg e]) (fun _ => rfl) rfl rfl
    | @sys i msg o k r v' h' hj hs =>
      have hi : ∃ c, cs i = some c := by
        cases hc : cs i with
        | none => rw [ih.none i hc] at hj; cases hj
        | some c => exact ⟨c, rfl⟩
      obtain ⟨c, hi⟩ := hi
      obtain ⟨b, h1, h2⟩ := ih.opened i c hi
      rw [hj] at h2
      obtain ⟨hm, h2⟩ := h2
      obtain ⟨hstep, hsound, hhold⟩ := own_step ih.sound hm h1 hs
      obtain ⟨hk, h2⟩ := h2 r (vol_sane hs)
      have other : ∀ j c', j ≠ i → cs j = some c' → (∀ tmp, v'.own c' tmp = s.vol.own c' tmp) ∧ ∀ n, c'.mine n = true → v'.names n = s.vol.names n := by
        intro j c' e hc
        refine other_step ih.sound hm h1 hs (fun n hn hn' => ?_) fun ha ht => hna.temp i j c c' hi hc ha ((mine_iff _ _).mp ht)
        exact hap j i c' c e hc hi n ((mine_iff _ _).mp hn) ((mine_iff _ _).mp hn')
      refine ⟨hsound, fun j hn => ?_, fun j c' hc => ?_, fun j c' hc => ?_⟩
      · have : j ≠ i := by rintro rfl; rw [hi] at hn; cases hn
        rw [wr_set, if_neg this]; exact ih.none j hn
      · by_cases e : j = i
        · subst e
          rw [hi] at hc; cases hc
          refine ⟨opens b o r, ?_⟩
          unfold Opened
          rw [wr_set, if_pos rfl]
          exact ⟨hhold, h2⟩
        · obtain ⟨b, h⟩ := ih.opened j c' hc
          exact ⟨b, opened_other h (by rw [wr_set, if_neg e]) ((other j c' e hc).2 _ (mine_current c'))⟩
      · by_cases e : j = i
        · subst e
          rw [hi] at hc; cases hc
          have h := ih.alone j c hi
          unfold Alone at h ⊢
          rw [hj] at h
          rw [wr_set, if_pos rfl, callsOf_append, deedsOf_append, sifts_append]
          obtain ⟨t1, t2, d, tmp, h3, h4, h5⟩ := h
          obtain ⟨tmp', hstep⟩ := hstep (fun ha ht => hna.temp j j c c hi hi ha ((mine_iff _ _).mp ht)) tmp
          refine ⟨t1, t2 ++ [⟨o, c.sift o r⟩], d, tmp', by simpa [deedsOf] using h3, ?_, by rw [h5]; simp [callsOf, RCfg.sifts]⟩
          have := Reaches.call h4 hstep
          rw [hk]
          exact this
        · refine alone_other (ih.alone j c' hc) (by rw [wr_set, if_neg e]) (other j c' e hc).1 ?_ rfl
          simp [callsOf, Ne.symm e]
    | @ret i msg res rw' hj =>
      have hi : ∃ c, cs i = some c := by
        cases hc : cs i with
        | none => rw [ih.none i hc] at hj; cases hj
        | some c => exact ⟨c, rfl⟩
      obtain ⟨c, hi⟩ := hi
      refine ⟨ih.sound, fun j hn => ?_, fun j c' hc => ?_, fun j c' hc => ?_⟩
      · have : j ≠ i := by rintro rfl; rw [hi] at hn; cases hn
        rw [wr_set, if_neg this]; exact ih.none j hn
      · by_cases e : j = i
        · subst e
          rw [hi] at hc; cases hc
          obtain ⟨b, h1, h2⟩ := ih.opened j c hi
          rw [hj] at h2
          refine ⟨b, ?_⟩
          unfold Opened
          rw [wr_set, if_pos rfl]
          exact ⟨h1, h2⟩
        · obtain ⟨b, h⟩ := ih.opened j c' hc
          exact ⟨b, opened_other h (by rw [wr_set, if_neg e]) rfl⟩
      · by_cases e : j = i
        · subst e
          rw [hi] at hc; cases hc
          have h := ih.alone j c hi
          unfold Alone at h ⊢
          rw [hj] at h
          rw [wr_set, if_pos rfl, callsOf_append, deedsOf_append]
          obtain ⟨t1, t2, d, tmp, h3, h4, h5⟩ := h
          have hr := Reaches.runs h4 .ret
          simp only [deedsOf, callsOf, List.append_nil, if_true, h5]
          rw [List.append_nil] at hr
          exact ⟨tmp, .write h3 hr⟩
        · refine alone_other (ih.alone j c' hc) (by rw [wr_set, if_neg e]) (fun _ => rfl) rfl ?_
          simp [deedsOf, Ne.symm e]
    | @die i =>
      refine ⟨ih.sound, fun j hn => ?_, fun j c' hc => ?_, fun j c' hc => ?_⟩
      · rw [wr_set]
        split
        · rfl
        · exact ih.none j hn
      · by_cases e : j = i
        · subst e
          refine ⟨false, ?_⟩
          unfold Opened
          rw [wr_set, if_pos rfl]
          exact ⟨fun h => (by cases h), rfl, fun h => (by cases h)⟩
        · obtain ⟨b, h⟩ := ih.opened j c' hc
          exact ⟨b, opened_other h (by rw [wr_set, if_neg e]) rfl⟩
      · by_cases e : j = i
        · subst e
          have h := ih.alone j c' hc
          unfold Alone at h ⊢
          rw [wr_set, if_pos rfl, callsOf_append, deedsOf_append]
          cases hj : (s.wr j).job with
          | none =>
            rw [hj] at h
            obtain ⟨tmp, h⟩ := h
            exact ⟨tmp, by simpa [deedsOf, callsOf, Shared.set] using LifeOf.restart h⟩
          | some x =>
            obtain ⟨msg, p⟩ := x
            rw [hj] at h
            obtain ⟨t1, t2, d, tmp, h3, h4, h5⟩ := h
            simp only [Option.map_some, deedsOf, callsOf, List.append_nil, if_true, h5]
            exact ⟨tmp, .crash h3 h4.stops⟩
        · refine alone_other (ih.alone j c' hc) (by rw [wr_set, if_neg e]) (fun _ => rfl) rfl ?_
          cases (s.wr i).job <;> simp [deedsOf, Ne.symm e]

/-- Seen by itself, a writer lives as if it were alone. -/
theorem sh_life (hap : ∀ (i j : Nat) (c c' : RCfg), i ≠ j → cs i = some c → cs j = some c' → Apart c c') (hna : ArchivesApart cs) {v0 : Volume} (hv : OneName v0)
    {tr : List ShLab} {s : Shared} (hx : ShExec umask lib cs { vol := v0 } tr s) {i : Nat} {c : RCfg} (hi : cs i = some c) :
    ∃ rw tmp, LifeOf umask lib c (v0.own c) (deedsOf i tr ++ pending s i) (c.sifts (callsOf i tr)) (s.vol.own c tmp) rw := by
  have h := (sh_inv hap hna hv hx).alone i c hi
  unfold Alone at h
  unfold pending
  cases hj : (s.wr i).job with
  | none =>
    rw [hj] at h
    obtain ⟨tmp, h⟩ := h
    exact ⟨_, tmp, by simpa using h⟩
  | some x =>
    obtain ⟨msg, p⟩ := x
    rw [hj] at h
    obtain ⟨t1, t2, d, tmp, h3, h4, h5⟩ := h
    rw [h5]
    exact ⟨_, tmp, .crash h3 h4.stops⟩

/-! ## What is seen of the directory -/

theorem own_regular {c : RCfg} {v : Volume} {n : Str} {tmp : Option Entries} (h : c.mine n = true) : Regular (v.own c tmp).dir n ↔ Regular v.dir n := by
  simp only [Regular, own_dir h]

theorem own_backups {c : RCfg} {v : Volume} {hs : List Str} {tmp : Option Entries} : Backups lib c (v.own c tmp).dir hs ↔ Backups lib c v.dir hs := by
  have key : ∀ n, (∃ w, Backup lib c n w) ∧ Regular (v.own c tmp).dir n ↔ (∃ w, Backup lib c n w) ∧ Regular v.dir n := by
    intro n
    refine and_congr_right ?_
    rintro ⟨w, h⟩
    exact own_regular (mine_backup h).1
  exact ⟨fun h => ⟨fun n => (h.all n).trans (key n), h.order⟩, fun h => ⟨fun n => (h.all n).trans (key n).symm, h.order⟩⟩

theorem own_files {c : RCfg} {v : Volume} {hs : List Str} {tmp : Option Entries} (h : Backups lib c v.dir hs) : files c (v.own c tmp).dir hs = files c v.dir hs := by
  simp only [files, current, own_dir (mine_current c)]
  congr 1
  refine List.map_congr_left fun n hn => ?_
  obtain ⟨⟨w, hw⟩, _⟩ := (h.all n).mp hn
  simp only [dataOf, own_dir (mine_backup hw).1]

theorem own_keeps {c : RCfg} {v : Volume} {F0 ps : List Bytes} {tmp : Option Entries} (h : KeepsLog lib c F0 ps (v.own c tmp).dir) : KeepsLog lib c F0 ps v.dir := by
  obtain ⟨hs, dr, gs, h1, h2, h3, h4⟩ := h
  have h1' := own_backups.mp h1
  exact ⟨hs, dr, gs, h1', h2, by rw [h3, own_files h1'], h4⟩

theorem sifts_rolls (c : RCfg) (tr : STrace) : rolls (c.sifts tr) = rolls tr := by
  induction tr with
  | nil => rfl
  | cons x tr ih =>
    obtain ⟨o, r⟩ := x
    cases o <;> first | exact ih | exact congrArg (_ + ·) ih

theorem sifts_clocks (c : RCfg) (tr : STrace) : clocks (c.sifts tr) = clocks tr := by
  induction tr with
  | nil => rfl
  | cons x tr ih =>
    obtain ⟨o, r⟩ := x
    cases o <;> first | exact ih | exact congrArg (_ :: ·) ih

theorem sifts_removes {c : RCfg} {tr : STrace} (h : RemovesOk tr) : RemovesOk (c.sifts tr) := by
  intro n r hm
  obtain ⟨⟨o, q⟩, hx, e⟩ := List.mem_map.mp hm
  obtain ⟨rfl, e⟩ := Sigma.mk.inj e
  cases eq_of_heq e
  exact h n q hx

end Log4g
