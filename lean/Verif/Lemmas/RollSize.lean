import Verif.Lemmas.RollFacts

/-! # Sizes of files -/

namespace Log4g
open Spec

variable {lib : RLib} {c : RCfg} {umask : Nat}

/-- What holds of sizes.  A writer that has not opened the file yet finds it shorter than `B`. -/
structure Sizes (lib : RLib) (c : RCfg) (max B L : Int) (d0 : Disk) (d : Disk) (rw : RW) : Prop where
  knows : Knows c rw d
  cur : ∀ data p, d.dir c.fileName = some (.file data p) → (data.length : Int) < B + L
  fresh : rw.file = none → rw.size < max → ∀ data p, d.dir c.fileName = some (.file data p) → (data.length : Int) < B
  backs : ∀ n v, Backup lib c n v → ∀ data p, d.dir n = some (.file data p) → d0.dir n = some (.file data p) ∨ max ≤ (data.length : Int) ∧ (data.length : Int) < B + L

theorem knows_name {rw : RW} {d : Disk} (h : Knows c rw d) : rw.file = some .opened → rw.name = c.fileName := fun hf => (h hf).1

/-- Opening the file. -/
theorem create_cases {rw rw' : RW} {d d' : Disk} {tr : STrace} {ok : Bool} (hf : rw.file = none) (h : Runs umask (c.createFile rw) d tr (ok, rw') d') :
    (∀ n, n ≠ c.fileName → d'.dir n = d.dir n) ∧
    (d'.dir c.fileName = d.dir c.fileName ∨ d.dir c.fileName = none ∧ d'.dir c.fileName = some (.file [] (reduced umask c.filePerm))) ∧
    (ok = false → rw'.file = none ∧ rw'.size = rw.size) ∧
    (ok = true → rw'.file = some .opened ∧ Knows c rw' d') := by
  obtain ⟨h1, h2, h3, h4, _⟩ := runs_createFile h
  have hall := all_createFile c rw
  refine ⟨fun n hn => touch_stops (Prog.All.mono hall (openOp_touch (own := (· = c.fileName)) rfl)) h.stops hn, ?_, fun hok => ⟨h3 hok hf, h4 hok⟩, fun hok => ?_⟩
  · -- only the creation changes the current file
    clear h1 h2 h3 h4
    have : ∀ {α : Type} {p : Prog α} {d d' : Disk} {tr : STrace} {a : α}, p.All (openOp c) → Runs umask p d tr a d' →
        (d'.dir c.fileName = d.dir c.fileName ∨ d.dir c.fileName = none ∧ d'.dir c.fileName = some (.file [] (reduced umask c.filePerm))) := by
      intro α p d d' tr a hp hr
      induction hr with
      | ret => exact .inl rfl
      | @call o k d r d1 tr a d2 hs _ ih =>
        have ih := ih (hp.2 _)
        have hs1 : d1.dir c.fileName = d.dir c.fileName ∨ d.dir c.fileName = none ∧ d1.dir c.fileName = some (.file [] (reduced umask c.filePerm)) := by
          have ho := hp.1
          by_cases hq : quiet o = true
          · exact .inl (by rw [quiet_step hq hs])
          · cases o <;> simp only [openOp] at ho <;> simp only [quiet, not_true_eq_false] at hq
            simp only [SysStep] at hs
            obtain ⟨rfl, rfl⟩ := ho
            split at hs
            · split at hs
              · rename_i hnone
                exact .inr ⟨hnone, by rw [hs.2, put_dir, if_pos rfl]; rfl⟩
              · exact .inl (by rw [hs])
              · exact hs.elim
            · exact .inl (by rw [hs])
        rcases ih with ih | ⟨ih, hp⟩
        · rw [ih]; exact hs1
        · rcases hs1 with h | ⟨h, hp'⟩
          · exact .inr ⟨by rw [← h, ih], hp⟩
          · rw [ih] at hp'; cases hp'
    exact this hall h
  · obtain ⟨n, rfl, _, _, data, p, e, hz⟩ := h1 hok
    exact ⟨rfl, fun _ => ⟨rfl, data, p, e, by simp [hz]⟩⟩

/-- Writing to the open file. -/
theorem put_cases {rw rw' : RW} {bs : Bytes} {d d' : Disk} {tr : STrace} {res : Nat × Bool} (hk : Knows c rw d) (h : Runs umask (RCfg.put rw bs) d tr (res, rw') d') :
    rw'.file = rw.file ∧ Knows c rw' d' ∧ (∀ n, n ≠ c.fileName → d'.dir n = d.dir n) ∧
    (d' = d ∧ rw' = rw ∨ rw.file = some .opened ∧ ∃ data p, d.dir c.fileName = some (.file data p) ∧ d'.dir c.fileName = some (.file (data ++ bs.take res.1) p)) := by
  rcases runs_put h with ⟨hf, _, rfl, hs⟩ | ⟨hf, _, _, rfl, rfl⟩
  · obtain ⟨hn, data, p, e, hz⟩ := hk hf
    simp only [SysStep] at hs
    obtain ⟨data', p', e', hle, _, rfl⟩ := hs
    rw [hn] at e'
    rw [e] at e'
    cases e'
    refine ⟨rfl, fun _ => ⟨hn, data ++ bs.take res.1, p, by rw [put_dir, hn, if_pos rfl], ?_⟩, fun n hne => by rw [put_dir, hn, if_neg hne], .inr ⟨hf, data, p, e, by rw [put_dir, hn, if_pos rfl]⟩⟩
    simp [hz, List.length_take, Nat.min_eq_left hle]
  · exact ⟨rfl, hk, fun _ _ => rfl, .inl ⟨rfl, rfl⟩⟩

theorem sizes_put {max B L : Int} {d0 d d' : Disk} {rw rw' : RW} {bs : Bytes} {tr : STrace} {res : Nat × Bool} (hf : rw.file ≠ none) (hL : (bs.length : Int) ≤ L)
    (h : Sizes lib c max B L d0 d rw) (hsz : rw.file = some .opened → rw.size < B) (hr : Runs umask (RCfg.put rw bs) d tr (res, rw') d') : Sizes lib c max B L d0 d' rw' := by
  obtain ⟨h1, h2, h3, h4⟩ := put_cases h.knows hr
  refine ⟨h2, ?_, fun hn => by rw [h1] at hn; exact absurd hn hf, ?_⟩
  · intro data p e
    rcases h4 with ⟨rfl, _⟩ | ⟨ho, data', p', e1, e2⟩
    · exact h.cur data p e
    · rw [e2] at e; cases e
      obtain ⟨_, data2, p2, e3, hz⟩ := h.knows ho
      rw [e1] at e3; cases e3
      have := hsz ho
      have := List.length_take_le res.1 bs
      simp; omega
  · intro n v hv data p e
    have hne : n ≠ c.fileName := by rintro rfl; exact current_not_backup lib c v hv
    rw [h3 n hne] at e
    exact h.backs n v hv data p e

theorem sizes_append {max B L : Int} (hB : 0 < B) (hL0 : 0 ≤ L) {d0 d d' : Disk} {rw rw' : RW} {bs : Bytes} {tr : STrace} {res : Nat × Bool} (hL : (bs.length : Int) ≤ L)
    (h : Sizes lib c max B L d0 d rw) (hsz : rw.file ≠ none → rw.size < B)
    (hfr : rw.file = none → ∀ data p, d.dir c.fileName = some (.file data p) → (data.length : Int) < B)
    (hr : Runs umask (c.append rw bs) d tr (res, rw') d') : Sizes lib c max B L d0 d' rw' := by
  rcases runs_append hr with ⟨hf, hc, _⟩ | ⟨t1, rw1, d1, t2, hc, hp, _⟩
  · obtain ⟨h1, h2, h3, _⟩ := create_cases hf hc
    obtain ⟨e1, e2⟩ := h3 rfl
    have hfr' : ∀ data p, d'.dir c.fileName = some (.file data p) → (data.length : Int) < B := by
      intro data p e
      rcases h2 with h2 | ⟨_, h2⟩ <;> rw [h2] at e
      · exact hfr hf data p e
      · cases e; exact hB
    refine ⟨fun hx => (by rw [e1] at hx; cases hx), fun data p e => ?_, fun _ _ => hfr', ?_⟩
    · have := hfr' data p e; omega
    · intro n v hv data p e
      rw [h1 n (by rintro rfl; exact current_not_backup lib c v hv)] at e
      exact h.backs n v hv data p e
  · rcases hc with ⟨hf, hc⟩ | ⟨hf, _, rfl, rfl⟩
    · obtain ⟨h1, h2, _, h4⟩ := create_cases hf hc
      obtain ⟨e1, e2⟩ := h4 rfl
      have hfr' : ∀ data p, d1.dir c.fileName = some (.file data p) → (data.length : Int) < B := by
        intro data p e
        rcases h2 with h2 | ⟨_, h2⟩ <;> rw [h2] at e
        · exact hfr hf data p e
        · cases e; exact hB
      have hS : Sizes lib c max B L d0 d1 rw1 := by
        refine ⟨e2, fun data p e => ?_, fun hx => (by rw [e1] at hx; cases hx), ?_⟩
        · have := hfr' data p e; omega
        · intro n v hv data p e
          rw [h1 n (by rintro rfl; exact current_not_backup lib c v hv)] at e
          exact h.backs n v hv data p e
      refine sizes_put (by rw [e1]; simp) hL hS (fun hx => ?_) hp
      obtain ⟨_, data, p, e, hz⟩ := e2 hx
      rw [hz]; exact hfr' data p e
    · exact sizes_put hf hL h (fun _ => hsz hf) hp

/-- The directory after a roll: the current file has become a backup, others may be gone. -/
theorem rolled_dir {rw rw' : RW} {hs : List Str} {d d' : Disk} {tr : STrace} (hn : rw.name = c.fileName) (h : Runs umask (c.rollOver lib rw hs) d tr (true, rw') d')
    {data : Bytes} {p : Nat} (he : d.dir c.fileName = some (.file data p)) :
    ∃ tag q, TagOf c rw tag ∧ (ChmodsOk tr → q = c.backPerm) ∧ d'.dir c.fileName = none ∧
      (∀ n, n ≠ c.fileName → n ≠ backupName c.mode c.fileName tag → d'.dir n = d.dir n ∨ d'.dir n = none) ∧
      (d'.dir (backupName c.mode c.fileName tag) = some (.file data q) ∨ d'.dir (backupName c.mode c.fileName tag) = none) := by
  obtain ⟨tag, t5, hk, h5⟩ := runs_rollOver h
  have htag : TagOf c rw tag := by
    unfold TagOf
    rcases hk with ⟨max, hk, _, _, e⟩ | ⟨pat, t, hk, _, _, e⟩ <;> rw [hk]
    · exact ⟨_, e⟩
    · exact e
  rcases h5 with ⟨h5, _⟩ | ⟨_, d1, r, d2, t2, hr, hch, rfl, h5⟩
  · cases h5
  · simp only [SysStep, if_true] at hr
    obtain ⟨data', p', e1, _, hne, rfl⟩ := hr
    rw [hn] at e1 hne
    rw [he] at e1; cases e1
    have h2 : d2.dir c.fileName = none ∧ (∀ n, n ≠ c.fileName → n ≠ backupName c.mode c.fileName tag → d2.dir n = d.dir n) ∧
        ∃ q, (r = true → q = c.backPerm) ∧ d2.dir (backupName c.mode c.fileName tag) = some (.file data q) := by
      simp only [SysStep] at hch
      split at hch
      · obtain ⟨x, y, e3, rfl⟩ := hch
        rw [put_dir, if_pos rfl] at e3; cases e3
        refine ⟨by rw [put_dir, if_neg hne, put_dir, if_neg hne, put_dir, hn, if_pos rfl], fun n h1 h2 => by rw [put_dir, if_neg h2, put_dir, if_neg h2, put_dir, hn, if_neg h1], c.backPerm, fun _ => rfl, by rw [put_dir, if_pos rfl]⟩
      · rw [hch]
        exact ⟨by rw [put_dir, if_neg hne, put_dir, hn, if_pos rfl], fun n h1 h2 => by rw [put_dir, if_neg h2, put_dir, hn, if_neg h1], p, fun h => absurd h (by assumption), by rw [put_dir, if_pos rfl]⟩
    obtain ⟨ha, hb, q, hq, hc⟩ := h2
    have hq : ChmodsOk (t5 ++ [⟨.rename rw.name (backupName c.mode c.fileName tag), true⟩, ⟨.chmod (backupName c.mode c.fileName tag) c.backPerm, r⟩] ++ t2) → q = c.backPerm := fun hok => hq (hok (backupName c.mode c.fileName tag) c.backPerm r (by simp))
    rcases h5 with ⟨_, hdel⟩ | ⟨_, _, rfl⟩
    · obtain ⟨t6, d6, t7, hd6, _, hrem, _, _⟩ := runs_deleteOldRolls hdel
      obtain ⟨k1, _, _⟩ := runs_removeAll hrem
      rw [hd6] at k1
      refine ⟨tag, q, htag, hq, ?_, ?_, ?_⟩
      · rcases k1 c.fileName with k | ⟨_, k⟩
        · rw [k, ha]
        · exact k
      · intro n h1 h2
        rcases k1 n with k | ⟨_, k⟩
        · exact .inl (by rw [k, hb n h1 h2])
        · exact .inr k
      · rcases k1 (backupName c.mode c.fileName tag) with k | ⟨_, k⟩
        · exact .inl (by rw [k, hc])
        · exact .inr k
    · exact ⟨tag, q, htag, hq, ha, fun n h1 h2 => .inl (hb n h1 h2), .inl hc⟩

theorem sizes_write {max B L : Int} (hkind : c.kind = .size max) (hmax : 0 < max) (hB : max ≤ B) (hL0 : 0 ≤ L) {d0 d d' : Disk} {rw rw' : RW} {bs : Bytes} {tr : STrace} {res : Nat × Bool}
    (hL : (bs.length : Int) ≤ L) (h : Sizes lib c max B L d0 d rw) (hr : Runs umask (c.write lib rw bs) d tr (res, rw') d') : Sizes lib c max B L d0 d' rw' := by
  obtain ⟨t1, b, rw1, d1, t2, rw2, d2, h1, h2⟩ := runs_write hr
  obtain ⟨rfl, hn1⟩ := runs_needsToRoll h1; clear h1
  rcases hn1 with ⟨max', hk', _, rfl, hb⟩ | ⟨pat, _, hk', _⟩
  · rw [hkind] at hk'; cases hk'
    rcases h2 with ⟨rfl, hroll, _, _, rfl, rfl⟩ | ⟨hroll, t3, ha, _⟩
    · have hge : rw1.size ≥ max := by simpa using hb.symm
      rcases runs_roll hroll with ⟨_, rfl, h3⟩ | ⟨hf, names, t4, hrd, _, ho⟩
      · rcases h3 with ⟨_, _, rfl⟩ | ⟨_, _, rfl⟩ | ⟨_, _, rfl⟩
        · exact h
        · exact ⟨(by intro hx; cases hx), h.cur, (by intro hx; cases hx), h.backs⟩
        · exact ⟨(by intro hx; cases hx), h.cur, fun _ hlt => by simp at hlt; omega, h.backs⟩
      · obtain ⟨tag, t5, hk, h5⟩ := runs_rollOver ho
        rcases h5 with ⟨_, _, rfl⟩ | ⟨h5, _⟩
        · rcases hk with ⟨_, _, _, rfl, _⟩ | ⟨_, _, hk, _⟩
          · exact ⟨(by intro hx; cases hx), h.cur, fun _ hlt => by simp at hlt; omega, h.backs⟩
          · rw [hkind] at hk; cases hk
        · cases h5
    · rcases hroll with ⟨rfl, hroll⟩ | ⟨rfl, _, rfl, rfl⟩
      · have hge : rw1.size ≥ max := by simpa using hb.symm
        rcases runs_roll hroll with ⟨h3, _⟩ | ⟨hf, names, t4, hrd, _, ho⟩
        · cases h3
        · obtain ⟨hname, data, p, he, hz⟩ := h.knows hf
          have hfile := Prog.Does.runs (does_rollOver (own := fun _ => True) (lib := lib) (c := c) (rw := { rw1 with file := none }) rfl trivial (fun _ _ => trivial) fun _ _ => trivial) ho
          obtain ⟨tag, q, _, _, hc1, hc2, hc3⟩ := rolled_dir (rw := { rw1 with file := none }) hname ho he
          have hlen := h.cur data p he
          refine sizes_append (Int.lt_of_lt_of_le hmax hB) hL0 hL ?_ (fun hx => absurd hfile.1 hx) (fun _ data p e => by rw [hc1] at e; cases e) ha
          refine ⟨fun hx => (by rw [hfile.1] at hx; cases hx), fun data p e => (by rw [hc1] at e; cases e), fun _ _ data p e => (by rw [hc1] at e; cases e), ?_⟩
          intro n v hv data' p' e
          have hne : n ≠ c.fileName := by rintro rfl; exact current_not_backup lib c v hv
          by_cases hnew : n = backupName c.mode c.fileName tag
          · subst hnew
            rcases hc3 with hc3 | hc3 <;> rw [hc3] at e <;> cases e
            exact .inr ⟨by omega, by omega⟩
          · rcases hc2 n hne hnew with hx | hx <;> rw [hx] at e
            · exact h.backs n v hv data' p' e
            · cases e
      · have hlt : rw2.size < max := by simpa using hb.symm
        exact sizes_append (Int.lt_of_lt_of_le hmax hB) hL0 hL h (fun _ => Int.lt_of_lt_of_le hlt hB) (fun hf => h.fresh hf hlt) ha
  · rw [hkind] at hk'; cases hk'

end Log4g
