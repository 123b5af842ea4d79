import Verif.Lemmas.RollSize
import Verif.Lemmas.RollWrites
import Verif.Lemmas.RollDirs

/-! # Sizes of files over restarts -/

namespace Log4g
open Spec

variable {lib : RLib} {c : RCfg} {umask : Nat}

theorem restarts_append (a b : List Deed) : restarts (a ++ b) = restarts a + restarts b := by
  induction a with
  | nil => simp [restarts]
  | cons x xs ih => cases x <;> simp [restarts, ih] <;> omega

/-- A write that is cut off leaves the disk like one of which every further call fails. -/
theorem stops_stays {rw : RW} {bs : Bytes} {d d' : Disk} {tr : STrace} (hk : Knows c rw d) (h : Stops umask (c.write lib rw bs) d tr d') :
    ∃ t2 res rw', Runs umask (c.write lib rw bs) d (tr ++ t2) (res, rw') d' := by
  obtain ⟨q, hq⟩ := stops_reaches h
  obtain ⟨t2, ⟨res, rw'⟩, hr⟩ := (hq.safe (safe_write hk bs)).stays
  exact ⟨t2, res, rw', hq.runs hr⟩

theorem Sizes.anew {max B L : Int} {d0 d : Disk} {rw : RW} (hL : 0 ≤ L) (h : Sizes lib c max B L d0 d rw) : Sizes lib c max (B + L) L d0 d {} := by
  refine ⟨fun hx => (by cases hx), fun data p e => ?_, fun _ _ => h.cur, fun n v hv data p e => ?_⟩
  · have := h.cur data p e; omega
  · rcases h.backs n v hv data p e with hx | ⟨h1, h2⟩
    · exact .inl hx
    · exact .inr ⟨h1, by omega⟩

theorem lifeOf_sizes {max K : Int} {L : Nat} (hk : c.kind = .size max) (hmax : 0 < max) (hK : max ≤ K) {d0 d : Disk}
    (h0 : ∀ data p, d0.dir c.fileName = some (.file data p) → (data.length : Int) < K) {ds : List Deed} {tr : STrace} {rw : RW}
    (h : LifeOf umask lib c d0 ds tr d rw) (hms : ∀ m ∈ ds, m.text.length ≤ L) : Sizes lib c max (K + (restarts ds : Int) * L) L d0 d rw := by
  have hL : (0 : Int) ≤ L := Int.natCast_nonneg L
  induction h with
  | start =>
    refine ⟨fun hx => (by cases hx), fun data p e => ?_, fun _ _ data p e => ?_, fun n v _ data p e => .inl e⟩
    · have := h0 data p e; simp only [restarts]; omega
    · have := h0 data p e; simp only [restarts]; omega
  | @write ds tr d rw msg tr' n ok rw' d' hl hr ih =>
    have ih := ih fun m hm => hms m (by simp [hm])
    have e : restarts (ds ++ [Deed.wrote msg n ok]) = restarts ds := by rw [restarts_append]; rfl
    rw [e]
    have hR : (0 : Int) ≤ (restarts ds : Int) * L := Int.mul_nonneg (Int.natCast_nonneg _) hL
    exact sizes_write hk hmax (by omega) hL (Int.ofNat_le.mpr (hms (Deed.wrote msg n ok) (by simp))) ih hr
  | @crash ds tr d rw msg tr' d' hl hs ih =>
    have ih := ih fun m hm => hms m (by simp [hm])
    have e : (restarts (ds ++ [Deed.died msg]) : Int) * L = (restarts ds : Int) * L + L := by
      rw [restarts_append]; simp [restarts, Int.add_mul]
    have hR : (0 : Int) ≤ (restarts ds : Int) * L := Int.mul_nonneg (Int.natCast_nonneg _) hL
    rw [e, ← Int.add_assoc]
    obtain ⟨t2, res, rw2, hr⟩ := stops_stays ih.knows hs
    exact (sizes_write hk hmax (by omega) hL (Int.ofNat_le.mpr (hms (Deed.died msg) (by simp))) ih hr).anew hL
  | @restart ds tr d rw hl ih =>
    have ih := ih fun m hm => hms m (by simp [hm])
    have e : (restarts (ds ++ [Deed.restarted]) : Int) * L = (restarts ds : Int) * L + L := by
      rw [restarts_append]; simp [restarts, Int.add_mul]
    rw [e, ← Int.add_assoc]
    exact ih.anew hL

/-- A new writer can append to a log file without rolling, and no call fails. -/
theorem anew_appends {max : Int} (hk : c.kind = .size max) (hmax : 0 < max) {d : Disk} {data : Bytes} {p : Nat} (he : d.dir c.fileName = some (.file data p)) (bs : Bytes) :
    ∃ tr rw, Runs umask (c.write lib {} bs) d tr ((bs.length, true), rw) (d.put c.fileName (some (.file (data ++ bs) p))) ∧ NoneFailed tr := by
  refine ⟨[⟨.mkdirAll c.dirPerm, true⟩, ⟨.openAppend c.fileName c.filePerm, true⟩, ⟨.stat c.fileName, some data.length⟩, ⟨.write c.fileName bs, (bs.length, true)⟩],
    { ({} : RW) with name := c.fileName, file := some .opened, size := data.length + bs.length }, ?_, ?_⟩
  · have hd : decide ((0 : Int) ≥ max) = false := by simp; omega
    have hw : c.write lib {} bs = c.append {} bs := by
      unfold RCfg.write RCfg.needsToRoll
      rw [hk]
      show (if decide ((0 : Int) ≥ max) = true then _ else _) = _
      rw [hd]; rfl
    rw [hw]
    refine .call (d' := d) rfl (.call (d' := d) ?_ (.call (d' := d) ⟨rfl, data, p, he, rfl⟩ (.call (d' := d.put c.fileName (some (.file (data ++ bs) p))) ⟨data, p, he, Nat.le_refl _, fun _ => rfl, ?_⟩ ?_)))
    · simp only [SysStep, if_true]
      rw [he]
      trivial
    · rw [List.take_length]
    · exact .ret
  · intro x hx
    simp only [List.mem_cons, List.not_mem_nil, or_false] at hx
    rcases hx with rfl | rfl | rfl | rfl <;> simp [Failed]

/-- The first write of a new writer does not roll. -/
theorem anew_noroll (hmax : ∀ max, c.kind = .size max → 0 < max) {d d' : Disk} {bs : Bytes} {tr : STrace} {res : Nat × Bool} {rw' : RW}
    (hw : Runs umask (c.write lib {} bs) d tr (res, rw') d') : rolls tr = 0 := by
  cases hk : c.kind with
  | size max => exact (write_must_roll hk hw).1 (hmax max hk)
  | time pat =>
    obtain ⟨t1, b, rw1, d1, t2, rw2, d2, k1, k2⟩ := runs_write hw
    obtain ⟨_, k3⟩ := runs_needsToRoll k1
    rcases k3 with ⟨_, hk', _⟩ | ⟨_, _, _, rfl, ⟨_, rfl, _⟩ | ⟨h, _⟩⟩
    · rw [hk] at hk'; cases hk'
    · rcases k2 with ⟨h, _⟩ | ⟨⟨h, _⟩ | ⟨_, rfl, _⟩, t3, ha, rfl⟩
      · cases h
      · cases h
      · have := rolls_zero fun x hx a b => append_norename ha x hx a b
        simp [rolls_append, rolls, this]
    · exact absurd rfl h

theorem anew_dir (hmax : ∀ max, c.kind = .size max → 0 < max) {d d' : Disk} {bs : Bytes} {tr : STrace} {res : Nat × Bool} {rw' : RW}
    (h : Runs umask (c.write lib {} bs) d tr (res, rw') d') : rolls tr = 0 ∧ (∀ n, n ≠ c.fileName → d'.dir n = d.dir n) ∧ Appended umask c d.dir d'.dir bs res := by
  have hk : Knows c ({} : RW) d := fun h => by cases h
  rcases (write_dir hk h).2.2 with hx | ⟨_, _, _, _, _, hr, _⟩
  · exact hx
  · rw [anew_noroll hmax h] at hr; cases hr

theorem alone_snoc {ds : List Deed} {x : Deed} (h : alone (ds ++ [x])) : alone ds ∧ (x = .restarted ∨ ∀ xs m n ok, ds ≠ xs ++ [.wrote m n ok]) := by
  induction ds with
  | nil => exact ⟨trivial, .inr fun xs m n ok h => by simp at h⟩
  | cons y ys ih =>
    cases ys with
    | nil =>
      cases y <;> cases x <;> simp [alone] at h ⊢
      all_goals intro xs m n; constructor <;> intro h <;> cases xs <;> simp at h
    | cons z zs =>
      have h2 : alone ((z :: zs) ++ [x]) := by cases y <;> cases z <;> first | exact h | exact h.elim
      obtain ⟨h3, h4⟩ := ih h2
      refine ⟨by cases y <;> cases z <;> first | exact h3 | exact h.elim, ?_⟩
      rcases h4 with h4 | h4
      · exact .inl h4
      · refine .inr fun xs m n ok he => ?_
        cases xs with
        | nil => cases he
        | cons w ws => exact h4 ws m n ok (List.cons.inj he).2

theorem snoc_alone {ds : List Deed} {x : Deed} (h1 : alone ds) (h2 : x = .restarted ∨ ∀ xs m n ok, ds ≠ xs ++ [.wrote m n ok]) : alone (ds ++ [x]) := by
  induction ds with
  | nil => cases x <;> exact trivial
  | cons y ys ih =>
    cases ys with
    | nil =>
      rcases h2 with rfl | h2
      · cases y <;> exact trivial
      · cases y with
        | wrote m n ok => exact absurd rfl (h2 [] m n ok)
        | died m => cases x <;> exact trivial
        | restarted => cases x <;> exact trivial
    | cons z zs =>
      have h3 : alone (z :: zs) := by cases y <;> cases z <;> first | exact h1 | exact h1.elim
      have h4 := ih h3 (h2.imp id fun h xs m n ok he => h (y :: xs) m n ok (by rw [he]; rfl))
      cases y <;> cases z <;> first | exact h4 | exact h1.elim

theorem lifeOf_anew {d0 d : Disk} {ds : List Deed} {tr : STrace} {rw : RW} (h : LifeOf umask lib c d0 ds tr d rw) (hd : ∀ xs m n ok, ds ≠ xs ++ [.wrote m n ok]) : rw = {} := by
  cases h with
  | start => rfl
  | write _ _ => exact absurd rfl (hd _ _ _ _)
  | crash _ _ => rfl
  | restart _ => rfl

theorem stopped_anew (hmax : ∀ max, c.kind = .size max → 0 < max) {d d' : Disk} {bs : Bytes} {tr : STrace}
    (h : Stops umask (c.write lib {} bs) d tr d') : rolls tr = 0 ∧ (∀ n, n ≠ c.fileName → d'.dir n = d.dir n) ∧ ∃ res, Appended umask c d.dir d'.dir bs res := by
  obtain ⟨t2, res, rw', hr⟩ := stops_stays (fun h => by cases h) h
  obtain ⟨h1, h2, h3⟩ := anew_dir hmax hr
  rw [rolls_append] at h1
  exact ⟨by omega, h2, res, h3⟩

theorem appended_text {d d' : Dir} {bs : Bytes} {res : Nat × Bool} (h : Appended umask c d d' bs res) :
    (res = (0, false) ∧ fileText d' c.fileName = fileText d c.fileName) ∨ fileText d' c.fileName = fileText d c.fileName ++ bs.take res.1 := by
  rcases h with ⟨h1, h2⟩ | ⟨h1, h2⟩ | ⟨_, _, h1, h2⟩
  · exact .inl ⟨h1, by simp only [fileText, h2]⟩
  · exact .inr (by simp only [fileText, h1, h2]; rfl)
  · exact .inr (by simp only [fileText, h1, h2])

theorem lifeOf_alone (hmax : ∀ max, c.kind = .size max → 0 < max) {d0 d : Disk} {ds : List Deed} {tr : STrace} {rw : RW} (h : LifeOf umask lib c d0 ds tr d rw)
    (ha : alone ds) : rolls tr = 0 ∧ (∀ n, n ≠ c.fileName → d.dir n = d0.dir n) ∧
      ∃ ps, PiecesOf ds ps ∧ fileText d.dir c.fileName = fileText d0.dir c.fileName ++ ps.flatten := by
  induction h with
  | start => exact ⟨rfl, fun _ _ => rfl, [], .nil, by simp⟩
  | @write ds tr d rw msg tr' n ok rw' d' hl hr ih =>
    obtain ⟨h1, h2⟩ := alone_snoc ha
    obtain ⟨h3, h4, ps, h5, h6⟩ := ih h1
    have e := lifeOf_anew hl (h2.resolve_left (by simp))
    subst e
    obtain ⟨k1, k2, k3⟩ := anew_dir hmax hr
    have hn : n ≤ msg.length ∧ (ok = true → n = msg.length) := by
      rcases write_chunks hr with ⟨_, rfl, rfl⟩ | ⟨_, hn, hok⟩
      · exact ⟨Nat.zero_le _, by simp⟩
      · exact ⟨hn, hok⟩
    refine ⟨by rw [rolls_append, h3, k1], fun m hm => by rw [k2 m hm, h4 m hm], ?_⟩
    rcases appended_text k3 with ⟨k4, k5⟩ | k5
    · cases k4
      exact ⟨ps, .failed h5, by rw [k5, h6]⟩
    · exact ⟨ps ++ [msg.take n], .wrote h5 hn.1 hn.2, by rw [k5, h6]; simp⟩
  | @crash ds tr d rw msg tr' d' hl hs ih =>
    obtain ⟨h1, h2⟩ := alone_snoc ha
    obtain ⟨h3, h4, ps, h5, h6⟩ := ih h1
    have e := lifeOf_anew hl (h2.resolve_left (by simp))
    subst e
    obtain ⟨k1, k2, res, k3⟩ := stopped_anew hmax hs
    refine ⟨by rw [rolls_append, h3, k1], fun m hm => by rw [k2 m hm, h4 m hm], ?_⟩
    rcases appended_text k3 with ⟨_, k5⟩ | k5
    · exact ⟨ps, .diedBefore h5, by rw [k5, h6]⟩
    · exact ⟨ps ++ [msg.take res.1], .died _ h5, by rw [k5, h6]; simp⟩
  | restart hl ih =>
    obtain ⟨h1, _⟩ := alone_snoc ha
    obtain ⟨h3, h4, ps, h5, h6⟩ := ih h1
    exact ⟨h3, h4, ps, .restarted h5, h6⟩

end Log4g
