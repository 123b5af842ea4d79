import Verif.Lemmas.Machine
import Verif.Props.Shared

/-! # Programs and their files: what is on the disk -/

namespace Log4g
open Spec Strconv
open scoped List
variable {V : Type} {env : PEnv V} {host : Host}

/-! ## Writers that succeed -/

theorem sifts_none {c : RCfg} {tr : STrace} (h : LogCallsOk tr) : LogCallsOk (c.sifts tr) := by
  intro x hx hna hf
  obtain ⟨⟨o, r⟩, hy, rfl⟩ := List.mem_map.mp hx
  refine h _ hy hna ?_
  cases o <;> simp only [RCfg.sift, Failed, Option.map_eq_none_iff] at hf ⊢ <;> exact hf

/-- A writer of which nothing failed and nobody died. -/
theorem life_ok {umask : Nat} {lib : RLib} {c : RCfg} (hmax : ∀ max, c.kind = .size max → 0 < max) {d0 d : Disk} {ds : List Deed} {tr : STrace} {rw : RW}
    (h : LifeOf umask lib c d0 ds tr d rw) (hd : ∀ x ∈ ds, ∃ msg n ok, x = .wrote msg n ok) (hn : LogCallsOk tr) :
    Session umask lib c d0 (messages ds) tr d rw ∧ ∀ x ∈ ds, ∃ msg, x = .wrote msg msg.length true := by
  induction h with
  | start => exact ⟨.start, by simp⟩
  | @write ds tr d rw msg tr' n ok rw' d' _ hr ih =>
    obtain ⟨h1, h2⟩ := ih (fun x hx => hd x (List.mem_append_left _ hx)) (logCallsOk_append.mp hn).1
    refine ⟨by rw [messages_append]; exact h1.write hr, fun x hx => ?_⟩
    rcases List.mem_append.mp hx with hx | hx
    · exact h2 x hx
    · obtain rfl := List.mem_singleton.mp hx
      have hok := session_ok hmax h1 hr hn
      have hl := ((write_dir (session_knows h1) hr).2.1 hok).2
      simp only at hok hl
      exact ⟨msg, by rw [hok, hl]⟩
  | crash _ _ _ => obtain ⟨_, _, _, h⟩ := hd _ (List.mem_append_right _ (List.mem_singleton.mpr rfl)); cases h
  | restart _ _ => obtain ⟨_, _, _, h⟩ := hd _ (List.mem_append_right _ (List.mem_singleton.mpr rfl)); cases h

/-- Nobody dies. -/
theorem deeds_wrote (k o : Nat) (tr : List (MLab V)) : ∀ x ∈ deedsOf o (ioIn k tr), ∃ msg n ok, x = .wrote msg n ok := by
  induction tr with
  | nil => simp [ioIn, deedsOf]
  | cons l tr ih =>
    rw [show l :: tr = [l] ++ tr from rfl, ioIn_append, deedsOf_append]
    intro x hx
    rcases List.mem_append.mp hx with hx | hx
    · cases l with
      | prog l => simp [ioIn, deedsOf] at hx
      | write l j p bs =>
        by_cases e : j = k <;> simp [ioIn, deedsOf, e] at hx
      | sys j p y =>
        by_cases e : j = k <;> simp [ioIn, deedsOf, e] at hx
      | done j p bs res =>
        by_cases e : j = k
        · by_cases e' : p = o
          · simp only [ioIn, e, List.flatMap_cons, List.flatMap_nil, List.append_nil, if_true, deedsOf, e', List.mem_singleton] at hx
            exact ⟨_, _, _, hx⟩
          · simp [ioIn, deedsOf, e, e'] at hx
        · simp [ioIn, deedsOf, e] at hx
    · exact ih x hx

theorem ne_snoc {α : Type} {a : List α} {x : α} : ¬ ([] : List α) = a ++ [x] := by simp

/-- The pieces of messages all of which were written. -/
theorem pieces_all {ds : List Deed} {ps : List Bytes} (h : PiecesOf ds ps) (hd : ∀ x ∈ ds, ∃ msg, x = .wrote msg msg.length true) : ps = messages ds := by
  induction h with
  | nil => rfl
  | @wrote ds ps msg n ok _ h1 h2 ih =>
    rw [ih fun x hx => hd x (List.mem_append_left _ hx), messages_append]
    obtain ⟨m, e⟩ := hd _ (List.mem_append_right _ (List.mem_singleton.mpr rfl))
    cases e
    simp [messages]
  | failed _ _ => obtain ⟨m, e⟩ := hd _ (List.mem_append_right _ (List.mem_singleton.mpr rfl)); simp at e
  | died _ _ _ => obtain ⟨m, e⟩ := hd _ (List.mem_append_right _ (List.mem_singleton.mpr rfl)); cases e
  | diedBefore _ _ => obtain ⟨m, e⟩ := hd _ (List.mem_append_right _ (List.mem_singleton.mpr rfl)); cases e
  | restarted _ _ => obtain ⟨m, e⟩ := hd _ (List.mem_append_right _ (List.mem_singleton.mpr rfl)); cases e

theorem pieces_died {ds : List Deed} {msg : Bytes} {ps : List Bytes} (h : PiecesOf (ds ++ [.died msg]) ps) :
    ∃ ps' part, PiecesOf ds ps' ∧ ps = ps' ++ part ∧ part.length ≤ 1 ∧ part.flatten <+: msg := by
  generalize e : ds ++ [.died msg] = ds' at h
  cases h with
  | nil => simp at e
  | wrote _ _ _ => have := (List.append_inj' e rfl).2; simp at this
  | failed _ => have := (List.append_inj' e rfl).2; simp at this
  | @died ds' ps msg' n h =>
    obtain ⟨rfl, e2⟩ := List.append_inj' e rfl
    cases e2
    exact ⟨_, _, h, rfl, by simp, by simpa using List.take_prefix _ _⟩
  | diedBefore h =>
    obtain ⟨rfl, e2⟩ := List.append_inj' e rfl
    exact ⟨_, [], h, by simp, by simp, by simp⟩
  | restarted _ => have := (List.append_inj' e rfl).2; simp at this

/-- Messages cut into smaller ones. -/
theorem keeps_regroup {lib : RLib} {c : RCfg} {F0 : List Bytes} {xs : List (List Bytes)} {d : Dir} (h : KeepsLog lib c F0 (xs.map List.flatten) d) :
    KeepsLog lib c F0 xs.flatten d := by
  obtain ⟨hs, dropped, groups, h1, h2, h3, h4⟩ := h
  obtain ⟨gs', g1, g2⟩ := regroup (gs := groups) (xs := F0.map (fun x => [x]) ++ xs) (by rw [h2]; simp [Function.comp_def])
  refine ⟨hs, dropped, gs', h1, ?_, by rw [g2, h3], h4⟩
  rw [g1, List.flatten_append]
  congr 1
  clear h2 g1
  induction F0 with
  | nil => rfl
  | cons x F0 ih => rw [List.map_cons, List.flatten_cons, ih]; rfl

/-! ## The directory of an output -/

theorem neighbours {w : World} {k : Nat} (h : Neighbourly env.tc host w k) : AllApart (writersIn env.tc host w k) ∧ ArchivesApart (writersIn env.tc host w k) := by
  constructor
  · intro i j c c' hij hi hj
    obtain ⟨h1, h2⟩ := writersIn_iff.mp hi
    obtain ⟨h3, h4⟩ := writersIn_iff.mp hj
    exact h.apart i j c c' hij (rolling_iff.mpr h1) (rolling_iff.mpr h3) h2 h4
  · refine ⟨fun i c hi => ?_, fun i j c c' hi hj ha => ?_⟩
    · obtain ⟨h1, _⟩ := writersIn_iff.mp hi
      obtain ⟨h2, h3⟩ := rollOf_usual h1
      exact .inr ⟨h3, h2⟩
    · obtain ⟨h1, h2⟩ := writersIn_iff.mp hi
      obtain ⟨h3, h4⟩ := writersIn_iff.mp hj
      exact h.temp i j c c' (rolling_iff.mpr h1) (rolling_iff.mpr h3) h2 h4 ha

variable {up : Nat → Bool} {v0 : Nat → Volume} {tr : List (MLab V)} {m : Machine V} {o k : Nat} {c : RCfg}

theorem view_pending (hr : m.p.w.rollOf env.tc o = some c) (hk : host.place c.dirPath = k) :
    deedsOf o (ioIn k tr) ++ pending (m.view env host k) o = deedsIn k o tr m := by
  have hw : writersIn env.tc host m.p.w k o = some c := writersIn_iff.mpr ⟨hr, hk⟩
  unfold deedsIn pending
  rw [view_wr hw]
  cases (m.wr o).job <;> rfl

/-- What was given to the writer. -/
theorem given_messages (inv : MInv env host up v0 tr m) (hr : m.p.w.rollOf env.tc o = some c) (hk : host.place c.dirPath = k) :
    messages (deedsIn k o tr m) = m.p.given env o := by
  rw [inv.given o c hr, hk, deedsIn, messages_append]
  congr 1
  unfold doing
  cases (m.wr o).job <;> rfl

/-- Whatever fails. -/
theorem disk_pieces (inv : MInv env host up v0 tr m) (hv : OneName (v0 k)) (hr : m.p.w.rollOf env.tc o = some c) (hk : host.place c.dirPath = k)
    (hn : Neighbourly env.tc host m.p.w k) {hs0 : List Str} (hb : Backups host.lib c (v0 k).dir hs0) (hname : Nameable host.lib c hs0 (callsOf o (ioIn k tr)))
    (hrm : RemovesOk (callsOf o (ioIn k tr))) : ∃ ps, PiecesOf (deedsIn k o tr m) ps ∧ KeepsLog host.lib c (files c (v0 k).dir hs0) ps (m.vol k).dir := by
  obtain ⟨hap, hna⟩ := neighbours hn
  have hw : writersIn env.tc host m.p.w k o = some c := writersIn_iff.mpr ⟨hr, hk⟩
  rw [← view_pending hr hk]
  cases hname with
  | size h1 _ h3 h4 h5 => exact C93_neighbours_partial hap hna hv (inv.dirs k) hw h1 hb h3 h4 hrm h5
  | time h1 h2 h3 h4 h5 => exact C93_neighbours_time_partial hap hna hv (inv.dirs k) hw h1 h2 hb h3 hrm h4 h5

/-- If nothing fails, every write has written the whole message. -/
theorem deeds_ok (inv : MInv env host up v0 tr m) (hv : OneName (v0 k)) (hr : m.p.w.rollOf env.tc o = some c) (hk : host.place c.dirPath = k)
    (hn : Neighbourly env.tc host m.p.w k) {hs0 : List Str} (hname : Nameable host.lib c hs0 (callsOf o (ioIn k tr)))
    (hf : LogCallsOk (callsOf o (ioIn k tr))) : ∀ x ∈ deedsOf o (ioIn k tr), ∃ msg, x = .wrote msg msg.length true := by
  obtain ⟨hap, hna⟩ := neighbours hn
  have hw : writersIn env.tc host m.p.w k o = some c := writersIn_iff.mpr ⟨hr, hk⟩
  have hmax : ∀ max, c.kind = .size max → 0 < max := by
    intro max hm
    cases hname with
    | size h1 h2 _ _ _ => rw [h1] at hm; cases hm; exact h2
    | time h1 _ _ _ _ => rw [h1] at hm; cases hm
  have ha := (sh_inv hap hna hv (inv.dirs k)).alone o c hw
  unfold Alone at ha
  rw [view_wr hw] at ha
  have hs := sifts_none (c := c) hf
  split at ha
  · obtain ⟨_, ha⟩ := ha
    exact (life_ok hmax ha (deeds_wrote k o tr) hs).2
  · obtain ⟨t1, t2, d, _, h3, _, h5⟩ := ha
    rw [h5] at hs
    exact (life_ok hmax h3 (deeds_wrote k o tr) (logCallsOk_append.mp hs).1).2

/-- If nothing fails, all that was given to the writer is on the disk, up to the message that is being written. -/
theorem disk_messages (inv : MInv env host up v0 tr m) (hv : OneName (v0 k)) (hr : m.p.w.rollOf env.tc o = some c) (hk : host.place c.dirPath = k)
    (hn : Neighbourly env.tc host m.p.w k) {hs0 : List Str} (hb : Backups host.lib c (v0 k).dir hs0) (hname : Nameable host.lib c hs0 (callsOf o (ioIn k tr)))
    (hf : LogCallsOk (callsOf o (ioIn k tr))) :
    ∃ before part, m.p.given env o = before ++ doing (m.wr o) ∧ part.length ≤ 1 ∧ part.flatten <+: (doing (m.wr o)).flatten ∧ ((m.wr o).job = none → part = []) ∧
      KeepsLog host.lib c (files c (v0 k).dir hs0) (before ++ part) (m.vol k).dir := by
  obtain ⟨ps, h1, h2⟩ := disk_pieces inv hv hr hk hn hb hname (removesOk_of_logCalls hf)
  have ok := deeds_ok inv hv hr hk hn hname hf
  have hg := inv.given o c hr
  rw [hk] at hg
  unfold deedsIn at h1
  cases hj : (m.wr o).job with
  | none =>
    rw [hj] at h1
    simp only [List.append_nil] at h1
    have := pieces_all h1 ok
    subst this
    exact ⟨_, [], hg, by simp, by simp, fun _ => rfl, by simpa using h2⟩
  | some x =>
    obtain ⟨msg, p⟩ := x
    rw [hj] at h1
    obtain ⟨ps', part, k1, rfl, k2, k3⟩ := pieces_died h1
    have := pieces_all k1 ok
    subst this
    exact ⟨_, part, hg, k2, by simpa [doing, hj] using k3, fun e => by simp at e, h2⟩

/-! ## Asynchronous outputs -/

/-- `written_pairs`, with the batches: those the first `n` writes have, those of the others, and those that wait. -/
theorem written_groups {cfg : ACfg V} {f : Formatter V} (hf : cfg.f = some f) (hb : 1 ≤ cfg.batchNum) {prog : Nat → List (ACall V)} {al : List (ALab V)} {s : AState V}
    (h : AExec cfg (newAsync prog) al s) {w1 w2 : List Bytes} (hw : s.writes = w1 ++ w2) :
    ∃ (gs1 gs2 : List (List (Event V))) (written batch waiting : List (Nat × Event V)), pairsOf al = written ++ batch ++ waiting ∧ w1 = gs1.map (·.flatMap f) ∧ w2 = gs2.map (·.flatMap f) ∧
      gs1.flatten = accepted cfg.t (written.map (·.2)) ∧ gs2.flatten = accepted cfg.t (batch.map (·.2)) ∧ (∀ g ∈ gs2, g.length ≤ cfg.batchNum) ∧
      (gs2 = [] → batch = []) ∧ (accepted cfg.t (waiting.map (·.2))).length < cfg.queueSize + cfg.batchNum := by
  obtain ⟨hq, hsz⟩ := queue_always hf h
  obtain ⟨gs, b, bi⟩ := aexec_binv hf h
  have hgr := bi.groups
  rw [hw] at hgr
  obtain ⟨gs1, gs2, rfl, hg1, hg2⟩ := List.map_eq_append_iff.mp hgr.symm
  have hev : (pairsOf al).map (·.2) = eventsOf (takenOf al) ++ eventsOf s.chan := by rw [pairs_events, hq, eventsOf_append]
  obtain ⟨p1, p2, e1, e2, e3⟩ := List.map_eq_append_iff.mp hev
  have hsplit := bi.split
  rw [← e2, List.flatten_append, List.append_assoc] at hsplit
  obtain ⟨l1, l2, h1, h2, h3⟩ := List.filter_eq_append_iff.mp hsplit
  obtain ⟨q1, q2, g1, rfl, g3⟩ := List.map_eq_append_iff.mp h1
  have hrest : (accepted cfg.t (eventsOf s.chan)).length ≤ cfg.queueSize :=
    Nat.le_trans (Nat.le_trans (List.length_filter_le _ _) (List.length_filterMap_le _ _)) hsz
  have hb' := bi.batch hb
  rw [bi.num] at hb'
  by_cases hg : gs2 = []
  · subst hg
    refine ⟨gs1, [], q1, [], q2 ++ p2, by rw [e1, g1]; simp, hg1.symm, hg2.symm, h2.symm, rfl, by simp, fun _ => rfl, ?_⟩
    rw [List.map_append, accepted_append, List.length_append, g3, e3]
    have : (accepted cfg.t l2).length = b.length := by
      have : accepted cfg.t l2 = ([] : List (List (Event V))).flatten ++ b := h3
      rw [this]; rfl
    omega
  · obtain ⟨l3, l4, h4, h5, h6⟩ := List.filter_eq_append_iff.mp h3
    rw [h4] at g3
    obtain ⟨q3, q4, k1, rfl, k3⟩ := List.map_eq_append_iff.mp g3
    refine ⟨gs1, gs2, q1, q3, q4 ++ p2, by rw [e1, g1, k1]; simp, hg1.symm, hg2.symm, h2.symm, h5.symm, fun g hm => bi.sizes hb g (List.mem_append_right _ hm), fun e => absurd e hg, ?_⟩
    rw [List.map_append, accepted_append, List.length_append, k3, e3]
    have : (accepted cfg.t l4).length = b.length := by
      have : accepted cfg.t l4 = b := h6
      rw [this]
    omega

end Log4g
