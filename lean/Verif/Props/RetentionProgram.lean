import Verif.Lemmas.RetentionProgram

/-! # C113, whole programs: the newest lines are in the files, whoever else writes to the directory -/

namespace Log4g
open Spec
open scoped List

variable {V : Type} {env : PEnv V} {host : Host} {up : Nat → Bool} {v0 : Nat → Volume} {tr : List (MLab V)} {m : Machine V} {o : Nat} {c : RCfg} {k : Nat} {hs0 : List Str}

/-- C113, programs, whatever fails: what a size-rolling output has written with success is in the log, in one piece, as long as what
it has been given to write afterwards has less than `maxRolls` times `max` bytes. -/
theorem C113_program (h : MExec env host (newMachine up v0) tr m) (hd : Housed env host v0 tr m o c k hs0) {max : Int} (hmax : c.kind = .size max)
    {ds1 ds2 : List Deed} {msg : Bytes} {n : Nat} (hds : deedsIn k o tr m = ds1 ++ .wrote msg n true :: ds2)
    (hr : ((messages ds2).flatten.length : Int) < c.maxRolls * max) : InLog host.lib c (m.vol k).dir msg :=
  machine_retains (mexec_inv h) hd.order (rolling_iff.mp hd.out) hd.place hd.apart hd.backups hd.names hmax hds hr

/-- C113, programs, asynchronous outputs: if no call to the operating system failed, except perhaps for archives, all that the goroutines have logged is
written, or in the batch that is being written, or waits; and the text of an accepted event that is written is in the log, in one
piece, as long as the texts written after it and those of the batch have less than `maxRolls` times `max` bytes. -/
theorem C113_program_async (h : MExec env host (newMachine up v0) tr m) (hd : Housed env host v0 tr m o c k hs0) {max : Int} (hmax : c.kind = .size max)
    (hok : LogCallsOk (callsOf o (ioIn k tr))) {cfg : ACfg V} (hc : AsyncOut env m.p.w o cfg) (ho : Open o (progOf tr)) :
    ∃ f written batch waiting, cfg.f = some f ∧
      (∀ pre t e post, written = pre ++ (t, e) :: post → cfg.t ≤ e.level → ((textsOf cfg f (post ++ batch)).length : Int) < c.maxRolls * max →
        InLog host.lib c (m.vol k).dir (f e)) ∧
      ((m.wr o).job = none → batch = []) ∧ (accepted cfg.t (batch.map (·.2))).length ≤ cfg.batchNum ∧
      (accepted cfg.t (waiting.map (·.2))).length < cfg.queueSize + cfg.batchNum ∧
      ∀ t, shareOf t (written ++ batch ++ waiting) <+: sentBy t o (progOf tr) ∧
        ∀ a b, progOf tr = a ++ b → Returned t a → sentBy t o a <+: shareOf t (written ++ batch ++ waiting) := by
  have inv := mexec_inv h
  have pinv := pexec_inv inv.prog
  have hc := async_of hc
  obtain ⟨⟨f, hf⟩, _, hb, _⟩ := asyncOf_cfg pinv.world hc
  obtain ⟨before, h1, h2⟩ := machine_given inv hd.order (rolling_iff.mp hd.out) hd.place hd.apart hd.backups hd.names hok hmax
  have hgiven : m.p.given env o = (m.p.a o).writes := by unfold PState.given; rw [hc]
  rw [hgiven] at h1
  obtain ⟨gs1, gs2, written, batch, waiting, e1, e2, e3, e4, e5, e6, e7, e8⟩ := written_groups hf hb (pinv.proj o cfg hc) h1
  refine ⟨f, written, batch, waiting, hf, ?_, ?_, ?_, e8, fun t => ?_⟩
  · intro pre t e post he hl hr
    have hg : gs1.flatten = accepted cfg.t (pre.map (·.2)) ++ e :: accepted cfg.t (post.map (·.2)) := by
      rw [e4, he]
      simp [accepted, hl]
    obtain ⟨G1, g1, g2, G2, rfl, hG⟩ := flatten_at hg
    rw [List.map_append, List.map_cons] at e2
    have hin := h2 _ _ _ e2 ?_
    · rw [List.flatMap_append, List.flatMap_cons, ← List.append_assoc] at hin
      exact inLog_part hin
    · refine Int.lt_of_le_of_lt ?_ hr
      have h3 : textsOf cfg f (post ++ batch) = g2.flatMap f ++ ((G2.map (·.flatMap f)).flatten ++ (gs2.map (·.flatMap f)).flatten) := by
        unfold textsOf
        have : accepted cfg.t ((post ++ batch).map (·.2)) = g2 ++ G2.flatten ++ gs2.flatten := by
          rw [hG, e5]; simp [accepted]
        rw [this, List.flatMap_append, List.flatMap_append, List.append_assoc]
        simp [List.flatMap_def, List.map_flatten, List.flatten_flatten, Function.comp_def]
      rw [h3, e3]
      simp only [List.length_append]
      omega
  · intro hj
    have hdo : doing (m.wr o) = [] := by simp [doing, hj]
    rw [hdo] at e3
    exact e7 (List.map_eq_nil_iff.mp e3.symm)
  · rw [← e5]
    have : gs2.length ≤ 1 := by
      have := congrArg List.length e3
      rw [List.length_map] at this
      rw [← this]
      unfold doing
      cases (m.wr o).job <;> simp
    match gs2, this with
    | [], _ => simp
    | [g], _ => simpa using e6 g (by simp)
  · rw [← e1]
    refine ⟨(all_queued inv.prog hc ho t).1, ?_⟩
    intro a b e hr
    have ho' : Open o a := by rw [e] at ho; exact open_left ho
    rw [async_returned inv.prog hc t e ho' hr, e, outLabs_append, pairsOf_append, shareOf_append]
    exact List.prefix_append _ _

/-- C113, programs, synchronous outputs: if no call to the operating system failed, except perhaps for archives, the line of every log call that has
returned is in the log, in one piece, as long as the lines written after it and the one that is being written have less than
`maxRolls` times `max` bytes. -/
theorem C113_program_sync (h : MExec env host (newMachine up v0) tr m) (hd : Housed env host v0 tr m o c k hs0) {max : Int} (hmax : c.kind = .size max)
    (hok : LogCallsOk (callsOf o (ioIn k tr))) {l : Level} {f : List Frame → Option (Formatter V)} (hc : SyncOut env m.p.w o l f) :
    ∃ done current after, (∀ pre t e stack post, done = pre ++ (t, e, stack) :: post → l ≤ e.level →
        ((linesOf env.lib l f (post ++ current)).flatten.length : Int) < c.maxRolls * max → InLog host.lib c (m.vol k).dir (textOf env.lib (f stack) e)) ∧
      current.length ≤ 1 ∧ linesOf env.lib l f after = [] ∧ ((m.wr o).job = none → current = [] ∧ after = []) ∧
      ∀ t, shareOf t (calls (done ++ current ++ after)) <+: sentBy t o (progOf tr) ∧
        ∀ a b, progOf tr = a ++ b → Returned t a → sentBy t o a <+: shareOf t (calls (done ++ after)) := by
  have inv := mexec_inv h
  obtain ⟨before, h1, h2⟩ := machine_given inv hd.order (rolling_iff.mp hd.out) hd.place hd.apart hd.backups hd.names hok hmax
  obtain ⟨done, current, after, e1, e2, e3, e4, e5, e6, e7⟩ := sync_split inv (mexec_waits h) (rolling_iff.mp hd.out) hc h1
  refine ⟨done, current, after, ?_, e5, e4, e6, fun t => ⟨?_, e7 t⟩⟩
  · intro pre t e stack post he hl hr
    refine h2 (linesOf env.lib l f pre) _ (linesOf env.lib l f post) ?_ ?_
    · rw [← e2, he]
      simp [linesOf, hl]
    · have : linesOf env.lib l f (post ++ current) = linesOf env.lib l f post ++ linesOf env.lib l f current := by simp [linesOf]
      rw [this, e3, List.flatten_append, List.length_append] at hr
      exact hr
  · rw [e1]
    exact (plain_order inv.prog (sync_none hc) t).1

/-- C113, programs, closing: when the manager's `Close` has returned, the last texts of what was logged before are in the log. -/
theorem C113_program_closed (h : MExec env host (newMachine up v0) tr m) (hd : Housed env host v0 tr m o c k hs0) {max : Int} (hmax : c.kind = .size max)
    (hok : LogCallsOk (callsOf o (ioIn k tr))) {cfg : ACfg V} (hc : AsyncOut env m.p.w o cfg) {t : Nat} {os : List Nat} {a : List (PLab V)}
    (hcall : CloseCall t os a (progOf tr)) (hopen : Open o a) (hbegin : WorkerFirst o (progOf tr)) :
    ∃ f before later, cfg.f = some f ∧
      (∀ pre u e post, before ++ later = pre ++ (u, e) :: post → cfg.t ≤ e.level → ((textsOf cfg f post).length : Int) < c.maxRolls * max →
        InLog host.lib c (m.vol k).dir (f e)) ∧
      ∀ u, (Returned u a → shareOf u before = sentBy u o a) ∧ (∀ x y, a = x ++ y → Returned u x → sentBy u o x <+: shareOf u before) ∧
        shareOf u (before ++ later) <+ sentBy u o (progOf tr) := by
  have inv := mexec_inv h
  have pinv := pexec_inv inv.prog
  have hc := async_of hc
  obtain ⟨⟨f, hf⟩, _, hb, _⟩ := asyncOf_cfg pinv.world hc
  obtain ⟨hp, _, hcl⟩ := close_done hcall inv.prog
  have hos : o ∈ os := closes_all hcall inv.prog (by rw [hc]; simp)
  obtain ⟨b, e, hb'⟩ := hcall
  have e' : progOf tr = a ++ (.close t os :: b ++ [.ret t]) := by rw [e]; simp
  have hx := pinv.proj o cfg hc
  rw [e', outLabs_append] at hx
  have hreq : none ∉ queuedOf (outLabs o a) := by
    obtain ⟨s1, h1, h2⟩ := (e' ▸ inv.prog).split
    have inv1 := pexec_inv h1
    cases hc1 : s1.w.asyncOf env o with
    | none => rw [(inv1.none o hc1).1]; simp [queuedOf]
    | some cfg1 => exact (never_closed (fun u => (inv1.opened o hopen u).2) (inv1.proj o cfg1 hc1)).2.2.2.1
  have hclosed := hcl o hos (by rw [hc]; simp)
  obtain ⟨_, later, rest, g1, _, gs, g3, g4⟩ := closed_written hf hx (pinv.sound hp o) hclosed (by rw [← outLabs_append, ← e']; exact workerFirst_labs hbegin) hreq
  have hj : (m.wr o).job = none := closed_idle h hbegin (.inr hclosed)
  obtain ⟨before, h1, h2⟩ := machine_given inv hd.order (rolling_iff.mp hd.out) hd.place hd.apart hd.backups hd.names hok hmax
  have hdo : doing (m.wr o) = [] := by simp [doing, hj]
  have hgiven : m.p.given env o = (m.p.a o).writes := by unfold PState.given; rw [hc]
  rw [hdo, List.append_nil, hgiven] at h1
  rw [hdo] at h2
  refine ⟨f, _, later, hf, ?_, fun u => ⟨fun hr => (async_returned inv.prog hc u e' hopen hr).symm, fun x y ea hr => ?_, ?_⟩⟩
  · intro pre u e post he hl hr
    have hg : gs.flatten = accepted cfg.t (pre.map (·.2)) ++ e :: accepted cfg.t (post.map (·.2)) := by
      rw [g4, he]
      simp [accepted, hl]
    obtain ⟨G1, x1, x2, G2, rfl, hG⟩ := flatten_at hg
    rw [List.map_append, List.map_cons] at g3
    have hin := h2 _ _ _ (h1.symm.trans g3) ?_
    · rw [List.flatMap_append, List.flatMap_cons, ← List.append_assoc] at hin
      exact inLog_part hin
    · refine Int.lt_of_le_of_lt ?_ hr
      have h3 : textsOf cfg f post = x2.flatMap f ++ (G2.map (·.flatMap f)).flatten := by
        unfold textsOf
        rw [← hG, List.flatMap_append]
        simp [List.flatMap_def, List.map_flatten, List.flatten_flatten, Function.comp_def]
      rw [h3]
      simp only [List.length_append, List.flatten_nil, List.length_nil]
      omega
  · rw [async_returned inv.prog hc u (show progOf tr = x ++ (y ++ (.close t os :: b ++ [.ret t])) by rw [e', ea]; simp) (open_left (ea ▸ hopen)) hr, ea, outLabs_append, pairsOf_append, shareOf_append]
    exact List.prefix_append _ _
  · have hq := queued_logged inv.prog hc u
    rw [e', outLabs_append, g1, shareOf_append] at hq
    rw [e']
    exact (List.sublist_append_left _ _).trans hq

/-! Cases: the program of C95, whose output closes after it has rolled. -/

/- The hypotheses of `C113_program` and `C113_program_async` are met: a line that was logged and written. -/
example : ∃ up v0 tr m c, MExec Demo.env Demo.fhost (newMachine up v0) tr m ∧ Housed Demo.env Demo.fhost v0 tr m 0 c 0 [c!"log.7"] ∧ c.kind = .size 2 ∧
    LogCallsOk (callsOf 0 (ioIn 0 tr)) ∧ AsyncOut Demo.env m.p.w 0 Demo.bcfg ∧ Open 0 (progOf tr) ∧ sentBy 0 0 (progOf tr) = [Demo.hi] ∧
    deedsIn 0 0 tr m = [.wrote [104, 105, 10] 3 true] ∧ 0 < c.maxRolls * 2 := by
  obtain ⟨tr1, m1, tr2, m2, h1, h2, e1, e2, e3, e4, f1, f2, g1, g2⟩ := Demo.filed_run
  refine ⟨_, _, tr1, m1, _, h1, Demo.filed_log f1 ?_, rfl, ?_, by rw [f1]; exact Demo.wf_out, by rw [e1]; exact Demo.flogged_open, by rw [e1]; rfl, ?_, by decide⟩
  · rw [e3]; decide +kernel
  · rw [e3]; exact logCallsOkB_ok ((by decide +kernel))
  · rw [deedsIn, (g1 0).1, e3, List.append_nil]; decide +kernel

/- The hypotheses of `C113_program` are met when the log has rolled after the line, at `Close`. -/
example : ∃ up v0 tr m c, MExec Demo.env Demo.fhost (newMachine up v0) tr m ∧ Housed Demo.env Demo.fhost v0 tr m 0 c 0 [c!"log.7"] ∧ c.kind = .size 2 ∧
    deedsIn 0 0 tr m = [] ++ .wrote [104, 105, 10] 3 true :: [.wrote [] 0 true] ∧ rolls (callsOf 0 (ioIn 0 tr)) = 1 ∧
    ((messages [.wrote [] 0 true]).flatten.length : Int) < c.maxRolls * 2 := by
  obtain ⟨tr1, m1, tr2, m2, h1, h2, e1, e2, e3, e4, f1, f2, g1, g2⟩ := Demo.filed_run
  refine ⟨_, _, tr1 ++ tr2, m2, _, h1.trans h2, Demo.filed_log f2 ?_, rfl, ?_, ?_, by decide⟩
  · rw [ioIn_append, e3, e4]; decide +kernel
  · rw [deedsIn, (g2 0).1, ioIn_append, e3, e4, List.append_nil]; decide +kernel
  · rw [ioIn_append, e3, e4]; decide +kernel

/- The hypotheses of `C113_program_sync` are met. -/
example : ∃ up v0 tr m c f, MExec Demo.env Demo.fhost (newMachine up v0) tr m ∧ Housed Demo.env Demo.fhost v0 tr m 1 c 0 [] ∧ c.kind = .size 2 ∧
    LogCallsOk (callsOf 1 (ioIn 0 tr)) ∧ SyncOut Demo.env m.p.w 1 Level.All f ∧ sentBy 0 1 (progOf tr) = [Demo.hi] ∧ (m.wr 1).job = none ∧ 0 < c.maxRolls * 2 := by
  obtain ⟨tr1, m1, tr2, m2, h1, h2, e1, e2, e3, e4, f1, f2, g1, g2⟩ := Demo.filed_run
  refine ⟨_, _, tr1, m1, _, _, h1, Demo.filed_trace f1 ?_, rfl, ?_, by rw [f1]; exact Demo.wf_sync, by rw [e1]; rfl, (g1 1).1, by decide⟩
  · rw [e3]; decide +kernel
  · rw [e3]; exact logCallsOkB_ok ((by decide +kernel))

/- The hypotheses of `C113_program_closed` are met. -/
example : ∃ up v0 tr m c a, MExec Demo.env Demo.fhost (newMachine up v0) tr m ∧ Housed Demo.env Demo.fhost v0 tr m 0 c 0 [c!"log.7"] ∧ c.kind = .size 2 ∧
    LogCallsOk (callsOf 0 (ioIn 0 tr)) ∧ AsyncOut Demo.env m.p.w 0 Demo.bcfg ∧ CloseCall 1 [0, 1] a (progOf tr) ∧ Open 0 a ∧ WorkerFirst 0 (progOf tr) ∧
    sentBy 0 0 a = [Demo.hi] ∧ 0 < c.maxRolls * 2 := by
  obtain ⟨tr1, m1, tr2, m2, h1, h2, e1, e2, e3, e4, f1, f2, g1, g2⟩ := Demo.filed_run
  refine ⟨_, _, tr1 ++ tr2, m2, _, _, h1.trans h2, Demo.filed_log f2 ?_, rfl, ?_, by rw [f2]; exact Demo.wf_out,
    ⟨Demo.fclosing, by rw [progOf_append, e1, e2]; simp, by simp [Demo.fclosing]⟩, Demo.flogged_open,
    by rw [progOf_append, e1, e2]; exact workerFirst_of (by simp [Demo.flogged]) (by simp [Demo.flogged, Demo.fsetup, Demo.logged]), rfl, by decide⟩
  · rw [ioIn_append, e3, e4]; decide +kernel
  · rw [ioIn_append, e3, e4]; exact logCallsOkB_ok ((by decide +kernel))

end Log4g
