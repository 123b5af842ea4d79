import Verif.Lemmas.Concurrent
import Verif.Props.Config

/-! # Concurrent configuration: C25, C74, C75 -/

namespace Log4g
open Spec World

/-- C25: goroutine `t` is the last to store a configuration; when no call is under way any more, that
configuration is in force, and every logger that existed when `t` stored it or when `t` started to notify, or
that a `GetLogger` made later, has the entry of that configuration. -/
theorem C25_last_config {s s' : CState} {tr pre post : List CEv} {t : Nat} {cfg : Config} {names : List Str}
    (hs : s.Start) (hx : Exec s tr s') (hq : s'.Quiet) (htr : tr = pre ++ .write t cfg names :: post)
    (hlast : ∀ t' cfg' names', CEv.write t' cfg' names' ∉ post)
    {n : Str} {e : CfgLogger} (he : FirstLogger cfg n e) (hc : ∀ k ∈ e.outputNames, Creatable s'.w.mgr k)
    (h : n ∈ names ∨ (∃ ns, .notify t ns ∈ post ∧ n ∈ ns) ∨ (∃ u, .create u n ∈ post)) :
    s'.w.mgr.config = cfg ∧ HasEntry s'.w n e := by
  have hw : ∀ ev ∈ post, ¬ ev.isWrite := by
    intro ev hev hwr
    cases ev with
    | write t' cfg' names' => exact hlast _ _ _ hev
    | notify _ _ => exact hwr
    | create _ _ => exact hwr
    | ret _ _ _ => exact hwr
    | other => exact hwr
  obtain ⟨s1, s2, hx1, st, hx2⟩ := exec_split hx htr
  have ci1 := (exec_cinv (start_cinv hs) hx1).1
  obtain ⟨t0, sp0⟩ := cstep_spec ci1 st
  have ci2 := sp0.cinv ci1
  have ci' := (exec_cinv ci2 hx2).1
  have hcfg2 : s2.w.mgr.config = cfg ∧ s2.th t = .wrote ∧ names = Map.keys s2.w.loggers := by
    cases st with
    | write h1 h2 => exact ⟨rfl, CState.set_same _ _ _, rfl⟩
  obtain ⟨c1, c2, c3⟩ := exec_creators ci2 hx2 hw
  refine ⟨c1.trans hcfg2.1, ?_⟩
  have finish : ∀ {r}, Target s' n r e → KeptEntry s' n r e → HasEntry s'.w n e := fun tg hk =>
    configured_entry ci'.inv tg.get (quiet_kept hq hk)
  rcases h with h | ⟨ns, h1, h2⟩ | ⟨u, hu⟩
  · rw [hcfg2.2.2] at h
    obtain ⟨r, hr⟩ := Map.exists_get_of_mem_keys h
    have tg : Target s2 n r e := ⟨hr, by rw [hcfg2.1]; exact he, fun k hk => creatable_congr c1.symm c2.symm c3.symm (hc k hk)⟩
    obtain ⟨a, b⟩ := exec_kept ci2 hx2 hw tg (.inl ⟨t, by rw [hcfg2.2.1]; trivial⟩)
    exact finish a b
  · obtain ⟨p1, p2, e1⟩ := List.append_of_mem h1
    obtain ⟨s3, s4, hx3, st3, hx4⟩ := exec_split hx2 e1
    have ci3 := (exec_cinv ci2 hx3).1
    obtain ⟨t1, sp1⟩ := cstep_spec ci3 st3
    have ci4 := sp1.cinv ci3
    have hw4 : ∀ ev ∈ p2, ¬ ev.isWrite := fun ev hev => hw ev (by rw [e1]; simp [hev])
    obtain ⟨d1, d2, d3⟩ := exec_creators ci4 hx4 hw4
    cases st3 with
    | @notifyLock _ order h3 h4 h5 =>
      obtain ⟨r, hr⟩ := Map.exists_get_of_mem_keys h2
      have hentry : FirstLogger (CState.set { s3 with lock := some t } t (.notifying order)).w.mgr.config n e := by rw [← d1, c1, hcfg2.1]; exact he
      have tg : Target (CState.set { s3 with lock := some t } t (.notifying order)) n r e := ⟨hr, hentry, fun k hk => creatable_congr d1.symm d2.symm d3.symm (hc k hk)⟩
      have ho : r ∈ order := h5.mem_iff.mpr (List.mem_map.mpr ⟨(n, r), Map.mem_of_get hr, rfl⟩)
      obtain ⟨a, b⟩ := exec_kept ci4 hx4 hw4 tg (.inl ⟨t, by rw [CState.set_same]; exact ho⟩)
      exact finish a b
  · obtain ⟨p1, p2, e1⟩ := List.append_of_mem hu
    obtain ⟨s3, s4, hx3, st3, hx4⟩ := exec_split hx2 e1
    have ci3 := (exec_cinv ci2 hx3).1
    obtain ⟨t1, sp1⟩ := cstep_spec ci3 st3
    have ci4 := sp1.cinv ci3
    have hw4 : ∀ ev ∈ p2, ¬ ev.isWrite := fun ev hev => hw ev (by rw [e1]; simp [hev])
    have hw3 : ∀ ev ∈ p1, ¬ ev.isWrite := fun ev hev => hw ev (by rw [e1]; simp [hev])
    obtain ⟨d1, d2, d3⟩ := exec_creators ci4 hx4 hw4
    have hentry : FirstLogger s4.w.mgr.config n e := by rw [← d1, c1, hcfg2.1]; exact he
    have hok : ∀ k ∈ e.outputNames, Creatable s4.w.mgr k := fun k hk => creatable_congr d1.symm d2.symm d3.symm (hc k hk)
    cases st3 with
    | @create _ _ root h1 h2 h3 h4 h5 =>
      obtain ⟨_, _, hg, _⟩ := create_spec ci3.inv h5 h2 h3
      obtain ⟨a, b⟩ := exec_kept ci4 hx4 hw4 ⟨hg, hentry, hok⟩ (.inl ⟨u, by rw [CState.set_same]; exact ⟨rfl, rfl⟩⟩)
      exact finish a b
    | @rootFetch _ name h1 h2 h3 =>
      obtain ⟨_, _, _, g⟩ := fetch_inv ci3.inv rootLoggerName
      have hgood : Good { s3.w with mgr := (s3.w.mgr.getLoggerOutputs rootLoggerName).2 } e (s3.w.mgr.getLoggerOutputs rootLoggerName).1 := by
        have e0 : FirstLogger s3.w.mgr.config rootLoggerName e := by rw [← g.config]; exact hentry
        have o0 : ∀ k ∈ e.outputNames, Creatable s3.w.mgr k := fun k hk =>
          creatable_congr g.config.symm g.fmtCreators.symm g.outCreators.symm (hok k hk)
        obtain ⟨ops, ho⟩ := getLoggerOutputs_ok ci3.inv.mgr e0 o0
        obtain ⟨_, _, hk⟩ := getLoggerOutputs_spec s3.w.mgr ci3.inv.mgr rootLoggerName
        obtain ⟨lc, x1, x2, x3⟩ := hk ops _ ho
        have : lc = e := by
          have b := (firstLogger_iff _ _ _).mpr e0
          rw [x1] at b; injection b
        subst this
        exact ⟨ops, ho, x3⟩
      rcases exec_rootComing ci4 hx4 hw4 (t := u) ⟨⟨name, _, CState.set_same _ _ _, hgood⟩, hentry, hok⟩ with hr | ⟨r, a, b⟩
      · obtain ⟨nm, res, hth, _⟩ := hr.got
        rcases hq u with ⟨c, hh⟩ | hh <;> (rw [hth] at hh; simp at hh)
      · exact finish a b

/-- A program: goroutine 0 sets the sample configuration while all others want logger `x`. -/
def Demo.c0 : CState where
  w := Demo.w0
  lock := none
  th := fun t => if t = 0 then .ready (.setConfig Demo.cfg) else .ready (.getLogger c!"x")

/-- Goroutine 1 finds no configuration for the root logger, then goroutine 0 stores one, goroutine 1 goes on
with the new one, and goroutine 0 notifies. -/
theorem Demo.c0_exec : ∃ tr s, Exec Demo.c0 tr s ∧ s.Quiet ∧
    tr = [.other, .create 1 c!"root"] ++ .write 0 Demo.cfg [] ::
      [.other, .create 1 c!"x", .other, .other, .ret 1 c!"x" 1, .notify 0 [c!"root", c!"x"], .other, .other, .other, .other, .other] ∧
    s.w.mgr.config = Demo.cfg ∧ s.w.mgr.fmtCreators = Demo.w1.mgr.fmtCreators ∧ s.w.mgr.outCreators = Demo.w1.mgr.outCreators := by
  have x1 := Exec.single (CStep.getLock (s := Demo.c0) (t := 1) (name := c!"x") rfl rfl)
  have x2 := x1.tail (CStep.rootFetch (t := 1) (name := c!"x") rfl rfl rfl)
  have x3 := x2.tail (CStep.write (t := 0) (cfg := Demo.cfg) rfl (by decide))
  have x4 := x3.tail (CStep.rootMake (t := 1) rfl)
  have x5 := x4.tail (CStep.create (t := 1) (name := c!"x") (root := 0) rfl (by decide) (by decide) rfl rfl)
  have x6 := x5.tail (CStep.selfFetch (t := 1) rfl)
  have x7 := x6.tail (CStep.selfApply (t := 1) rfl)
  have x8 := x7.tail (CStep.leave (t := 1) rfl)
  have x9 := x8.tail (CStep.notifyLock (t := 0) (order := [0, 1]) rfl rfl (.refl _))
  have x10 := x9.tail (CStep.notifyFetch (t := 0) rfl rfl)
  have x11 := x10.tail (CStep.notifyApply (t := 0) rfl)
  have x12 := x11.tail (CStep.notifyFetch (t := 0) rfl rfl)
  have x13 := x12.tail (CStep.notifyApply (t := 0) rfl)
  have x14 := x13.tail (CStep.notifyUnlock (t := 0) rfl)
  refine ⟨_, _, x14, ?_, rfl, rfl, rfl, rfl⟩
  intro t
  match t with
  | 0 => exact .inr rfl
  | 1 => exact .inr rfl
  | t + 2 => exact .inl ⟨.getLogger c!"x", rfl⟩

theorem Demo.c0_start : Demo.c0.Start := by
  refine ⟨Demo.w0_reach, rfl, fun t => ?_⟩
  match t with
  | 0 => exact ⟨_, rfl⟩
  | t + 1 => exact ⟨_, rfl⟩

/-- The hypotheses of C25 can be met, and both loggers end up with the new entries though the root logger was
made from the old configuration. -/
example : ∃ tr s, Exec Demo.c0 tr s ∧ HasEntry s.w c!"root" ⟨c!"root", c!"warn", [c!"o1"]⟩ ∧
    HasEntry s.w c!"x" ⟨c!"x", c!"info", [c!"o2", c!"o1"]⟩ := by
  obtain ⟨tr, s, hx, hq, htr, h1, h2, h3⟩ := Demo.c0_exec
  have hc : ∀ n ∈ [c!"o1", c!"o2"], Creatable s.w.mgr n := fun n hn => creatable_congr (h1.trans rfl) h2 h3 (demo_creatable n hn)
  refine ⟨tr, s, hx, ?_, ?_⟩
  · refine (C25_last_config Demo.c0_start hx hq htr (by simp) (n := c!"root") (e := ⟨c!"root", c!"warn", [c!"o1"]⟩)
      ⟨[], _, rfl, rfl, by simp⟩ (fun k hk => hc k ?_) (.inr (.inl ⟨[c!"root", c!"x"], by simp, by simp⟩))).2
    revert k; decide
  · refine (C25_last_config Demo.c0_start hx hq htr (by simp) (n := c!"x") (e := ⟨c!"x", c!"info", [c!"o2", c!"o1"]⟩)
      ⟨[_, _], _, rfl, rfl, by decide⟩ (fun k hk => hc k ?_) (.inr (.inr ⟨1, by simp⟩))).2
    revert k; decide

/-- C74: whatever was interleaved so far, the goroutine that holds the factory's lock can run to its end, and
when nobody holds it every call can; in particular there is no deadlock. -/
theorem C74_no_deadlock {s s' : CState} {tr : List CEv} (hs : s.Start) (hx : Exec s tr s') :
    (∀ t, s'.lock = some t →
      ∃ tr' s'', Exec s' tr' s'' ∧ s''.lock = none ∧ s''.th t = .done ∧ ∀ u, u ≠ t → s''.th u = s'.th u) ∧
    (s'.lock = none → ∀ t, s'.th t ≠ .done →
      ∃ tr' s'', Exec s' tr' s'' ∧ s''.lock = none ∧ s''.th t = .done ∧ ∀ u, u ≠ t → s''.th u = s'.th u) := by
  have ci := (exec_cinv (start_cinv hs) hx).1
  exact ⟨fun t ht => finish_holder ci ((ci.mutex t).mpr ht), fun hl t ht => finish_free ci hl ht⟩

/-- C75: concurrent `GetLogger` calls, whatever else is going on, answer one logger per name. -/
theorem C75_concurrent_get {s s' : CState} {tr : List CEv} (hs : s.Start) (hx : Exec s tr s')
    {t t' : Nat} {n n' : Str} {r r' : Nat} (h : .ret t n r ∈ tr) (h' : .ret t' n' r' ∈ tr) :
    (r = r' ↔ (if n = [] then c!"root" else n) = (if n' = [] then c!"root" else n')) ∧
    Map.get s'.w.loggers (if n = [] then c!"root" else n) = some r := by
  have ci := start_cinv hs
  have a : Map.get s'.w.loggers (if n = [] then c!"root" else n) = some r := ret_get ci hx h
  have b : Map.get s'.w.loggers (if n' = [] then c!"root" else n') = some r' := ret_get ci hx h'
  refine ⟨⟨?_, ?_⟩, a⟩
  · rintro rfl
    have inv := (exec_cinv ci hx).1.inv
    obtain ⟨l, x, y⟩ := inv.named _ _ a
    obtain ⟨l', x', y'⟩ := inv.named _ _ b
    rw [x] at x'; injection x' with x'
    rw [← y, ← y', x']
  · intro e
    rw [e, b] at a; injection a with a; exact a.symm

end Log4g
