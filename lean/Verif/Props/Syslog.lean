import Verif.Lemmas.Syslog
import Verif.Props.System

/-! # What the syslog daemon gets — C128 -/

namespace Log4g
open Spec Strconv
open scoped List
variable {V : Type} {env : PEnv V} {args0 : Bytes} {up : Nat → Bool}

namespace Demo

/-- The daemon answers, or it does not. -/
def answers : Dials := ⟨true, true, true⟩
def silence : Dials := ⟨false, false, false⟩

/-- A goroutine logs to the syslog output `0`. -/
def toDaemon (d : Dials) : List (PLab Nat × Dials) := [(.log 0 [⟨0, hi⟩], d), (.plain 0 0 (.send hi), d), (.ret 0, d)]

/-- The program configures a syslog output and obtains a logger. -/
def daemonSetup : List (PLab Nat × Dials) := [(.act (.setConfig daemon []), answers), (.act (.getLogger c!"a"), answers)]

/-- The manager is closed. -/
def hungUp : List (PLab Nat × Dials) := [(.close 1 [0], answers), (.plain 1 0 .close, answers), (.ret 1, answers)]

theorem daemon_program : (∃ s y, YExec Demo.env [97] (newProgram fun _ => true) (daemonSetup ++ toDaemon silence ++ toDaemon answers) s y ∧
    SyslogOut Demo.env s.w 0 Level.All (fun stack => wd.formatterOf lib stack Demo.env.other
      ⟨.managed (some [(c!"name", c!"s1"), (c!"type", c!"syslog"), (c!"format", c!"f2")]), some 0⟩) ∧ SysTag [97] s.w 0 [97] ∧
    gotFrom 0 y.got = [⟨4, [97], [104, 105, 10]⟩] ∧ y.live = [1]) ∧
    ∃ s y, YExec Demo.env [97] (newProgram fun _ => true) (daemonSetup ++ toDaemon silence ++ toDaemon answers ++ hungUp) s y ∧ s.w = wd ∧ y.live = [] ∧
    ∃ s' y', YExec Demo.env [97] (newProgram fun _ => true) (daemonSetup ++ toDaemon silence ++ toDaemon answers ++ hungUp ++ toDaemon answers) s' y' ∧
      gotFrom 0 y'.got = [⟨4, [97], [104, 105, 10]⟩, ⟨4, [97], [104, 105, 10]⟩] ∧ (∀ t, s'.th t = {}) ∧ y'.live = [2] := by
  have hst : wd.printf 1 [⟨c!"main.go", 12, c!"main.main"⟩] 1 [] Level.Warn c!"hi" ([] : List Nat) = .sent [⟨0, hi⟩] := by rfl
  have h0 : YExec Demo.env [97] (newProgram fun _ => true) [] _ {} := .nil
  have h1 := h0.snoc (t := answers) ⟨rfl, .act (a := .setConfig daemon []) (List.Perm.refl _) trivial (by simp [Act.panics]) (fun _ => rfl)⟩
  have h2 : YExec Demo.env [97] (newProgram fun _ => true) daemonSetup { w := wd } _ :=
    h1.snoc (t := answers) ⟨rfl, .act (a := .getLogger c!"a") trivial trivial (by simp [Act.panics]) (fun _ => rfl)⟩
  have h3 := h2.snoc (t := silence) ⟨rfl, .log (t := 0) rfl (by decide) hst⟩
  have h4 := h3.snoc (t := silence) ⟨rfl, .send (t := 0) [] rfl (by rfl)⟩
  have h5 := h4.snoc (t := silence) ⟨rfl, .ret (t := 0) rfl⟩
  have h6 := h5.snoc (t := answers) ⟨rfl, .log (t := 0) rfl (by decide) hst⟩
  have h7 := h6.snoc (t := answers) ⟨rfl, .send (t := 0) [] rfl (by rfl)⟩
  have h8 := h7.snoc (t := answers) ⟨rfl, .ret (t := 0) rfl⟩
  have h9 := h8.snoc (t := answers) ⟨rfl, .close (t := 1) (os := [0]) rfl rfl (by decide)⟩
  have h10 := h9.snoc (t := answers) ⟨rfl, .closed (t := 1) rfl (by rfl)⟩
  have h11 := h10.snoc (t := answers) ⟨rfl, .ret (t := 1) rfl⟩
  refine ⟨⟨_, _, h8, ⟨_, rfl, fun _ => rfl, rfl⟩, ⟨_, _, rfl, .inl ⟨by decide, rfl⟩⟩, by decide +kernel, by decide +kernel⟩,
    _, _, h11, rfl, by decide +kernel, ?_⟩
  have h12 := h11.snoc (t := answers) ⟨rfl, .log (t := 0) rfl (by decide) hst⟩
  have h13 := h12.snoc (t := answers) ⟨rfl, .send (t := 0) [] rfl (by rfl)⟩
  have h14 := h13.snoc (t := answers) ⟨rfl, .ret (t := 0) rfl⟩
  refine ⟨_, _, h14, by decide +kernel, fun t => ?_, by decide +kernel⟩
  simp only [pset_th]
  repeat' split
  all_goals rfl

theorem daemon_returned (a : List (PLab Nat × Dials)) (d : Dials) : Returned 0 (didOf (a ++ toDaemon d)) := by
  have := returned_last 0 (didOf a ++ [.log 0 [⟨0, hi⟩], .plain 0 0 (.send hi)])
  simpa [didOf, toDaemon] using this

/-- The connection there is does not work; a new one does. -/
def severed : Dials := ⟨false, true, true⟩

theorem severed_program : ∃ s y, YExec Demo.env [97] (newProgram fun _ => true) (daemonSetup ++ toDaemon answers ++ toDaemon severed) s y ∧
    SyslogOut Demo.env s.w 0 Level.All (fun stack => wd.formatterOf lib stack Demo.env.other
      ⟨.managed (some [(c!"name", c!"s1"), (c!"type", c!"syslog"), (c!"format", c!"f2")]), some 0⟩) ∧ SysTag [97] s.w 0 [97] ∧
    gotFrom 0 y.got = [⟨4, [97], [104, 105, 10]⟩, ⟨4, [97], [104, 105, 10]⟩] ∧ y.live = [1] ∧ s.w = wd := by
  have hst : wd.printf 1 [⟨c!"main.go", 12, c!"main.main"⟩] 1 [] Level.Warn c!"hi" ([] : List Nat) = .sent [⟨0, hi⟩] := by rfl
  have h0 : YExec Demo.env [97] (newProgram fun _ => true) [] _ {} := .nil
  have h1 := h0.snoc (t := answers) ⟨rfl, .act (a := .setConfig daemon []) (List.Perm.refl _) trivial (by simp [Act.panics]) (fun _ => rfl)⟩
  have h2 : YExec Demo.env [97] (newProgram fun _ => true) daemonSetup { w := wd } _ :=
    h1.snoc (t := answers) ⟨rfl, .act (a := .getLogger c!"a") trivial trivial (by simp [Act.panics]) (fun _ => rfl)⟩
  have h3 := h2.snoc (t := answers) ⟨rfl, .log (t := 0) rfl (by decide) hst⟩
  have h4 := h3.snoc (t := answers) ⟨rfl, .send (t := 0) [] rfl (by rfl)⟩
  have h5 := h4.snoc (t := answers) ⟨rfl, .ret (t := 0) rfl⟩
  have h6 := h5.snoc (t := severed) ⟨rfl, .log (t := 0) rfl (by decide) hst⟩
  have h7 := h6.snoc (t := severed) ⟨rfl, .send (t := 0) [] rfl (by rfl)⟩
  have h8 := h7.snoc (t := severed) ⟨rfl, .ret (t := 0) rfl⟩
  exact ⟨_, _, h8, ⟨_, rfl, fun _ => rfl, rfl⟩, ⟨_, _, rfl, .inl ⟨by decide, rfl⟩⟩, by decide +kernel, by decide +kernel, rfl⟩

end Demo

/-! ## C128 -/

/-- C128 is false: of two messages logged the daemon has got one — the other was logged while it could not be reached, and is not
sent later. -/
theorem C128_lost_refuted : ∃ (args0 : Bytes) (up : Nat → Bool) (tr : List (PLab Nat × Dials)) (s : PState Nat) (y : Sockets) (f : List Frame → Option (Formatter Nat))
    (tag : Bytes), YExec Demo.env args0 (newProgram up) tr s y ∧ SyslogOut Demo.env s.w 0 Level.All f ∧ SysTag args0 s.w 0 tag ∧
    Returned 0 (didOf tr) ∧ (sentBy 0 0 (didOf tr)).length = 2 ∧ (gotFrom 0 y.got).length = 1 := by
  obtain ⟨⟨s, y, h, h1, h2, h3, _⟩, _⟩ := Demo.daemon_program
  exact ⟨_, _, _, s, y, _, _, h, h1, h2, Demo.daemon_returned _ _, rfl, by rw [h3]; rfl⟩

/-- C128 is false of `Close`: a message logged after it has returned opens a connection, which stays open. -/
theorem C128_close_refuted : ∃ (args0 : Bytes) (up : Nat → Bool) (a b c : List (PLab Nat × Dials)) (s s' : PState Nat) (y y' : Sockets),
    YExec Demo.env args0 (newProgram up) (a ++ b) s y ∧ CloseCall 1 [0] (didOf a) (didOf (a ++ b)) ∧ y.live = [] ∧
    YExec Demo.env args0 (newProgram up) (a ++ b ++ c) s' y' ∧ Returned 0 (didOf (a ++ b ++ c)) ∧ (∀ t, s'.th t = {}) ∧ y'.live ≠ [] := by
  obtain ⟨_, s, y, h, _, h4, s', y', h5, _, h6, h7⟩ := Demo.daemon_program
  exact ⟨_, _, _, _, _, s, s', y, y', h, ⟨[.plain 1 0 .close], rfl, by simp⟩, h4, h5, Demo.daemon_returned _ _, h6, by rw [h7]; simp⟩

/-- C128, whatever fails: the daemon has got, from an output, messages of events that were sent, in the order of the calls, none
twice; and no more are missing than there were calls in which it could not be reached anew. -/
theorem C128_arrives_partial {tr : List (PLab V × Dials)} {s : PState V} {y : Sockets} (h : YExec env args0 (newProgram up) tr s y) {o : Nat} {l : Level}
    {f : List Frame → Option (Formatter V)} (hc : SyslogOut env s.w o l f) {tag : Bytes} (ht : SysTag args0 s.w o tag) :
    ∃ sent cs, SysSent env.lib l f sent cs ∧ InTime o (didOf tr) (calls sent) ∧
      (∀ t a b, didOf tr = a ++ b → Returned t a → sentBy t o a <+: shareOf t (calls sent)) ∧
      gotFrom o y.got <+ cs.map (told tag) ∧ cs.length ≤ (gotFrom o y.got).length + unreached o tr := by
  have px := yexec_pexec h
  obtain ⟨q, hq⟩ := pexec_sinv px
  refine ⟨q o, s.syslog o, by rw [hq.syslog]; exact syslog_sent hc _, ?_, fun t => ?_, ?_, (yexec_inv h).len o⟩
  · rw [hq.made]; exact plain_inTime px (syslog_none hc)
  · rw [hq.made]; exact (plain_order px (syslog_none hc) t).2
  · have := (yexec_inv h).sub o
    rw [show (s.syslog o).map (fun c => c.message args0 (s.w.sysPrefix o)) = (s.syslog o).map (told tag) from
      List.map_congr_left fun c _ => message_told ht c] at this
    exact this

/-- The hypotheses of `C128_arrives_partial` are met, with one message that arrives and one that does not. -/
example : ∃ args0 up tr s y f tag, YExec Demo.env args0 (newProgram up) tr s y ∧ SyslogOut Demo.env s.w 0 Level.All f ∧ SysTag args0 s.w 0 tag ∧
    unreached 0 tr = 1 ∧ gotFrom 0 y.got = [⟨4, [97], [104, 105, 10]⟩] := by
  obtain ⟨⟨s, y, h, h1, h2, h3, _⟩, _⟩ := Demo.daemon_program
  exact ⟨_, _, _, s, y, _, _, h, h1, h2, rfl, h3⟩

/-- C128, as long as the daemon can be reached anew — connections may break at any time: each message arrives, once. -/
theorem C128_reached {tr : List (PLab V × Dials)} {s : PState V} {y : Sockets} (h : YExec env args0 (newProgram up) tr s y) {o : Nat} {l : Level}
    {f : List Frame → Option (Formatter V)} (hc : SyslogOut env s.w o l f) {tag : Bytes} (ht : SysTag args0 s.w o tag)
    (hu : ∀ t e d, (PLab.plain t o (.send e), d) ∈ tr → d.dial = true ∧ d.fresh = true) :
    ∃ sent cs, SysSent env.lib l f sent cs ∧ InTime o (didOf tr) (calls sent) ∧
      (∀ t a b, didOf tr = a ++ b → Returned t a → sentBy t o a <+: shareOf t (calls sent)) ∧ gotFrom o y.got = cs.map (told tag) := by
  obtain ⟨sent, cs, h1, h2, h3, h4, h5⟩ := C128_arrives_partial h hc ht
  have : unreached o tr = 0 := by
    unfold unreached
    rw [List.length_eq_zero_iff, List.filter_eq_nil_iff]
    rintro ⟨l, d⟩ hm
    unfold Unreached
    simp only
    split
    · rename_i t p e
      by_cases hp : p = o
      · subst hp
        obtain ⟨k1, k2⟩ := hu _ _ _ hm
        simp [k1, k2]
      · simp [hp]
    · simp
  exact ⟨sent, cs, h1, h2, h3, h4.eq_of_length_le (by rw [List.length_map]; omega)⟩

/-- The hypotheses of `C128_reached` are met, with a connection that breaks between two messages. -/
example : ∃ args0 up tr s y f tag, YExec Demo.env args0 (newProgram up) tr s y ∧ SyslogOut Demo.env s.w 0 Level.All f ∧ SysTag args0 s.w 0 tag ∧
    (∀ t e d, (PLab.plain t 0 (.send e), d) ∈ tr → d.dial = true ∧ d.fresh = true) ∧ (gotFrom 0 y.got).length = 2 ∧ y.live = [1] := by
  obtain ⟨s, y, h, h1, h2, h3, h4, _⟩ := Demo.severed_program
  refine ⟨_, _, _, s, y, _, _, h, h1, h2, fun t e d hm => ?_, by rw [h3]; rfl, h4⟩
  simp [Demo.daemonSetup, Demo.toDaemon] at hm
  rcases hm with ⟨_, _, rfl⟩ | ⟨_, _, rfl⟩ <;> exact ⟨rfl, rfl⟩

/-- C128: there are never more connections than syslog outputs. -/
theorem C128_connections {tr : List (PLab V × Dials)} {s : PState V} {y : Sockets} (h : YExec env args0 (newProgram up) tr s y) {outs : List Nat}
    (ho : ∀ o, IsSyslog env s.w o → o ∈ outs) : y.live.length ≤ outs.length := by
  have c := yexec_conn h
  have : y.live.length ≤ (outs.filterMap y.conn).length := by
    refine nodup_length_le c.nodup fun k hk => ?_
    obtain ⟨o, e⟩ := c.owned k hk
    exact List.mem_filterMap.mpr ⟨o, ho o (c.mine o k e).2, e⟩
  exact Nat.le_trans this (List.length_filterMap_le _ _)

/-- One connection, one syslog output, after two messages and a connection that has broken. -/
example : ∃ args0 up tr s y, YExec Demo.env args0 (newProgram up) tr s y ∧ (∀ o, IsSyslog Demo.env s.w o → o ∈ [0]) ∧ y.live = [1] := by
  obtain ⟨s, y, h, _, _, _, h4, hw⟩ := Demo.severed_program
  refine ⟨_, _, _, s, y, h, fun o ho => ?_, h4⟩
  rw [hw] at ho
  obtain ⟨ob, t, h1, _⟩ := ho
  have := (List.getElem?_eq_some_iff.mp h1).1
  have e : Demo.wd.mgr.oheap.length = 1 := by decide
  rw [e] at this
  simp; omega

/-- C128, of `Close` of the manager: when it has returned no connection is open, if nothing was sent to a syslog output after it had
closed that output. -/
theorem C128_close_partial {tr : List (PLab V × Dials)} {s : PState V} {y : Sockets} (h : YExec env args0 (newProgram up) tr s y) {t : Nat} {os : List Nat}
    {a b : List (PLab V)} (hc : didOf tr = a ++ .close t os :: b ++ [.ret t]) (hr : .ret t ∉ b)
    (hb : ∀ o u e b1 b2, IsSyslog env s.w o → b = b1 ++ .plain t o .close :: b2 → .plain u o (.send e) ∉ b2) : y.live = [] := by
  cases h with
  | nil => simp [didOf] at hc
  | @snoc tr s1 y l _ d hx hs =>
    rw [did_snoc] at hc
    obtain ⟨e1, e2⟩ := List.append_inj' hc rfl
    have e2 := List.singleton_inj.mp e2
    subst e2
    have ew : s.w = s1.w := by cases hs.2; rfl
    rw [ew] at hb
    obtain ⟨_, j⟩ := closing_conn hx b e1 hr hb
    show y.live = []
    have c := yexec_conn hx
    refine List.eq_nil_iff_forall_not_mem.mpr fun k hk => ?_
    obtain ⟨o, e⟩ := c.owned k hk
    rcases j o (c.mine o k e).2 with ⟨j, _⟩ | j
    · rw [e] at j; cases j
    · cases hs.2 with
      | ret ht => rw [ht] at j; simp at j

/-- The hypotheses of `C128_close_partial` are met. -/
example : ∃ args0 up tr s y a b, YExec Demo.env args0 (newProgram up) tr s y ∧ didOf tr = a ++ .close 1 [0] :: b ++ [.ret 1] ∧ .ret 1 ∉ b ∧
    (∀ o u e b1 b2, IsSyslog Demo.env s.w o → b = b1 ++ .plain 1 o .close :: b2 → .plain u o (.send e) ∉ b2) ∧ IsSyslog Demo.env s.w 0 := by
  obtain ⟨_, s, y, h, hw, _⟩ := Demo.daemon_program
  refine ⟨_, _, _, s, y, didOf (Demo.daemonSetup ++ Demo.toDaemon Demo.silence ++ Demo.toDaemon Demo.answers), [.plain 1 0 .close], h, rfl, by simp, fun o u e b1 b2 _ eb hm => ?_,
    by rw [hw]; exact ⟨_, _, rfl, rfl⟩⟩
  have := congrArg List.length eb
  cases b2 with
  | nil => cases hm
  | cons => simp at this; omega

end Log4g
