import Verif.Lemmas.SystemAfter
import Verif.Props.Output

/-! # A whole program: the vocabulary of the specification -/

namespace Log4g
open Spec
open scoped List
variable {V : Type}

theorem async_of {env : PEnv V} {w : World} {o : Nat} {cfg : ACfg V} (h : AsyncOut env w o cfg) : w.asyncOf env o = some cfg := by
  obtain ⟨ob, q, b, h1, h2, h3, h4, h5⟩ := h
  have e : ({ queueSize := q.toNat, batchNum := b.toNat, t := cfg.t, f := w.formatterOf env.lib env.stack env.other ob } : ACfg V) = cfg := by
    cases cfg
    simp only at h3 h4 h5
    subst h3; subst h4; subst h5
    rfl
  unfold World.asyncOf
  rcases h2 with h2 | ⟨c, h2⟩ <;> simp only [h1, h2, e]

theorem sync_lines {env : PEnv V} {w : World} {o : Nat} {t : Level} {f : List Frame → Option (Formatter V)} (h : SyncOut env w o t f)
    (q : List (Nat × Event V × List Frame)) :
    (q.flatMap fun x => w.sendWrites env.tc env.lib x.2.2 env.other ⟨o, x.2.1⟩) = linesOf env.lib t f q := by
  induction q with
  | nil => rfl
  | cons x q ih =>
    rw [List.flatMap_cons, ih, sync_writes h]
    unfold linesOf
    rw [List.filter_cons]
    by_cases hx : t ≤ x.2.1.level <;> simp [accepted, hx]

theorem syslog_sent {env : PEnv V} {w : World} {o : Nat} {t : Level} {f : List Frame → Option (Formatter V)} (h : SyslogOut env w o t f)
    (q : List (Nat × Event V × List Frame)) :
    SysSent env.lib t f q (q.flatMap fun x => w.sendSyslog env x.2.2 ⟨o, x.2.1⟩) := by
  obtain ⟨ob, h1, h2, h3⟩ := h
  have one : ∀ (stack : List Frame) (e : Event V), w.sendSyslog env stack ⟨o, e⟩ = (({ t := t, f := f stack } : SyslogOutput V).send env.lib e).w := by
    intro stack e
    unfold World.sendSyslog
    simp only [h1, h3, h2]
  generalize hr : q.reverse = r
  have : q = r.reverse := by rw [← hr, List.reverse_reverse]
  subst this
  clear hr
  induction r with
  | nil => exact .nil
  | cons x r ih =>
    obtain ⟨u, e, stack⟩ := x
    rw [List.reverse_cons, List.flatMap_append, List.flatMap_cons, List.flatMap_nil, List.append_nil, one]
    obtain ⟨k1, k2, k3, _⟩ := C43_syslog env.lib ({ t := t, f := f stack } : SyslogOutput V) e
    by_cases hl : e.level < t
    · rw [k1 hl, List.append_nil]; exact .low ih hl
    · by_cases hs : ∃ call, Severity e.level call
      · obtain ⟨call, hs⟩ := hs
        rw [k2 (Int.not_lt.mp hl) call hs]
        exact .sent ih (Int.not_lt.mp hl) hs
      · have hs : ∀ call, ¬ Severity e.level call := fun call hh => hs ⟨call, hh⟩
        rw [k3 hs, List.append_nil]; exact .strange ih hs

theorem syslog_none {env : PEnv V} {w : World} {o : Nat} {t : Level} {f : List Frame → Option (Formatter V)} (h : SyslogOut env w o t f) :
    w.asyncOf env o = none := by
  obtain ⟨ob, h1, h2, h3⟩ := h
  unfold World.asyncOf
  simp [h1, h3]

/-- Of an output that is not asynchronous: each goroutine's events, up to those it has yet to send. -/
theorem plain_order {env : PEnv V} {up : Nat → Bool} {tr : List (PLab V)} {s : PState V} (h : PExec env (newProgram up) tr s) {o : Nat}
    (hc : s.w.asyncOf env o = none) (t : Nat) :
    shareOf t (plainSends o tr) <+: sentBy t o tr ∧ ∀ a b, tr = a ++ b → Returned t a → sentBy t o a <+: shareOf t (plainSends o tr) := by
  obtain ⟨q, hq⟩ := pexec_sinv h
  refine ⟨⟨_, hq.order t o hc⟩, ?_⟩
  rintro a b rfl hr
  obtain ⟨s1, h1, h2⟩ := h.split
  obtain ⟨q1, hq1⟩ := pexec_sinv h1
  have inv := pexec_inv h1
  have hr := at_rest h1 hr
  by_cases ho : o < s1.w.mgr.oheap.length
  · have := hq1.order t o (by rw [← ext_asyncOf env inv.world (ext_exec inv h2) ho]; exact hc)
    rw [hr] at this
    simp only [toSend, List.filter_nil, List.map_nil, sendsOf, List.append_nil] at this
    rw [← this, plainSends_append, shareOf_append]
    exact List.prefix_append _ _
  · rw [inv.fresh t o (by omega)]; exact List.nil_prefix

/-- Of an asynchronous output. -/
theorem async_returned {env : PEnv V} {up : Nat → Bool} {tr : List (PLab V)} {s : PState V} (h : PExec env (newProgram up) tr s) {o : Nat} {cfg : ACfg V}
    (hc : s.w.asyncOf env o = some cfg) (t : Nat) {a b : List (PLab V)} (e : tr = a ++ b) (ho : Open o a) (hr : Returned t a) :
    sentBy t o a = shareOf t (pairsOf (outLabs o a)) := by
  subst e
  obtain ⟨s1, h1, h2⟩ := h.split
  have inv := pexec_inv h1
  by_cases hlt : o < s1.w.mgr.oheap.length
  · have hc1 : s1.w.asyncOf env o = some cfg := async_before inv h2 hlt hc
    exact ((all_queued h1 hc1 ho t).2 hr).symm
  · rw [inv.fresh t o (by omega)]
    have hn : s1.w.asyncOf env o = none := by
      unfold World.asyncOf
      rw [List.getElem?_eq_none (by omega)]
    rw [(inv.none o hn).1]
    rfl

/-- The call a goroutine is in is the one it has begun last. -/
theorem call_is {env : PEnv V} {up : Nat → Bool} {t : Nat} {l : PLab V} {tr a b : List (PLab V)} {s : PState V} (h : PExec env (newProgram up) tr s)
    (e : tr = a ++ l :: b) (hb : .ret t ∉ b) :
    (∀ ds, l = .log t ds → (s.th t).call = some .log) ∧ (∀ os, l = .close t os → (s.th t).call = some .close) ∧
    ∀ o c, l = .direct t o c → (s.th t).call = some .direct := by
  subst e
  rw [show a ++ l :: b = (a ++ [l]) ++ b by simp] at h
  obtain ⟨s1, h1, h2⟩ := h.split
  obtain ⟨s0, _, hs⟩ := h1.last
  have keep : ∀ k, (s1.th t).call = some k → (s.th t).call = some k := by
    intro k hk
    clear h1 hs h
    induction h2 with
    | nil => exact hk
    | @snoc b s2 l s3 _ hs ih =>
      simp only [List.mem_append, List.mem_singleton, not_or] at hb
      have k1 := ih hb.1
      have this : ∀ {u : Nat}, (s2.th u).call = none → t ≠ u := by rintro u hu rfl; rw [k1] at hu; simp at hu
      cases hs.2 with
      | act _ _ _ _ => exact k1
      | actPanic _ => exact k1
      | logPanic _ _ _ => exact k1
      | log hn _ _ => rw [pset_th, if_neg (this hn)]; exact k1
      | close hn _ _ => rw [pset_th, if_neg (this hn)]; exact k1
      | direct hn _ => rw [pset_th, if_neg (this hn)]; exact k1
      | enter ht _ => rw [pset_th]; split <;> (try exact k1); rename_i e; subst e; rw [ht] at k1; exact k1
      | out _ _ => exact k1
      | leave ht _ => rw [pset_th]; split <;> (try exact k1); rename_i e; subst e; rw [ht] at k1; exact k1
      | send _ ht _ => rw [pset_th]; split <;> (try exact k1); rename_i e; subst e; rw [ht] at k1; exact k1
      | closed ht _ => rw [pset_th]; split <;> (try exact k1); rename_i e; subst e; rw [ht] at k1; exact k1
      | @ret u k ht => rw [pset_th, if_neg (by rintro rfl; exact hb.2 rfl)]; exact k1
  refine ⟨fun ds e => ?_, fun os e => ?_, fun o c e => ?_⟩
  · subst e; refine keep _ ?_; cases hs.2 with | log _ _ _ => rw [pset_th, if_pos rfl]
  · subst e; refine keep _ ?_; cases hs.2 with | close _ _ _ => rw [pset_th, if_pos rfl]
  · subst e; refine keep _ ?_; cases hs.2 with | direct _ _ => rw [pset_th, if_pos rfl]

/-- While somebody holds the manager's lock no asynchronous output is made. -/
theorem unlocked_async {env : PEnv V} {w : World} {a : Act} (h : ¬ a.locks w) {o : Nat} (ho : (a.run w).asyncOf env o ≠ none) :
    w.asyncOf env o ≠ none := by
  have same : (a.run w).mgr = w.mgr → w.asyncOf env o ≠ none := by
    intro e
    unfold World.asyncOf World.formatterOf at ho
    unfold World.asyncOf World.formatterOf
    rwa [e] at ho
  have setc : ∀ cfg order, (w.setConfig cfg order).1 ≠ none → (w.setConfig cfg order).2 = w := by
    intro cfg order hh
    unfold World.setConfig at hh ⊢
    split at hh
    · rename_i e; simp only [e]
    · simp at hh
  cases a with
  | registerFormatter t f => exact absurd trivial h
  | registerOutput t f => exact absurd trivial h
  | queryOutputs n => exact absurd trivial h
  | setConfig cfg order => exact same (congrArg World.mgr (setc _ _ h))
  | loadConfig d bs ext order => exact same (congrArg World.mgr (setc _ _ h))
  | loadConfigFile d file read order =>
    refine same (congrArg World.mgr ?_)
    simp only [Act.locks] at h
    show (w.loadConfigFile d file read order).2 = w
    unfold World.loadConfigFile at h ⊢
    cases read with
    | none => rfl
    | some bs =>
      simp only at h ⊢
      split
      · rfl
      · rename_i ext e
        simp only [e] at h
        refine setc _ _ ?_
        intro hh
        refine h ?_
        simp only [World.loadConfig] at hh ⊢
        rw [hh]
        rfl
  | getLogger n =>
    refine same (congrArg World.mgr ?_)
    simp only [Act.locks] at h
    show (w.getLogger n).2 = w
    unfold World.getLogger
    split
    · rename_i hn
      rw [if_pos hn] at h
      unfold World.getRootLogger
      cases hr : w.root with
      | none => exact absurd hr h
      | some r => rfl
    · rename_i hn
      rw [if_neg hn] at h
      split
      · rfl
      · rename_i e; exact absurd e h
  | userOutput flag =>
    have hne := ho
    unfold World.asyncOf at ho
    simp only [Act.run, World.userOutput] at ho
    rcases Nat.lt_trichotomy o w.mgr.oheap.length with hlt | rfl | hgt
    · rw [List.getElem?_append_left hlt] at ho
      unfold World.asyncOf World.formatterOf
      simp only [World.formatterOf] at ho
      exact ho
    · simp [OutObj.kind] at ho
    · rw [List.getElem?_eq_none (by simp; omega)] at ho
      simp at ho
  | setLevel r l => exact same rfl
  | setCallerSkip r l => exact same rfl
  | setOutputs r l => exact same rfl

/-- The manager's `Close` finds every asynchronous output there is. -/
theorem closes_all {env : PEnv V} {up : Nat → Bool} {t : Nat} {os : List Nat} {a tr : List (PLab V)} {s : PState V}
    (hc : CloseCall t os a tr) (h : PExec env (newProgram up) tr s) {o : Nat} (ho : s.w.asyncOf env o ≠ none) : o ∈ os := by
  obtain ⟨s0, s1, s2, b, rfl, hb, h0, hs, h2, hr⟩ := closeCall_split hc h
  have i0 := pexec_inv h0
  have i1 := pexec_inv (h0.snoc hs)
  have start : (s1.th t).call = some .close ∧ ∀ o, s1.w.asyncOf env o ≠ none → o ∈ os := by
    cases hs.2 with
    | close hn _ hperm =>
      refine ⟨by rw [pset_th, if_pos rfl], fun o ho => ?_⟩
      obtain ⟨cfg, hcfg⟩ := Option.ne_none_iff_exists'.mp ho
      obtain ⟨_, _, _, n, hn⟩ := asyncOf_cfg i0.world hcfg
      exact hperm.mem_iff.mpr (List.mem_map.mpr ⟨_, Map.mem_of_get hn, rfl⟩)
  have key : ∀ {b s2}, PExec env s1 b s2 → .ret t ∉ b → (s2.th t).call = some .close ∧ ∀ o, s2.w.asyncOf env o ≠ none → o ∈ os := by
    intro b s2 h2 hb
    generalize hs1 : s1 = s1' at h2
    induction h2 with
    | nil => subst hs1; exact start
    | @snoc b s2 l s3 hx hs ih =>
      subst hs1
      simp only [List.mem_append, List.mem_singleton, not_or] at hb
      obtain ⟨k1, k2⟩ := ih hb.1
      have ix := pinv_exec i1 hx
      have lk : s2.lock = some t := (ix.lock t).mpr k1
      have this : ∀ {u : Nat}, (s2.th u).call = none → t ≠ u := by rintro u hu rfl; rw [k1] at hu; simp at hu
      cases hs.2 with
      | act _ _ _ hl =>
        refine ⟨k1, fun o ho => k2 o (unlocked_async (fun hh => ?_) ho)⟩
        have := hl hh
        rw [lk] at this; simp at this
      | actPanic _ => exact ⟨k1, k2⟩
      | logPanic _ _ _ => exact ⟨k1, k2⟩
      | log hn _ _ => exact ⟨by rw [pset_th, if_neg (this hn)]; exact k1, k2⟩
      | close hn _ _ => exact ⟨by rw [pset_th, if_neg (this hn)]; exact k1, k2⟩
      | direct hn _ => exact ⟨by rw [pset_th, if_neg (this hn)]; exact k1, k2⟩
      | enter ht _ => refine ⟨?_, k2⟩; rw [pset_th]; split <;> (try exact k1); rename_i e; subst e; rw [ht] at k1; exact k1
      | out _ _ => exact ⟨k1, k2⟩
      | leave ht _ => refine ⟨?_, k2⟩; rw [pset_th]; split <;> (try exact k1); rename_i e; subst e; rw [ht] at k1; exact k1
      | send _ ht _ => refine ⟨?_, k2⟩; rw [pset_th]; split <;> (try exact k1); rename_i e; subst e; rw [ht] at k1; exact k1
      | closed ht _ => refine ⟨?_, k2⟩; rw [pset_th]; split <;> (try exact k1); rename_i e; subst e; rw [ht] at k1; exact k1
      | @ret u k ht => exact ⟨by rw [pset_th, if_neg (by rintro rfl; exact hb.2 rfl)]; exact k1, k2⟩
  have hk := (key h2 hb).2
  cases hr.2 with
  | ret _ => exact hk o ho

end Log4g
