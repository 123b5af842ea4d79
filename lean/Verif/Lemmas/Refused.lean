import Verif.Spec.Refused
import Verif.Lemmas.Standard
import Verif.Lemmas.Fetch
import Verif.Lemmas.Config
import Verif.Props.Format

/-! # Outputs that cannot be made -/

namespace Log4g
open Spec World

theorem Spec.Refused.congr {m m' : Manager} {k : Str} (h : Refused m k) (h1 : m'.config = m.config) (h2 : m'.outCreators = m.outCreators)
    (h3 : ∀ o, InstanceOf m' k o → InstanceOf m k o) : Refused m' k := by
  obtain ⟨oc, cr, a, b, c, d⟩ := h
  exact ⟨oc, cr, by rw [h1]; exact a, by rw [h2]; exact b, c, fun o ho => d o (h3 o ho)⟩

theorem Spec.Refused.none {m : Manager} (inv : MgrInv m) {k : Str} (h : Refused m k) : Map.get m.outputs k = none := by
  obtain ⟨_, _, _, _, _, d⟩ := h
  cases hg : Map.get m.outputs k with
  | none => rfl
  | some o =>
    obtain ⟨cfg, f, h1, h2⟩ := inv.outOk _ _ hg
    exact absurd ⟨cfg, f, h1, h2⟩ (d o)

theorem refused_one {m : Manager} (inv : MgrInv m) {k : Str} (h : Refused m k) (n : Str) :
    Refused (m.one n).2 k ∧ (n = k → ∃ e, (m.one n).1 = .error e) := by
  unfold Manager.one
  dsimp only
  split
  · exact ⟨h, fun _ => ⟨_, rfl⟩⟩
  · rename_i hne
    split
    · exact ⟨h, fun _ => ⟨_, rfl⟩⟩
    · obtain ⟨g, i, hok, hsame⟩ := getFormat_spec m inv (m.config.getCfgFormat (m.config.getCfgOutput n).formatName)
      split
      · rename_i e m1 he
        rw [he] at g hsame
        exact ⟨h.congr g.config g.outCreators (by rintro o ⟨cfg, f, h1, h2⟩; exact ⟨cfg, f, by rw [← hsame]; exact h1, h2⟩), fun _ => ⟨_, rfl⟩⟩
      · rename_i f m1 he
        rw [he] at g i hsame
        have h' : Refused m1 k := h.congr g.config g.outCreators (by
          rintro o ⟨cfg, f, h1, h2⟩; exact ⟨cfg, f, by rw [← hsame]; exact h1, h2⟩)
        obtain ⟨oc, cr, a, b, c, d⟩ := h'
        have hgn := Spec.Refused.none i ⟨oc, cr, a, b, c, d⟩
        have hk : n = k → m.config.getCfgOutput n = some oc := by
          rintro rfl
          have : m1.config = m.config := g.config
          rw [this] at a
          unfold Config.getCfgOutput; rw [firstEntry_find a]; rfl
        unfold Manager.getOutput
        split
        · exact ⟨⟨oc, cr, a, b, c, d⟩, fun _ => ⟨_, rfl⟩⟩
        · rename_i cr' hcr
          have hname : (m.config.getCfgOutput n).name = n := by
            cases hc : m.config.getCfgOutput n with
            | none => exact absurd hc hne
            | some oc' =>
              obtain ⟨pre, post, _, hn, _⟩ := find_getD_some (show ((m.config.outputs.find? (fun c => CfgMap.name c = n)).getD none) = some oc' from hc)
              exact hn
          split
          · rename_i o ho
            refine ⟨⟨oc, cr, a, b, c, d⟩, fun e => ?_⟩
            rw [hname, e, hgn] at ho; cases ho
          · split
            · exact ⟨⟨oc, cr, a, b, c, d⟩, fun _ => ⟨_, rfl⟩⟩
            · rename_i hno hcall
              have hnk : n ≠ k := by
                intro e
                rw [hk e] at hcr hcall
                rw [typeIn_eq] at b
                rw [b] at hcr
                injection hcr with hcr
                subst hcr
                obtain ⟨x, hx⟩ := c m1.calls
                rw [hx] at hcall; cases hcall
              refine ⟨⟨oc, cr, a, b, c, ?_⟩, fun e => absurd e hnk⟩
              rintro o ⟨cfg, f, h1, h2⟩
              rcases (getElem?_concat _ _ _ _).mp h1 with h1 | ⟨_, h1⟩
              · exact d o ⟨cfg, f, h1, h2⟩
              · injection h1 with h1 _
                injection h1 with h1
                rw [← h1, nameIn_eq, hname] at h2
                exact hnk h2

theorem refused_loop {m : Manager} (inv : MgrInv m) {k : Str} (h : Refused m k) (names : List Str) :
    Refused (m.loop names).2 k ∧ (k ∈ names → ∃ e, (m.loop names).1 = .error e) := by
  induction names generalizing m with
  | nil => exact ⟨h, by simp⟩
  | cons n ns ih =>
    obtain ⟨h1, h2⟩ := refused_one inv h n
    obtain ⟨_, i, _⟩ := one_spec m inv n
    unfold Manager.loop
    split
    · rename_i e; rw [e] at h1; exact ⟨h1, fun _ => ⟨_, rfl⟩⟩
    · rename_i o m1 e
      rw [e] at h1 h2 i
      obtain ⟨h3, h4⟩ := ih i h1
      have hk : k ∈ n :: ns → k ∈ ns := by
        intro hk
        rcases List.mem_cons.mp hk with hk | hk
        · obtain ⟨x, hx⟩ := h2 hk.symm; cases hx
        · exact hk
      split
      · rename_i e2; rw [e2] at h3; exact ⟨h3, fun _ => ⟨_, rfl⟩⟩
      · rename_i e2; rw [e2] at h3 h4
        exact ⟨h3, fun hm => by obtain ⟨x, hx⟩ := h4 (hk hm); cases hx⟩

theorem refused_outputs {m : Manager} (inv : MgrInv m) {k : Str} (h : Refused m k) (name : Str) :
    Refused (m.getLoggerOutputs name).2 k ∧
    ∀ e, FirstLogger m.config name e → k ∈ e.outputNames → ∃ x, (m.getLoggerOutputs name).1 = .error x := by
  unfold Manager.getLoggerOutputs
  split
  · exact ⟨h, fun _ _ _ => ⟨_, rfl⟩⟩
  · rename_i lc hlc
    obtain ⟨h1, h2⟩ := refused_loop inv h lc.outputNames
    have hsame : ∀ e, FirstLogger m.config name e → k ∈ e.outputNames → k ∈ lc.outputNames := by
      intro e he hk
      have := (firstLogger_iff _ _ _).mpr he
      rw [hlc] at this
      injection this with this
      rw [this]; exact hk
    split
    · rename_i e; rw [e] at h1; exact ⟨h1, fun _ _ _ => ⟨_, rfl⟩⟩
    · rename_i e; rw [e] at h1 h2
      exact ⟨h1, fun x hx hk => by obtain ⟨y, hy⟩ := h2 (hsame x hx hk); cases hy⟩

namespace World

theorem refused_configure {w : World} (inv : WInv w) {k : Str} (h : Refused w.mgr k) (r : Nat) (name : Str) :
    Refused (w.configure r name).mgr k ∧
    ∀ e, FirstLogger w.mgr.config name e → k ∈ e.outputNames → (w.configure r name).heap = w.heap := by
  obtain ⟨h1, h2⟩ := refused_outputs inv.mgr h name
  unfold configure
  split
  · rename_i e; rw [e] at h1; exact ⟨h1, fun _ _ _ => rfl⟩
  · rename_i e; rw [e] at h1 h2
    exact ⟨h1, fun x hx hk => by obtain ⟨y, hy⟩ := h2 x hx hk; cases hy⟩

theorem refused_notify {w : World} (inv : WInv w) {k : Str} (h : Refused w.mgr k) (order : List Nat) {r : Nat} {l : Logger} (hl : w.heap[r]? = some l)
    {e : CfgLogger} (he : FirstLogger w.mgr.config l.name e) (hk : k ∈ e.outputNames) : (w.notify order).heap[r]? = some l := by
  induction order generalizing w with
  | nil => exact hl
  | cons r' rs ih =>
    unfold notify
    split
    · exact ih inv h hl he
    · rename_i l' hl'
      have cs := configure_spec inv r' l'.name
      obtain ⟨h1, h2⟩ := refused_configure inv h r' l'.name
      refine ih cs.inv h1 ?_ (by rw [cs.grow.config]; exact he)
      by_cases hr : r' = r
      · subst hr
        rw [hl] at hl'; injection hl' with hl'; subst hl'
        rw [h2 e he hk]; exact hl
      · rw [cs.other r (Ne.symm hr)]; exact hl

theorem refused_root {w : World} (inv : WInv w) {k : Str} (h : Refused w.mgr k) : Refused w.getRootLogger.2.mgr k := by
  obtain ⟨h1, _⟩ := refused_outputs inv.mgr h rootLoggerName
  unfold getRootLogger
  split
  · exact h
  · dsimp only
    split
    · rename_i e
      rw [e] at h1
      refine h1.congr rfl rfl ?_
      rintro o ⟨cfg, f, a, b⟩
      rcases (getElem?_concat _ _ _ _).mp a with a | ⟨_, a⟩
      · exact ⟨cfg, f, a, b⟩
      · cases a
    · rename_i e; rw [e] at h1; exact h1

theorem loop_fresh (w : World) (p : Nat) (before rest : Str) {n : Str} (hn : ∀ i, i ≤ rest.length → before ++ rest.take i ≠ n ∨ i = rest.length) :
    Map.get (w.parentLoop p before rest).2.loggers n = Map.get w.loggers n := by
  induction rest generalizing w p before with
  | nil => rfl
  | cons c rest ih =>
    have next : ∀ i, i ≤ rest.length → before ++ [c] ++ rest.take i ≠ n ∨ i = rest.length := by
      intro i hi
      rcases hn (i + 1) (by simpa using hi) with h | h
      · left; simpa using h
      · right; simpa using h
    unfold parentLoop
    split
    · dsimp only
      rw [ih _ _ _ next]
      have h0 : before ≠ n := by
        rcases hn 0 (by simp) with h | h
        · simpa using h
        · simp at h
      unfold createLogger
      split
      · rfl
      · show Map.get (Map.set w.loggers before _) n = _
        rw [Map.get_set, if_neg h0]
    · exact ih _ _ _ next

theorem refused_fresh {w : World} (inv : WInv w) {k : Str} (h : Refused w.mgr k) {n : Str} (h1 : n ≠ []) (h2 : n ≠ c!"root") (hnew : Map.get w.loggers n = none)
    {e : CfgLogger} (he : FirstLogger w.mgr.config n e) (hk : k ∈ e.outputNames) : Unset (w.getLogger n).2 n := by
  obtain ⟨s, _⟩ := getRootLogger_spec inv
  have hr := refused_root inv h
  have hfresh : Map.get w.getRootLogger.2.loggers n = none := by
    unfold getRootLogger
    split
    · exact hnew
    · show Map.get (Map.set _ rootLoggerName _) n = none
      rw [Map.get_set, if_neg (fun e => h2 e.symm)]
      dsimp only
      split <;> exact hnew
  obtain ⟨lr, q1, q2⟩ := s.inv.named _ _ s.get
  obtain ⟨i, x, ⟨lq, h3, h4⟩, hm⟩ := parentLoop_spec s.inv q1 [] n (by rw [q2]; exact parentOf_nil)
  have hfresh2 : Map.get (w.getRootLogger.2.parentLoop w.getRootLogger.1 [] n).2.loggers n = none := by
    rw [loop_fresh _ _ _ _ (n := n)]
    · exact hfresh
    · intro i hi
      by_cases e : i = n.length
      · exact .inr e
      · left
        intro e2
        have := congrArg List.length e2
        simp at this
        omega
  simp only [List.nil_append] at h4
  unfold getLogger
  rw [if_neg (by simp only [not_or]; exact ⟨h1, h2⟩)]
  simp only [hnew, getParent]
  generalize hw1 : w.getRootLogger.2.parentLoop w.getRootLogger.1 [] n = pw at i x h3 hm hfresh2
  obtain ⟨p, w1⟩ := pw
  simp only at i x h3 hm hfresh2 ⊢
  obtain ⟨i2, x2, hget, hm2⟩ := create_inv i h3 h4 h1 h2
  have hheap : (w1.createLogger n (some p)).2.heap[(w1.createLogger n (some p)).1]? = some { newLogger n with parent := some p } := by
    unfold createLogger
    rw [hfresh2]
    simp
  generalize hw2 : w1.createLogger n (some p) = rw2 at i2 x2 hget hm2 hheap
  obtain ⟨r, w2⟩ := rw2
  simp only at i2 x2 hget hm2 hheap ⊢
  have cs := configure_spec i2 r n
  have c1 : w2.mgr.config = w.mgr.config := by rw [hm2, hm]; exact s.config
  have hsame := (refused_configure i2 (k := k) (by rw [hm2, hm]; exact hr) r n).2 e (by rw [c1]; exact he) hk
  refine ⟨_, loggerAt_of_get (r := r) (by rw [cs.loggers]; exact hget) (by rw [hsame]; exact hheap), rfl, rfl⟩

/-- The creators of the library stay registered. -/
structure Creators (up : Nat → Bool) (m : Manager) : Prop where
  text : Map.get m.fmtCreators c!"text" = some textCreator
  own : ∀ t, t ∈ [c!"console", c!"memory", c!"size_rolling_file", c!"time_rolling_file"] → Map.get m.outCreators t = some okCreator
  syslog : Map.get m.outCreators c!"syslog" = some (syslogCreator up)

theorem Creators.congr {up : Nat → Bool} {m m' : Manager} (h : Creators up m) (h1 : m'.fmtCreators = m.fmtCreators) (h2 : m'.outCreators = m.outCreators) :
    Creators up m' := ⟨by rw [h1]; exact h.text, fun t ht => by rw [h2]; exact h.own t ht, by rw [h2]; exact h.syslog⟩

theorem setConfig_creators {w : World} (inv : WInv w) (cfg : Config) (order : List Nat) :
    (w.setConfig cfg order).2.mgr.fmtCreators = w.mgr.fmtCreators ∧ (w.setConfig cfg order).2.mgr.outCreators = w.mgr.outCreators := by
  unfold setConfig
  split
  · exact ⟨rfl, rfl⟩
  · obtain ⟨_, _, g, _⟩ := notify_spec (withConfig_inv inv cfg).1 order
    exact ⟨g.fmtCreators, g.outCreators⟩

theorem act_creators {up : Nat → Bool} {w : World} (inv : WInv w) (h : Creators up w.mgr) {a : Act} (ha : Proper a) : Creators up (a.run w).mgr := by
  have viaSet : ∀ cfg order, Creators up (w.setConfig cfg order).2.mgr := fun cfg order =>
    h.congr (setConfig_creators inv cfg order).1 (setConfig_creators inv cfg order).2
  cases a with
  | registerFormatter t f =>
    refine ⟨?_, h.own, h.syslog⟩
    show Map.get (Map.set w.mgr.fmtCreators t f) c!"text" = _
    rw [Map.get_set, if_neg ha.1]; exact h.text
  | registerOutput t f =>
    have ha : t ∉ [c!"console", c!"memory", c!"size_rolling_file", c!"time_rolling_file", c!"syslog"] := ha
    refine ⟨h.text, fun t' ht => ?_, ?_⟩
    · show Map.get (Map.set w.mgr.outCreators t f) t' = _
      rw [Map.get_set, if_neg (by rintro rfl; exact ha (by
        rw [show [c!"console", c!"memory", c!"size_rolling_file", c!"time_rolling_file", c!"syslog"] = [c!"console", c!"memory", c!"size_rolling_file", c!"time_rolling_file"] ++ [c!"syslog"] from rfl]
        exact List.mem_append_left _ ht))]
      exact h.own t' ht
    · show Map.get (Map.set w.mgr.outCreators t f) c!"syslog" = _
      rw [Map.get_set, if_neg (by rintro rfl; exact ha (by simp))]
      exact h.syslog
  | setConfig cfg order => exact viaSet cfg order
  | loadConfig d bs ext order => exact viaSet _ order
  | loadConfigFile d file read order =>
    simp only [Act.run]
    unfold loadConfigFile
    split
    · exact h
    · split
      · exact h
      · exact viaSet _ order
  | getLogger n =>
    have s := getLogger_spec inv n
    exact h.congr s.fmtCreators s.outCreators
  | queryOutputs n =>
    obtain ⟨g, _⟩ := getLoggerOutputs_spec w.mgr inv.mgr n
    exact h.congr g.fmtCreators g.outCreators
  | userOutput flag => exact h.congr rfl rfl
  | setLevel r lvl => exact h
  | setCallerSkip r k => exact h
  | setOutputs r ops => exact h

theorem program_creators {up : Nat → Bool} {as : List Act} {w : World} (h : Program up as w) : Creators up w.mgr := by
  obtain ⟨v, h1, h3⟩ := steps_split h.steps
  have h2 := h.proper
  have hv : v = initWorld up := steps_foldl h1
  have inv := (steps_inv WInv.empty h1).1
  clear h1 h
  induction h3 with
  | refl =>
    subst hv
    refine ⟨rfl, fun t ht => ?_, rfl⟩
    simp only [List.mem_cons, List.not_mem_nil, or_false] at ht
    rcases ht with rfl | rfl | rfl | rfl <;> rfl
  | @tail w' as a hs ok ih => exact act_creators (steps_inv inv hs).1 (ih (fun a ha => h2 a (by simp [ha]))) (h2 _ (by simp))

theorem sound_creatable {up : Nat → Bool} {m : Manager} (h : Creators up m) {k : Str} (hs : Sound up m.config k) : Creatable m k := by
  obtain ⟨oc, fc, h1, h2, h3, h4, h5⟩ := hs
  refine ⟨oc, fc, textCreator, if CfgMap.at (some oc) c!"type" = c!"syslog" then syslogCreator up else okCreator, h1, h3, ?_, fun i => ?_, ?_, fun i => ?_⟩
  · rw [show typeIn (some fc) = c!"text" from h4]; exact h.text
  · unfold textCreator
    cases hp : newTextFormatter (some fc) with
    | none =>
      exact absurd h5 ((C35_rejected _).mp hp)
    | some parts => exact ⟨_, rfl⟩
  · rcases h2 with h2 | ⟨h2, _⟩
    · rw [if_neg (by intro e; rw [e] at h2; revert h2; decide)]
      exact h.own _ h2
    · rw [if_pos h2, show typeIn (some oc) = c!"syslog" from h2]
      exact h.syslog
  · rcases h2 with h2 | ⟨h2, h6⟩
    · rw [if_neg (by intro e; rw [e] at h2; revert h2; decide)]
      rfl
    · rw [if_pos h2]
      simp [syslogCreator, h6 i]

end World
end Log4g
