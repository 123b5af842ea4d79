import Verif.Lemmas.Early
import Verif.Props.Again
import Verif.Props.Demo

/-! # C135: loggers obtained before and after the configuration is set -/

namespace Log4g
open Spec World

/-- A configuration with an entry for the logger `a`. -/
def earlyCfg : Config := { loggers := [⟨c!"a", c!"error", []⟩] }

/-- C135, refuted: a program that obtains the logger `a/b` and then sets a configuration with an entry for `a` gets a logger that keeps info quiet. A program that sets the same
configuration first and then obtains `a/b` gets a logger that has info enabled. -/
theorem C135_before_or_after_refuted : ∃ (w : World) (cfg : Config) (n : Str) (order : List Nat), Untried w ∧ Steady w.mgr ∧ order.Perm ((w.getLogger n).2.loggers.map (·.2)) ∧
    ((w.getLogger n).2.setConfig cfg order).1 = none ∧ (w.setConfig cfg []).1 = none ∧
    ¬ Enables ((w.getLogger n).2.setConfig cfg order).2 n Level.Info ∧ Enables ((w.setConfig cfg []).2.getLogger n).2 n Level.Info := by
  refine ⟨{}, earlyCfg, c!"a/b", [0, 1, 2], ⟨[], .refl _, by simp⟩, ⟨fun _ _ h => (by cases h), fun _ _ h => (by cases h)⟩, by decide, by decide, by decide, ?_, ?_⟩
  · rintro ⟨r, h1, h2⟩
    have h3 : Map.get (((({} : World).getLogger c!"a/b").2.setConfig earlyCfg [0, 1, 2]).2.loggers) c!"a/b" = some 2 := by decide
    rw [h3] at h1
    cases h1
    revert h2
    decide
  · exact ⟨2, by decide, by decide⟩

/-- C135, the part that holds: if whoever has an entry in the configuration is obtained before the loggers below, a program that obtains loggers and then sets the configuration, and one
that sets it first, have the same loggers, each with the same level,
parent, needs and outputs, and letting the same levels pass. -/
theorem C135_before_or_after_partial {w : World} (hw : Untried w) (hst : Steady w.mgr) (cfg : Config) (ns : List Str) (hok : (w.setConfig cfg []).1 = none) (htd : TopDown cfg ns)
    {order : List Nat} (ho : order.Perm ((obtained w ns).loggers.map (·.2))) :
    let early := ((obtained w ns).setConfig cfg order).2
    let late := obtained (w.setConfig cfg []).2 ns
    ((obtained w ns).setConfig cfg order).1 = none ∧ early.loggers = late.loggers ∧
    (∀ n l, loggerAt early n = some l → ∃ l', loggerAt late n = some l' ∧ AlikeLogger early.mgr late.mgr l l') ∧ ∀ n lvl, Enables late n lvl ↔ Enables early n lvl := by
  obtain ⟨b1, b2, b3, b4, b5, b6⟩ := untried_blank hw
  have inv : WInv w := by
    obtain ⟨as, h, _⟩ := hw
    exact reach_inv ⟨as, h⟩
  have hv : validateConfig cfg = none := by
    revert hok
    unfold setConfig
    cases validateConfig cfg with
    | none => exact fun _ => rfl
    | some e => exact fun h => by cases h
  have e1 : ∀ (w : World) o, w.setConfig cfg o = (none, ({ w with mgr := { w.mgr with config := cfg } } : World).notify o) := fun w o => by
    unfold setConfig
    rw [hv]
  simp only [e1, notify]
  -- before
  have a1 : AllMade w.mgr (obtained w ns) := obtained_made hst ns [] w ⟨inv, .refl inv.mgr, fun r l h => by rw [b1] at h; simp at h⟩ (by simp)
    fun pre n post _ m _ => .inr (.inr fun e he => by rw [b4] at he; cases he)
  obtain ⟨c1, c2, c3⟩ := obtained_unset ns b4
  have i1 := (withConfig_inv a1.inv cfg).1
  have g1 := a1.since.grow
  have st1 : Steady ({ obtained w ns with mgr := { (obtained w ns).mgr with config := cfg } } : World).mgr := by
    have : Steady (obtained w ns).mgr := by unfold Steady; rw [g1.fmtCreators, g1.outCreators]; exact hst
    exact this
  obtain ⟨s1, _, n1⟩ := notify_since st1 (.refl i1.mgr) i1 order
  have k1 := (notify_spec i1 order).2.2.2.1
  -- after
  have i2 := (withConfig_inv inv cfg).1
  have a2 : AllMade ({ w.mgr with config := cfg }) (obtained { w with mgr := { w.mgr with config := cfg } } ns) :=
    obtained_made (m := { w.mgr with config := cfg }) hst ns [] _ ⟨i2, .refl i2.mgr, fun r l h => by simp only [b1] at h; simp at h⟩ (by simp) (by simpa using htd)
  have sh := obtained_shape ns (w := w) (w' := { w with mgr := { w.mgr with config := cfg } }) ⟨rfl, rfl, rfl⟩
  have peers : Peers ({ (obtained w ns).mgr with config := cfg }) ({ w.mgr with config := cfg }) :=
    ⟨rfl, g1.fmtCreators.symm, g1.outCreators.symm, c2.trans b5, b5, c3.trans b6, b6⟩
  have ni := notify_spec i1 order
  have hlog : (obtained { w with mgr := { w.mgr with config := cfg } } ns).loggers = (({ obtained w ns with mgr := { (obtained w ns).mgr with config := cfg } } : World).notify order).loggers := by
    rw [k1, sh.loggers]
  refine (fun X => ⟨trivial, hlog.symm, X, same_enables ni.1 hlog (by rw [ni.2.2.2.2.2, sh.length]) fun n l hl =>
    (X n l hl).elim fun l' h => ⟨l', h.1, h.2.level, h.2.parent⟩⟩) fun n l hl => ?_
  unfold loggerAt at hl ⊢
  rw [k1] at hl
  rw [sh.loggers]
  simp only at hl
  cases hr : Map.get (obtained w ns).loggers n with
  | none => rw [hr] at hl; cases hl
  | some r =>
    rw [hr] at hl
    simp only [Option.bind_some] at hl ⊢
    obtain ⟨l0, h0, hn0⟩ := a1.inv.named _ _ hr
    obtain ⟨l2, h2, hn2⟩ := a2.inv.named n r (by rw [sh.loggers]; exact hr)
    have hm : r ∈ (obtained w ns).loggers.map (·.2) := List.mem_map.mpr ⟨(n, r), Map.mem_of_get hr, rfl⟩
    obtain ⟨l1, h1, bc⟩ := n1 (ho.nodup_iff.mpr (refs_nodup a1.inv)) r (ho.mem_iff.mpr hm) l0 h0
    rw [h1] at hl
    cases hl
    have hname : l2.name = l.name := by
      rw [hn2, ← hn0]
      rcases bc with ⟨_, rfl⟩ | ⟨_, _, _, e⟩
      · rfl
      · rw [e]
    refine ⟨l2, h2, made_alike peers st1 s1 a2.since hname ?_ (a2.made r l2 h2), same_parent ni.1 a2.inv hlog h1 h2 hname⟩
    · obtain ⟨d1, d2⟩ := a1.made r l0 h0
      rcases d2 with ⟨lc, d2, _⟩ | ⟨_, d3, d4, d5⟩
      · exact absurd d2 (noLogger_bad (fun e he => by rw [b4] at he; cases he) lc)
      · rcases bc with ⟨x1, rfl⟩ | ⟨lc, x1, x2, x3⟩
        · refine ⟨d1, .inr ⟨x1, d3, fun e => ?_, d5⟩⟩
          obtain ⟨y1, c, y2, y3⟩ := d4 e
          exact ⟨y1, c, y2, s1.grow.oheap_get y3⟩
        · have e1 : l.name = l0.name := by rw [x3]
          refine ⟨by rw [x3]; exact d1, .inl ⟨lc, by rw [e1]; exact x1, x2, by rw [x3], ?_⟩⟩
          rw [d3] at x3
          exact congrArg Logger.callerInfoFlag x3

/-- C135: loggers share a configured output in the one program if and only if they do in the other. -/
theorem C135_sharing {w : World} (hw : Untried w) (cfg : Config) (ns : List Str) (order : List Nat) {a a' b b' : Nat}
    (ha : AlikeOut ((obtained w ns).setConfig cfg order).2.mgr (obtained (w.setConfig cfg []).2 ns).mgr a a')
    (hb : AlikeOut ((obtained w ns).setConfig cfg order).2.mgr (obtained (w.setConfig cfg []).2 ns).mgr b b')
    (hc : ((obtained w ns).setConfig cfg order).2.mgr.oheap[a]? ≠ some ⟨.console, none⟩) : a = b ↔ a' = b' := by
  have inv : WInv w := by
    obtain ⟨as, h, _⟩ := hw
    exact reach_inv ⟨as, h⟩
  have i1 := (setConfig_inv (obtained_inv ns inv) cfg order).1.mgr
  have i2 := (obtained_inv ns (setConfig_inv inv cfg []).1).mgr
  exact alike_shared i1 i2 ha hb hc

/-- A program that obtains `a`, then `a/b`, then `x`. -/
def earlyNames : List Str := [c!"a", c!"a/b", c!"x"]

/-- Lists of names of one character and of `a/b` after `a`. -/
theorem topDown_of {cfg : Config} {ns : List Str} (h : ∀ pre n post, ns = pre ++ n :: post → (∃ x, n = [x]) ∨ n = c!"a/b" ∧ c!"a" ∈ pre) : TopDown cfg ns := by
  intro pre n post e m hm
  rcases h pre n post e with ⟨x, rfl⟩ | ⟨rfl, ha⟩
  · obtain ⟨h1, c, rest, _, h2⟩ := hm
    have := congrArg List.length h2
    cases m with
    | nil => exact absurd rfl h1
    | cons => simp at this
  · obtain ⟨h1, c, rest, h2, h3⟩ := hm
    right; left
    rcases m with _ | ⟨x, _ | ⟨y, m⟩⟩
    · exact absurd rfl h1
    · simp only [List.cons_append, List.nil_append, List.cons.injEq] at h3
      rw [← h3.1]
      exact ha
    · exfalso
      simp only [List.cons_append, List.cons.injEq] at h3
      cases m with
      | nil =>
        simp only [List.nil_append, List.cons.injEq] at h3
        rw [← h3.2.2.1] at h2
        unfold Spec.Sep at h2
        revert h2
        decide
      | cons z m =>
        have := congrArg List.length h3.2.2
        simp at this

theorem early_topDown : TopDown Demo.cfg earlyNames := topDown_of fun pre n post h => by
  unfold earlyNames at h
  rcases pre with _ | ⟨p1, _ | ⟨p2, _ | ⟨p3, pre⟩⟩⟩
  · simp only [List.nil_append, List.cons.injEq] at h
    exact .inl ⟨_, h.1.symm⟩
  · simp only [List.cons_append, List.nil_append, List.cons.injEq] at h
    exact .inr ⟨h.2.1.symm, by rw [← h.1]; simp⟩
  · simp only [List.cons_append, List.nil_append, List.cons.injEq] at h
    exact .inl ⟨_, h.2.2.1.symm⟩
  · simp at h

/-- The sample program, and the sample configuration with entries for the root, `a` and `x`. -/
example : Untried Demo.w0 ∧ TopDown Demo.cfg earlyNames ∧ (Demo.w0.setConfig Demo.cfg []).1 = none ∧ [2, 0, 3, 1].Perm ((obtained Demo.w0 earlyNames).loggers.map (·.2)) ∧
    ((obtained Demo.w0 earlyNames).setConfig Demo.cfg [2, 0, 3, 1]).2.heap.map (·.outputs) = [[1], [], [], [2, 1]] ∧
    (obtained (Demo.w0.setConfig Demo.cfg []).2 earlyNames).heap.map (·.outputs) = [[0], [], [], [1, 0]] := by
  refine ⟨⟨Demo.acts0, ?_, ?_⟩, early_topDown, by decide, by decide, by decide, by decide⟩
  · have h1 : Steps {} [] {} := .refl _
    have h2 := h1.tail (a := .registerFormatter c!"text" (fun _ _ => .ok 2)) trivial
    exact h2.tail (a := .registerOutput c!"console" (fun _ _ => .ok ())) trivial
  · intro a ha
    simp only [Demo.acts0, List.mem_cons, List.not_mem_nil, or_false] at ha
    rcases ha with rfl | rfl
    · exact .inl ⟨_, _, rfl⟩
    · exact .inr ⟨_, _, rfl⟩

end Log4g
