import Verif.Props.AskedFor

/-! # C137: the order in which loggers are obtained after the configuration is set -/

namespace Log4g
open Spec World

/-- C137, refuted: with an entry for `a` that says error, a program that obtains `a` and then `a/b` has info disabled for both. A program that obtains `a/b` and then `a` has it enabled. -/
theorem C137_order_refuted : ∃ (w : World) (cfg : Config) (ns ns' : List Str), Untried w ∧ Steady w.mgr ∧ (w.setConfig cfg []).1 = none ∧ ns.Perm ns' ∧
    (∀ n ∈ ns, ¬ Enables (obtained (w.setConfig cfg []).2 ns) n Level.Info) ∧ ∀ n ∈ ns, Enables (obtained (w.setConfig cfg []).2 ns') n Level.Info := by
  refine ⟨{}, earlyCfg, [c!"a", c!"a/b"], [c!"a/b", c!"a"], ⟨[], .refl _, by simp⟩, ⟨fun _ _ h => (by cases h), fun _ _ h => (by cases h)⟩, by decide, .swap _ _ _, ?_, ?_⟩
  · intro n hn
    simp only [List.mem_cons, List.not_mem_nil, or_false] at hn
    rcases hn with rfl | rfl
    · rw [enables_iff (r := 1) (by decide)]; decide
    · rw [enables_iff (r := 2) (by decide)]; decide
  · intro n hn
    simp only [List.mem_cons, List.not_mem_nil, or_false] at hn
    rcases hn with rfl | rfl
    · exact ⟨1, by decide, by decide⟩
    · exact ⟨2, by decide, by decide⟩

theorem alikeOut_via {a b c : Manager} {x y z : Nat} (h : AlikeOut a b x y) (h' : AlikeOut b c y z) : AlikeOut a c x z := by
  rcases h with ⟨h1, h2⟩ | ⟨d, f, f', fo, h1, h2, h3, h4⟩ <;> rcases h' with ⟨k1, k2⟩ | ⟨e, g, g', go, k1, k2, k3, k4⟩
  · exact .inl ⟨h1, k2⟩
  · rw [h2] at k1; cases k1
  · rw [h3] at k1; cases k1
  · rw [h3] at k1
    cases k1
    rw [h4] at k2
    cases k2
    exact .inr ⟨d, f, g', fo, h1, h2, k3, k4⟩

theorem alikeOut_flip {a b : Manager} {x y : Nat} (h : AlikeOut a b x y) : AlikeOut b a y x := by
  rcases h with ⟨h1, h2⟩ | ⟨d, f, f', fo, h1, h2, h3, h4⟩
  · exact .inl ⟨h2, h1⟩
  · exact .inr ⟨d, f', f, fo, h3, h4, h1, h2⟩

theorem alikeSetup_via {a b c : Manager} {x y z : Logger} (h : AlikeSetup a b x y) (h' : AlikeSetup b c y z) : AlikeSetup a c x z := by
  refine ⟨h'.name.trans h.name, h'.level.trans h.level, h'.skip.trans h.skip, h'.needs.trans h.needs, h'.count.trans h.count, fun i o o' ho ho' => ?_⟩
  have hi : i < y.outputs.length := by
    rw [h.count]
    exact (List.getElem?_eq_some_iff.mp ho).1
  exact alikeOut_via (h.outputs i o _ ho (List.getElem?_eq_getElem hi)) (h'.outputs i _ o' (List.getElem?_eq_getElem hi) ho')

theorem alikeSetup_flip {a b : Manager} {x y : Logger} (h : AlikeSetup a b x y) : AlikeSetup b a y x :=
  ⟨h.name.symm, h.level.symm, h.skip.symm, h.needs.symm, h.count.symm, fun i o o' ho ho' => alikeOut_flip (h.outputs i o' o ho' ho)⟩

/-- C137, the part that holds: if whoever has an entry in the configuration is obtained before the loggers below, in either program, the loggers are set up alike and let the same
levels pass. -/
theorem C137_order_partial {w : World} (hw : Untried w) (hst : Steady w.mgr) (cfg : Config) (hok : (w.setConfig cfg []).1 = none) {ns ns' : List Str} (hns : ∀ x, x ∈ ns ↔ x ∈ ns')
    (h : TopDown cfg ns) (h' : TopDown cfg ns') :
    let e := obtained (w.setConfig cfg []).2 ns
    let e' := obtained (w.setConfig cfg []).2 ns'
    (∀ n l, loggerAt e n = some l → ∃ l', loggerAt e' n = some l' ∧ AlikeSetup e.mgr e'.mgr l l') ∧ ∀ n lvl, Enables e' n lvl ↔ Enables e n lvl := by
  intro e e'
  have inv : WInv w := by
    obtain ⟨as, h, _⟩ := hw
    exact reach_inv ⟨as, h⟩
  obtain ⟨_, a2, a3, a4⟩ := C135_before_or_after_partial hw hst cfg ns hok h (.refl _)
  obtain ⟨_, _, b3, b4⟩ := C135_before_or_after_partial hw hst cfg ns' hok h' (.refl _)
  obtain ⟨_, c2, c3⟩ := C136_any_order hw hst cfg hns (.refl _) (.refl _)
  refine ⟨fun n l hl => ?_, fun n lvl => (b4 n lvl).trans ((c3 n lvl).trans (a4 n lvl).symm)⟩
  have i1 := (setConfig_inv (obtained_inv ns inv) cfg ((obtained w ns).loggers.map (·.2))).1
  cases hr : Map.get e.loggers n with
  | none => unfold loggerAt at hl; rw [hr] at hl; cases hl
  | some r =>
    obtain ⟨l0, h0, _⟩ := i1.named n r (by rw [a2]; exact hr)
    have g0 := loggerAt_of_get (by rw [a2]; exact hr) h0
    obtain ⟨l1, h1, x1⟩ := a3 n l0 g0
    rw [hl] at h1
    cases h1
    obtain ⟨l2, h2, x2⟩ := c2 n l0 g0
    obtain ⟨l3, h3, x3⟩ := b3 n l2 h2
    exact ⟨l3, h3, alikeSetup_via (alikeSetup_via (alikeSetup_flip x1.toAlikeSetup) x2) x3.toAlikeSetup⟩

/-- The sample program obtains `a`, `a/b` and `x`, or `x`, `a` and `a/b`. -/
example : TopDown Demo.cfg earlyNames ∧ TopDown Demo.cfg [c!"x", c!"a", c!"a/b"] ∧ (∀ x, x ∈ earlyNames ↔ x ∈ [c!"x", c!"a", c!"a/b"]) ∧
    (obtained (Demo.w0.setConfig Demo.cfg []).2 [c!"x", c!"a", c!"a/b"]).heap.map (fun l => (l.name, l.outputs)) = [(c!"root", [0]), (c!"x", [1, 0]), (c!"a", []), (c!"a/b", [])] := by
  refine ⟨early_topDown, topDown_of fun pre n post h => ?_, fun x => by simp [earlyNames]; constructor <;> rintro (h | h | h) <;> simp [h], by decide⟩
  rcases pre with _ | ⟨p1, _ | ⟨p2, _ | ⟨p3, pre⟩⟩⟩
  · simp only [List.nil_append, List.cons.injEq] at h
    exact .inl ⟨_, h.1.symm⟩
  · simp only [List.cons_append, List.nil_append, List.cons.injEq] at h
    exact .inl ⟨_, h.2.1.symm⟩
  · simp only [List.cons_append, List.nil_append, List.cons.injEq] at h
    exact .inr ⟨h.2.2.1.symm, by rw [← h.2.1]; simp⟩
  · simp at h

end Log4g
