import Verif.Lemmas.AskedFor
import Verif.Props.Early

/-! # C136: which loggers there are, and in which order they are obtained -/

namespace Log4g
open Spec World

/-- C136: after any history, a logger is there if and only if it, or one below it, was asked for; or it is the root logger and any logger was asked for. -/
theorem C136_which {as : List Act} {w : World} (h : Steps {} as w) (n : Str) : Map.get w.loggers n ≠ none ↔ ∃ x, Act.getLogger x ∈ as ∧ Brings x n := by
  induction h with
  | refl => simp [Map.get]
  | @tail w' as a h1 h2 ih =>
    by_cases ha : ∃ x, a = .getLogger x
    · obtain ⟨x, rfl⟩ := ha
      show Map.get (w'.getLogger x).2.loggers n ≠ none ↔ _
      rw [get_names (reach_inv ⟨_, h1⟩), ih]
      constructor
      · rintro (⟨y, h3, h4⟩ | h3)
        · exact ⟨y, by simp [h3], h4⟩
        · exact ⟨x, by simp, h3⟩
      · rintro ⟨y, h3, h4⟩
        simp only [List.mem_append, List.mem_singleton, Act.getLogger.injEq] at h3
        rcases h3 with h3 | rfl
        · exact .inl ⟨y, h3, h4⟩
        · exact .inr h4
    · rw [act_names w' a (fun x hx => ha ⟨x, hx⟩), ih]
      constructor
      · rintro ⟨y, h3, h4⟩
        exact ⟨y, by simp [h3], h4⟩
      · rintro ⟨y, h3, h4⟩
        simp only [List.mem_append, List.mem_singleton] at h3
        rcases h3 with h3 | h3
        · exact ⟨y, h3, h4⟩
        · exact absurd ⟨y, h3.symm⟩ ha

theorem obtained_names : ∀ (ns : List Str) {w : World}, WInv w → ∀ n, Map.get (obtained w ns).loggers n ≠ none ↔ Map.get w.loggers n ≠ none ∨ ∃ x ∈ ns, Brings x n
  | [], w, _, n => by simp [obtained]
  | y :: ns, w, inv, n => by
    have := obtained_names ns (getLogger_spec inv y).inv n
    rw [get_names inv] at this
    refine this.trans ⟨?_, ?_⟩
    · rintro ((h | h) | ⟨x, h, h'⟩)
      · exact .inl h
      · exact .inr ⟨y, by simp, h⟩
      · exact .inr ⟨x, by simp [h], h'⟩
    · rintro (h | ⟨x, h, h'⟩)
      · exact .inl (.inl h)
      · rcases List.mem_cons.mp h with rfl | h
        · exact .inl (.inr h')
        · exact .inr ⟨x, h, h'⟩

/-- C136: programs that obtain the same loggers, in different orders and maybe several times, before the first configuration is set, end up with loggers that are set up alike, and let
the same levels pass. -/
theorem C136_any_order {w : World} (hw : Untried w) (hst : Steady w.mgr) (cfg : Config) {ns ns' : List Str} (hns : ∀ x, x ∈ ns ↔ x ∈ ns') {o o' : List Nat}
    (ho : o.Perm ((obtained w ns).loggers.map (·.2))) (ho' : o'.Perm ((obtained w ns').loggers.map (·.2))) :
    let e := (obtained w ns).setConfig cfg o
    let e' := (obtained w ns').setConfig cfg o'
    e.1 = e'.1 ∧ (∀ n l, loggerAt e.2 n = some l → ∃ l', loggerAt e'.2 n = some l' ∧ AlikeSetup e.2.mgr e'.2.mgr l l') ∧ ∀ n lvl, Enables e'.2 n lvl ↔ Enables e.2 n lvl := by
  intro e e'
  have inv : WInv w := by
    obtain ⟨as, h, _⟩ := hw
    exact reach_inv ⟨as, h⟩
  obtain ⟨m, M⟩ := early_made hw hst cfg ns ho
  obtain ⟨m', M'⟩ := early_made hw hst cfg ns' ho'
  have st : Steady m := by unfold Steady; rw [M.fmtCreators, M.outCreators]; exact hst
  have peers : Peers m m' := ⟨by rw [M.config, M'.config], by rw [M.fmtCreators, M'.fmtCreators], by rw [M.outCreators, M'.outCreators], M.formats, M'.formats, M.outputs, M'.outputs⟩
  have names : ∀ n, Map.get e.2.loggers n ≠ none ↔ Map.get e'.2.loggers n ≠ none := fun n => by
    rw [setConfig_names, setConfig_names, obtained_names ns inv, obtained_names ns' inv]
    constructor <;> rintro (h | ⟨x, h, h'⟩)
    · exact .inl h
    · exact .inr ⟨x, (hns x).mp h, h'⟩
    · exact .inl h
    · exact .inr ⟨x, (hns x).mpr h, h'⟩
  have alike : ∀ n l, loggerAt e.2 n = some l → ∃ l', loggerAt e'.2 n = some l' ∧ AlikeSetup e.2.mgr e'.2.mgr l l' := fun n l hl => by
    cases hr : Map.get e.2.loggers n with
    | none => unfold loggerAt at hl; rw [hr] at hl; cases hl
    | some r =>
      cases hr' : Map.get e'.2.loggers n with
      | none => exact absurd hr' ((names n).mp (by rw [hr]; simp))
      | some r' =>
        obtain ⟨k, k1, k2⟩ := M.inv.named _ _ hr
        obtain ⟨l', h1, h2⟩ := M'.inv.named _ _ hr'
        have := loggerAt_of_get hr k1
        rw [hl] at this
        cases this
        exact ⟨l', loggerAt_of_get hr' h1, made_alike peers st M.since M'.since (h2.trans k2.symm) (M.made n l hl) (M'.made n l' (loggerAt_of_get hr' h1))⟩
  refine ⟨?_, alike, fun n lvl => ?_⟩
  · show ((obtained w ns).setConfig cfg o).1 = ((obtained w ns').setConfig cfg o').1
    unfold setConfig
    cases validateConfig cfg <;> rfl
  · cases hr : Map.get e.2.loggers n with
    | none =>
      have hr' : Map.get e'.2.loggers n = none := by
        cases h : Map.get e'.2.loggers n with
        | none => rfl
        | some x => exact absurd hr ((names n).mpr (by rw [h]; simp))
      constructor <;> rintro ⟨x, h, _⟩
      · rw [hr'] at h; cases h
      · rw [hr] at h; cases h
    | some r =>
      cases hr' : Map.get e'.2.loggers n with
      | none => exact absurd hr' ((names n).mp (by rw [hr]; simp))
      | some r' =>
        rw [enables_iff hr, enables_iff hr']
        unfold levelEnabled
        rw [same_level M.inv M'.inv (fun n l h => (alike n l h).elim fun l' h => ⟨l', h.1, h.2.level⟩) hr hr']

/-- C136: loggers share a configured output in the one program if and only if they do in the other. -/
theorem C136_sharing {w : World} (hw : Untried w) (cfg : Config) (ns ns' : List Str) (o o' : List Nat) {a a' b b' : Nat}
    (ha : AlikeOut ((obtained w ns).setConfig cfg o).2.mgr ((obtained w ns').setConfig cfg o').2.mgr a a')
    (hb : AlikeOut ((obtained w ns).setConfig cfg o).2.mgr ((obtained w ns').setConfig cfg o').2.mgr b b')
    (hc : ((obtained w ns).setConfig cfg o).2.mgr.oheap[a]? ≠ some ⟨.console, none⟩) : a = b ↔ a' = b' := by
  have inv : WInv w := by
    obtain ⟨as, h, _⟩ := hw
    exact reach_inv ⟨as, h⟩
  exact alike_shared (setConfig_inv (obtained_inv ns inv) cfg o).1.mgr (setConfig_inv (obtained_inv ns' inv) cfg o').1.mgr ha hb hc

/-- The sample program obtains `a/b`, then `x`; or `x`, then `a/b` and `x` again; the loggers and the outputs are made in another order. -/
example : (∀ x, x ∈ [c!"a/b", c!"x"] ↔ x ∈ [c!"x", c!"a/b", c!"x"]) ∧ [0, 1, 2, 3].Perm ((obtained Demo.w0 [c!"a/b", c!"x"]).loggers.map (·.2)) ∧
    [1, 3, 0, 2].Perm ((obtained Demo.w0 [c!"x", c!"a/b", c!"x"]).loggers.map (·.2)) ∧
    ((obtained Demo.w0 [c!"a/b", c!"x"]).setConfig Demo.cfg [0, 1, 2, 3]).2.heap.map (fun l => (l.name, l.outputs)) = [(c!"root", [1]), (c!"a", []), (c!"a/b", []), (c!"x", [2, 1])] ∧
    ((obtained Demo.w0 [c!"x", c!"a/b", c!"x"]).setConfig Demo.cfg [1, 3, 0, 2]).2.heap.map (fun l => (l.name, l.outputs)) = [(c!"root", [2]), (c!"x", [1, 2]), (c!"a", []), (c!"a/b", [])] := by
  refine ⟨fun x => by simp [or_comm, or_left_comm], by decide, by decide, by decide, by decide⟩

/-- Asking for `a/b` brings `a`, but not `b`. -/
example : Brings c!"a/b" c!"a" ∧ ¬ Brings c!"a/b" c!"b" := by
  refine ⟨.inr (.inr ⟨by decide, '/', c!"b", .inl rfl, rfl⟩), ?_⟩
  rintro (h | ⟨_, h⟩ | ⟨_, c, rest, _, h⟩)
  · revert h; decide
  · revert h; decide
  · simp at h

end Log4g
