import Verif.Spec.Creators
import Verif.Lemmas.World

namespace Log4g
open Spec

/-- Instances that are new in `m'` were made by the creators of `m`. -/
structure Makes (m m' : Manager) : Prop where
  fc : m'.fmtCreators = m.fmtCreators
  oc : m'.outCreators = m.outCreators
  calls : m.calls ≤ m'.calls
  fmt : ∀ (i : Nat) c flag, m'.fheap[i]? = some ⟨c, flag⟩ → m.fheap[i]? = some ⟨c, flag⟩ ∨
    (m.fheap.length ≤ i ∧ ∃ cr k, Map.get m.fmtCreators c.type = some cr ∧ m.calls ≤ k ∧ k < m'.calls ∧ cr k c = .ok flag)
  out : ∀ (o : Nat) c f, m'.oheap[o]? = some ⟨.managed c, f⟩ → m.oheap[o]? = some ⟨.managed c, f⟩ ∨
    (m.oheap.length ≤ o ∧ ∃ cr k, Map.get m.outCreators c.type = some cr ∧ m.calls ≤ k ∧ k < m'.calls ∧ cr k c = .ok ())
  flen : m.fheap.length ≤ m'.fheap.length
  olen : m.oheap.length ≤ m'.oheap.length

theorem Makes.refl (m : Manager) : Makes m m :=
  ⟨rfl, rfl, Nat.le_refl _, fun _ _ _ h => .inl h, fun _ _ _ h => .inl h, Nat.le_refl _, Nat.le_refl _⟩

theorem Makes.trans {a b c : Manager} (h : Makes a b) (h' : Makes b c) : Makes a c where
  fc := h'.fc.trans h.fc
  oc := h'.oc.trans h.oc
  calls := Nat.le_trans h.calls h'.calls
  flen := Nat.le_trans h.flen h'.flen
  olen := Nat.le_trans h.olen h'.olen
  fmt := by
    intro i x flag e
    rcases h'.fmt i x flag e with e | ⟨l, cr, k, g, k1, k2, r⟩
    · rcases h.fmt i x flag e with e | ⟨l, cr, k, g, k1, k2, r⟩
      · exact .inl e
      · exact .inr ⟨l, cr, k, g, k1, Nat.lt_of_lt_of_le k2 h'.calls, r⟩
    · exact .inr ⟨Nat.le_trans h.flen l, cr, k, by rw [← h.fc]; exact g, Nat.le_trans h.calls k1, k2, r⟩
  out := by
    intro i x flag e
    rcases h'.out i x flag e with e | ⟨l, cr, k, g, k1, k2, r⟩
    · rcases h.out i x flag e with e | ⟨l, cr, k, g, k1, k2, r⟩
      · exact .inl e
      · exact .inr ⟨l, cr, k, g, k1, Nat.lt_of_lt_of_le k2 h'.calls, r⟩
    · exact .inr ⟨Nat.le_trans h.olen l, cr, k, by rw [← h.oc]; exact g, Nat.le_trans h.calls k1, k2, r⟩

theorem makes_concat {α : Type} {l : List α} {x y : α} {i : Nat} (h : (l ++ [x])[i]? = some y) : l[i]? = some y ∨ (i = l.length ∧ y = x) := by
  rcases Nat.lt_trichotomy i l.length with hi | hi | hi
  · rw [List.getElem?_append_left hi] at h; exact .inl h
  · subst hi; simp at h; exact .inr ⟨rfl, h.symm⟩
  · rw [List.getElem?_eq_none (by simp; omega)] at h; cases h

theorem getFormat_makes (m : Manager) (fc : CfgMap) : Makes m (m.getFormat fc).2 := by
  unfold Manager.getFormat
  cases h1 : Map.get m.fmtCreators fc.type with
  | none => exact .refl m
  | some cr =>
    simp only
    cases h2 : Map.get m.formats fc.name with
    | some f => exact .refl m
    | none =>
      simp only
      cases h3 : cr m.calls fc with
      | error e => exact ⟨rfl, rfl, Nat.le_succ _, fun _ _ _ h => .inl h, fun _ _ _ h => .inl h, Nat.le_refl _, Nat.le_refl _⟩
      | ok flag =>
        refine ⟨rfl, rfl, Nat.le_succ _, ?_, fun _ _ _ h => .inl h, by simp, Nat.le_refl _⟩
        intro i c fl h
        rcases makes_concat h with h | ⟨hi, h⟩
        · exact .inl h
        · injection h with hc hf; subst hc; subst hf
          exact .inr ⟨by omega, cr, m.calls, h1, Nat.le_refl _, Nat.lt_succ_self _, h3⟩

theorem getOutput_makes (m : Manager) (oc : CfgMap) (g : Nat) : Makes m (m.getOutput oc g).2 := by
  unfold Manager.getOutput
  cases h1 : Map.get m.outCreators oc.type with
  | none => exact .refl m
  | some cr =>
    simp only
    cases h2 : Map.get m.outputs oc.name with
    | some f => exact .refl m
    | none =>
      simp only
      cases h3 : cr m.calls oc with
      | error e => exact ⟨rfl, rfl, Nat.le_succ _, fun _ _ _ h => .inl h, fun _ _ _ h => .inl h, Nat.le_refl _, Nat.le_refl _⟩
      | ok u =>
        refine ⟨rfl, rfl, Nat.le_succ _, fun _ _ _ h => .inl h, ?_, Nat.le_refl _, by simp⟩
        intro i c fl h
        rcases makes_concat h with h | ⟨hi, h⟩
        · exact .inl h
        · injection h with hc hf; injection hc with hc; subst hc
          exact .inr ⟨by omega, cr, m.calls, h1, Nat.le_refl _, Nat.lt_succ_self _, h3⟩

theorem one_makes (m : Manager) (n : Str) : Makes m (m.one n).2 := by
  unfold Manager.one
  simp only
  split
  · exact .refl m
  · split
    · exact .refl m
    · have h := getFormat_makes m (m.config.getCfgFormat (m.config.getCfgOutput n).formatName)
      rcases e : m.getFormat (m.config.getCfgFormat (m.config.getCfgOutput n).formatName) with ⟨e | g, m'⟩
      · rw [e] at h; exact h
      · rw [e] at h; exact h.trans (getOutput_makes _ _ _)

theorem loop_makes (m : Manager) (names : List Str) : Makes m (m.loop names).2 := by
  induction names generalizing m with
  | nil => exact .refl m
  | cons n ns ih =>
    simp only [Manager.loop]
    have h := one_makes m n
    rcases e : m.one n with ⟨e | o, m'⟩
    · rw [e] at h; exact h
    · rw [e] at h
      have h2 := ih m'
      simp only
      rcases e2 : m'.loop ns with ⟨e | os, m''⟩
      · rw [e2] at h2; exact h.trans h2
      · rw [e2] at h2; exact h.trans h2

theorem getLoggerOutputs_makes (m : Manager) (n : Str) : Makes m (m.getLoggerOutputs n).2 := by
  unfold Manager.getLoggerOutputs
  cases m.config.getCfgLogger n with
  | none => exact .refl m
  | some lc =>
    have h := loop_makes m lc.outputNames
    simp only
    rcases e : m.loop lc.outputNames with ⟨e | os, m'⟩
    · rw [e] at h; exact h
    · rw [e] at h; exact h

theorem configure_makes (w : World) (r : Nat) (n : Str) : Makes w.mgr (w.configure r n).mgr := by
  unfold World.configure
  have h := getLoggerOutputs_makes w.mgr n
  rcases e : w.mgr.getLoggerOutputs n with ⟨e | ⟨os, l⟩, m'⟩
  · rw [e] at h; exact h
  · rw [e] at h; exact h

/-- An output that no creator made is added. -/
theorem makes_other (m : Manager) (x : OutObj) (hx : ∀ c, x.origin ≠ .managed c) : Makes m { m with oheap := m.oheap ++ [x] } := by
  refine ⟨rfl, rfl, Nat.le_refl _, fun _ _ _ h => .inl h, ?_, Nat.le_refl _, by simp⟩
  intro i c fl h
  rcases makes_concat h with h | ⟨_, h⟩
  · exact .inl h
  · rw [← h] at hx; exact absurd rfl (hx c)

theorem getRootLogger_makes (w : World) : Makes w.mgr w.getRootLogger.2.mgr := by
  unfold World.getRootLogger
  cases w.root with
  | some r => exact .refl _
  | none =>
    simp only
    have h := getLoggerOutputs_makes w.mgr rootLoggerName
    rcases e : w.mgr.getLoggerOutputs rootLoggerName with ⟨e | ⟨os, l⟩, m'⟩
    · rw [e] at h
      exact h.trans (makes_other m' _ (by intro c h; cases h))
    · rw [e] at h; exact h

theorem createLogger_mgr_eq (w : World) (n : Str) (p : Option Nat) : (w.createLogger n p).2.mgr = w.mgr := by
  unfold World.createLogger
  cases Map.get w.loggers n <;> rfl

theorem parentLoop_mgr_eq (w : World) (p : Nat) (b r : Str) : (w.parentLoop p b r).2.mgr = w.mgr := by
  induction r generalizing w p b with
  | nil => rfl
  | cons c r ih =>
    simp only [World.parentLoop]
    split
    · rw [ih, createLogger_mgr_eq]
    · exact ih _ _ _

theorem getLogger_makes (w : World) (n : Str) : Makes w.mgr (w.getLogger n).2.mgr := by
  unfold World.getLogger
  split
  · exact getRootLogger_makes w
  · cases Map.get w.loggers n with
    | some r => exact .refl _
    | none =>
      simp only [World.getParent]
      have h := getRootLogger_makes w
      refine h.trans ?_
      have e := parentLoop_mgr_eq w.getRootLogger.2 w.getRootLogger.1 [] n
      rw [← e, ← createLogger_mgr_eq]
      exact configure_makes _ _ _

theorem notify_makes (w : World) (order : List Nat) : Makes w.mgr (w.notify order).mgr := by
  induction order generalizing w with
  | nil => exact .refl _
  | cons r rs ih =>
    simp only [World.notify]
    split
    · exact ih w
    · exact (configure_makes w r _).trans (ih _)

theorem setConfig_makes (w : World) (cfg : Config) (order : List Nat) : Makes w.mgr (w.setConfig cfg order).2.mgr := by
  unfold World.setConfig
  split
  · exact .refl _
  · exact Makes.trans (b := { w.mgr with config := cfg }) ⟨rfl, rfl, Nat.le_refl _, fun _ _ _ h => .inl h, fun _ _ _ h => .inl h, Nat.le_refl _, Nat.le_refl _⟩ (notify_makes { w with mgr := { w.mgr with config := cfg } } order)

/-- Calls that are not registrations. -/
theorem act_makes (w : World) (a : Act) (h1 : ∀ t f, a ≠ .registerFormatter t f) (h2 : ∀ t f, a ≠ .registerOutput t f) :
    Makes w.mgr (a.run w).mgr := by
  cases a with
  | registerFormatter t f => exact absurd rfl (h1 t f)
  | registerOutput t f => exact absurd rfl (h2 t f)
  | setConfig cfg order => exact setConfig_makes w cfg order
  | loadConfig d bs ext order => exact setConfig_makes w _ order
  | loadConfigFile d file read order =>
    simp only [Act.run]
    unfold World.loadConfigFile
    split
    · exact .refl _
    · split <;> first | exact .refl _ | exact setConfig_makes w _ order
  | getLogger n => exact getLogger_makes w n
  | queryOutputs n => exact getLoggerOutputs_makes w.mgr n
  | userOutput flag => exact makes_other w.mgr _ (by intro c h; cases h)
  | setLevel r lvl => exact .refl _
  | setCallerSkip r k => exact .refl _
  | setOutputs r ops => exact .refl _

/-- The map of creators is what was registered last. -/
theorem creators_last {as : List Act} {w : World} (h : Steps {} as w) :
    (∀ t cr, Map.get w.mgr.outCreators t = some cr ↔ LastOutput as t cr) ∧
    (∀ t cr, Map.get w.mgr.fmtCreators t = some cr ↔ LastFormatter as t cr) := by
  induction h with
  | refl =>
    constructor
    · intro t cr
      constructor
      · intro h; cases h
      · rintro ⟨pre, post, e, _⟩; simp at e
    · intro t cr
      constructor
      · intro h; cases h
      · rintro ⟨pre, post, e, _⟩; simp at e
  | @tail w as a _ ok ih =>
    have keepO : (∀ t f, a ≠ .registerOutput t f) → ∀ t cr, LastOutput (as ++ [a]) t cr ↔ LastOutput as t cr := by
      intro ha t cr
      constructor
      · rintro ⟨pre, post, e, hp⟩
        rcases List.eq_nil_or_concat post with hq | ⟨q, x, hq⟩
        · rw [hq] at e
          have := List.append_inj_right' (s₁ := as) (t₁ := [a]) e rfl
          injection this with this _
          exact absurd this (ha t cr)
        · rw [List.concat_eq_append] at hq
          subst hq
          have e : as ++ [a] = (pre ++ .registerOutput t cr :: q) ++ [x] := by simp [e]
          exact ⟨pre, q, List.append_inj_left' e rfl, fun cr' hc => hp cr' (List.mem_append_left _ hc)⟩
      · rintro ⟨pre, post, e, hp⟩
        refine ⟨pre, post ++ [a], by simp [e], ?_⟩
        intro cr' hc
        rcases List.mem_append.mp hc with hc | hc
        · exact hp cr' hc
        · simp only [List.mem_singleton] at hc; exact ha t cr' hc.symm
    have keepF : (∀ t f, a ≠ .registerFormatter t f) → ∀ t cr, LastFormatter (as ++ [a]) t cr ↔ LastFormatter as t cr := by
      intro ha t cr
      constructor
      · rintro ⟨pre, post, e, hp⟩
        rcases List.eq_nil_or_concat post with hq | ⟨q, x, hq⟩
        · rw [hq] at e
          have := List.append_inj_right' (s₁ := as) (t₁ := [a]) e rfl
          injection this with this _
          exact absurd this (ha t cr)
        · rw [List.concat_eq_append] at hq
          subst hq
          have e : as ++ [a] = (pre ++ .registerFormatter t cr :: q) ++ [x] := by simp [e]
          exact ⟨pre, q, List.append_inj_left' e rfl, fun cr' hc => hp cr' (List.mem_append_left _ hc)⟩
      · rintro ⟨pre, post, e, hp⟩
        refine ⟨pre, post ++ [a], by simp [e], ?_⟩
        intro cr' hc
        rcases List.mem_append.mp hc with hc | hc
        · exact hp cr' hc
        · simp only [List.mem_singleton] at hc; exact ha t cr' hc.symm
    by_cases h1 : ∃ t f, a = .registerFormatter t f
    · obtain ⟨t, f, rfl⟩ := h1
      refine ⟨fun t' cr => (ih.1 t' cr).trans (keepO (by intro _ _ h; cases h) t' cr).symm, ?_⟩
      intro t' cr
      simp only [Act.run, World.registerFormatter, Map.get_set]
      by_cases ht : t = t'
      · subst ht
        simp only [if_true]
        constructor
        · intro h; injection h with h; subst h
          exact ⟨as, [], rfl, by simp⟩
        · rintro ⟨pre, post, e, hp⟩
          rcases List.eq_nil_or_concat post with hq | ⟨q, x, hq⟩
          · rw [hq] at e
            have := List.append_inj_right' (s₁ := as) (t₁ := [_]) e rfl
            injection this with this _; injection this with _ this; rw [this]
          · rw [List.concat_eq_append] at hq
            subst hq
            have e : as ++ [.registerFormatter t f] = (pre ++ .registerFormatter t cr :: q) ++ [x] := by simp [e]
            have := List.append_inj_right' e rfl
            injection this with this _
            exact absurd (by rw [← this]; simp) (hp f)
      · rw [if_neg ht]
        refine (ih.2 t' cr).trans ?_
        constructor
        · rintro ⟨pre, post, e, hp⟩
          refine ⟨pre, post ++ [.registerFormatter t f], by simp [e], ?_⟩
          intro cr' hc
          rcases List.mem_append.mp hc with hc | hc
          · exact hp cr' hc
          · simp only [List.mem_singleton] at hc; injection hc with hc _; exact ht hc.symm
        · rintro ⟨pre, post, e, hp⟩
          rcases List.eq_nil_or_concat post with hq | ⟨q, x, hq⟩
          · rw [hq] at e
            have := List.append_inj_right' (s₁ := as) (t₁ := [_]) e rfl
            injection this with this _; injection this with this _; exact absurd this ht
          · rw [List.concat_eq_append] at hq
            subst hq
            have e : as ++ [.registerFormatter t f] = (pre ++ .registerFormatter t' cr :: q) ++ [x] := by simp [e]
            exact ⟨pre, q, List.append_inj_left' e rfl, fun cr' hc => hp cr' (List.mem_append_left _ hc)⟩
    by_cases h2 : ∃ t f, a = .registerOutput t f
    · obtain ⟨t, f, rfl⟩ := h2
      refine ⟨?_, fun t' cr => (ih.2 t' cr).trans (keepF (by intro _ _ h; cases h) t' cr).symm⟩
      intro t' cr
      simp only [Act.run, World.registerOutput, Map.get_set]
      by_cases ht : t = t'
      · subst ht
        simp only [if_true]
        constructor
        · intro h; injection h with h; subst h
          exact ⟨as, [], rfl, by simp⟩
        · rintro ⟨pre, post, e, hp⟩
          rcases List.eq_nil_or_concat post with hq | ⟨q, x, hq⟩
          · rw [hq] at e
            have := List.append_inj_right' (s₁ := as) (t₁ := [_]) e rfl
            injection this with this _; injection this with _ this; rw [this]
          · rw [List.concat_eq_append] at hq
            subst hq
            have e : as ++ [.registerOutput t f] = (pre ++ .registerOutput t cr :: q) ++ [x] := by simp [e]
            have := List.append_inj_right' e rfl
            injection this with this _
            exact absurd (by rw [← this]; simp) (hp f)
      · rw [if_neg ht]
        refine (ih.1 t' cr).trans ?_
        constructor
        · rintro ⟨pre, post, e, hp⟩
          refine ⟨pre, post ++ [.registerOutput t f], by simp [e], ?_⟩
          intro cr' hc
          rcases List.mem_append.mp hc with hc | hc
          · exact hp cr' hc
          · simp only [List.mem_singleton] at hc; injection hc with hc _; exact ht hc.symm
        · rintro ⟨pre, post, e, hp⟩
          rcases List.eq_nil_or_concat post with hq | ⟨q, x, hq⟩
          · rw [hq] at e
            have := List.append_inj_right' (s₁ := as) (t₁ := [_]) e rfl
            injection this with this _; injection this with this _; exact absurd this ht
          · rw [List.concat_eq_append] at hq
            subst hq
            have e : as ++ [.registerOutput t f] = (pre ++ .registerOutput t' cr :: q) ++ [x] := by simp [e]
            exact ⟨pre, q, List.append_inj_left' e rfl, fun cr' hc => hp cr' (List.mem_append_left _ hc)⟩
    · have n1 : ∀ t f, a ≠ .registerFormatter t f := fun t f e => h1 ⟨t, f, e⟩
      have n2 : ∀ t f, a ≠ .registerOutput t f := fun t f e => h2 ⟨t, f, e⟩
      have k := act_makes w a n1 n2
      exact ⟨fun t cr => by rw [k.oc]; exact (ih.1 t cr).trans (keepO n2 t cr).symm,
        fun t cr => by rw [k.fc]; exact (ih.2 t cr).trans (keepF n1 t cr).symm⟩

/-- Where an instance of the library comes from. -/
theorem instance_made {as : List Act} {w : World} (h : Steps {} as w) :
    (∀ (o : Nat) c f, w.mgr.oheap[o]? = some ⟨.managed c, f⟩ → ∃ pre w1 w2, CallAfter as pre w1 w2 ∧
      w1.mgr.oheap[o]? = none ∧ w2.mgr.oheap[o]? ≠ none ∧ ∃ cr k, Map.get w1.mgr.outCreators c.type = some cr ∧ w1.mgr.calls ≤ k ∧ k < w2.mgr.calls ∧ cr k c = .ok ()) ∧
    (∀ (i : Nat) c flag, w.mgr.fheap[i]? = some ⟨c, flag⟩ → ∃ pre w1 w2, CallAfter as pre w1 w2 ∧
      w1.mgr.fheap[i]? = none ∧ w2.mgr.fheap[i]? ≠ none ∧ ∃ cr k, Map.get w1.mgr.fmtCreators c.type = some cr ∧ w1.mgr.calls ≤ k ∧ k < w2.mgr.calls ∧ cr k c = .ok flag) := by
  induction h with
  | refl => constructor <;> (intro _ _ _ h; simp at h)
  | @tail w as a hs ok ih =>
    have k : (∀ (i : Nat) c flag, (a.run w).mgr.fheap[i]? = some ⟨c, flag⟩ → w.mgr.fheap[i]? = some ⟨c, flag⟩ ∨
        (w.mgr.fheap.length ≤ i ∧ ∃ cr k, Map.get w.mgr.fmtCreators c.type = some cr ∧ w.mgr.calls ≤ k ∧ k < (a.run w).mgr.calls ∧ cr k c = .ok flag)) ∧
      (∀ (o : Nat) c f, (a.run w).mgr.oheap[o]? = some ⟨.managed c, f⟩ → w.mgr.oheap[o]? = some ⟨.managed c, f⟩ ∨
        (w.mgr.oheap.length ≤ o ∧ ∃ cr k, Map.get w.mgr.outCreators c.type = some cr ∧ w.mgr.calls ≤ k ∧ k < (a.run w).mgr.calls ∧ cr k c = .ok ())) := by
      by_cases h1 : ∃ t f, a = .registerFormatter t f
      · obtain ⟨t, f, rfl⟩ := h1; exact ⟨fun _ _ _ h => .inl h, fun _ _ _ h => .inl h⟩
      by_cases h2 : ∃ t f, a = .registerOutput t f
      · obtain ⟨t, f, rfl⟩ := h2; exact ⟨fun _ _ _ h => .inl h, fun _ _ _ h => .inl h⟩
      have k := act_makes w a (fun t f e => h1 ⟨t, f, e⟩) (fun t f e => h2 ⟨t, f, e⟩)
      exact ⟨k.fmt, k.out⟩
    have keep : ∀ pre w1 w2, CallAfter as pre w1 w2 → CallAfter (as ++ [a]) pre w1 w2 := by
      rintro pre w1 w2 ⟨b, post, e, s, r⟩
      exact ⟨b, post ++ [a], by simp [e], s, r⟩
    constructor
    · intro o c f h
      rcases k.2 o c f h with h' | ⟨l, r⟩
      · obtain ⟨pre, w1, w2, p, q⟩ := ih.1 o c f h'
        exact ⟨pre, w1, w2, keep _ _ _ p, q⟩
      · exact ⟨as, w, a.run w, ⟨a, [], rfl, hs, rfl⟩, List.getElem?_eq_none l, by rw [h]; simp, r⟩
    · intro i c f h
      rcases k.1 i c f h with h' | ⟨l, r⟩
      · obtain ⟨pre, w1, w2, p, q⟩ := ih.2 i c f h'
        exact ⟨pre, w1, w2, keep _ _ _ p, q⟩
      · exact ⟨as, w, a.run w, ⟨a, [], rfl, hs, rfl⟩, List.getElem?_eq_none l, by rw [h]; simp, r⟩

end Log4g
