import Verif.Lemmas.Level
import Verif.Lemmas.Printf

namespace Log4g
open Spec World

theorem firstEntry_of_find {l : List CfgMap} {n : Str} {c : CfgMap}
    (h : l.find? (fun c => CfgMap.name c = n) = some c) : FirstEntry l n c := by
  rw [List.find?_eq_some_iff_append] at h
  obtain ⟨h1, pre, post, h2, h3⟩ := h
  exact ⟨pre, post, h2, by simpa using h1, by simpa using h3⟩

theorem missing_iff (l : List CfgMap) (n : Str) :
    Missing l n ↔ (l.find? (fun c => CfgMap.name c = n)).getD none = none := by
  unfold Missing
  constructor
  · intro h
    cases hf : l.find? (fun c => CfgMap.name c = n) with
    | none => rfl
    | some c =>
      cases c with
      | none => rfl
      | some c => exact absurd (firstEntry_of_find hf) (h c)
  · intro h c hc
    rw [firstEntry_find hc] at h
    simp at h

theorem find_getD_some {l : List CfgMap} {n : Str} {c : Map Str Str}
    (h : (l.find? (fun c => CfgMap.name c = n)).getD none = some c) : FirstEntry l n (some c) := by
  cases hf : l.find? (fun c => CfgMap.name c = n) with
  | none => rw [hf] at h; simp at h
  | some x => rw [hf] at h; simp at h; subst h; exact firstEntry_of_find hf

/-- An error of one round has its reason. -/
theorem one_obstacle {m : Manager} {n : Str} {e : MgrErr} (h : (m.one n).1 = .error e) : Obstacle m n e := by
  unfold Manager.one at h
  simp only at h
  split at h
  · rename_i ho
    injection h with h; subst h
    exact .noOutput ((missing_iff _ _).mpr ho)
  · rename_i ho
    obtain ⟨oc, hoc⟩ : ∃ oc, m.config.getCfgOutput n = some oc := by
      cases hc : m.config.getCfgOutput n with
      | none => exact absurd hc ho
      | some oc => exact ⟨oc, rfl⟩
    have hO := find_getD_some (show ((m.config.outputs.find? (fun c => CfgMap.name c = n)).getD none) = some oc from hoc)
    rw [hoc] at h
    split at h
    · rename_i hf
      injection h with h; subst h
      exact .noFormat hO ((missing_iff _ _).mpr hf)
    · rename_i hf
      obtain ⟨fc, hfc⟩ : ∃ fc, m.config.getCfgFormat (CfgMap.formatName (some oc)) = some fc := by
        cases hc : m.config.getCfgFormat (CfgMap.formatName (some oc)) with
        | none => exact absurd hc hf
        | some oc => exact ⟨oc, rfl⟩
      have hF := find_getD_some (show ((m.config.formats.find? (fun c => CfgMap.name c = CfgMap.formatName (some oc))).getD none) = some fc from hfc)
      rw [hfc] at h
      split at h
      · rename_i e' m' he
        injection h with h; subst h
        unfold Manager.getFormat at he
        split at he
        · rename_i hn
          injection he with he _; injection he with he; subst he
          exact .noFormatCreator hO hF hn
        · rename_i cr hcr
          split at he
          · injection he with he _; simp at he
          · split at he
            · rename_i e2 hc
              injection he with he _; injection he with he; subst he
              exact .formatCreator hO hF hcr hc
            · injection he with he _; simp at he
      · rename_i f m' he
        have hout : m'.outCreators = m.outCreators := by
          unfold Manager.getFormat at he
          split at he
          · injection he with he _; simp at he
          · split at he
            · injection he with _ he; rw [← he]
            · split at he
              · injection he with he _; simp at he
              · injection he with _ he; rw [← he]
        unfold Manager.getOutput at h
        rw [hout] at h
        split at h
        · rename_i hn
          injection h with h; subst h
          exact .noOutputCreator hO hF hn
        · rename_i cr hcr
          split at h
          · simp at h
          · split at h
            · rename_i e2 hc
              injection h with h; subst h
              exact .outputCreator hO hF hcr hc
            · simp at h

theorem resolved_named {m : Manager} (inv : MgrInv m) {names : List Str} {ops : List Nat} (h : Resolved m names ops) :
    OutputsNamed m names ops := by
  unfold Resolved at h
  refine ⟨by have := congrArg List.length h; simpa using this, ?_⟩
  intro i n o hn ho
  have h1 : (names.map (Map.get m.outputs))[i]? = (ops.map some)[i]? := by rw [h]
  simp [hn, ho] at h1
  exact inv.outOk _ _ h1

theorem configured_entry {w : World} (inv : WInv w) {n : Str} {r : Nat} (hn : Map.get w.loggers n = some r) {e : CfgLogger}
    (h : Configured w r e) : HasEntry w n e := by
  obtain ⟨l, a, b, c⟩ := h
  exact ⟨l, loggerAt_of_get hn a, b ▸ Level.named_levelFrom _, resolved_named inv.mgr c⟩

/-! ## New instances are built from the current definitions -/

def NewOk (m m' : Manager) : Prop :=
  ∀ (o : Nat) c f, m.oheap.length ≤ o → m'.oheap[o]? = some ⟨.managed c, f⟩ → FirstEntry m.config.outputs c.name c

theorem NewOk.trans {a b c : Manager} (g1 : Grow a b) (g2 : Grow b c) (h1 : NewOk a b) (h2 : NewOk b c) : NewOk a c := by
  intro o cfg f ho hget
  rcases Nat.lt_or_ge o b.oheap.length with hlt | hge
  · have : b.oheap[o]? = some ⟨.managed cfg, f⟩ := by
      have hb : b.oheap[o]? = some b.oheap[o] := List.getElem?_eq_getElem hlt
      have := g2.oheap_get hb
      rw [hget] at this
      rw [hb, this]
    exact h1 o cfg f ho this
  · have := h2 o cfg f hge hget
    rwa [g1.config] at this

theorem NewOk.same {m m' : Manager} (h : m'.oheap = m.oheap) : NewOk m m' := by
  intro o c f ho hget
  rw [h, List.getElem?_eq_none ho] at hget
  simp at hget

theorem one_new (m : Manager) (inv : MgrInv m) (n : Str) : NewOk m (m.one n).2 := by
  unfold Manager.one
  simp only
  split
  · exact .same rfl
  · rename_i hne
    split
    · exact .same rfl
    · rename_i hfne
      obtain ⟨g, i, hok, hsame⟩ := getFormat_spec m inv (m.config.getCfgFormat (m.config.getCfgOutput n).formatName)
      split
      · rename_i e m1 he
        rw [he] at hsame
        exact .same hsame
      · rename_i f m1 he
        rw [he] at hsame g i
        unfold Manager.getOutput
        split
        · exact .same hsame
        · split
          · exact .same hsame
          · split
            · exact .same hsame
            · intro o c f' ho hget
              simp only at hget hsame
              rw [hsame] at hget
              rcases (getElem?_concat _ _ _ _).mp hget with h | ⟨_, h⟩
              · rw [List.getElem?_eq_none ho] at h; simp at h
              · injection h with h _; injection h with h
                cases hc : m.config.getCfgOutput n with
                | none => exact absurd hc hne
                | some oc =>
                  rw [hc] at h; subst h
                  have hF := find_getD_some (show ((m.config.outputs.find? (fun c => CfgMap.name c = n)).getD none) = some oc from hc)
                  have hname : CfgMap.name (some oc) = n := by
                    obtain ⟨_, _, _, h, _⟩ := hF; exact h
                  rw [hname]; exact hF

theorem loop_new (m : Manager) (inv : MgrInv m) (names : List Str) : NewOk m (m.loop names).2 := by
  induction names generalizing m with
  | nil => exact .same rfl
  | cons n ns ih =>
    have h1 := one_new m inv n
    obtain ⟨g, i, _⟩ := one_spec m inv n
    simp only [Manager.loop]
    split
    · rename_i e m1 he
      rw [he] at h1; exact h1
    · rename_i o m1 he
      rw [he] at h1 g i
      have h2 := ih m1 i
      obtain ⟨g2, _, _⟩ := loop_spec m1 i ns
      split
      · rename_i e m2 he2
        rw [he2] at h2 g2
        exact h1.trans g g2 h2
      · rename_i os m2 he2
        rw [he2] at h2 g2
        exact h1.trans g g2 h2

theorem getLoggerOutputs_new (m : Manager) (inv : MgrInv m) (name : Str) : NewOk m (m.getLoggerOutputs name).2 := by
  unfold Manager.getLoggerOutputs
  split
  · exact .same rfl
  · rename_i lc _
    have := loop_new m inv lc.outputNames
    split
    · rename_i e m1 he; rw [he] at this; exact this
    · rename_i ops m1 he; rw [he] at this; exact this

theorem configure_mgr (w : World) (r : Nat) (name : Str) :
    (w.configure r name).mgr = (w.mgr.getLoggerOutputs name).2 := by
  unfold configure
  split <;> (rename_i he; rw [he])
  rfl

theorem notify_new {w : World} (inv : WInv w) (order : List Nat) : NewOk w.mgr (w.notify order).mgr := by
  induction order generalizing w with
  | nil => exact .same rfl
  | cons r rs ih =>
    simp only [notify]
    split
    · exact ih inv
    · rename_i l hl
      have cs := configure_spec inv r l.name
      have h1 : NewOk w.mgr (w.configure r l.name).mgr := by
        rw [configure_mgr]; exact getLoggerOutputs_new _ inv.mgr _
      exact h1.trans cs.grow (notify_spec cs.inv rs).2.2.1 (ih cs.inv)

/-! ## The root logger is left alone while other loggers are made -/

theorem create_keeps (w : World) (name : Str) (p : Option Nat) {r : Nat} {l : Logger} (h : w.heap[r]? = some l) :
    (w.createLogger name p).2.heap[r]? = some l := by
  unfold createLogger
  split
  · exact h
  · exact (getElem?_concat _ _ _ _).mpr (.inl h)

theorem parentLoop_keeps (w : World) (p : Nat) (before rest : Str) {r : Nat} {l : Logger} (h : w.heap[r]? = some l) :
    (w.parentLoop p before rest).2.heap[r]? = some l := by
  induction rest generalizing w p before with
  | nil => exact h
  | cons c rest ih =>
    simp only [parentLoop]
    split
    · exact ih _ _ _ (create_keeps w before (some p) h)
    · exact ih _ _ _ h

/-- What the first use of any logger makes of the root logger. -/
theorem first_use {w : World} (inv : WInv w) (hroot : w.root = none) {e : MgrErr}
    (he : (w.mgr.getLoggerOutputs rootLoggerName).1 = .error e) (n : Str) :
    ∃ l o, loggerAt (w.getLogger n).2 rootLoggerName = some l ∧ l.level = Level.Debug ∧ l.outputs = [o] ∧
      (w.getLogger n).2.mgr.oheap[o]? = some { origin := .console, fmt := none } := by
  obtain ⟨s, hfirst⟩ := getRootLogger_spec inv
  obtain ⟨l, o, hheap, hlvl, hout, hcon⟩ : ∃ l o, w.getRootLogger.2.heap = [l] ∧ l.level = Level.Debug ∧ l.outputs = [o] ∧
      w.getRootLogger.2.mgr.oheap[o]? = some { origin := .console, fmt := none } := by
    cases hfirst hroot with
    | fallback l o e _ h1 h2 h3 h4 => exact ⟨l, o, h1, h2, h3, h4⟩
    | entry l e' x h1 => rw [he] at h1; simp at h1
  obtain ⟨hh, hlg⟩ := root_create_inv inv hroot
  have hr0 : w.getRootLogger.1 = 0 := by
    obtain ⟨l', h1, _⟩ := s.inv.named _ _ s.get
    rw [hheap] at h1
    cases hr : w.getRootLogger.1 with
    | zero => rfl
    | succ k => rw [hr] at h1; simp at h1
  have hl0 : w.getRootLogger.2.heap[w.getRootLogger.1]? = some l := by rw [hr0, hheap]; rfl
  unfold getLogger
  by_cases hn : n = [] ∨ n = rootLoggerName
  · rw [if_pos hn]
    exact ⟨l, o, loggerAt_of_get s.get hl0, hlvl, hout, hcon⟩
  · rw [if_neg hn]
    simp only [not_or] at hn
    have hg : Map.get w.loggers n = none := by rw [hlg]; rfl
    simp only [hg]
    obtain ⟨lr, h1, h2⟩ := s.inv.named _ _ s.get
    obtain ⟨i, x, ⟨lq, h3, h4⟩, hm⟩ := parentLoop_spec s.inv h1 [] n (by rw [h2]; exact parentOf_nil)
    have k1 := parentLoop_keeps w.getRootLogger.2 w.getRootLogger.1 [] n hl0
    simp only [List.nil_append] at h4
    simp only [getParent]
    generalize hw1 : w.getRootLogger.2.parentLoop w.getRootLogger.1 [] n = pw at i x h3 hm k1
    obtain ⟨p, w1⟩ := pw
    simp only at i x h3 hm k1 ⊢
    obtain ⟨i2, x2, hget, hm2⟩ := create_inv i h3 h4 hn.1 hn.2
    have k2 := create_keeps w1 n (some p) k1
    generalize hw2 : w1.createLogger n (some p) = rw2 at i2 x2 hget hm2 k2
    obtain ⟨r, w2⟩ := rw2
    simp only at i2 x2 hget hm2 k2 ⊢
    have cs := configure_spec i2 r n
    have hrootget := x2.loggers _ _ (x.loggers _ _ s.get)
    have hrne : w.getRootLogger.1 ≠ r := by
      intro e
      obtain ⟨la, a1, a2⟩ := i2.named _ _ hrootget
      obtain ⟨lb, b1, b2⟩ := i2.named _ _ hget
      rw [e, b1] at a1; injection a1 with a1
      rw [← a1, b2] at a2
      exact hn.2 a2
    have k3 : (w2.configure r n).heap[w.getRootLogger.1]? = some l := by
      rw [cs.other _ hrne]; exact k2
    refine ⟨l, o, loggerAt_of_get (by rw [cs.loggers]; exact hrootget) k3, hlvl, hout, ?_⟩
    refine cs.grow.oheap_get ?_
    rw [hm2, hm]; exact hcon

end Log4g

namespace Log4g
open Spec World

theorem getFormat_defined {m : Manager} {fc : CfgMap} {f : Nat} (h : (m.getFormat fc).1 = .ok f) :
    (∃ cr, Map.get m.fmtCreators fc.type = some cr) ∧ (m.getFormat fc).2.outCreators = m.outCreators := by
  unfold Manager.getFormat at h ⊢
  split at h
  · simp at h
  · rename_i cr hcr
    refine ⟨⟨cr, hcr⟩, ?_⟩
    split
    · rfl
    · split <;> rfl

theorem getOutput_defined {m : Manager} {oc : CfgMap} {f o : Nat} (h : (m.getOutput oc f).1 = .ok o) :
    ∃ cr, Map.get m.outCreators oc.type = some cr := by
  unfold Manager.getOutput at h
  split at h
  · simp at h
  · rename_i cr hcr
    exact ⟨cr, hcr⟩

theorem one_defined {m : Manager} {n : Str} {o : Nat} (h : (m.one n).1 = .ok o) : Defined m n := by
  unfold Manager.one at h
  simp only at h
  cases hoc : m.config.getCfgOutput n with
  | none => rw [hoc] at h; simp at h
  | some oc =>
    have hO := find_getD_some (show ((m.config.outputs.find? (fun c => CfgMap.name c = n)).getD none) = some oc from hoc)
    rw [hoc] at h
    rw [if_neg (by simp)] at h
    cases hfc : m.config.getCfgFormat (CfgMap.formatName (some oc)) with
    | none => rw [hfc] at h; simp at h
    | some fc =>
      have hF := find_getD_some (show ((m.config.formats.find? (fun c => CfgMap.name c = CfgMap.formatName (some oc))).getD none) = some fc from hfc)
      rw [hfc] at h
      rw [if_neg (by simp)] at h
      split at h
      · simp at h
      · rename_i f m1 he
        obtain ⟨hcr, hsame⟩ := getFormat_defined (m := m) (fc := some fc) (f := f) (by rw [he])
        rw [he] at hsame
        obtain ⟨cr, hocr⟩ := getOutput_defined h
        simp only at hsame
        rw [hsame] at hocr
        exact ⟨oc, fc, hO, hF, by obtain ⟨x, hx⟩ := hcr; simp [hx], by simp [hocr]⟩

theorem defined_congr {m m' : Manager} (g : Grow m m') {n : Str} (h : Defined m' n) : Defined m n := by
  unfold Defined at *; rw [g.config, g.fmtCreators, g.outCreators] at h; exact h

theorem obstacle_congr {m m' : Manager} (g : Grow m m') {n : Str} {e : MgrErr} (h : Obstacle m' n e) : Obstacle m n e := by
  cases h with
  | noOutput h => exact .noOutput (by rw [← g.config]; exact h)
  | noFormat h h' => exact .noFormat (by rw [← g.config]; exact h) (by rw [← g.config]; exact h')
  | noFormatCreator h h' c => exact .noFormatCreator (by rw [← g.config]; exact h) (by rw [← g.config]; exact h') (by rw [← g.fmtCreators]; exact c)
  | formatCreator h h' c d => exact .formatCreator (by rw [← g.config]; exact h) (by rw [← g.config]; exact h') (by rw [← g.fmtCreators]; exact c) d
  | noOutputCreator h h' c => exact .noOutputCreator (by rw [← g.config]; exact h) (by rw [← g.config]; exact h') (by rw [← g.outCreators]; exact c)
  | outputCreator h h' c d => exact .outputCreator (by rw [← g.config]; exact h) (by rw [← g.config]; exact h') (by rw [← g.outCreators]; exact c) d

theorem loop_defined {m : Manager} (inv : MgrInv m) {names : List Str} {ops : List Nat} (h : (m.loop names).1 = .ok ops) :
    ∀ n ∈ names, Defined m n := by
  induction names generalizing m ops with
  | nil => simp
  | cons n ns ih =>
    simp only [Manager.loop] at h
    obtain ⟨g, i, _⟩ := one_spec m inv n
    split at h
    · simp at h
    · rename_i o m1 he
      rw [he] at g i
      split at h
      · simp at h
      · rename_i os m2 he2
        intro k hk
        rcases List.mem_cons.mp hk with rfl | hk
        · exact one_defined (by rw [he])
        · exact defined_congr g (ih i (ops := os) (by rw [he2]) k hk)

/-- The state after an error still has the instances made before the obstacle. -/
theorem loop_obstacle {m : Manager} (inv : MgrInv m) {names : List Str} {e : MgrErr} (h : (m.loop names).1 = .error e) :
    ∃ pre n post, names = pre ++ n :: post ∧ Obstacle m n e ∧
      ∀ x ∈ pre, ∃ o, InstanceOf (m.loop names).2 x o := by
  induction names generalizing m with
  | nil => simp [Manager.loop] at h
  | cons n ns ih =>
    simp only [Manager.loop] at h ⊢
    obtain ⟨g, i, hok⟩ := one_spec m inv n
    split at h
    · rename_i e' m' he
      injection h with h; subst h
      exact ⟨[], n, ns, rfl, one_obstacle (by rw [he]), by simp⟩
    · rename_i o m' he
      rw [he] at g i hok
      simp only at g i
      split at h
      · rename_i e' m2 he2
        injection h with h; subst h
        obtain ⟨pre, k, post, h1, h2, h3⟩ := ih i (by rw [he2])
        obtain ⟨g2, i2, _⟩ := loop_spec m' i ns
        rw [he2] at g2 i2 h3
        refine ⟨n :: pre, k, post, by rw [h1]; rfl, obstacle_congr g h2, ?_⟩
        simp only
        intro x hx
        rcases List.mem_cons.mp hx with rfl | hx
        · refine ⟨o, ?_⟩
          have := hok o rfl
          exact i2.outOk _ _ (g2.outputs _ _ this)
        · exact h3 x hx
      · simp at h

theorem getLogger_new_root {w : World} (inv : WInv w) {n : Str} (hn : n = [] ∨ n = rootLoggerName)
    (hroot : w.root = none) {e : CfgLogger} (he : FirstLogger w.mgr.config rootLoggerName e)
    (hc : ∀ k ∈ e.outputNames, Creatable w.mgr k) : HasEntry (w.getLogger n).2 rootLoggerName e := by
  obtain ⟨s, hfirst⟩ := getRootLogger_spec inv
  have e1 : w.getLogger n = w.getRootLogger := by unfold getLogger; rw [if_pos hn]
  rw [e1]
  cases hfirst hroot with
  | fallback l o er h1 =>
    obtain ⟨ops, ho⟩ := getLoggerOutputs_ok inv.mgr he hc
    rw [h1] at ho; simp at ho
  | entry l e' x hx h1 h2 h3 h4 =>
    have : e' = e := by
      have a := (firstLogger_iff _ _ _).mpr he
      have b := (firstLogger_iff _ _ _).mpr h1
      rw [a] at b; exact (Option.some.inj b).symm
    subst this
    obtain ⟨l', a, _⟩ := s.inv.named _ _ s.get
    have hl : w.getRootLogger.2.heap[w.getRootLogger.1]? = some l := by
      rw [h2] at a ⊢
      cases hr : w.getRootLogger.1 with
      | zero => rfl
      | succ k => rw [hr] at a; simp at a
    exact ⟨l, loggerAt_of_get s.get hl, h3 ▸ Level.named_levelFrom _, resolved_named s.inv.mgr h4⟩

theorem instance_unique {w : World} (inv : WInv w) {n : Str} {o o' : Nat} (h : InstanceOf w.mgr n o) (h' : InstanceOf w.mgr n o') :
    o = o' := by
  obtain ⟨c, f, a, b⟩ := h
  obtain ⟨c', f', a', b'⟩ := h'
  have x := (inv.mgr.managed _ _ _ a).1
  have x' := (inv.mgr.managed _ _ _ a').1
  rw [nameIn_eq] at b b'
  rw [b] at x; rw [b', x] at x'
  exact Option.some.inj x'

theorem split_unique' {c : Char} {a b a' b' : Str} (h : a ++ c :: b = a' ++ c :: b') (hb : c ∉ b) (hb' : c ∉ b') :
    a = a' ∧ b = b' := by
  rcases List.append_eq_append_iff.mp h with ⟨x, h1, h2⟩ | ⟨x, h1, h2⟩
  · cases x with
    | nil => simp at h1 h2; exact ⟨h1.symm, h2⟩
    | cons y ys =>
      simp only [List.cons_append, List.cons.injEq] at h2
      exact absurd (by rw [h2.2]; simp) hb
  · cases x with
    | nil => simp at h1 h2; exact ⟨h1, h2.symm⟩
    | cons y ys =>
      simp only [List.cons_append, List.cons.injEq] at h2
      exact absurd (by rw [h2.2]; simp) hb'

/-- The extension of a path: what is left behind the last dot of the last element. -/
theorem afterLast_at {c : Char} (x : Str) {y : Str} (h : c ∉ y) : afterLast c (x ++ c :: y) = x.length + 1 := by
  rcases afterLast_spec c (x ++ c :: y) with ⟨_, hn⟩ | ⟨d, rest, e, hn, h2⟩
  · exact absurd (by simp) hn
  · rw [h2, (split_unique' e h hn).1]

theorem afterLast_none {c : Char} {x : Str} (h : c ∉ x) : afterLast c x = 0 := by
  rcases afterLast_spec c x with ⟨h2, _⟩ | ⟨d, rest, e, _, _⟩
  · exact h2
  · exact absurd (by rw [e]; simp) h

/-- The extension of a file name. -/
theorem pathExt_some {dir stem ext : Str} (hdir : dir = [] ∨ ∃ p, dir = p ++ ['/']) (hs : '/' ∉ stem) (he : '/' ∉ ext) (hd : '.' ∉ ext) :
    pathExt (dir ++ stem ++ '.' :: ext) = '.' :: ext := by
  have hb : '/' ∉ stem ++ '.' :: ext := by simp [hs, he]
  have hbase : (dir ++ stem ++ '.' :: ext).drop (afterLast '/' (dir ++ stem ++ '.' :: ext)) = stem ++ '.' :: ext := by
    rcases hdir with rfl | ⟨p, rfl⟩
    · rw [List.nil_append, afterLast_none hb, List.drop_zero]
    · have e : p ++ ['/'] ++ stem ++ '.' :: ext = p ++ '/' :: (stem ++ '.' :: ext) := by simp
      rw [e, afterLast_at p hb]
      simp [List.drop_append]
  unfold pathExt
  simp only [hbase]
  rw [if_pos (by simp), afterLast_at stem hd]
  simp

theorem pathExt_nil (file : Str) :
    pathExt file = [] ↔ ∃ dir base, file = dir ++ base ∧ (dir = [] ∨ ∃ d, dir = d ++ ['/']) ∧ '/' ∉ base ∧ '.' ∉ base := by
  unfold pathExt
  simp only
  rcases afterLast_spec '/' file with ⟨h, hn⟩ | ⟨d, rest, e, hn, h⟩
  · rw [h, List.drop_zero]
    constructor
    · intro hx
      split at hx
      · rename_i hd
        rcases afterLast_spec '.' file with ⟨h2, hn2⟩ | ⟨d2, rest2, e2, hn2, h2⟩
        · exact absurd hd hn2
        · rw [h2, e2] at hx; simp at hx
      · rename_i hd
        exact ⟨[], file, rfl, .inl rfl, hn, hd⟩
    · rintro ⟨dir, base, e, hdir, hb, hd⟩
      rcases hdir with rfl | ⟨d, rfl⟩
      · simp only [List.nil_append] at e; subst e; rw [if_neg hd]
      · exact absurd (by rw [e]; simp) hn
  · have hdrop : file.drop (afterLast '/' file) = rest := by
      rw [h, e]; simp [List.drop_append]
    rw [hdrop]
    constructor
    · intro hx
      split at hx
      · rename_i hd
        rcases afterLast_spec '.' rest with ⟨h2, hn2⟩ | ⟨d2, rest2, e2, hn2, h2⟩
        · exact absurd hd hn2
        · rw [h2, e2] at hx; simp at hx
      · rename_i hd
        exact ⟨d ++ ['/'], rest, by rw [e]; simp, .inr ⟨d, rfl⟩, hn, hd⟩
    · rintro ⟨dir, base, e', hdir, hb, hd⟩
      have : base = rest := by
        rcases hdir with rfl | ⟨d', rfl⟩
        · exfalso; apply hb
          have : base = d ++ '/' :: rest := by rw [← e, e']; rfl
          rw [this]; simp
        · have h1 : d' ++ '/' :: base = d ++ '/' :: rest := by rw [← e, e']; simp
          exact (split_unique' h1 hb hn).2
      rw [this] at hd; rw [if_neg hd]

end Log4g

namespace Log4g
open Spec World

/-- The same manager with another configuration. -/
def Manager.withC (m : Manager) (c : Config) : Manager := { m with config := c }

theorem getFormat_config (m : Manager) (c : Config) (fc : CfgMap) :
    m.getFormat fc = (((m.withC c).getFormat fc).1, ((m.withC c).getFormat fc).2.withC m.config) := by
  simp only [Manager.getFormat, Manager.withC]
  split
  · rfl
  · split
    · rfl
    · split <;> rfl

theorem getOutput_config (m : Manager) (c : Config) (oc : CfgMap) (f : Nat) :
    m.getOutput oc f = (((m.withC c).getOutput oc f).1, ((m.withC c).getOutput oc f).2.withC m.config) := by
  simp only [Manager.getOutput, Manager.withC]
  split
  · rfl
  · split
    · rfl
    · split <;> rfl

theorem getFormat_same (m : Manager) (fc : CfgMap) : (m.getFormat fc).2.config = m.config := by
  unfold Manager.getFormat
  split
  · rfl
  · split
    · rfl
    · split <;> rfl

theorem getOutput_same (m : Manager) (oc : CfgMap) (f : Nat) : (m.getOutput oc f).2.config = m.config := by
  unfold Manager.getOutput
  split
  · rfl
  · split
    · rfl
    · split <;> rfl

theorem one_same (m : Manager) (n : Str) : (m.one n).2.config = m.config := by
  simp only [Manager.one]
  split
  · rfl
  · split
    · rfl
    · have h := getFormat_same m (m.config.getCfgFormat (m.config.getCfgOutput n).formatName)
      split
      · rename_i he; rw [he] at h; exact h
      · rename_i he; rw [he] at h; rw [getOutput_same]; exact h

theorem one_config (m : Manager) (c : Config) (hf : c.formats = m.config.formats) (ho : c.outputs = m.config.outputs)
    (n : Str) : m.one n = (((m.withC c).one n).1, ((m.withC c).one n).2.withC m.config) := by
  have h1 : (m.withC c).config.getCfgOutput n = m.config.getCfgOutput n := by
    simp only [Manager.withC, Config.getCfgOutput, ho]
  have h2 : ∀ k, (m.withC c).config.getCfgFormat k = m.config.getCfgFormat k := by
    intro k; simp only [Manager.withC, Config.getCfgFormat, hf]
  simp only [Manager.one, h1, h2]
  split
  · rfl
  · split
    · rfl
    · have h3 := getFormat_config m c (m.config.getCfgFormat (m.config.getCfgOutput n).formatName)
      have h4 := (getFormat_same (m.withC c) (m.config.getCfgFormat (m.config.getCfgOutput n).formatName))
      rw [h3]
      generalize (m.withC c).getFormat (m.config.getCfgFormat (m.config.getCfgOutput n).formatName) = g at h4
      obtain ⟨a, b⟩ := g
      cases a with
      | error e => rfl
      | ok f =>
        simp only at h4 ⊢
        rw [getOutput_config (b.withC m.config) c]
        simp only [Manager.withC] at h4 ⊢
        cases b; simp only at h4; subst h4; rfl

/-- The logger entries of the configuration play no part in the making of outputs. -/
theorem loop_config (m : Manager) (c : Config) (hf : c.formats = m.config.formats) (ho : c.outputs = m.config.outputs)
    (names : List Str) : m.loop names = (((m.withC c).loop names).1, ((m.withC c).loop names).2.withC m.config) := by
  induction names generalizing m with
  | nil => rfl
  | cons n ns ih =>
    simp only [Manager.loop]
    have hs := one_same (m.withC c) n
    rw [one_config m c hf ho n]
    generalize (m.withC c).one n = g at hs
    obtain ⟨a, b⟩ := g
    cases a with
    | error e => rfl
    | ok o =>
      simp only at hs ⊢
      have e : (b.withC m.config).loop ns = ((b.loop ns).1, (b.loop ns).2.withC m.config) := by
        have h := ih (b.withC m.config) hf ho
        have e2 : (b.withC m.config).withC c = b := by
          cases b; simp only [Manager.withC] at hs ⊢; rw [hs]
        rw [e2] at h
        exact h
      rw [e]
      generalize b.loop ns = g
      obtain ⟨a, b⟩ := g
      cases a <;> rfl

end Log4g
