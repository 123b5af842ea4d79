import Verif.Lemmas.MachineRuns

/-! # Programs and their files: writes come to an end -/

namespace Log4g
open Spec Strconv
open scoped List
variable {V : Type} {env : PEnv V} {host : Host} {up : Nat → Bool} {v0 : Nat → Volume} {tr : List (MLab V)} {m : Machine V}

/-- The writer has a file open when it needs one. -/
def Ready (c : RCfg) (x : Scribe) : Prop :=
  ∃ b, (b = true → x.fd ≠ none) ∧
    match x.job with
    | none => Settled c b x.rw
    | some (_, p) => p.Tidy c (fun b br => Settled c b br.2) b

theorem ready_new (c : RCfg) : Ready c {} := ⟨false, by simp, rfl, fun h => by cases h⟩

theorem fd_step {umask : Nat} {c : RCfg} {b : Bool} {v v' : Volume} {h h' : Option Nat} {o : Sys} {r : o.Resp} (hm : c.may b o) (hh : b = true → h ≠ none)
    (hs : VolStep umask v h o r v' h') : opens b o r = true → h' ≠ none := by
  cases o <;> simp only [RCfg.may] at hm <;> simp only [VolStep] at hs <;> simp only [opens] <;> intro ho
  case openAppend n p =>
    split at hs
    · split at hs
      · rw [hs.2.2]; simp
      · rw [hs.2]; simp
      · exact hs.elim
    · rename_i e; rw [if_neg e] at ho; rw [hs.2]; exact hh ho
  case close n => cases ho
  case mkdirAll => rw [hs.2]; exact hh ho
  case stat => rw [hs.2.1]; exact hh ho
  case write => rw [hs.1]; exact hh ho
  case readdir => rw [hs.2.1]; exact hh ho
  case rename => rw [hs.1]; exact hh ho
  case chmod => rw [hs.1]; exact hh ho
  case remove => rw [hs.1]; exact hh ho
  case now => rw [hs.2]; exact hh ho
  case tmpCreate => rw [hs.1]; exact hh ho
  case archRead => rw [hs.2.1]; exact hh ho
  case tmpClose => rw [hs.2]; exact hh ho
  case tmpRemove => rw [hs.2]; exact hh ho

/-- The operating system has an answer. -/
theorem vol_answers {umask : Nat} {c : RCfg} {b : Bool} (v : Volume) {h : Option Nat} {o : Sys} (hm : c.may b o) (hh : b = true → h ≠ none) :
    ∃ r v' h', VolStep umask v h o r v' h' := by
  cases o <;> simp only [RCfg.may] at hm
  case mkdirAll p => exact ⟨false, v, h, rfl, rfl⟩
  case openAppend n p => exact ⟨false, v, h, rfl, rfl⟩
  case stat n => exact ⟨none, v, h, rfl, rfl, trivial⟩
  case write n bs =>
    cases h with
    | none => exact absurd rfl (hh hm.2)
    | some k => exact ⟨(0, false), _, some k, rfl, k, rfl, by simp, by simp, rfl⟩
  case close n => exact ⟨false, v, none, rfl, rfl⟩
  case readdir => exact ⟨none, v, h, rfl, rfl, trivial⟩
  case rename x y => exact ⟨false, v, h, rfl, rfl⟩
  case chmod n p => exact ⟨false, v, h, rfl, rfl⟩
  case remove n => exact ⟨false, v, h, rfl, rfl⟩
  case now => exact ⟨0, v, h, rfl, rfl⟩
  case tmpCreate => exact ⟨false, v, h, rfl, .inl rfl⟩
  case archRead => exact ⟨.failed, v, h, rfl, rfl, rfl⟩
  case tmpClose => exact ⟨false, v, h, rfl, rfl⟩
  case tmpRemove => exact ⟨false, v, h, rfl, rfl⟩

theorem ready_exec (h : MExec env host (newMachine up v0) tr m) : ∀ o c, m.p.w.rollOf env.tc o = some c → Ready c (m.wr o) := by
  generalize e : newMachine up v0 = m0 at h
  induction h with
  | nil => subst e; exact fun o c _ => ready_new c
  | @snoc tr m1 l m2 h1 h2 ih =>
    subst e
    have inv := mexec_inv h1
    have old : ∀ {p : PState V} {l : PLab V}, PStep env m1.p l p → ∀ o c, p.w.rollOf env.tc o = some c → Ready c (m1.wr o) := by
      intro p l hp o c ho
      cases e : m1.p.w.rollOf env.tc o with
      | none => rw [(inv.idle o e).1]; exact ready_new c
      | some c' =>
        have := roll_ext (ext_step (pexec_inv inv.prog) hp) e
        rw [ho] at this; cases this
        exact ih o c e
    cases h2 with
    | prog hp _ _ => exact old hp
    | @write l p o c bs hp _ ho _ _ hj =>
      intro q c' hq
      simp only [Machine.setWr]
      split
      · rename_i e; subst e
        have hq' : p.w.rollOf env.tc q = some c' := hq
        rw [ho] at hq'; cases hq'
        obtain ⟨b, k1, k2⟩ := old hp q c ho
        rw [hj] at k2
        exact ⟨b, k1, tidy_write (.inr (rollOf_usual ho).2) k2⟩
      · exact old hp q c' hq
    | @sys o c msg op k r v' h' _ ho hj hv =>
      intro q c' hq
      simp only [Machine.setWr]
      split
      · rename_i e; subst e
        have hq' : m1.p.w.rollOf env.tc q = some c' := hq
        rw [ho] at hq'; cases hq'
        obtain ⟨b, k1, k2⟩ := ih q c ho
        rw [hj] at k2
        exact ⟨opens b op r, fd_step k2.1 k1 hv, (k2.2 r (vol_sane hv)).2⟩
      · exact ih q c' hq
    | @done o c msg res rw' _ ho hj =>
      intro q c' hq
      simp only [Machine.setWr]
      split
      · rename_i e; subst e
        have hq' : m1.p.w.rollOf env.tc q = some c' := hq
        rw [ho] at hq'; cases hq'
        obtain ⟨b, k1, k2⟩ := ih q c ho
        rw [hj] at k2
        exact ⟨b, k1, k2⟩
      · exact ih q c' hq

theorem answered_nil (os : Answers V) (tr0 : List (MLab V)) : AnsweredBy os tr0 [] := by
  intro a k o op r b h; simp at h

theorem answered_append {os : Answers V} {tr0 a b : List (MLab V)} (h1 : AnsweredBy os tr0 a) (h2 : AnsweredBy os (tr0 ++ a) b) : AnsweredBy os tr0 (a ++ b) := by
  intro x k o op r y h
  rcases List.append_eq_append_iff.mp h with ⟨z, e1, e2⟩ | ⟨z, e1, e2⟩
  · have := h2 z k o op r y e2
    rw [List.append_assoc, ← e1] at this; exact this
  · cases z with
    | nil =>
      have := h2 [] k o op r y (by simpa using e2.symm)
      simp only [List.append_nil] at this e1
      rw [e1] at this; exact this
    | cons w z =>
      simp only [List.cons_append, List.cons.injEq] at e2
      obtain ⟨rfl, _⟩ := e2
      exact h1 x k o op r z e1

theorem answered_one {os : Answers V} {tr0 : List (MLab V)} {l : MLab V} (h : ∀ k o op r, l = .sys k o ⟨op, r⟩ → r = os tr0 o op) : AnsweredBy os tr0 [l] := by
  intro a k o op r b e
  cases a with
  | nil =>
    simp only [List.nil_append, List.cons.injEq] at e
    rw [List.append_nil]; exact h k o op r e.1
  | cons x a => simp at e

variable {os : Answers V} {o : Nat} {c : RCfg}

/-- A write comes to an end, whatever the operating system answers. -/
theorem finish_one (hos : PossibleAnswers env host up v0 os) {msg : Bytes} (p : Prog ((Nat × Bool) × RW)) :
    ∀ {tr : List (MLab V)} {m : Machine V}, MExec env host (newMachine up v0) tr m → m.p.panicked = false → m.p.w.rollOf env.tc o = some c →
    (m.wr o).job = some (msg, p) → ∃ mtr m', MExec env host m mtr m' ∧ progOf mtr = [] ∧ AnsweredBy os tr mtr ∧ m'.p = m.p ∧ (m'.wr o).job = none ∧
      ∀ q, q ≠ o → m'.wr q = m.wr q := by
  induction p with
  | ret x =>
    intro tr m h hp ho hj
    refine ⟨_, _, MExec.nil.snoc (MStep.done hp ho hj), rfl, answered_one (by simp), rfl, ?_, fun q hq => ?_⟩
    · simp [Machine.setWr]
    · simp only [Machine.setWr, if_neg hq]
  | call op k ih =>
    intro tr m h hp ho hj
    obtain ⟨b, k1, k2⟩ := ready_exec h o c ho
    rw [hj] at k2
    obtain ⟨v', h', hv⟩ := hos tr m h o c msg op k (rolling_iff.mpr ho) hj (vol_answers _ k2.1 k1)
    have st := MStep.sys (host := host) hp ho hj hv
    obtain ⟨mtr, m', g1, g2, g3, g4, g5, g6⟩ := ih _ (h.snoc st) hp ho (by simp [Machine.setWr]; rfl)
    refine ⟨_, m', (MExec.nil.snoc st).trans g1, by rw [progOf_append, g2]; rfl, answered_append (answered_one ?_) g3, g4, g5, fun q hq => ?_⟩
    · intro k' o' op' r' e; cases e; rfl
    · rw [g6 q hq]; simp only [Machine.setWr, if_neg hq]

/-- All writes come to an end. -/
theorem finish_all (hos : PossibleAnswers env host up v0 os) (h : MExec env host (newMachine up v0) tr m) (hp : m.p.panicked = false) :
    ∃ mtr m', MExec env host m mtr m' ∧ progOf mtr = [] ∧ AnsweredBy os tr mtr ∧ m'.p = m.p ∧ Calm m' := by
  have key : ∀ n, ∃ mtr m', MExec env host m mtr m' ∧ progOf mtr = [] ∧ AnsweredBy os tr mtr ∧ m'.p = m.p ∧ ∀ o, o < n → (m'.wr o).job = none := by
    intro n
    induction n with
    | zero => exact ⟨[], m, .nil, rfl, answered_nil _ _, rfl, fun o ho => absurd ho (Nat.not_lt_zero _)⟩
    | succ n ih =>
      obtain ⟨mtr, m', g1, g2, g3, g4, g5⟩ := ih
      cases hj : (m'.wr n).job with
      | none =>
        refine ⟨mtr, m', g1, g2, g3, g4, fun o ho => ?_⟩
        rcases Nat.lt_succ_iff_lt_or_eq.mp ho with h | rfl
        · exact g5 o h
        · exact hj
      | some x =>
        have hx := h.trans g1
        have hr : ∃ c, m'.p.w.rollOf env.tc n = some c := by
          cases e : m'.p.w.rollOf env.tc n with
          | none => rw [((mexec_inv hx).idle n e).1] at hj; cases hj
          | some c => exact ⟨c, rfl⟩
        obtain ⟨c, hr⟩ := hr
        obtain ⟨mtr2, m2, k1, k2, k3, k4, k5, k6⟩ := finish_one hos (msg := x.1) x.2 hx (by rw [g4]; exact hp) hr hj
        refine ⟨_, m2, g1.trans k1, by rw [progOf_append, g2, k2]; rfl, answered_append g3 k3, k4.trans g4, fun o ho => ?_⟩
        rcases Nat.lt_succ_iff_lt_or_eq.mp ho with h | rfl
        · rw [k6 o (by omega)]; exact g5 o h
        · exact k5
  obtain ⟨mtr, m', g1, g2, g3, g4, g5⟩ := key m.p.w.mgr.oheap.length
  refine ⟨mtr, m', g1, g2, g3, g4, calm_of (mexec_inv (h.trans g1)) fun o c ho => g5 o ?_⟩
  rw [g4] at ho; exact rollOf_lt ho

theorem send_le (w : World) (tc : Toolchain) (lib : Lib V) (stack : List Frame) (other : Nat → Formatter V) (d : World.Delivery V) : (w.sendWrites tc lib stack other d).length ≤ 1 := by
  have hb : ∀ (b : BaseOutput V), b.w = [] → (b.send lib d.evt).w.length ≤ 1 := by
    intro b hb
    unfold BaseOutput.send
    split
    · simp [hb]
    · split <;> simp [hb]
  unfold World.sendWrites
  split
  · simp
  · dsimp only
    split <;> first | exact hb _ rfl | simp

/-- A step gives one thing to a writer, or none. -/
theorem given_le {tr : List (PLab V)} {s s' : PState V} {l : PLab V} (h : PExec env (newProgram up) tr s) (hs : PStep env s l s') (o : Nat) :
    s'.given env o = s.given env o ∨ ∃ bs, s'.given env o = s.given env o ++ [bs] := by
  rcases given_step h hs o with k | ⟨t, e, stack, _, _, _, _, k⟩ | ⟨_, _, bs, _, _, _, _, _, k⟩
  · exact .inl k
  · have := send_le s.w env.tc env.lib stack env.other ⟨o, e⟩
    match hw : s.w.sendWrites env.tc env.lib stack env.other ⟨o, e⟩, this with
    | [], _ => left; rw [k, hw, List.append_nil]
    | [bs], _ => right; exact ⟨bs, by rw [k, hw]⟩
  · exact .inr ⟨bs, k⟩

/-- A step of the program, and the write it may begin. -/
theorem step_lift (hos : PossibleAnswers env host up v0 os) (h : MExec env host (newMachine up v0) tr m) (hc : Calm m) {l : PLab V} {p : PState V} (hs : PStep env m.p l p)
    (hp : p.panicked = false) :
    ∃ mtr m', MExec env host m mtr m' ∧ progOf mtr = [l] ∧ AnsweredBy os tr mtr ∧ m'.p = p ∧ Calm m' := by
  have inv := mexec_inv h
  by_cases hg : ∀ o c, p.w.rollOf env.tc o = some c → p.given env o = m.p.given env o
  · exact ⟨_, _, MExec.nil.snoc (MStep.prog hs (calm_lets hc l) hg), rfl, answered_one (by simp), rfl, hc⟩
  · have : ∃ o c, p.w.rollOf env.tc o = some c ∧ p.given env o ≠ m.p.given env o := by
      apply Classical.byContradiction
      intro hn
      exact hg fun o c ho => Classical.byContradiction fun hne => hn ⟨o, c, ho, hne⟩
    obtain ⟨o, c, ho, hne⟩ := this
    rcases given_le inv.prog hs o with k | ⟨bs, k⟩
    · exact absurd k hne
    · have st := MStep.write (host := host) hs (calm_lets hc l) ho k (fun q c hq _ => given_one inv.prog hs hne hq) (hc o).1
      obtain ⟨mtr, m', g1, g2, g3, g4, g5⟩ := finish_all hos (h.snoc st) hp
      exact ⟨_, m', (MExec.nil.snoc st).trans g1, by rw [progOf_append, g2]; rfl, answered_append (answered_one (by simp)) g3, g4, g5⟩

theorem step_panicked {s s' : PState V} {l : PLab V} (h : PStep env s l s') : s.panicked = false := h.1

/-- Whatever the program can do, it can do with its files. -/
theorem run_lift (hos : PossibleAnswers env host up v0 os) (h : MExec env host (newMachine up v0) tr m) (hp0 : m.p.panicked = false) {l : List (PLab V)} {p : PState V}
    (hs : PExec env m.p l p) (hp : p.panicked = false) :
    ∃ mtr m', MExec env host m mtr m' ∧ progOf mtr = l ∧ AnsweredBy os tr mtr ∧ m'.p = p ∧ Calm m' := by
  generalize e : m.p = p0 at hs
  induction hs with
  | nil => subst e; exact finish_all hos h hp0
  | @snoc l p1 x p2 h1 h2 ih =>
    subst e
    have inv := mexec_inv h
    obtain ⟨mtr, m', g1, g2, g3, g4, g5⟩ := ih (step_panicked h2)
    obtain ⟨mtr2, m2, k1, k2, k3, k4, k5⟩ := step_lift hos (h.trans g1) g5 (by rw [g4]; exact h2) hp
    exact ⟨_, m2, g1.trans k1, by rw [progOf_append, g2, k2], answered_append g3 k3, k4, k5⟩

theorem helps_world {s s' : PState V} {l : PLab V} {t : Nat} (h : PStep env s l s') (hl : Helps t l ∨ l = .ret t) : s'.w = s.w := by
  rcases h with ⟨_, h⟩
  cases h <;> first | rfl | (rcases hl with hl | hl <;> simp [Helps] at hl) 

theorem run_world {s s' : PState V} {tr : List (PLab V)} {t : Nat} (h : PExec env s tr s') (hl : ∀ l ∈ tr, Helps t l ∨ l = .ret t) : s'.w = s.w := by
  induction h with
  | nil => rfl
  | @snoc tr p1 x p2 h1 h2 ih =>
    exact (helps_world h2 (hl x (by simp))).trans (ih fun l hm => hl l (by simp [hm]))

end Log4g
