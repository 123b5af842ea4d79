import Verif.Lemmas.LogThreads

/-! # A log call during a single change -/

namespace Log4g
open Spec World
variable {V : Type}

/-- Same levels, outputs and parents. -/
def Equiv (P : Nat → Prop) (w w' : World) : Prop :=
  ∀ c, P c → ∀ l l', w.heap[c]? = some l → w'.heap[c]? = some l' →
    l'.level = l.level ∧ l'.outputs = l.outputs ∧ l'.parent = l.parent

theorem Equiv.symm {P : Nat → Prop} {w w' : World} (h : Equiv P w w') : Equiv P w' w := fun c hc l l' e e' =>
  ⟨(h c hc l' l e' e).1.symm, (h c hc l' l e' e).2.1.symm, (h c hc l' l e' e).2.2.symm⟩

theorem Equiv.trans {P : Nat → Prop} {a b c : World} (hb : Well b P) (h : Equiv P a b) (h' : Equiv P b c) : Equiv P a c := by
  intro x hx l l' e e'
  obtain ⟨m, hm, _⟩ := hb x hx
  obtain ⟨a1, a2, a3⟩ := h x hx l m e hm
  obtain ⟨b1, b2, b3⟩ := h' x hx m l' hm e'
  exact ⟨b1.trans a1, b2.trans a2, b3.trans a3⟩

theorem Equiv.refl (P : Nat → Prop) (w : World) : Equiv P w w := by
  intro x hx l l' e e'
  rw [e] at e'; injection e' with e'; subst e'
  exact ⟨rfl, rfl, rfl⟩

theorem Equiv.agree {P : Nat → Prop} {w w' : World} (h : Equiv P w w') : Agree P w w' := fun c hc l l' e e' =>
  ⟨(h c hc l l' e e').1, by rw [(h c hc l l' e e').2.1], (h c hc l l' e e').2.2⟩

/-- Statements that assign neither levels nor outputs. -/
def Move.Neutral : Move → Prop
  | .level _ _ | .outputs _ _ => False
  | _ => True

theorem update_equiv (P : Nat → Prop) (w : World) (r : Nat) (f : Logger → Logger)
    (hf : ∀ l, (f l).level = l.level ∧ (f l).outputs = l.outputs ∧ (f l).parent = l.parent) : Equiv P w (w.update r f) := by
  intro c _ l l' e e'
  rw [update_heap] at e'
  split at e'
  · rw [e] at e'; simp at e'; subst e'; exact hf l
  · rw [e] at e'; injection e' with e'; subst e'; exact ⟨rfl, rfl, rfl⟩

theorem Move.Neutral.equiv {m : Move} (h : m.Neutral) (P : Nat → Prop) (w : World) : Equiv P w (m.run w) := by
  cases m with
  | level r lvl => exact h.elim
  | outputs r ops => exact h.elim
  | raise r o => exact update_equiv _ _ _ _ fun l => ⟨rfl, rfl, rfl⟩
  | skip r k => exact update_equiv _ _ _ _ fun l => ⟨rfl, rfl, rfl⟩
  | rest m root ls new =>
    intro c _ l l' e e'
    simp only [Move.run] at e'
    rw [List.getElem?_append_left (heap_lt e), e] at e'
    injection e' with e'; subst e'; exact ⟨rfl, rfl, rfl⟩

theorem neutral_equiv {P : Nat → Prop} {w : World} (hw : Well w P) {ms : List Move} (h : ∀ m ∈ ms, m.Neutral) :
    Equiv P w (runMoves w ms) := by
  induction ms generalizing w with
  | nil => exact .refl P w
  | cons m ms ih =>
    have h1 := (h m (by simp)).equiv P w
    have hw' := hw.keeps (m.keeps w)
    exact h1.trans hw' (ih hw' fun x hx => h x (by simp [hx]))

theorem logExec_split {a : LogArgs V} {w0 w : World} {p0 p : LogPc V} {k : Nat} {ms pre post : List Move} {m : Move}
    (hx : LogExec a w0 p0 k ms w p) (e : ms = pre ++ m :: post) :
    ∃ k1 k2 w1 p1, LogExec a w0 p0 k1 pre w1 p1 ∧ LogExec a (m.run w1) p1 k2 post w p := by
  induction hx generalizing post with
  | refl => simp at e
  | own hx ih =>
    obtain ⟨k1, k2, w1, p1, h1, h2⟩ := ih e
    exact ⟨k1, k2 + 1, w1, p1, h1, h2.own⟩
  | @other k ms w p m' hx ih =>
    rcases List.eq_nil_or_concat post with rfl | ⟨post', x, rfl⟩
    · have : ms = pre ∧ m' = m := by
        have := List.append_inj' e (by simp)
        exact ⟨this.1, by simpa using this.2⟩
      obtain ⟨rfl, rfl⟩ := this
      exact ⟨k, 0, w, p, hx, .refl⟩
    · rw [List.concat_eq_append] at e ⊢
      have e2 : ms ++ [m'] = (pre ++ m :: post') ++ [x] := by rw [e]; simp
      have := List.append_inj' e2 (by simp)
      obtain ⟨k1, k2, w1, p1, h1, h2⟩ := ih this.1
      have hx : m' = x := by simpa using this.2
      subst hx
      exact ⟨k1, k2, w1, p1, h1, h2.other m'⟩

/-! ## Where a message goes -/

/-- Where a message goes from logger `r` on, its level having been found sufficient. -/
def aOuts (w : World) (a : LogArgs V) (r : Nat) : List Nat := outsOf (afterO w a ⟨[], r, [], [], 0⟩)

/-- Where a message goes from logger `r` on. -/
def gOuts (w : World) (a : LogArgs V) (r : Nat) : List Nat := if w.level r ≤ a.lvl then aOuts w a r else []

theorem aOuts_rec {w : World} {P : Nat → Prop} (hw : Well w P) (a : LogArgs V) {r : Nat} (hr : P r) {l : Logger} (hl : w.heap[r]? = some l) :
    aOuts w a r = if l.outputs = [] then (match l.parent with
      | some p => gOuts w a p
      | none => []) else l.outputs := by
  obtain ⟨l', h1, h2⟩ := hw r hr
  rw [hl] at h1; injection h1 with h1; subst h1
  unfold aOuts
  simp only [afterO, hl]
  by_cases ho : l.outputs = []
  · simp only [ho, if_true]
    cases hp : l.parent with
    | none => exact (dispatch_outs clean_nil).trans ho
    | some p =>
      dsimp only
      rw [write_rec hw a ⟨writeFrame :: [], p, [], [], 0 + 1⟩ (h2 p hp).2 (Nat.lt_succ_self p)]
      dsimp only [gOuts]
      split
      · exact after_outs _ _ _ _ rfl clean_nil clean_nil
      · rfl
  · simp only [ho, if_false]
    exact dispatch_outs clean_nil

theorem rest_printf {w : World} {P : Nat → Prop} (hw : Well w P) (a : LogArgs V) {stack : List Frame} {r : Nat} {ctx : Ctx V}
    (hr : P r) (hc : Clean ctx) : outsOf (restO w a (.printf stack r ctx)) = gOuts w a r := by
  rw [← rest_step hw a (p := .printf stack r ctx) hr]
  obtain ⟨l, h1, _⟩ := hw r hr
  simp only [LogPc.step, h1, restO, walkFrom, gOuts]
  by_cases hl : w.level r ≤ a.lvl
  · simp only [hl, if_true]
    exact after_outs w a _ ⟨[], r, [], [], 0⟩ rfl hc clean_nil
  · simp only [hl, if_false]
    rfl

theorem rest_after (w : World) (a : LogArgs V) (f : WriteCall V) (hc : Clean f.ctx) : outsOf (afterO w a f) = aOuts w a f.r :=
  after_outs _ _ _ _ rfl hc clean_nil

theorem rest_flag (w : World) (a : LogArgs V) (f : WriteCall V) (hc : Clean f.ctx) {l : Logger} (hl : w.heap[f.r]? = some l) :
    outsOf (restO w a (.flag f)) = l.outputs := by
  simp only [restO, hl]; exact dispatch_outs hc

theorem rest_send (w : World) (a : LogArgs V) (r : Nat) (evt : Event V) {l : Logger} (hl : w.heap[r]? = some l) :
    outsOf (restO w a (.send r evt)) = l.outputs := by
  simp only [restO, hl]; exact map_out _ _

theorem level_congr {P : Nat → Prop} {w w' : World} (hw : Well w P) (hw' : Well w' P) (h : ∀ c, P c → ∀ l l', w.heap[c]? = some l → w'.heap[c]? = some l' → l'.level = l.level ∧ l'.parent = l.parent)
    {c : Nat} (hc : P c) : w'.level c = w.level c := by
  induction c using Nat.strongRecOn with
  | ind c ih =>
    obtain ⟨l, h1, h2⟩ := hw c hc
    obtain ⟨l', h1', _⟩ := hw' c hc
    obtain ⟨x, z⟩ := h c hc l l' h1 h1'
    rw [level_rec hw hc h1, level_rec hw' hc h1', x, z]
    split
    · rfl
    · cases hp : l.parent with
      | none => rfl
      | some p => exact ih p (h2 p hp).1 (h2 p hp).2

theorem gOuts_congr {P : Nat → Prop} {w w' : World} (hw : Well w P) (hw' : Well w' P) (h : Equiv P w w') (a : LogArgs V) {c : Nat} (hc : P c) :
    gOuts w' a c = gOuts w a c ∧ aOuts w' a c = aOuts w a c := by
  induction c using Nat.strongRecOn with
  | ind c ih =>
    obtain ⟨l, h1, h2⟩ := hw c hc
    obtain ⟨l', h1', _⟩ := hw' c hc
    obtain ⟨x, y, z⟩ := h c hc l l' h1 h1'
    have e : aOuts w' a c = aOuts w a c := by
      rw [aOuts_rec hw a hc h1, aOuts_rec hw' a hc h1', y, z]
      split
      · cases hp : l.parent with
        | none => rfl
        | some p => exact (ih p (h2 p hp).1 (h2 p hp).2).1
      · rfl
    refine ⟨?_, e⟩
    unfold gOuts
    rw [e, level_congr hw hw' (fun c hc l l' e e' => ⟨(h c hc l l' e e').1, (h c hc l l' e e').2.2⟩) hc]

theorem rest_equiv {P : Nat → Prop} {w w' : World} (hw : Well w P) (hw' : Well w' P) (h : Equiv P w w') (a : LogArgs V) {p : LogPc V}
    (hp : p.Within P) (hc : p.CleanPc) : outsOf (restO w' a p) = outsOf (restO w a p) := by
  have hlev : ∀ c, P c → w'.level c = w.level c := fun c hc =>
    level_congr hw hw' (fun c hc l l' e e' => ⟨(h c hc l l' e e').1, (h c hc l l' e e').2.2⟩) hc
  cases p with
  | printf stack r ctx =>
    rw [rest_printf hw a hp hc, rest_printf hw' a hp hc, (gOuts_congr hw hw' h a hp).1]
  | level f c =>
    have e : walkFrom w' c = walkFrom w c := by
      cases c with
      | none => rfl
      | some c => exact hlev c (hp.2 c rfl)
    simp only [restO, e]
    split
    · rw [rest_after _ _ _ hc, rest_after _ _ _ hc, (gOuts_congr hw hw' h a hp.1).2]
    · rfl
  | level2 f c =>
    obtain ⟨l, h1, _⟩ := hw c hp.2
    obtain ⟨l', h1', _⟩ := hw' c hp.2
    simp only [restO, h1, h1', (h c hp.2 l l' h1 h1').1]
    split
    · rw [rest_after _ _ _ hc, rest_after _ _ _ hc, (gOuts_congr hw hw' h a hp.1).2]
    · rfl
  | outs f =>
    simp only [restO]
    rw [rest_after _ _ _ hc, rest_after _ _ _ hc, (gOuts_congr hw hw' h a hp).2]
  | flag f =>
    obtain ⟨l, h1, _⟩ := hw f.r hp
    obtain ⟨l', h1', _⟩ := hw' f.r hp
    rw [rest_flag w a f hc h1, rest_flag w' a f hc h1', (h f.r hp l l' h1 h1').2.1]
  | flag2 f =>
    obtain ⟨l, h1, _⟩ := hw f.r hp
    obtain ⟨l', h1', _⟩ := hw' f.r hp
    rw [flag2_outs w a f hc h1, flag2_outs w' a f hc h1', (h f.r hp l l' h1 h1').2.1]
  | send r evt =>
    obtain ⟨l, h1, _⟩ := hw r hp
    obtain ⟨l', h1', _⟩ := hw' r hp
    rw [rest_send w a r evt h1, rest_send w' a r evt h1', (h r hp l l' h1 h1').2.1]
  | done o => rfl

/-! ## The loggers that have been asked -/

/-- The message has come from `r0` to `r`: every logger before has let it pass and has no outputs. -/
inductive Came (w : World) (a : LogArgs V) (r0 : Nat) : Nat → Prop
  | refl : Came w a r0 r0
  | up {c p l} : Came w a r0 c → w.heap[c]? = some l → w.level c ≤ a.lvl → l.outputs = [] → l.parent = some p → Came w a r0 p

/-- The loop of `Level()` has come from `r` to `c`: every logger before has no level. -/
inductive Unset (w : World) (r : Nat) : Option Nat → Prop
  | refl : Unset w r (some r)
  | up {c l} : Unset w r (some c) → w.heap[c]? = some l → l.level = Level.Uninitialized → Unset w r l.parent

theorem Came.within {w : World} {P : Nat → Prop} (hw : Well w P) {a : LogArgs V} {r0 r : Nat} (h : Came w a r0 r) (h0 : P r0) : P r := by
  induction h with
  | refl => exact h0
  | up _ hl _ _ hp ih =>
    obtain ⟨l, h1, h2⟩ := hw _ ih
    rw [hl] at h1; injection h1 with h1; subst h1
    exact (h2 _ hp).2

theorem Came.outs {w : World} {P : Nat → Prop} (hw : Well w P) {a : LogArgs V} {r0 r : Nat} (h : Came w a r0 r) (h0 : P r0) :
    gOuts w a r0 = gOuts w a r := by
  induction h with
  | refl => rfl
  | up hc hl hlev ho hp ih =>
    rw [ih]
    have := aOuts_rec hw a (hc.within hw h0) hl
    simp only [ho, if_true, hp] at this
    rw [← this]
    simp only [gOuts, hlev, if_true]

theorem Came.equiv {P : Nat → Prop} {w w' : World} (hw : Well w P) (hw' : Well w' P) (h : Equiv P w w') {a : LogArgs V} {r0 r : Nat} (h0 : P r0)
    (hc : Came w a r0 r) : Came w' a r0 r := by
  induction hc with
  | refl => exact .refl
  | @up c p l hc hl hlev ho hp ih =>
    have hP := hc.within hw h0
    obtain ⟨l', h1', _⟩ := hw' c hP
    obtain ⟨x, y, z⟩ := h c hP l l' hl h1'
    refine .up ih h1' ?_ (y.trans ho) (z.trans hp)
    rw [level_congr hw hw' (fun c hc l l' e e' => ⟨(h c hc l l' e e').1, (h c hc l l' e e').2.2⟩) hP]
    exact hlev

theorem Unset.within {w : World} {P : Nat → Prop} (hw : Well w P) {r : Nat} {c : Option Nat} (h : Unset w r c) (h0 : P r) :
    ∀ x, c = some x → P x ∧ x ≤ r := by
  induction h with
  | refl => intro x hx; injection hx with hx; subst hx; exact ⟨h0, Nat.le_refl _⟩
  | up _ hl _ ih =>
    intro x hx
    obtain ⟨hP, hle⟩ := ih _ rfl
    obtain ⟨l, h1, h2⟩ := hw _ hP
    rw [hl] at h1; injection h1 with h1; subst h1
    have := (h2 x hx).1
    exact ⟨(h2 x hx).2, by omega⟩

theorem Unset.level {w : World} {P : Nat → Prop} (hw : Well w P) {r : Nat} {c : Option Nat} (h : Unset w r c) (h0 : P r) :
    w.level r = walkFrom w c := by
  induction h with
  | refl => rfl
  | up h hl hlev ih =>
    rw [ih]
    show w.level _ = _
    rw [level_rec hw (h.within hw h0 _ rfl).1 hl]
    simp [hlev]

theorem Unset.equiv {P : Nat → Prop} {w w' : World} (hw : Well w P) (hw' : Well w' P) (h : Equiv P w w') {r : Nat} {c : Option Nat}
    (hc : Unset w r c) (h0 : P r) : Unset w' r c := by
  induction hc with
  | refl => exact .refl
  | @up c l hc hl hlev ih =>
    have hP := (hc.within hw h0 c rfl).1
    obtain ⟨l', h1', _⟩ := hw' c hP
    obtain ⟨x, y, z⟩ := h c hP l l' hl h1'
    rw [← z]
    exact .up ih h1' (x.trans hlev)

/-- What a log call has seen so far. -/
def LogPc.Seen (w : World) (a : LogArgs V) (r0 : Nat) : LogPc V → Prop
  | .printf _ r _ => r = r0
  | .level f c => Came w a r0 f.r ∧ Unset w f.r c
  | .level2 f c => Came w a r0 f.r ∧ Unset w f.r (some c) ∧ ∀ l, w.heap[c]? = some l → l.level ≠ Level.Uninitialized
  | .outs f => Came w a r0 f.r ∧ w.level f.r ≤ a.lvl
  | .flag f | .flag2 f => Came w a r0 f.r ∧ w.level f.r ≤ a.lvl ∧ ∀ l, w.heap[f.r]? = some l → l.outputs = [] → l.parent = none
  | .send r _ => Came w a r0 r ∧ w.level r ≤ a.lvl ∧ ∀ l, w.heap[r]? = some l → l.outputs = [] → l.parent = none
  | .done o => outsOf o = gOuts w a r0

theorem seen_equiv {P : Nat → Prop} {w w' : World} (hw : Well w P) (hw' : Well w' P) (h : Equiv P w w') {a : LogArgs V} {r0 : Nat} (h0 : P r0) {p : LogPc V}
    (hp : p.Within P) (hs : p.Seen w a r0) : p.Seen w' a r0 := by
  have hlev : ∀ c, P c → w'.level c = w.level c := fun c hc =>
    level_congr hw hw' (fun c hc l l' e e' => ⟨(h c hc l l' e e').1, (h c hc l l' e e').2.2⟩) hc
  have key : ∀ r, P r → (∀ l, w.heap[r]? = some l → l.outputs = [] → l.parent = none) →
      ∀ l, w'.heap[r]? = some l → l.outputs = [] → l.parent = none := by
    intro r hr hh l' e' ho
    obtain ⟨l, e, _⟩ := hw r hr
    obtain ⟨x, y, z⟩ := h r hr l l' e e'
    rw [z]; exact hh l e (y ▸ ho)
  cases p with
  | printf _ _ _ => exact hs
  | level f c => exact ⟨hs.1.equiv hw hw' h h0, hs.2.equiv hw hw' h hp.1⟩
  | level2 f c =>
    refine ⟨hs.1.equiv hw hw' h h0, hs.2.1.equiv hw hw' h hp.1, fun l' e' => ?_⟩
    obtain ⟨l, e, _⟩ := hw c hp.2
    rw [(h c hp.2 l l' e e').1]
    exact hs.2.2 l e
  | outs f => exact ⟨hs.1.equiv hw hw' h h0, by rw [hlev _ hp]; exact hs.2⟩
  | flag f => exact ⟨hs.1.equiv hw hw' h h0, by rw [hlev _ hp]; exact hs.2.1, key _ hp hs.2.2⟩
  | flag2 f => exact ⟨hs.1.equiv hw hw' h h0, by rw [hlev _ hp]; exact hs.2.1, key _ hp hs.2.2⟩
  | send r evt => exact ⟨hs.1.equiv hw hw' h h0, by rw [hlev _ hp]; exact hs.2.1, key _ hp hs.2.2⟩
  | done o => exact hs.trans (gOuts_congr hw hw' h a h0).1.symm

theorem aOuts_here {w : World} {P : Nat → Prop} (hw : Well w P) (a : LogArgs V) {r : Nat} (hr : P r) {l : Logger} (hl : w.heap[r]? = some l)
    (h : l.outputs = [] → l.parent = none) : aOuts w a r = l.outputs := by
  rw [aOuts_rec hw a hr hl]
  by_cases ho : l.outputs = []
  · simp [ho, h ho]
  · simp [ho]

theorem seen_step {w : World} {P : Nat → Prop} (hw : Well w P) {a : LogArgs V} {r0 : Nat} (h0 : P r0) {p : LogPc V}
    (hp : p.Within P) (hc : p.CleanPc) (hs : p.Seen w a r0) : (p.step w a).Seen w a r0 := by
  have hstop : ∀ r, Came w a r0 r → ¬ w.level r ≤ a.lvl → LogPc.Seen w a r0 (LogPc.done (.sent [] : Outcome V)) := by
    intro r hcame hl
    show ([] : List Nat) = _
    rw [hcame.outs hw h0]
    simp only [gOuts, hl, if_false]
  cases p with
  | printf stack r ctx =>
    obtain ⟨l, h1, _⟩ := hw r hp
    obtain rfl : r = r0 := hs
    simp only [LogPc.step, h1]
    exact ⟨.refl, .refl⟩
  | level f c =>
    have hl := hs.2.level hw hp.1
    cases c with
    | none =>
      simp only [LogPc.step]
      split
      · rename_i h
        exact ⟨hs.1, hl ▸ h⟩
      · rename_i h
        exact hstop _ hs.1 (hl ▸ h)
    | some c =>
      obtain ⟨l, h1, _⟩ := hw c (hp.2 c rfl)
      simp only [LogPc.step, h1]
      split
      · rename_i h
        exact ⟨hs.1, hs.2, fun l' e => by rw [h1] at e; injection e with e; subst e; exact h⟩
      · rename_i h
        exact ⟨hs.1, .up hs.2 h1 (by simpa using h)⟩
  | level2 f c =>
    have hl := hs.2.1.level hw hp.1
    obtain ⟨l, h1, _⟩ := hw c hp.2
    have h2 : w.level c = l.level := by
      rw [level_rec hw hp.2 h1, if_pos (hs.2.2 l h1)]
    simp only [walkFrom, h2] at hl
    simp only [LogPc.step, h1]
    split
    · rename_i h
      exact ⟨hs.1, hl ▸ h⟩
    · rename_i h
      exact hstop _ hs.1 (hl ▸ h)
  | outs f =>
    obtain ⟨l, h1, _⟩ := hw f.r hp
    simp only [LogPc.step, h1]
    split
    · rename_i ho
      split
      · rename_i q hq
        exact ⟨.up hs.1 h1 hs.2 ho hq, .refl⟩
      · rename_i hq
        exact ⟨hs.1, hs.2, fun l' e _ => by rw [h1] at e; injection e with e; subst e; exact hq⟩
    · rename_i ho
      exact ⟨hs.1, hs.2, fun l' e ho' => by rw [h1] at e; injection e with e; subst e; exact absurd ho' ho⟩
  | flag f =>
    obtain ⟨l, h1, _⟩ := hw f.r hp
    simp only [LogPc.step, h1]
    split
    · obtain ⟨evt, e⟩ := capture_clean a f true hc
      rw [e]; exact hs
    · exact hs
  | flag2 f =>
    obtain ⟨l, h1, _⟩ := hw f.r hp
    simp only [LogPc.step, h1]
    split
    · obtain ⟨evt, e⟩ := capture_clean a f false hc
      rw [e]; exact hs
    · exact hs
  | send r evt =>
    obtain ⟨l, h1, _⟩ := hw r hp
    simp only [LogPc.step, h1]
    show outsOf _ = _
    rw [hs.1.outs hw h0]
    simp only [gOuts, hs.2.1, if_true]
    rw [aOuts_here hw a hp h1 (hs.2.2 l h1)]
    exact map_out _ _
  | done o => exact hs

theorem exec_seen {a : LogArgs V} {w0 w : World} {stack : List Frame} {r : Nat} {ctx : Ctx V} {p : LogPc V} {k : Nat} {ms : List Move}
    {P : Nat → Prop} (hw : Well w0 P) (hr : P r) (hc : Clean ctx) (hx : LogExec a w0 (.printf stack r ctx) k ms w p)
    (hn : ∀ m ∈ ms, m.Neutral) : p.Seen w a r := by
  induction hx with
  | refl => exact rfl
  | @own k ms w p hx ih =>
    have hwell : Well w P := by rw [logExec_world hx]; exact hw.keeps (runMoves_keeps _ _)
    exact seen_step hwell hr (exec_within hw (p0 := .printf stack r ctx) hr hx) (exec_clean (p0 := .printf stack r ctx) hc hx) (ih hn)
  | @other k ms w p m hx ih =>
    have hwell : Well w P := by rw [logExec_world hx]; exact hw.keeps (runMoves_keeps _ _)
    exact seen_equiv hwell (hwell.keeps (m.keeps w)) ((hn m (by simp)).equiv P w) hr
      (exec_within hw (p0 := .printf stack r ctx) hr hx) (ih fun x hx => hn x (by simp [hx]))

/-! ## One change of a level -/

/-- `w'` is `w` but for the level of `q`, which is `v` in `w'`. -/
structure LevelSwitch (P : Nat → Prop) (q : Nat) (v : Level) (w w' : World) : Prop where
  outs : ∀ c, P c → ∀ l l', w.heap[c]? = some l → w'.heap[c]? = some l' → l'.outputs = l.outputs ∧ l'.parent = l.parent
  other : ∀ c, P c → c ≠ q → ∀ l l', w.heap[c]? = some l → w'.heap[c]? = some l' → l'.level = l.level
  here : ∀ l', w'.heap[q]? = some l' → l'.level = v
  set : v ≠ Level.Uninitialized

variable {P : Nat → Prop} {q : Nat} {v : Level} {w w' : World}

theorem LevelSwitch.before (h : LevelSwitch P q v w w') (hw : Well w P) (hw' : Well w' P) {c : Nat} (hc : P c) (hq : c < q) :
    w'.level c = w.level c := by
  induction c using Nat.strongRecOn with
  | ind c ih =>
    obtain ⟨l, h1, h2⟩ := hw c hc
    obtain ⟨l', h1', _⟩ := hw' c hc
    have x := h.other c hc (by omega) l l' h1 h1'
    have z := (h.outs c hc l l' h1 h1').2
    rw [level_rec hw hc h1, level_rec hw' hc h1', x, z]
    split
    · rfl
    · cases hp : l.parent with
      | none => rfl
      | some p =>
        have := (h2 p hp).1
        exact ih p this (h2 p hp).2 (by omega)

theorem LevelSwitch.either (h : LevelSwitch P q v w w') (hw : Well w P) (hw' : Well w' P) {c : Nat} (hc : P c) :
    w'.level c = w.level c ∨ w'.level c = v := by
  induction c using Nat.strongRecOn with
  | ind c ih =>
    obtain ⟨l, h1, h2⟩ := hw c hc
    obtain ⟨l', h1', _⟩ := hw' c hc
    by_cases hq : c = q
    · subst hq
      right
      rw [level_rec hw' hc h1', h.here l' h1', if_pos h.set]
    · have x := h.other c hc hq l l' h1 h1'
      have z := (h.outs c hc l l' h1 h1').2
      rw [level_rec hw hc h1, level_rec hw' hc h1', x, z]
      split
      · exact .inl rfl
      · cases hp : l.parent with
        | none => exact .inl rfl
        | some p => exact ih p (h2 p hp).1 (h2 p hp).2

theorem LevelSwitch.unset (h : LevelSwitch P q v w w') (hw : Well w P) (hw' : Well w' P) {r : Nat} {c : Option Nat} (hr : P r)
    (hu : Unset w r c) : Unset w' r c ∨ ∀ x, c = some x → x < q := by
  induction hu with
  | refl => exact .inl .refl
  | @up c l hu hl hlev ih =>
    have hP := (hu.within hw hr c rfl).1
    obtain ⟨l1, h1, h2⟩ := hw c hP
    rw [hl] at h1; injection h1 with h1; subst h1
    obtain ⟨l', h1', _⟩ := hw' c hP
    rcases ih with ih | ih
    · by_cases hq : c = q
      · subst hq
        exact .inr fun x hx => (h2 x hx).1
      · left
        rw [← (h.outs c hP l l' hl h1').2]
        exact .up ih h1' ((h.other c hP hq l l' hl h1').trans hlev)
    · have := ih c rfl
      exact .inr fun x hx => by have := (h2 x hx).1; omega

theorem LevelSwitch.walk (h : LevelSwitch P q v w w') (hw : Well w P) (hw' : Well w' P) {r : Nat} {c : Option Nat} (hr : P r)
    (hu : Unset w r c) : walkFrom w' c = w.level r ∨ walkFrom w' c = w'.level r := by
  rcases h.unset hw hw' hr hu with h' | h'
  · exact .inr (h'.level hw' hr).symm
  · left
    rw [hu.level hw hr]
    cases c with
    | none => rfl
    | some c => exact h.before hw hw' (hu.within hw hr c rfl).1 (h' c rfl)

/-- Where a message goes whatever the levels are. -/
inductive Aim (w : World) : Nat → List Nat → Prop
  | own {c l} : w.heap[c]? = some l → l.outputs ≠ [] → Aim w c l.outputs
  | top {c l} : w.heap[c]? = some l → l.outputs = [] → l.parent = none → Aim w c []
  | up {c l p ops} : w.heap[c]? = some l → l.outputs = [] → l.parent = some p → Aim w p ops → Aim w c ops

theorem aim_exists (hw : Well w P) {c : Nat} (hc : P c) : ∃ ops, Aim w c ops := by
  induction c using Nat.strongRecOn with
  | ind c ih =>
    obtain ⟨l, h1, h2⟩ := hw c hc
    by_cases ho : l.outputs = []
    · cases hp : l.parent with
      | none => exact ⟨_, .top h1 ho hp⟩
      | some p =>
        obtain ⟨ops, hops⟩ := ih p (h2 p hp).1 (h2 p hp).2
        exact ⟨ops, .up h1 ho hp hops⟩
    · exact ⟨_, .own h1 ho⟩

theorem Aim.outs (hw : Well w P) {a : LogArgs V} {c : Nat} (hc : P c) {ops : List Nat} (h : Aim w c ops) :
    (aOuts w a c = ops ∨ aOuts w a c = []) ∧ (gOuts w a c = ops ∨ gOuts w a c = []) := by
  have key : ∀ c, (aOuts w a c = ops ∨ aOuts w a c = []) →
      (aOuts w a c = ops ∨ aOuts w a c = []) ∧ (gOuts w a c = ops ∨ gOuts w a c = []) := by
    intro c h
    refine ⟨h, ?_⟩
    unfold gOuts
    split
    · exact h
    · exact .inr rfl
  induction h with
  | own h1 ho => exact key _ (.inl (by rw [aOuts_rec hw a hc h1, if_neg ho]))
  | top h1 ho hp => exact key _ (.inl (by rw [aOuts_rec hw a hc h1, if_pos ho, hp]))
  | up h1 ho hp _ ih =>
    refine key _ ?_
    rw [aOuts_rec hw a hc h1, if_pos ho, hp]
    obtain ⟨l, h1', h2⟩ := hw _ hc
    rw [h1] at h1'; injection h1' with h1'; subst h1'
    exact (ih (h2 _ hp).2 key).2

/-- The loggers that come before the one with outputs. -/
inductive Before (w : World) (r : Nat) : Nat → Prop
  | refl : Before w r r
  | up {c p l} : Before w r c → w.heap[c]? = some l → l.outputs = [] → l.parent = some p → Before w r p

theorem Before.within (hw : Well w P) {r c : Nat} (h : Before w r c) (h0 : P r) : P c := by
  induction h with
  | refl => exact h0
  | up _ hl _ hp ih =>
    obtain ⟨l, h1, h2⟩ := hw _ ih
    rw [hl] at h1; injection h1 with h1; subst h1
    exact (h2 _ hp).2

theorem Before.head {r p c : Nat} {l : Logger} (hl : w.heap[r]? = some l) (ho : l.outputs = []) (hp : l.parent = some p) (h : Before w p c) :
    Before w r c := by
  induction h with
  | refl => exact .up .refl hl ho hp
  | up _ hl' ho' hp' ih => exact .up ih hl' ho' hp'

theorem Came.before {a : LogArgs V} {r0 r : Nat} (h : Came w a r0 r) : Before w r0 r := by
  induction h with
  | refl => exact .refl
  | up _ hl _ ho hp ih => exact .up ih hl ho hp

theorem Before.switch (hw : Well w P) (hw' : Well w' P)
    (h : ∀ c, P c → ∀ l l', w.heap[c]? = some l → w'.heap[c]? = some l' → l'.outputs = l.outputs ∧ l'.parent = l.parent)
    {r c : Nat} (h0 : P r) (hb : Before w r c) : Before w' r c := by
  induction hb with
  | refl => exact .refl
  | @up c p l hb hl ho hp ih =>
    have hP := hb.within hw h0
    obtain ⟨l', h1', _⟩ := hw' c hP
    obtain ⟨x, y⟩ := h c hP l l' hl h1'
    exact .up ih h1' (x.trans ho) (y.trans hp)

theorem Aim.switch (hw : Well w P) (hw' : Well w' P)
    (h : ∀ c, P c → ∀ l l', w.heap[c]? = some l → w'.heap[c]? = some l' → l'.outputs = l.outputs ∧ l'.parent = l.parent)
    {c : Nat} (h0 : P c) {ops : List Nat} (ht : Aim w c ops) : Aim w' c ops := by
  induction ht with
  | @own c l hl ho =>
    obtain ⟨l', h1', _⟩ := hw' c h0
    obtain ⟨x, y⟩ := h c h0 l l' hl h1'
    rw [← x]; exact .own h1' (by rw [x]; exact ho)
  | @top c l hl ho hp =>
    obtain ⟨l', h1', _⟩ := hw' c h0
    obtain ⟨x, y⟩ := h c h0 l l' hl h1'
    exact .top h1' (x.trans ho) (y.trans hp)
  | @up c l p ops hl ho hp _ ih =>
    obtain ⟨l', h1', _⟩ := hw' c h0
    obtain ⟨x, y⟩ := h c h0 l l' hl h1'
    obtain ⟨l1, h1, h2⟩ := hw c h0
    rw [hl] at h1; injection h1 with h1; subst h1
    exact .up h1' (x.trans ho) (y.trans hp) (ih (h2 p hp).2)

theorem Before.target {r c : Nat} {ops : List Nat} (hb : Before w r c) (ht : Aim w r ops) : Aim w c ops := by
  induction hb with
  | refl => exact ht
  | up hb hl ho hp ih =>
    cases ih with
    | own h1 ho' => rw [hl] at h1; injection h1 with h1; subst h1; exact absurd ho ho'
    | top h1 ho' hp' => rw [hl] at h1; injection h1 with h1; subst h1; rw [hp] at hp'; cases hp'
    | up h1 ho' hp' ht => rw [hl] at h1; injection h1 with h1; subst h1; rw [hp] at hp'; injection hp' with hp'; subst hp'; exact ht

theorem Before.passes (hw : Well w P) {a : LogArgs V} {r c : Nat} (hb : Before w r c) (h0 : P r) (hg : gOuts w a r ≠ []) :
    w.level c ≤ a.lvl ∧ gOuts w a c = gOuts w a r := by
  have key : ∀ x, gOuts w a x ≠ [] → w.level x ≤ a.lvl ∧ gOuts w a x = aOuts w a x := by
    intro x hx
    unfold gOuts at hx ⊢
    by_cases hl : w.level x ≤ a.lvl
    · exact ⟨hl, by rw [if_pos hl]⟩
    · rw [if_neg hl] at hx; exact absurd rfl hx
  induction hb with
  | refl => exact ⟨(key r hg).1, rfl⟩
  | up hb hl ho hp ih =>
    have := aOuts_rec hw a (hb.within hw h0) hl
    rw [if_pos ho, hp] at this
    dsimp only at this
    have e := (key _ (by rw [ih.2]; exact hg)).2
    have e2 : gOuts w a _ = gOuts w a r := (this.symm.trans e.symm).trans ih.2
    exact ⟨(key _ (by rw [e2]; exact hg)).1, e2⟩

theorem Before.inv {r c : Nat} {l : Logger} (hl : w.heap[r]? = some l) (hb : Before w r c) :
    c = r ∨ l.outputs = [] ∧ ∃ p, l.parent = some p ∧ Before w p c := by
  induction hb with
  | refl => exact .inl rfl
  | up hb hl' ho' hp' ih =>
    rcases ih with rfl | ⟨h1, p, hp, h2⟩
    · rw [hl] at hl'; injection hl' with hl'; subst hl'
      exact .inr ⟨ho', _, hp', .refl⟩
    · exact .inr ⟨h1, p, hp, .up h2 hl' ho' hp'⟩

theorem after_passes (hw : Well w P) {a : LogArgs V} {r c : Nat} (hr : P r) (hA : aOuts w a r ≠ []) (hb : Before w r c) (hne : c ≠ r) :
    w.level c ≤ a.lvl := by
  obtain ⟨l, h1, h2⟩ := hw r hr
  rcases hb.inv h1 with h | ⟨ho, p, hp, hb'⟩
  · exact absurd h hne
  · rw [aOuts_rec hw a hr h1, if_pos ho, hp] at hA
    exact (hb'.passes hw (h2 p hp).2 hA).1

theorem stops (hw : Well w P) {a : LogArgs V} {r : Nat} (h0 : P r) {ops : List Nat} (ht : Aim w r ops) (hne : ops ≠ [])
    (hg : gOuts w a r = []) : ∃ x, Before w r x ∧ ¬ w.level x ≤ a.lvl := by
  induction ht with
  | @own c l hl ho =>
    refine ⟨c, .refl, fun h => ?_⟩
    rw [gOuts, if_pos h, aOuts_rec hw a h0 hl, if_neg ho] at hg
    exact hne hg
  | top => exact absurd rfl hne
  | @up c l p ops hl ho hp _ ih =>
    by_cases h : w.level c ≤ a.lvl
    · rw [gOuts, if_pos h, aOuts_rec hw a h0 hl, if_pos ho, hp] at hg
      obtain ⟨l1, h1, h2⟩ := hw c h0
      rw [hl] at h1; injection h1 with h1; subst h1
      obtain ⟨x, hx, hx'⟩ := ih (h2 p hp).2 hne hg
      exact ⟨x, hx.head hl ho hp, hx'⟩
    · exact ⟨c, .refl, h⟩

theorem LevelSwitch.stopped (h : LevelSwitch P q v w w') (hw : Well w P) (hw' : Well w' P) {a : LogArgs V} {r0 r : Nat} (h0 : P r0)
    (hc : Came w a r0 r) (hg : gOuts w' a r0 = []) (hr : gOuts w' a r ≠ []) : ∃ x, P x ∧ w.level x ≤ a.lvl ∧ ¬ w'.level x ≤ a.lvl := by
  induction hc with
  | refl => exact absurd hg hr
  | @up c p l hc hl hlev ho hp ih =>
    have hP := hc.within hw h0
    by_cases hx : w'.level c ≤ a.lvl
    · refine ih ?_
      obtain ⟨l', h1', _⟩ := hw' c hP
      obtain ⟨x, y⟩ := h.outs c hP l l' hl h1'
      rw [gOuts, if_pos hx, aOuts_rec hw' a hP h1', if_pos (x.trans ho), y, hp]
      exact hr
    · exact ⟨c, hP, hlev, hx⟩

/-- The heart: the check at `r` gives `b`, which is its answer before or after the change; the checks before are those of `w`, those after
of `w'`. -/
theorem LevelSwitch.mixed (h : LevelSwitch P q v w w') (hw : Well w P) (hw' : Well w' P) {a : LogArgs V} {r0 r : Nat} (h0 : P r0)
    (hc : Came w a r0 r) {b : Level} (hb : b = w.level r ∨ b = w'.level r) :
    (if b ≤ a.lvl then aOuts w' a r else []) = gOuts w a r0 ∨ (if b ≤ a.lvl then aOuts w' a r else []) = gOuts w' a r0 := by
  have hr := hc.within hw h0
  obtain ⟨N, hN⟩ := aim_exists hw h0
  have hN' := hN.switch hw hw' h.outs h0
  have hNr := hc.before.target hN
  have hNr' := hNr.switch hw hw' h.outs hr
  have hB' := hc.before.switch hw hw' h.outs h0
  have e1 := hc.outs hw h0
  generalize hR : (if b ≤ a.lvl then aOuts w' a r else []) = R
  have hRN : R = N ∨ R = [] := by
    rw [← hR]
    split
    · exact (hNr'.outs hw' hr).1
    · exact .inr rfl
  by_cases hne : N = []
  · left
    subst hne
    have := (hN.outs (a := a) hw h0).2
    rcases hRN with h | h <;> rcases this with h' | h' <;> rw [h, h']
  · rcases (hN.outs (a := a) hw h0).2 with g | g <;> rcases (hN'.outs (a := a) hw' h0).2 with g' | g'
    · -- all checks pass before and after
      left
      rw [g]
      have p1 := (hc.before.passes hw h0 (a := a) (by rw [g]; exact hne)).1
      have p2 := hB'.passes hw' h0 (a := a) (by rw [g']; exact hne)
      have hbl : b ≤ a.lvl := by
        rcases hb with rfl | rfl
        · exact p1
        · exact p2.1
      rw [← hR, if_pos hbl, ← g', ← p2.2, gOuts, if_pos p2.1]
    · rcases hRN with h | h
      · exact .inl (h.trans g.symm)
      · exact .inr (h.trans g'.symm)
    · rcases hRN with h | h
      · exact .inr (h.trans g'.symm)
      · exact .inl (h.trans g.symm)
    · -- a check fails before and one after
      rcases hRN with hRN | hRN
      · exfalso
        rw [hRN] at hR
        have hbl : b ≤ a.lvl := by
          apply Classical.byContradiction
          intro hb; rw [if_neg hb] at hR; exact hne hR.symm
        rw [if_pos hbl] at hR
        -- the change raises a level above the message's
        have up : ∃ x, P x ∧ w.level x ≤ a.lvl ∧ ¬ w'.level x ≤ a.lvl := by
          by_cases hx : w'.level r ≤ a.lvl
          · refine h.stopped hw hw' h0 hc g' ?_
            rw [gOuts, if_pos hx, hR]; exact hne
          · rcases hb with rfl | rfl
            · exact ⟨r, hr, hbl, hx⟩
            · exact absurd hbl hx
        -- and lowers one below it
        have down : ∃ x, P x ∧ ¬ w.level x ≤ a.lvl ∧ w'.level x ≤ a.lvl := by
          obtain ⟨x, hx, hx'⟩ := stops hw hr hNr hne (e1 ▸ g)
          refine ⟨x, hx.within hw hr, hx', ?_⟩
          by_cases hxr : x = r
          · subst hxr
            rcases hb with rfl | rfl
            · exact absurd hbl hx'
            · exact hbl
          · exact after_passes hw' hr (a := a) (by rw [hR]; exact hne) (hx.switch hw hw' h.outs hr) hxr
        obtain ⟨x, hx, u1, u2⟩ := up
        obtain ⟨y, hy, d1, d2⟩ := down
        rcases h.either hw hw' hx with e | e
        · exact u2 (e ▸ u1)
        · rcases h.either hw hw' hy with e' | e'
          · exact d1 (e' ▸ d2)
          · exact u2 (e ▸ e' ▸ d2)
      · exact .inl (hRN.trans g.symm)

theorem LevelSwitch.rest (h : LevelSwitch P q v w w') (hw : Well w P) (hw' : Well w' P) {a : LogArgs V} {r0 : Nat} (h0 : P r0) {p : LogPc V}
    (hp : p.Within P) (hc : p.CleanPc) (hs : p.Seen w a r0) :
    outsOf (restO w' a p) = gOuts w a r0 ∨ outsOf (restO w' a p) = gOuts w' a r0 := by
  -- past the check of `r`: its answer was that of `w`
  have past : ∀ r, Came w a r0 r → w.level r ≤ a.lvl → aOuts w' a r = gOuts w a r0 ∨ aOuts w' a r = gOuts w' a r0 := by
    intro r hcame hl
    have := h.mixed hw hw' h0 hcame (b := w.level r) (.inl rfl)
    simpa only [hl, if_true] using this
  have here : ∀ r, P r → (∀ l, w.heap[r]? = some l → l.outputs = [] → l.parent = none) → ∀ l', w'.heap[r]? = some l' →
      aOuts w' a r = l'.outputs := by
    intro r hr hh l' e'
    obtain ⟨l, e, _⟩ := hw r hr
    obtain ⟨x, y⟩ := h.outs r hr l l' e e'
    exact aOuts_here hw' a hr e' fun ho => y.trans (hh l e (x ▸ ho))
  cases p with
  | printf stack r ctx =>
    obtain rfl : r = r0 := hs
    exact .inr (rest_printf hw' a hp hc)
  | level f c =>
    have := h.mixed hw hw' h0 hs.1 (h.walk hw hw' hp.1 hs.2)
    simp only [restO]
    rw [apply_ite outsOf, rest_after _ _ _ hc]
    exact this
  | level2 f c =>
    obtain ⟨l', h1', _⟩ := hw' c hp.2
    obtain ⟨l, h1, _⟩ := hw c hp.2
    have hne : l'.level ≠ Level.Uninitialized := by
      by_cases hq : c = q
      · subst hq; rw [h.here l' h1']; exact h.set
      · rw [h.other c hp.2 hq l l' h1 h1']; exact hs.2.2 l h1
    have hlev : walkFrom w' (some c) = l'.level := by
      show w'.level c = _
      rw [level_rec hw' hp.2 h1', if_pos hne]
    have := h.mixed hw hw' h0 hs.1 (h.walk hw hw' hp.1 hs.2.1)
    rw [hlev] at this
    simp only [restO, h1']
    rw [apply_ite outsOf, rest_after _ _ _ hc]
    exact this
  | outs f =>
    simp only [restO]
    rw [rest_after _ _ _ hc]
    exact past _ hs.1 hs.2
  | flag f =>
    obtain ⟨l', h1', _⟩ := hw' f.r hp
    rw [rest_flag w' a f hc h1', ← here f.r hp hs.2.2 l' h1']
    exact past _ hs.1 hs.2.1
  | flag2 f =>
    obtain ⟨l', h1', _⟩ := hw' f.r hp
    rw [flag2_outs w' a f hc h1', ← here f.r hp hs.2.2 l' h1']
    exact past _ hs.1 hs.2.1
  | send r evt =>
    obtain ⟨l', h1', _⟩ := hw' r hp
    rw [rest_send w' a r evt h1', ← here r hp hs.2.2 l' h1']
    exact past _ hs.1 hs.2.1
  | done o => exact .inl hs

/-! ## One change of outputs -/

/-- `w'` is `w` but for the outputs of `q`, which are not empty in `w'`. -/
structure OutSwitch (P : Nat → Prop) (q : Nat) (w w' : World) : Prop where
  level : ∀ c, P c → ∀ l l', w.heap[c]? = some l → w'.heap[c]? = some l' → l'.level = l.level ∧ l'.parent = l.parent
  other : ∀ c, P c → c ≠ q → ∀ l l', w.heap[c]? = some l → w'.heap[c]? = some l' → l'.outputs = l.outputs
  here : ∀ l', w'.heap[q]? = some l' → l'.outputs ≠ []

theorem OutSwitch.came (h : OutSwitch P q w w') (hw : Well w P) (hw' : Well w' P) {a : LogArgs V} {r0 r : Nat} (h0 : P r0)
    (hc : Came w a r0 r) : Came w' a r0 r ∨ r < q := by
  induction hc with
  | refl => exact .inl .refl
  | @up c p l hc hl hlev ho hp ih =>
    have hP := hc.within hw h0
    obtain ⟨l1, h1, h2⟩ := hw c hP
    rw [hl] at h1; injection h1 with h1; subst h1
    have hlt := (h2 p hp).1
    obtain ⟨l', h1', _⟩ := hw' c hP
    rcases ih with ih | ih
    · by_cases hq : c = q
      · subst hq; exact .inr hlt
      · left
        obtain ⟨x, z⟩ := h.level c hP l l' hl h1'
        refine .up ih h1' ?_ ((h.other c hP hq l l' hl h1').trans ho) (z.trans hp)
        rw [level_congr hw hw' h.level hP]; exact hlev
    · exact .inr (by omega)

theorem OutSwitch.before (h : OutSwitch P q w w') (hw : Well w P) (hw' : Well w' P) (a : LogArgs V) {c : Nat} (hc : P c) (hq : c < q) :
    gOuts w' a c = gOuts w a c ∧ aOuts w' a c = aOuts w a c := by
  induction c using Nat.strongRecOn with
  | ind c ih =>
    obtain ⟨l, h1, h2⟩ := hw c hc
    obtain ⟨l', h1', _⟩ := hw' c hc
    obtain ⟨x, z⟩ := h.level c hc l l' h1 h1'
    have e : aOuts w' a c = aOuts w a c := by
      rw [aOuts_rec hw a hc h1, aOuts_rec hw' a hc h1', h.other c hc (by omega) l l' h1 h1', z]
      split
      · cases hp : l.parent with
        | none => rfl
        | some p =>
          have := (h2 p hp).1
          exact (ih p this (h2 p hp).2 (by omega)).1
      · rfl
    refine ⟨?_, e⟩
    unfold gOuts
    rw [e, level_congr hw hw' h.level hc]

theorem OutSwitch.rest (h : OutSwitch P q w w') (hw : Well w P) (hw' : Well w' P) {a : LogArgs V} {r0 : Nat} (h0 : P r0) {p : LogPc V}
    (hp : p.Within P) (hc : p.CleanPc) (hs : p.Seen w a r0) :
    outsOf (restO w' a p) = gOuts w a r0 ∨ outsOf (restO w' a p) = gOuts w' a r0 := by
  have hlev : ∀ c, P c → w'.level c = w.level c := fun c hc => level_congr hw hw' h.level hc
  -- from `r` on
  have go : ∀ r, Came w a r0 r → gOuts w' a r = gOuts w a r0 ∨ gOuts w' a r = gOuts w' a r0 := by
    intro r hcame
    rcases h.came hw hw' h0 hcame with hx | hx
    · exact .inr (hx.outs hw' h0).symm
    · left
      rw [(h.before hw hw' a (hcame.within hw h0) hx).1, hcame.outs hw h0]
  have past : ∀ r, Came w a r0 r → w.level r ≤ a.lvl → aOuts w' a r = gOuts w a r0 ∨ aOuts w' a r = gOuts w' a r0 := by
    intro r hcame hl
    have := go r hcame
    rw [gOuts, hlev r (hcame.within hw h0), if_pos hl] at this
    exact this
  have here : ∀ r, P r → (∀ l, w.heap[r]? = some l → l.outputs = [] → l.parent = none) → ∀ l', w'.heap[r]? = some l' →
      aOuts w' a r = l'.outputs := by
    intro r hr hh l' e'
    obtain ⟨l, e, _⟩ := hw r hr
    refine aOuts_here hw' a hr e' fun ho => ?_
    have hq : r ≠ q := fun hq => by subst hq; exact h.here l' e' ho
    rw [(h.level r hr l l' e e').2]
    exact hh l e ((h.other r hr hq l l' e e') ▸ ho)
  cases p with
  | printf stack r ctx =>
    obtain rfl : r = r0 := hs
    exact .inr (rest_printf hw' a hp hc)
  | level f c =>
    have e : walkFrom w' c = w'.level f.r := by
      rw [hlev _ hp.1, hs.2.level hw hp.1]
      cases c with
      | none => rfl
      | some c => exact hlev c (hp.2 c rfl)
    simp only [restO, e]
    rw [apply_ite outsOf, rest_after _ _ _ hc]
    exact go _ hs.1
  | level2 f c =>
    obtain ⟨l', h1', _⟩ := hw' c hp.2
    obtain ⟨l, h1, _⟩ := hw c hp.2
    have e : l'.level = w'.level f.r := by
      rw [hlev _ hp.1, hs.2.1.level hw hp.1, (h.level c hp.2 l l' h1 h1').1]
      show _ = w.level c
      rw [level_rec hw hp.2 h1, if_pos (hs.2.2 l h1)]
    simp only [restO, h1', e]
    rw [apply_ite outsOf, rest_after _ _ _ hc]
    exact go _ hs.1
  | outs f =>
    simp only [restO]
    rw [rest_after _ _ _ hc]
    exact past _ hs.1 hs.2
  | flag f =>
    obtain ⟨l', h1', _⟩ := hw' f.r hp
    rw [rest_flag w' a f hc h1', ← here f.r hp hs.2.2 l' h1']
    exact past _ hs.1 hs.2.1
  | flag2 f =>
    obtain ⟨l', h1', _⟩ := hw' f.r hp
    rw [flag2_outs w' a f hc h1', ← here f.r hp hs.2.2 l' h1']
    exact past _ hs.1 hs.2.1
  | send r evt =>
    obtain ⟨l', h1', _⟩ := hw' r hp
    rw [rest_send w' a r evt h1', ← here r hp hs.2.2 l' h1']
    exact past _ hs.1 hs.2.1
  | done o => exact .inl hs

/-! ## A whole call -/

theorem exec_done {a : LogArgs V} {w0 w : World} {o : Outcome V} {p : LogPc V} {k : Nat} {ms : List Move}
    (hx : LogExec a w0 (.done o) k ms w p) : p = .done o := by
  induction hx with
  | refl => rfl
  | own _ ih => rw [ih]; rfl
  | other _ _ ih => exact ih

theorem level_switch (w : World) (q : Nat) (v : Level) (hv : v ≠ Level.Uninitialized) (P : Nat → Prop) :
    LevelSwitch P q v w ((Move.level q v).run w) where
  outs := by
    intro c _ l l' e e'
    simp only [Move.run, setLevel] at e'
    rw [update_heap] at e'
    split at e'
    · rw [e] at e'; simp at e'; subst e'; exact ⟨rfl, rfl⟩
    · rw [e] at e'; injection e' with e'; subst e'; exact ⟨rfl, rfl⟩
  other := by
    intro c _ hq l l' e e'
    simp only [Move.run, setLevel] at e'
    rw [update_heap, if_neg (Ne.symm hq), e] at e'
    injection e' with e'; subst e'; rfl
  here := by
    intro l' e'
    simp only [Move.run, setLevel] at e'
    rw [update_heap, if_pos rfl] at e'
    cases e : w.heap[q]? with
    | none => rw [e] at e'; cases e'
    | some l => rw [e] at e'; simp at e'; subst e'; rfl
  set := hv

theorem out_switch (w : World) (q : Nat) (ops : List Nat) (ho : ops ≠ []) (P : Nat → Prop) :
    OutSwitch P q w ((Move.outputs q ops).run w) where
  level := by
    intro c _ l l' e e'
    simp only [Move.run, assignOutputs] at e'
    rw [update_heap] at e'
    split at e'
    · rw [e] at e'; simp at e'; subst e'; exact ⟨rfl, rfl⟩
    · rw [e] at e'; injection e' with e'; subst e'; exact ⟨rfl, rfl⟩
  other := by
    intro c _ hq l l' e e'
    simp only [Move.run, assignOutputs] at e'
    rw [update_heap, if_neg (Ne.symm hq), e] at e'
    injection e' with e'; subst e'; rfl
  here := by
    intro l' e'
    simp only [Move.run, assignOutputs] at e'
    rw [update_heap, if_pos rfl] at e'
    cases e : w.heap[q]? with
    | none => rw [e] at e'; cases e'
    | some l => rw [e] at e'; simp at e'; subst e'; exact ho

/-- A call during which one statement changes a level (to one that is not "unset") or the outputs of a logger (to some): its outputs are
those before the change or those after. -/
theorem exec_switch {a : LogArgs V} {w0 w : World} {stack : List Frame} {r : Nat} {ctx : Ctx V} {o : Outcome V} {k : Nat} {pre post : List Move}
    {m : Move} {P : Nat → Prop} (hw : Well w0 P) (hr : P r) (hc : Clean ctx)
    (hx : LogExec a w0 (.printf stack r ctx) k (pre ++ m :: post) w (.done o))
    (hpre : ∀ x ∈ pre, x.Neutral) (hpost : ∀ x ∈ post, x.Neutral)
    (hm : (∃ q v, m = .level q v ∧ v ≠ Level.Uninitialized) ∨ ∃ (q : Nat) (ops : List Nat), m = .outputs q ops ∧ ops ≠ []) :
    outsOf o = outsOf (restO w0 a (.printf stack r ctx)) ∨
      outsOf o = outsOf (restO (runMoves w0 (pre ++ m :: post)) a (.printf stack r ctx)) := by
  obtain ⟨k1, k2, w1, p1, h1, h2⟩ := logExec_split hx rfl
  have hcp : LogPc.CleanPc (.printf stack r ctx : LogPc V) := hc
  have hrp : LogPc.Within P (.printf stack r ctx : LogPc V) := hr
  have e1 := logExec_world h1
  have e2 := logExec_world h2
  have well1 : Well w1 P := by rw [e1]; exact hw.keeps (runMoves_keeps _ _)
  have well2 : Well (m.run w1) P := well1.keeps (m.keeps w1)
  have well3 : Well w P := by rw [e2]; exact well2.keeps (runMoves_keeps _ _)
  have ew : runMoves w0 (pre ++ m :: post) = w := by
    rw [runMoves_append, ← e1, e2]; rfl
  have eq1 : Equiv P w0 w1 := by rw [e1]; exact neutral_equiv hw hpre
  have eq2 : Equiv P (m.run w1) w := by rw [e2]; exact neutral_equiv well2 hpost
  have hin := exec_within hw hrp h1
  have hcl := exec_clean hcp h1
  have hs := exec_seen hw hr hc h1 hpre
  have hrest : outsOf (restO (m.run w1) a p1) = gOuts w1 a r ∨ outsOf (restO (m.run w1) a p1) = gOuts (m.run w1) a r := by
    rcases hm with ⟨q, v, rfl, hv⟩ | ⟨q, ops, rfl, ho⟩
    · exact (level_switch w1 q v hv P).rest well1 well2 hr hin hcl hs
    · exact (out_switch w1 q ops ho P).rest well1 well2 hr hin hcl hs
  have htail : outsOf o = outsOf (restO (m.run w1) a p1) := by
    have hag : ∀ p, p <+: post → Equiv P (m.run w1) (runMoves (m.run w1) p) := by
      rintro p ⟨t, ht⟩
      exact neutral_equiv well2 fun x hx => hpost x (by rw [← ht]; simp [hx])
    by_cases hd : ∃ o1, p1 = .done o1
    · obtain ⟨o1, rfl⟩ := hd
      have := exec_done h2
      injection this with this
      rw [this]; rfl
    · rcases exec_agree well2 hin hcl h2 (List.prefix_refl post) (fun p hp => (hag p hp).agree) (fun o1 e => hd ⟨o1, e⟩) with ⟨h, _⟩ | ⟨o1, p, ho, hp, e⟩
      · exact absurd rfl (h o)
      · injection ho with ho
        subst ho
        rw [e]
        exact rest_equiv well2 (well2.keeps (runMoves_keeps _ _)) (hag p hp) a hin hcl
  rw [ew, rest_printf hw a hr hc, rest_printf well3 a hr hc, (gOuts_congr well2 well3 eq2 a hr).1, ← (gOuts_congr hw well1 eq1 a hr).1, htail]
  exact hrest

end Log4g
