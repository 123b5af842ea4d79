import Verif.Lemmas.MachineClose

/-! # Programs and their files: runs -/

namespace Log4g
open Spec Strconv
open scoped List
variable {V : Type} {env : PEnv V} {host : Host} {up : Nat → Bool} {v0 : Nat → Volume} {tr : List (MLab V)} {m : Machine V}

theorem MExec.trans {m1 m2 m3 : Machine V} {a b : List (MLab V)} (h1 : MExec env host m1 a m2) (h2 : MExec env host m2 b m3) : MExec env host m1 (a ++ b) m3 := by
  induction h2 with
  | nil => simpa using h1
  | snoc _ hs ih => rw [← List.append_assoc]; exact ih.snoc hs

/-- Nothing is being written. -/
def Calm (m : Machine V) : Prop := ∀ o, (m.wr o).job = none ∧ m.by_ o = none

theorem calm_of (inv : MInv env host up v0 tr m) (h : ∀ o c, m.p.w.rollOf env.tc o = some c → (m.wr o).job = none) : Calm m := by
  intro o
  have hj : (m.wr o).job = none := by
    cases e : m.p.w.rollOf env.tc o with
    | none => rw [(inv.idle o e).1]
    | some c => exact h o c e
  refine ⟨hj, ?_⟩
  cases hb : m.by_ o with
  | none => rfl
  | some t => exact absurd hj (inv.waits o t hb)

theorem calm_lets (h : Calm m) (l : PLab V) : m.lets l := by
  refine ⟨fun t _ o => by rw [(h o).2]; simp, ?_⟩
  split <;> first | exact (h _).1 | trivial

/-- A step gives something to at most one writer. -/
theorem given_one {tr : List (PLab V)} {s s' : PState V} {l : PLab V} (h : PExec env (newProgram up) tr s) (hs : PStep env s l s') {o q : Nat} (ho : s'.given env o ≠ s.given env o)
    (hq : q ≠ o) : s'.given env q = s.given env q := by
  rcases given_step h hs q with k | ⟨t, e, _, rfl, _⟩ | ⟨a, _, _, rfl, _⟩
  · exact k
  · rcases given_step h hs o with k' | ⟨_, _, _, k', _⟩ | ⟨_, _, _, k', _⟩
    · exact absurd k' ho
    · cases k'; exact absurd rfl hq
    · cases k'
  · rcases given_step h hs o with k' | ⟨_, _, _, k', _⟩ | ⟨_, _, _, k', _⟩
    · exact absurd k' ho
    · cases k'
    · cases k'; exact absurd rfl hq

theorem given_grows {tr : List (PLab V)} {s s' : PState V} {l : List (PLab V)} (h : PExec env (newProgram up) tr s) (hs : PExec env s l s') (o : Nat) :
    s.given env o <+: s'.given env o := by
  induction hs with
  | nil => exact List.prefix_refl _
  | snoc h1 h2 ih =>
    refine ih.trans ?_
    rcases given_step (h.trans h1) h2 o with k | ⟨_, _, _, _, _, _, _, k⟩ | ⟨_, _, _, _, _, _, _, _, k⟩
    · rw [k]; exact List.prefix_refl _
    · rw [k]; exact List.prefix_append _ _
    · rw [k]; exact List.prefix_append _ _

/-- The program goes on as long as nothing is given to a writer. -/
theorem quiet_lift (h : PExec env (newProgram up) (progOf tr) m.p) (hc : Calm m) {l : List (PLab V)} {p : PState V} (hp : PExec env m.p l p)
    (hg : ∀ o c, p.w.rollOf env.tc o = some c → p.given env o = m.p.given env o) :
    MExec env host m (l.map .prog) { m with p := p } ∧ Calm { m with p := p } := by
  refine ⟨?_, hc⟩
  generalize e : m.p = p0 at hp
  induction hp with
  | nil => subst e; exact .nil
  | @snoc l p1 x p2 h1 h2 ih =>
    subst e
    have hx := h.trans h1
    have x1 := ext_step (pexec_inv hx) h2
    have same : ∀ o c, p2.w.rollOf env.tc o = some c → p1.given env o = m.p.given env o := by
      intro o c ho
      have g1 := given_grows h h1 o
      have g2 := given_grows hx (PExec.nil.snoc h2) o
      rw [hg o c ho] at g2
      exact (List.IsPrefix.eq_of_length g1 (Nat.le_antisymm g1.length_le g2.length_le)).symm
    rw [List.map_append]
    refine (ih (fun o c ho => same o c (roll_ext x1 ho))).snoc ?_
    have step := MStep.prog (host := host) (m := { m with p := p1 }) (l := x) h2 (calm_lets hc x) (fun o c ho => by rw [hg o c ho]; exact (same o c ho).symm)
    exact step

theorem view_eq {m m' : Machine V} {k o : Nat} {c : RCfg} {x : Scribe} {v : Volume} {s : Shared} (hs : s = ({ m.view env host k with vol := v } : Shared).set o x)
    (hw : m'.p.w = m.p.w) (hwr : ∀ q, m'.wr q = if q = o then x else m.wr q) (hv : m'.vol k = v) (h : writersIn env.tc host m.p.w k o = some c) : m'.view env host k = s := by
  rw [hs]; exact view_set hw hwr hv h

/-- The calls of writers in one directory. -/
def CallsOnly (tr : List ShLab) : Prop := ∀ l ∈ tr, (∃ i x, l = .sys i x) ∨ ∃ i msg res, l = .ret i msg res

theorem io_lift {k : Nat} (hp : m.p.panicked = false) {s0 s : Shared} {cs : Nat → Option RCfg} {t : List ShLab} (h : ShExec host.umask host.lib cs s0 t s) (hs : m.view env host k = s0) (ht : CallsOnly t) :
    ∃ mtr m', MExec env host m mtr m' ∧ progOf mtr = [] ∧ ioIn k mtr = t ∧ m'.p = m.p ∧ m'.view env host k = s ∧ (∀ j, j ≠ k → m'.vol j = m.vol j ∧ ioIn j mtr = []) ∧
      ∀ q, writersIn env.tc host m.p.w k q = none → m'.wr q = m.wr q ∧ m'.by_ q = m.by_ q := by
  induction h with
  | start => exact ⟨[], m, .nil, rfl, rfl, rfl, hs, fun j _ => ⟨rfl, rfl⟩, fun q _ => ⟨rfl, rfl⟩⟩
  | @step t s l s' h1 h2 ih =>
    obtain ⟨mtr, m', e1, e2, e3, e4, rfl, e6, e7⟩ := ih fun l hl => ht l (List.mem_append_left _ hl)
    have wr : ∀ {i : Nat} {x}, ((m'.view env host k).wr i).job = some x → ∃ c, writersIn env.tc host m'.p.w k i = some c := by
      intro i x hx
      cases hw : writersIn env.tc host m'.p.w k i with
      | none => simp [Machine.view, hw] at hx
      | some c => exact ⟨c, rfl⟩
    rcases ht l (List.mem_append_right _ (List.mem_singleton.mpr rfl)) with ⟨i, x, rfl⟩ | ⟨i, msg, res, rfl⟩
    · cases h2 with
      | @sys _ msg op k' r v' h' hj hv =>
        obtain ⟨c, hw⟩ := wr hj
        obtain ⟨k1, k2⟩ := writersIn_iff.mp hw
        subst k2
        have hvw := view_wr hw
        rw [hvw] at hj hv
        have st := MStep.sys (host := host) (by rw [e4]; exact hp) k1 hj hv
        refine ⟨_, _, e1.snoc st, by rw [progOf_append, e2]; rfl, by rw [ioIn_append, e3]; simp [ioIn], e4, ?_, fun j hjk => ?_, fun q hq => ?_⟩
        · exact view_eq (m := m') (by rw [hvw]) rfl (fun q => rfl) (by simp [Machine.setWr]) hw
        · refine ⟨?_, by rw [ioIn_append, (e6 j hjk).2]; simp [ioIn, Ne.symm hjk]⟩
          simp only [Machine.setWr, if_neg hjk]
          exact (e6 j hjk).1
        · have : q ≠ i := by rintro rfl; rw [e4] at hw; rw [hw] at hq; cases hq
          simp only [Machine.setWr, if_neg this]
          exact e7 q hq
    · cases h2 with
      | @ret _ _ _ rw' hj =>
        obtain ⟨c, hw⟩ := wr hj
        obtain ⟨k1, k2⟩ := writersIn_iff.mp hw
        subst k2
        have hvw := view_wr hw
        rw [hvw] at hj
        have st := MStep.done (host := host) (by rw [e4]; exact hp) k1 hj
        refine ⟨_, _, e1.snoc st, by rw [progOf_append, e2]; rfl, by rw [ioIn_append, e3]; simp [ioIn], e4, ?_, fun j hjk => ?_, fun q hq => ?_⟩
        · exact view_eq (m := m') (v := m'.vol (host.place c.dirPath)) (by rw [hvw]; rfl) rfl (fun q => rfl) rfl hw
        · exact ⟨(e6 j hjk).1, by rw [ioIn_append, (e6 j hjk).2]; simp [ioIn, Ne.symm hjk]⟩
        · have : q ≠ i := by rintro rfl; rw [e4] at hw; rw [hw] at hq; cases hq
          simp only [Machine.setWr, if_neg this]
          exact e7 q hq

theorem ShExec.split {umask : Nat} {lib : RLib} {cs : Nat → Option RCfg} {s0 s : Shared} {a b : List ShLab} (h : ShExec umask lib cs s0 (a ++ b) s) :
    ∃ s1, ShExec umask lib cs s0 a s1 ∧ ShExec umask lib cs s1 b s := by
  generalize e : a ++ b = t at h
  induction h generalizing a b with
  | start =>
    obtain ⟨rfl, rfl⟩ := List.append_eq_nil_iff.mp e
    exact ⟨_, .start, .start⟩
  | @step t s1 l s2 h1 h2 ih =>
    rcases List.eq_nil_or_concat b with rfl | ⟨b', x, rfl⟩
    · rw [List.append_nil] at e; subst e
      exact ⟨_, h1.step h2, .start⟩
    · rw [List.concat_eq_append, ← List.append_assoc] at e
      obtain ⟨e1, e2⟩ := List.append_inj' e rfl
      cases e2
      obtain ⟨m', k1, k2⟩ := ih e1
      exact ⟨m', k1, by rw [List.concat_eq_append]; exact k2.step h2⟩

/-- A writer is given something and writes it. -/
theorem write_lift (hx : MExec env host (newMachine up v0) tr m) (hc : Calm m) {l : PLab V} {p : PState V} (hp : PStep env m.p l p) (hp' : p.panicked = false) {o k : Nat} {c : RCfg} {bs : Bytes}
    (ho : p.w.rollOf env.tc o = some c) (hk : host.place c.dirPath = k) (hg : p.given env o = m.p.given env o ++ [bs]) {t : List ShLab} {s : Shared}
    (h : ShExec host.umask host.lib (writersIn env.tc host p.w k) (m.view env host k) (.start o bs :: t) s) (ht : CallsOnly t) (hs : ∀ q, (s.wr q).job = none) :
    ∃ mtr m', MExec env host m mtr m' ∧ progOf mtr = [l] ∧ ioIn k mtr = .start o bs :: t ∧ m'.p = p ∧ m'.view env host k = s ∧ Calm m' ∧
      ∀ j, j ≠ k → m'.vol j = m.vol j ∧ ioIn j mtr = [] := by
  subst hk
  have inv := mexec_inv hx
  have hw : writersIn env.tc host p.w (host.place c.dirPath) o = some c := writersIn_iff.mpr ⟨ho, rfl⟩
  have st := MStep.write (host := host) hp (calm_lets hc l) ho hg (fun q c hq _ => given_one inv.prog hp (by rw [hg]; simp) hq) (hc o).1
  obtain ⟨s1, h1, h2⟩ := ShExec.split (a := [.start o bs]) h
  have e1 : s1 = ((({ m with p := p, by_ := fun q => if q = o then l.goroutine else m.by_ q } : Machine V).setWr o
          { m.wr o with job := some (bs, c.write host.lib (m.wr o).rw bs) }).view env host (host.place c.dirPath)) := by
    have hv : ({ m with p := p } : Machine V).view env host (host.place c.dirPath) = m.view env host (host.place c.dirPath) :=
      view_same (ext_step (pexec_inv inv.prog) hp) (fun o ho => (inv.idle o ho).1) _
    have hvw : (m.view env host (host.place c.dirPath)).wr o = m.wr o := by rw [← hv]; exact view_wr (m := { m with p := p }) hw
    generalize e : [ShLab.start o bs] = x at h1
    cases h1 with
    | start => cases e
    | @step t s l s' h3 h4 =>
      have ⟨e', e''⟩ := List.append_inj' (s₁ := []) e rfl
      cases e''
      subst e'
      generalize e : ([] : List ShLab) = x at h3
      cases h3 with
      | step _ _ => simp at e
      | start =>
        cases h4 with
        | start k1 k2 =>
          rw [hw] at k1; cases k1
          symm
          exact (view_eq (m := { m with p := p }) (v := m.vol (host.place c.dirPath)) (by rw [hv, hvw]; rfl) rfl (fun q => rfl) rfl hw)
  obtain ⟨mtr, m', g1, g2, g3, g4, g5, g6, g7⟩ := io_lift (by exact hp') h2 e1.symm ht
  refine ⟨_, m', (MExec.nil.snoc st).trans g1, by rw [progOf_append, g2]; rfl, by rw [ioIn_append, g3]; simp [ioIn], g4, g5, ?_, fun j hj => ?_⟩
  · have hx' := (hx.snoc st).trans g1
    refine calm_of (mexec_inv hx') fun q c' hq => ?_
    have hq' : p.w.rollOf env.tc q = some c' := by rw [g4] at hq; exact hq
    cases hw' : writersIn env.tc host p.w (host.place c.dirPath) q with
    | some c'' =>
      have := hs q
      rw [← g5, view_wr (by rw [g4]; exact hw')] at this
      exact this
    | none =>
      have := (g7 q hw').1
      have hqo : q ≠ o := by rintro rfl; rw [hw] at hw'; cases hw'
      rw [this]
      simp only [Machine.setWr, if_neg hqo]
      exact (hc q).1
  · refine ⟨(g6 j hj).1, ?_⟩
    rw [ioIn_append, (g6 j hj).2]
    simp [ioIn, Ne.symm hj]

end Log4g
