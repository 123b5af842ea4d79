import Verif.Spec.Machine
import Verif.Lemmas.SystemFacts
import Verif.Lemmas.SystemClose
import Verif.Lemmas.SystemSync
import Verif.Lemmas.SharedRuns

/-! # Programs and their files: invariants -/

namespace Log4g
open Spec Strconv
open scoped List
variable {V : Type} {env : PEnv V} {host : Host}

theorem progOf_append (a b : List (MLab V)) : progOf (a ++ b) = progOf a ++ progOf b := List.flatMap_append
theorem ioIn_append (k : Nat) (a b : List (MLab V)) : ioIn k (a ++ b) = ioIn k a ++ ioIn k b := List.flatMap_append
theorem messages_append (a b : List Deed) : messages (a ++ b) = messages a ++ messages b := List.flatMap_append

/-! ## Which outputs have rolling writers -/

theorem rolling_iff {tc : Toolchain} {w : World} {o : Nat} {c : RCfg} : RollingOut tc w o c ↔ w.rollOf tc o = some c := by
  unfold RollingOut World.rollOf
  constructor
  · rintro ⟨ob, kind, h1, h2⟩
    rw [h1]; simp only [h2]
  · intro h
    cases h1 : w.mgr.oheap[o]? with
    | none => rw [h1] at h; cases h
    | some ob =>
      rw [h1] at h
      simp only at h
      split at h
      · rename_i c' k hk
        cases h
        exact ⟨ob, k, rfl, hk⟩
      · cases h

theorem rollOf_lt {tc : Toolchain} {w : World} {o : Nat} {c : RCfg} (h : w.rollOf tc o = some c) : o < w.mgr.oheap.length := by
  obtain ⟨ob, _, h, _⟩ := rolling_iff.mpr h
  exact (List.getElem?_eq_some_iff.mp h).1

/-- Whatever is configured, the path of the archive is the path of the log directory (internal/output_rolling.go:28-59). -/
theorem rollOf_usual {tc : Toolchain} {w : World} {o : Nat} {c : RCfg} (h : w.rollOf tc o = some c) : c.archivePath = c.dirPath ∧ c.exploded = false := by
  obtain ⟨ob, kind, _, h⟩ := rolling_iff.mpr h
  unfold OutObj.kind at h
  split at h
  · cases h
  · cases h
  · repeat' split at h
    all_goals first | (cases h; done) | skip
    cases h
    rename_i h
    unfold newRollingOutput at h
    split at h
    · cases h
    · rename_i hc
      split at h <;> (cases h; exact newRollingWriter_archive hc)

theorem ext_rollOf (tc : Toolchain) {w w' : World} (x : Ext w w') {o : Nat} (h : o < w.mgr.oheap.length) : w'.rollOf tc o = w.rollOf tc o := by
  unfold World.rollOf
  rw [ext_oheap x h]

theorem roll_ext {tc : Toolchain} {w w' : World} (x : Ext w w') {o : Nat} {c : RCfg} (h : w.rollOf tc o = some c) : w'.rollOf tc o = some c := by
  rw [ext_rollOf tc x (rollOf_lt h), h]

/-- The writers in directory `k`. -/
def writersIn (tc : Toolchain) (host : Host) (w : World) (k : Nat) (o : Nat) : Option RCfg :=
  match w.rollOf tc o with
  | some c => if host.place c.dirPath = k then some c else none
  | none => none

theorem writersIn_iff {tc : Toolchain} {w : World} {k o : Nat} {c : RCfg} : writersIn tc host w k o = some c ↔ w.rollOf tc o = some c ∧ host.place c.dirPath = k := by
  unfold writersIn
  cases w.rollOf tc o with
  | none => simp
  | some c' =>
    simp only [Option.some.injEq]
    by_cases e : host.place c'.dirPath = k
    · simp only [if_pos e, Option.some.injEq]
      exact ⟨fun h => ⟨h, h ▸ e⟩, fun h => h.1⟩
    · simp only [if_neg e, reduceCtorEq, false_iff]
      rintro ⟨rfl, h⟩
      exact e h

/-- More writers. -/
theorem ShExec.mono {umask : Nat} {lib : RLib} {cs cs' : Nat → Option RCfg} (hc : ∀ i c, cs i = some c → cs' i = some c) {s0 s : Shared} {tr : List ShLab}
    (h : ShExec umask lib cs s0 tr s) : ShExec umask lib cs' s0 tr s := by
  induction h with
  | start => exact .start
  | step _ hs ih =>
    refine ih.step ?_
    cases hs with
    | start h1 h2 => exact .start (hc _ _ h1) h2
    | sys h1 h2 => exact .sys h1 h2
    | ret h1 => exact .ret h1
    | die => exact .die

/-- Directory `k` and its writers. -/
def Machine.view (env : PEnv V) (host : Host) (m : Machine V) (k : Nat) : Shared where
  vol := m.vol k
  wr o := match writersIn env.tc host m.p.w k o with
    | some _ => m.wr o
    | none => {}

/-- What is being written. -/
def doing (x : Scribe) : List Bytes := match x.job with | some (msg, _) => [msg] | none => []

/-- What holds throughout. -/
structure MInv (env : PEnv V) (host : Host) (up : Nat → Bool) (v0 : Nat → Volume) (tr : List (MLab V)) (m : Machine V) : Prop where
  prog : PExec env (newProgram up) (progOf tr) m.p
  dirs : ∀ k, ShExec host.umask host.lib (writersIn env.tc host m.p.w k) { vol := v0 k } (ioIn k tr) (m.view env host k)
  idle : ∀ o, m.p.w.rollOf env.tc o = none → m.wr o = {} ∧ m.by_ o = none ∧ ∀ k, deedsOf o (ioIn k tr) = []
  given : ∀ o c, m.p.w.rollOf env.tc o = some c → m.p.given env o = messages (deedsOf o (ioIn (host.place c.dirPath) tr)) ++ doing (m.wr o)
  waits : ∀ o t, m.by_ o = some t → (m.wr o).job ≠ none

theorem given_new {up : Nat → Bool} {tr : List (PLab V)} {s : PState V} (h : PExec env (newProgram up) tr s) {o : Nat} (ho : s.w.mgr.oheap.length ≤ o) :
    s.given env o = [] := by
  have inv := pexec_inv h
  have hn : s.w.asyncOf env o = none := by
    cases e : s.w.asyncOf env o with
    | none => rfl
    | some cfg => exact absurd (asyncOf_lt e) (by omega)
  obtain ⟨q, hq⟩ := pexec_sinv h
  unfold PState.given
  rw [hn]
  simp only
  rw [hq.wrote o]
  by_cases e : q o = []
  · rw [e]; rfl
  · exact absurd (hq.old o e) (by omega)

theorem view_same {m : Machine V} {p : PState V} (x : Ext m.p.w p.w) (hi : ∀ o, m.p.w.rollOf env.tc o = none → m.wr o = {}) (k : Nat) :
    ({ m with p := p } : Machine V).view env host k = m.view env host k := by
  unfold Machine.view
  congr 1
  funext o
  cases h : m.p.w.rollOf env.tc o with
  | none =>
    have : writersIn env.tc host m.p.w k o = none := by rw [writersIn, h]
    rw [this, hi o h]
    split <;> rfl
  | some c =>
    have : writersIn env.tc host p.w k o = writersIn env.tc host m.p.w k o := by rw [writersIn, writersIn, roll_ext x h, h]
    simp only [this]

theorem writersIn_mono {w w' : World} (x : Ext w w') (k : Nat) : ∀ i c, writersIn env.tc host w k i = some c → writersIn env.tc host w' k i = some c := by
  intro i c h
  obtain ⟨h1, h2⟩ := writersIn_iff.mp h
  exact writersIn_iff.mpr ⟨roll_ext x h1, h2⟩

theorem view_wr {m : Machine V} {k o : Nat} {c : RCfg} (h : writersIn env.tc host m.p.w k o = some c) : (m.view env host k).wr o = m.wr o := by
  simp only [Machine.view, h]

/-- The view of the directory in which something happens to the writer `o`. -/
theorem view_set {m m' : Machine V} {k o : Nat} {c : RCfg} {x : Scribe} {v : Volume} (hw : m'.p.w = m.p.w) (hwr : ∀ q, m'.wr q = if q = o then x else m.wr q)
    (hv : m'.vol k = v) (h : writersIn env.tc host m.p.w k o = some c) : m'.view env host k = ({ m.view env host k with vol := v } : Shared).set o x := by
  simp only [Machine.view, Shared.set, Shared.mk.injEq]
  refine ⟨hv, ?_⟩
  funext q
  rw [hw]
  by_cases e : q = o
  · subst e; simp only [h, hwr, if_true]
  · rw [if_neg e, hwr, if_neg e]

/-- The view of another directory. -/
theorem view_other {m m' : Machine V} {k o : Nat} {x : Scribe} (hw : m'.p.w = m.p.w) (hwr : ∀ q, m'.wr q = if q = o then x else m.wr q)
    (hv : m'.vol k = m.vol k) (h : writersIn env.tc host m.p.w k o = none) : m'.view env host k = m.view env host k := by
  simp only [Machine.view, Shared.mk.injEq]
  refine ⟨hv, ?_⟩
  funext q
  rw [hw]
  by_cases e : q = o
  · subst e; simp only [h]
  · simp only [hwr, if_neg e]

theorem writersIn_other {tc : Toolchain} {w : World} {k o : Nat} {c : RCfg} (h : w.rollOf tc o = some c) (hk : host.place c.dirPath ≠ k) : writersIn tc host w k o = none := by
  rw [writersIn, h]
  simp only [if_neg hk]

theorem exec_set {umask : Nat} {lib : RLib} {cs : Nat → Option RCfg} {s0 : Shared} {tr : List ShLab} {m m' : Machine V} {k o : Nat} {c : RCfg} {x : Scribe} {v : Volume}
    (hx : ShExec umask lib cs s0 tr (({ m.view env host k with vol := v } : Shared).set o x)) (hw : m'.p.w = m.p.w) (hwr : ∀ q, m'.wr q = if q = o then x else m.wr q)
    (hv : m'.vol k = v) (h : writersIn env.tc host m.p.w k o = some c) : ShExec umask lib cs s0 tr (m'.view env host k) := by
  rw [view_set hw hwr hv h]; exact hx

theorem exec_other {umask : Nat} {lib : RLib} {cs : Nat → Option RCfg} {s0 : Shared} {tr : List ShLab} {m m' : Machine V} {k o : Nat} {x : Scribe}
    (hx : ShExec umask lib cs s0 tr (m.view env host k)) (hw : m'.p.w = m.p.w) (hwr : ∀ q, m'.wr q = if q = o then x else m.wr q)
    (hv : m'.vol k = m.vol k) (h : writersIn env.tc host m.p.w k o = none) : ShExec umask lib cs s0 tr (m'.view env host k) := by
  rw [view_other hw hwr hv h]; exact hx

/-- What remains true when the program makes a step. -/
theorem moved {up : Nat → Bool} {v0 : Nat → Volume} {tr : List (MLab V)} {m : Machine V} {l : PLab V} {p : PState V} (h : MInv env host up v0 tr m) (hp : PStep env m.p l p) :
    (∀ k, ShExec host.umask host.lib (writersIn env.tc host p.w k) { vol := v0 k } (ioIn k tr) (({ m with p := p } : Machine V).view env host k)) ∧
    (∀ o, p.w.rollOf env.tc o = none → m.wr o = {} ∧ m.by_ o = none ∧ ∀ k, deedsOf o (ioIn k tr) = []) ∧
    ∀ o c, p.w.rollOf env.tc o = some c → m.p.given env o = messages (deedsOf o (ioIn (host.place c.dirPath) tr)) ++ doing (m.wr o) := by
  have x := ext_step (pexec_inv h.prog) hp
  refine ⟨fun k => ?_, fun o ho => ?_, fun o c ho => ?_⟩
  · rw [view_same x (fun o ho => (h.idle o ho).1)]
    exact (h.dirs k).mono (writersIn_mono x k)
  · have : m.p.w.rollOf env.tc o = none := by
      cases e : m.p.w.rollOf env.tc o with
      | none => rfl
      | some c => rw [roll_ext x e] at ho; cases ho
    exact h.idle o this
  · cases e : m.p.w.rollOf env.tc o with
    | some c' => rw [roll_ext x e] at ho; cases ho; exact h.given o c e
    | none =>
      obtain ⟨h1, _, h3⟩ := h.idle o e
      have hlt : m.p.w.mgr.oheap.length ≤ o := by
        refine Nat.le_of_not_lt fun hlt => ?_
        rw [ext_rollOf env.tc x hlt, e] at ho; cases ho
      rw [given_new h.prog hlt, h1, h3]
      rfl

theorem minv_step {up : Nat → Bool} {v0 : Nat → Volume} {tr : List (MLab V)} {m m' : Machine V} {l : MLab V} (h : MInv env host up v0 tr m)
    (hs : MStep env host m l m') : MInv env host up v0 (tr ++ [l]) m' := by
  cases hs with
  | @prog l p hp hl hg =>
    have io : ∀ k, ioIn k (tr ++ [.prog l]) = ioIn k tr := fun k => by rw [ioIn_append]; exact List.append_nil _
    obtain ⟨h1, h2, h3⟩ := moved h hp
    refine ⟨by rw [progOf_append]; exact h.prog.snoc hp, fun k => by rw [io]; exact h1 k, fun o ho => by simp only [io]; exact h2 o ho, fun o c ho => ?_, h.waits⟩
    rw [io]
    simp only
    rw [hg o c ho]
    exact h3 o c ho
  | @write l p o c bs hp hl ho hg hg' hj =>
    obtain ⟨h1, h2, h3⟩ := moved h hp
    have io : ∀ k, ioIn k (tr ++ [.write l (host.place c.dirPath) o bs]) = ioIn k tr ++ if host.place c.dirPath = k then [.start o bs] else [] := fun k => by
      rw [ioIn_append]; simp [ioIn]
    have dd : ∀ k q, deedsOf q (ioIn k (tr ++ [.write l (host.place c.dirPath) o bs])) = deedsOf q (ioIn k tr) := fun k q => by
      rw [io, deedsOf_append]; split <;> simp [deedsOf]
    refine ⟨by rw [progOf_append]; exact h.prog.snoc hp, fun k => ?_, fun q hq => ?_, fun q c' hq => ?_, fun q t hq => ?_⟩
    · rw [io]
      by_cases e : host.place c.dirPath = k
      · subst e
        have hw : writersIn env.tc host p.w (host.place c.dirPath) o = some c := writersIn_iff.mpr ⟨ho, rfl⟩
        rw [if_pos rfl]
        have := (h1 (host.place c.dirPath)).step (.start (msg := bs) hw (by rw [view_wr (m := { m with p := p }) hw]; exact hj))
        rw [view_wr (m := { m with p := p }) hw] at this
        exact exec_set (m := { m with p := p }) this rfl (fun q => rfl) rfl hw
      · rw [if_neg e, List.append_nil]
        exact exec_other (m := { m with p := p }) (h1 k) rfl (fun q => rfl) rfl (writersIn_other ho e)
    · have e : q ≠ o := by rintro rfl; simp only [Machine.setWr] at hq; rw [ho] at hq; cases hq
      simp only [dd, Machine.setWr, if_neg e]
      exact h2 q hq
    · rw [dd]
      simp only [Machine.setWr] at hq ⊢
      by_cases e : q = o
      · subst e
        rw [ho] at hq; cases hq
        have := h3 q c ho
        rw [hg, this, if_pos rfl]
        simp [doing, hj]
      · rw [if_neg e, hg' q c' e hq]
        exact h3 q c' hq
    · simp only [Machine.setWr] at hq ⊢
      by_cases e : q = o
      · rw [if_pos e]; simp
      · rw [if_neg e] at hq ⊢; exact h.waits q t hq
  | @sys o c msg op k r v' h' hp ho hj hv =>
    have io : ∀ j, ioIn j (tr ++ [.sys (host.place c.dirPath) o ⟨op, r⟩]) = ioIn j tr ++ if host.place c.dirPath = j then [.sys o ⟨op, r⟩] else [] := fun j => by
      rw [ioIn_append]; simp [ioIn]
    have dd : ∀ k q, deedsOf q (ioIn k (tr ++ [.sys (host.place c.dirPath) o ⟨op, r⟩])) = deedsOf q (ioIn k tr) := fun k q => by
      rw [io, deedsOf_append]; split <;> simp [deedsOf]
    refine ⟨by rw [progOf_append]; simpa [progOf, Machine.setWr] using h.prog, fun j => ?_, fun q hq => ?_, fun q c' hq => ?_, fun q t hq => ?_⟩
    · rw [io]
      by_cases e : host.place c.dirPath = j
      · subst e
        have hw : writersIn env.tc host m.p.w (host.place c.dirPath) o = some c := writersIn_iff.mpr ⟨ho, rfl⟩
        rw [if_pos rfl]
        have := (h.dirs (host.place c.dirPath)).step (.sys (i := o) (msg := msg) (o := op) (k := k) (r := r) (v' := v') (h' := h')
          (by rw [view_wr hw]; exact hj) (by rw [view_wr hw]; exact hv))
        rw [view_wr hw] at this
        exact exec_set (m := m) this rfl (fun q => rfl) (by simp [Machine.setWr]) hw
      · rw [if_neg e, List.append_nil]
        exact exec_other (m := m) (h.dirs j) rfl (fun q => rfl) (by simp [Machine.setWr, Ne.symm e]) (writersIn_other ho e)
    · have e : q ≠ o := by rintro rfl; simp only [Machine.setWr] at hq; rw [ho] at hq; cases hq
      simp only [dd, Machine.setWr, if_neg e]
      exact h.idle q hq
    · rw [dd]
      simp only [Machine.setWr] at hq ⊢
      rw [h.given q c' hq]
      by_cases e : q = o
      · subst e; simp [doing, hj]
      · rw [if_neg e]
    · simp only [Machine.setWr] at hq ⊢
      by_cases e : q = o
      · rw [if_pos e]; simp
      · rw [if_neg e]; exact h.waits q t hq
  | @done o c msg res rw' hp ho hj =>
    have io : ∀ j, ioIn j (tr ++ [.done (host.place c.dirPath) o msg res]) = ioIn j tr ++ if host.place c.dirPath = j then [.ret o msg res] else [] := fun j => by
      rw [ioIn_append]; simp [ioIn]
    refine ⟨by rw [progOf_append]; simpa [progOf, Machine.setWr] using h.prog, fun j => ?_, fun q hq => ?_, fun q c' hq => ?_, fun q t hq => ?_⟩
    · rw [io]
      by_cases e : host.place c.dirPath = j
      · subst e
        have hw : writersIn env.tc host m.p.w (host.place c.dirPath) o = some c := writersIn_iff.mpr ⟨ho, rfl⟩
        rw [if_pos rfl]
        have := (h.dirs (host.place c.dirPath)).step (.ret (i := o) (msg := msg) (res := res) (rw' := rw') (by rw [view_wr hw]; exact hj))
        rw [view_wr hw] at this
        exact exec_set (m := m) this rfl (fun q => rfl) rfl hw
      · rw [if_neg e, List.append_nil]
        exact exec_other (m := m) (h.dirs j) rfl (fun q => rfl) rfl (writersIn_other ho e)
    · have e : q ≠ o := by rintro rfl; simp only [Machine.setWr] at hq; rw [ho] at hq; cases hq
      obtain ⟨k1, k2, k3⟩ := h.idle q hq
      simp only [Machine.setWr, if_neg e]
      refine ⟨k1, k2, fun k => ?_⟩
      rw [io, deedsOf_append, k3]
      split <;> simp [deedsOf, Ne.symm e]
    · simp only [Machine.setWr] at hq ⊢
      rw [h.given q c' hq, io, deedsOf_append, messages_append]
      by_cases e : q = o
      · subst e; rw [ho] at hq; cases hq
        simp [doing, hj, deedsOf, messages]
      · rw [if_neg e]
        split <;> simp [deedsOf, Ne.symm e, messages]
    · simp only [Machine.setWr] at hq ⊢
      by_cases e : q = o
      · rw [if_pos e] at hq; cases hq
      · rw [if_neg e] at hq ⊢; exact h.waits q t hq

theorem mexec_inv {up : Nat → Bool} {v0 : Nat → Volume} {tr : List (MLab V)} {m : Machine V} (h : MExec env host (newMachine up v0) tr m) : MInv env host up v0 tr m := by
  generalize h0 : newMachine up v0 = m0 at h
  induction h with
  | nil =>
    subst h0
    refine ⟨.nil, fun k => ?_, fun o ho => ⟨rfl, rfl, fun k => rfl⟩, fun o c ho => ?_, fun o t h => by cases h⟩
    · have : (newMachine up v0 : Machine V).view env host k = { vol := v0 k } := by
        simp only [Machine.view, newMachine, Shared.mk.injEq, true_and]
        funext o; split <;> rfl
      rw [this]; exact .start
    · show (newProgram up : PState V).given env o = []
      unfold PState.given
      split <;> rfl
  | snoc _ hs ih => exact minv_step ih hs

end Log4g
