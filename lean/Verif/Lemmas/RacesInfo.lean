import Verif.Lemmas.RacesExec

/-! # Data races: caller information, and the buffers of memory outputs

What a call does with caller information depends on values, not only on who may touch what.  Outputs do not change once they are known to all, so
the values they have in the end (`σ`, `φ`) are those anyone reads. -/

namespace Log4g.Races
open Spec

/-- Formatting does not write. -/
def fits (f : Option Fmt) (c i found : Bool) : Prop :=
  ∀ vs, f = some (.text vs) → (vs ≠ [] → c = true) ∧ (true ∈ vs → found = true → i = true)

/-- What else is known of a goroutine: the logger whose outputs it is setting, the flag it has read, the event it handles and what
this one has, and whether it may write to it still.  (Only for proofs.) -/
structure G2 where
  busy : Option (Nat × List Nat) := none
  fl : Option (Nat × Int) := none
  ev : Option (Nat × Bool × Bool × Bool) := none
  mode : Nat := 0

section
variable (σ : Nat → Shape) (φ : Nat → Option Fmt) (b : Prop) (t : Who)

/-- The flag of the logger is as large as its outputs want. -/
def G2.full (g : G2) : Prop := ∀ r v, g.busy = some (r, v) → v = [] ∨ ∃ x, g.fl = some (r, x) ∧ ∀ o ∈ v, answers (σ o) (φ o) ≤ x

/-- Who may touch the buffer of an output. -/
def toData (o : Nat) : Prop := t = .worker o ∨ ((σ o).how = .sync ∧ (σ o).sink = .memory)

/-- Reads; `b` says whether the call may wait for workers. -/
def rq (g : G2) : (l : Loc) → (Val l → G2 → Prop) → Prop
  | .shape o, K => K (σ o) g
  | .fmt o, K => K (φ o) g
  | .flag r, K => ∀ v, (∀ x, g.fl = some (r, x) → v = x) → v ≤ 2 → K v { g with fl := some (r, v) }
  | .ops r, K => ∀ v, (∀ x, g.fl = some (r, x) → g.busy = none → ∀ o ∈ v, answers (σ o) (φ o) ≤ x) → K v { g with mode := if g.mode = 0 then 1 else g.mode }
  | .ctx e, K => ∃ c i f, g.ev = some (e, c, i, f) ∧ K c g
  | .info e, K => ∃ c i f, g.ev = some (e, c, i, f) ∧ K i g
  | .evt e, K => ∀ v, (∀ c i f, g.ev = some (e, c, i, f) → v.2 = f) → K v g
  | .data o, K => toData σ t o ∧ K () g
  | .wait o, K => (b ∨ t = .worker o) ∧ K () g
  | _, K => ∀ v, K v g

def kq (g : G2) : (l : Loc) → Val l → (G2 → Prop) → Prop
  | .shape _, _, _ => False
  | .evt _, _, _ => False
  | .ops r, v, K => g.full σ φ ∧ K { g with busy := some (r, v), fl := none }
  | .flag r, c, K => (∃ v, g.busy = some (r, v)) ∧ (∃ x, g.fl = some (r, x) ∧ x ≤ c) ∧ c ≤ 2 ∧ K { g with fl := some (r, c) }
  | .ctx e, c', K => g.mode = 0 ∧ ∃ c i f, g.ev = some (e, c, i, f) ∧ K { g with ev := some (e, c', i, f) }
  | .info e, i', K => g.mode = 0 ∧ ∃ c i f, g.ev = some (e, c, i, f) ∧ K { g with ev := some (e, c, i', f) }
  | .data o, _, K => toData σ t o ∧ K g
  | .wait o, _, K => (b ∨ t = .worker o) ∧ K g
  | _, _, K => K g

/-- Locking or unlocking the factory. -/
def G2.pass (g : G2) : Mx → G2
  | .factory => { g with busy := none, fl := none }
  | _ => g

def wq {α : Type} : Code α → (G2 → α → Prop) → G2 → Prop
  | .ret a, Q, g => Q g a
  | .read l k, Q, g => rq σ φ b t g l fun v g' => wq (k v) Q g'
  | .write l v k, Q, g => kq σ φ b t g l v fun g' => wq k Q g'
  | .lock m k, Q, g => (m = .factory → g.full σ φ) ∧ wq k Q (g.pass m)
  | .unlock m k, Q, g => (m = .factory → g.full σ φ) ∧ wq k Q (g.pass m)
  | .newLogger _ k, Q, g => ∀ r, wq (k r) Q g
  | .newOutput sh k, Q, g => ∀ o, σ o = sh → wq (k o) Q g
  | .newEvent v k, Q, g => ∀ e c i, wq (k e) Q { g with ev := some (e, c, i, v.2), mode := 0 }
  | .go _ k, Q, g => wq k Q g
  | .send o e k, Q, g => (∀ e', e = some e' → g.mode = 1 ∧ ∃ c i f, g.ev = some (e', c, i, f) ∧ fits (φ o) c i f) ∧ wq k Q g
  | .close _ k, Q, g => wq k Q g
  | .load _ k, Q, g => ∀ b, wq (k b) Q g
  | .store _ k, Q, g => wq k Q g
  | .add o k, Q, g => (b ∨ t = .worker o) ∧ wq k Q g
  | .done _ k, Q, g => wq k Q g
  | .waited _ k, Q, g => wq k Q g
  | .halt, _, _ => True
  | .impossible, _, _ => True
end

variable {σ : Nat → Shape} {φ : Nat → Option Fmt} {b : Prop} {t : Who}

theorem wq_bind' {α β : Type} (c : Code α) (f : α → Code β) (Q : G2 → β → Prop) : ∀ g,
    wq σ φ b t (c.bind f) Q g = wq σ φ b t c (fun g a => wq σ φ b t (f a) Q g) g := by
  induction c with
  | ret a => exact fun g => rfl
  | read l k ih =>
    intro g
    simp only [Code.bind, wq]
    congr 1
    funext v g'
    exact ih v g'
  | write l v k ih =>
    intro g
    simp only [Code.bind, wq]
    congr 1
    funext g'
    exact ih g'
  | halt => exact fun g => rfl
  | impossible => exact fun g => rfl
  | _ => intro g; simp_all [Code.bind, wq]

@[simp] theorem wq_bind {α β : Type} (c : Code α) (f : α → Code β) (Q : G2 → β → Prop) (g : G2) :
    wq σ φ b t (c >>= f) Q g = wq σ φ b t c (fun g a => wq σ φ b t (f a) Q g) g := wq_bind' c f Q g

@[simp] theorem wq_pure {α : Type} (a : α) (Q : G2 → α → Prop) (g : G2) : wq σ φ b t (pure a) Q g = Q g a := rfl

/-! ## Code that has nothing to do with it -/

def plainRead (b : Prop) : Loc → Prop
  | .wait _ => b
  | .flag _ => False
  | .ops _ => False
  | .ctx _ => False
  | .info _ => False
  | .data _ => False
  | _ => True

def plainWrite (b : Prop) : Loc → Prop
  | .shape _ => False
  | .evt _ => False
  | l => plainRead b l

def quiet {α : Type} (b : Prop) : Code α → Prop
  | .ret _ => True
  | .read l k => plainRead b l ∧ ∀ v, quiet b (k v)
  | .write l _ k => plainWrite b l ∧ quiet b k
  | .lock m k => m ≠ .factory ∧ quiet b k
  | .unlock m k => m ≠ .factory ∧ quiet b k
  | .newLogger _ k => ∀ r, quiet b (k r)
  | .newOutput _ k => ∀ o, quiet b (k o)
  | .newEvent _ _ => False
  | .go _ k => quiet b k
  | .send _ e k => e = none ∧ quiet b k
  | .close _ k => quiet b k
  | .load _ k => ∀ c, quiet b (k c)
  | .store _ k => quiet b k
  | .add _ k => b ∧ quiet b k
  | .done _ k => quiet b k
  | .waited _ k => quiet b k
  | .halt => True
  | .impossible => True

theorem pass_ne (g : G2) {m : Mx} (h : m ≠ .factory) : g.pass m = g := by
  cases m <;> first | rfl | exact absurd rfl h

theorem wq_quiet {α : Type} {Q : G2 → α → Prop} {g : G2} (c : Code α) (hq : quiet b c) (h : ∀ a, Q g a) : wq σ φ b t c Q g := by
  induction c with
  | ret a => exact h a
  | read l k ih =>
    have := fun v => ih v (hq.2 v)
    cases l <;> first | exact (hq.1 : False).elim | exact this _ | exact this | exact ⟨Or.inl hq.1, this _⟩ | exact fun v _ => this v
  | write l v k ih =>
    have := ih hq.2
    cases l <;> first | exact (hq.1 : False).elim | exact this | exact ⟨Or.inl hq.1, this⟩
  | lock m k ih => exact ⟨fun e => absurd e hq.1, by rw [pass_ne g hq.1]; exact ih hq.2⟩
  | unlock m k ih => exact ⟨fun e => absurd e hq.1, by rw [pass_ne g hq.1]; exact ih hq.2⟩
  | newLogger _ k ih => exact fun r => ih r (hq r)
  | newOutput _ k ih => exact fun o _ => ih o (hq o)
  | newEvent _ _ => exact hq.elim
  | send o e k ih => exact ⟨fun e' he => (by rw [hq.1] at he; cases he), ih hq.2⟩
  | load _ k ih => exact fun b => ih b (hq b)
  | add _ k ih => exact ⟨Or.inl hq.1, ih hq.2⟩
  | halt => exact trivial
  | impossible => exact trivial
  | _ => exact ‹_ → wq _ _ _ _ _ _ _› hq

theorem quiet_bind {α β : Type} {f : α → Code β} {c : Code α} (hc : quiet b c) (hf : ∀ a, quiet b (f a)) : quiet b (c >>= f) := by
  change quiet b (c.bind f)
  induction c with
  | ret a => exact hf a
  | read _ k ih => exact ⟨hc.1, fun v => ih v (hc.2 v)⟩
  | write _ _ k ih => exact ⟨hc.1, ih hc.2⟩
  | lock _ k ih => exact ⟨hc.1, ih hc.2⟩
  | unlock _ k ih => exact ⟨hc.1, ih hc.2⟩
  | newLogger _ k ih => exact fun r => ih r (hc r)
  | newOutput _ k ih => exact fun r => ih r (hc r)
  | newEvent _ _ => exact hc.elim
  | send _ _ k ih => exact ⟨hc.1, ih hc.2⟩
  | load _ k ih => exact fun r => ih r (hc r)
  | add _ k ih => exact ⟨hc.1, ih hc.2⟩
  | halt => exact trivial
  | impossible => exact trivial
  | _ => exact ‹_ → quiet b _› hc

theorem quiet_rd {l : Loc} (h : plainRead b l) : quiet b (rd l) := ⟨h, fun _ => trivial⟩

theorem quiet_wr {l : Loc} {v : Val l} (h : plainWrite b l) : quiet b (wr l v) := ⟨h, trivial⟩

theorem quiet_acquire {m : Mx} (h : m ≠ .factory) : quiet b (acquire m) := ⟨h, trivial⟩

theorem quiet_release {m : Mx} (h : m ≠ .factory) : quiet b (release m) := ⟨h, trivial⟩

theorem quiet_pure {α : Type} (a : α) : quiet b (pure a : Code α) := trivial

theorem quiet_makeLogger (n : Str) : quiet b (makeLogger n) := fun _ => ⟨trivial, trivial, trivial⟩

theorem quiet_makeOutput (sh : Shape) : quiet b (makeOutput sh) := by
  unfold makeOutput
  intro o
  split <;> exact trivial

macro "quiets" : tactic => `(tactic| repeat' (first
  | assumption
  | exact quiet_pure _
  | exact quiet_rd trivial
  | exact quiet_wr trivial
  | exact quiet_makeLogger _
  | exact quiet_makeOutput _
  | (refine quiet_bind ?_ fun _ => ?_)
  | split))

theorem quiet_fetchFormat (fc : CfgMap) : quiet b (fetchFormat fc) := by
  unfold fetchFormat
  quiets

theorem quiet_fetchOutput (oc : CfgMap) (f : Fmt) : quiet b (fetchOutput oc f) := by
  unfold fetchOutput
  quiets

theorem quiet_fetchOne (n : Str) : quiet b (fetchOne n) := by
  have h1 := @quiet_fetchFormat b
  have h2 := @quiet_fetchOutput b
  unfold fetchOne
  refine quiet_bind (quiet_rd trivial) fun _ => ?_
  dsimp only
  split
  · exact trivial
  · refine quiet_bind (quiet_rd trivial) fun _ => ?_
    split
    · exact trivial
    · refine quiet_bind (h1 _) fun _ => ?_
      split
      · exact trivial
      · exact h2 _ _

theorem quiet_fetchAll : ∀ ns : List Str, quiet b (fetchAll ns)
  | [] => trivial
  | n :: ns => by
    have h1 := @quiet_fetchOne b n
    have h2 : quiet b (fetchAll ns) := quiet_fetchAll ns
    unfold fetchAll
    quiets

theorem quiet_fetch (n : Str) : quiet b (fetch n) := by
  unfold fetch fetchLocked
  refine quiet_bind (quiet_acquire (by simp)) fun _ => quiet_bind ?_ fun _ => quiet_bind (quiet_release (by simp)) fun _ => trivial
  refine quiet_bind (quiet_rd trivial) fun _ => ?_
  split
  · exact trivial
  · have := @quiet_fetchAll b
    refine quiet_bind (this _) fun _ => ?_
    split <;> exact trivial

theorem quiet_createLogger (n : Str) (p : Nat) : quiet b (createLogger n p) := by
  unfold createLogger
  quiets

theorem quiet_parentLoop : ∀ (rest before : Str) (p : Nat), quiet b (parentLoop p before rest)
  | [], _, _ => trivial
  | c :: rest, before, p => by
    unfold parentLoop
    split
    · exact quiet_bind (quiet_createLogger _ _) fun _ => quiet_parentLoop rest _ _
    · exact quiet_parentLoop rest _ _

theorem quiet_levelOf : ∀ k r, quiet b (levelOf k r)
  | 0, _ => trivial
  | k + 1, r => by
    unfold levelOf
    refine quiet_bind (quiet_rd trivial) fun _ => ?_
    split
    · exact quiet_rd trivial
    · refine quiet_bind (quiet_rd trivial) fun _ => ?_
      split
      · exact quiet_levelOf k _
      · exact trivial

theorem quiet_closeOutput (hb : b) (o : Nat) : quiet b (closeOutput o) := by
  unfold closeOutput
  refine quiet_bind (quiet_rd trivial) fun _ => ?_
  split
  · intro c
    dsimp only
    split
    · exact trivial
    · exact ⟨rfl, hb, fun _ => trivial⟩
  · exact trivial

theorem quiet_closeAll (hb : b) : ∀ os : List Nat, quiet b (closeAll os)
  | [] => trivial
  | o :: os => by
    unfold closeAll
    exact quiet_bind (quiet_closeOutput hb o) fun _ => quiet_closeAll hb os

theorem quiet_closeManager (hb : b) (ord : Map Str Nat → List Nat) : quiet b (closeManager ord) := by
  unfold closeManager
  refine quiet_bind (quiet_acquire (by simp)) fun _ => quiet_bind (quiet_rd trivial) fun _ => quiet_bind (quiet_closeAll hb _) fun _ => quiet_release (by simp)

/-! ## Setting outputs -/

theorem wq_callerFlag {o : Nat} {Q : G2 → Int → Prop} {g : G2} (h : Q g (answers (σ o) (φ o))) : wq σ φ b t (callerFlag o) Q g := by
  simp only [callerFlag, wq_bind, rd, wq, rq]
  unfold answers at h
  cases hh : (σ o).how <;> simp only [hh] at h ⊢ <;> first | exact h | (simp only [wq_bind, wq, rq]; cases hf : φ o <;> simp only [hf] at h ⊢ <;> exact h)

theorem wq_raiseFlag {r : Nat} (hall : ∀ o, answers (σ o) (φ o) ≤ 2) {Q : G2 → Unit → Prop} : ∀ (os pre : List Nat) (g : G2), g.busy = some (r, pre ++ os) →
    (pre = [] ∨ ∃ x, g.fl = some (r, x) ∧ ∀ o ∈ pre, answers (σ o) (φ o) ≤ x) → (∀ g' : G2, g'.full σ φ → Q g' ()) → wq σ φ b t (raiseFlag r os) Q g
  | [], pre, g, hb, hp, h => by
    refine h g fun r' v e => ?_
    rw [hb] at e
    obtain ⟨rfl, rfl⟩ := Prod.mk.inj (Option.some.inj e)
    rw [List.append_nil]
    exact hp
  | o :: os, pre, g, hb, hp, h => by
    simp only [raiseFlag, wq_bind, rd, wq, rq]
    intro fl hfl _
    refine wq_callerFlag ?_
    have hpre : ∀ o' ∈ pre, answers (σ o') (φ o') ≤ fl := by
      rcases hp with rfl | ⟨x, h1, h2⟩
      · simp
      · rw [hfl x h1]; exact h2
    split
    · rename_i hlt
      rw [wq_bind]
      refine wq_callerFlag ?_
      simp only [wq_bind, wr, wq, kq]
      refine ⟨⟨_, hb⟩, ⟨fl, rfl, Int.le_of_lt hlt⟩, hall o, wq_raiseFlag hall os (pre ++ [o]) _ (by simp [hb]) (Or.inr ⟨_, rfl, fun o' ho' => ?_⟩) h⟩
      rcases List.mem_append.mp ho' with ho' | ho'
      · exact Int.le_trans (hpre o' ho') (Int.le_of_lt hlt)
      · rw [List.mem_singleton.mp ho']; exact Int.le_refl _
    · rename_i hlt
      refine wq_raiseFlag hall os (pre ++ [o]) _ (by simp [hb]) (Or.inr ⟨_, rfl, fun o' ho' => ?_⟩) h
      rcases List.mem_append.mp ho' with ho' | ho'
      · exact hpre o' ho'
      · rw [List.mem_singleton.mp ho']; exact Int.not_lt.mp hlt

theorem wq_setOutputs {r : Nat} (hall : ∀ o, answers (σ o) (φ o) ≤ 2) {os : List Nat} {Q : G2 → Unit → Prop} {g : G2} (hg : g.full σ φ)
    (h : ∀ g' : G2, g'.full σ φ → Q g' ()) : wq σ φ b t (setOutputs r os) Q g := by
  simp only [setOutputs, wq_bind, wr, wq, kq]
  exact ⟨hg, wq_raiseFlag hall os [] _ rfl (Or.inl rfl) h⟩

theorem wq_getRoot (hall : ∀ o, answers (σ o) (φ o) ≤ 2) {Q : G2 → Nat → Prop} {g : G2} (hg : g.full σ φ)
    (h : ∀ (g' : G2) r, g'.full σ φ → Q g' r) : wq σ φ b t getRoot Q g := by
  simp only [getRoot, wq_bind, rd, wq, rq]
  intro v
  split
  · exact h g _ hg
  · rw [wq_bind]
    refine wq_quiet _ (quiet_makeLogger _) fun r => ?_
    simp only [wq_bind, wr, wq, kq]
    refine wq_quiet _ (quiet_fetch _) fun res => ?_
    have hfin : ∀ g' : G2, g'.full σ φ → ∀ v : Map Str Nat, wq σ φ b t (do wr .loggers (Map.set v rootLoggerName r); pure r) Q g' :=
      fun g' hg' v => h g' _ hg'
    split
    · simp only [wq_bind, wq, kq]
      refine wq_quiet _ (quiet_makeOutput _) fun o => ?_
      exact wq_setOutputs hall hg fun g' hg' v => h g' _ hg'
    · simp only [wq_bind, wq, kq]
      exact wq_setOutputs hall hg fun g' hg' v => h g' _ hg'

theorem wq_getLogger (hall : ∀ o, answers (σ o) (φ o) ≤ 2) {Q : G2 → Nat → Prop} {name : Str} {g : G2} (hg : g.full σ φ)
    (h : ∀ (g' : G2) r, g'.full σ φ → Q g' r) : wq σ φ b t (getLogger name) Q g := by
  have hnone : ∀ g : G2, (g.pass .factory).full σ φ := fun g r v e => by cases e
  have hfin : ∀ (g' : G2) (r : Nat), g'.full σ φ → wq σ φ b t (do release .factory; pure r) Q g' := by
    intro g' r hg'
    simp only [wq_bind, release, wq]
    exact ⟨fun _ => hg', h _ _ (hnone _)⟩
  simp only [getLogger, acquire, wq_bind, wq]
  refine ⟨fun _ => hg, ?_⟩
  split
  · rw [wq_bind]
    exact wq_getRoot hall (hnone g) hfin
  · simp only [getNamed, wq_bind, rd, wq, rq]
    intro v
    split
    · exact hfin _ _ (hnone g)
    · rw [wq_bind]
      refine wq_getRoot hall (hnone g) fun g1 root hg1 => ?_
      rw [wq_bind]
      refine wq_quiet _ (quiet_parentLoop _ _ _) fun p => ?_
      rw [wq_bind]
      refine wq_quiet _ (quiet_createLogger _ _) fun r => ?_
      rw [wq_bind]
      refine wq_quiet _ (quiet_fetch _) fun res => ?_
      split
      · exact hfin _ _ hg1
      · simp only [wq_bind, wr, wq, kq]
        exact wq_setOutputs hall hg1 fun g' hg' => hfin g' r hg'

theorem wq_notifyLoop (hall : ∀ o, answers (σ o) (φ o) ≤ 2) {Q : G2 → Unit → Prop} (h : ∀ g' : G2, g'.full σ φ → Q g' ()) : ∀ (rs : List Nat) (g : G2), g.full σ φ →
    wq σ φ b t (notifyLoop rs) Q g
  | [], g, hg => h g hg
  | r :: rs, g, hg => by
    simp only [notifyLoop, wq_bind, rd, wq, rq]
    intro n
    refine wq_quiet _ (quiet_fetch _) fun res => ?_
    split
    · exact wq_notifyLoop hall h rs g hg
    · simp only [wq_bind, wr, wq, kq]
      exact wq_setOutputs hall hg fun g' hg' => wq_notifyLoop hall h rs g' hg'

theorem wq_setConfig (hall : ∀ o, answers (σ o) (φ o) ≤ 2) {Q : G2 → Unit → Prop} {cfg : Config} {ord : Map Str Nat → List Nat} {g : G2} (hg : g.full σ φ)
    (h : ∀ g' : G2, g'.full σ φ → Q g' ()) : wq σ φ b t (setConfig cfg ord) Q g := by
  have hnone : ∀ g : G2, (g.pass .factory).full σ φ := fun g r v e => by cases e
  unfold setConfig
  split
  · exact h g hg
  · simp only [acquire, release, wq_bind, wr, rd, wq, kq, rq]
    refine ⟨by simp, by simp, fun _ => hg, fun v => ?_⟩
    exact wq_notifyLoop hall (fun g' hg' => ⟨fun _ => hg', h _ (hnone _)⟩) _ _ (hnone _)

/-! ## Log calls -/

theorem wq_callerInfo_no {e : Nat} {need : Bool} {Q : G2 → Unit → Prop} {g : G2} {i f : Bool} (hev : g.ev = some (e, true, i, f)) (hi : need = true → f = true → i = true)
    (h : Q g ()) : wq σ φ b t (callerInfo e need f) Q g := by
  simp only [callerInfo, wq_bind, rd, wq, rq]
  refine ⟨true, i, f, hev, ?_⟩
  rw [if_neg (by simp)]
  split
  · rename_i hn
    simp only [wq_bind, wq, rq]
    refine ⟨true, i, f, hev, ?_⟩
    rw [if_neg (fun hc => by rw [hi hn hc.2] at hc; exact absurd hc.1 (by simp))]
    exact h
  · exact h

theorem wq_runVerbs {e : Nat} {Q : G2 → Unit → Prop} {g : G2} {c i f : Bool} (hev : g.ev = some (e, c, i, f)) (h : Q g ()) : ∀ vs : List Bool,
    (vs ≠ [] → c = true) → (true ∈ vs → f = true → i = true) → wq σ φ b t (runVerbs e f vs) Q g
  | [], _, _ => h
  | v :: vs, h1, h2 => by
    have hc := h1 (by simp)
    subst hc
    simp only [runVerbs, wq_bind]
    exact wq_callerInfo_no hev (fun hv => h2 (by rw [hv]; exact List.mem_cons_self)) (wq_runVerbs hev h vs (fun _ => rfl) fun hm => h2 (List.mem_cons_of_mem _ hm))

theorem wq_format {e : Nat} {fm : Option Fmt} {Q : G2 → Unit → Prop} {g : G2} {c i f : Bool} (hev : g.ev = some (e, c, i, f)) (hf : fits fm c i f) (h : Q g ()) :
    wq σ φ b t (format fm e f) Q g := by
  unfold format
  split
  · rename_i vs
    exact wq_runVerbs hev h vs (hf vs rfl).1 (hf vs rfl).2
  · exact h

theorem wq_put {o : Nat} {Q : G2 → Unit → Prop} {g : G2} {sink : Sink} (hd : sink = .memory → toData σ t o) (h : Q g ()) : wq σ φ b t (put o sink) Q g := by
  cases sink with
  | shared => exact h
  | memory =>
    simp only [put, wq_bind, rd, wr, wq, rq, kq]
    exact ⟨hd rfl, hd rfl, h⟩
  | rolling =>
    simp only [put, wq_bind, rd, wr, wq, rq, kq, acquire, release]
    exact ⟨by simp, fun _ => ⟨by simp, h⟩⟩

theorem wq_sendTo {o e : Nat} {Q : G2 → Unit → Prop} {g : G2} {c i f : Bool} (hev : g.ev = some (e, c, i, f)) (hm : g.mode = 1)
    (hf : (∃ fl, (σ o).how = .user fl) ∨ fits (φ o) c i f) (h : Q g ()) : wq σ φ b t (sendTo o e) Q g := by
  simp only [sendTo, wq_bind, rd, wq, rq]
  cases hh : (σ o).how with
  | sync =>
    have hf := hf.resolve_left (by simp [hh])
    simp only [wq_bind, wq, rq]
    rintro ⟨lvl, f'⟩ hv
    obtain rfl : f' = f := hv c i f hev
    dsimp only
    split
    · exact h
    · simp only [wq_bind, wq, rq]
      exact wq_format hev hf (wq_put (fun hs => Or.inr ⟨hh, hs⟩) h)
  | async q b =>
    have hf := hf.resolve_left (by simp [hh])
    simp only [wq]
    intro b
    split
    · exact h
    · refine ⟨?_, h⟩
      rintro e' ⟨rfl⟩
      exact ⟨hm, c, i, f, hev, hf⟩
  | syslog =>
    have hf := hf.resolve_left (by simp [hh])
    simp only [wq_bind, wq, rq]
    rintro ⟨lvl, f'⟩ hv
    obtain rfl : f' = f := hv c i f hev
    dsimp only
    split
    · exact h
    · simp only [wq_bind, wq, rq]
      exact wq_format hev hf h
  | user fl => exact h

theorem wq_sendAll {e : Nat} {Q : G2 → Unit → Prop} {g : G2} {c i f : Bool} (hev : g.ev = some (e, c, i, f)) (hm : g.mode = 1) (h : Q g ()) : ∀ os : List Nat,
    (∀ o ∈ os, (∃ fl, (σ o).how = .user fl) ∨ fits (φ o) c i f) → wq σ φ b t (sendAll e os) Q g
  | [], _ => h
  | o :: os, hf => by
    simp only [sendAll, wq_bind]
    exact wq_sendTo hev hm (hf o List.mem_cons_self) (wq_sendAll hev hm h os fun o ho => hf o (List.mem_cons_of_mem _ ho))

/-- The flag of the logger and what the event has. -/
theorem fits_flag {sh : Shape} {fm : Option Fmt} {x : Int} {c i f : Bool} (hx : answers sh fm ≤ x) (h2 : x = 2 → c = true ∧ (f = true → i = true)) (h1 : x = 1 → c = true)
    (hle : x ≤ 2) : (∃ fl, sh.how = .user fl) ∨ fits fm c i f := by
  cases hh : sh.how with
  | user fl => exact Or.inl ⟨fl, rfl⟩
  | _ =>
    right
    rintro vs rfl
    simp only [answers, hh, Fmt.flag] at hx
    by_cases ht : true ∈ vs
    · rw [if_pos ht] at hx
      have : x = 2 := by omega
      exact ⟨fun _ => (h2 this).1, fun _ => (h2 this).2⟩
    · rw [if_neg ht] at hx
      refine ⟨fun hv => ?_, fun h => absurd h ht⟩
      rw [if_neg hv] at hx
      have : x = 2 ∨ x = 1 := by omega
      exact this.elim (fun e => (h2 e).1) h1

theorem wq_dispatch {r : Nat} {lvl : Level} {found : Bool} {Q : G2 → Unit → Prop} {g : G2} (hg : g.busy = none) (h : ∀ g' : G2, g'.busy = none → Q g' ()) :
    wq σ φ b t (dispatch r lvl found) Q g := by
  -- what is left once the event has what it should
  have hrest : ∀ (e : Nat) (c i : Bool) (x : Int) (g' : G2), g'.busy = none → g'.fl = some (r, x) → g'.ev = some (e, c, i, found) → g'.mode = 0 → x ≤ 2 →
      (x = 2 → c = true ∧ (found = true → i = true)) → (x = 1 → c = true) → wq σ φ b t (do let ops ← rd (.ops r); sendAll e ops) Q g' := by
    intro e c i x g' hb hfl hev hm hx h2 h1
    simp only [wq_bind, rd, wq, rq]
    intro os hos
    exact wq_sendAll (g := { g' with mode := if g'.mode = 0 then 1 else g'.mode }) (c := c) (i := i) (f := found) hev (if_pos hm) (h _ hb) os fun o ho => fits_flag (hos x hfl hb o ho) h2 h1 hx
  simp only [dispatch, wq]
  intro e c i
  simp only [wq_bind, wr, rd, wq, kq, rq]
  refine ⟨trivial, c, i, found, rfl, fun x _ hx => ?_⟩
  split
  · rename_i e2
    simp only [callerInfo, wq_bind, rd, wq, rq]
    refine ⟨false, i, found, rfl, ?_⟩
    simp only [if_true, wr, wq_bind, wq, kq]
    refine ⟨trivial, false, i, found, rfl, trivial, false, false, found, rfl, true, false, found, rfl, ?_⟩
    dsimp only
    split
    · rename_i hc
      simp only [wq, kq]
      refine ⟨trivial, true, false, found, rfl, ?_⟩
      exact hrest e true true x { g with fl := some (r, x), ev := some (e, true, true, found), mode := 0 } hg rfl rfl rfl hx (fun _ => ⟨rfl, fun _ => rfl⟩) (fun _ => rfl)
    · rename_i hc
      exact hrest e true false x { g with fl := some (r, x), ev := some (e, true, false, found), mode := 0 } hg rfl rfl rfl hx (fun _ => ⟨rfl, fun hf => absurd ⟨rfl, hf⟩ hc⟩) (fun _ => rfl)
  · rename_i n2
    simp only [wq_bind, wq, rq]
    intro y hy _
    obtain rfl : y = x := hy x rfl
    split
    · rename_i e1
      simp only [callerInfo, wq_bind, rd, wq, rq]
      refine ⟨false, i, found, rfl, ?_⟩
      simp only [if_true, wr, wq_bind, wq, kq]
      refine ⟨trivial, false, i, found, rfl, trivial, false, false, found, rfl, ?_⟩
      exact hrest e true false y { g with fl := some (r, y), ev := some (e, true, false, found), mode := 0 } hg rfl rfl rfl hx (fun e' => absurd e' n2) (fun _ => rfl)
    · rename_i n1
      exact hrest e false i y { g with fl := some (r, y), ev := some (e, false, i, found), mode := 0 } hg rfl rfl rfl hx (fun e' => absurd e' n2) (fun e' => absurd e' n1)

theorem wq_writeLog {lvl : Level} {found : Bool} {Q : G2 → Unit → Prop} (h : ∀ g' : G2, g'.busy = none → Q g' ()) : ∀ (k r : Nat) (g : G2), g.busy = none →
    wq σ φ b t (writeLog lvl found k r) Q g
  | 0, _, _, _ => trivial
  | k + 1, r, g, hg => by
    simp only [writeLog, wq_bind]
    refine wq_quiet _ (quiet_levelOf _ _) fun lv => ?_
    split
    · exact h g hg
    · simp only [wq_bind, rd, wq, rq]
      intro ops _
      split
      · simp only [wq_bind, wq, rq]
        intro p
        split
        · exact wq_writeLog h k _ _ hg
        · exact wq_dispatch hg h
      · exact wq_dispatch hg h

/-! ## The worker -/

theorem wq_flush {o : Nat} {Q : G2 → Unit → Prop} {g : G2} (h : Q g ()) : wq σ φ b (.worker o) (flush o) Q g := by
  simp only [flush, wq_bind, rd, wr, wq, rq, kq]
  exact fun _ => wq_put (fun _ => Or.inl rfl) h

theorem wq_handle {o e : Nat} {Q : G2 → Unit → Prop} {g : G2} {c i f : Bool} (hev : g.ev = some (e, c, i, f)) (hf : fits (φ o) c i f) (h : Q g ()) :
    wq σ φ b (.worker o) (handle o e) Q g := by
  simp only [handle, wq_bind, rd, wq, rq]
  rintro ⟨lvl, f'⟩ hv
  obtain rfl : f' = f := hv c i f hev
  dsimp only
  split
  · exact h
  · simp only [wq_bind, wq, rq]
    split
    · exact trivial
    · rename_i fm hfm
      rw [hfm] at hf
      rw [wq_bind]
      refine wq_format hev hf ?_
      simp only [wq_bind, wr, wq, rq, kq]
      intro k
      split
      · split
        · exact wq_flush h
        · exact h
      · exact h

/-- Every call. -/
theorem wq_task (hall : ∀ o, answers (σ o) (φ o) ≤ 2) {c : Task} (hb : ∀ ord, c = .close ord → b) {g : G2} (hg : g.busy = none) (hw : ∀ o, isWork o c → t = .worker o)
    (he : ∀ o e, c = .event o e → ∃ c i f, g.ev = some (e, c, i, f) ∧ fits (φ o) c i f) : wq σ φ b t c.code (fun g' _ => g'.full σ φ) g := by
  have hfull : ∀ g : G2, g.busy = none → g.full σ φ := fun g hg r v e => by rw [hg] at e; cases e
  cases c with
  | registerFormatter ty f => exact wq_quiet _ ⟨by simp, trivial, fun _ => ⟨trivial, by simp, trivial⟩⟩ fun _ => hfull g hg
  | registerOutput ty f => exact wq_quiet _ ⟨by simp, trivial, fun _ => ⟨trivial, by simp, trivial⟩⟩ fun _ => hfull g hg
  | setConfig cfg ord =>
    simp only [Task.code, noResult, wq_bind]
    exact wq_setConfig hall (hfull g hg) fun g' hg' => hg'
  | getLogger n =>
    simp only [Task.code, wq_bind]
    exact wq_getLogger hall (hfull g hg) fun g' _ hg' => hg'
  | getLoggerOutputs n =>
    simp only [Task.code, wq_bind]
    refine wq_quiet _ (quiet_fetch n) fun res => ?_
    split <;> exact hfull g hg
  | newOutput fl =>
    simp only [Task.code, wq_bind]
    exact wq_quiet _ (quiet_makeOutput _) fun _ => hfull g hg
  | setLevel r l => exact wq_quiet _ ⟨trivial, trivial⟩ fun _ => hfull g hg
  | setCallerSkip r k => exact wq_quiet _ ⟨trivial, trivial⟩ fun _ => hfull g hg
  | setOutputs r os =>
    simp only [Task.code, noResult, wq_bind]
    exact wq_setOutputs hall (hfull g hg) fun g' hg' => hg'
  | setFormatter o f => exact wq_quiet _ ⟨trivial, trivial⟩ fun _ => hfull g hg
  | log r l f =>
    simp only [Task.code, noResult, logCall, wq_bind, rd, wq, rq]
    exact fun _ _ => wq_writeLog (fun g' hg' => hfull g' hg') _ _ _ hg
  | close ord =>
    simp only [Task.code, noResult, wq_bind]
    exact wq_quiet _ (quiet_closeManager (hb ord rfl) ord) fun _ => hfull g hg
  | begin o => exact ⟨Or.inr (hw o rfl), hfull g hg⟩
  | tick o =>
    obtain rfl := hw o rfl
    simp only [Task.code, noResult, wq_bind]
    exact wq_flush (hfull g hg)
  | event o e =>
    obtain rfl := hw o rfl
    obtain ⟨c, i, f, h1, h2⟩ := he o e rfl
    simp only [Task.code, noResult, wq_bind]
    exact wq_handle h1 h2 (hfull g hg)
  | stop o =>
    obtain rfl := hw o rfl
    simp only [Task.code, noResult, wq_bind]
    exact wq_flush (hfull g hg)

end Log4g.Races
