import Verif.Lemmas.SystemClose

/-! # A whole program: one `Close` at a time, and calls that return -/

namespace Log4g
open Spec
open scoped List
variable {V : Type}

/-- What holds if two calls of `Close` are never under way at the same time. -/
structure Single (s : AState V) : Prop where
  early : ∀ t, (s.th t).pc = .requesting ∨ (s.th t).pc = .waiting ∨ (s.th t).pc = .storing → s.closed = false
  late : ∀ t, (s.th t).pc = .closing → s.chanClosed = false

theorem Single.same {s s' : AState V} (h : Single s) (h1 : ∀ t, (s'.th t).pc = (s.th t).pc) (h2 : s'.closed = s.closed)
    (h3 : s'.chanClosed = s.chanClosed) : Single s' :=
  ⟨fun t => by rw [h1, h2]; exact h.early t, fun t => by rw [h1, h3]; exact h.late t⟩

theorem single_act {cfg : ACfg V} {s s' : AState V} {l : ALab V} {tr : List (ALab V)} (hi : CloseInv tr s)
    (hu : ∀ t u, InClose s t → InClose s u → t = u) (h : Single s) (hs : AAct cfg s l s') : Single s' := by
  have move : ∀ {s1 : AState V} {u : Nat} {y : Thread V}, s1.th = s.th → s1.closed = s.closed → s1.chanClosed = s.chanClosed →
      (y.pc = .requesting ∨ y.pc = .waiting ∨ y.pc = .storing → s.closed = false) → (y.pc = .closing → s.chanClosed = false) → Single (s1.set u y) := by
    intro s1 u y e1 e2 e3 h1 h2
    refine ⟨fun t => ?_, fun t => ?_⟩
    · rw [set_th]
      show _ → s1.closed = false
      rw [e2]
      split
      · exact h1
      · rw [e1]; exact h.early t
    · rw [set_th]
      show _ → s1.chanClosed = false
      rw [e3]
      split
      · exact h2
      · rw [e1]; exact h.late t
  cases hs with
  | sendStart e _ => exact move rfl rfl rfl (by simp) (by simp)
  | sendSkip e _ => exact move rfl rfl rfl (by simp) (by simp)
  | sendQueue e _ _ => exact move rfl rfl rfl (by simp) (by simp)
  | closeStart e k => exact move rfl rfl rfl (fun _ => k) (by simp)
  | closeSkip e _ => exact move rfl rfl rfl (by simp) (by simp)
  | closeRequest e _ _ => exact move rfl rfl rfl (fun _ => h.early _ (by rw [e]; simp)) (by simp)
  | closeWait e _ => exact move rfl rfl rfl (fun _ => h.early _ (by rw [e]; simp)) (by simp)
  | @closeStore t cs e =>
    have hin : InClose s t := by unfold InClose; rw [e]; simp
    refine ⟨fun u hh => ?_, fun u hh => ?_⟩
    · rw [set_th] at hh
      by_cases hut : u = t
      · rw [if_pos hut] at hh; simp at hh
      · rw [if_neg hut] at hh
        refine absurd (hu u t ?_ hin) hut
        rcases hh with hh | hh | hh
        · exact .inl hh
        · exact .inr (.inl hh)
        · exact .inr (.inr (.inl hh))
    · show s.chanClosed = false
      have : s.closed = false := h.early t (by rw [e]; simp)
      cases hcc : s.chanClosed with
      | false => rfl
      | true => rw [(hi.flag hcc).1] at this; simp at this
  | @closeChan t cs e _ =>
    have hin : InClose s t := by unfold InClose; rw [e]; simp
    refine ⟨fun u hh => ?_, fun u hh => ?_⟩
    · rw [set_th] at hh
      by_cases hut : u = t
      · rw [if_pos hut] at hh; simp at hh
      · rw [if_neg hut] at hh
        refine absurd (hu u t ?_ hin) hut
        rcases hh with hh | hh | hh
        · exact .inl hh
        · exact .inr (.inl hh)
        · exact .inr (.inr (.inl hh))
    · rw [set_th] at hh
      by_cases hut : u = t
      · rw [if_pos hut] at hh; simp at hh
      · rw [if_neg hut] at hh
        exact absurd (hu u t (.inr (.inr (.inr hh))) hin) hut
  | takeEvent _ _ _ =>
    obtain ⟨_, _, _, k1, k2, k3, _⟩ := handle_same cfg _ ({ s with chan := _ } : AState V) _
    exact h.same (fun t => by rw [k3]) k1 k2
  | _ => exact h.same (fun _ => rfl) rfl rfl

/-- A closed output has its channel closed, or that is about to happen. -/
theorem closed_owner {cfg : ACfg V} {prog : Nat → List (ACall V)} {tr : List (ALab V)} {s : AState V}
    (h : AExec cfg (newAsync prog) tr s) : s.closed = true → s.chanClosed = true ∨ ∃ t, (s.th t).pc = .closing := by
  generalize h0 : newAsync prog = s0 at h
  induction h with
  | nil => subst h0; simp [newAsync]
  | @snoc tr s l s' he hs ih =>
    subst h0
    have move : ∀ {s1 : AState V} {u : Nat} {x y : Thread V}, s1.th = s.th → s1.closed = s.closed → s1.chanClosed = s.chanClosed → s.th u = x → x.pc ≠ .closing →
        (s1.set u y).closed = true → (s1.set u y).chanClosed = true ∨ ∃ t, ((s1.set u y).th t).pc = .closing := by
      intro s1 u x y e1 e2 e3 e hx hc
      have hc : s1.closed = true := hc
      rw [e2] at hc
      rcases ih hc with k | ⟨t, k⟩
      · exact .inl (e3.trans k)
      · refine .inr ⟨t, ?_⟩
        rw [set_th, if_neg (by rintro rfl; rw [e] at k; exact hx k), e1]
        exact k
    cases hs.2 with
    | sendStart e _ => exact move rfl rfl rfl e (by simp)
    | sendSkip e _ => exact move rfl rfl rfl e (by simp)
    | sendQueue e _ _ => exact move rfl rfl rfl e (by simp)
    | closeStart e k => exact move rfl rfl rfl e (by simp)
    | closeSkip e _ => exact move rfl rfl rfl e (by simp)
    | closeRequest e _ _ => exact move rfl rfl rfl e (by simp)
    | closeWait e _ => exact move rfl rfl rfl e (by simp)
    | @closeStore t cs e => exact fun _ => .inr ⟨t, by rw [set_th, if_pos rfl]⟩
    | @closeChan t cs e _ => exact fun _ => .inl rfl
    | takeEvent _ _ _ =>
      obtain ⟨_, _, _, k1, k2, k3, _⟩ := handle_same cfg _ ({ s with chan := _ } : AState V) _
      rw [k1, k2, k3]; exact ih
    | _ => exact ih

/-! ## One at a time -/

/-- Who closes an output has the manager's lock. -/
theorem has_lock {env : PEnv V} {tr : List (PLab V)} {s : PState V} (hi : PInv env tr s) (ht : Tame tr) {o t : Nat} (h : InClose (s.a o) t) :
    s.lock = some t := by
  have no : ∀ {x : Thread V}, Sender x → (s.a o).th t = x → False := by
    intro x hx e
    unfold InClose at h
    rw [e] at h
    rcases hx.1 with k | ⟨_, k⟩ <;> rw [k] at h <;> simp at h
  rw [hi.lock]
  cases hk : (s.th t).call with
  | none => exact (no sender_still (hi.away t o (by rw [hi.rest t hk]; simp))).elim
  | some k =>
    cases k with
    | close => rfl
    | log => exact (no ((hi.logs t hk).2 o) rfl).elim
    | direct => exact (no ((hi.direct ht t hk).2 o) rfl).elim

theorem one_closer {env : PEnv V} {tr : List (PLab V)} {s : PState V} (hi : PInv env tr s) (ht : Tame tr) {o t u : Nat}
    (h : InClose (s.a o) t) (h' : InClose (s.a o) u) : t = u := by
  have h1 := has_lock hi ht h
  have h2 := has_lock hi ht h'
  rw [h1] at h2
  exact Option.some.inj h2

theorem pexec_single {env : PEnv V} {up : Nat → Bool} {tr : List (PLab V)} {s : PState V} (h : PExec env (newProgram up) tr s) (ht : Tame tr) (o : Nat) :
    Single (s.a o) := by
  generalize h0 : newProgram up = s0 at h
  induction h with
  | nil => subst h0; exact ⟨fun t hh => by simp [newProgram, newAsync] at hh, fun t hh => by simp [newProgram, newAsync] at hh⟩
  | snoc he hs ih =>
    subst h0
    have ih := ih (tame_left ht)
    have inv := pexec_inv he
    cases hs.2 with
    | act _ _ _ _ => exact ih
    | actPanic _ => exact ih
    | logPanic _ _ _ => exact ih
    | log _ _ _ => exact ih
    | close _ _ _ => exact ih
    | direct _ _ => exact ih
    | @enter t k p c rest cfg _ _ =>
      show Single ((_ : PState V).a o)
      rw [show (((_ : PState V).setOut p _).set t _).a o = (PState.setOut _ p _).a o from rfl, setOut_a]
      split
      · rename_i e
        subst e
        refine ih.same (fun u => ?_) rfl rfl
        by_cases hu : u = t
        · subst hu; simp [AState.push, set_th]
        · rw [push_other _ _ hu]
      · exact ih
    | @out p l x cfg hp hx =>
      show Single ((PState.setOut _ p x).a o)
      rw [setOut_a]
      split
      · rename_i e
        subst e
        exact single_act (aexec_closeinv (inv.proj _ _ hp)) (fun t u h1 h2 => one_closer inv (tame_left ht) h1 h2) ih hx.2
      · exact ih
    | leave _ _ => exact ih
    | send _ _ _ => exact ih
    | closed _ _ => exact ih
    | ret _ => exact ih

/-- While `t` closes, nobody else does. -/
theorem oinv_closing {env : PEnv V} {up : Nat → Bool} {tr : List (PLab V)} {s : PState V} (h : PExec env (newProgram up) tr s) (ht : Tame tr) {o t : Nat} {cfg : ACfg V}
    (hc : s.w.asyncOf env o = some cfg) (hl : s.lock = some t) : OInv t (outLabs o tr) (s.a o) := by
  have inv := pexec_inv h
  have hs := pexec_single h ht o
  have hx := inv.proj o cfg hc
  have ci := aexec_closeinv hx
  have chan : (s.a o).closed = false → (s.a o).chanClosed = false := by
    intro hh
    cases hcc : (s.a o).chanClosed with
    | false => rfl
    | true => rw [(ci.flag hcc).1] at hh; simp at hh
  refine ⟨?_, chan, hs.early t, hs.late t, ?_⟩
  · intro u hu
    cases hk : (s.th u).call with
    | none =>
      rw [inv.away u o (by rw [inv.rest u hk]; simp)]
      exact sender_still
    | some k =>
      cases k with
      | close =>
        have := (inv.lock u).mpr hk
        rw [hl] at this
        exact absurd (Option.some.inj this).symm hu
      | log => exact (inv.logs u hk).2 o
      | direct => exact (inv.direct ht u hk).2 o
  · intro hh
    rcases request_owner hx hh with ⟨u, hu⟩ | k
    · have : InClose (s.a o) u := by
        rcases hu with hu | hu | hu
        · exact .inr (.inl hu)
        · exact .inr (.inr (.inl hu))
        · exact .inr (.inr (.inr hu))
      have := has_lock inv ht this
      rw [hl] at this
      cases this
      exact .inl hu
    · exact .inr (ci.flag k).1

/-! ## Calls return -/

theorem oinv_exec {cfg : ACfg V} {t : Nat} {prog : Nat → List (ACall V)} {tr0 tr : List (ALab V)} {s s' : AState V} (h0 : AExec cfg (newAsync prog) tr0 s)
    (h : AExec cfg s tr s') (ho : OInv t tr0 s) : OInv t (tr0 ++ tr) s' := by
  induction h with
  | nil => simpa using ho
  | snoc he hs ih => rw [← List.append_assoc]; exact oinv_step (aexec_closeinv (h0.trans he)) ih hs.2

theorem lone_exec {cfg : ACfg V} {t : Nat} {tr : List (ALab V)} {s s' : AState V} (h : AExec cfg s tr s') (ho : (s.th t).todo = []) : (s'.th t).todo = [] := by
  induction h with
  | nil => exact ho
  | snoc _ hs ih => exact done_act hs.2 t ih

theorem idle_done {x : Thread V} (h1 : x.pc = .idle) (h2 : x.todo = []) : x = {} := by
  cases x; simp_all

/-- A call of `Close` of an output can return, if it is the only one. -/
theorem close_ends_call {cfg : ACfg V} {f : Formatter V} (hf : cfg.f = some f) (hsize : 1 ≤ cfg.queueSize) {prog : Nat → List (ACall V)}
    {tr0 : List (ALab V)} {s : AState V} {t : Nat} (ho : OInv t tr0 s) (he : AExec cfg (newAsync prog) tr0 s) (hp : s.panicked = false)
    (hl : Lone (s.th t)) (hc : Closer (s.th t)) :
    ∃ tr x, AExec cfg s tr x ∧ x.panicked = false ∧ x.th t = {} ∧ ∀ l ∈ tr, stepOf l = some t ∨ stepOf l = none := by
  have inside : ∀ {tr0 : List (ALab V)} {s : AState V}, OInv t tr0 s → AExec cfg (newAsync prog) tr0 s → s.panicked = false → (s.th t).todo = [] →
      Closer (s.th t) → ∃ tr x, AExec cfg s tr x ∧ x.panicked = false ∧ x.th t = {} ∧ ∀ l ∈ tr, stepOf l = some t ∨ stepOf l = none := by
    intro tr0 s ho he hp htodo hc
    have run : InClose s t → ∃ tr x, AExec cfg s tr x ∧ x.panicked = false ∧ x.th t = {} ∧ ∀ l ∈ tr, stepOf l = some t ∨ stepOf l = none := by
      intro hin
      obtain ⟨tr, x, h1, h2, h3, h4⟩ := close_returns_inv hf hsize ho he hp hin
      exact ⟨tr, x, h1, h2, idle_done h3 (lone_exec h1 htodo), h4⟩
    cases hpc : (s.th t).pc with
    | idle => exact ⟨[], s, .nil, hp, idle_done hpc htodo, by simp⟩
    | sending e => exact absurd hpc (hc.1 e)
    | requesting => exact run (.inl hpc)
    | waiting => exact run (.inr (.inl hpc))
    | storing => exact run (.inr (.inr (.inl hpc)))
    | closing => exact run (.inr (.inr (.inr hpc)))
  rcases hl with ⟨h1, c, h2⟩ | h2
  · have e : s.th t = { pc := .idle, todo := [c] } := by
      cases hx : s.th t
      simp_all
    cases c with
    | send ev => rw [e] at hc; exact (hc.2 ev (by simp)).elim
    | close =>
      cases hcl : s.closed with
      | true => exact ⟨_, _, .one ⟨hp, .closeSkip e hcl⟩, hp, by simp [set_th], by simp [stepOf]⟩
      | false =>
        have st : AStep cfg s (.start t .close) (s.set t { pc := .requesting, todo := [] }) := ⟨hp, .closeStart e hcl⟩
        obtain ⟨tr, x, k1, k2, k3, k4⟩ := inside (oinv_exec he (.one st) ho) (he.trans (.one st)) hp (by simp [set_th]) (by rw [set_th, if_pos rfl]; exact ⟨by simp, by simp⟩)
        refine ⟨[.start t .close] ++ tr, x, (AExec.one st).trans k1, k2, k3, ?_⟩
        intro l hl
        rcases List.mem_append.mp hl with hl | hl
        · rw [List.mem_singleton.mp hl]; exact .inl rfl
        · exact k4 l hl
  · exact inside ho he hp h2 hc

/-- A call of `Send` of an output that is never closed can return. -/
theorem send_ends_call {cfg : ACfg V} {f : Formatter V} (hf : cfg.f = some f) (hsize : 1 ≤ cfg.queueSize) {prog : Nat → List (ACall V)}
    {tr0 : List (ALab V)} {s : AState V} {t : Nat} (hn : ∀ u, ACall.close ∉ prog u) (he : AExec cfg (newAsync prog) tr0 s) (hp : s.panicked = false)
    (hl : Lone (s.th t)) :
    ∃ tr x, AExec cfg s tr x ∧ x.panicked = false ∧ x.th t = {} ∧ ∀ l ∈ tr, stepOf l = some t ∨ stepOf l = none := by
  have queue : ∀ {tr0 : List (ALab V)} {s : AState V} {e : Event V}, AExec cfg (newAsync prog) tr0 s → s.panicked = false → s.th t = { pc := .sending e, todo := [] } →
      ∃ tr x, AExec cfg s tr x ∧ x.panicked = false ∧ x.th t = {} ∧ ∀ l ∈ tr, stepOf l = some t ∨ stepOf l = none := by
    intro tr0 s e he hp ht
    obtain ⟨_, _, hch, hno, _⟩ := never_closed hn he
    have inv := aexec_inv he hp
    rw [inv.queue] at hno
    have start : ∃ tr s1, AExec cfg s tr s1 ∧ s1.panicked = false ∧ s1.worker = .running ∧ s1.chan = s.chan ∧ s1.th = s.th ∧
        s1.chanClosed = s.chanClosed ∧ ∀ l ∈ tr, stepOf l = none := by
      cases hw : s.worker with
      | running => exact ⟨[], s, .nil, hp, hw, rfl, rfl, rfl, by simp⟩
      | starting => exact ⟨_, _, .one ⟨hp, .begin hw⟩, hp, rfl, rfl, rfl, rfl, by simp [stepOf]⟩
      | stopped =>
        obtain ⟨pre, k, _⟩ := inv.stopped hw
        rw [k] at hno; simp at hno
    obtain ⟨tr1, s1, a1, a2, a3, a4, a5, a7, a8⟩ := start
    obtain ⟨es, hes⟩ := all_some s.chan (fun hh => hno (List.mem_append_right _ hh))
    obtain ⟨tr2, s2, b1, b2, b3, b4, b5, b6, b7, _, b8⟩ := drain hf es [] s1 a2 a3 (by rw [a4, hes]; simp)
    have st : AStep cfg s2 (.queued t e) (({ s2 with chan := s2.chan ++ [some e] } : AState V).set t { pc := .idle, todo := [] }) :=
      ⟨b2, .sendQueue (by rw [b5, a5, ht]) (by rw [b7, a7]; exact hch) (by rw [b4]; exact hsize)⟩
    have ex := a1.trans (b1.trans (AExec.one st))
    refine ⟨_, _, ex, b2, (set_th _ _ _ _).trans (if_pos rfl), ?_⟩
    intro l hl
    simp only [List.mem_append, List.mem_singleton] at hl
    rcases hl with hl | hl | hl
    · exact .inr (a8 l hl)
    · exact .inr (b8 l hl)
    · rw [hl]; exact .inl rfl
  obtain ⟨hs, hcl, _⟩ := never_closed hn he
  have hst := hs t
  rcases hl with ⟨h1, c, h2⟩ | h2
  · have e : s.th t = { pc := .idle, todo := [c] } := by
      cases hx : s.th t
      simp_all
    cases c with
    | close => rw [e] at hst; exact (hst.2 (by simp)).elim
    | send ev =>
      have st : AStep cfg s (.start t (.send ev)) (s.set t { pc := .sending ev, todo := [] }) := ⟨hp, .sendStart e hcl⟩
      obtain ⟨tr, x, k1, k2, k3, k4⟩ := queue (he.trans (.one st)) hp (by rw [set_th, if_pos rfl])
      refine ⟨[.start t (.send ev)] ++ tr, x, (AExec.one st).trans k1, k2, k3, ?_⟩
      intro l hl
      rcases List.mem_append.mp hl with hl | hl
      · rw [List.mem_singleton.mp hl]; exact .inl rfl
      · exact k4 l hl
  · rcases hst.1 with k | ⟨e, k⟩
    · exact ⟨[], s, .nil, hp, idle_done k h2, by simp⟩
    · exact queue (e := e) he hp (by rw [← k, ← h2])

/-- What an output can do, the program can. -/
theorem PExec.lift {env : PEnv V} {s : PState V} {o : Nat} {cfg : ACfg V} (hc : s.w.asyncOf env o = some cfg) {tr : List (ALab V)} {x : AState V}
    (h : AExec cfg (s.a o) tr x) (hp : s.panicked = false) (ha : (s.a o).panicked = false) :
    ∃ s', PExec env s (tr.map (.out o)) s' ∧ s'.a o = x ∧ s'.th = s.th ∧ s'.w = s.w ∧ s'.panicked = x.panicked := by
  generalize h0 : s.a o = y at h
  induction h with
  | nil => exact ⟨s, .nil, h0, rfl, rfl, by rw [hp, ← h0, ha]⟩
  | @snoc tr x1 l x2 _ hs ih =>
    obtain ⟨s', k1, k2, k3, k4, k5⟩ := ih
    have st : PStep env s' (.out o l) { s'.setOut o x2 with panicked := x2.panicked } :=
      ⟨by rw [k5]; exact hs.1, .out (by rw [k4]; exact hc) (by rw [k2]; exact hs)⟩
    have ex := k1.snoc st
    rw [show tr.map (PLab.out o) ++ [.out o l] = (tr ++ [l]).map (.out o) by simp] at ex
    refine ⟨_, ex, ?_, k3, k4, rfl⟩
    show (s'.setOut o x2).a o = x2
    rw [setOut_a, if_pos rfl]

theorem tame_helped {t : Nat} {a b : List (PLab V)} (h : Tame a) (hb : ∀ l ∈ b, Helps t l) : Tame (a ++ b) := by
  intro u o hm
  rcases List.mem_append.mp hm with hm | hm
  · exact h u o hm
  · exact hb _ hm

theorem open_helped {t o : Nat} {a b : List (PLab V)} (h : Open o a) (hb : ∀ l ∈ b, Helps t l) : Open o (a ++ b) := by
  refine ⟨fun u os hm => ?_, fun u hm => ?_⟩
  · rcases List.mem_append.mp hm with hm | hm
    · exact h.1 u os hm
    · exact (hb _ hm).elim
  · rcases List.mem_append.mp hm with hm | hm
    · exact h.2 u hm
    · exact (hb _ hm).elim

/-- A call that uses outputs returns if each of its calls of an output does. -/
theorem call_ends {env : PEnv V} {up : Nat → Bool} {t : Nat} (k : PCall) (P : List (PLab V) → Prop)
    (hmore : ∀ a b, P a → (∀ l ∈ b, Helps t l) → P (a ++ b))
    (hout : ∀ {tr : List (PLab V)} {s : PState V} {o : Nat} {cfg : ACfg V}, PExec env (newProgram up) tr s → P tr → s.panicked = false → (s.th t).call = some k →
      s.w.asyncOf env o = some cfg → (s.th t).inside = some o →
      ∃ tr' x, AExec cfg (s.a o) tr' x ∧ x.panicked = false ∧ x.th t = {} ∧ ∀ l ∈ tr', stepOf l = some t ∨ stepOf l = none)
    {tr : List (PLab V)} {s : PState V} (h : PExec env (newProgram up) tr s) (hP : P tr) (hp : s.panicked = false) (hk : (s.th t).call = some k) :
    ∃ tr' s', PExec env s (tr' ++ [.ret t]) s' ∧ s'.panicked = false ∧ ∀ l ∈ tr', Helps t l := by
  -- first out of the output, if inside one
  have out : ∀ {tr : List (PLab V)} {s : PState V}, PExec env (newProgram up) tr s → P tr → s.panicked = false → (s.th t).call = some k →
      ∃ tr' s', PExec env s tr' s' ∧ s'.panicked = false ∧ (∀ l ∈ tr', Helps t l) ∧ s'.th t = { call := some k, todo := (s.th t).todo } := by
    intro tr s h hP hp hk
    cases hi : (s.th t).inside with
    | none => exact ⟨[], s, .nil, hp, by simp, by cases hx : s.th t; simp_all⟩
    | some o =>
      have inv := pexec_inv h
      cases hc : s.w.asyncOf env o with
      | none => exact absurd hc (inv.inside t o hi)
      | some cfg =>
        obtain ⟨tr', x, k1, k2, k3, k4⟩ := hout h hP hp hk hc hi
        obtain ⟨s', l1, l2, l3, l4, l5⟩ := PExec.lift hc k1 hp (inv.sound hp o)
        have e : s'.th t = { call := some k, todo := (s.th t).todo, inside := some o } := by rw [l3]; cases hx : s.th t; simp_all
        refine ⟨tr'.map (.out o) ++ [.leave t o], _, l1.snoc ⟨by rw [l5]; exact k2, .leave e (by rw [l2]; exact k3)⟩, by rw [← k2, ← l5]; rfl, ?_, by rw [pset_th, if_pos rfl]⟩
        intro l hl
        rcases List.mem_append.mp hl with hl | hl
        · obtain ⟨l', h1, rfl⟩ := List.mem_map.mp hl
          exact k4 l' h1
        · rw [List.mem_singleton.mp hl]; rfl
  have all : ∀ (n : Nat) {tr : List (PLab V)} {s : PState V}, PExec env (newProgram up) tr s → P tr → s.panicked = false → (s.th t).call = some k →
      (s.th t).todo.length = n → ∃ tr' s', PExec env s (tr' ++ [.ret t]) s' ∧ s'.panicked = false ∧ ∀ l ∈ tr', Helps t l := by
    intro n
    induction n with
    | zero =>
      intro tr s h hP hp hk hn
      obtain ⟨tr1, s1, a1, a2, a3, a4⟩ := out h hP hp hk
      rw [List.length_eq_zero_iff.mp hn] at a4
      exact ⟨tr1, _, a1.snoc ⟨a2, .ret a4⟩, a2, a3⟩
    | succ n ih =>
      intro tr s h hP hp hk hn
      obtain ⟨tr1, s1, a1, a2, a3, a4⟩ := out h hP hp hk
      cases htodo : (s.th t).todo with
      | nil => rw [htodo] at hn; simp at hn
      | cons y rest =>
        obtain ⟨o, c⟩ := y
        rw [htodo] at a4 hn
        simp at hn
        have next : ∃ l s2, PStep env s1 l s2 ∧ Helps t l ∧ s2.panicked = false ∧ (s2.th t).call = some k ∧ (s2.th t).todo = rest := by
          cases hc : s1.w.asyncOf env o with
          | some cfg => exact ⟨_, _, ⟨a2, .enter a4 hc⟩, rfl, a2, by rw [pset_th, if_pos rfl], by rw [pset_th, if_pos rfl]⟩
          | none =>
            cases c with
            | send e => exact ⟨_, _, ⟨a2, .send [] a4 hc⟩, rfl, a2, by rw [pset_th, if_pos rfl], by rw [pset_th, if_pos rfl]⟩
            | close => exact ⟨_, _, ⟨a2, .closed a4 hc⟩, rfl, a2, by rw [pset_th, if_pos rfl], by rw [pset_th, if_pos rfl]⟩
        obtain ⟨l, s2, b1, b2, b3, b4, b5⟩ := next
        have help : ∀ l' ∈ tr1 ++ [l], Helps t l' := by
          intro l' hl
          rcases List.mem_append.mp hl with hl | hl
          · exact a3 l' hl
          · rw [List.mem_singleton.mp hl]; exact b2
        obtain ⟨tr3, s3, c1, c2, c3⟩ := ih (h.trans (a1.snoc b1)) (hmore _ _ hP help) b3 b4 (by rw [b5]; exact hn)
        refine ⟨tr1 ++ [l] ++ tr3, s3, by rw [List.append_assoc]; exact (a1.snoc b1).trans c1, c2, ?_⟩
        intro l' hl
        rcases List.mem_append.mp hl with hl | hl
        · exact help l' hl
        · exact c3 l' hl
  exact all _ h hP hp hk rfl

theorem manager_close_ends {env : PEnv V} {up : Nat → Bool} {t : Nat} {tr : List (PLab V)} {s : PState V} (h : PExec env (newProgram up) tr s) (ht : Tame tr)
    (hp : s.panicked = false) (hk : (s.th t).call = some .close) :
    ∃ tr' s', PExec env s (tr' ++ [.ret t]) s' ∧ s'.panicked = false ∧ ∀ l ∈ tr', Helps t l := by
  refine call_ends .close Tame (fun a b ha hb => tame_helped ha hb) ?_ h ht hp hk
  intro tr s o cfg h ht hp hk hc _
  have inv := pexec_inv h
  obtain ⟨⟨f, hf⟩, hsize, _⟩ := asyncOf_cfg inv.world hc
  exact close_ends_call hf hsize (oinv_closing h ht hc ((inv.lock t).mpr hk)) (inv.proj o cfg hc) (inv.sound hp o) (inv.lone t o) ((inv.closes t hk).2 o)

theorem log_ends {env : PEnv V} {up : Nat → Bool} {t : Nat} {k : PCall} {tr : List (PLab V)} {s : PState V} (h : PExec env (newProgram up) tr s)
    (ho : ∀ o, Open o tr) (hp : s.panicked = false) (hk : (s.th t).call = some k) :
    ∃ tr' s', PExec env s (tr' ++ [.ret t]) s' ∧ s'.panicked = false ∧ ∀ l ∈ tr', Helps t l := by
  refine call_ends k (fun tr => ∀ o, Open o tr) (fun a b ha hb o => open_helped (ha o) hb) ?_ h ho hp hk
  intro tr s o cfg h ho hp hk hc _
  have inv := pexec_inv h
  obtain ⟨⟨f, hf⟩, hsize, _⟩ := asyncOf_cfg inv.world hc
  exact send_ends_call hf hsize (fun u => (inv.opened o (ho o) u).2) (inv.proj o cfg hc) (inv.sound hp o) (inv.lone t o)

end Log4g
