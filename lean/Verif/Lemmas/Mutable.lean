import Verif.Spec.Mutable
import Verif.Lemmas.Async

/-! # Helpers for C104 -/

namespace Log4g
open Spec
variable {M V : Type}

theorem logged_snoc (m : M) (tr : List (MutLab M V)) (l : MutLab M V) : logged m (tr ++ [l]) = (logged m tr).see l := by
  simp [logged, List.foldl_append]

theorem textsOf_append (t : Level) (f : M → Formatter V) (xs ys : List (Event V × M)) : shownAs t f (xs ++ ys) = shownAs t f xs ++ shownAs t f ys := by
  simp [shownAs]

/-- What a step does to what is written, taken and waiting. -/
theorem act_effect {cfg : ACfg V} {f : Formatter V} (hf : cfg.f = some f) {s s' : AState V} {l : ALab V} (h : AAct cfg s l s') :
    s'.writes.flatten ++ s'.buf = s.writes.flatten ++ s.buf ++ (accepted cfg.t (eventsOf (takenOf [l]))).flatMap f ∧
    eventsOf s.chan ++ eventsOf (queuedOf [l]) = eventsOf (takenOf [l]) ++ eventsOf s'.chan := by
  have keep : s'.writes = s.writes → s'.buf = s.buf → s'.chan = s.chan → eventsOf (takenOf [l]) = [] → eventsOf (queuedOf [l]) = [] →
      s'.writes.flatten ++ s'.buf = s.writes.flatten ++ s.buf ++ (accepted cfg.t (eventsOf (takenOf [l]))).flatMap f ∧
      eventsOf s.chan ++ eventsOf (queuedOf [l]) = eventsOf (takenOf [l]) ++ eventsOf s'.chan := by
    intro h1 h2 h3 h4 h5
    rw [h1, h2, h3, h4, h5]
    simp [accepted]
  cases h with
  | sendStart h1 h2 => exact keep rfl rfl rfl rfl rfl
  | sendSkip h1 h2 => exact keep rfl rfl rfl rfl rfl
  | sendQueue h1 h2 h3 => exact ⟨by simp [AState.set, takenOf, eventsOf, accepted], by simp [AState.set, takenOf, eventsOf, queuedOf]⟩
  | sendPanic h1 h2 => exact keep rfl rfl rfl rfl rfl
  | closeStart h1 h2 => exact keep rfl rfl rfl rfl rfl
  | closeSkip h1 h2 => exact keep rfl rfl rfl rfl rfl
  | closeRequest h1 h2 h3 => exact ⟨by simp [AState.set, takenOf, eventsOf, accepted], by simp [AState.set, takenOf, eventsOf, queuedOf]⟩
  | requestPanic h1 h2 => exact keep rfl rfl rfl rfl rfl
  | closeWait h1 h2 => exact keep rfl rfl rfl rfl rfl
  | closeStore h1 => exact keep rfl rfl rfl rfl rfl
  | closeChan h1 h2 => exact keep rfl rfl rfl rfl rfl
  | closePanic h1 h2 => exact keep rfl rfl rfl rfl rfl
  | begin h1 => exact keep rfl rfl rfl rfl rfl
  | tick h1 => exact ⟨by simp [AState.flush, takenOf, eventsOf, accepted], by simp [AState.flush, takenOf, eventsOf, queuedOf]⟩
  | @takeEvent e rest f' h1 h2 h3 =>
    have : f' = f := by rw [hf] at h3; exact (Option.some.inj h3).symm
    subst this
    constructor
    · by_cases hl : cfg.t ≤ e.level
      · have : accepted cfg.t (eventsOf (takenOf [ALab.took (some e)])) = [e] := by simp [takenOf, eventsOf, accepted, hl]
        rw [this]
        simp only [AState.handle, hl, if_true]
        split <;> simp [AState.flush]
      · have : accepted cfg.t (eventsOf (takenOf [ALab.took (some e)])) = [] := by simp [takenOf, eventsOf, accepted, hl]
        rw [this]
        simp [AState.handle, hl]
    · have : (AState.handle cfg f' { s with chan := rest } e).chan = rest := by
        simp only [AState.handle]
        split
        · split <;> rfl
        · rfl
      rw [this, h2]
      simp [takenOf, eventsOf, queuedOf]
  | takeIgnored h1 h2 h3 h4 => rw [hf] at h3; cases h3
  | takePanic h1 h2 h3 h4 => rw [hf] at h3; cases h3
  | takeNil h1 h2 => exact ⟨by simp [AState.flush, takenOf, eventsOf, accepted], by rw [h2]; simp [AState.flush, takenOf, eventsOf, queuedOf]⟩
  | takeClosed h1 h2 h3 => exact ⟨by simp [AState.flush, takenOf, eventsOf, accepted], by simp [AState.flush, takenOf, eventsOf, queuedOf]⟩

/-- Who is sending after a step. -/
theorem act_sending {cfg : ACfg V} {s s' : AState V} {l : ALab V} (h : AAct cfg s l s') {u : Nat} {e : Event V} (hu : (s'.th u).pc = .sending e) :
    (s.th u).pc = .sending e ∨ l = .start u (.send e) := by
  have keep : s'.th = s.th → (s.th u).pc = .sending e := fun h => by rw [← h]; exact hu
  have other : ∀ {s1 : AState V} {t : Nat} {x : Thread V}, s1.th = s.th → s' = s1.set t x → x.pc ≠ .sending e → (s.th u).pc = .sending e := by
    intro s1 t x h1 h2 h3
    rw [h2, set_th] at hu
    split at hu
    · exact absurd hu h3
    · rw [h1] at hu; exact hu
  cases h with
  | @sendStart t e' cs h1 h2 =>
    rw [set_th] at hu
    split at hu
    · rename_i e1; subst e1; cases hu; exact .inr rfl
    · exact .inl hu
  | sendSkip h1 h2 => exact .inl (other rfl rfl (by intro h; cases h))
  | @sendQueue t e' cs h1 h2 h3 => exact .inl (other (s1 := { s with chan := s.chan ++ [some e'] }) rfl rfl (by intro h; cases h))
  | sendPanic h1 h2 => exact .inl (keep rfl)
  | closeStart h1 h2 => exact .inl (other rfl rfl (by intro h; cases h))
  | closeSkip h1 h2 => exact .inl (other rfl rfl (by intro h; cases h))
  | closeRequest h1 h2 h3 => exact .inl (other (s1 := { s with chan := s.chan ++ [none] }) rfl rfl (by intro h; cases h))
  | requestPanic h1 h2 => exact .inl (keep rfl)
  | closeWait h1 h2 => exact .inl (other rfl rfl (by intro h; cases h))
  | closeStore h1 => exact .inl (other (s1 := { s with closed := true }) rfl rfl (by intro h; cases h))
  | closeChan h1 h2 => exact .inl (other (s1 := { s with chanClosed := true }) rfl rfl (by intro h; cases h))
  | closePanic h1 h2 => exact .inl (keep rfl)
  | begin h1 => exact .inl (keep rfl)
  | tick h1 => exact .inl (keep rfl)
  | @takeEvent e' rest f' h1 h2 h3 =>
    refine .inl (keep ?_)
    simp only [AState.handle]
    split
    · split <;> rfl
    · rfl
  | takeIgnored h1 h2 h3 h4 => exact .inl (keep rfl)
  | takePanic h1 h2 h3 h4 => exact .inl (keep rfl)
  | takeNil h1 h2 => exact .inl (keep rfl)
  | takeClosed h1 h2 h3 => exact .inl (keep rfl)

/-- A goroutine that queues an event was sending it. -/
theorem act_queued {cfg : ACfg V} {s s' : AState V} {t : Nat} {e : Event V} (h : AAct cfg s (.queued t e) s') : (s.th t).pc = .sending e := by
  cases h with
  | sendQueue h1 _ _ => rw [h1]

/-- The three kinds of steps of an output. -/
theorem lab_cases (l : ALab V) : (∃ t e, l = .queued t e) ∨ (∃ e, l = .took (some e)) ∨ (∃ t e, l = .start t (.send e)) ∨
    (eventsOf (takenOf [l]) = [] ∧ eventsOf (queuedOf [l]) = [] ∧ (∀ x : Logged M V, x.see (.out l) = x) ∧ ∀ t e, l ≠ .start t (.send e)) := by
  cases l with
  | start t c =>
    cases c with
    | send e => exact .inr (.inr (.inl ⟨t, e, rfl⟩))
    | close => exact .inr (.inr (.inr ⟨rfl, rfl, fun _ => rfl, fun _ _ h => by cases h⟩))
  | queued t e => exact .inl ⟨t, e, rfl⟩
  | took x =>
    cases x with
    | none => exact .inr (.inr (.inr ⟨rfl, rfl, fun _ => rfl, fun _ _ h => by cases h⟩))
    | some e => exact .inr (.inl ⟨e, rfl⟩)
  | _ => exact .inr (.inr (.inr ⟨rfl, rfl, fun _ => rfl, fun _ _ h => by cases h⟩))

/-- What has been written, what has been taken (with the memory it was formatted with) and what waits. -/
structure MutInv (cfg : MCfg M V) (f : M → Formatter V) (m0 : M) (tr : List (MutLab M V)) (s : MutState M V)
    (old done wait : List (Event V × M)) : Prop where
  mem : (logged m0 tr).mem = s.mem
  sent : (logged m0 tr).sent = old ++ wait
  same : old.map (·.1) = done.map (·.1)
  chan : eventsOf s.a.chan = wait.map (·.1)
  text : s.a.writes.flatten ++ s.a.buf = shownAs cfg.t f done
  moment : ∀ (i : Nat) e m, done[i]? = some (e, m) → ∃ x y, tr = x ++ y ∧ (logged m0 x).mem = m ∧ i < (logged m0 x).sent.length

theorem textsOf_one (t : Level) (f : M → Formatter V) (e : Event V) (m : M) : shownAs t f [(e, m)] = (accepted t [e]).flatMap (f m) := by
  by_cases h : t ≤ e.level <;> simp [shownAs, accepted, h]

theorem mutexec_inv {cfg : MCfg M V} {f : M → Formatter V} (hf : cfg.f = some f) {prog : Nat → List (ACall V)} {m0 : M} {tr : List (MutLab M V)} {s : MutState M V}
    (h : MutExec cfg ⟨newAsync prog, m0⟩ tr s) : ∃ old done wait, MutInv cfg f m0 tr s old done wait ∧
      (LeavesAlone cfg f ⟨newAsync prog, m0⟩ tr → shownAs cfg.t f old = shownAs cfg.t f done ∧
        (∀ x ∈ wait, f s.mem x.1 = f x.2 x.1) ∧ ∀ t e, (s.a.th t).pc = .sending e → f s.mem e = f ((logged m0 tr).begun t) e) := by
  generalize h0 : (⟨newAsync prog, m0⟩ : MutState M V) = s0 at h
  induction h with
  | nil =>
    subst h0
    refine ⟨[], [], [], ⟨rfl, rfl, rfl, rfl, rfl, fun i e m hi => by simp at hi⟩, fun _ => ⟨rfl, fun _ h => absurd h List.not_mem_nil, fun t e he => ?_⟩⟩
    cases he
  | @snoc tr s l s' hx hs ih =>
    obtain ⟨old, done, wait, inv, ihl⟩ := ih
    have back : LeavesAlone cfg f s0 (tr ++ [l]) → LeavesAlone cfg f s0 tr := fun hl x m y st e => hl x m (y ++ [l]) st (by rw [e]; simp)
    have earlier : ∀ (i : Nat) e m, done[i]? = some (e, m) → ∃ x y, tr ++ [l] = x ++ y ∧ (logged m0 x).mem = m ∧ i < (logged m0 x).sent.length := fun i e m hi => by
      obtain ⟨x, y, e1, e2, e3⟩ := inv.moment i e m hi
      exact ⟨x, y ++ [l], by rw [e1]; simp, e2, e3⟩
    cases hs with
    | @change m hp =>
      refine ⟨old, done, wait, ⟨by rw [logged_snoc]; rfl, by rw [logged_snoc]; exact inv.sent, inv.same, inv.chan, inv.text, earlier⟩, fun hl => ?_⟩
      obtain ⟨a, b, c⟩ := ihl (back hl)
      have key := hl tr m [] s rfl hx
      refine ⟨a, fun x hxw => ?_, fun t e he => ?_⟩
      · have : some x.1 ∈ s.a.chan := by
          have : x.1 ∈ eventsOf s.a.chan := by rw [inv.chan]; exact List.mem_map_of_mem hxw
          simpa [eventsOf, List.mem_filterMap] using this
        exact (key x.1 (.inl this)).trans (b x hxw)
      · rw [logged_snoc]
        exact (key e (.inr ⟨t, he⟩)).trans (c t e he)
    | @out l a hst =>
      have hf' : (cfg.at s.mem).f = some (f s.mem) := by simp [MCfg.at, hf]
      obtain ⟨e1, e2⟩ := act_effect hf' hst.2
      have hsend : ∀ u e, (a.th u).pc = .sending e → (s.a.th u).pc = .sending e ∨ l = .start u (.send e) := fun u e => act_sending hst.2
      rcases lab_cases (M := M) l with ⟨t, e, rfl⟩ | ⟨e, rfl⟩ | ⟨t, e, rfl⟩ | ⟨h1, h2, h3, h4⟩
      · -- queued
        have hq := act_queued hst.2
        refine ⟨old, done, wait ++ [(e, (logged m0 tr).begun t)], ⟨by rw [logged_snoc]; exact inv.mem, ?_, inv.same, ?_, ?_, earlier⟩, fun hl => ?_⟩
        · rw [logged_snoc]
          show (logged m0 tr).sent ++ _ = _
          rw [inv.sent, List.append_assoc]
        · have : eventsOf a.chan = eventsOf s.a.chan ++ [e] := by simpa [takenOf, eventsOf, queuedOf] using e2.symm
          rw [this, inv.chan]; simp
        · rw [e1, inv.text]; simp [takenOf, eventsOf, accepted]
        · obtain ⟨ha, b, c⟩ := ihl (back hl)
          refine ⟨ha, fun x hxw => ?_, fun u e' he => ?_⟩
          · rcases List.mem_append.mp hxw with hxw | hxw
            · exact b x hxw
            · obtain rfl := List.mem_singleton.mp hxw
              exact c t e hq
          · rw [logged_snoc]
            rcases hsend u e' he with h | h
            · exact c u e' h
            · cases h
      · -- taken
        have hc : eventsOf s.a.chan = e :: eventsOf a.chan := by simpa [takenOf, eventsOf, queuedOf] using e2
        rw [inv.chan] at hc
        cases wait with
        | nil => cases hc
        | cons x wait =>
          obtain ⟨e', m⟩ := x
          obtain ⟨rfl, hw⟩ : e' = e ∧ wait.map (·.1) = eventsOf a.chan := by simpa using hc
          refine ⟨old ++ [(e', m)], done ++ [(e', s.mem)], wait, ⟨by rw [logged_snoc]; exact inv.mem, ?_, ?_, hw.symm, ?_, ?_⟩, fun hl => ?_⟩
          · rw [logged_snoc]
            show (logged m0 tr).sent = _
            rw [inv.sent, List.append_assoc]; rfl
          · rw [List.map_append, List.map_append, inv.same]; rfl
          · show a.writes.flatten ++ a.buf = _
            rw [e1, inv.text, textsOf_append, textsOf_one]
            rfl
          · intro i e2 m2 hi
            rcases Nat.lt_or_ge i done.length with hlt | hge
            · rw [List.getElem?_append_left hlt] at hi
              exact earlier i e2 m2 hi
            · rw [List.getElem?_append_right hge] at hi
              have hi0 : i - done.length = 0 := by
                rcases Nat.eq_zero_or_pos (i - done.length) with h | h
                · exact h
                · rw [List.getElem?_eq_none (by simp; omega)] at hi; cases hi
              rw [hi0] at hi
              obtain ⟨rfl, rfl⟩ : e' = e2 ∧ s.mem = m2 := by simpa using hi
              refine ⟨tr, [.out (.took (some e'))], rfl, inv.mem, ?_⟩
              have hlen : old.length = done.length := by simpa using congrArg List.length inv.same
              rw [inv.sent]; simp; omega
          · obtain ⟨ha, b, c⟩ := ihl (back hl)
            refine ⟨?_, fun x hxw => b x (List.mem_cons_of_mem _ hxw), fun u e2 he => ?_⟩
            · rw [textsOf_append, textsOf_append, ha, textsOf_one, textsOf_one]
              have hm := b (e', m) List.mem_cons_self
              simp only at hm
              by_cases hlv : cfg.t ≤ e'.level <;> simp [accepted, hlv, hm]
            · rw [logged_snoc]
              rcases hsend u e2 he with h | h
              · exact c u e2 h
              · cases h
      · -- a call begins
        refine ⟨old, done, wait, ⟨by rw [logged_snoc]; exact inv.mem, by rw [logged_snoc]; exact inv.sent, inv.same, ?_, ?_, earlier⟩, fun hl => ?_⟩
        · have : eventsOf a.chan = eventsOf s.a.chan := by simpa [takenOf, eventsOf, queuedOf] using e2.symm
          rw [this]; exact inv.chan
        · rw [e1, inv.text]; simp [takenOf, eventsOf, accepted]
        · obtain ⟨ha, b, c⟩ := ihl (back hl)
          refine ⟨ha, b, fun u e' he => ?_⟩
          rw [logged_snoc]
          show _ = f (if u = t then (logged m0 tr).mem else (logged m0 tr).begun u) e'
          rcases hsend u e' he with h | h
          · split
            · rw [inv.mem]
            · exact c u e' h
          · cases h
            rw [if_pos rfl, inv.mem]
      · refine ⟨old, done, wait, ⟨by rw [logged_snoc, h3]; exact inv.mem, by rw [logged_snoc, h3]; exact inv.sent, inv.same, ?_, ?_, earlier⟩, fun hl => ?_⟩
        · rw [h1, h2] at e2
          have : eventsOf a.chan = eventsOf s.a.chan := by simpa using e2.symm
          rw [this]; exact inv.chan
        · rw [e1, inv.text, h1]; simp [accepted]
        · obtain ⟨ha, b, c⟩ := ihl (back hl)
          refine ⟨ha, b, fun u e' he => ?_⟩
          rw [logged_snoc, h3]
          rcases hsend u e' he with h | h
          · exact c u e' h
          · exact absurd h (h4 u e')

theorem mutSync_writes (lib : M → Lib V) (t : Level) (f : Option (M → Formatter V)) (acts : List (MutAct M V)) (w : List Bytes) (m : M) :
    (acts.foldl (mutSync lib t f) (w, m)).1 =
      w ++ ((passed m acts).filter fun x => decide (t ≤ x.1.level)).map fun x => textOf (lib x.2) (f.map (· x.2)) x.1 := by
  induction acts generalizing w m with
  | nil => simp [passed]
  | cons a acts ih =>
    cases a with
    | change m' => exact ih w m'
    | send e =>
      rw [List.foldl_cons]
      show (acts.foldl (mutSync lib t f) (_, m)).1 = _
      rw [ih]
      simp only [passed, List.filter_cons]
      by_cases h : t ≤ e.level
      · have h' : ¬ e.level < t := Int.not_lt.mpr h
        cases f with
        | none => simp [BaseOutput.send, h, h', textOf, defaultFormat, defaultLayout, defaultTimeLayout, bytes_eq, longName_eq, messageText_eq]
        | some f => simp [BaseOutput.send, h, h', textOf]
      · have h' : e.level < t := Int.not_le.mp h
        simp [BaseOutput.send, h, h']

/-- While memory does not change this is an execution of the output. -/
theorem still_exec {cfg : MCfg M V} {s0 s : MutState M V} {tr : List (ALab V)} (h : MutExec cfg s0 (tr.map .out) s) : AExec (cfg.at s0.mem) s0.a tr s.a ∧ s.mem = s0.mem := by
  generalize e : tr.map MutLab.out = tr' at h
  induction h generalizing tr with
  | nil =>
    obtain rfl := List.map_eq_nil_iff.mp e
    exact ⟨.nil, rfl⟩
  | @snoc x s1 l s2 hx hs ih =>
    obtain ⟨y, z, rfl, e1, e2⟩ := List.map_eq_append_iff.mp e
    obtain ⟨h1, h2⟩ := ih e1
    cases z with
    | nil => cases e2
    | cons l' z =>
      obtain ⟨rfl, e3⟩ : MutLab.out l' = l ∧ z = [] := by simpa using e2
      subst e3
      cases hs with
      | out hs => exact ⟨h1.snoc (h2 ▸ hs), h2⟩

/-- What was queued has been taken or waits. -/
theorem queue_events {cfg : ACfg V} {f : Formatter V} (hf : cfg.f = some f) {prog : Nat → List (ACall V)} {tr : List (ALab V)} {s : AState V}
    (h : AExec cfg (newAsync prog) tr s) : eventsOf (queuedOf tr) = eventsOf (takenOf tr) ++ eventsOf s.chan := by
  generalize h0 : newAsync prog = s0 at h
  induction h with
  | nil => subst h0; rfl
  | snoc _ hs ih =>
    have := (act_effect hf hs.2).2
    rw [queuedOf_append, takenOf_append, eventsOf_append, eventsOf_append, ih, List.append_assoc, this, List.append_assoc]

/-- A goroutine all of whose events are in the queue is not sending. -/
theorem sent_idle {cfg : ACfg V} {prog : Nat → List (ACall V)} {tr : List (ALab V)} {s : AState V} (h : AExec cfg (newAsync prog) tr s) {t : Nat}
    (hs : ∀ c, .skip t c ∉ tr) (he : queuedBy t tr = sendsOf (prog t)) (e : Event V) : (s.th t).pc ≠ .sending e := by
  intro hp
  have h1 := (aexec_order h t).2 hs
  rw [← he] at h1
  have h2 : flight (s.th t) = [] := by simpa using h1
  simp [flight, hp] at h2

end Log4g
