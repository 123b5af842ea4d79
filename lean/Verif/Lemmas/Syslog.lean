import Verif.Lemmas.SystemFacts
import Verif.Lemmas.SystemClose
import Verif.Lemmas.RollFacts
import Verif.Spec.Syslog

/-! # Connections to the syslog daemon: lemmas -/

namespace Log4g
open Spec Strconv
open scoped List
variable {V : Type} {env : PEnv V} {args0 : Bytes} {up : Nat → Bool}

theorem yexec_pexec {s0 s : PState V} {tr : List (PLab V × Dials)} {y : Sockets} (h : YExec env args0 s0 tr s y) : PExec env s0 (didOf tr) s := by
  induction h with
  | nil => exact .nil
  | snoc _ hs ih => unfold didOf; rw [List.map_append]; exact ih.snoc hs

theorem pexec_yexec (args0 : Bytes) (t : Dials) {s0 s : PState V} {tr : List (PLab V)} (h : PExec env s0 tr s) : ∃ y, YExec env args0 s0 (tr.map fun l => (l, t)) s y := by
  induction h with
  | nil => exact ⟨_, .nil⟩
  | snoc _ hs ih => obtain ⟨y, ih⟩ := ih; rw [List.map_append]; exact ⟨_, ih.snoc hs⟩

theorem message_told {w : World} {o : Nat} {tag : Bytes} (h : SysTag args0 w o tag) (c : SysCall) : c.message args0 (w.sysPrefix o) = told tag c := by
  obtain ⟨cfg, f, h1, h2⟩ := h
  have e : w.sysPrefix o = cfg.at c!"prefix" := by unfold World.sysPrefix; rw [h1]
  have l : ∀ (m : Bytes) [Decidable (m.getLast? = some 10)], (if m.getLast? = some 10 then m else m ++ [10]) = lined m := by
    intro m _
    unfold lined
    have : m.getLast? = some 10 ↔ [10] <:+ m := by
      rw [List.getLast?_eq_some_iff]
      exact ⟨fun ⟨a, h⟩ => ⟨a, h.symm⟩, fun ⟨a, h⟩ => ⟨a, h.symm⟩⟩
    by_cases h : m.getLast? = some 10
    · rw [if_pos h, if_pos (this.mp h)]
    · rw [if_neg h, if_neg (fun k => h (this.mpr k))]
  have g : (if w.sysPrefix o = [] then args0 else (w.sysPrefix o).bytes) = tag := by
    rw [e]
    rcases h2 with ⟨h2, rfl⟩ | ⟨h2, rfl⟩
    · rw [if_pos h2]
    · rw [if_neg h2, bytes_eq]
  unfold SysCall.message
  rw [g]
  cases c <;> exact congr (congr (congrArg SysMsg.mk (by simp [SysCall.severity])) rfl) (l _)

theorem hangUp_got (y : Sockets) (o : Nat) : (y.hangUp o).got = y.got := by unfold Sockets.hangUp; split <;> rfl
theorem connect_got (y : Sockets) (o : Nat) (b : Bool) : (y.connect o b).got = y.got := by
  unfold Sockets.connect; simp only; split <;> simp [hangUp_got]
theorem retry_got (y : Sockets) (t : Dials) (o : Nat) (m : SysMsg) :
    (y.writeAndRetry t o m).got = y.got ++ [(o, m)] ∨ ((y.writeAndRetry t o m).got = y.got ∧ (t.dial = false ∨ t.fresh = false)) := by
  unfold Sockets.writeAndRetry
  split
  · exact .inl rfl
  · simp only
    split
    · exact .inl (by simp [Sockets.deliver, connect_got])
    · rename_i h
      refine .inr ⟨connect_got _ _ _, ?_⟩
      cases hd : t.dial <;> cases hf : t.fresh <;> simp_all

theorem gotFrom_append (o : Nat) (a b : List (Nat × SysMsg)) : gotFrom o (a ++ b) = gotFrom o a ++ gotFrom o b := by simp [gotFrom]

theorem unreached_append (o : Nat) (a b : List (PLab V × Dials)) : unreached o (a ++ b) = unreached o a + unreached o b := by
  simp [unreached]

theorem sendSyslog_one (w : World) (stack : List Frame) (d : World.Delivery V) : (w.sendSyslog env stack d).length ≤ 1 := by
  unfold World.sendSyslog SyslogOutput.send
  repeat' split
  all_goals simp

/-- How a step changes what outputs have called. -/
theorem syslog_step {s s' : PState V} {l : PLab V} (h : PStep env s l s') :
    (s'.syslog = s.syslog ∧ (∀ t o e, l ≠ .plain t o (.send e))) ∨
    ∃ t o e cs, l = .plain t o (.send e) ∧ cs.length ≤ 1 ∧ s'.syslog o = s.syslog o ++ cs ∧ (∀ p, p ≠ o → s'.syslog p = s.syslog p) ∧ s'.w = s.w := by
  cases h.2 with
  | send stack h1 h2 => exact .inr ⟨_, _, _, _, rfl, sendSyslog_one _ _ _, if_pos rfl, fun p hp => if_neg hp, rfl⟩
  | _ => exact .inl ⟨rfl, by simp⟩

theorem prefix_ext {w w' : World} (x : Ext w w') {o : Nat} (h : o < w.mgr.oheap.length) : w'.sysPrefix o = w.sysPrefix o := by
  unfold World.sysPrefix; rw [ext_oheap x h]

theorem connects_got (os : List Nat) (y : Sockets) : (os.foldl (fun y o => y.connect o true) y).got = y.got := by
  induction os generalizing y with
  | nil => rfl
  | cons o os ih => rw [List.foldl_cons, ih, connect_got]

/-- What has arrived, of what was called. -/
structure YInv (env : PEnv V) (args0 : Bytes) (tr : List (PLab V × Dials)) (s : PState V) (y : Sockets) : Prop where
  sub : ∀ o, gotFrom o y.got <+ (s.syslog o).map fun c => c.message args0 (s.w.sysPrefix o)
  len : ∀ o, (s.syslog o).length ≤ (gotFrom o y.got).length + unreached o tr

theorem syslog_new {tr : List (PLab V)} {s : PState V} (h : PExec env (newProgram up) tr s) {o : Nat} (ho : s.w.mgr.oheap.length ≤ o) : s.syslog o = [] := by
  obtain ⟨q, hq⟩ := pexec_sinv h
  rw [hq.syslog]
  have : q o = [] := by
    by_cases e : q o = []
    · exact e
    · exact absurd (hq.old o e) (by omega)
  rw [this]; rfl

theorem yexec_inv {tr : List (PLab V × Dials)} {s : PState V} {y : Sockets} (h : YExec env args0 (newProgram up) tr s y) : YInv env args0 tr s y := by
  generalize e0 : newProgram up = s0 at h
  induction h with
  | nil => subst e0; exact ⟨fun o => List.nil_sublist _, fun o => by simp [newProgram]⟩
  | @snoc tr s1 y l s2 t hx hs ih =>
    subst e0
    have px := yexec_pexec hx
    have x := ext_step (pexec_inv px) hs
    rcases syslog_step hs with ⟨e, hl⟩ | ⟨u, o, ev, cs, rfl, hc, e1, e2, ew⟩
    · have hg : (y.after env args0 s1 s2 t l).got = y.got := by
        unfold Sockets.after
        split
        · exact connects_got _ _
        · exact absurd rfl (hl _ _ _)
        · exact hangUp_got _ _
        · rfl
      have hu : ∀ o, unreached o [(l, t)] = 0 := by
        intro o
        unfold unreached
        rw [List.filter_cons_of_neg, List.filter_nil, List.length_nil]
        unfold Unreached
        split
        · exact absurd ‹_› (hl _ _ _)
        · simp
      constructor
      · intro o
        rw [hg, e]
        by_cases ho : o < s1.w.mgr.oheap.length
        · rw [prefix_ext x ho]; exact ih.sub o
        · have := ih.sub o
          rw [syslog_new px (Nat.not_lt.mp ho)] at this ⊢
          exact this
      · intro o
        rw [hg, e, unreached_append, hu]; exact ih.len o
    · have hd : (s2.syslog o).drop (s1.syslog o).length = cs := by rw [e1]; simp
      have ha : y.after env args0 s1 s2 t (.plain u o (.send ev)) = cs.foldl (fun y c => y.writeAndRetry t o (c.message args0 (s1.w.sysPrefix o))) y := by
        unfold Sockets.after; simp only [hd]
      rw [ha]
      have other : ∀ p, p ≠ o → gotFrom p (cs.foldl (fun y c => y.writeAndRetry t o (c.message args0 (s1.w.sysPrefix o))) y).got = gotFrom p y.got := by
        intro p hp
        match cs, hc with
        | [], _ => rfl
        | [c], _ =>
          simp only [List.foldl_cons, List.foldl_nil]
          rcases retry_got y t o (c.message args0 (s1.w.sysPrefix o)) with h | ⟨h, _⟩
          · rw [h, gotFrom_append]; simp [gotFrom, Ne.symm hp]
          · rw [h]
      constructor
      · intro p
        rw [ew]
        by_cases hp : p = o
        · subst hp
          rw [e1, List.map_append]
          match cs, hc with
          | [], _ => simpa using ih.sub p
          | [c], _ =>
            simp only [List.foldl_cons, List.foldl_nil]
            rcases retry_got y t p (c.message args0 (s1.w.sysPrefix p)) with h | ⟨h, _⟩
            · rw [h, gotFrom_append]
              refine List.Sublist.append (ih.sub p) ?_
              simp [gotFrom]
            · rw [h]; exact (ih.sub p).trans (List.sublist_append_left _ _)
        · rw [other p hp, e2 p hp]; exact ih.sub p
      · intro p
        rw [unreached_append]
        have i := ih.len p
        by_cases hp : p = o
        · subst hp
          rw [e1, List.length_append]
          match cs, hc with
          | [], _ => simp only [List.foldl_nil, List.length_nil]; omega
          | [c], _ =>
            simp only [List.foldl_cons, List.foldl_nil, List.length_singleton]
            rcases retry_got y t p (c.message args0 (s1.w.sysPrefix p)) with h | ⟨h, hf⟩
            · rw [h, gotFrom_append, List.length_append]
              have : (gotFrom p [(p, c.message args0 (s1.w.sysPrefix p))]).length = 1 := by simp [gotFrom]
              omega
            · rw [h]
              have : unreached p [((PLab.plain u p (.send ev) : PLab V), t)] = 1 := by
                rcases hf with hf | hf <;> simp [unreached, Unreached, hf]
              omega
        · rw [other p hp, e2 p hp]; omega

/-! The connections. -/

/-- Connections and outputs correspond. -/
structure YConn (env : PEnv V) (w : World) (y : Sockets) : Prop where
  nodup : y.live.Nodup
  old : ∀ k ∈ y.live, k < y.made
  mine : ∀ o k, y.conn o = some k → k ∈ y.live ∧ IsSyslog env w o
  owned : ∀ k ∈ y.live, ∃ o, y.conn o = some k
  one : ∀ o p k, y.conn o = some k → y.conn p = some k → o = p

theorem YConn.hangUp {w : World} {y : Sockets} (h : YConn env w y) (o : Nat) : YConn env w (y.hangUp o) ∧ (y.hangUp o).conn o = none ∧
    ∀ p, p ≠ o → (y.hangUp o).conn p = y.conn p := by
  unfold Sockets.hangUp
  split
  · rename_i e; exact ⟨h, e, fun _ _ => rfl⟩
  · rename_i k e
    refine ⟨⟨h.nodup.erase _, fun j hj => h.old j (List.mem_of_mem_erase hj), fun p j => ?_, fun j hj => ?_, fun p q j => ?_⟩, if_pos rfl, fun p hp => if_neg hp⟩
    · simp only
      split
      · simp
      · rename_i hp
        intro hj
        refine ⟨(h.nodup.mem_erase_iff).mpr ⟨?_, (h.mine p j hj).1⟩, (h.mine p j hj).2⟩
        rintro rfl
        exact hp (h.one p o j hj e)
    · obtain ⟨hne, hm⟩ := (h.nodup.mem_erase_iff).mp hj
      obtain ⟨p, hp⟩ := h.owned j hm
      refine ⟨p, ?_⟩
      simp only
      rw [if_neg]
      · exact hp
      · rintro rfl
        rw [e] at hp; injection hp with hp; exact hne hp.symm
    · intro a b
      simp only at a b
      split at a
      · cases a
      · split at b
        · cases b
        · exact h.one p q j a b

theorem YConn.connect {w : World} {y : Sockets} (h : YConn env w y) (o : Nat) (ho : IsSyslog env w o) (b : Bool) : YConn env w (y.connect o b) := by
  obtain ⟨h1, h2, h3⟩ := h.hangUp o
  unfold Sockets.connect
  simp only
  generalize y.hangUp o = z at h1 h2 h3
  split
  · have hn : z.made ∉ z.live := fun hm => Nat.lt_irrefl _ (h1.old _ hm)
    refine ⟨?_, fun j hj => ?_, fun p j => ?_, fun j hj => ?_, fun p q j => ?_⟩
    · rw [List.nodup_append]
      refine ⟨h1.nodup, by simp, ?_⟩
      intro a ha c hc e
      rw [List.mem_singleton.mp hc] at e
      exact hn (e ▸ ha)
    · simp only [List.mem_append, List.mem_singleton] at hj
      rcases hj with hj | rfl
      · exact Nat.lt_succ_of_lt (h1.old j hj)
      · exact Nat.lt_succ_self _
    · simp only
      split
      · rename_i hp
        subst hp
        intro e; injection e with e; subst e
        exact ⟨by simp, ho⟩
      · intro e; exact ⟨List.mem_append_left _ (h1.mine p j e).1, (h1.mine p j e).2⟩
    · simp only [List.mem_append, List.mem_singleton] at hj
      rcases hj with hj | rfl
      · obtain ⟨p, hp⟩ := h1.owned j hj
        refine ⟨p, ?_⟩
        simp only
        rw [if_neg]
        · exact hp
        · rintro rfl; rw [h2] at hp; cases hp
      · exact ⟨o, if_pos rfl⟩
    · simp only
      intro a c
      split at a <;> split at c
      · rename_i x1 x2; rw [x1, x2]
      · injection a with a; subst a; exact absurd (h1.mine _ _ c).1 hn
      · injection c with c; subst c; exact absurd (h1.mine _ _ a).1 hn
      · exact h1.one p q j a c
  · exact h1

theorem YConn.deliver {w : World} {y : Sockets} (h : YConn env w y) (o : Nat) (m : SysMsg) : YConn env w (y.deliver o m) :=
  ⟨h.nodup, h.old, h.mine, h.owned, h.one⟩

theorem YConn.retry {w : World} {y : Sockets} (h : YConn env w y) (t : Dials) (o : Nat) (ho : IsSyslog env w o) (m : SysMsg) :
    YConn env w (y.writeAndRetry t o m) := by
  unfold Sockets.writeAndRetry
  split
  · exact h.deliver _ _
  · simp only
    split
    · exact (h.connect o ho _).deliver _ _
    · exact h.connect o ho _

theorem isSyslog_ext {w w' : World} (x : Ext w w') {o : Nat} (h : IsSyslog env w o) : IsSyslog env w' o := by
  obtain ⟨ob, t, h1, h2⟩ := h
  refine ⟨ob, t, ?_, h2⟩
  rw [ext_oheap x (by have := List.getElem?_eq_some_iff.mp h1; exact this.1)]; exact h1

theorem YConn.ext {w w' : World} (x : Ext w w') {y : Sockets} (h : YConn env w y) : YConn env w' y :=
  ⟨h.nodup, h.old, fun o k e => ⟨(h.mine o k e).1, isSyslog_ext x (h.mine o k e).2⟩, h.owned, h.one⟩

theorem syslogFrom_is {w : World} {n o : Nat} : o ∈ w.syslogFrom env.tc n ↔ n ≤ o ∧ IsSyslog env w o := by
  unfold World.syslogFrom
  rw [List.mem_filter, List.mem_range'_1]
  constructor
  · rintro ⟨⟨h1, h2⟩, h3⟩
    refine ⟨h1, ?_⟩
    split at h3
    · rename_i ob e
      split at h3
      · rename_i t ek; exact ⟨ob, t, e, ek⟩
      · cases h3
    · cases h3
  · rintro ⟨h1, ob, t, h2, h3⟩
    have := (List.getElem?_eq_some_iff.mp h2).1
    refine ⟨⟨h1, by omega⟩, ?_⟩
    simp [h2, h3]

theorem connects_conn {w : World} (os : List Nat) (hos : ∀ o ∈ os, IsSyslog env w o) {y : Sockets} (h : YConn env w y) :
    YConn env w (os.foldl (fun y o => y.connect o true) y) := by
  induction os generalizing y with
  | nil => exact h
  | cons o os ih => exact ih (fun p hp => hos p (List.mem_cons_of_mem _ hp)) (h.connect o (hos o (by simp)) true)

theorem sends_conn {w : World} {t : Dials} {o : Nat} {f : SysCall → SysMsg} (cs : List SysCall) (ho : cs ≠ [] → IsSyslog env w o) {y : Sockets} (h : YConn env w y) :
    YConn env w (cs.foldl (fun y c => y.writeAndRetry t o (f c)) y) := by
  induction cs generalizing y with
  | nil => exact h
  | cons c cs ih => exact ih (fun _ => ho (by simp)) (h.retry t o (ho (by simp)) _)

theorem sends_syslog {s : PState V} {stack : List Frame} {d : World.Delivery V} (h : s.w.sendSyslog env stack d ≠ []) : IsSyslog env s.w d.out := by
  unfold World.sendSyslog at h
  split at h
  · exact absurd rfl h
  · rename_i ob e
    split at h
    · rename_i t ek; exact ⟨ob, t, e, ek⟩
    · exact absurd rfl h

theorem yexec_conn {tr : List (PLab V × Dials)} {s : PState V} {y : Sockets} (h : YExec env args0 (newProgram up) tr s y) : YConn env s.w y := by
  generalize e0 : newProgram up = s0 at h
  induction h with
  | nil => exact ⟨List.nodup_nil, by simp, by simp, by simp, by simp⟩
  | @snoc tr s1 y l s2 t hx hs ih =>
    subst e0
    have x := ext_step (pexec_inv (yexec_pexec hx)) hs
    have i2 := ih.ext x
    cases hs.2 with
    | act => exact connects_conn _ (fun o ho => (syslogFrom_is.mp ho).2) i2
    | @send t' k o e rest stack h1 h2 =>
      have : ∀ cs : List SysCall, (cs ≠ [] → IsSyslog env s1.w o) → YConn env s1.w (cs.foldl (fun y c => y.writeAndRetry t o (c.message args0 (s1.w.sysPrefix o))) y) := by
        intro cs hh
        exact sends_conn cs hh ih
      refine this _ fun hne => ?_
      simp only [PState.set, if_pos, List.drop_left] at hne
      exact sends_syslog hne
    | closed => exact (i2.hangUp _).1
    | _ => exact i2

/-! Closing. -/

theorem update_mgr (w : World) (r : Nat) (f : Logger → Logger) : (w.update r f).mgr = w.mgr := by
  rfl

theorem isSyslog_mgr {w w' : World} (h : w'.mgr = w.mgr) {o : Nat} (ho : IsSyslog env w' o) : IsSyslog env w o := by
  unfold IsSyslog at ho ⊢; rw [h] at ho; exact ho

/-- While the manager's lock is held no output is made that has a `syslog.Writer`. -/
theorem unlocked_same {w : World} {a : Act} (h : ¬ a.locks w) (n : ¬ a.panics w) {o : Nat} (ho : IsSyslog env (a.run w) o) : IsSyslog env w o := by
  have conf : ∀ {cfg order}, (w.setConfig cfg order).1 ≠ none → (w.setConfig cfg order).2 = w := by
    intro cfg order h
    unfold World.setConfig at h ⊢
    split
    · rfl
    · rename_i e; rw [e] at h; exact absurd rfl h
  cases a with
  | registerFormatter | registerOutput | queryOutputs => exact absurd trivial h
  | setConfig cfg order => rw [show (Act.setConfig cfg order).run w = w from conf h] at ho; exact ho
  | loadConfig d bs ext order => rw [show (Act.loadConfig d bs ext order).run w = w from conf h] at ho; exact ho
  | loadConfigFile d file read order =>
    have : (Act.loadConfigFile d file read order).run w = w := by
      simp only [Act.locks, Act.panics, Act.run, World.loadConfigFile] at h n ⊢
      split
      · rfl
      · split
        · rfl
        · rename_i ext he
          simp only [he] at h
          refine conf fun hh => h ?_
          unfold World.loadConfig
          rw [hh]; rfl
    rw [this] at ho; exact ho
  | getLogger name =>
    have : (Act.getLogger name).run w = w := by
      simp only [Act.locks, Act.run, World.getLogger] at h ⊢
      split
      · rename_i hn
        rw [if_pos hn] at h
        unfold World.getRootLogger
        cases hr : w.root with
        | none => exact absurd hr h
        | some r => rfl
      · rename_i hn
        rw [if_neg hn] at h
        split
        · rfl
        · rename_i hg; exact absurd hg h
    rw [this] at ho; exact ho
  | userOutput flag =>
    obtain ⟨ob, t, h1, h2⟩ := ho
    simp only [Act.run, World.userOutput] at h1
    rw [getElem?_concat] at h1
    rcases h1 with h1 | ⟨_, rfl⟩
    · exact ⟨ob, t, h1, h2⟩
    · simp [OutObj.kind] at h2
  | setLevel => exact isSyslog_mgr (update_mgr _ _ _) ho
  | setCallerSkip => exact isSyslog_mgr (update_mgr _ _ _) ho
  | setOutputs => exact isSyslog_mgr (update_mgr _ _ _) ho

theorem did_snoc (tr : List (PLab V × Dials)) (l : PLab V) (t : Dials) : didOf (tr ++ [(l, t)]) = didOf tr ++ [l] := by simp [didOf]

theorem sends_other {t : Dials} {o p : Nat} {f : SysCall → SysMsg} (cs : List SysCall) (hp : p ≠ o) {y : Sockets} :
    (cs.foldl (fun y c => y.writeAndRetry t o (f c)) y).conn p = y.conn p := by
  induction cs generalizing y with
  | nil => rfl
  | cons c cs ih =>
    rw [List.foldl_cons, ih]
    have h1 : ∀ y : Sockets, (y.hangUp o).conn p = y.conn p := by
      intro y
      unfold Sockets.hangUp
      split
      · rfl
      · exact if_neg hp
    have h2 : ∀ (y : Sockets) b, (y.connect o b).conn p = y.conn p := by
      intro y b
      unfold Sockets.connect
      simp only
      split
      · exact (if_neg hp).trans (h1 y)
      · exact h1 y
    unfold Sockets.writeAndRetry
    simp only
    split
    · rfl
    · split <;> exact h2 _ _

theorem closing_conn {t : Nat} {os : List Nat} {a : List (PLab V)} {tr : List (PLab V × Dials)} {s : PState V} {y : Sockets}
    (h : YExec env args0 (newProgram up) tr s y) : ∀ b, didOf tr = a ++ .close t os :: b → .ret t ∉ b →
      (∀ o u e b1 b2, IsSyslog env s.w o → b = b1 ++ .plain t o .close :: b2 → .plain u o (.send e) ∉ b2) →
      (s.th t).call = some .close ∧ ∀ o, IsSyslog env s.w o → (y.conn o = none ∧ .plain t o .close ∈ b) ∨ (o, ACall.close) ∈ (s.th t).todo := by
  generalize e0 : newProgram up = s0 at h
  induction h with
  | nil => intro b e; simp [didOf] at e
  | @snoc tr s1 y l s2 d hx hs ih =>
    subst e0
    intro b e hr hb
    rw [did_snoc] at e
    have px := yexec_pexec hx
    have i := pexec_inv px
    have x := ext_step i hs
    rcases List.eq_nil_or_concat b with rfl | ⟨b', l', rfl⟩
    · obtain ⟨_, e1⟩ := List.append_inj' e rfl
      have e1 := List.singleton_inj.mp e1
      subst e1
      cases hs.2 with
      | close hn hl hperm =>
        refine ⟨by rw [pset_th, if_pos rfl], fun o ho => .inr ?_⟩
        rw [pset_th, if_pos rfl]
        refine List.mem_map.mpr ⟨o, hperm.mem_iff.mpr ?_, rfl⟩
        obtain ⟨ob, t', h1, h2⟩ := ho
        obtain ⟨org, f⟩ := ob
        cases org with
        | managed cfg =>
          have := (i.world.mgr.managed o cfg f h1).1
          exact List.mem_map.mpr ⟨_, Map.mem_of_get this, rfl⟩
        | console => simp [OutObj.kind] at h2
        | user => simp [OutObj.kind] at h2
    · rw [List.concat_eq_append, show a ++ .close t os :: (b' ++ [l']) = (a ++ .close t os :: b') ++ [l'] by simp] at e
      obtain ⟨e1, e2⟩ := List.append_inj' e rfl
      have e2 := List.singleton_inj.mp e2
      subst e2
      rw [List.concat_eq_append] at hr hb
      simp only [List.mem_append, List.mem_singleton, not_or] at hr
      obtain ⟨j1, j2⟩ := ih b' e1 hr.1 fun o u ev b1 b2 ho eb hm =>
        hb o u ev b1 (b2 ++ [l]) (isSyslog_ext x ho) (by rw [eb]; simp) (List.mem_append_left _ hm)
      rw [List.concat_eq_append]
      have more : ∀ {o : Nat} {c : Prop} {q : List (Nat × ACall V)}, (c ∧ .plain t o .close ∈ b') ∨ (o, ACall.close) ∈ q →
          (c ∧ .plain t o .close ∈ b' ++ [l]) ∨ (o, ACall.close) ∈ q := fun h => h.imp (fun h => ⟨h.1, List.mem_append_left _ h.2⟩) id
      have keep : s2.w = s1.w → y.after env args0 s1 s2 d l = y → s2.th t = s1.th t →
          (s2.th t).call = some .close ∧ ∀ o, IsSyslog env s2.w o → ((y.after env args0 s1 s2 d l).conn o = none ∧ .plain t o .close ∈ b' ++ [l]) ∨ (o, ACall.close) ∈ (s2.th t).todo := by
        intro h1 h2 h3; rw [h1, h2, h3]; exact ⟨j1, fun o ho => more (j2 o ho)⟩
      have lone : ∀ {u}, (s1.th u).call = none → t ≠ u := by rintro u hu rfl; rw [j1] at hu; cases hu
      cases hs.2 with
      | @act act hok hk hp hl =>
        have hlk : s1.lock = some t := (i.lock t).mpr j1
        have hn : ¬ act.locks s1.w := fun k => by have := hl k; rw [hlk] at this; cases this
        refine ⟨j1, fun o ho => ?_⟩
        have ho1 := unlocked_same hn hp ho
        have : (y.after env args0 s1 { s1 with w := act.run s1.w } d (.act act)) = y := by
          unfold Sockets.after
          simp only
          rw [show (act.run s1.w).syslogFrom env.tc s1.w.mgr.oheap.length = [] from ?_]
          · rfl
          · refine List.eq_nil_iff_forall_not_mem.mpr fun p hp' => ?_
            obtain ⟨k1, k2⟩ := syslogFrom_is.mp hp'
            obtain ⟨ob, _, k3, _⟩ := unlocked_same hn hp k2
            have := (List.getElem?_eq_some_iff.mp k3).1
            omega
        rw [this]
        exact more (j2 o ho1)
      | actPanic => exact keep rfl rfl rfl
      | logPanic => exact keep rfl rfl rfl
      | log hn => exact keep rfl rfl (by rw [pset_th, if_neg (lone hn)])
      | close hn => exact keep rfl rfl (by rw [pset_th, if_neg (lone hn)])
      | direct hn => exact keep rfl rfl (by rw [pset_th, if_neg (lone hn)])
      | out => exact keep rfl rfl rfl
      | @leave u k o rest ht hi =>
        by_cases hu : t = u
        · subst hu
          rw [ht] at j1 j2
          refine ⟨by rw [pset_th, if_pos rfl]; exact j1, fun p hp => ?_⟩
          rw [pset_th, if_pos rfl]; exact more (j2 p hp)
        · exact keep rfl rfl (by rw [pset_th, if_neg hu])
      | @ret u k ht => exact keep rfl rfl (by rw [pset_th, if_neg]; rintro rfl; exact hr.2 rfl)
      | @enter u k o c rest cfg ht hc =>
        by_cases hu : t = u
        · subst hu
          rw [ht] at j1 j2
          refine ⟨by rw [pset_th, if_pos rfl]; exact j1, fun p hp => ?_⟩
          rw [pset_th, if_pos rfl]
          rcases more (j2 p hp) with j | j
          · exact .inl j
          · simp only [List.mem_cons, Prod.mk.injEq] at j
            rcases j with ⟨rfl, _⟩ | j
            · exfalso
              obtain ⟨ob, t', k1, k2⟩ := hp
              have k1 : s1.w.mgr.oheap[p]? = some ob := k1
              unfold World.asyncOf at hc
              simp only [k1, k2] at hc
              cases hc
            · exact .inr j
        · exact keep rfl rfl (by rw [pset_th, if_neg hu]; rfl)
      | @send u k o ev rest stack ht hc =>
        have htu : t ≠ u := by
          rintro rfl
          have := (i.closes t j1).1 (o, .send ev) (by rw [ht]; simp)
          cases this
        refine ⟨by rw [pset_th, if_neg htu]; exact j1, fun p hp => ?_⟩
        rw [pset_th, if_neg htu]
        rcases j2 p hp with ⟨j, jm⟩ | j
        · by_cases e : p = o
          · subst e
            obtain ⟨b1, b2, eb⟩ := List.append_of_mem jm
            exact absurd (List.mem_append_right _ (List.mem_singleton.mpr rfl)) (hb p u ev b1 (b2 ++ [.plain u p (.send ev)]) hp (by rw [eb]; simp))
          · refine .inl ⟨?_, List.mem_append_left _ jm⟩
            rw [← j]
            exact sends_other _ e
        · exact .inr j
      | @closed u k o rest ht hc =>
        obtain ⟨k1, k2, k3⟩ := (yexec_conn hx).hangUp o
        show _ ∧ ∀ p, _ → ((y.hangUp o).conn p = none ∧ _) ∨ _
        have gone : ∀ p, y.conn p = none → (y.hangUp o).conn p = none := by
          intro p hp
          by_cases e : p = o
          · subst e; exact k2
          · rw [k3 p e]; exact hp
        by_cases hu : t = u
        · subst hu
          rw [ht] at j1 j2
          refine ⟨by rw [pset_th, if_pos rfl]; exact j1, fun p hp => ?_⟩
          rw [pset_th, if_pos rfl]
          rcases j2 p hp with ⟨j, jm⟩ | j
          · exact .inl ⟨gone p j, List.mem_append_left _ jm⟩
          · simp only [List.mem_cons, Prod.mk.injEq] at j
            rcases j with ⟨rfl, _⟩ | j
            · exact .inl ⟨k2, by simp⟩
            · exact .inr j
        · refine ⟨by rw [pset_th, if_neg hu]; exact j1, fun p hp => ?_⟩
          rw [pset_th, if_neg hu]
          rcases j2 p hp with ⟨j, jm⟩ | j
          · exact .inl ⟨gone p j, List.mem_append_left _ jm⟩
          · exact .inr j

end Log4g
