import Verif.Lemmas.SystemRuns

/-! # A whole program: outputs that are not asynchronous -/

namespace Log4g
open Spec
open scoped List
variable {V : Type}

theorem calls_append (a b : List (Nat × Event V × List Frame)) : calls (a ++ b) = calls a ++ calls b := by simp [calls]

/-- The calls of `Send` of output `o` that were made and returned, if it is not asynchronous. -/
def plainSends (o : Nat) (tr : List (PLab V)) : List (Nat × Event V) :=
  tr.flatMap fun | .plain t p (.send e) => if p = o then [(t, e)] else [] | _ => []

theorem plainSends_append (o : Nat) (a b : List (PLab V)) : plainSends o (a ++ b) = plainSends o a ++ plainSends o b := List.flatMap_append

/-- `q o` are the calls of `Send` output `o` has had. -/
structure SInv (env : PEnv V) (tr : List (PLab V)) (s : PState V) (q : Nat → List (Nat × Event V × List Frame)) : Prop where
  order : ∀ t o, s.w.asyncOf env o = none → shareOf t (plainSends o tr) ++ toSend o (s.th t).todo = sentBy t o tr
  made : ∀ o, calls (q o) = plainSends o tr
  old : ∀ o, q o ≠ [] → o < s.w.mgr.oheap.length
  wrote : ∀ o, s.wrote o = (q o).flatMap fun x => s.w.sendWrites env.tc env.lib x.2.2 env.other ⟨o, x.2.1⟩
  syslog : ∀ o, s.syslog o = (q o).flatMap fun x => s.w.sendSyslog env x.2.2 ⟨o, x.2.1⟩

theorem flatMap_same {α β : Type} {l : List α} {f g : α → List β} (h : ∀ x ∈ l, f x = g x) : l.flatMap f = l.flatMap g := by
  induction l with
  | nil => rfl
  | cons x l ih => rw [List.flatMap_cons, List.flatMap_cons, h x (by simp), ih fun y hy => h y (by simp [hy])]

/-- A step in which no such output is called. -/
theorem SInv.move {env : PEnv V} {tr : List (PLab V)} {s s' : PState V} {q : Nat → List (Nat × Event V × List Frame)} (h : SInv env tr s q)
    {l : PLab V} (hl : ∀ o, plainSends o [l] = []) (hw : s'.w = s.w) (h1 : s'.wrote = s.wrote) (h2 : s'.syslog = s.syslog)
    (ho : ∀ t o, s.w.asyncOf env o = none → toSend o (s'.th t).todo = toSend o (s.th t).todo ++ sentBy t o [l]) : SInv env (tr ++ [l]) s' q := by
  refine ⟨?_, fun o => by rw [plainSends_append, hl, List.append_nil]; exact h.made o, by rw [hw]; exact h.old, by rw [hw, h1]; exact h.wrote, by rw [hw, h2]; exact h.syslog⟩
  intro t o hc
  rw [hw] at hc
  rw [ho t o hc, plainSends_append, hl, List.append_nil, ← List.append_assoc, h.order t o hc, sentBy_append]

theorem sinv_step {env : PEnv V} {tr : List (PLab V)} {s s' : PState V} {l : PLab V} {q : Nat → List (Nat × Event V × List Frame)}
    (hp : PInv env tr s) (h : SInv env tr s q) (hs : PAct env s l s') : ∃ q', SInv env (tr ++ [l]) s' q' := by
  have nothing : ∀ {l : PLab V}, (∀ t o, sentBy t o [l] = []) → ∀ {x y : List (Nat × ACall V)} {t o}, x = y → toSend o x = toSend o y ++ sentBy t o [l] := by
    intro l hl x y t o e
    rw [hl, List.append_nil, e]
  cases hs with
  | @act a hok _ _ _ =>
    obtain ⟨wi, x⟩ := step_inv hp.world a hok
    have hlen := ext_length x
    refine ⟨q, ?_, fun o => by rw [plainSends_append]; simpa [plainSends] using h.made o, fun o ho => Nat.lt_of_lt_of_le (h.old o ho) hlen, ?_, ?_⟩
    · intro t o hc
      rw [sentBy_append, show sentBy t o [PLab.act a] = [] from rfl, List.append_nil, plainSends_append, show plainSends o [PLab.act a] = [] from rfl, List.append_nil]
      by_cases ho : o < s.w.mgr.oheap.length
      · exact h.order t o (by rw [← ext_asyncOf env hp.world x ho]; exact hc)
      · refine h.order t o ?_
        unfold World.asyncOf
        rw [List.getElem?_eq_none (by omega)]
    · intro o
      show s.wrote o = _
      rw [h.wrote o]
      refine flatMap_same fun y hy => ?_
      have := h.old o (by intro e; rw [e] at hy; simp at hy)
      exact (ext_sendWrites env hp.world x y.2.2 ⟨o, y.2.1⟩ this).symm
    · intro o
      show s.syslog o = _
      rw [h.syslog o]
      refine flatMap_same fun y hy => ?_
      have := h.old o (by intro e; rw [e] at hy; simp at hy)
      exact (ext_sendSyslog env hp.world x y.2.2 ⟨o, y.2.1⟩ this).symm
  | actPanic _ => exact ⟨q, h.move (fun _ => rfl) rfl rfl rfl fun t o _ => nothing (fun _ _ => rfl) rfl⟩
  | logPanic _ _ _ => exact ⟨q, h.move (fun _ => rfl) rfl rfl rfl fun t o _ => nothing (fun _ _ => rfl) rfl⟩
  | @log t now stack r ctx lvl fmt args ds ht _ _ =>
    refine ⟨q, h.move (fun _ => rfl) rfl rfl rfl fun u o _ => ?_⟩
    rw [pset_th]
    by_cases hu : u = t
    · subst hu
      rw [if_pos rfl, hp.rest u ht, toSend_log]
      simp [toSend, sendsOf, sentBy]
    · rw [if_neg hu]
      simp [sentBy, Ne.symm hu]
  | @close t os ht _ _ =>
    refine ⟨q, h.move (fun _ => rfl) rfl rfl rfl fun u o _ => ?_⟩
    rw [pset_th]
    by_cases hu : u = t
    · subst hu
      rw [if_pos rfl, hp.rest u ht, toSend_close]
      simp [toSend, sendsOf, sentBy]
    · rw [if_neg hu]
      simp [sentBy]
  | @direct t p c ht _ =>
    refine ⟨q, h.move (fun _ => rfl) rfl rfl rfl fun u o _ => ?_⟩
    rw [pset_th]
    by_cases hu : u = t
    · subst hu
      rw [if_pos rfl, hp.rest u ht]
      cases c with
      | close => by_cases hpo : p = o <;> simp [toSend, sendsOf, sentBy, hpo]
      | send e => by_cases hpo : p = o <;> simp [toSend, sendsOf, sentBy, hpo]
    · rw [if_neg hu]
      cases c <;> simp [sentBy, Ne.symm hu]
  | @enter t k p c rest cfg ht hc =>
    refine ⟨q, h.move (fun _ => rfl) rfl rfl rfl fun u o ho => ?_⟩
    rw [pset_th]
    by_cases hu : u = t
    · subst hu
      have hpo : p ≠ o := by rintro rfl; rw [hc] at ho; simp at ho
      rw [if_pos rfl, ht, toSend_cons, if_neg hpo]
      simp [sentBy]
    · rw [if_neg hu]
      exact nothing (fun _ _ => rfl) rfl
  | out _ _ => exact ⟨q, h.move (fun _ => rfl) rfl rfl rfl fun t o _ => nothing (fun _ _ => rfl) rfl⟩
  | @leave t k p rest ht _ =>
    refine ⟨q, h.move (fun _ => rfl) rfl rfl rfl fun u o ho => nothing (fun _ _ => rfl) ?_⟩
    rw [pset_th]
    by_cases hu : u = t
    · subst hu; rw [if_pos rfl, ht]
    · rw [if_neg hu]
  | @closed t k p rest ht hc =>
    refine ⟨q, h.move (fun _ => rfl) rfl rfl rfl fun u o ho => ?_⟩
    rw [pset_th]
    by_cases hu : u = t
    · subst hu
      rw [if_pos rfl, ht, toSend_cons]
      simp [sentBy, sendsOf]
    · rw [if_neg hu]
      exact nothing (fun _ _ => rfl) rfl
  | @ret t k ht =>
    refine ⟨q, h.move (fun _ => rfl) rfl rfl rfl fun u o ho => nothing (fun _ _ => rfl) ?_⟩
    rw [pset_th]
    by_cases hu : u = t
    · subst hu; rw [if_pos rfl, ht]
    · rw [if_neg hu]
  | @send t k p e rest stack ht hc =>
    have hlt : p < s.w.mgr.oheap.length := hp.todo t (p, .send e) (by rw [ht]; simp)
    refine ⟨fun o => if o = p then q p ++ [(t, e, stack)] else q o, ?_, ?_, ?_, ?_, ?_⟩
    · intro u o ho
      rw [sentBy_append, show sentBy u o [PLab.plain t p (.send e)] = [] from rfl, List.append_nil, ← h.order u o ho, pset_th, plainSends_append, shareOf_append]
      by_cases hpo : o = p
      · subst hpo
        by_cases hu : u = t
        · subst hu
          rw [if_pos rfl, ht, toSend_cons, if_pos rfl]
          simp [shareOf, plainSends, sendsOf]
        · rw [if_neg hu]
          simp [shareOf, plainSends, Ne.symm hu]
      · rw [show plainSends o [PLab.plain t p (.send e)] = [] by simp [plainSends, Ne.symm hpo], show shareOf u ([] : List (Nat × Event V)) = [] from rfl, List.append_nil]
        by_cases hu : u = t
        · subst hu
          rw [if_pos rfl, ht, toSend_cons, if_neg (Ne.symm hpo)]
          rfl
        · rw [if_neg hu]
    · intro o
      rw [plainSends_append, ← h.made o]
      by_cases hpo : o = p
      · subst hpo; simp [calls, plainSends]
      · simp [calls, plainSends, hpo, Ne.symm hpo]
    · intro o ho
      by_cases hpo : o = p
      · subst hpo; exact hlt
      · simp only [if_neg hpo] at ho; exact h.old o ho
    · intro o
      show (if o = p then _ else _) = _
      by_cases hpo : o = p
      · subst hpo
        simp only [if_pos]
        show _ = (q o ++ [(t, e, stack)]).flatMap fun x => s.w.sendWrites env.tc env.lib x.2.2 env.other ⟨o, x.2.1⟩
        rw [List.flatMap_append, ← h.wrote o]
        simp
      · simp only [if_neg hpo]; exact h.wrote o
    · intro o
      show (if o = p then _ else _) = _
      by_cases hpo : o = p
      · subst hpo
        simp only [if_pos]
        show _ = (q o ++ [(t, e, stack)]).flatMap fun x => s.w.sendSyslog env x.2.2 ⟨o, x.2.1⟩
        rw [List.flatMap_append, ← h.syslog o]
        simp
      · simp only [if_neg hpo]; exact h.syslog o

theorem pexec_sinv {env : PEnv V} {up : Nat → Bool} {tr : List (PLab V)} {s : PState V} (h : PExec env (newProgram up) tr s) :
    ∃ q, SInv env tr s q := by
  generalize h0 : newProgram up = s0 at h
  induction h with
  | nil => subst h0; exact ⟨fun _ => [], fun _ _ _ => rfl, fun _ => rfl, by simp, fun _ => rfl, fun _ => rfl⟩
  | snoc he hs ih =>
    subst h0
    obtain ⟨q, hq⟩ := ih
    exact sinv_step (pexec_inv he) hq hs.2

/-- What one call writes. -/
theorem sync_writes {env : PEnv V} {w : World} {o : Nat} {t : Level} {f : List Frame → Option (Formatter V)} (h : SyncOut env w o t f)
    (stack : List Frame) (e : Event V) :
    w.sendWrites env.tc env.lib stack env.other ⟨o, e⟩ = (accepted t [e]).map (textOf env.lib (f stack)) := by
  obtain ⟨ob, h1, h2, h3⟩ := h
  have base : ∀ (t : Level) (g : Option (Formatter V)), (({ t := t, f := g } : BaseOutput V).send env.lib e).w = (accepted t [e]).map (textOf env.lib g) := by
    intro t g
    have := (base_sends env.lib ({ t := t, f := g } : BaseOutput V) [e]).1
    simpa using this
  unfold World.sendWrites
  simp only [h1, ← h2]
  rcases h3 with h3 | ⟨h3, rfl⟩ | ⟨c, h3⟩
  · simp only [h3]; exact base _ _
  · simp only [h3]; exact base _ _
  · simp only [h3]; exact base _ _

theorem sync_none {env : PEnv V} {w : World} {o : Nat} {t : Level} {f : List Frame → Option (Formatter V)} (h : SyncOut env w o t f) :
    w.asyncOf env o = none := by
  obtain ⟨ob, h1, h2, h3⟩ := h
  unfold World.asyncOf
  rcases h3 with h3 | ⟨h3, rfl⟩ | ⟨c, h3⟩ <;> simp [h1, h3]

end Log4g
