import Verif.Lemmas.SystemFacts
import Verif.Lemmas.SystemSync

/-! # Whole programs: the order of calls of different goroutines -/

namespace Log4g
open Spec
open scoped List
variable {V : Type} {env : PEnv V} {up : Nat → Bool}

/-- What one step adds to what a goroutine has queued or is about to queue. -/
theorem since_step {tr : List (PLab V)} {s s' : PState V} {l : PLab V} (inv : PInv env tr s) (hs : PAct env s l s') (t o : Nat) :
    queuedBy t (outLabs o [l]) ++ flight ((s'.a o).th t) ++ toSend o (s'.th t).todo <+
      flight ((s.a o).th t) ++ toSend o (s.th t).todo ++ sentBy t o [l] := by
  have same : flight ((s.a o).th t) ++ toSend o (s.th t).todo <+ flight ((s.a o).th t) ++ toSend o (s.th t).todo ++ sentBy t o [l] :=
    List.sublist_append_left _ _
  cases hs with
  | act _ _ _ _ => exact same
  | actPanic _ => exact same
  | logPanic _ _ _ => exact same
  | @log u _ _ _ _ _ _ _ ds hn _ _ =>
    show [] ++ flight ((s.a o).th t) ++ toSend o (if t = u then _ else s.th t).todo <+ _
    by_cases e : t = u
    · subst e
      rw [if_pos rfl, inv.rest t hn, toSend_log]
      simp [sentBy, toSend, sendsOf]
    · rw [if_neg e]; exact same
  | @close u os hn _ _ =>
    show [] ++ flight ((s.a o).th t) ++ toSend o (if t = u then _ else s.th t).todo <+ _
    by_cases e : t = u
    · subst e
      rw [if_pos rfl, inv.rest t hn, toSend_close]
      simp [toSend, sendsOf]
    · rw [if_neg e]; exact same
  | @direct u p c hn _ =>
    show [] ++ flight ((s.a o).th t) ++ toSend o (if t = u then _ else s.th t).todo <+ _
    by_cases e : t = u
    · subst e
      rw [if_pos rfl, inv.rest t hn, toSend_cons]
      cases c <;> by_cases ho : p = o <;> simp [sentBy, toSend, sendsOf, ho]
    · rw [if_neg e]; exact same
  | @enter u k p c rest cfg ht _ =>
    show [] ++ flight (((s.setOut p ((s.a p).push u c)).a o).th t) ++ toSend o (if t = u then _ else s.th t).todo <+ _
    rw [setOut_a]
    by_cases e : t = u
    · subst e
      have still : ∀ p, (s.a p).th t = {} := fun p => inv.away t p (by rw [ht]; simp)
      rw [if_pos rfl, ht, toSend_cons]
      by_cases ho : o = p
      · subst ho
        rw [if_pos rfl, push_self _ _ _ (still o), still o]
        cases c <;> simp [flight, sendsOf]
      · rw [if_neg ho, if_neg (fun e => ho e.symm), still o]
        simp
    · rw [if_neg e]
      by_cases ho : o = p
      · subst ho; rw [if_pos rfl, push_other _ _ e]; exact same
      · rw [if_neg ho]; exact same
  | @out p l x cfg _ hst =>
    show queuedBy t (outLabs o [.out p l]) ++ flight (((s.setOut p x).a o).th t) ++ toSend o (s.th t).todo <+ _
    rw [setOut_a]
    by_cases ho : o = p
    · subst ho
      have key := (order_step (tr := []) (es := flight ((s.a o).th t)) t ⟨List.Sublist.refl _, fun _ => rfl⟩ hst.2).1
      rw [if_pos rfl]
      refine List.Sublist.trans ?_ (List.sublist_append_left _ _)
      have key : queuedBy t (outLabs o [.out o l]) ++ flight (x.th t) <+ flight ((s.a o).th t) := by simpa [outLabs] using key
      exact key.append (List.Sublist.refl _)
    · rw [if_neg ho]
      have : outLabs o [.out p l] = [] := by simp [outLabs]; exact fun e => ho e.symm
      rw [this]; exact same
  | @leave u k p rest ht _ =>
    show [] ++ flight ((s.a o).th t) ++ toSend o (if t = u then _ else s.th t).todo <+ _
    by_cases e : t = u
    · subst e; rw [if_pos rfl, ht]; simp
    · rw [if_neg e]; exact same
  | @send u k p e rest _ ht _ =>
    show [] ++ flight ((s.a o).th t) ++ toSend o (if t = u then _ else s.th t).todo <+ _
    by_cases e : t = u
    · subst e; rw [if_pos rfl, ht, toSend_cons, List.nil_append, List.append_assoc]
      exact (List.Sublist.refl _).append ((List.sublist_append_right _ _).trans (List.sublist_append_left _ _))
    · rw [if_neg e]; exact same
  | @closed u k p rest ht _ =>
    show [] ++ flight ((s.a o).th t) ++ toSend o (if t = u then _ else s.th t).todo <+ _
    by_cases e : t = u
    · subst e; rw [if_pos rfl, ht, toSend_cons, List.nil_append, List.append_assoc]
      exact (List.Sublist.refl _).append ((List.sublist_append_right _ _).trans (List.sublist_append_left _ _))
    · rw [if_neg e]; exact same
  | @ret u k ht =>
    show [] ++ flight ((s.a o).th t) ++ toSend o (if t = u then _ else s.th t).todo <+ _
    by_cases e : t = u
    · subst e; rw [if_pos rfl, ht]; simp
    · rw [if_neg e]; exact same

/-- What a goroutine has queued or is about to queue since it was in no call, it has logged since then. -/
theorem since_rest {a b : List (PLab V)} {s1 s : PState V} {t : Nat} (h0 : PInv env a s1) (hr : s1.th t = {}) (h : PExec env s1 b s) (o : Nat) :
    queuedBy t (outLabs o b) ++ flight ((s.a o).th t) ++ toSend o (s.th t).todo <+ sentBy t o b := by
  induction h with
  | nil =>
    rw [hr, h0.away t o (by rw [hr]; simp)]
    simp [outLabs, queuedBy, flight, sendsOf, toSend, sentBy]
  | @snoc b s l s' h1 h2 ih =>
    have inv := pinv_exec h0 h1
    rw [outLabs_append, queuedBy_append, sentBy_append]
    have k := since_step inv h2.2 t o
    have k2 := ((List.Sublist.refl (queuedBy t (outLabs o b))).append k).trans (l₃ := sentBy t o b ++ sentBy t o [l])
      (by simpa only [List.append_assoc] using ih.append (List.Sublist.refl (sentBy t o [l])))
    simpa only [List.append_assoc] using k2

/-- The order in which events get into the queue is that of the calls. -/
theorem async_inTime {tr : List (PLab V)} {s : PState V} (h : PExec env (newProgram up) tr s) {o : Nat} {cfg : ACfg V}
    (hc : s.w.asyncOf env o = some cfg) : InTime o tr (pairsOf (outLabs o tr)) := by
  rintro a b rfl
  obtain ⟨s1, h1, h2⟩ := h.split
  have inv := pexec_inv h1
  refine ⟨_, _, by rw [outLabs_append, pairsOf_append], fun t => ⟨?_, fun hr => ?_⟩⟩
  · by_cases hlt : o < s1.w.mgr.oheap.length
    · exact queued_logged h1 (async_before inv h2 hlt hc) t
    · have hn : s1.w.asyncOf env o = none := by
        unfold World.asyncOf
        rw [List.getElem?_eq_none (by omega)]
      rw [(inv.none o hn).1]
      exact List.nil_sublist _
  · rw [share_pairs]
    have := since_rest inv (at_rest h1 hr) h2 o
    rw [List.append_assoc] at this
    exact (List.sublist_append_left _ _).trans this

/-- The same for outputs that are not asynchronous. -/
theorem plain_inTime {tr : List (PLab V)} {s : PState V} (h : PExec env (newProgram up) tr s) {o : Nat}
    (hc : s.w.asyncOf env o = none) : InTime o tr (plainSends o tr) := by
  rintro a b rfl
  obtain ⟨s1, h1, h2⟩ := h.split
  have inv := pexec_inv h1
  obtain ⟨q, hq⟩ := pexec_sinv h
  obtain ⟨q1, hq1⟩ := pexec_sinv h1
  have hn : s1.w.asyncOf env o = none := by
    by_cases hlt : o < s1.w.mgr.oheap.length
    · rw [← ext_asyncOf env inv.world (ext_exec inv h2) hlt]; exact hc
    · unfold World.asyncOf
      rw [List.getElem?_eq_none (by omega)]
  refine ⟨_, _, by rw [plainSends_append], fun t => ⟨?_, fun hr => ?_⟩⟩
  · rw [← hq1.order t o hn]; exact List.sublist_append_left _ _
  · have k := hq.order t o hc
    have k1 := hq1.order t o hn
    rw [at_rest h1 hr] at k1
    simp only [toSend, List.filter_nil, List.map_nil, sendsOf, List.append_nil] at k1
    rw [sentBy_append, plainSends_append, shareOf_append, List.append_assoc, k1] at k
    rw [← List.append_cancel_left k]
    exact List.sublist_append_left _ _

/-- What comes first of an order is in that order. -/
theorem inTime_prefix {o : Nat} {tr : List (PLab V)} {p q : List (Nat × Event V)} (h : InTime o tr (p ++ q)) : InTime o tr p := by
  intro a b e
  obtain ⟨q1, q2, e1, h1⟩ := h a b e
  rcases List.append_eq_append_iff.mp e1 with ⟨c, rfl, rfl⟩ | ⟨c, rfl, rfl⟩
  · refine ⟨p, [], by simp, fun t => ⟨?_, fun _ => List.nil_sublist _⟩⟩
    have := (h1 t).1
    rw [shareOf_append] at this
    exact (List.sublist_append_left _ _).trans this
  · refine ⟨q1, c, rfl, fun t => ⟨(h1 t).1, fun hr => ?_⟩⟩
    have := (h1 t).2 hr
    rw [shareOf_append] at this
    exact (List.sublist_append_left _ _).trans this

end Log4g
