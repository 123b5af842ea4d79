import Verif.Spec.Panicking
import Verif.Props.Output
import Verif.Lemmas.Async

/-! # Lemmas about formatters and outputs that panic -/

namespace Log4g
open Spec World
variable {V : Type} {lib : Lib V}

theorem gets_nil (o : ShakyOut V) : Gets lib o [] o := by
  cases o with
  | base w f t => simp [Gets, accepted]
  | syslog w f t => exact ⟨[], by simp, .nil⟩
  | own got p => simp [Gets]

theorem gets_panics {o o' : ShakyOut V} {es : List (Event V)} (h : Gets lib o es o') (e : Event V) : Panics o' e = Panics o e := by
  cases o with
  | base w f t => simp only [Gets] at h; subst h; cases f <;> rfl
  | syslog w f t => obtain ⟨c, rfl, _⟩ := h; cases f <;> rfl
  | own got p => simp only [Gets] at h; subst h; rfl

/-- One more event. -/
theorem gets_send {o o' : ShakyOut V} {es : List (Event V)} (h : Gets lib o es o') {e : Event V} (hp : Panics o e = false) :
    Gets lib o (es ++ [e]) (o'.send lib e).1 ∧ (o'.send lib e).2 = true := by
  cases o with
  | base w f t =>
    simp only [Gets] at h ⊢
    subst h
    rcases Decidable.em (e.level < t) with hl | hl
    · have hn : ¬ t ≤ e.level := Int.not_le.mpr hl
      simp [ShakyOut.send, if_pos hl, accepted, List.filter_append, hn]
    · have hn : t ≤ e.level := Int.not_lt.mp hl
      cases f with
      | none => simp [ShakyOut.send, if_neg hl, accepted, List.filter_append, hn, whole, textOf, defaultFormat, defaultLayout, defaultTimeLayout, bytes_eq, longName_eq, messageText_eq]
      | some g =>
        simp only [Panics, hn, decide_true, Bool.true_and] at hp
        cases hg : g e with
        | none => rw [hg] at hp; cases hp
        | some bs => simp [ShakyOut.send, if_neg hl, accepted, List.filter_append, hn, whole, textOf, hg]
  | syslog w f t =>
    obtain ⟨calls, rfl, hc⟩ := h
    rcases Decidable.em (e.level < t) with hl | hl
    · have hn : ¬ t ≤ e.level := Int.not_le.mpr hl
      refine ⟨⟨calls, ?_, ?_⟩, ?_⟩
      · simp [ShakyOut.send, if_pos hl]
      · simpa [accepted, List.filter_append, hn] using hc
      · simp [ShakyOut.send, if_pos hl]
    · have hn : t ≤ e.level := Int.not_lt.mp hl
      have hacc : accepted t (es ++ [e]) = accepted t es ++ [e] := by simp [accepted, List.filter_append, hn]
      have key : ∀ ff : Option (Formatter V), (∀ g, ff = some g → ∃ h, whole f = some h ∧ h e = g e) → (ff = none → whole f = none) →
          ∃ calls', ToSyslog lib (whole f) (accepted t (es ++ [e])) calls' ∧ (({ w := w ++ calls, f := ff, t := t } : SyslogOutput V).send lib e).w = w ++ calls' := by
        intro ff h1 h2
        obtain ⟨_, k1, k2, _⟩ := C43_syslog lib ({ w := w ++ calls, f := ff, t := t } : SyslogOutput V) e
        rw [hacc]
        rcases Classical.em (∃ call, Severity e.level call) with ⟨call, hs⟩ | hs
        · refine ⟨_, .known hc hs, ?_⟩
          rw [k1 hn call hs, List.append_assoc]
          cases ff with
          | none => rw [h2 rfl]
          | some g => obtain ⟨h, e1, e2⟩ := h1 g rfl; rw [e1]; simp only [e2]
        · exact ⟨_, .unknown hc (fun call hcall => hs ⟨call, hcall⟩), k2 (fun call hcall => hs ⟨call, hcall⟩)⟩
      cases f with
      | none =>
        obtain ⟨calls', g1, g2⟩ := key none (fun g hg => by cases hg) (fun _ => rfl)
        exact ⟨⟨calls', by simp only [ShakyOut.send, if_neg hl]; rw [g2], g1⟩, by simp [ShakyOut.send, if_neg hl]⟩
      | some g =>
        simp only [Panics, hn, decide_true, Bool.true_and] at hp
        cases hg : g e with
        | none => rw [hg] at hp; cases hp
        | some bs =>
          obtain ⟨calls', g1, g2⟩ := key (some fun _ => bs) (fun g' hg' => by cases hg'; exact ⟨_, rfl, by simp [hg]⟩) (fun h => by cases h)
          exact ⟨⟨calls', by simp only [ShakyOut.send, if_neg hl, hg]; rw [g2], g1⟩, by simp [ShakyOut.send, if_neg hl, hg]⟩
  | own got p =>
    simp only [Gets] at h ⊢
    subst h
    have : p e = false := hp
    simp [ShakyOut.send, this]

/-- An output that panics stays as it was. -/
theorem panics_send {o : ShakyOut V} {e : Event V} (hp : Panics o e = true) : o.send lib e = (o, false) := by
  cases o with
  | base w f t =>
    cases f with
    | none => cases hp
    | some g =>
      simp only [Panics, Bool.and_eq_true, decide_eq_true_eq, Option.isNone_iff_eq_none] at hp
      have hn : ¬ e.level < t := Int.not_lt.mpr hp.1
      simp [ShakyOut.send, if_neg hn, hp.2]
  | syslog w f t =>
    cases f with
    | none => cases hp
    | some g =>
      simp only [Panics, Bool.and_eq_true, decide_eq_true_eq, Option.isNone_iff_eq_none] at hp
      have hn : ¬ e.level < t := Int.not_lt.mpr hp.1
      simp [ShakyOut.send, if_neg hn, hp.2]
  | own got p =>
    have : p e = true := hp
    simp [ShakyOut.send, this]

theorem sendAll_gets {os0 : ShakyOuts V} (ds : List (Delivery V)) (os : ShakyOuts V) (es : Nat → List (Event V)) (h : ∀ o, Gets lib (os0 o) (es o) (os o)) :
    (∀ o, Gets lib (os0 o) (es o ++ reaching os0 o (.sent ds)) ((sendAll lib ds os).1 o)) ∧
    ((sendAll lib ds os).2 = true ↔ ∀ d ∈ ds, Panics (os0 d.out) d.evt = false) := by
  induction ds generalizing os es with
  | nil => exact ⟨fun o => by simpa [reaching, Outcome.deliveries, sendAll] using h o, by simp [sendAll]⟩
  | cons d ds ih =>
    cases hp : Panics (os0 d.out) d.evt with
    | true =>
      have hs : (os d.out).send lib d.evt = (os d.out, false) := panics_send (by rw [gets_panics (h d.out)]; exact hp)
      have he : sendAll lib (d :: ds) os = (os, false) := by
        simp only [sendAll, hs]
        simp only [Bool.false_eq_true, if_false, Prod.mk.injEq, and_true]
        funext q
        split
        · next hq => rw [hq]
        · rfl
      rw [he]
      refine ⟨fun o => ?_, by simp [hp]⟩
      simpa [reaching, Outcome.deliveries, hp] using h o
    | false =>
      obtain ⟨k1, k2⟩ := gets_send (h d.out) hp
      generalize hx : (os d.out).send lib d.evt = x at k1 k2
      obtain ⟨x, ok⟩ := x
      simp only at k1 k2
      subst k2
      have he : sendAll lib (d :: ds) os = sendAll lib ds (fun q => if q = d.out then x else os q) := by simp [sendAll, hx]
      rw [he]
      obtain ⟨i1, i2⟩ := ih (fun q => if q = d.out then x else os q) (fun o => es o ++ if d.out = o then [d.evt] else []) (fun o => by
        rcases Decidable.em (o = d.out) with rfl | hne
        · simpa using k1
        · rw [if_neg hne, if_neg (fun hh => hne hh.symm), List.append_nil]; exact h o)
      refine ⟨fun o => ?_, ?_⟩
      · have := i1 o
        simp only [reaching, Outcome.deliveries, List.takeWhile_cons, hp, Bool.not_false, if_true, List.filter_cons] at this ⊢
        rw [List.append_assoc] at this
        split
        · next hd => simpa [of_decide_eq_true hd] using this
        · next hd => simpa [show d.out ≠ o from by simpa using hd] using this
      · rw [i2]; simp [hp]

/-! ## Asynchronous outputs -/

variable {cfg : ACfg V} {g : Shaky V}

/-- Either nothing has panicked and the output is one with the formatter where it does not panic, or the worker has panicked just now. -/
theorem shaky_exec {prog : Nat → List (ACall V)} {tr : List (ALab V)} {s : AState V} (h : ShakyExec cfg g (newAsync prog) tr s) :
    ∃ tr0 s0, AExec { cfg with f := some fun e => (g e).getD [] } (newAsync prog) tr0 s0 ∧ (∀ e ∈ accepted cfg.t (eventsOf (takenOf tr0)), g e ≠ none) ∧
      ((tr = tr0 ∧ s = s0) ∨ ∃ e rest, s0.chan = some e :: rest ∧ cfg.t ≤ e.level ∧ g e = none ∧ s0.panicked = false ∧
        tr = tr0 ++ [.workerPanic] ∧ s = { s0 with chan := rest, panicked := true }) := by
  generalize h0 : newAsync prog = a0 at h
  induction h with
  | nil => subst h0; exact ⟨[], _, .nil, by simp [takenOf, eventsOf, accepted], .inl ⟨rfl, rfl⟩⟩
  | @snoc tr s' l s'' _ hs ih =>
    subst h0
    obtain ⟨tr0, s0, h1, h2, h3⟩ := ih
    rcases h3 with ⟨rfl, rfl⟩ | ⟨e, rest, _, _, _, _, rfl, rfl⟩
    · cases hs with
      | calm ha hg =>
        refine ⟨_, _, h1.snoc ha, ?_, .inl ⟨rfl, rfl⟩⟩
        rw [takenOf_append, eventsOf_append]
        intro e he
        simp only [accepted, List.filter_append, List.mem_append] at he
        rcases he with he | he
        · exact h2 e he
        · cases l with
          | took x =>
            cases x with
            | none => simp [takenOf, eventsOf] at he
            | some e' =>
              simp only [takenOf, eventsOf, List.filterMap_cons, id, List.filterMap_nil, List.mem_filter, List.mem_singleton, decide_eq_true_eq] at he
              obtain ⟨rfl, hl⟩ := he
              exact hg e rfl hl
          | _ => simp [takenOf, eventsOf] at he
      | panic hp hw hc hl hg => exact ⟨_, _, h1, h2, .inr ⟨_, _, hc, hl, hg, hp, rfl, rfl⟩⟩
    · cases hs with
      | calm ha hg => exact absurd ha.1 (by simp)
      | panic hp => cases hp

end Log4g
