import Verif.Lemmas.Async
import Verif.Props.Format

/-! # Synchronous outputs: C42, C43, C77 -/

namespace Log4g
open Spec
variable {V : Type}

/-- C42: one write per accepted event, in order; nothing else.  A memory output shows all of it. -/
theorem C42_sync (lib : Lib V) (o : BaseOutput V) (es : List (Event V)) :
    (es.foldl (BaseOutput.send lib) o).w = o.w ++ (accepted o.t es).map (textOf lib o.f) ∧
    (∀ f, (∀ e ∈ es, Level.All ≤ e.level) →
      (es.foldl (BaseOutput.send lib) (newMemoryOutput.setFormatter f)).string = es.flatMap (textOf lib f)) := by
  refine ⟨(base_sends lib o es).1, ?_⟩
  intro f hl
  rw [BaseOutput.string, (base_sends lib (newMemoryOutput.setFormatter f) es).1]
  have : accepted (newMemoryOutput.setFormatter f : BaseOutput V).t es = es := by
    simp only [accepted, List.filter_eq_self, decide_eq_true_eq]
    exact hl
  rw [this]
  simp [newMemoryOutput, BaseOutput.setFormatter, List.flatMap]

example : ([Demo.event, { Demo.event with level := 3 }].foldl (BaseOutput.send Demo.lib) { t := 4, f := some fun _ => [65] }).w = [[65]] := by decide

/-- C43: the severity of a syslog message. -/
theorem C43_syslog (lib : Lib V) (o : SyslogOutput V) (e : Event V) :
    (e.level < o.t → (o.send lib e).w = o.w) ∧
    (o.t ≤ e.level → ∀ call, Severity e.level call →
      (o.send lib e).w = o.w ++ [call (match o.f with | some f => f e | none => utf8 (messageText lib e))]) ∧
    ((∀ call, ¬ Severity e.level call) → (o.send lib e).w = o.w) ∧
    (o.send lib e).f = o.f ∧ (o.send lib e).t = o.t := by
  refine ⟨?_, ?_, ?_, ?_, ?_⟩
  · intro h; simp [SyslogOutput.send, h]
  · intro h call hs
    have hn : ¬ e.level < o.t := Int.not_lt.mpr h
    simp only [SyslogOutput.send, if_neg hn, bytes_eq, messageText_eq]
    generalize e.level = lvl at hs
    cases hs with
    | trace => rfl
    | debug => rfl
    | info => rfl
    | warn => rfl
    | error => rfl
    | critical => rfl
  · intro h
    have e1 : ¬ (e.level = Level.Trace ∨ e.level = Level.Debug) := by
      rintro (hh | hh)
      · exact h _ (by rw [hh]; exact .trace)
      · exact h _ (by rw [hh]; exact .debug)
    have e2 : e.level ≠ Level.Info := fun hh => h _ (by rw [hh]; exact .info)
    have e3 : e.level ≠ Level.Warn := fun hh => h _ (by rw [hh]; exact .warn)
    have e4 : e.level ≠ Level.Error := fun hh => h _ (by rw [hh]; exact .error)
    have e5 : e.level ≠ Level.Critical := fun hh => h _ (by rw [hh]; exact .critical)
    simp only [SyslogOutput.send, e1, e2, e3, e4, e5, if_false]
    split <;> rfl
  · simp only [SyslogOutput.send]; split <;> (try rfl); split <;> (try rfl); split <;> (try rfl); split <;> (try rfl); split <;> (try rfl); split <;> rfl
  · simp only [SyslogOutput.send]; split <;> (try rfl); split <;> (try rfl); split <;> (try rfl); split <;> (try rfl); split <;> (try rfl); split <;> rfl

example : Severity Demo.event.level .warning ∧ (∀ call, ¬ Severity 8 call) := ⟨.warn, fun _ h => by cases h⟩

/-! ## C77 -/

/-- C77 is false for memory outputs: two sends at the same time may leave only one of the texts. -/
theorem C77_concurrent_refuted : ∃ s : WState,
    WExec BufferStep { buf := [], pc := fun t => if t = 0 then .ready [1, 2] else if t = 1 then .ready [3, 4] else .done } [0, 1, 0, 1] s ∧
    (∀ t, s.pc t = .done) ∧ s.buf = [3, 4] := by
  have h0 : WExec BufferStep { buf := [], pc := fun t => if t = 0 then .ready [1, 2] else if t = 1 then .ready [3, 4] else .done } [] _ := .nil
  have h1 := h0.snoc (.length (t := 0) (bs := [1, 2]) rfl)
  have h2 := h1.snoc (.length (t := 1) (bs := [3, 4]) rfl)
  have h3 := h2.snoc (.copy (t := 0) (bs := [1, 2]) (pos := 0) rfl)
  have h4 := h3.snoc (.copy (t := 1) (bs := [3, 4]) (pos := 0) rfl)
  refine ⟨_, h4, ?_, rfl⟩
  intro t
  simp only [WState.set]
  by_cases h0 : t = 0
  · simp [h0]
  · by_cases h1 : t = 1 <;> simp [h0, h1]

/-- C77, what holds: if the writer itself is protected by a lock, as standard output and the rolling writer
are, the texts are written whole, each once, in the order of the writes. -/
theorem C77_concurrent_partial (bs : Nat → Bytes) (buf : Bytes) {tr : List Nat} {s : WState}
    (h : WExec LockedStep { buf := buf, pc := fun t => .ready (bs t) } tr s) :
    s.buf = buf ++ tr.flatMap bs ∧ tr.Nodup ∧ ∀ t, s.pc t = (if t ∈ tr then .done else .ready (bs t)) := by
  generalize h0 : (⟨buf, fun t => .ready (bs t)⟩ : WState) = s0 at h
  induction h with
  | nil => subst h0; simp
  | @snoc tr s t s' _ hs ih =>
    obtain ⟨i1, i2, i3⟩ := ih
    cases hs with
    | @write b hb =>
      rw [i3] at hb
      have hmem : t ∉ tr := by
        intro hm; rw [if_pos hm] at hb; simp at hb
      rw [if_neg hmem] at hb
      injection hb with hb
      subst hb
      refine ⟨by simp [WState.set, i1], ?_, ?_⟩
      · rw [List.nodup_append]
        refine ⟨i2, by simp, ?_⟩
        intro a ha b hb e
        simp only [List.mem_singleton] at hb
        subst e hb; exact hmem ha
      · intro u
        simp only [WState.set, List.mem_append, List.mem_singleton]
        by_cases hu : u = t
        · simp [hu]
        · simp [hu, i3]

example : ∃ s, WExec LockedStep { buf := [], pc := fun t => .ready [t.toUInt8] } [1, 0] s ∧ s.buf = [1, 0] := by
  have h1 : WExec LockedStep { buf := [], pc := fun t => .ready [t.toUInt8] } ([] ++ [1]) _ := WExec.nil.snoc (.write (t := 1) rfl)
  exact ⟨_, h1.snoc (.write (t := 0) rfl), rfl⟩

end Log4g
