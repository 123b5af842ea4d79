import Verif.Lemmas.World

/-! # Loggers nobody has configured -/

namespace Log4g
open Spec World

/-- Nothing was done to the logger named `n`, which may have been made. -/
def Idle (n : Str) (w w' : World) : Prop :=
  ∀ (r : Nat) l, w'.heap[r]? = some l → l.name = n → w.heap[r]? = some l ∨ l.level = 0 ∧ l.outputs = []

theorem Idle.trans {n : Str} {a b c : World} (h : Idle n a b) (h' : Idle n b c) : Idle n a c := fun r l hl hn => by
  rcases h' r l hl hn with k | k
  · exact h r l k hn
  · exact .inr k

theorem idle_same {n : Str} {w w' : World} (h : w'.heap = w.heap) : Idle n w w' := fun r l hl _ => .inl (by rw [← h]; exact hl)

theorem create_idle (n : Str) (w : World) (name : Str) (p : Option Nat) : Idle n w (w.createLogger name p).2 := by
  unfold createLogger
  split
  · exact idle_same rfl
  · intro r l hl _
    rcases Nat.lt_or_ge r w.heap.length with h | h
    · exact .inl (by rw [List.getElem?_append_left h] at hl; exact hl)
    · rw [List.getElem?_append_right h] at hl
      cases hr : r - w.heap.length with
      | zero =>
        rw [hr] at hl
        simp only [List.getElem?_cons_zero, Option.some.injEq] at hl
        subst hl
        exact .inr ⟨rfl, rfl⟩
      | succ k => rw [hr] at hl; simp at hl

theorem parent_idle (n : Str) : ∀ (rest : Str) (w : World) (p : Nat) (before : Str), Idle n w (w.parentLoop p before rest).2
  | [], w, _, _ => idle_same rfl
  | c :: rest, w, p, before => by
    simp only [parentLoop]
    split
    · exact (create_idle n w before (some p)).trans (parent_idle n rest _ _ _)
    · exact parent_idle n rest _ _ _

theorem root_idle {n : Str} (hn : n ≠ c!"root") {w : World} (inv : WInv w) : Idle n w w.getRootLogger.2 := by
  obtain ⟨s, hf⟩ := getRootLogger_spec inv
  by_cases hr : w.root = none
  · intro r l hl hname
    have hg := s.inv.all r l hl
    have h1 : ∀ l0, w.getRootLogger.2.heap = [l0] → False := fun l0 e => by
      obtain ⟨lr, k1, k2⟩ := s.inv.named _ _ s.get
      rw [e] at hl k1
      have z1 : r = 0 := by cases r with | zero => rfl | succ r => simp at hl
      have z2 : w.getRootLogger.1 = 0 := by
        cases e : w.getRootLogger.1 with
        | zero => rfl
        | succ k => rw [e] at k1; simp at k1
      rw [z1] at hl
      rw [z2] at k1
      rw [hl] at k1
      injection k1 with k1
      subst k1
      exact hn (hname ▸ k2)
    cases hf hr with
    | fallback _ _ _ _ e _ _ _ => exact (h1 _ e).elim
    | entry _ _ _ _ _ e _ _ => exact (h1 _ e).elim
  · exact idle_same (by rw [s.same hr])

theorem configure_idle {n : Str} {w : World} (inv : WInv w) {r : Nat} {l : Logger} (hl : w.heap[r]? = some l) (hno : NoLogger w.mgr.config n) : Idle n w (w.configure r l.name) := by
  have cs := configure_spec inv r l.name
  intro r' l' hl' hn
  by_cases hr : r' = r
  · subst hr
    rcases cs.result with ⟨h1, _⟩ | ⟨e, he, _⟩
    · exact .inl (by rw [← h1]; exact hl')
    · exfalso
      obtain ⟨l2, k1, k2, _⟩ := cs.ext.heap _ _ hl
      rw [hl'] at k1
      injection k1 with k1
      subst k1
      obtain ⟨pre, post, h1, h2, _⟩ := he
      exact hno e (by rw [h1]; simp) (by rw [h2, ← k2, hn])
  · exact .inl (by rw [← cs.other r' hr]; exact hl')

theorem get_idle {n : Str} (hn : n ≠ c!"root") {w : World} (inv : WInv w) (hno : NoLogger w.mgr.config n) (name : Str) : Idle n w (w.getLogger name).2 := by
  unfold getLogger
  split
  · exact root_idle hn inv
  · rename_i hname
    simp only [not_or] at hname
    split
    · exact idle_same rfl
    · obtain ⟨s, _⟩ := getRootLogger_spec inv
      obtain ⟨lr, h1, h2⟩ := s.inv.named _ _ s.get
      obtain ⟨i, x, ⟨lq, h3, h4⟩, hm⟩ := parentLoop_spec s.inv h1 [] name (by rw [h2]; exact parentOf_nil)
      have q1 := (root_idle hn inv).trans (parent_idle n name w.getRootLogger.2 w.getRootLogger.1 [])
      simp only [List.nil_append] at h4
      simp only [getParent]
      generalize hw1 : w.getRootLogger.2.parentLoop w.getRootLogger.1 [] name = pw at i x h3 hm q1
      obtain ⟨p, w1⟩ := pw
      simp only at i x h3 hm q1 ⊢
      obtain ⟨i2, x2, hget, hm2⟩ := create_inv i h3 h4 hname.1 hname.2
      have q2 := q1.trans (create_idle n w1 name (some p))
      generalize hw2 : w1.createLogger name (some p) = rw2 at i2 x2 hget hm2 q2
      obtain ⟨r, w2⟩ := rw2
      simp only at i2 x2 hget hm2 q2 ⊢
      obtain ⟨l, hl, hlname⟩ := i2.named _ _ hget
      rw [← hlname]
      exact q2.trans (configure_idle i2 hl (by rw [hm2, hm, s.config]; exact hno))

theorem setConfig_idle {n : Str} {w : World} (inv : WInv w) (cfg : Config) (order : List Nat) (hno : NoLogger (w.setConfig cfg order).2.mgr.config n) : Idle n w (w.setConfig cfg order).2 := by
  unfold setConfig at hno ⊢
  split
  · exact idle_same rfl
  · rename_i hv
    rw [hv] at hno
    obtain ⟨i, _⟩ := withConfig_inv inv cfg
    obtain ⟨i2, x, g, _, _, hlen⟩ := notify_spec i order
    simp only at hno
    rw [g.config] at hno
    intro r l hl hn
    left
    have hlt : r < w.heap.length := by rw [← hlen]; exact heap_lt hl
    have h0 : w.heap[r]? = some w.heap[r] := List.getElem?_eq_getElem hlt
    obtain ⟨l2, k1, k2, _⟩ := x.heap r w.heap[r] h0
    rw [hl] at k1
    injection k1 with k1
    subst k1
    have := notify_untouched i order (r := r) (l := w.heap[r]) h0 (by rw [← k2, hn]; exact hno)
    rw [hl] at this
    rw [h0, this]

theorem steps_run {w w' : World} {as : List Act} (h : Steps w as w') : w' = as.foldl (fun w a => a.run w) w := by
  induction h with
  | refl => rfl
  | tail _ _ ih => rw [List.foldl_append, ← ih]; rfl

/-- Loggers that no call and no configuration has concerned are blank. -/
theorem blank {n : Str} (hn : n ≠ c!"root") {as : List Act} {w : World} (h : Steps {} as w)
    (hcfg : ∀ as1 as2 w1, as = as1 ++ as2 → Steps {} as1 w1 → NoLogger w1.mgr.config n) {r : Nat} {l : Logger} (hl : w.heap[r]? = some l) (hname : l.name = n) :
    ((∀ lvl, .setLevel r lvl ∉ as) → l.level = 0) ∧ ((∀ ops, .setOutputs r ops ∉ as) → l.outputs = []) := by
  generalize h0 : ({} : World) = w0 at h
  induction h generalizing r l with
  | refl => subst h0; simp at hl
  | @tail w1 as a hs ok ih =>
    subst h0
    have inv := (steps_inv WInv.empty hs).1
    have ih := @ih (fun as1 as2 w2 e k => hcfg as1 (as2 ++ [a]) w2 (by rw [e]; simp) k)
    have hno := hcfg as [a] w1 rfl hs
    have hno' := hcfg (as ++ [a]) [] _ (by simp) (hs.tail ok)
    have quiet : Idle n w1 (a.run w1) → ((∀ lvl, Act.setLevel r lvl ∉ as ++ [a]) → l.level = 0) ∧ ((∀ ops, Act.setOutputs r ops ∉ as ++ [a]) → l.outputs = []) := fun hi => by
      rcases hi r l hl hname with k | ⟨k1, k2⟩
      · have := ih k hname
        exact ⟨fun h => this.1 fun lvl hm => h lvl (by simp [hm]), fun h => this.2 fun ops hm => h ops (by simp [hm])⟩
      · exact ⟨fun _ => k1, fun _ => k2⟩
    have upd : ∀ (r' : Nat) (f : Logger → Logger), (w1.update r' f).heap[r]? = some l → (∀ x, (f x).name = x.name) → ∃ l0, w1.heap[r]? = some l0 ∧ l0.name = n ∧ l = if r' = r then f l0 else l0 := fun r' f hu hf => by
      rw [update_heap] at hu
      by_cases e : r' = r
      · rw [if_pos e] at hu
        cases h : w1.heap[r]? with
        | none => rw [h] at hu; simp at hu
        | some l0 =>
          rw [h] at hu
          simp only [Option.map_some, Option.some.injEq] at hu
          subst hu
          exact ⟨l0, rfl, by rw [← hname, hf], by rw [if_pos e]⟩
      · rw [if_neg e] at hu
        exact ⟨l, hu, hname, by rw [if_neg e]⟩
    cases a with
    | registerFormatter t f => exact quiet (idle_same rfl)
    | registerOutput t f => exact quiet (idle_same rfl)
    | setConfig cfg order => exact quiet (setConfig_idle inv cfg order hno')
    | loadConfig d bs ext order => exact quiet (setConfig_idle inv _ order hno')
    | loadConfigFile d file read order =>
      refine quiet ?_
      simp only [Act.run] at hno' ⊢
      unfold loadConfigFile at hno' ⊢
      split
      · exact idle_same rfl
      · split
        · exact idle_same rfl
        · rename_i hx
          simp only [hx] at hno'
          exact setConfig_idle inv _ order hno'
    | getLogger name => exact quiet (get_idle hn inv hno name)
    | queryOutputs name => exact quiet (idle_same rfl)
    | userOutput flag => exact quiet (idle_same rfl)
    | setLevel r' lvl =>
      obtain ⟨l0, k1, k2, k3⟩ := upd r' (fun l => { l with level := lvl }) hl (fun _ => rfl)
      have := ih k1 k2
      refine ⟨fun h => ?_, fun h => ?_⟩
      · have e : r' ≠ r := by rintro rfl; exact h lvl (by simp)
        rw [k3, if_neg e]
        exact this.1 fun lvl hm => h lvl (by simp [hm])
      · have := this.2 fun ops hm => h ops (by simp [hm])
        rw [k3]; split <;> exact this
    | setCallerSkip r' k =>
      obtain ⟨l0, k1, k2, k3⟩ := upd r' (fun l => { l with callerSkip := callerSkip + k }) hl (fun _ => rfl)
      have := ih k1 k2
      refine ⟨fun h => ?_, fun h => ?_⟩
      · have := this.1 fun ops hm => h ops (by simp [hm])
        rw [k3]; split <;> exact this
      · have := this.2 fun ops hm => h ops (by simp [hm])
        rw [k3]; split <;> exact this
    | setOutputs r' ops =>
      obtain ⟨l0, k1, k2, k3⟩ := upd r' (fun l => { l with outputs := ops, callerInfoFlag := raiseFlag w1.mgr l.callerInfoFlag ops }) hl (fun _ => rfl)
      have := ih k1 k2
      refine ⟨fun h => ?_, fun h => ?_⟩
      · have := this.1 fun ops hm => h ops (by simp [hm])
        rw [k3]; split <;> exact this
      · have e : r' ≠ r := by rintro rfl; exact h ops (by simp)
        rw [k3, if_neg e]
        exact this.2 fun ops hm => h ops (by simp [hm])

end Log4g
