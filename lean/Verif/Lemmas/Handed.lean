import Verif.Spec.Handed
import Verif.Lemmas.Own
import Verif.Lemmas.Config
import Verif.Lemmas.Fetch

/-! # Helpers for C105 -/

namespace Log4g
open Spec World

theorem copied_append (as bs : List PtrAct) (conf : Nat → Config) : copied conf (as ++ bs) = copied conf as ++ copied (confAfter conf as) bs := by
  induction as generalizing conf with
  | nil => rfl
  | cons a as ih =>
    cases a with
    | lib a => simp [copied, confAfter, ih]
    | change i c => simp [copied, confAfter, ih]
    | set i o => simp [copied, confAfter, ih]

theorem confAfter_append (as bs : List PtrAct) (conf : Nat → Config) : confAfter conf (as ++ bs) = confAfter (confAfter conf as) bs := by
  induction as generalizing conf with
  | nil => rfl
  | cons a as ih =>
    cases a with
    | lib a => simp [confAfter, ih]
    | change i c => simp [confAfter, ih]
    | set i o => simp [confAfter, ih]

theorem decoded_hands {d : Decoders} {bs : Bytes} {ext : Str} {order : List Nat} {c : Config} (h : Hands (.loadConfig d bs ext order) c) : c = Act.config.decoded d bs ext := by
  unfold Act.config.decoded
  rw [show lowerExt ext = ext.map Char.toLower from rfl]
  cases h with
  | yaml h => rw [if_pos h]
  | json h => rw [if_neg (by rw [h]; decide), if_pos h]
  | other h1 h2 h3 => rw [if_neg (by simp [h1, h2]), if_neg h3]

theorem hands_config {a : Act} {c : Config} (h : Hands a c) : a.config = some c := by
  cases h with
  | set => rfl
  | yaml h => rw [decoded_hands (.yaml (order := []) h)]; rfl
  | json h => rw [decoded_hands (.json (order := []) h)]; rfl
  | other h1 h2 h3 => rw [decoded_hands (.other (bs := _) (d := _) (order := []) h1 h2 h3)]; rfl
  | file h1 h2 h3 h4 h => rw [decoded_hands h]; simp only [Act.config, pathExt_some h1 h2 h3 h4]

theorem ptr_conf {p0 p : PtrWorld} {as : List PtrAct} (h : PtrSteps p0 as p) : p.conf = confAfter p0.conf as := by
  induction h with
  | refl => rfl
  | @tail p' as a _ _ ih =>
    rw [confAfter_append, ← ih]
    cases a <;> rfl

theorem ptr_fold {p0 p : PtrWorld} {as : List PtrAct} (h : PtrSteps p0 as p) : p = as.foldl PtrAct.run p0 := by
  induction h with
  | refl => rfl
  | tail _ _ ih => rw [List.foldl_append, ← ih]; rfl

/-- The object the manager points to was consistent when it was set, and no other configuration has been set since. -/
theorem ptr_cur {as : List PtrAct} {p : PtrWorld} (h : PtrSteps {} as p) {i : Nat} (hc : p.cur = some i) :
    ∃ x order y, as = x ++ .set i order :: y ∧ Consistent (confAfter (fun _ => {}) x i) ∧
      ∀ y1 a y2, y = y1 ++ a :: y2 → ¬ Sets (confAfter (fun _ => {}) (x ++ .set i order :: y1)) a := by
  have key : ∀ (as : List PtrAct) (a : PtrAct) (p : PtrWorld), PtrSteps {} as p → ¬ Sets (confAfter (fun _ => {}) as) a →
      (∃ x order y, as = x ++ .set i order :: y ∧ Consistent (confAfter (fun _ => {}) x i) ∧
        ∀ y1 a y2, y = y1 ++ a :: y2 → ¬ Sets (confAfter (fun _ => {}) (x ++ .set i order :: y1)) a) →
      ∃ x order y, as ++ [a] = x ++ .set i order :: y ∧ Consistent (confAfter (fun _ => {}) x i) ∧
        ∀ y1 a y2, y = y1 ++ a :: y2 → ¬ Sets (confAfter (fun _ => {}) (x ++ .set i order :: y1)) a := by
    rintro as a p _ hn ⟨x, order, y, rfl, h1, h2⟩
    refine ⟨x, order, y ++ [a], by simp, h1, ?_⟩
    intro y1 b y2 e
    rcases List.eq_nil_or_concat y2 with rfl | ⟨y3, b', rfl⟩
    · have := List.append_inj' e rfl
      obtain ⟨rfl, e2⟩ := this
      injection e2 with e2
      subst e2
      exact hn
    · rw [List.concat_eq_append, ← List.cons_append, ← List.append_assoc] at e
      exact h2 y1 b y3 (List.append_inj' e rfl).1
  induction h with
  | refl => cases hc
  | @tail p' as a hx hok ih =>
    cases a with
    | lib a =>
      simp only [PtrAct.run] at hc
      cases e : a.config with
      | none =>
        rw [e] at hc
        exact key as _ p' hx (by rintro ⟨c, h, _⟩; rw [hands_config h] at e; cases e) (ih hc)
      | some c =>
        rw [e] at hc
        simp only at hc
        split at hc
        · cases hc
        · rename_i hv
          refine key as _ p' hx ?_ (ih hc)
          rintro ⟨c', h, h'⟩
          rw [hands_config h] at e
          injection e with h
          subst h
          exact hv ((validateConfig_none_iff _).mpr h')
    | change j c => exact key as _ p' hx id (ih hc)
    | set j order =>
      simp only [PtrAct.run] at hc
      split at hc
      · rename_i hv
        injection hc with hc
        subst hc
        rw [ptr_conf hx, validateConfig_none_iff] at hv
        exact ⟨as, order, [], rfl, hv, fun y1 a y2 e => by simp at e⟩
      · rename_i hv
        rw [ptr_conf hx, validateConfig_none_iff] at hv
        exact key as _ p' hx hv (ih hc)

theorem respects_init {as bs : List PtrAct} (h : Respects (as ++ bs)) : Respects as := by
  intro x i order y c z e
  exact h x i order y c (z ++ bs) (by rw [e]; simp)

theorem ptr_copied {p : PtrWorld} {as : List PtrAct} (h : PtrSteps {} as p) (hr : Respects as) : Steps {} (copied (fun _ => {}) as) p.w := by
  induction h with
  | refl => exact .refl _
  | @tail p' as a hx hok ih =>
    have ih := ih (respects_init hr)
    rw [copied_append, show (fun _ => {} : Nat → Config) = ({} : PtrWorld).conf from rfl, ← ptr_conf hx]
    cases a with
    | lib a => exact ih.tail hok
    | change i c =>
      have hne : p'.cur ≠ some i := by
        intro hc
        obtain ⟨x, order, y, rfl, h1, h2⟩ := ptr_cur hx hc
        obtain ⟨y1, a, y2, e, h3⟩ := hr x i order y c [] (by simp) h1
        exact h2 y1 a y2 e h3
      simp only [PtrAct.run, if_neg hne, copied, List.append_nil]
      exact ih
    | set i order => exact ih.tail (a := .setConfig (p'.conf i) order) hok

/-- Loggers stay as they are. -/
def Firm (w w' : World) : Prop := ∀ (r : Nat) l, w.heap[r]? = some l → w'.heap[r]? = some l

theorem Firm.trans {a b c : World} (h : Firm a b) (h' : Firm b c) : Firm a c := fun r l hl => h' r l (h r l hl)

theorem create_firm (w : World) (name : Str) (p : Option Nat) : Firm w (w.createLogger name p).2 := by
  unfold createLogger
  split
  · exact fun _ _ h => h
  · intro r l hl
    have h : r < w.heap.length := by
      rcases Nat.lt_or_ge r w.heap.length with h | h
      · exact h
      · rw [List.getElem?_eq_none h] at hl; cases hl
    show (w.heap ++ _)[r]? = _
    rw [List.getElem?_append_left h]
    exact hl

theorem parent_firm : ∀ (rest : Str) (w : World) (p : Nat) (before : Str), Firm w (w.parentLoop p before rest).2
  | [], w, _, _ => fun _ _ h => h
  | c :: rest, w, p, before => by
    simp only [parentLoop]
    split
    · exact (create_firm w before (some p)).trans (parent_firm rest _ _ _)
    · exact parent_firm rest _ _ _

theorem root_firm {w : World} (inv : WInv w) : Firm w w.getRootLogger.2 := by
  obtain ⟨s, hf⟩ := getRootLogger_spec inv
  by_cases hr : w.root = none
  · intro r l hl
    exfalso
    have h1 : ∀ l0, w.getRootLogger.2.heap = [l0] → False := fun l0 e => by
      obtain ⟨l', k1, k2, -⟩ := s.ext.heap r l hl
      obtain ⟨lr, j1, j2⟩ := s.inv.named _ _ s.get
      rw [e] at k1 j1
      have z1 : r = 0 := by cases r with | zero => rfl | succ r => simp at k1
      have z2 : w.getRootLogger.1 = 0 := by
        cases e : w.getRootLogger.1 with
        | zero => rfl
        | succ k => rw [e] at j1; simp at j1
      rw [z1] at k1
      rw [z2, k1] at j1
      injection j1 with j1
      subst j1
      have hg := inv.all r l hl
      rw [← k2, j2] at hg
      rw [(inv.rootIn r).mpr hg] at hr
      cases hr
    cases hf hr with
    | fallback _ _ _ _ e _ _ _ => exact h1 _ e
    | entry _ _ _ _ _ e _ _ => exact h1 _ e
  · rw [s.same hr]; exact fun _ _ h => h

theorem get_firm {w : World} (inv : WInv w) (name : Str) : Firm w (w.getLogger name).2 := by
  unfold getLogger
  split
  · exact root_firm inv
  · rename_i hname
    simp only [not_or] at hname
    split
    · exact fun _ _ h => h
    · rename_i hnone
      obtain ⟨s, _⟩ := getRootLogger_spec inv
      obtain ⟨lr, h1, h2⟩ := s.inv.named _ _ s.get
      obtain ⟨i, x, ⟨lq, h3, h4⟩, hm⟩ := parentLoop_spec s.inv h1 [] name (by rw [h2]; exact parentOf_nil)
      have q1 := (root_firm inv).trans (parent_firm name w.getRootLogger.2 w.getRootLogger.1 [])
      simp only [List.nil_append] at h4
      simp only [getParent]
      generalize hw1 : w.getRootLogger.2.parentLoop w.getRootLogger.1 [] name = pw at i x h3 hm q1
      obtain ⟨p, w1⟩ := pw
      simp only at i x h3 hm q1 ⊢
      obtain ⟨i2, x2, hget, hm2⟩ := create_inv i h3 h4 hname.1 hname.2
      have q2 := q1.trans (create_firm w1 name (some p))
      generalize hw2 : w1.createLogger name (some p) = rw2 at i2 x2 hget hm2 q2
      obtain ⟨r, w2⟩ := rw2
      simp only at i2 x2 hget hm2 q2 ⊢
      obtain ⟨l, hl, hlname⟩ := i2.named _ _ hget
      intro r' l' hl'
      have hne : r' ≠ r := by
        rintro rfl
        have := q2 _ _ hl'
        rw [hl] at this
        injection this with this
        subst this
        have hg := inv.all _ _ hl'
        rw [hlname, hnone] at hg
        cases hg
      rw [(configure_spec i2 r name).other r' hne]
      exact q2 _ _ hl'

theorem ptr_inv {p0 p : PtrWorld} {as : List PtrAct} (inv : WInv p0.w) (h : PtrSteps p0 as p) : WInv p.w := by
  induction h with
  | refl => exact inv
  | @tail p' as a hx hok ih =>
    cases a with
    | lib a => exact (steps_inv ih ((Steps.refl _).tail hok)).1
    | change i c =>
      simp only [PtrAct.run]
      split
      · exact (withConfig_inv ih c).1
      · exact ih
    | set i order => exact (steps_inv ih ((Steps.refl _).tail (a := .setConfig (p'.conf i) order) hok)).1

end Log4g
