import Verif.Spec.World
import Verif.Lemmas.World

namespace Log4g
open Spec World
variable {V : Type}

/-! ## Paths -/

theorem parentOf_exists (n : Str) : ∃ p, ParentOf n p := by
  have : ∀ m : Str, ∃ p, ParentOf m.reverse p := by
    intro m
    induction m with
    | nil => exact ⟨_, parentOf_nil⟩
    | cons c m ih =>
      rw [List.reverse_cons]
      by_cases h : Spec.Sep c ∧ m.reverse ≠ []
      · exact ⟨_, parentOf_snoc_sep h.1 h.2⟩
      · obtain ⟨p, hp⟩ := ih
        exact ⟨p, parentOf_snoc_other hp h⟩
  have h := this n.reverse
  rwa [List.reverse_reverse] at h

theorem path_exists (n : Str) : ∃ ps, Path n ps := by
  suffices ∀ k (n : Str), n.length ≤ k → ∃ ps, Path n ps from this _ n (Nat.le_refl _)
  intro k
  induction k with
  | zero =>
    intro n hn
    have : n = [] := List.eq_nil_of_length_eq_zero (by omega)
    subst this
    exact ⟨_, .step (by simp) parentOf_nil .root⟩
  | succ k ih =>
    intro n hn
    by_cases h : n = c!"root"
    · subst h; exact ⟨_, .root⟩
    · obtain ⟨p, hp⟩ := parentOf_exists n
      have hps : ∃ ps, Path p ps := by
        rcases hp with ⟨h1, _⟩ | ⟨_, rfl⟩
        · exact ih p (by have := sepPrefix_length h1; omega)
        · exact ⟨_, .root⟩
      obtain ⟨ps, hps⟩ := hps
      exact ⟨_, .step h hp hps⟩

theorem path_unique {n : Str} {ps qs : List Str} (h : Path n ps) (h' : Path n qs) : ps = qs := by
  induction h generalizing qs with
  | root =>
    cases h' with
    | root => rfl
    | step hn _ _ => exact absurd rfl hn
  | step hn hp _ ih =>
    cases h' with
    | root => exact absurd rfl hn
    | step _ hp' h' =>
      have := parentOf_unique hp hp'
      subst this
      rw [ih h']

theorem path_cons {n : Str} {ps : List Str} (h : Path n ps) : ∃ qs, ps = n :: qs := by
  cases h with
  | root => exact ⟨_, rfl⟩
  | step _ _ _ => exact ⟨_, rfl⟩

/-- What the invariant says about one step up the path. -/
theorem up_root {w : World} (inv : WInv w) {r : Nat} (h : Map.get w.loggers c!"root" = some r) :
    ∃ l, w.heap[r]? = some l ∧ l.name = c!"root" ∧ l.parent = none := by
  obtain ⟨l, h1, h2⟩ := inv.named _ _ h
  exact ⟨l, h1, h2, inv.parentRoot r l h1 h2⟩

theorem up_step {w : World} (inv : WInv w) {n p : Str} {r : Nat} (h : Map.get w.loggers n = some r)
    (hn : n ≠ c!"root") (hp : ParentOf n p) :
    ∃ l rp, w.heap[r]? = some l ∧ l.name = n ∧ l.parent = some rp ∧ rp < r ∧ Map.get w.loggers p = some rp := by
  obtain ⟨l, h1, h2⟩ := inv.named _ _ h
  obtain ⟨rp, lp, a, b, c, d⟩ := inv.parent r l h1 (by rw [h2]; exact hn)
  have : lp.name = p := parentOf_unique (by rw [← h2]; exact c) hp
  exact ⟨l, rp, h1, h2, a, d, by rw [← this]; exact inv.all _ _ b⟩

theorem on_path {w : World} (inv : WInv w) {n : Str} {r : Nat} (h : Map.get w.loggers n = some r)
    {ps : List Str} (hp : Path n ps) : ∀ m ∈ ps, ∃ r', Map.get w.loggers m = some r' := by
  induction hp generalizing r with
  | root => intro m hm; simp at hm; subst hm; exact ⟨r, h⟩
  | step hn hpar _ ih =>
    intro m hm
    obtain ⟨l, rp, _, _, _, _, hg⟩ := up_step inv h hn hpar
    rcases List.mem_cons.mp hm with rfl | hm
    · exact ⟨r, h⟩
    · exact ih hg m hm

theorem loggerAt_of_get {w : World} {n : Str} {r : Nat} (h : Map.get w.loggers n = some r) {l : Logger}
    (hl : w.heap[r]? = some l) : loggerAt w n = some l := by
  simp [loggerAt, h, hl]

theorem lt_heap {w : World} (inv : WInv w) {n : Str} {r : Nat} (h : Map.get w.loggers n = some r) : r < w.heap.length := by
  obtain ⟨l, h1, _⟩ := inv.named _ _ h
  exact heap_lt h1

/-! ## Levels -/

theorem levelWalk_spec {w : World} (inv : WInv w) {n : Str} {ps : List Str} (hp : Path n ps) {r : Nat}
    (h : Map.get w.loggers n = some r) {fuel : Nat} (hf : r < fuel) :
    ∃ lvl, w.levelWalk fuel (some r) = some lvl ∧
      ((∃ pre m post, ps = pre ++ m :: post ∧ (∀ x ∈ pre, NoLevel w x) ∧ HasLevel w m lvl) ∨
       ((∀ x ∈ ps, NoLevel w x) ∧ lvl = 8)) := by
  induction hp generalizing r fuel with
  | root =>
    obtain ⟨l, h1, h2, h3⟩ := up_root inv h
    obtain ⟨fuel, rfl⟩ : ∃ f, fuel = f + 1 := ⟨fuel - 1, by omega⟩
    simp only [levelWalk, h1]
    by_cases hl : l.level = Level.Uninitialized
    · refine ⟨8, by simp [hl, h3, levelWalk, Level.Off], .inr ⟨?_, rfl⟩⟩
      intro x hx; simp at hx; subst hx
      exact ⟨l, loggerAt_of_get h h1, hl⟩
    · exact ⟨l.level, by simp [hl], .inl ⟨[], _, [], rfl, by simp, l, loggerAt_of_get h h1, rfl, hl⟩⟩
  | step hn hpar hps ih =>
    obtain ⟨l, rp, h1, h2, h3, h4, hg⟩ := up_step inv h hn hpar
    obtain ⟨fuel, rfl⟩ : ∃ f, fuel = f + 1 := ⟨fuel - 1, by omega⟩
    simp only [levelWalk, h1]
    by_cases hl : l.level = Level.Uninitialized
    · obtain ⟨lvl, e, hc⟩ := ih hg (fuel := fuel) (by omega)
      have hno : NoLevel w _ := ⟨l, loggerAt_of_get h h1, hl⟩
      refine ⟨lvl, by simp [hl, h3, e], ?_⟩
      rcases hc with ⟨pre, m, post, rfl, hpre, hm⟩ | ⟨hall, rfl⟩
      · refine .inl ⟨_ :: pre, m, post, rfl, ?_, hm⟩
        intro x hx
        rcases List.mem_cons.mp hx with rfl | hx
        · exact hno
        · exact hpre x hx
      · refine .inr ⟨?_, rfl⟩
        intro x hx
        rcases List.mem_cons.mp hx with rfl | hx
        · exact hno
        · exact hall x hx
    · exact ⟨l.level, by simp [hl], .inl ⟨[], _, _, rfl, by simp, l, loggerAt_of_get h h1, rfl, hl⟩⟩

/-! ## Writing -/

theorem enables_iff {w : World} {n : Str} {r : Nat} (h : Map.get w.loggers n = some r) (lvl : Level) :
    Enables w n lvl ↔ w.levelEnabled r lvl = true := by
  unfold Enables
  constructor
  · rintro ⟨r', h1, h2⟩
    rw [h] at h1; injection h1 with h1; subst h1; exact h2
  · intro h2; exact ⟨r, h, h2⟩

theorem hasOutputs_iff {w : World} {n : Str} {r : Nat} (h : Map.get w.loggers n = some r) {l : Logger}
    (hl : w.heap[r]? = some l) (ops : List Nat) : HasOutputs w n ops ↔ l.outputs = ops := by
  unfold HasOutputs
  rw [loggerAt_of_get h hl]
  simp

/-- `write` ends at the logger named `m`, after `pre`. -/
structure Ends (w : World) (lvl : Level) (ps pre : List Str) (m : Str) (post : List Str) (l : Logger) : Prop where
  split : ps = pre ++ m :: post
  empty : ∀ x ∈ pre, HasOutputs w x []
  enabled : ∀ x ∈ pre, Enables w x lvl
  enabledHere : Enables w m lvl
  at_ : loggerAt w m = some l
  outs : l.outputs ≠ [] ∨ post = []

/-- `write` is stopped by the level of the logger named `m`, after `pre`. -/
structure StopsAt (w : World) (lvl : Level) (ps pre : List Str) (m : Str) (post : List Str) : Prop where
  split : ps = pre ++ m :: post
  empty : ∀ x ∈ pre, HasOutputs w x []
  enabled : ∀ x ∈ pre, Enables w x lvl
  disabled : ¬ Enables w m lvl

theorem write_spec {w : World} (inv : WInv w) (now : Nat) {n : Str} {ps : List Str} (hp : Path n ps) {r : Nat}
    (h : Map.get w.loggers n = some r) {fuel : Nat} (hf : r < fuel) (stack : List Frame) (ctx : Ctx V) (name : Str)
    (skip : Int) (lvl : Level) (fmt : Str) (args : List V) :
    (∃ pre m post l, Ends w lvl ps pre m post l ∧
      w.write now fuel stack r ctx name skip lvl fmt args =
        dispatch l (List.replicate (pre.length + 1) writeFrame ++ stack) now (if pre = [] then ctx else []) name
          (skip + pre.length) lvl fmt args) ∨
    (∃ pre m post, StopsAt w lvl ps pre m post ∧ w.write now fuel stack r ctx name skip lvl fmt args = .sent []) := by
  induction hp generalizing r fuel stack ctx skip with
  | root =>
    obtain ⟨l, h1, h2, h3⟩ := up_root inv h
    obtain ⟨fuel, rfl⟩ : ∃ f, fuel = f + 1 := ⟨fuel - 1, by omega⟩
    simp only [write, h1, h3]
    by_cases he : w.levelEnabled r lvl = true
    · left
      refine ⟨[], _, [], l, ⟨rfl, by simp, by simp, (enables_iff h lvl).mpr he, loggerAt_of_get h h1, .inr rfl⟩, ?_⟩
      simp [he]
    · right
      refine ⟨[], _, [], ⟨rfl, by simp, by simp, fun hc => he ((enables_iff h lvl).mp hc)⟩, ?_⟩
      simp [he]
  | step hn hpar hps ih =>
    obtain ⟨l, rp, h1, h2, h3, h4, hg⟩ := up_step inv h hn hpar
    obtain ⟨fuel, rfl⟩ : ∃ f, fuel = f + 1 := ⟨fuel - 1, by omega⟩
    simp only [write, h1, h3]
    by_cases he : w.levelEnabled r lvl = true
    · by_cases ho : l.outputs = []
      · have hen := (enables_iff h lvl).mpr he
        have hout := (hasOutputs_iff h h1 []).mpr ho
        simp only [he, ho, if_true, reduceCtorEq, if_false, Bool.true_eq_false]
        rcases ih hg (fuel := fuel) (by omega) (writeFrame :: stack) [] (skip + 1) with
          ⟨pre, m, post, l', he', e⟩ | ⟨pre, m, post, hs, e⟩
        · left
          refine ⟨_ :: pre, m, post, l', ⟨by rw [he'.split]; rfl, ?_, ?_, he'.enabledHere, he'.at_, he'.outs⟩, ?_⟩
          · intro x hx
            rcases List.mem_cons.mp hx with rfl | hx
            · exact hout
            · exact he'.empty x hx
          · intro x hx
            rcases List.mem_cons.mp hx with rfl | hx
            · exact hen
            · exact he'.enabled x hx
          · rw [e]
            have e1 : List.replicate (pre.length + 1) writeFrame ++ writeFrame :: stack =
                List.replicate ((n :: pre).length + 1) writeFrame ++ stack := by
              rw [List.length_cons, List.replicate_succ' (n := pre.length + 1)]
              simp
            have e2 : skip + 1 + (pre.length : Int) = skip + ((n :: pre).length : Int) := by
              simp; omega
            simp only [List.length_cons] at e1 e2 ⊢
            rw [e1, e2]
            simp
        · right
          refine ⟨_ :: pre, m, post, ⟨by rw [hs.split]; rfl, ?_, ?_, hs.disabled⟩, e⟩
          · intro x hx
            rcases List.mem_cons.mp hx with rfl | hx
            · exact hout
            · exact hs.empty x hx
          · intro x hx
            rcases List.mem_cons.mp hx with rfl | hx
            · exact hen
            · exact hs.enabled x hx
      · left
        refine ⟨[], _, _, l, ⟨rfl, by simp, by simp, (enables_iff h lvl).mpr he, loggerAt_of_get h h1, .inl ho⟩, ?_⟩
        simp [he, ho]
    · right
      refine ⟨[], _, _, ⟨rfl, by simp, by simp, fun hc => he ((enables_iff h lvl).mp hc)⟩, ?_⟩
      simp [he]

/-- The same for `Printf`. -/
theorem printf_spec {w : World} (inv : WInv w) (now : Nat) {n : Str} {ps : List Str} (hp : Path n ps) {r : Nat}
    (h : Map.get w.loggers n = some r) (stack : List Frame) (ctx : Ctx V) (lvl : Level) (fmt : Str) (args : List V) :
    ∃ l0, loggerAt w n = some l0 ∧
    ((∃ pre m post l, Ends w lvl ps pre m post l ∧
      w.printf now stack r ctx lvl fmt args =
        dispatch l (List.replicate (pre.length + 1) writeFrame ++ printfFrame :: stack) now
          (if pre = [] then ctx else []) n (l0.callerSkip + pre.length) lvl fmt args) ∨
    (∃ pre m post, StopsAt w lvl ps pre m post ∧ w.printf now stack r ctx lvl fmt args = .sent [])) := by
  obtain ⟨l0, h1, h2⟩ := inv.named _ _ h
  refine ⟨l0, loggerAt_of_get h h1, ?_⟩
  simp only [printf, h1, h2]
  exact write_spec inv now hp h (heap_lt h1) (printfFrame :: stack) ctx n l0.callerSkip lvl fmt args

/-- Two decompositions at the first logger that satisfies a condition agree. -/
theorem split_unique {α : Type} (P : α → Prop) {pre pre' post post' : List α} {m m' : α}
    (e : pre ++ m :: post = pre' ++ m' :: post') (h1 : ∀ x ∈ pre, ¬ P x) (h2 : P m) (h3 : ∀ x ∈ pre', ¬ P x)
    (h4 : P m') : pre = pre' ∧ m = m' ∧ post = post' := by
  induction pre generalizing pre' with
  | nil =>
    cases pre' with
    | nil => simp at e; exact ⟨rfl, e.1, e.2⟩
    | cons y ys => simp at e; exact absurd (e.1 ▸ h2) (h3 y (by simp))
  | cons x xs ih =>
    cases pre' with
    | nil => simp at e; exact absurd (e.1.symm ▸ h4) (h1 x (by simp))
    | cons y ys =>
      simp at e
      obtain ⟨a, b, c⟩ := ih e.2 (fun z hz => h1 z (by simp [hz])) (fun z hz => h3 z (by simp [hz]))
      exact ⟨by rw [e.1, a], b, c⟩

/-- What `dispatch` sends. -/
theorem dispatch_out (l : Logger) (stack : List Frame) (now : Nat) (ctx : Ctx V) (name : Str) (skip : Int)
    (lvl : Level) (fmt : Str) (args : List V) :
    dispatch l stack now ctx name skip lvl fmt args = .panic ∨
    ∃ evt : Event V, dispatch l stack now ctx name skip lvl fmt args = .sent (l.outputs.map fun o => ⟨o, evt⟩) ∧
      evt.name = name ∧ evt.level = lvl ∧ evt.format = fmt ∧ evt.arguments = args ∧ evt.time = now ∧
      (∀ k, k ≠ callerInfoKey → evt.ctx.value k = ctx.value k) ∧
      (evt.ctx = ctx ∨ ∃ needFun e ci, getCallerInfo (callerFrame :: stack) e needFun = some (ci, evt) ∧
        e.ctx = ctx ∧ e.callDepth = skip ∧ ((needFun = true ∧ l.callerInfoFlag = 2) ∨ (needFun = false ∧ l.callerInfoFlag = 1))) := by
  have key : ∀ (e : Event V) needFun ci evt, getCallerInfo (callerFrame :: stack) e needFun = some (ci, evt) →
      evt.name = e.name ∧ evt.level = e.level ∧ evt.format = e.format ∧ evt.arguments = e.arguments ∧
      evt.time = e.time ∧ (∀ k, k ≠ callerInfoKey → evt.ctx.value k = e.ctx.value k) := by
    intro e needFun ci evt h
    unfold getCallerInfo at h
    simp only at h
    have hv : ∀ (c : Ctx V) x k, k ≠ callerInfoKey → (c.withValue callerInfoKey x).value k = c.value k := by
      intro c x k hk
      simp only [Ctx.value, Ctx.withValue, Map.get]
      rw [if_neg (Ne.symm hk)]
    split at h
    · simp at h
    · injection h with h; injection h with _ h; subst h
      exact ⟨rfl, rfl, rfl, rfl, rfl, hv _ _⟩
    · injection h with h; injection h with _ h; subst h
      exact ⟨rfl, rfl, rfl, rfl, rfl, hv _ _⟩
  unfold dispatch
  simp only
  by_cases h2 : l.callerInfoFlag = ciFuncFlag
  · simp only [h2, if_true]
    cases hg : getCallerInfo (callerFrame :: stack) ({ format := fmt, arguments := args, name := name, level := lvl, time := now, callDepth := skip, ctx := ctx } : Event V) true with
    | none => left; rfl
    | some p =>
      right
      obtain ⟨ci, evt⟩ := p
      obtain ⟨a, b, c, d, e, f⟩ := key _ _ _ _ hg
      exact ⟨evt, rfl, a, b, c, d, e, f, .inr ⟨true, _, ci, hg, rfl, rfl, .inl ⟨rfl, rfl⟩⟩⟩
  · by_cases h1 : l.callerInfoFlag = ciFileFlag
    · simp only [h2, h1, if_true, if_false]
      cases hg : getCallerInfo (callerFrame :: stack) ({ format := fmt, arguments := args, name := name, level := lvl, time := now, callDepth := skip, ctx := ctx } : Event V) false with
      | none => left; rfl
      | some p =>
        right
        obtain ⟨ci, evt⟩ := p
        obtain ⟨a, b, c, d, e, f⟩ := key _ _ _ _ hg
        exact ⟨evt, rfl, a, b, c, d, e, f, .inr ⟨false, _, ci, hg, rfl, rfl, .inr ⟨rfl, rfl⟩⟩⟩
    · simp only [h2, h1, if_false]
      right
      exact ⟨_, rfl, rfl, rfl, rfl, rfl, rfl, fun _ _ => rfl, .inl rfl⟩

theorem Spec.Wants.flag {w : World} {o : Nat} {flag : Int} (h : Wants w o flag) : w.mgr.outFlag o = flag := by
  obtain ⟨ob, h1, h2⟩ := h
  simp only [Manager.outFlag, h1]
  rcases h2 with h2 | ⟨h2, i, fo, h3, h4, h5⟩
  · simp [h2]
  · cases ho : ob.origin with
    | user f => exact absurd ho (h2 f)
    | managed c => simp [h3, h4, h5]
    | console => simp [h3, h4, h5]

theorem wants_or (w : World) (o : Nat) : w.mgr.outFlag o = 0 ∨ Wants w o (w.mgr.outFlag o) := by
  simp only [Wants, Manager.outFlag]
  cases h1 : w.mgr.oheap[o]? with
  | none => exact .inl rfl
  | some ob =>
    cases ho : ob.origin with
    | user f => exact .inr ⟨ob, rfl, .inl (by simp [ho])⟩
    | managed c =>
      cases hf : ob.fmt with
      | none => exact .inl (by simp [ho, hf])
      | some i =>
        cases hi : w.mgr.fheap[i]? with
        | none => exact .inl (by simp [ho, hf, hi])
        | some fo => exact .inr ⟨ob, rfl, .inr ⟨by simp [ho], i, fo, by simp [hf], hi, by simp [ho, hf, hi]⟩⟩
    | console =>
      cases hf : ob.fmt with
      | none => exact .inl (by simp [ho, hf])
      | some i =>
        cases hi : w.mgr.fheap[i]? with
        | none => exact .inl (by simp [ho, hf, hi])
        | some fo => exact .inr ⟨ob, rfl, .inr ⟨by simp [ho], i, fo, by simp [hf], hi, by simp [ho, hf, hi]⟩⟩

end Log4g
