import Verif.Lemmas.Logger

namespace Log4g
open Spec World
variable {V : Type}

/-! ## Splitting qualified function names -/

theorem afterLast_spec (c : Char) (s : Str) :
    (afterLast c s = 0 ∧ c ∉ s) ∨
    (∃ d rest, s = d ++ c :: rest ∧ c ∉ rest ∧ afterLast c s = d.length + 1) := by
  induction s with
  | nil => left; simp [afterLast]
  | cons x xs ih =>
    simp only [afterLast]
    rcases ih with ⟨h, hn⟩ | ⟨d, rest, e, hn, h⟩
    · rw [h]
      by_cases hx : x = c
      · right; subst hx
        exact ⟨[], xs, rfl, hn, by simp⟩
      · left
        simp [hx, hn, Ne.symm hx]
    · right
      refine ⟨x :: d, rest, by rw [e]; rfl, hn, ?_⟩
      rw [h]; simp

theorem indexOf_spec (c : Char) (s : Str) :
    (indexOf c s = none ∧ c ∉ s) ∨ (∃ a b, s = a ++ c :: b ∧ c ∉ a ∧ indexOf c s = some a.length) := by
  induction s with
  | nil => left; simp [indexOf]
  | cons x xs ih =>
    simp only [indexOf]
    by_cases hx : x = c
    · right; subst hx; exact ⟨[], xs, rfl, by simp, by simp⟩
    · rcases ih with ⟨h, hn⟩ | ⟨a, b, e, hn, h⟩
      · left; simp [hx, h, hn, Ne.symm hx]
      · right; exact ⟨x :: a, b, by rw [e]; rfl, by simp [hn, Ne.symm hx], by simp [hx, h]⟩

/-- The part after the last slash. -/
theorem dir_last (s : Str) : ∃ dir rest, s = dir ++ rest ∧ dir.length = afterLast '/' s ∧ '/' ∉ rest ∧
    (dir = [] ∨ ∃ d, dir = d ++ ['/']) := by
  rcases afterLast_spec '/' s with ⟨h, hn⟩ | ⟨d, rest, e, hn, h⟩
  · exact ⟨[], s, rfl, by simp [h], hn, .inl rfl⟩
  · exact ⟨d ++ ['/'], rest, by rw [e]; simp, by simp [h], hn, .inr ⟨d, rfl⟩⟩

theorem dir_unique {dir rest dir' rest' : Str} (e : dir ++ rest = dir' ++ rest') (h1 : '/' ∉ rest) (h2 : '/' ∉ rest')
    (h3 : dir = [] ∨ ∃ d, dir = d ++ ['/']) (h4 : dir' = [] ∨ ∃ d, dir' = d ++ ['/']) : dir = dir' := by
  rcases h3 with rfl | ⟨d, rfl⟩ <;> rcases h4 with rfl | ⟨d', rfl⟩
  · rfl
  · simp at e; rw [e] at h1; simp at h1
  · simp at e; rw [← e] at h2; simp at h2
  · simp only [List.append_assoc, List.singleton_append] at e
    rcases List.append_eq_append_iff.mp e with ⟨a, e1, e2⟩ | ⟨a, e1, e2⟩
    · cases a with
      | nil => simp at e1; rw [e1]
      | cons x xs => simp at e2; rw [e2.2] at h1; simp at h1
    · cases a with
      | nil => simp at e1; rw [e1]
      | cons x xs => simp at e2; rw [e2.2] at h2; simp at h2

theorem splitFunc_iff (fn pkg fun_ : Str) (h : QualName fn pkg fun_) : splitFunc fn = (pkg, fun_) := by
  obtain ⟨rfl, dir, last, rfl, hl, hs, hd, hf, hdir⟩ := h
  obtain ⟨dir', rest', e, hlen, hn, hdir'⟩ := dir_last (dir ++ last ++ '.' :: fun_)
  have : dir = dir' := dir_unique (rest := last ++ '.' :: fun_) (by simpa using e)
    (by simp [hs, hf]) hn hdir hdir'
  subst this
  have e2 : rest' = last ++ '.' :: fun_ := by
    simp only [List.append_assoc] at e
    exact (List.append_cancel_left e).symm
  subst e2
  have hdrop : (dir ++ last ++ '.' :: fun_).drop (afterLast '/' (dir ++ last ++ '.' :: fun_)) = last ++ '.' :: fun_ := by
    rw [← hlen]; simp
  have hidx : indexOf '.' (last ++ '.' :: fun_) = some last.length := by
    rcases indexOf_spec '.' (last ++ '.' :: fun_) with ⟨_, h⟩ | ⟨a, b, e, hn, h⟩
    · simp at h
    · have := split_unique (fun x => x = '.') e (by rintro x hx rfl; exact hd hx) rfl (by rintro x hx rfl; exact hn hx) rfl
      rw [h, this.1]
  simp only [splitFunc, hdrop, hidx]
  have : ¬ last.length < 1 := by
    have := List.length_pos_iff.mpr hl; omega
  rw [if_neg this, ← hlen]
  have h1 : (dir ++ last ++ '.' :: fun_).take (dir.length + last.length) = dir ++ last := by
    rw [← List.length_append, List.take_left]
  have h2 : (dir ++ last ++ '.' :: fun_).drop (dir.length + last.length + 1) = fun_ := by
    rw [show dir.length + last.length + 1 = (dir ++ last ++ ['.']).length by simp; omega]
    rw [show dir ++ last ++ '.' :: fun_ = (dir ++ last ++ ['.']) ++ fun_ by simp, List.drop_left]
  rw [h1, h2]

theorem splitFunc_none (fn : Str) (h : ∀ pkg fun_, ¬ QualName fn pkg fun_) : splitFunc fn = (c!"???", c!"???") := by
  obtain ⟨dir, rest, e, hlen, hn, hdir⟩ := dir_last fn
  have hdrop : fn.drop (afterLast '/' fn) = rest := by
    rw [← hlen, e]; simp
  simp only [splitFunc, hdrop]
  rcases indexOf_spec '.' rest with ⟨h1, _⟩ | ⟨a, b, e2, hn2, h1⟩
  · rw [h1]
  · rw [h1]
    simp only
    split
    · rfl
    · exfalso
      rename_i hlt
      have hne : a ≠ [] := by intro h; subst h; simp at hlt
      refine h (dir ++ a) b ⟨by rw [e, e2]; simp, dir, a, rfl, hne, ?_, hn2, ?_, hdir⟩
      · intro hx; apply hn; rw [e2]; simp [hx]
      · intro hx; apply hn; rw [e2]; simp [hx]

/-! ## Caller skips -/

/-- Caller skips are kept, new loggers have the default. -/
def SkipKept (w w' : World) : Prop :=
  ∀ (r : Nat) l', w'.heap[r]? = some l' →
    (∃ l, w.heap[r]? = some l ∧ l.callerSkip = l'.callerSkip) ∨ (w.heap[r]? = none ∧ l'.callerSkip = 3)

theorem SkipKept.refl (w : World) : SkipKept w w := fun _ l h => .inl ⟨l, h, rfl⟩

theorem SkipKept.trans {a b c : World} (h1 : SkipKept a b) (h2 : SkipKept b c) (hx : Ext a b) : SkipKept a c := by
  intro r l h
  rcases h2 r l h with ⟨l1, h3, h4⟩ | ⟨h3, h4⟩
  · rcases h1 r l1 h3 with ⟨l2, h5, h6⟩ | ⟨h5, h6⟩
    · exact .inl ⟨l2, h5, h6.trans h4⟩
    · exact .inr ⟨h5, h4 ▸ h6⟩
  · right
    refine ⟨?_, h4⟩
    cases hr : a.heap[r]? with
    | none => rfl
    | some l0 =>
      obtain ⟨l', h', _⟩ := hx.heap r l0 hr
      rw [h3] at h'; simp at h'

theorem skip_update (w : World) (r : Nat) (f : Logger → Logger) (h : ∀ l, (f l).callerSkip = l.callerSkip) :
    SkipKept w (w.update r f) := by
  intro r' l' hl
  rw [update_heap] at hl
  split at hl
  · cases h0 : w.heap[r']? with
    | none => rw [h0] at hl; simp at hl
    | some l =>
      rw [h0] at hl; simp at hl; subst hl
      exact .inl ⟨l, rfl, (h l).symm⟩
  · exact .inl ⟨l', hl, rfl⟩

theorem skip_heap {w w' : World} (h : w'.heap = w.heap) : SkipKept w w' := by
  intro r l hl; rw [h] at hl; exact .inl ⟨l, hl, rfl⟩

theorem skip_configure {w : World} (inv : WInv w) (r : Nat) (name : Str) : SkipKept w (w.configure r name) := by
  have cs := configure_spec inv r name
  intro r' l' hl
  by_cases hr : r' = r
  · subst hr
    cases h0 : w.heap[r']? with
    | none =>
      have := heap_lt hl
      rw [cs.len] at this
      rw [List.getElem?_eq_getElem this] at h0; simp at h0
    | some l => exact .inl ⟨l, rfl, (cs.skip l l' h0 hl).symm⟩
  · rw [cs.other r' hr] at hl
    exact .inl ⟨l', hl, rfl⟩

theorem skip_create (w : World) (name : Str) (p : Option Nat) : SkipKept w (w.createLogger name p).2 := by
  unfold createLogger
  split
  · exact .refl w
  · intro r l hl
    rcases (getElem?_concat _ _ _ _).mp hl with h | ⟨h1, h2⟩
    · exact .inl ⟨l, h, rfl⟩
    · subst h2; subst h1
      exact .inr ⟨List.getElem?_eq_none (Nat.le_refl _), rfl⟩

theorem skip_root {w : World} (inv : WInv w) : SkipKept w w.getRootLogger.2 := by
  cases hr : w.root with
  | some r => rw [(getRootLogger_spec inv).1.same (by rw [hr]; simp)]; exact .refl w
  | none =>
    obtain ⟨hh, hl⟩ := root_create_inv inv hr
    intro r l h
    right
    refine ⟨by rw [hh]; simp, ?_⟩
    unfold getRootLogger at h
    simp only [hr, hh, List.length_nil, List.nil_append] at h
    rcases he : w.mgr.getLoggerOutputs rootLoggerName with ⟨e | ⟨ops, lvl⟩, m⟩ <;>
      simp only [he, setLevel, setOutputs, update, List.modify_zero_cons] at h
    · cases r with
      | zero => simp at h; rw [← h]; rfl
      | succ r => simp at h
    · cases r with
      | zero => simp at h; rw [← h]; rfl
      | succ r => simp at h

theorem skip_parentLoop {w : World} (inv : WInv w) {p : Nat} {lp : Logger} (hp : w.heap[p]? = some lp)
    (before rest : Str) (hpar : ParentOf before lp.name) : SkipKept w (w.parentLoop p before rest).2 := by
  induction rest generalizing w p lp before with
  | nil => exact .refl w
  | cons c rest ih =>
    simp only [parentLoop]
    split
    · rename_i h
      have hc := (sep_iff c).mp h.1
      have hk := skip_create w before (some p)
      by_cases hroot : before = rootLoggerName
      · have hne : w.heap ≠ [] := by intro h; rw [h] at hp; simp at hp
        obtain ⟨r, hr⟩ := inv.rooted hne
        have hg := (inv.rootIn r).mp hr
        rw [← hroot] at hg
        obtain ⟨l, h1, h2⟩ := inv.named _ _ hg
        have hcr : w.createLogger before (some p) = (r, w) := by simp [createLogger, hg]
        rw [hcr]
        exact ih inv h1 (before ++ [c]) (by rw [h2]; exact parentOf_snoc_sep hc h.2)
      · obtain ⟨i, x, hg, hm⟩ := create_inv inv hp hpar h.2 hroot
        obtain ⟨l, h1, h2⟩ := i.named _ _ hg
        exact hk.trans (ih i h1 (before ++ [c]) (by rw [h2]; exact parentOf_snoc_sep hc h.2)) x
    · rename_i h
      exact ih inv hp (before ++ [c]) (parentOf_snoc_other hpar (by
        rintro ⟨h1, h2⟩; exact h ⟨(sep_iff c).mpr h1, h2⟩))

theorem skip_getLogger {w : World} (inv : WInv w) (name : Str) : SkipKept w (w.getLogger name).2 := by
  unfold getLogger
  by_cases hn : name = [] ∨ name = rootLoggerName
  · rw [if_pos hn]; exact skip_root inv
  · rw [if_neg hn]
    simp only [not_or] at hn
    cases hg : Map.get w.loggers name with
    | some r => exact .refl w
    | none =>
      obtain ⟨s, _⟩ := getRootLogger_spec inv
      obtain ⟨lr, h1, h2⟩ := s.inv.named _ _ s.get
      have hpn : ParentOf [] lr.name := by rw [h2]; exact parentOf_nil
      obtain ⟨i, x, ⟨lq, h3, h4⟩, hm⟩ := parentLoop_spec s.inv h1 [] name hpn
      have k1 := skip_parentLoop s.inv h1 [] name hpn
      simp only [List.nil_append] at h4
      simp only [getParent]
      generalize hw1 : w.getRootLogger.2.parentLoop w.getRootLogger.1 [] name = pw at i x h3 hm k1
      obtain ⟨p, w1⟩ := pw
      simp only at i x h3 hm k1 ⊢
      obtain ⟨i2, x2, hget, hm2⟩ := create_inv i h3 h4 hn.1 hn.2
      have k2 := skip_create w1 name (some p)
      generalize hw2 : w1.createLogger name (some p) = rw2 at i2 x2 hget hm2 k2
      obtain ⟨r, w2⟩ := rw2
      simp only at i2 x2 hget hm2 k2 ⊢
      exact ((skip_root inv).trans (k1.trans (k2.trans (skip_configure i2 r name) x2) x) s.ext)

theorem skip_notify {w : World} (inv : WInv w) (order : List Nat) : SkipKept w (w.notify order) := by
  induction order generalizing w with
  | nil => exact .refl w
  | cons r rs ih =>
    simp only [notify]
    split
    · exact ih inv
    · rename_i l hl
      have cs := configure_spec inv r l.name
      exact (skip_configure inv r l.name).trans (ih cs.inv) cs.ext

theorem skip_setConfig {w : World} (inv : WInv w) (cfg : Config) (order : List Nat) :
    SkipKept w (w.setConfig cfg order).2 := by
  unfold setConfig
  split
  · exact .refl w
  · obtain ⟨i, x⟩ := withConfig_inv inv cfg
    have k : SkipKept w { w with mgr := { w.mgr with config := cfg } } := skip_heap rfl
    exact k.trans (skip_notify i order) x

theorem skipOf_snoc (as : List Act) (a : Act) (r : Nat) :
    skipOf (as ++ [a]) r = match a with
      | .setCallerSkip r' j => if r' = r then j else skipOf as r
      | _ => skipOf as r := by
  simp only [skipOf, List.foldl_append, List.foldl_cons, List.foldl_nil]
  cases a <;> rfl

/-- The caller skip of a logger follows the history. -/
theorem skip_history {as : List Act} {w : World} (h : Steps {} as w) (r : Nat) :
    (∀ l, w.heap[r]? = some l → l.callerSkip = 3 + skipOf as r) ∧ (w.heap[r]? = none → skipOf as r = 0) := by
  suffices ∀ w0 as w, Steps w0 as w → w0 = {} → ((∀ l, w.heap[r]? = some l → l.callerSkip = 3 + skipOf as r) ∧
      (w.heap[r]? = none → skipOf as r = 0)) from this _ _ _ h rfl
  intro w0 as w h e
  induction h with
  | refl => subst e; simp [skipOf]
  | @tail w as a hs ok ih =>
    obtain ⟨ih1, ih2⟩ := ih
    subst e
    obtain ⟨inv, _⟩ := steps_inv WInv.empty hs
    obtain ⟨_, hext⟩ := step_inv inv a ok
    have other : SkipKept w (a.run w) → skipOf (as ++ [a]) r = skipOf as r →
        (∀ l, (a.run w).heap[r]? = some l → l.callerSkip = 3 + skipOf (as ++ [a]) r) ∧
        ((a.run w).heap[r]? = none → skipOf (as ++ [a]) r = 0) := by
      intro k e
      rw [e]
      constructor
      · intro l hl
        rcases k r l hl with ⟨l0, h1, h2⟩ | ⟨h1, h2⟩
        · rw [← h2]; exact ih1 l0 h1
        · rw [ih2 h1, h2]; rfl
      · intro hn
        apply ih2
        cases hr : w.heap[r]? with
        | none => rfl
        | some l0 =>
          obtain ⟨l', h', _⟩ := hext.heap r l0 hr
          rw [hn] at h'; simp at h'
    cases a with
    | registerFormatter t f => exact other (skip_heap rfl) (skipOf_snoc _ _ _)
    | registerOutput t f => exact other (skip_heap rfl) (skipOf_snoc _ _ _)
    | setConfig cfg order => exact other (skip_setConfig inv _ _) (skipOf_snoc _ _ _)
    | loadConfig d bs ext order => exact other (skip_setConfig inv _ _) (skipOf_snoc _ _ _)
    | loadConfigFile d file read order =>
      refine other ?_ (skipOf_snoc _ _ _)
      simp only [Act.run]
      unfold loadConfigFile
      split
      · exact .refl w
      · split
        · exact .refl w
        · exact skip_setConfig inv _ order
    | getLogger name => exact other (skip_getLogger inv name) (skipOf_snoc _ _ _)
    | queryOutputs name => exact other (skip_heap rfl) (skipOf_snoc _ _ _)
    | userOutput flag => exact other (skip_heap rfl) (skipOf_snoc _ _ _)
    | setLevel r' lvl => exact other (skip_update _ _ _ fun _ => rfl) (skipOf_snoc _ _ _)
    | setOutputs r' ops => exact other (skip_update _ _ _ fun _ => rfl) (skipOf_snoc _ _ _)
    | setCallerSkip r' j =>
      rw [skipOf_snoc]
      simp only [Act.run, setCallerSkip, update_heap]
      by_cases hr : r' = r
      · subst hr
        simp only [if_true]
        constructor
        · intro l hl
          cases h0 : w.heap[r']? with
          | none => rw [h0] at hl; simp at hl
          | some l0 => rw [h0] at hl; simp at hl; rw [← hl]; rfl
        · intro hn
          have : r' < w.heap.length := ok
          rw [List.getElem?_eq_getElem this] at hn; simp at hn
      · simp only [if_neg hr]
        exact ⟨ih1, ih2⟩

/-! ## What `getCallerInfo` records -/

theorem value_withValue (c : Ctx V) (v : CtxVal V) : (c.withValue callerInfoKey v).value callerInfoKey = v := by
  simp [Ctx.value, Ctx.withValue, Map.get]

/-- The recorded information, when the context has none before. -/
theorem getCallerInfo_nil {stack : List Frame} {e : Event V} {needFun : Bool} (h : e.ctx.value callerInfoKey = .nil) :
    ∃ ci evt, getCallerInfo stack e needFun = some (ci, evt) ∧ evt.ctx.value callerInfoKey = .ci ci ∧
      (∀ fr, runtimeCaller stack (e.callDepth + 1) = some fr → ci.file = fr.file ∧ ci.line = fr.line ∧
        ci.pcName = some fr.func ∧ (needFun = true → (ci.pkg, ci.fun_) = splitFunc fr.func) ∧
        (needFun = false → ci.pkg = [] ∧ ci.fun_ = [])) ∧
      (runtimeCaller stack (e.callDepth + 1) = none → ci.file = c!"???" ∧ ci.line = 0) := by
  unfold getCallerInfo
  simp only [h]
  refine ⟨_, _, rfl, value_withValue _ _, ?_, ?_⟩
  · intro fr hfr
    simp only [hfr]
    cases needFun <;> simp
  · intro hn
    simp only [hn]
    cases needFun <;> simp

theorem getCallerInfo_user {stack : List Frame} {e : Event V} {needFun : Bool} {v : V}
    (h : e.ctx.value callerInfoKey = .user v) : getCallerInfo stack e needFun = none := by
  unfold getCallerInfo
  simp only [h]

theorem getCallerInfo_ci {stack : List Frame} {e : Event V} {needFun : Bool} {c : CallerInfo}
    (h : e.ctx.value callerInfoKey = .ci c) : ∃ ci evt, getCallerInfo stack e needFun = some (ci, evt) ∧
      evt.ctx.value callerInfoKey = .ci ci ∧ ci.file = c.file ∧ ci.line = c.line := by
  unfold getCallerInfo
  simp only [h]
  refine ⟨_, _, rfl, value_withValue _ _, ?_, ?_⟩
  · split
    · split <;> rfl
    · rfl
  · split
    · split <;> rfl
    · rfl

/-- `dispatch` panics exactly when it needs caller information and finds a user's value instead. -/
theorem dispatch_panic (l : Logger) (stack : List Frame) (now : Nat) (ctx : Ctx V) (name : Str) (skip : Int)
    (lvl : Level) (fmt : Str) (args : List V) :
    dispatch l stack now ctx name skip lvl fmt args = .panic ↔
      ((l.callerInfoFlag = 1 ∨ l.callerInfoFlag = 2) ∧ ∃ v, ctx.value callerInfoKey = .user v) := by
  unfold dispatch
  simp only
  cases hv : ctx.value callerInfoKey with
  | user v =>
    rw [getCallerInfo_user (v := v) (by exact hv), getCallerInfo_user (v := v) (by exact hv)]
    by_cases h2 : l.callerInfoFlag = ciFuncFlag
    · rw [show ciFuncFlag = 2 from rfl] at h2
      simp [h2, ciFuncFlag]
    · by_cases h1 : l.callerInfoFlag = ciFileFlag
      · rw [show ciFileFlag = 1 from rfl] at h1
        simp [h1, ciFuncFlag, ciFileFlag]
      · simp only [h2, h1, if_false]
        rw [show ciFileFlag = 1 from rfl] at h1
        rw [show ciFuncFlag = 2 from rfl] at h2
        simp [h1, h2]
  | nil =>
    obtain ⟨ci, evt, h, _⟩ := getCallerInfo_nil (stack := callerFrame :: stack) (needFun := true) (e := ({ format := fmt, arguments := args, name := name, level := lvl, time := now, callDepth := skip, ctx := ctx } : Event V)) hv
    obtain ⟨ci', evt', h', _⟩ := getCallerInfo_nil (stack := callerFrame :: stack) (needFun := false) (e := ({ format := fmt, arguments := args, name := name, level := lvl, time := now, callDepth := skip, ctx := ctx } : Event V)) hv
    rw [h, h']
    by_cases h2 : l.callerInfoFlag = ciFuncFlag
    · simp [h2]
    · by_cases h1 : l.callerInfoFlag = ciFileFlag
      · have hne : ¬ ciFileFlag = ciFuncFlag := by decide
        simp [h1, hne]
      · simp [h1, h2]
  | ci c =>
    obtain ⟨ci, evt, h, _⟩ := getCallerInfo_ci (stack := callerFrame :: stack) (needFun := true) (e := ({ format := fmt, arguments := args, name := name, level := lvl, time := now, callDepth := skip, ctx := ctx } : Event V)) hv
    obtain ⟨ci', evt', h', _⟩ := getCallerInfo_ci (stack := callerFrame :: stack) (needFun := false) (e := ({ format := fmt, arguments := args, name := name, level := lvl, time := now, callDepth := skip, ctx := ctx } : Event V)) hv
    rw [h, h']
    by_cases h2 : l.callerInfoFlag = ciFuncFlag
    · simp [h2]
    · by_cases h1 : l.callerInfoFlag = ciFileFlag
      · have hne : ¬ ciFileFlag = ciFuncFlag := by decide
        simp [h1, hne]
      · simp [h1, h2]

/-- With no caller information in the context, `dispatch` records the frame `skip - 3` of the stack
below `Printf`'s caller. -/
theorem dispatch_site (l : Logger) (hops : Nat) (fs stack : List Frame) (now : Nat) (ctx : Ctx V) (name : Str) (skip : Int)
    (lvl : Level) (fmt : Str) (args : List V) (hctx : ctx.value callerInfoKey = .nil) (k : Nat)
    (hk : skip = (hops + 1 + fs.length + k : Nat)) :
    ∀ d ∈ (dispatch l (List.replicate (hops + 1) writeFrame ++ fs ++ stack) now ctx name skip lvl fmt args).deliveries,
      (∀ c, d.evt.ctx.value callerInfoKey = .ci c →
        (∀ fr, stack[k]? = some fr → c.file = fr.file ∧ c.line = fr.line ∧ c.pcName = some fr.func) ∧
        (stack[k]? = none → c.file = c!"???" ∧ c.line = 0)) ∧
      (l.callerInfoFlag = 1 ∨ l.callerInfoFlag = 2 → ∃ c, d.evt.ctx.value callerInfoKey = .ci c) ∧
      (l.callerInfoFlag = 2 → ∀ c, d.evt.ctx.value callerInfoKey = .ci c → ∀ fr, stack[k]? = some fr →
        (c.pkg, c.fun_) = splitFunc fr.func) := by
  intro d hd
  have hcaller : runtimeCaller (callerFrame :: (List.replicate (hops + 1) writeFrame ++ fs ++ stack)) (skip + 1) = stack[k]? := by
    unfold runtimeCaller
    rw [if_neg (by omega), hk]
    have : ((hops + 1 + fs.length + k : Nat) + 1 : Int).toNat = (hops + 1 + fs.length + k) + 1 := by omega
    rw [this, List.getElem?_cons_succ, List.append_assoc, List.getElem?_append_right (by simp; omega)]
    rw [List.getElem?_append_right (by simp; omega)]
    congr 1
    simp; omega
  have key : ∀ needFun, ∃ ci evt, getCallerInfo (callerFrame :: (List.replicate (hops + 1) writeFrame ++ fs ++ stack))
      ({ format := fmt, arguments := args, name := name, level := lvl, time := now, callDepth := skip, ctx := ctx } : Event V) needFun = some (ci, evt) ∧
      evt.ctx.value callerInfoKey = .ci ci ∧
      (∀ fr, stack[k]? = some fr → ci.file = fr.file ∧ ci.line = fr.line ∧
        ci.pcName = some fr.func ∧ (needFun = true → (ci.pkg, ci.fun_) = splitFunc fr.func)) ∧
      (stack[k]? = none → ci.file = c!"???" ∧ ci.line = 0) := by
    intro needFun
    obtain ⟨ci, evt, h1, h2, h3, h4⟩ := getCallerInfo_nil (stack := callerFrame :: (List.replicate (hops + 1) writeFrame ++ fs ++ stack)) (needFun := needFun) (e := ({ format := fmt, arguments := args, name := name, level := lvl, time := now, callDepth := skip, ctx := ctx } : Event V)) hctx
    simp only [hcaller] at h3 h4
    exact ⟨ci, evt, h1, h2, fun fr hf => ⟨(h3 fr hf).1, (h3 fr hf).2.1, (h3 fr hf).2.2.1, (h3 fr hf).2.2.2.1⟩, h4⟩
  unfold dispatch at hd
  simp only at hd
  by_cases h2 : l.callerInfoFlag = ciFuncFlag
  · obtain ⟨ci, evt, k1, k2, k3, k4⟩ := key true
    simp only [h2, if_true, k1, Option.map_some, Outcome.deliveries, List.mem_map] at hd
    obtain ⟨o, _, rfl⟩ := hd
    simp only [k2]
    refine ⟨?_, ?_, ?_⟩
    · intro c hc; injection hc with hc; subst hc
      exact ⟨fun fr hf => ⟨(k3 fr hf).1, (k3 fr hf).2.1, (k3 fr hf).2.2.1⟩, k4⟩
    · intro _; exact ⟨ci, rfl⟩
    · intro _ c hc; injection hc with hc; subst hc
      intro fr hf; exact (k3 fr hf).2.2.2 rfl
  · by_cases h1 : l.callerInfoFlag = ciFileFlag
    · obtain ⟨ci, evt, k1, k2, k3, k4⟩ := key false
      have hne : ¬ ciFileFlag = ciFuncFlag := by decide
      simp only [hne, h1, if_true, if_false, k1, Option.map_some, Outcome.deliveries, List.mem_map] at hd
      obtain ⟨o, _, rfl⟩ := hd
      simp only [k2]
      refine ⟨?_, ?_, ?_⟩
      · intro c hc; injection hc with hc; subst hc
        exact ⟨fun fr hf => ⟨(k3 fr hf).1, (k3 fr hf).2.1, (k3 fr hf).2.2.1⟩, k4⟩
      · intro _; exact ⟨ci, rfl⟩
      · intro hh; exact absurd hh h2
    · simp only [h2, h1, if_false, Outcome.deliveries, List.mem_map] at hd
      obtain ⟨o, _, rfl⟩ := hd
      refine ⟨?_, ?_, ?_⟩
      · intro c hc; simp only [hctx] at hc; simp at hc
      · rintro (hh | hh)
        · exact absurd hh h1
        · exact absurd hh h2
      · intro hh; exact absurd hh h2

/-! ## Fields -/

theorem withFields_value (fields : List (Field V)) (key : Str) :
    (∀ v, LastField fields key v → (withFields fields).value key = v) ∧
    ((∀ f ∈ fields, f.key ≠ key) → (withFields fields).value key = .nil) := by
  have h : ∀ (fields : List (Field V)) (c : Ctx V),
      (∀ v, LastField fields key v → (fields.foldl (fun ctx f => ctx.withValue f.key f.val) c).value key = v) ∧
      ((∀ f ∈ fields, f.key ≠ key) → (fields.foldl (fun ctx f => ctx.withValue f.key f.val) c).value key = c.value key) := by
    intro fields
    induction fields with
    | nil =>
      intro c
      refine ⟨?_, fun _ => rfl⟩
      rintro v ⟨pre, post, f, h, _⟩
      simp at h
    | cons f fs ih =>
      intro c
      obtain ⟨ih1, ih2⟩ := ih (c.withValue f.key f.val)
      refine ⟨?_, ?_⟩
      · rintro v ⟨pre, post, g, e, hk, hv, hp⟩
        cases pre with
        | nil =>
          simp at e
          obtain ⟨rfl, rfl⟩ := e
          simp only [List.foldl_cons]
          rw [ih2 hp, ← hk, ← hv]
          simp [Ctx.value, Ctx.withValue, Map.get]
        | cons x xs =>
          simp at e
          exact ih1 v ⟨xs, post, g, e.2, hk, hv, hp⟩
      · intro hn
        simp only [List.foldl_cons]
        rw [ih2 (fun g hg => hn g (by simp [hg]))]
        have := hn f (by simp)
        simp [Ctx.value, Ctx.withValue, Map.get, this]
  exact h fields []

/-- A key is last given some value, or not given at all. -/
theorem lastField_or (fields : List (Field V)) (key : Str) :
    (∃ v, LastField fields key v) ∨ ∀ f ∈ fields, f.key ≠ key := by
  induction fields with
  | nil => right; simp
  | cons f fs ih =>
    rcases ih with ⟨v, pre, post, g, e, h⟩ | h
    · left; exact ⟨v, f :: pre, post, g, by rw [e]; rfl, h⟩
    · by_cases hk : f.key = key
      · left; exact ⟨f.val, [], fs, f, rfl, hk, rfl, h⟩
      · right; intro g hg
        rcases List.mem_cons.mp hg with rfl | hg
        · exact hk
        · exact h g hg

end Log4g
