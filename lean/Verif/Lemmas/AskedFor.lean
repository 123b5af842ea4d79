import Verif.Spec.AskedFor
import Verif.Lemmas.Early
import Verif.Lemmas.Logger
import Verif.Props.Again

/-! # Helpers for C136 -/

namespace Log4g
open Spec World

theorem sepPrefix_root (q : Str) : ¬ SepPrefix q c!"root" := by
  rintro ⟨_, c, rest, h1, h2⟩
  have : c ∈ c!"root" := by rw [h2]; simp
  unfold Spec.Sep at h1
  rcases h1 with rfl | rfl <;> revert this <;> decide

theorem sepPrefix_sub {q p x : Str} (h : SepPrefix q x) (hp : SepPrefix p x) (hl : q.length ≤ p.length) : q = p ∨ SepPrefix q p := by
  obtain ⟨h1, c, r, h2, h3⟩ := h
  obtain ⟨_, c', r', _, k3⟩ := hp
  rw [h3] at k3
  rcases List.append_eq_append_iff.mp k3 with ⟨a, e1, e2⟩ | ⟨a, e1, e2⟩
  · cases a with
    | nil => left; simpa using e1.symm
    | cons y ys =>
      right
      simp only [List.cons_append, List.cons.injEq] at e2
      exact ⟨h1, y, ys, by rw [← e2.1]; exact h2, e1⟩
  · cases a with
    | nil => left; simpa using e1
    | cons y ys =>
      exfalso
      rw [e1] at hl
      simp only [List.length_append, List.length_cons] at hl
      omega

theorem above_there {w : World} (inv : WInv w) : ∀ (k : Nat) (x : Str), x.length ≤ k → Map.get w.loggers x ≠ none → ∀ q, SepPrefix q x → Map.get w.loggers q ≠ none := by
  intro k
  induction k with
  | zero =>
    rintro x hx _ q ⟨_, c, rest, _, h⟩
    rw [h] at hx
    simp at hx
  | succ k ih =>
    intro x hx hget q hq
    cases hg : Map.get w.loggers x with
    | none => exact absurd hg hget
    | some r =>
      have hr : x ≠ c!"root" := by
        rintro rfl
        exact sepPrefix_root q hq
      obtain ⟨p, hp⟩ := parentOf_exists x
      obtain ⟨l, rp, _, _, _, _, h4⟩ := up_step inv hg hr hp
      rcases hp with ⟨hp, hmax⟩ | ⟨hno, _⟩
      · rcases sepPrefix_sub hq hp (hmax q hq) with rfl | hs
        · rw [h4]; simp
        · refine ih p ?_ (by rw [h4]; simp) q hs
          obtain ⟨_, c, rest, _, e⟩ := hp
          rw [e] at hx
          simp at hx
          omega
      · exact absurd hq (hno q)

theorem create_names (w : World) (name : Str) (p : Option Nat) (q : Str) : Map.get (w.createLogger name p).2.loggers q ≠ none ↔ Map.get w.loggers q ≠ none ∨ q = name := by
  unfold createLogger
  cases h : Map.get w.loggers name with
  | some r =>
    simp only
    constructor
    · exact .inl
    · rintro (h1 | rfl)
      · exact h1
      · rw [h]; simp
  | none =>
    simp only [Map.get_set]
    by_cases e : q = name
    · subst e; simp
    · rw [if_neg (fun h => e h.symm)]
      simp [e]

theorem root_names {w : World} (inv : WInv w) (q : Str) : Map.get w.getRootLogger.2.loggers q ≠ none ↔ Map.get w.loggers q ≠ none ∨ q = rootLoggerName := by
  cases hr : w.root with
  | none =>
    rw [(root_new hr).2.1, Map.get_set]
    by_cases e : q = rootLoggerName
    · subst e; simp
    · rw [if_neg (fun h => e h.symm)]
      simp [e]
  | some r =>
    have : w.getRootLogger.2 = w := by unfold getRootLogger; rw [hr]
    rw [this]
    constructor
    · exact .inl
    · rintro (h | rfl)
      · exact h
      · rw [(inv.rootIn r).mp hr]; simp

theorem parent_names : ∀ (rest : Str) (w : World) (p : Nat) (before q : Str), Map.get (w.parentLoop p before rest).2.loggers q ≠ none ↔
    Map.get w.loggers q ≠ none ∨ SepPrefix q (before ++ rest) ∧ before.length ≤ q.length
  | [], w, p, before, q => by
    simp only [parentLoop, List.append_nil]
    constructor
    · exact .inl
    · rintro (h | ⟨⟨_, c, rest, _, h⟩, h2⟩)
      · exact h
      · rw [h] at h2
        simp at h2
        omega
  | c :: rest, w, p, before, q => by
    have key : SepPrefix q (before ++ c :: rest) ∧ before.length ≤ q.length ↔ (SepPrefix q ((before ++ [c]) ++ rest) ∧ (before ++ [c]).length ≤ q.length) ∨ (q = before ∧ Spec.Sep c ∧ before ≠ []) := by
      have e : (before ++ [c]) ++ rest = before ++ c :: rest := by simp
      rw [e]
      constructor
      · rintro ⟨h1, h2⟩
        by_cases hl : before.length = q.length
        · right
          obtain ⟨k1, c', rest', k2, k3⟩ := h1
          have h3 := List.append_inj k3 hl
          simp only [List.cons.injEq] at h3
          exact ⟨h3.1.symm, by rw [h3.2.1]; exact k2, by rw [h3.1]; exact k1⟩
        · exact .inl ⟨h1, by simp; omega⟩
      · rintro (⟨h1, h2⟩ | ⟨rfl, h1, h2⟩)
        · exact ⟨h1, by simp at h2; omega⟩
        · exact ⟨⟨h2, c, rest, h1, rfl⟩, Nat.le_refl _⟩
    have hsep : isSep c = true ↔ Spec.Sep c := by
      simp only [isSep, Bool.or_eq_true, decide_eq_true_eq, Spec.Sep]
    simp only [parentLoop]
    rw [key]
    split
    · rename_i hc
      rw [parent_names rest, create_names]
      have h1 := hsep.mp hc.1
      have h2 := hc.2
      constructor
      · rintro ((h | h) | h)
        · exact .inl h
        · exact .inr (.inr ⟨h, h1, h2⟩)
        · exact .inr (.inl h)
      · rintro (h | h | h)
        · exact .inl (.inl h)
        · exact .inr h
        · exact .inl (.inr h.1)
    · rename_i hc
      rw [parent_names rest]
      constructor
      · rintro (h | h)
        · exact .inl h
        · exact .inr (.inl h)
      · rintro (h | h | h)
        · exact .inl h
        · exact .inr h
        · exact absurd ⟨hsep.mpr h.2.1, h.2.2⟩ hc

theorem get_names {w : World} (inv : WInv w) (x q : Str) : Map.get (w.getLogger x).2.loggers q ≠ none ↔ Map.get w.loggers q ≠ none ∨ Brings x q := by
  have hroot := root_names inv q
  unfold getLogger Brings
  split
  · rename_i h
    rw [hroot]
    constructor
    · rintro (h1 | h1)
      · exact .inl h1
      · exact .inr (.inl h1)
    · rintro (h1 | h1 | h1 | h1)
      · exact .inl h1
      · exact .inr h1
      · rcases h with rfl | rfl
        · exact absurd h1.2 h1.1
        · exact .inr h1.2
      · rcases h with rfl | rfl
        · obtain ⟨_, c, rest, _, e⟩ := h1
          simp at e
        · exact absurd h1 (sepPrefix_root q)
  · rename_i hname
    simp only [not_or] at hname
    split
    · rename_i r hr
      simp only
      constructor
      · exact .inl
      · rintro (h1 | h1 | h1 | h1)
        · exact h1
        · obtain ⟨l, hl, _⟩ := inv.named _ _ hr
          obtain ⟨r0, h2⟩ := inv.rooted (by intro h; rw [h] at hl; simp at hl)
          rw [h1, show Map.get w.loggers c!"root" = _ from (inv.rootIn r0).mp h2]; simp
        · rw [h1.2, hr]; simp
        · exact above_there inv _ x (Nat.le_refl _) (by rw [hr]; simp) q h1
    · simp only [getParent]
      rw [(configure_shape _ _ _).loggers, create_names, parent_names, hroot]
      simp only [List.nil_append, List.length_nil, Nat.zero_le, and_true]
      constructor
      · rintro (((h | h) | h) | h)
        · exact .inl h
        · exact .inr (.inl h)
        · exact .inr (.inr (.inr h))
        · exact .inr (.inr (.inl ⟨by rw [h]; exact hname.1, h⟩))
      · rintro (h | h | h | h)
        · exact .inl (.inl (.inl h))
        · exact .inl (.inl (.inr h))
        · exact .inr h.2
        · exact .inl (.inr h)

theorem notify_names (w : World) (order : List Nat) : (w.notify order).loggers = w.loggers := by
  induction order generalizing w with
  | nil => rfl
  | cons r rs ih =>
    simp only [notify]
    split
    · exact ih w
    · rw [ih, (configure_shape _ _ _).loggers]

theorem setConfig_names (w : World) (cfg : Config) (order : List Nat) : (w.setConfig cfg order).2.loggers = w.loggers := by
  unfold setConfig
  split
  · rfl
  · rw [notify_names]

theorem loadConfig_names (d : Decoders) (w : World) (bs : Bytes) (ext : Str) (order : List Nat) : (w.loadConfig d bs ext order).2.loggers = w.loggers := by
  unfold loadConfig
  exact setConfig_names _ _ _

theorem act_names (w : World) (a : Act) (h : ∀ x, a ≠ .getLogger x) : (a.run w).loggers = w.loggers := by
  cases a with
  | getLogger x => exact absurd rfl (h x)
  | setConfig cfg order => exact setConfig_names _ _ _
  | loadConfig d bs ext order => exact loadConfig_names _ _ _ _ _
  | loadConfigFile d file read order =>
    simp only [Act.run, loadConfigFile]
    split
    · rfl
    · split
      · rfl
      · exact loadConfig_names _ _ _ _ _
  | _ => rfl

/-! ## A configuration that is set at the end -/

/-- What there is at the end was made after `m`, which has nothing cached. -/
structure LateOf (w : World) (cfg : Config) (e : World) (m : Manager) : Prop where
  config : m.config = cfg
  fmtCreators : m.fmtCreators = w.mgr.fmtCreators
  outCreators : m.outCreators = w.mgr.outCreators
  formats : m.formats = []
  outputs : m.outputs = []
  inv : WInv e
  since : Since m e.mgr
  made : ∀ n l, loggerAt e n = some l → MadeOf m e.mgr l

theorem early_made {w : World} (hw : Untried w) (hst : Steady w.mgr) (cfg : Config) (ns : List Str) {order : List Nat} (ho : order.Perm ((obtained w ns).loggers.map (·.2))) :
    ∃ m, LateOf w (if validateConfig cfg = none then cfg else {}) ((obtained w ns).setConfig cfg order).2 m := by
  obtain ⟨b1, b2, b3, b4, b5, b6⟩ := untried_blank hw
  have inv : WInv w := by
    obtain ⟨as, h, _⟩ := hw
    exact reach_inv ⟨as, h⟩
  have a1 : AllMade w.mgr (obtained w ns) := obtained_made hst ns [] w ⟨inv, .refl inv.mgr, fun r l h => by rw [b1] at h; simp at h⟩ (by simp)
    fun pre n post _ m _ => .inr (.inr fun e he => by rw [b4] at he; cases he)
  obtain ⟨c1, c2, c3⟩ := obtained_unset ns b4
  have g1 := a1.since.grow
  unfold setConfig
  cases hv : validateConfig cfg with
  | some e =>
    refine ⟨w.mgr, b4, rfl, rfl, b5, b6, a1.inv, a1.since, fun n l h => ?_⟩
    unfold loggerAt at h
    cases hr : Map.get (obtained w ns).loggers n with
    | none => simp only [hr] at h; cases h
    | some r => simp only [hr] at h; exact a1.made r l h
  | none =>
    have i1 := (withConfig_inv a1.inv cfg).1
    have st1 : Steady ({ obtained w ns with mgr := { (obtained w ns).mgr with config := cfg } } : World).mgr := by
      have : Steady (obtained w ns).mgr := by unfold Steady; rw [g1.fmtCreators, g1.outCreators]; exact hst
      exact this
    obtain ⟨s1, _, n1⟩ := notify_since st1 (.refl i1.mgr) i1 order
    have k1 := notify_spec i1 order
    refine ⟨{ (obtained w ns).mgr with config := cfg }, rfl, g1.fmtCreators, g1.outCreators, c2.trans b5, c3.trans b6, k1.1, s1, fun n l hl => ?_⟩
    unfold loggerAt at hl
    simp only [k1.2.2.2.1] at hl
    cases hr : Map.get (obtained w ns).loggers n with
    | none => rw [hr] at hl; cases hl
    | some r =>
      rw [hr] at hl
      simp only [Option.bind_some] at hl
      obtain ⟨l0, h0, hn0⟩ := a1.inv.named _ _ hr
      have hm : r ∈ (obtained w ns).loggers.map (·.2) := List.mem_map.mpr ⟨(n, r), Map.mem_of_get hr, rfl⟩
      obtain ⟨l1, h1, bc⟩ := n1 (ho.nodup_iff.mpr (refs_nodup a1.inv)) r (ho.mem_iff.mpr hm) l0 h0
      rw [h1] at hl
      cases hl
      obtain ⟨d1, d2⟩ := a1.made r l0 h0
      rcases d2 with ⟨lc, d2, _⟩ | ⟨_, d3, d4, d5⟩
      · exact absurd d2 (noLogger_bad (fun e he => by rw [b4] at he; cases he) lc)
      · rcases bc with ⟨x1, rfl⟩ | ⟨lc, x1, x2, x3⟩
        · refine ⟨d1, .inr ⟨x1, d3, fun e => ?_, d5⟩⟩
          obtain ⟨y1, c, y2, y3⟩ := d4 e
          exact ⟨y1, c, y2, s1.grow.oheap_get y3⟩
        · have e1 : l.name = l0.name := by rw [x3]
          refine ⟨by rw [x3]; exact d1, .inl ⟨lc, by rw [e1]; exact x1, x2, by rw [x3], ?_⟩⟩
          rw [d3] at x3
          exact congrArg Logger.callerInfoFlag x3

/-! ## Levels, by name -/

theorem same_level {a b : World} (ia : WInv a) (ib : WInv b) (hl : ∀ n l, loggerAt a n = some l → ∃ l', loggerAt b n = some l' ∧ l'.level = l.level) {n : Str} {r r' : Nat}
    (h : Map.get a.loggers n = some r) (h' : Map.get b.loggers n = some r') : b.level r' = a.level r := by
  obtain ⟨ps, hp⟩ := path_exists n
  obtain ⟨v, v1, v2⟩ := levelWalk_spec ia hp h (lt_heap ia h)
  obtain ⟨u, u1, u2⟩ := levelWalk_spec ib hp h' (lt_heap ib h')
  unfold level
  rw [v1, u1]
  simp only [Option.getD_some]
  have t1 : ∀ x, NoLevel a x → NoLevel b x := by
    rintro x ⟨l, h1, h2⟩
    obtain ⟨l', k1, k2⟩ := hl x l h1
    exact ⟨l', k1, k2.trans h2⟩
  have t2 : ∀ x y, HasLevel a x y → HasLevel b x y := by
    rintro x y ⟨l, h1, h2, h3⟩
    obtain ⟨l', k1, k2⟩ := hl x l h1
    exact ⟨l', k1, k2.trans h2, h3⟩
  have no : ∀ x y, NoLevel b x → ¬ HasLevel b x y := by
    rintro x y ⟨l, h1, h2⟩ ⟨l', k1, k2, k3⟩
    rw [h1] at k1
    cases k1
    exact k3 (k2.symm.trans h2)
  rcases v2 with ⟨pre, m, post, e, h1, h2⟩ | ⟨h1, h2⟩ <;> rcases u2 with ⟨pre', m', post', e', k1, k2⟩ | ⟨k1, k2⟩
  · obtain ⟨_, rfl, _⟩ := split_unique (fun x => ∃ y, HasLevel b x y) (e.symm.trans e') (fun x hx => fun ⟨y, hy⟩ => no x y (t1 x (h1 x hx)) hy) ⟨v, t2 _ _ h2⟩
      (fun x hx => fun ⟨y, hy⟩ => no x y (k1 x hx) hy) ⟨u, k2⟩
    obtain ⟨l, p1, p2, _⟩ := t2 _ _ h2
    obtain ⟨l', q1, q2, _⟩ := k2
    rw [p1] at q1
    cases q1
    rw [← p2, ← q2]
  · exact absurd (t2 _ _ h2) (no _ _ (k1 m (by rw [e]; simp)))
  · exact absurd k2 (no _ _ (t1 _ (h1 m' (by rw [e']; simp))))
  · rw [h2, k2]

end Log4g
