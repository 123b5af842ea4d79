import Verif.Lemmas.MachineRuns
import Verif.Lemmas.Printf
import Verif.Spec.Stderr

/-! # Standard error: lemmas -/

namespace Log4g
open Spec Strconv World
open scoped List
variable {V : Type} {env : PEnv V} {host : Host} {up : Nat → Bool} {v0 : Nat → Volume}

theorem eexec_mexec {m0 m : Machine V} {tr : List (MLab V)} {rs : List Report} (h : EExec env host m0 tr m rs) : MExec env host m0 tr m := by
  induction h with
  | nil => exact .nil
  | snoc _ hs _ ih => exact ih.snoc hs

theorem reports_some {m m' : Machine V} {l : MLab V} (h : MStep env host m l m') : ∃ xs, Reports env m m' l xs := by
  cases h with
  | @prog l p hp _ _ =>
    cases hp.2 with
    | act _ _ _ _ => exact ⟨_, .act⟩
    | log _ hr he => exact ⟨_, .log hr he⟩
    | _ => exact ⟨_, .quiet (by simp) (by simp)⟩
  | write => exact ⟨_, .write⟩
  | @sys o c msg op k r v' h' =>
    by_cases h : ∃ n, (⟨op, r⟩ : (op : Sys) × op.Resp) = ⟨.remove n, false⟩
    · obtain ⟨n, e⟩ := h
      rw [e]; exact ⟨_, .failed⟩
    · exact ⟨_, .sys fun n e => h ⟨n, e⟩⟩
  | done => exact ⟨_, .done⟩

theorem mexec_eexec {m0 m : Machine V} {tr : List (MLab V)} (h : MExec env host m0 tr m) : ∃ rs, EExec env host m0 tr m rs := by
  induction h with
  | nil => exact ⟨_, .nil⟩
  | snoc _ hs ih =>
    obtain ⟨rs, h⟩ := ih
    obtain ⟨xs, hx⟩ := reports_some hs
    exact ⟨_, h.snoc hs hx⟩

theorem EExec.trans {m1 m2 m3 : Machine V} {a b : List (MLab V)} {rs xs : List Report} (h1 : EExec env host m1 a m2 rs) (h2 : EExec env host m2 b m3 xs) :
    EExec env host m1 (a ++ b) m3 (rs ++ xs) := by
  induction h2 with
  | nil => simpa using h1
  | snoc _ hs hx ih => rw [← List.append_assoc, ← List.append_assoc]; exact ih.snoc hs hx

/-! The warning. -/

theorem warned_spec {w : World} (inv : WInv w) {n : Str} {ps : List Str} (hp : Path n ps) {r : Nat}
    (h : Map.get w.loggers n = some r) {fuel : Nat} (hf : r < fuel) (name : Str) (lvl : Level) :
    (Unheard w lvl ps ∧ w.warned fuel r name lvl = [.warning name]) ∨ (¬ Unheard w lvl ps ∧ w.warned fuel r name lvl = []) := by
  induction hp generalizing r fuel with
  | root =>
    obtain ⟨l, h1, h2, h3⟩ := up_root inv h
    obtain ⟨fuel, rfl⟩ : ∃ f, fuel = f + 1 := ⟨fuel - 1, by omega⟩
    simp only [World.warned, h1, h3]
    by_cases he : w.levelEnabled r lvl = true
    · by_cases ho : l.outputs = []
      · left
        refine ⟨fun x hx => ?_, by simp [he, ho]⟩
        rw [List.mem_singleton.mp hx]
        exact ⟨(hasOutputs_iff h h1 []).mpr ho, (enables_iff h lvl).mpr he⟩
      · right
        exact ⟨fun hu => ho ((hasOutputs_iff h h1 []).mp (hu _ (by simp)).1), by simp [he, ho]⟩
    · right
      exact ⟨fun hu => he ((enables_iff h lvl).mp (hu _ (by simp)).2), by simp [he]⟩
  | step hn hpar hps ih =>
    obtain ⟨l, rp, h1, h2, h3, h4, hg⟩ := up_step inv h hn hpar
    obtain ⟨fuel, rfl⟩ : ∃ f, fuel = f + 1 := ⟨fuel - 1, by omega⟩
    simp only [World.warned, h1, h3]
    by_cases he : w.levelEnabled r lvl = true
    · by_cases ho : l.outputs = []
      · simp only [he, ho, if_true, reduceCtorEq, if_false, Bool.true_eq_false]
        rcases ih hg (fuel := fuel) (by omega) with ⟨hu, e⟩ | ⟨hu, e⟩
        · left
          refine ⟨fun x hx => ?_, e⟩
          rcases List.mem_cons.mp hx with rfl | hx
          · exact ⟨(hasOutputs_iff h h1 []).mpr ho, (enables_iff h lvl).mpr he⟩
          · exact hu x hx
        · right
          exact ⟨fun hu' => hu fun x hx => hu' x (by simp [hx]), e⟩
      · right
        exact ⟨fun hu => ho ((hasOutputs_iff h h1 []).mp (hu _ (by simp)).1), by simp [he, ho]⟩
    · right
      exact ⟨fun hu => he ((enables_iff h lvl).mp (hu _ (by simp)).2), by simp [he]⟩

theorem printfWarned_spec {w : World} (inv : WInv w) {n : Str} {ps : List Str} (hp : Path n ps) {r : Nat} (h : Map.get w.loggers n = some r) (lvl : Level) :
    (Unheard w lvl ps ∧ w.printfWarned r lvl = [.warning n]) ∨ (¬ Unheard w lvl ps ∧ w.printfWarned r lvl = []) := by
  obtain ⟨l, h1, h2⟩ := inv.named _ _ h
  simp only [World.printfWarned, h1, h2]
  exact warned_spec inv hp h (heap_lt h1) n lvl

/-- Every logger has a path to the root. -/
theorem logger_path {w : World} (inv : WInv w) {r : Nat} (h : r < w.heap.length) : ∃ n ps, Map.get w.loggers n = some r ∧ Path n ps := by
  induction r using Nat.strongRecOn with
  | _ r ih =>
    obtain ⟨l, hl⟩ : ∃ l, w.heap[r]? = some l := ⟨_, List.getElem?_eq_getElem h⟩
    by_cases hn : l.name = rootLoggerName
    · exact ⟨_, _, inv.all r l hl, by rw [hn]; exact .root⟩
    · obtain ⟨p, lp, _, h2, h3, h4⟩ := inv.parent r l hl hn
      obtain ⟨n, ps, e, hp⟩ := ih p h4 (heap_lt h2)
      have := inv.named n p e
      obtain ⟨l', a, b⟩ := this
      rw [h2] at a; cases a
      subst b
      exact ⟨_, _, inv.all r l hl, .step hn h3 hp⟩

/-- What is warned about goes to no output. -/
theorem warned_unsent {w : World} (inv : WInv w) {now : Nat} {n : Str} {ps : List Str} (hp : Path n ps) {r : Nat} (h : Map.get w.loggers n = some r)
    {stack : List Frame} {ctx : Ctx V} {lvl : Level} {fmt : Str} {args : List V} {ds : List (Delivery V)}
    (he : w.printf now stack r ctx lvl fmt args = .sent ds) (hu : Unheard w lvl ps) : ds = [] := by
  cases ds with
  | nil => rfl
  | cons d ds =>
    obtain ⟨pre, m, post, ops, _, _, hN, _⟩ := printf_delivery inv now hp h stack ctx (lvl := lvl) fmt args (d := d) (by rw [he]; simp [Outcome.deliveries])
    obtain ⟨l, a, b⟩ := hN.outs
    obtain ⟨⟨l', a', b'⟩, _⟩ := hu m (by rw [hN.split]; simp)
    rw [a] at a'; cases a'
    exact absurd (b.symm.trans b') hN.ne

/-! The paths. -/

theorem rollingOuts_of (tc : Toolchain) (w : World) : ∃ os, RollingOuts tc w os ∧ pathsIn (w.pathsFrom tc 0) = os.map (·.2.archivePath) := by
  suffices h : ∀ (x : List OutObj) (n : Nat), ∃ os : List (Nat × RCfg), os.Pairwise (fun x y => x.1 < y.1) ∧ (∀ y ∈ os, n ≤ y.1) ∧
      (∀ o c, (o, c) ∈ os ↔ n ≤ o ∧ ∃ ob kind, x[o - n]? = some ob ∧ ob.kind tc = .rolling c kind) ∧
      pathsIn (x.filterMap fun ob => match ob.kind tc with | .rolling c _ => some (Report.path c.archivePath) | _ => none) = os.map (·.2.archivePath) by
    obtain ⟨os, h1, _, h2, h3⟩ := h w.mgr.oheap 0
    exact ⟨os, ⟨h1, fun o c => by rw [h2]; simp [RollingOut]⟩, h3⟩
  intro x
  induction x with
  | nil => intro n; exact ⟨[], .nil, by simp, by simp, rfl⟩
  | cons ob x ih =>
    intro n
    obtain ⟨os, h1, h2, h3, h4⟩ := ih (n + 1)
    have shift : ∀ o, n + 1 ≤ o → (ob :: x)[o - n]? = x[o - (n + 1)]? := by
      intro o ho
      rw [show o - n = (o - (n + 1)) + 1 by omega, List.getElem?_cons_succ]
    by_cases hk : ∃ c kind, ob.kind tc = .rolling c kind
    · obtain ⟨c, kind, hk⟩ := hk
      refine ⟨(n, c) :: os, List.pairwise_cons.mpr ⟨fun y hy => by have := h2 y hy; simp; omega, h1⟩, ?_, ?_, ?_⟩
      · intro y hy
        rcases List.mem_cons.mp hy with rfl | hy
        · exact Nat.le_refl _
        · have := h2 y hy; omega
      · intro o c'
        rw [List.mem_cons, h3]
        constructor
        · rintro (e | ⟨ho, ob', k', a, b⟩)
          · cases e
            exact ⟨Nat.le_refl _, ob, kind, by simp, hk⟩
          · exact ⟨by omega, ob', k', by rw [shift o ho]; exact a, b⟩
        · rintro ⟨ho, ob', k', a, b⟩
          by_cases e : o = n
          · subst e
            simp at a; subst a
            rw [hk] at b; cases b
            exact .inl rfl
          · rw [shift o (by omega)] at a
            exact .inr ⟨by omega, ob', k', a, b⟩
      · simp only [List.filterMap_cons, hk, List.map_cons, ← h4, pathsIn]
    · refine ⟨os, h1, fun y hy => by have := h2 y hy; omega, ?_, ?_⟩
      · intro o c'
        rw [h3]
        constructor
        · rintro ⟨ho, ob', k', a, b⟩
          exact ⟨by omega, ob', k', by rw [shift o ho]; exact a, b⟩
        · rintro ⟨ho, ob', k', a, b⟩
          by_cases e : o = n
          · subst e
            simp at a; subst a
            exact absurd ⟨_, _, b⟩ hk
          · rw [shift o (by omega)] at a
            exact ⟨by omega, ob', k', a, b⟩
      · rw [← h4]
        congr 1
        rw [List.filterMap_cons]
        split
        · rfl
        · rename_i heq
          split at heq
          · rename_i hk'; exact absurd ⟨_, _, hk'⟩ hk
          · cases heq

theorem pathsFrom_append {tc : Toolchain} {w w' : World} (h : ∃ x, w'.mgr.oheap = w.mgr.oheap ++ x) :
    w'.pathsFrom tc 0 = w.pathsFrom tc 0 ++ w'.pathsFrom tc w.mgr.oheap.length := by
  obtain ⟨x, e⟩ := h
  simp [World.pathsFrom, e, List.filterMap_append]

theorem pathsFrom_only {tc : Toolchain} {w : World} {n : Nat} : removalsIn (w.pathsFrom tc n) = [] ∧ warningsIn (w.pathsFrom tc n) = [] := by
  have : ∀ x ∈ w.pathsFrom tc n, ∃ d, x = .path d := by
    intro x hx
    obtain ⟨ob, _, h⟩ := List.mem_filterMap.mp hx
    split at h
    · cases h; exact ⟨_, rfl⟩
    · cases h
  constructor <;>
  · refine List.filterMap_eq_nil_iff.mpr fun x hx => ?_
    obtain ⟨d, rfl⟩ := this x hx
    rfl

theorem warned_only {w : World} {r : Nat} {lvl : Level} : ∃ xs : List Str, xs.length ≤ 1 ∧ w.printfWarned r lvl = xs.map .warning := by
  have : ∀ fuel r name, ∃ xs : List Str, xs.length ≤ 1 ∧ w.warned fuel r name lvl = xs.map .warning := by
    intro fuel
    induction fuel with
    | zero => intro r name; exact ⟨[], by simp, rfl⟩
    | succ fuel ih =>
      intro r name
      unfold World.warned
      split
      · exact ⟨[], by simp, rfl⟩
      · split
        · exact ⟨[], by simp, rfl⟩
        · split
          · split
            · exact ih _ _
            · exact ⟨[name], by simp, rfl⟩
          · exact ⟨[], by simp, rfl⟩
  unfold World.printfWarned
  split
  · exact ⟨[], by simp, rfl⟩
  · exact this _ _ _

/-! Programs. -/

theorem paths_quiet {tr : List (PLab V)} {s s' : PState V} {l : PLab V} (_ : PExec env (newProgram up) tr s) (hs : PStep env s l s')
    (hl : ∀ a, l ≠ .act a) : s'.w = s.w := by
  cases hs.2 with
  | act => exact absurd rfl (hl _)
  | _ => rfl

theorem new_paths (tc : Toolchain) : (newProgram up : PState V).w.pathsFrom tc 0 = [] := by
  have : (newProgram up : PState V).w.mgr.oheap = [] := rfl
  simp [World.pathsFrom, this]

structure EInv (env : PEnv V) (tr : List (MLab V)) (m : Machine V) (rs : List Report) : Prop where
  removals : removalsIn rs = removalsFailed tr
  paths : pathsIn rs = pathsIn (m.p.w.pathsFrom env.tc 0)
  warnings : (warningsIn rs).length ≤ unsent tr

theorem eexec_inv {m : Machine V} {tr : List (MLab V)} {rs : List Report} (h : EExec env host (newMachine up v0) tr m rs) : EInv env tr m rs := by
  induction h with
  | nil =>
    exact ⟨rfl, by rw [show (newMachine up v0 : Machine V).p = newProgram up from rfl, new_paths], by simp [warningsIn]⟩
  | @snoc tr m l m' rs xs h0 hs hx ih =>
    have inv := mexec_inv (eexec_mexec h0)
    have hfr : removalsFailed (tr ++ [l]) = removalsFailed tr ++ removalsFailed [l] := by simp [removalsFailed]
    have hun : unsent (tr ++ [l]) = unsent tr + unsent [l] := by simp [unsent]
    have h1 : removalsIn (rs ++ xs) = removalsIn rs ++ removalsIn xs := by simp [removalsIn]
    have h2 : pathsIn (rs ++ xs) = pathsIn rs ++ pathsIn xs := by simp [pathsIn]
    have h3 : warningsIn (rs ++ xs) = warningsIn rs ++ warningsIn xs := by simp [warningsIn]
    suffices hh : removalsIn xs = removalsFailed [l] ∧ pathsIn (m'.p.w.pathsFrom env.tc 0) = pathsIn (m.p.w.pathsFrom env.tc 0) ++ pathsIn xs ∧
        (warningsIn xs).length ≤ unsent [l] by
      obtain ⟨a, b, c⟩ := hh
      refine ⟨by rw [h1, hfr, ih.removals, a], by rw [h2, ih.paths, b], ?_⟩
      have := ih.warnings
      rw [h3, hun, List.length_append]; omega
    cases hx with
    | @act a =>
      have hext : ∃ x, m'.p.w.mgr.oheap = m.p.w.mgr.oheap ++ x := by
        cases hs with
        | prog hp _ _ => exact (ext_step (pexec_inv inv.prog) hp).oheap
      refine ⟨pathsFrom_only.1, ?_, by rw [pathsFrom_only.2]; simp⟩
      rw [pathsFrom_append hext]
      simp [pathsIn]
    | @log t now stack r ctx lvl fmt args ds hr he =>
      have hw : m'.p.w = m.p.w := by
        cases hs with
        | prog hp _ _ => exact paths_quiet inv.prog hp (by simp)
      obtain ⟨ys, hy, e⟩ := warned_only (w := m.p.w) (r := r) (lvl := lvl)
      have hall : ∀ (f : Report → Option Str), (∀ n, f (.warning n) = none) → (m.p.w.printfWarned r lvl).filterMap f = [] := by
        intro f hf
        rw [e]
        refine List.filterMap_eq_nil_iff.mpr fun x hx => ?_
        obtain ⟨n, _, rfl⟩ := List.mem_map.mp hx
        exact hf n
      refine ⟨by rw [removalsIn, hall _ (fun _ => rfl)]; rfl, by rw [hw, pathsIn, pathsIn, hall _ (fun _ => rfl), List.append_nil], ?_⟩
      have hl : (warningsIn (m.p.w.printfWarned r lvl)).length ≤ 1 := by
        refine Nat.le_trans (List.length_filterMap_le _ _) ?_
        rw [e, List.length_map]; exact hy
      cases ds with
      | nil => simpa [unsent] using hl
      | cons d ds =>
        have winv := (pexec_inv inv.prog).world
        obtain ⟨n, ps, hn, hp⟩ := logger_path winv hr
        rcases printfWarned_spec winv hp hn lvl with ⟨hu, _⟩ | ⟨_, e'⟩
        · exact absurd (warned_unsent winv hp hn he hu) (by simp)
        · rw [e']; simp [warningsIn]
    | @quiet l hl _ =>
      have hw : m'.p.w = m.p.w := by
        cases hs with
        | prog hp _ _ => exact paths_quiet inv.prog hp hl
      exact ⟨rfl, by rw [hw]; simp [pathsIn], by simp [warningsIn]⟩
    | @write l k o bs =>
      have hw : m'.p.w = m.p.w := by
        cases hs with
        | write hp _ h1 h2 _ _ =>
          refine paths_quiet inv.prog hp fun a e => ?_
          subst e
          rcases given_step inv.prog hp o with k | ⟨_, _, _, k, _⟩ | ⟨_, _, _, k, _⟩
          · rw [k] at h2; simp at h2
          · cases k
          · cases k
      exact ⟨rfl, by rw [hw]; simp [pathsIn], by simp [warningsIn]⟩
    | @failed k o n =>
      have hw : m'.p = m.p := by generalize hl : MLab.sys k o ⟨.remove n, false⟩ = lab at hs; cases hs <;> first | (cases hl; done) | rfl
      exact ⟨rfl, by rw [hw]; simp [pathsIn], by simp [warningsIn]⟩
    | @sys k o x hx =>
      have hw : m'.p = m.p := by generalize hl : MLab.sys k o x = lab at hs; cases hs <;> first | (cases hl; done) | rfl
      refine ⟨?_, by rw [hw]; simp [pathsIn], by simp [warningsIn]⟩
      show [] = _
      symm
      unfold removalsFailed
      refine List.filterMap_eq_nil_iff.mpr fun y hy => ?_
      rw [List.mem_singleton.mp hy]
      split
      · rename_i e; cases e; exact absurd rfl (hx _)
      · rfl
    | @done k o bs res =>
      have hw : m'.p = m.p := by generalize hl : MLab.done k o bs res = lab at hs; cases hs <;> first | (cases hl; done) | rfl
      exact ⟨rfl, by rw [hw]; simp [pathsIn], by simp [warningsIn]⟩

end Log4g
