import Verif.Spec.Stdout
import Verif.Lemmas.SystemOrder
import Verif.Lemmas.MachineSync
import Verif.Lemmas.MachineFiles

/-! # Lemmas for C125 -/

namespace Log4g
open Spec
open scoped List

variable {V : Type} {env : PEnv V} {up : Nat → Bool}

theorem texec_pexec {s0 s : PState V} {tr : List (PLab V)} {out : List (Nat × Bytes)} (h : TExec env s0 tr s out) : PExec env s0 tr s := by
  induction h with
  | nil => exact .nil
  | snoc _ hs ih => exact ih.snoc hs

theorem pexec_texec {s0 s : PState V} {tr : List (PLab V)} (h : PExec env s0 tr s) : ∃ out, TExec env s0 tr s out := by
  induction h with
  | nil => exact ⟨_, .nil⟩
  | snoc _ hs ih => obtain ⟨out, h⟩ := ih; exact ⟨_, h.snoc hs⟩

theorem TExec.split {s0 s : PState V} {a b : List (PLab V)} {out : List (Nat × Bytes)} (h : TExec env s0 (a ++ b) s out) :
    ∃ s1 x y, TExec env s0 a s1 x ∧ PExec env s1 b s ∧ out = x ++ y := by
  generalize hx : a ++ b = tr at h
  induction h generalizing b with
  | nil =>
    obtain ⟨rfl, rfl⟩ := List.append_eq_nil_iff.mp hx
    exact ⟨_, [], [], .nil, .nil, rfl⟩
  | @snoc tr s l s' out h1 hs ih =>
    rcases List.eq_nil_or_concat b with rfl | ⟨b, l', rfl⟩
    · rw [List.append_nil] at hx
      subst hx
      exact ⟨_, _, [], h1.snoc hs, .nil, by simp⟩
    · rw [List.concat_eq_append, ← List.append_assoc] at hx
      obtain ⟨h2, h3⟩ := List.append_inj' hx rfl
      cases h3
      obtain ⟨s1, x, y, h4, h5, rfl⟩ := ih h2
      exact ⟨s1, x, y ++ printedBy env s s' l, h4, by rw [List.concat_eq_append]; exact h5.snoc hs, by simp⟩

theorem printsOf_append (o : Nat) (x y : List (Nat × Bytes)) : printsOf o (x ++ y) = printsOf o x ++ printsOf o y := by simp [printsOf]

theorem onConsole_iff {w : World} {o : Nat} : w.onConsole env.tc o = true ↔ ConsoleOut env w o := by
  unfold World.onConsole ConsoleOut
  cases h : w.mgr.oheap[o]? with
  | none => simp
  | some ob => cases hk : ob.kind env.tc <;> simp [hk]

theorem prints_of_map {o p : Nat} (l : List Bytes) : printsOf o (l.map fun x => (p, x)) = if p = o then l else [] := by
  unfold printsOf
  rw [List.filter_map, List.map_map]
  split
  · rename_i h; subst h; simp [Function.comp_def]
  · rename_i h; simp [Function.comp_def, h]

/-- What a step prints for an output is what the output gives to its writer. -/
theorem given_printed {tr : List (PLab V)} {s s' : PState V} {l : PLab V} (h : PExec env (newProgram up) tr s) (hs : PStep env s l s') {o : Nat}
    (hc : ConsoleOut env s.w o) : s'.given env o = s.given env o ++ printsOf o (printedBy env s s' l) := by
  have hc := onConsole_iff.mpr hc
  rcases given_step h hs o with h1 | ⟨t, e, stack, rfl, hw, hn, _, h1⟩ | ⟨a, cfg, bs, rfl, _, hw, hn, _, h1⟩
  · have none : ∀ p x y, s'.w = s.w → (p = o → x = y) → printsOf o (if s.w.onConsole env.tc p then ((x : List Bytes).drop y.length).map fun z => (p, z) else []) = [] := by
      intro p x y _ hxy
      split
      · rw [prints_of_map]
        split
        · rename_i e; rw [hxy e, List.drop_length]
        · rfl
      · rfl
    rw [h1]
    have plain : ∀ {t p c}, s'.w = s.w → s.w.asyncOf env p = .none → printsOf o (printedBy env s s' (.plain t p c)) = [] := by
      intro t p c hw hn
      refine none p _ _ hw fun e => ?_
      subst e
      unfold PState.given at h1
      rw [hw, hn] at h1
      exact h1
    have hact := hs.2
    cases hact with
    | send stack _ hn => rw [plain rfl hn, List.append_nil]
    | closed _ hn => rw [plain rfl hn, List.append_nil]
    | @out p a x cfg hn _ =>
      refine (List.append_nil _).symm.trans (congrArg _ (Eq.symm ?_))
      refine none p _ _ rfl fun e => ?_
      subst e
      unfold PState.given at h1
      simp only [PState.setOut] at h1 ⊢
      rw [hn] at h1
      exact h1
    | _ => exact (List.append_nil _).symm
  · rw [h1]
    unfold PState.given at h1
    rw [hw, hn] at h1
    simp only at h1
    simp only [printedBy, hc, if_true, h1, List.drop_left, prints_of_map]
  · rw [h1]
    unfold PState.given at h1
    rw [hw, hn] at h1
    simp only at h1
    simp only [printedBy, hc, if_true, h1, List.drop_left, prints_of_map]

/-- Only console outputs print. -/
theorem printed_console {s s' : PState V} {l : PLab V} {x : Nat × Bytes} (h : x ∈ printedBy env s s' l) : ConsoleOut env s.w x.1 := by
  unfold printedBy at h
  split at h
  · split at h
    · rename_i hc
      obtain ⟨_, _, rfl⟩ := List.mem_map.mp h
      exact onConsole_iff.mp hc
    · simp at h
  · split at h
    · rename_i hc
      obtain ⟨_, _, rfl⟩ := List.mem_map.mp h
      exact onConsole_iff.mp hc
    · simp at h
  · simp at h

theorem console_old {w w' : World} (x : Ext w w') {o : Nat} (h : ConsoleOut env w o) : ConsoleOut env w' o := by
  obtain ⟨ob, k, h1, h2⟩ := h
  have hlt : o < w.mgr.oheap.length := by
    rcases Nat.lt_or_ge o w.mgr.oheap.length with h | h
    · exact h
    · rw [List.getElem?_eq_none h] at h1; cases h1
  exact ⟨ob, k, by rw [ext_oheap x hlt]; exact h1, h2⟩

theorem prints_none {o : Nat} {out : List (Nat × Bytes)} (h : ∀ x ∈ out, x.1 ≠ o) : printsOf o out = [] := by
  unfold printsOf
  rw [List.filter_eq_nil_iff.mpr (fun x hx => by simpa using h x hx)]
  rfl

theorem texec_inv {tr : List (PLab V)} {s : PState V} {out : List (Nat × Bytes)} (h : TExec env (newProgram up) tr s out) :
    (∀ x ∈ out, ConsoleOut env s.w x.1) ∧ ∀ o, ConsoleOut env s.w o → printsOf o out = s.given env o := by
  induction h with
  | nil =>
    refine ⟨by simp, fun o _ => ?_⟩
    unfold PState.given
    split <;> rfl
  | @snoc tr s l s' out h1 hs ih =>
    obtain ⟨ih1, ih2⟩ := ih
    have hp := texec_pexec h1
    have x := ext_step (pexec_inv hp) hs
    refine ⟨fun y hy => ?_, fun o ho => ?_⟩
    · rcases List.mem_append.mp hy with hy | hy
      · exact console_old x (ih1 y hy)
      · exact console_old x (printed_console hy)
    · rw [printsOf_append]
      by_cases hlt : o < s.w.mgr.oheap.length
      · have hc : ConsoleOut env s.w o := by
          obtain ⟨ob, k, k1, k2⟩ := ho
          exact ⟨ob, k, by rw [← ext_oheap x hlt]; exact k1, k2⟩
        rw [ih2 o hc, given_printed hp hs hc]
      · have hn : ¬ ConsoleOut env s.w o := by
          rintro ⟨ob, k, k1, _⟩
          rw [List.getElem?_eq_none (by omega)] at k1
          cases k1
        rw [prints_none (o := o) fun y hy e => hn (e ▸ ih1 y hy), prints_none (o := o) fun y hy e => hn (e ▸ printed_console hy)]
        rcases given_step hp hs o with h2 | ⟨t, e, stack, rfl, hw, _⟩ | ⟨a, cfg, bs, rfl, _, hw, _⟩
        · rw [h2, given_new hp (by omega)]; rfl
        · rw [hw] at ho; exact absurd ho hn
        · rw [hw] at ho; exact absurd ho hn

end Log4g
