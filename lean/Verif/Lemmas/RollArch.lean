import Verif.Lemmas.RollRuns

/-! # The calls made for archiving -/

namespace Log4g
open Spec

/-- Calls made for archiving. -/
def archOp : Sys → Bool
  | .mkdirAll _ | .tmpCreate | .archRead | .rollRead _ | .tmpEntry _ _ | .tmpClose | .tmpRename _ | .tmpRemove => true
  | _ => false

/-- All calls of a program are for archiving. -/
abbrev Archives {α : Type} (p : Prog α) : Prop := p.All (archOp · = true)

theorem archives_sys {o : Sys} (h : archOp o = true) : Archives (sys o) := Prog.All.sys h

theorem archives_exploded (c : RCfg) (n : Str) : Archives (c.archiveExplodedLogs n) := by
  refine Prog.All.bind (archives_sys rfl) ?_
  intro r
  cases r with
  | none => exact trivial
  | some data =>
    refine Prog.All.bind (archives_sys rfl) ?_
    intro b
    cases b
    · exact trivial
    · refine Prog.All.bind (archives_sys rfl) fun ok => Prog.All.bind (archives_sys rfl) fun cl => ?_
      cases ok <;> cases cl <;> first | exact archives_sys rfl | exact Prog.All.bind (archives_sys rfl) fun _ => trivial

theorem archives_each (c : RCfg) (ns : List Str) : Archives (c.archiveEach ns) := by
  induction ns with
  | nil => exact trivial
  | cons n ns ih => exact Prog.All.bind (archives_exploded c n) fun _ => ih

theorem archives_copy (es : Entries) : Archives (copyEntries es) := by
  induction es with
  | nil => exact trivial
  | cons e es ih =>
    refine Prog.All.bind (archives_sys rfl) fun b => ?_
    cases b
    · exact trivial
    · exact ih

theorem archives_add (ns : List Str) : Archives (addFiles ns) := by
  induction ns with
  | nil => exact trivial
  | cons n ns ih =>
    refine Prog.All.bind (archives_sys rfl) fun r => ?_
    cases r with
    | none => exact trivial
    | some data =>
      refine Prog.All.bind (archives_sys rfl) fun b => ?_
      cases b
      · exact trivial
      · exact ih

theorem archives_unexploded (ns : List Str) : Archives (archiveUnexplodedLogs ns) := by
  refine Prog.All.bind (archives_sys rfl) fun b => ?_
  cases b
  · exact trivial
  · refine Prog.All.bind (Prog.All.bind (archives_sys rfl) fun r => ?_) fun ok => Prog.All.bind (archives_sys rfl) fun cl => ?_
    · cases r with
      | failed => exact trivial
      | absent => exact archives_add ns
      | entries es =>
        refine Prog.All.bind (archives_copy es) fun b => ?_
        cases b
        · exact trivial
        · exact archives_add ns
    · cases ok <;> cases cl <;> first | exact archives_sys rfl | exact Prog.All.bind (archives_sys rfl) fun _ => trivial

theorem all_removeAll_remove (ns : List Str) : (removeAll ns).All (fun o => ∃ n, o = .remove n) := by
  induction ns with
  | nil => trivial
  | cons n ns ih => exact Prog.All.bind (Prog.All.sys ⟨n, rfl⟩) fun _ => ih

/-- The deletion archives and removes. -/
theorem all_delete (c : RCfg) (hs : List Str) : (c.deleteOldRolls hs).All (fun o => archOp o = true ∨ ∃ n, o = .remove n) := by
  have fin : ∀ k, (removeAll (hs.take k)).All (fun o => archOp o = true ∨ ∃ n, o = .remove n) := fun k => (all_removeAll_remove _).mono fun _ h => .inr h
  rw [RCfg.deleteOldRolls]
  split
  · trivial
  · dsimp only
    split
    · trivial
    · split
      · refine Prog.All.bind (Prog.All.sys (.inl rfl)) fun _ => ?_
        split
        · exact Prog.All.bind ((archives_each c _).mono fun _ h => .inl h) fun _ => fin _
        · exact Prog.All.bind ((archives_unexploded _).mono fun _ h => .inl h) fun _ => fin _
      · exact fin _

end Log4g
