import Verif.Spec.RollOutput
import Verif.Lemmas.Async
import Verif.Lemmas.RollThreads

/-! # Lemmas about rolling outputs -/

namespace Log4g
open Spec

variable {V : Type} {cfg : ACfg V} {umask : Nat} {lib : RLib} {c : RCfg}

/-- An execution is one of the output and one of its writer. -/
theorem oexec_parts {d0 : Disk} {prog : Nat → List (ACall V)} {tr : List (ALab V)} {st : STrace} {s : OState V}
    (h : OExec cfg umask lib c (newOutput d0 prog) tr st s) : AExec cfg (newAsync prog) tr s.a ∧ Session umask lib c d0 s.a.writes st s.disk s.rw := by
  generalize h0 : newOutput d0 prog = s0 at h
  induction h with
  | nil => subst h0; exact ⟨.nil, .start⟩
  | snoc _ hs ih =>
    subst h0
    obtain ⟨h1, h2⟩ := ih
    cases hs with
    | quiet ha hw => refine ⟨h1.snoc ha, ?_⟩; simp only [List.append_nil]; rw [hw]; exact h2
    | flush ha hw hr => refine ⟨h1.snoc ha, ?_⟩; simp only; rw [hw]; exact .write h2 hr

theorem astep_writes {s s' : AState V} {l : ALab V} (h : AStep cfg s l s') : s'.writes = s.writes ∨ ∃ bs, s'.writes = s.writes ++ [bs] := by
  obtain ⟨_, h⟩ := h
  cases h with
  | tick _ => exact .inr ⟨_, rfl⟩
  | takeNil _ _ => exact .inr ⟨_, rfl⟩
  | takeClosed _ _ _ => exact .inr ⟨_, rfl⟩
  | takeEvent _ _ _ =>
    simp only [AState.handle]
    split
    · split
      · exact .inr ⟨_, rfl⟩
      · exact .inl rfl
    · exact .inl rfl
  | _ => exact .inl rfl

/-- Whatever the output does, the writer can take part in. -/
theorem oexec_of_aexec (d0 : Disk) {prog : Nat → List (ACall V)} {tr : List (ALab V)} {a : AState V} (h : AExec cfg (newAsync prog) tr a) :
    ∃ st s, OExec cfg umask lib c (newOutput d0 prog) tr st s ∧ s.a = a := by
  generalize h0 : newAsync prog = a0 at h
  induction h with
  | nil => subst h0; exact ⟨[], _, .nil, rfl⟩
  | snoc _ hs ih =>
    subst h0
    obtain ⟨st, s, h1, rfl⟩ := ih
    rcases astep_writes hs with hw | ⟨bs, hw⟩
    · exact ⟨_, _, h1.snoc (.quiet hs hw), rfl⟩
    · obtain ⟨t2, ⟨res, rw'⟩, d', hr⟩ := (safe_write (lib := lib) (umask := umask) (session_knows (oexec_parts h1).2) bs).runs
      exact ⟨_, _, h1.snoc (.flush hs hw hr), rfl⟩

/-- When nothing fails, all that is written reaches the disk. -/
theorem session_chunks (hmax : ∀ max, c.kind = .size max → 0 < max) {d0 d : Disk} {ms : List Bytes} {tr : STrace} {rw : RW} (h : Session umask lib c d0 ms tr d rw)
    (hn : LogCallsOk tr) : chunks tr = ms := by
  induction h with
  | start => rfl
  | @write ms tr d rw m tr' res rw' d' hs hr ih =>
    have hok := session_ok hmax hs hr hn
    obtain ⟨n, ok⟩ := res
    simp only at hok
    subst hok
    rw [chunks_append, ih (logCallsOk_append.mp hn).1]
    rcases write_chunks hr with ⟨_, _, h⟩ | ⟨h, _, h2⟩
    · cases h
    · rw [h, h2 rfl, List.take_length]

theorem Reaches.first {α : Type} {o : Sys} {k : o.Resp → Prog α} {r : o.Resp} {q : Prog α} {d d1 d' : Disk} {tr : STrace} (hs : SysStep umask d o r d1)
    (h : Reaches umask (k r) d1 tr q d') : Reaches umask (.call o k) d (⟨o, r⟩ :: tr) q d' := by
  induction h with
  | here => exact .call (tr := []) .here hs
  | call _ h2 ih => exact .call (tr := _ :: _) ih h2

theorem stops_reaches {α : Type} {p : Prog α} {d d' : Disk} {tr : STrace} (h : Stops umask p d tr d') : ∃ q, Reaches umask p d tr q d' := by
  induction h with
  | here => exact ⟨_, .here⟩
  | call hs _ ih =>
    obtain ⟨q, hq⟩ := ih
    exact ⟨q, hq.first hs⟩

/-- What a write that is cut off has put on the disk: the first part of the message. -/
theorem stops_chunks {rw : RW} {bs : Bytes} {d d' : Disk} {tr : STrace} (hk : Knows c rw d) (h : Stops umask (c.write lib rw bs) d tr d') :
    (chunks tr).flatten <+: bs := by
  obtain ⟨q, hq⟩ := stops_reaches h
  obtain ⟨t2, ⟨⟨n, ok⟩, rw'⟩, d2, hr⟩ := (hq.safe (safe_write hk bs)).runs
  have h1 := write_chunks (hq.runs hr)
  rw [chunks_append] at h1
  have h2 : (chunks tr ++ chunks t2).flatten <+: bs := by
    rcases h1 with ⟨h1, _⟩ | ⟨h1, _⟩
    · rw [h1]; exact List.nil_prefix
    · rw [h1]; simpa using List.take_prefix n bs
  rw [List.flatten_append] at h2
  exact (List.prefix_append _ _).trans h2

/-- Groups of pieces made of whole messages are groups of messages. -/
theorem regroup {gs : List (List Bytes)} {xs : List (List Bytes)} (h : gs.flatten = xs.map List.flatten) :
    ∃ gs' : List (List Bytes), gs'.flatten = xs.flatten ∧ gs'.map List.flatten = gs.map List.flatten := by
  induction gs generalizing xs with
  | nil =>
    simp only [List.flatten_nil] at h
    have : xs = [] := by simpa using h.symm
    subst this
    exact ⟨[], rfl, rfl⟩
  | cons g gs ih =>
    rw [List.flatten_cons] at h
    obtain ⟨x1, x2, rfl, h1, h2⟩ := List.append_eq_map_iff.mp h
    obtain ⟨gs', h3, h4⟩ := ih h2.symm
    refine ⟨x1.flatten :: gs', by simp [h3], ?_⟩
    rw [List.map_cons, List.map_cons, h4, ← h1, List.flatten_flatten]

theorem holds_of_gapFree {F0 : List Bytes} {st : STrace} {d : Dir} {xs : List (List Bytes)} (h : GapFree lib c F0 st d) (hc : chunks st = xs.map List.flatten) :
    KeepsLog lib c F0 xs.flatten d := by
  obtain ⟨hs, dropped, groups, h1, h2, h3, h4⟩ := h
  obtain ⟨gs', g1, g2⟩ := regroup (gs := groups) (xs := F0.map (fun x => [x]) ++ xs) (by rw [h2, hc]; simp [Function.comp_def])
  refine ⟨hs, dropped, gs', h1, ?_, by rw [g2, h3], h4⟩
  rw [g1, List.flatten_append]
  congr 1
  clear h2 g1
  induction F0 with
  | nil => rfl
  | cons x F0 ih => rw [List.map_cons, List.flatten_cons, ih]; rfl

end Log4g
