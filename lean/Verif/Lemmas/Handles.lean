import Verif.Spec.Handles
import Verif.Lemmas.Rolling
import Verif.Lemmas.MachineClose
import Verif.Lemmas.MachineRuns

/-! # Lemmas about open files -/

namespace Log4g
open Spec
variable {V : Type} {α β : Type}

theorem inOrder_append {h h' h'' : Option Str} {a b : STrace} (x : InOrder h a h') (y : InOrder h' b h'') : InOrder h (a ++ b) h'' := by
  induction x with
  | nil => exact y
  | cons e _ ih => exact .cons e (ih y)

theorem inOrder_snoc {h h' h'' : Option Str} {a : STrace} {x : (o : Sys) × o.Resp} (p : InOrder h a h') (q : opened h' x = some h'') :
    InOrder h (a ++ [x]) h'' := inOrder_append p (.cons q .nil)

theorem inOrder_split {a b : STrace} : ∀ {h h'' : Option Str}, InOrder h (a ++ b) h'' → ∃ h', InOrder h a h' ∧ InOrder h' b h'' := by
  induction a with
  | nil => intro h h'' x; exact ⟨h, .nil, x⟩
  | cons e a ih =>
    intro h h'' x
    cases x with
    | cons q r =>
      obtain ⟨h', p, s⟩ := ih r
      exact ⟨h', .cons q p, s⟩

/-- A program that, begun with `h` open, makes its calls in order, however they are answered, and ends in `Q`. -/
def Ordered (Q : α → Option Str → Prop) : Option Str → Prog α → Prop
  | h, .ret a => Q a h
  | h, .call o k => ∀ r, ∃ h', opened h ⟨o, r⟩ = some h' ∧ Ordered Q h' (k r)

theorem Ordered.mono {Q R : α → Option Str → Prop} (hqr : ∀ a h, Q a h → R a h) : ∀ {p : Prog α} {h}, Ordered Q h p → Ordered R h p
  | .ret _, _, x => hqr _ _ x
  | .call _ _, _, x => fun r => by
    obtain ⟨h', a, b⟩ := x r
    exact ⟨h', a, Ordered.mono hqr b⟩

theorem Ordered.bind {R : β → Option Str → Prop} {f : α → Prog β} : ∀ {p : Prog α} {h}, Ordered (fun a h' => Ordered R h' (f a)) h p → Ordered R h (p >>= f)
  | .ret _, _, x => x
  | .call _ _, _, x => fun r => by
    obtain ⟨h', a, b⟩ := x r
    exact ⟨h', a, Ordered.bind b⟩

theorem Ordered.sys {o : Sys} {Q : o.Resp → Option Str → Prop} {h : Option Str} (x : ∀ r, ∃ h', opened h ⟨o, r⟩ = some h' ∧ Q r h') :
    Ordered Q h (Log4g.sys o) := x

theorem ordered_runs {umask : Nat} {Q : α → Option Str → Prop} {p : Prog α} {d : Disk} {tr : STrace} {a : α} {d' : Disk} (r : Runs umask p d tr a d') :
    ∀ {h}, Ordered Q h p → ∃ h', InOrder h tr h' ∧ Q a h' := by
  induction r with
  | ret => intro h x; exact ⟨h, .nil, x⟩
  | call _ _ ih =>
    intro h x
    obtain ⟨h1, e, y⟩ := x _
    obtain ⟨h2, i, q⟩ := ih y
    exact ⟨h2, .cons e i, q⟩

theorem ordered_stops {umask : Nat} {Q : α → Option Str → Prop} {p : Prog α} {d : Disk} {tr : STrace} {d' : Disk} (r : Stops umask p d tr d') :
    ∀ {h}, Ordered Q h p → ∃ h', InOrder h tr h' := by
  induction r with
  | here => intro h x; exact ⟨h, .nil⟩
  | call _ _ ih =>
    intro h x
    obtain ⟨h1, e, y⟩ := x _
    obtain ⟨h2, i⟩ := ih y
    exact ⟨h2, .cons e i⟩

/-- What is open when the writer is in state `rw`. -/
def FileOpen (rw : RW) (h : Option Str) : Prop := h = if rw.file = some .opened then some rw.name else none

theorem ordered_removeAll (ns : List Str) : Ordered (fun _ h => h = none) none (removeAll ns) := by
  induction ns with
  | nil => rfl
  | cons n ns ih => exact Ordered.bind (Ordered.sys fun r => ⟨none, rfl, ih⟩)

theorem ordered_copyEntries (es : Entries) : Ordered (fun _ h => h = none) none (copyEntries es) := by
  induction es with
  | nil => rfl
  | cons e es ih =>
    refine Ordered.bind (Ordered.sys fun r => ⟨none, rfl, ?_⟩)
    cases r
    · rfl
    · exact ih

theorem ordered_addFiles (ns : List Str) : Ordered (fun _ h => h = none) none (addFiles ns) := by
  induction ns with
  | nil => rfl
  | cons n ns ih =>
    refine Ordered.bind (Ordered.sys fun r => ⟨none, rfl, ?_⟩)
    cases r with
    | none => rfl
    | some data =>
      refine Ordered.bind (Ordered.sys fun r => ⟨none, rfl, ?_⟩)
      cases r
      · rfl
      · exact ih

theorem ordered_exploded (c : RCfg) (n : Str) : Ordered (fun _ h => h = none) none (c.archiveExplodedLogs n) := by
  refine Ordered.bind (Ordered.sys fun r => ⟨none, rfl, ?_⟩)
  cases r with
  | none => rfl
  | some data =>
    refine Ordered.bind (Ordered.sys fun r => ⟨none, rfl, ?_⟩)
    cases r
    · rfl
    · refine Ordered.bind (Ordered.sys fun r => ⟨none, rfl, ?_⟩)
      refine Ordered.bind (Ordered.sys fun r' => ⟨none, rfl, ?_⟩)
      cases r <;> cases r' <;> exact fun _ => ⟨none, rfl, rfl⟩

theorem ordered_unexploded (ns : List Str) : Ordered (fun _ h => h = none) none (archiveUnexplodedLogs ns) := by
  refine Ordered.bind (Ordered.sys fun r => ⟨none, rfl, ?_⟩)
  cases r
  · rfl
  · refine Ordered.bind (Ordered.mono (Q := fun _ h => h = none) ?_ ?_)
    · rintro ok _ rfl
      refine Ordered.bind (Ordered.sys fun r' => ⟨none, rfl, ?_⟩)
      cases ok <;> cases r' <;> exact fun _ => ⟨none, rfl, rfl⟩
    · refine Ordered.bind (Ordered.sys fun r => ⟨none, rfl, ?_⟩)
      cases r with
      | failed => rfl
      | absent => exact ordered_addFiles ns
      | entries es =>
        refine Ordered.bind (Ordered.mono ?_ (ordered_copyEntries es))
        rintro ok _ rfl
        cases ok
        · rfl
        · exact ordered_addFiles ns

theorem ordered_archiveEach (c : RCfg) (ns : List Str) : Ordered (fun _ h => h = none) none (c.archiveEach ns) := by
  induction ns with
  | nil => rfl
  | cons n ns ih => exact Ordered.bind (Ordered.mono (by rintro _ _ rfl; exact ih) (ordered_exploded c n))

theorem ordered_deleteOldRolls (c : RCfg) (hs : List Str) : Ordered (fun _ h => h = none) none (c.deleteOldRolls hs) := by
  unfold RCfg.deleteOldRolls
  split
  · rfl
  · dsimp only
    split
    · rfl
    · split
      · refine Ordered.bind (Ordered.sys fun r => ⟨none, rfl, ?_⟩)
        split
        · exact Ordered.bind (Ordered.mono (by rintro _ _ rfl; exact ordered_removeAll _) (ordered_archiveEach c _))
        · exact Ordered.bind (Ordered.mono (by rintro _ _ rfl; exact ordered_removeAll _) (ordered_unexploded _))
      · exact ordered_removeAll _

theorem ordered_newName (lib : RLib) (c : RCfg) (rw : RW) (hs : List Str) (hf : rw.file = none) :
    Ordered (fun x h => h = none ∧ x.2.file = none) none (c.getNewHistoryRollFileName lib rw hs) := by
  unfold RCfg.getNewHistoryRollFileName
  split
  · exact ⟨rfl, hf⟩
  · exact Ordered.bind (Ordered.sys fun r => ⟨none, rfl, rfl, hf⟩)

theorem ordered_rollOver (lib : RLib) (c : RCfg) (rw : RW) (hs : List Str) (hf : rw.file = none) :
    Ordered (fun x h => h = none ∧ x.2.file = none) none (c.rollOver lib rw hs) := by
  refine Ordered.bind (Ordered.mono ?_ (ordered_newName lib c rw hs hf))
  rintro ⟨tag, rw'⟩ _ ⟨rfl, hf'⟩
  refine Ordered.bind (Ordered.sys fun r => ⟨none, rfl, ?_⟩)
  cases r
  · exact ⟨rfl, hf'⟩
  · refine Ordered.bind (Ordered.sys fun r => ⟨none, rfl, ?_⟩)
    dsimp only
    split
    · exact Ordered.bind (Ordered.mono (by rintro _ _ rfl; exact ⟨rfl, hf'⟩) (ordered_deleteOldRolls c _))
    · exact ⟨rfl, hf'⟩

theorem ordered_roll (lib : RLib) (c : RCfg) (rw : RW) {h : Option Str} (ho : FileOpen rw h) : Ordered (fun x h => FileOpen x.2 h) h (c.roll lib rw) := by
  unfold RCfg.roll
  unfold FileOpen at ho
  split
  · rename_i e; rw [e] at ho; simp at ho; subst ho; simp [Ordered, FileOpen, e, pure]
  · rename_i e; rw [e] at ho; simp at ho; subst ho; simp [Ordered, FileOpen, e, pure]
  · rename_i e
    rw [if_pos e] at ho
    subst ho
    refine Ordered.bind (Ordered.sys fun r => ⟨none, by simp [opened], ?_⟩)
    cases r
    · exact rfl
    · refine Ordered.bind (Ordered.bind (Ordered.sys fun r => ⟨none, rfl, ?_⟩))
      cases r with
      | none => exact rfl
      | some files =>
        show Ordered _ none (c.rollOver lib _ _)
        exact Ordered.mono (Q := fun x h => h = none ∧ x.2.file = none) (fun x h y => by obtain ⟨rfl, hf⟩ := y; simp [FileOpen, hf]) (ordered_rollOver lib c _ _ rfl)

theorem ordered_createFile (c : RCfg) (rw : RW) (hf : rw.file = none) : Ordered (fun x h => FileOpen x.2 h) none (c.createFile rw) := by
  refine Ordered.bind (Ordered.sys fun r => ⟨none, rfl, ?_⟩)
  cases r
  · simp [Ordered, FileOpen, hf, pure]
  · refine Ordered.bind (Ordered.sys fun r => ⟨if r = true then some c.fileName else none, rfl, ?_⟩)
    cases r
    · exact rfl
    · refine Ordered.bind (Ordered.sys fun r => ⟨some c.fileName, by simp [opened], ?_⟩)
      cases r with
      | none => exact Ordered.bind (Ordered.sys fun r => ⟨none, by simp [opened], rfl⟩)
      | some n => exact rfl

theorem ordered_put (rw : RW) (bs : Bytes) {h : Option Str} (ho : FileOpen rw h) : Ordered (fun x h => FileOpen x.2 h) h (RCfg.put rw bs) := by
  unfold RCfg.put
  split
  · rename_i e
    have ho' := ho
    unfold FileOpen at ho'
    rw [if_pos e] at ho'
    refine Ordered.bind (Ordered.sys fun r => ⟨h, by simp [opened, ho'], ?_⟩)
    exact ho
  · exact ho

theorem ordered_append (c : RCfg) (rw : RW) (bs : Bytes) {h : Option Str} (ho : FileOpen rw h) : Ordered (fun x h => FileOpen x.2 h) h (c.append rw bs) := by
  unfold RCfg.append
  split
  · rename_i e
    unfold FileOpen at ho
    rw [e] at ho
    simp at ho
    subst ho
    refine Ordered.bind (Ordered.mono ?_ (ordered_createFile c rw e))
    rintro ⟨ok, rw'⟩ h' ho'
    cases ok
    · exact ho'
    · exact ordered_put rw' bs ho'
  · exact ordered_put rw bs ho

theorem ordered_needsToRoll (lib : RLib) (c : RCfg) (rw : RW) {h : Option Str} (ho : FileOpen rw h) :
    Ordered (fun x h => FileOpen x.2 h) h (c.needsToRoll lib rw) := by
  unfold RCfg.needsToRoll
  split
  · exact ho
  · refine Ordered.bind (Ordered.sys fun r => ⟨h, rfl, ?_⟩)
    dsimp only
    split
    · exact ho
    · exact ho

/-- A write makes its calls in order. -/
theorem ordered_write (lib : RLib) (c : RCfg) (rw : RW) (bs : Bytes) {h : Option Str} (ho : FileOpen rw h) :
    Ordered (fun x h => FileOpen x.2 h) h (c.write lib rw bs) := by
  refine Ordered.bind (Ordered.mono ?_ (ordered_needsToRoll lib c rw ho))
  rintro ⟨b, rw'⟩ h' ho'
  cases b
  · exact ordered_append c rw' bs ho'
  · refine Ordered.bind (Ordered.mono ?_ (ordered_roll lib c rw' ho'))
    rintro ⟨ok, rw2⟩ h2 ho2
    cases ok
    · exact ho2
    · exact ordered_append c rw2 bs ho2

/-- A program whose results all are in `Q`. -/
def Yields (Q : α → Prop) : Prog α → Prop
  | .ret a => Q a
  | .call _ k => ∀ r, Yields Q (k r)

theorem Yields.bind {Q : β → Prop} {f : α → Prog β} (hf : ∀ a, Yields Q (f a)) : ∀ p : Prog α, Yields Q (p >>= f)
  | .ret a => hf a
  | .call _ k => fun r => Yields.bind hf (k r)

theorem yields_put (rw : RW) (bs : Bytes) : Yields (fun x => x.1.2 = true → x.2.file = some .opened) (RCfg.put rw bs) := by
  unfold RCfg.put
  split
  · rename_i e; exact fun r _ => e
  · exact fun h => by cases h

theorem yields_append (c : RCfg) (rw : RW) (bs : Bytes) : Yields (fun x => x.1.2 = true → x.2.file = some .opened) (c.append rw bs) := by
  unfold RCfg.append
  split
  · refine Yields.bind ?_ _
    rintro ⟨ok, rw'⟩
    cases ok
    · exact fun h => by cases h
    · exact yields_put _ _
  · exact yields_put _ _

/-- A write that succeeds leaves a file open. -/
theorem yields_write (lib : RLib) (c : RCfg) (rw : RW) (bs : Bytes) : Yields (fun x => x.1.2 = true → x.2.file = some .opened) (c.write lib rw bs) := by
  refine Yields.bind ?_ _
  rintro ⟨b, rw'⟩
  cases b
  · exact yields_append _ _ _
  · refine Yields.bind ?_ _
    rintro ⟨ok, rw2⟩
    cases ok
    · exact fun h => by cases h
    · exact yields_append _ _ _

theorem tries_inOrder {umask : Nat} {lib : RLib} {c : RCfg} {d0 : Disk} {ms : List Bytes} {tr : STrace} {d : Disk} {rw : RW}
    (s : Session umask lib c d0 ms tr d rw) : ∃ h, InOrder none tr h ∧ FileOpen rw h := by
  induction s with
  | start => exact ⟨none, .nil, rfl⟩
  | write _ r ih =>
    obtain ⟨h, a, b⟩ := ih
    obtain ⟨h', x, y⟩ := ordered_runs r (ordered_write lib c _ _ b)
    exact ⟨h', inOrder_append a x, y⟩

/-- `Close` of a writer. -/
theorem close_runs {umask : Nat} {rw rw' : RW} {ok : Bool} {h : Option Str} (ho : FileOpen rw h) {d d' : Disk} {tr : STrace}
    (hr : Runs umask (RCfg.close rw) d tr (ok, rw') d') : InOrder h tr none ∧ d' = d ∧ FileOpen rw' none := by
  unfold FileOpen at ho ⊢
  unfold RCfg.close at hr
  split at hr
  · rename_i e
    simp only [e, reduceCtorEq, if_false] at ho
    subst ho
    cases hr
    exact ⟨.nil, rfl, by simp [e]⟩
  · rename_i e
    simp only [e, Option.some.injEq, reduceCtorEq, if_false] at ho
    subst ho
    cases hr
    exact ⟨.nil, rfl, by simp [e]⟩
  · rename_i e
    simp only [e, if_true] at ho
    subst ho
    cases hr with
    | @call _ _ _ r _ _ _ _ hs hr =>
      have hd : _ = d := hs
      subst hd
      cases r <;> cases hr <;> exact ⟨.cons (by simp [opened]) .nil, rfl, by simp⟩

theorem uses_inOrder {umask : Nat} {lib : RLib} {c : RCfg} {d0 : Disk} {tr : STrace} {d : Disk} {rw : RW} (s : Uses umask lib c d0 tr d rw) :
    ∃ h, InOrder none tr h ∧ FileOpen rw h := by
  induction s with
  | start => exact ⟨none, .nil, rfl⟩
  | write _ r ih =>
    obtain ⟨h, a, b⟩ := ih
    obtain ⟨h', x, y⟩ := ordered_runs r (ordered_write lib c _ _ b)
    exact ⟨h', inOrder_append a x, y⟩
  | close _ r ih =>
    obtain ⟨h, a, b⟩ := ih
    obtain ⟨x, _, y⟩ := close_runs b r
    exact ⟨none, inOrder_append a x, y⟩

theorem session_uses {umask : Nat} {lib : RLib} {c : RCfg} {d0 : Disk} {ms : List Bytes} {tr : STrace} {d : Disk} {rw : RW} (s : Session umask lib c d0 ms tr d rw) :
    Uses umask lib c d0 tr d rw := by
  induction s with
  | start => exact .start
  | write _ r ih => exact .write ih r

theorem opened_counts {h h' : Option Str} {x : (o : Sys) × o.Resp} (e : opened h x = some h') :
    openCount [x] + (if h = none then 0 else 1) = closeCount [x] + if h' = none then 0 else 1 := by
  rcases x with ⟨o, r⟩
  cases o <;> simp only [opened] at e <;> first
    | (split at e <;> first | (cases e; done) | (rename_i q; subst q; injection e with e; subst e; first | (simp [openCount, closeCount]; done) | (cases r <;> simp [openCount, closeCount])))
    | (injection e with e; subst e; simp [openCount, closeCount])

theorem openCount_append (a b : STrace) : openCount (a ++ b) = openCount a + openCount b := by
  induction a with
  | nil => simp [openCount]
  | cons x a ih => rcases x with ⟨o, r⟩; cases o <;> simp [openCount, ih, Nat.add_assoc]

theorem closeCount_append (a b : STrace) : closeCount (a ++ b) = closeCount a + closeCount b := by
  induction a with
  | nil => simp [closeCount]
  | cons x a ih => rcases x with ⟨o, r⟩; cases o <;> simp [closeCount, ih] <;> omega

theorem inOrder_counts {h h' : Option Str} {tr : STrace} (i : InOrder h tr h') :
    openCount tr + (if h = none then 0 else 1) = closeCount tr + if h' = none then 0 else 1 := by
  induction i with
  | nil => simp [openCount, closeCount]
  | @cons h x h1 tr h2 e _ ih =>
    have := opened_counts e
    rw [← List.singleton_append, openCount_append, closeCount_append]
    omega

/-! ## Several writers -/

theorem vol_opened {umask : Nat} {v : Volume} {fd : Option Nat} {o : Sys} {r : o.Resp} {v' : Volume} {fd' : Option Nat} {h h' : Option Str}
    (st : VolStep umask v fd o r v' fd') (e : opened h ⟨o, r⟩ = some h') (hfd : fd = none ↔ h = none) : fd' = none ↔ h' = none := by
  cases o
  case openAppend n p =>
    simp only [opened] at e
    simp only [VolStep] at st
    split at e
    · rename_i q
      injection e with e
      subst e
      split at st
      · rename_i hr
        split at st
        · simp [st.2.2, hr]
        · simp [st.2, hr]
        · exact st.elim
      · rename_i hr
        simp [st.2, hr, hfd, q]
    · cases e
  all_goals
    simp only [opened] at e
    simp only [VolStep] at st
    try first
    | (injection e with e; subst e; simp_all; done)
    | (split at e
       · rename_i q
         injection e with e
         subst e
         simp_all
       · cases e)

/-- A writer: what it has open, and what it has still to do, is in order. -/
structure Keeps (x : Scribe) (h : Option Str) : Prop where
  fd : x.fd = none ↔ h = none
  idle : x.job = none → FileOpen x.rw h
  busy : ∀ msg p, x.job = some (msg, p) → Ordered (fun y h => FileOpen y.2 h) h p
  good : ∀ msg p, x.job = some (msg, p) → Yields (fun y => y.1.2 = true → y.2.file = some .opened) p

theorem keeps_new : Keeps {} none := ⟨by simp, fun _ => rfl, (fun _ _ e => by cases e), fun _ _ e => by cases e⟩

theorem keeps_start {x : Scribe} {h : Option Str} (k : Keeps x h) (hj : x.job = none) (lib : RLib) (c : RCfg) (msg : Bytes) :
    Keeps { x with job := some (msg, c.write lib x.rw msg) } h :=
  ⟨k.fd, (fun e => by cases e), (fun _ _ e => by cases e; exact ordered_write lib c _ _ (k.idle hj)),
    fun _ _ e => by cases e; exact yields_write lib c _ _⟩

theorem keeps_sys {x : Scribe} {h : Option Str} (k : Keeps x h) {umask : Nat} {v v' : Volume} {fd' : Option Nat} {msg : Bytes} {o : Sys}
    {f : o.Resp → Prog ((Nat × Bool) × RW)} {r : o.Resp} (hj : x.job = some (msg, .call o f)) (st : VolStep umask v x.fd o r v' fd') :
    ∃ h', opened h ⟨o, r⟩ = some h' ∧ Keeps { x with fd := fd', job := some (msg, f r) } h' := by
  obtain ⟨h', e, t⟩ := k.busy _ _ hj r
  exact ⟨h', e, vol_opened st e k.fd, (fun e => by cases e), (fun _ _ e => by cases e; exact t),
    fun _ _ e => by cases e; exact k.good _ _ hj r⟩

theorem keeps_ret {x : Scribe} {h : Option Str} (k : Keeps x h) {msg : Bytes} {res : Nat × Bool} {rw : RW} (hj : x.job = some (msg, .ret (res, rw))) :
    Keeps { x with rw := rw, job := none } h :=
  ⟨k.fd, fun _ => k.busy _ _ hj, (fun _ _ e => by cases e), fun _ _ e => by cases e⟩

theorem callsSince_snoc (i : Nat) (tr : List ShLab) (l : ShLab) : callsSince i (tr ++ [l]) = (match l with
    | .sys j x => if j = i then callsSince i tr ++ [x] else callsSince i tr
    | .die j _ => if j = i then [] else callsSince i tr
    | _ => callsSince i tr) := by
  simp only [callsSince, List.foldl_append, List.foldl_cons, List.foldl_nil]
  cases l <;> rfl

theorem shared_keeps {umask : Nat} {lib : RLib} {cs : Nat → Option RCfg} {v : Volume} {tr : List ShLab} {s : Shared}
    (e : ShExec umask lib cs { vol := v } tr s) (i : Nat) : ∃ h, InOrder none (callsSince i tr) h ∧ Keeps (s.wr i) h := by
  induction e with
  | start => exact ⟨none, .nil, keeps_new⟩
  | @step tr s l s' _ st ih =>
    obtain ⟨h, io, k⟩ := ih
    rw [callsSince_snoc]
    cases st with
    | @start j c msg hc hj =>
      by_cases q : i = j
      · subst q; exact ⟨h, io, by simpa [Shared.set] using keeps_start k hj lib c msg⟩
      · exact ⟨h, io, by simpa [Shared.set, q] using k⟩
    | @sys j msg o f r v' h' hj st =>
      by_cases q : j = i
      · subst q
        obtain ⟨h2, a, b⟩ := keeps_sys k hj st
        exact ⟨h2, by simpa using inOrder_snoc io a, by simpa [Shared.set] using b⟩
      · exact ⟨h, by simpa [q] using io, by simpa [Shared.set, Ne.symm q] using k⟩
    | @ret j msg res rw' hj =>
      by_cases q : i = j
      · subst q; exact ⟨h, io, by simpa [Shared.set] using keeps_ret k hj⟩
      · exact ⟨h, io, by simpa [Shared.set, q] using k⟩
    | @die j =>
      by_cases q : j = i
      · subst q; exact ⟨none, by simpa using InOrder.nil, by simpa [Shared.set] using keeps_new⟩
      · exact ⟨h, by simpa [q] using io, by simpa [Shared.set, Ne.symm q] using k⟩

theorem machine_keeps {env : PEnv V} {host : Host} {up : Nat → Bool} {vol : Nat → Volume} {tr : List (MLab V)} {m : Machine V}
    (e : MExec env host (newMachine up vol) tr m) (o : Nat) : ∃ h, InOrder none (callsBy o tr) h ∧ Keeps (m.wr o) h := by
  induction e with
  | nil => exact ⟨none, .nil, keeps_new⟩
  | @snoc tr m l m' _ st ih =>
    obtain ⟨h, io, k⟩ := ih
    have hs : callsBy o (tr ++ [l]) = callsBy o tr ++ callsBy o [l] := by simp [callsBy]
    rw [hs]
    cases st with
    | prog => exact ⟨h, by simpa [callsBy] using io, k⟩
    | @write _ p q c bs _ _ _ _ _ hj =>
      by_cases e : o = q
      · subst e; exact ⟨h, by simpa [callsBy] using io, by simpa [Machine.setWr] using keeps_start k hj host.lib c bs⟩
      · exact ⟨h, by simpa [callsBy] using io, by simpa [Machine.setWr, e] using k⟩
    | @sys q c msg op f r v' h' _ _ hj st =>
      by_cases e : q = o
      · subst e
        obtain ⟨h2, a, b⟩ := keeps_sys k hj st
        exact ⟨h2, by simpa [callsBy] using inOrder_snoc io a, by simpa [Machine.setWr] using b⟩
      · exact ⟨h, by simpa [callsBy, e] using io, by simpa [Machine.setWr, Ne.symm e] using k⟩
    | @done q c msg res rw' _ _ hj =>
      by_cases e : o = q
      · subst e; exact ⟨h, by simpa [callsBy] using io, by simpa [Machine.setWr] using keeps_ret k hj⟩
      · exact ⟨h, by simpa [callsBy] using io, by simpa [Machine.setWr, e] using k⟩

theorem callsBy_append (o : Nat) (a b : List (MLab V)) : callsBy o (a ++ b) = callsBy o a ++ callsBy o b := by simp [callsBy]

theorem callsBy_nil {o : Nat} {tr : List (MLab V)} (h : ∀ k x, MLab.sys k o x ∉ tr) : callsBy o tr = [] := by
  induction tr with
  | nil => rfl
  | cons l tr ih =>
    have ih := ih fun k x hx => h k x (List.mem_cons_of_mem _ hx)
    rw [← List.singleton_append, callsBy_append, ih]
    cases l with
    | sys k q x =>
      by_cases e : q = o
      · exact absurd (e ▸ List.mem_cons_self) (h k x)
      · simp [callsBy, e]
    | _ => rfl

/-- All files are in directory `k`. -/
theorem callsBy_place {env : PEnv V} {host : Host} {k : Nat} (hk : ∀ p, host.place p = k) {m0 m : Machine V} {tr : List (MLab V)} (e : MExec env host m0 tr m) (o : Nat) :
    callsBy o tr = callsOf o (ioIn k tr) := by
  induction e with
  | nil => rfl
  | snoc _ st ih =>
    rw [callsBy_append, ioIn_append, callsOf_append, ih]
    congr 1
    cases st <;> simp [callsBy, ioIn, callsOf, hk]

theorem done_holds {env : PEnv V} {host : Host} {up : Nat → Bool} {vol : Nat → Volume} {a : List (MLab V)} {m : Machine V} {k o n : Nat} {bs : Bytes}
    (e : MExec env host (newMachine up vol) (a ++ [.done k o bs (n, true)]) m) : ∃ h, InOrder none (callsBy o a) (some h) := by
  obtain ⟨m1, x, y⟩ := e.split
  obtain ⟨h, io, kp⟩ := machine_keeps x o
  generalize hl : [MLab.done k o bs (n, true)] = l at y
  cases y with
  | nil => cases hl
  | @snoc tr _ l' _ z st =>
    have ht : tr = [] ∧ l' = .done k o bs (n, true) := by
      cases tr with
      | nil => exact ⟨rfl, by simpa using hl.symm⟩
      | cons _ tr => simp at hl
    obtain ⟨ht, rfl⟩ := ht
    cases z with
    | nil =>
      cases st with
      | done _ _ hj =>
        have h1 := kp.busy _ _ hj
        have h2 := kp.good _ _ hj rfl
        simp only [Ordered, FileOpen] at h1
        rw [if_pos h2] at h1
        exact ⟨_, h1 ▸ io⟩
    | snoc z _ => simp at ht

/-- A return of a writer, seen in its directory, is one in the program. -/
theorem ioIn_done {k : Nat} {tr : List (MLab V)} : ∀ {x y : List ShLab} {o : Nat} {bs : Bytes} {res : Nat × Bool}, ioIn k tr = x ++ .ret o bs res :: y →
    ∃ a b, tr = a ++ .done k o bs res :: b ∧ ioIn k b = y := by
  induction tr with
  | nil => intro x y o bs res h; simp [ioIn] at h
  | cons l tr ih =>
    intro x y o bs res h
    rw [← List.singleton_append, ioIn_append] at h
    have skip : ∀ z, x = ioIn k [l] ++ z → ∃ a b, l :: tr = a ++ .done k o bs res :: b ∧ ioIn k b = y := fun z hz => by
      rw [hz, List.append_assoc] at h
      obtain ⟨a, b, e, q⟩ := ih (List.append_cancel_left h)
      exact ⟨l :: a, b, by rw [e]; rfl, q⟩
    rcases x with _ | ⟨x1, x⟩
    · cases l with
      | prog => exact skip [] rfl
      | write _ j _ _ =>
        by_cases e : j = k
        · simp [ioIn, e] at h
        · exact skip [] (by simp [ioIn, e])
      | sys j _ _ =>
        by_cases e : j = k
        · simp [ioIn, e] at h
        · exact skip [] (by simp [ioIn, e])
      | done j q b r =>
        by_cases e : j = k
        · subst e
          simp only [ioIn, List.flatMap_cons, List.flatMap_nil, if_pos, List.append_nil, List.singleton_append, List.nil_append, List.cons.injEq, ShLab.ret.injEq] at h
          obtain ⟨⟨rfl, rfl, rfl⟩, h⟩ := h
          exact ⟨[], tr, rfl, h⟩
        · exact skip [] (by simp [ioIn, e])
    · have one : ioIn k [l] = [] ∨ ∃ s, ioIn k [l] = [s] := by
        cases l with
        | prog => exact .inl rfl
        | write _ j _ _ | sys j _ _ | done j _ _ _ =>
          by_cases e : j = k
          · exact .inr ⟨_, by simp [ioIn, e]; rfl⟩
          · exact .inl (by simp [ioIn, e])
      rcases one with e | ⟨s, e⟩
      · exact skip (x1 :: x) (by rw [e]; rfl)
      · rw [e] at h
        have : s = x1 := by simpa using (List.cons.inj h).1
        exact skip x (by rw [e, this]; rfl)

theorem no_sys_in {k o : Nat} {tr : List (MLab V)} (hk : ∀ j x, MLab.sys j o x ∈ tr → j = k) (h : callsOf o (ioIn k tr) = []) (j : Nat) (x : (op : Sys) × op.Resp) :
    MLab.sys j o x ∉ tr := by
  intro hm
  obtain rfl := hk _ _ hm
  obtain ⟨a, b, rfl⟩ := List.append_of_mem hm
  rw [← List.singleton_append, ioIn_append, ioIn_append, callsOf_append, callsOf_append] at h
  simp [ioIn, callsOf] at h

theorem sys_place {env : PEnv V} {host : Host} {k : Nat} (hk : ∀ p, host.place p = k) {m0 m : Machine V} {tr : List (MLab V)} (e : MExec env host m0 tr m) {j o : Nat}
    {x : (op : Sys) × op.Resp} (h : MLab.sys j o x ∈ tr) : j = k := by
  induction e with
  | nil => cases h
  | snoc _ st ih =>
    rcases List.mem_append.mp h with h | h
    · exact ih h
    · rw [List.mem_singleton] at h
      subst h
      cases st
      exact hk _

end Log4g
