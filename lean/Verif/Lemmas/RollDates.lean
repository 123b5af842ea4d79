import Verif.Lemmas.RollTimes

/-! # Which pieces a file holds, and in which periods they were written -/

namespace Log4g
open Spec Strconv
open scoped List

variable {lib : RLib} {c : RCfg} {umask : Nat}

/-! ## What calls do to the files -/

/-- Calls that open and write only the log file, rename only it, and never remove it. -/
def moveOp (c : RCfg) : Sys → Prop
  | .rename a b => a = c.fileName ∧ b ≠ c.fileName
  | .remove n => n ≠ c.fileName
  | .openAppend n _ => n = c.fileName
  | .write n _ => n = c.fileName
  | _ => True

theorem backupName_ne (m : NameMode) (file tag : Str) : backupName m file tag ≠ file := by
  intro h
  have := congrArg List.length h
  cases m <;> simp [backupName] at this <;> omega

theorem Prog.All.both {α : Type} {f g : Sys → Prop} {p : Prog α} (h1 : p.All f) (h2 : p.All g) : p.All fun o => f o ∧ g o := by
  induction p with
  | ret a => trivial
  | call o k ih => exact ⟨⟨h1.1, h2.1⟩, fun r => ih r (h1.2 r) (h2.2 r)⟩

theorem Prog.Does.both {α : Type} {f g : Sys → Prop} {Q : α → Prop} {p : Prog α} (h1 : p.All f) (h2 : p.Does g Q) : p.Does f Q := by
  induction p with
  | ret a => exact h2
  | call o k ih => exact ⟨h1.1, fun r => ih r (h1.2 r) (h2.2 r)⟩

theorem delete_move {hs : List Str} (h : ∀ n ∈ hs, n ≠ c.fileName) : (c.deleteOldRolls hs).All (moveOp c) := by
  refine ((all_deleteOldRolls (c := c) (own := (· ≠ c.fileName)) h).both (all_delete c hs)).mono ?_
  rintro o ⟨h1, h2 | ⟨n, rfl⟩⟩
  · cases o <;> simp_all [archOp, moveOp]
  · exact h1

theorem does_rollOver_move {rw : RW} (hn : rw.name = c.fileName) {hs : List Str} (hh : ∀ n ∈ hs, n ≠ c.fileName) : (c.rollOver lib rw hs).All (moveOp c) := by
  have key : ∀ tag (rw' : RW), rw'.name = rw.name → Prog.All (moveOp c) (do
        let newHistoryName := c.createFullFileName c.fileName tag
        if (← sys (.rename rw'.name newHistoryName)) = false then return (false, rw')
        let _ ← sys (.chmod newHistoryName c.backPerm)
        let history := hs ++ [newHistoryName]
        if (history.length : Int) > c.maxRolls then c.deleteOldRolls history
        return (true, rw')) := by
    intro tag rw' he
    refine ⟨⟨he.trans hn, by rw [createFull_eq]; exact backupName_ne _ _ _⟩, fun b => ?_⟩
    cases b with
    | false => trivial
    | true =>
      refine ⟨trivial, fun _ => ?_⟩
      show Prog.All _ (if _ then _ else _)
      split
      · refine Prog.All.bind (delete_move ?_) fun _ => trivial
        intro n hn
        rcases List.mem_append.mp hn with hn | hn
        · exact hh n hn
        · simp only [List.mem_singleton] at hn; subst hn; rw [createFull_eq]; exact backupName_ne _ _ _
      · trivial
  rw [RCfg.rollOver, RCfg.getNewHistoryRollFileName]
  cases hk : c.kind with
  | size max => exact key _ rw rfl
  | time pat =>
    refine ⟨trivial, fun t => ?_⟩
    exact key rw.timeName { rw with timeName := lib.format t pat } rfl

theorem all_roll_move {rw : RW} (hn : rw.file = some .opened → rw.name = c.fileName) : (c.roll lib rw).All (moveOp c) := by
  rw [RCfg.roll]
  split
  · trivial
  · trivial
  · rename_i hf
    refine ⟨trivial, fun b => ?_⟩
    cases b with
    | false => trivial
    | true =>
      rw [RCfg.getSortedLogHistory]
      refine ⟨trivial, fun r => ?_⟩
      cases r with
      | none => trivial
      | some names =>
        refine does_rollOver_move (rw := { rw with file := none }) (hs := c.historyOf lib names) (hn hf) fun n hn => ?_
        obtain ⟨v, hv⟩ := mem_historyOf hn
        rintro rfl
        exact current_not_backup lib c v hv

theorem openOp_move (o : Sys) (h : openOp c o) : moveOp c o := by
  cases o <;> simp_all [openOp, moveOp]

theorem all_write_move {rw : RW} {bs : Bytes} (hn : rw.file = some .opened → rw.name = c.fileName) : (c.write lib rw bs).All (moveOp c) := by
  have hput : ∀ rw1 : RW, (rw1.file = some .opened → rw1.name = c.fileName) → (RCfg.put rw1 bs).All (moveOp c) := by
    intro rw1 h
    rw [RCfg.put]
    split
    · rename_i hf
      exact ⟨h hf, fun _ => trivial⟩
    · trivial
  have happ : ∀ rw1 : RW, (rw1.file = some .opened → rw1.name = c.fileName) → (c.append rw1 bs).All (moveOp c) := by
    intro rw1 h
    rw [RCfg.append]
    split
    · rename_i hf
      refine Prog.Does.all (Prog.Does.bind ((does_createFile c hf).mono openOp_move fun _ h => h) (R := fun _ => True) ?_)
      rintro ⟨ok, rw2⟩ ⟨_, h2, _⟩
      dsimp only at h2 ⊢
      split
      · trivial
      · exact (hput rw2 h2).does
    · exact hput rw1 h
  rw [RCfg.write]
  refine Prog.Does.all (Prog.Does.bind ((does_needsToRoll lib c rw).mono (fun o h => by rw [h]; trivial) fun _ h => h) (R := fun _ => True) ?_)
  rintro ⟨b, rw1⟩ ⟨h1, h2, _⟩
  dsimp only at h1 h2 ⊢
  have hn1 : rw1.file = some .opened → rw1.name = c.fileName := by rw [h1, h2]; exact hn
  split
  · have := Prog.Does.both (all_roll_move (lib := lib) hn1) (does_roll (own := fun _ => True) (lib := lib) (c := c) (rw := rw1) (fun _ => trivial) (fun _ _ _ => trivial) fun _ _ => trivial)
    refine Prog.Does.bind this ?_
    rintro ⟨ok, rw2⟩ ⟨h5, _⟩
    dsimp only at h5 ⊢
    split
    · trivial
    · exact (happ rw2 fun h => absurd h h5).does
  · exact (happ rw1 hn1).does

/-! ## Pieces since the last roll -/

/-- One step of `since`: the last look at the clock, and the pieces of the current file. -/
def sinceStep : Option Int × List (Option Int × Bytes) → (o : Sys) × o.Resp → Option Int × List (Option Int × Bytes)
  | (_, cs), ⟨.now, t⟩ => (some t, cs)
  | (l, cs), ⟨.write _ bs, r⟩ => (l, cs ++ [(l, bs.take r.1)])
  | (l, _), ⟨.rename _ _, true⟩ => (l, [])
  | s, _ => s

/-- The pieces since the last roll; `b` are those there at first. -/
def since (b : List (Option Int × Bytes)) (tr : STrace) : List (Option Int × Bytes) := (tr.foldl sinceStep (none, b)).2

/-- No successful renaming. -/
def noMove (tr : STrace) : Prop := ∀ a b, (⟨.rename a b, true⟩ : (o : Sys) × o.Resp) ∉ tr

theorem sinceFold (tr : STrace) : ∀ (l : Option Int) (cs : List (Option Int × Bytes)), (tr.foldl sinceStep (l, cs)).1 = (clocks tr).getLast?.or l ∧
    ((noMove tr ∧ (tr.foldl sinceStep (l, cs)).2 = cs ++ stampedFrom l tr) ∨
      ∃ u a b v, tr = u ++ ⟨.rename a b, true⟩ :: v ∧ noMove v ∧ (tr.foldl sinceStep (l, cs)).2 = stampedFrom ((clocks u).getLast?.or l) v) := by
  induction tr with
  | nil => intro l cs; exact ⟨by simp [clocks], .inl ⟨by simp [noMove], by simp [stampedFrom]⟩⟩
  | cons x tr ih =>
    intro l cs
    rw [List.foldl_cons]
    -- the part of the claim that follows from that for the rest, if the first call is no successful renaming
    have rest : ∀ l' cs', sinceStep (l, cs) x = (l', cs') → (clocks (x :: tr)).getLast?.or l = (clocks tr).getLast?.or l' →
        (∀ u, (clocks (x :: u)).getLast?.or l = (clocks u).getLast?.or l') → cs' ++ stampedFrom l' tr = cs ++ stampedFrom l (x :: tr) → (∀ a b, x ≠ ⟨.rename a b, true⟩) →
        (tr.foldl sinceStep (sinceStep (l, cs) x)).1 = (clocks (x :: tr)).getLast?.or l ∧
        ((noMove (x :: tr) ∧ (tr.foldl sinceStep (sinceStep (l, cs) x)).2 = cs ++ stampedFrom l (x :: tr)) ∨
          ∃ u a b v, x :: tr = u ++ ⟨.rename a b, true⟩ :: v ∧ noMove v ∧ (tr.foldl sinceStep (sinceStep (l, cs) x)).2 = stampedFrom ((clocks u).getLast?.or l) v) := by
      intro l' cs' e1 e2 e3 e4 e5
      rw [e1, e2]
      obtain ⟨h1, h2⟩ := ih l' cs'
      refine ⟨h1, ?_⟩
      rcases h2 with ⟨h2, h3⟩ | ⟨u, a, b, v, rfl, h2, h3⟩
      · refine .inl ⟨fun a b hm => ?_, by rw [h3, e4]⟩
        rcases List.mem_cons.mp hm with hm | hm
        · exact e5 a b hm.symm
        · exact h2 a b hm
      · exact .inr ⟨x :: u, a, b, v, rfl, h2, by rw [h3, e3]⟩
    obtain ⟨o, r⟩ := x
    cases o
    case now =>
      refine rest (some r) cs rfl ?_ ?_ rfl (by simp)
      · simp only [clocks]; cases h : clocks tr <;> simp [List.getLast?_cons]
      · intro u; simp only [clocks]; cases h : clocks u <;> simp [List.getLast?_cons]
    case write n bs => exact rest l (cs ++ [(l, bs.take r.1)]) rfl rfl (fun _ => rfl) (by simp [stampedFrom]) (by simp)
    case rename a b =>
      cases r
      · exact rest l cs rfl rfl (fun _ => rfl) rfl (by simp)
      · obtain ⟨h1, h2⟩ := ih l []
        refine ⟨h1, .inr ?_⟩
        rcases h2 with ⟨h2, h3⟩ | ⟨u, a', b', v, rfl, h2, h3⟩
        · exact ⟨[], a, b, tr, rfl, h2, h3⟩
        · exact ⟨⟨.rename a b, true⟩ :: u, a', b', v, rfl, h2, h3⟩
    all_goals exact rest l cs rfl rfl (fun _ => rfl) rfl (by simp)

theorem since_cases (b : List (Option Int × Bytes)) (tr : STrace) : (noMove tr ∧ since b tr = b ++ stamped tr) ∨
    ∃ u n m v, tr = u ++ ⟨.rename n m, true⟩ :: v ∧ noMove v ∧ since b tr = stampedFrom (clocks u).getLast? v := by
  have := (sinceFold tr none b).2
  simpa [since, stamped] using this

/-- The pieces since the last roll are the last ones. -/
theorem since_suffix (b : List (Option Int × Bytes)) (tr : STrace) : since b tr <:+ b ++ stamped tr := by
  rcases since_cases b tr with ⟨_, h⟩ | ⟨u, n, m, v, rfl, _, h⟩
  · rw [h]; exact List.suffix_refl _
  · rw [h, stamped, stampedFrom_append]
    simp only [Option.or_none]
    exact ⟨b ++ stampedFrom none u, by simp [stampedFrom]⟩

/-- What the files hold: the log file the pieces since the last roll, the others what they held at first or the pieces
since the last roll before the one that made them. -/
structure Ledger (c : RCfg) (d0 : Dir) (tr : STrace) (d : Dir) : Prop where
  cur : dataOf d c.fileName = ((since [(none, dataOf d0 c.fileName)] tr).map Prod.snd).flatten
  old : ∀ n data p, n ≠ c.fileName → d n = some (.file data p) → (∃ q, d0 n = some (.file data q)) ∨
    ∃ u a v, tr = u ++ ⟨.rename a n, true⟩ :: v ∧ data = ((since [(none, dataOf d0 c.fileName)] u).map Prod.snd).flatten

theorem since_snoc (b : List (Option Int × Bytes)) (tr : STrace) (x : (o : Sys) × o.Resp) : since b (tr ++ [x]) = (sinceStep (tr.foldl sinceStep (none, b)) x).2 := by
  simp [since]

theorem ledger_old {d0 d d' : Dir} {tr : STrace} (h : Ledger c d0 tr d) (x : (o : Sys) × o.Resp) (hd : ∀ n data p, n ≠ c.fileName → d' n = some (.file data p) → ∃ q, d n = some (.file data q)) :
    ∀ n data p, n ≠ c.fileName → d' n = some (.file data p) → (∃ q, d0 n = some (.file data q)) ∨
    ∃ u a v, tr ++ [x] = u ++ ⟨.rename a n, true⟩ :: v ∧ data = ((since [(none, dataOf d0 c.fileName)] u).map Prod.snd).flatten := by
  intro n data p hn e
  obtain ⟨q, e⟩ := hd n data p hn e
  rcases h.old n data q hn e with h1 | ⟨u, a, v, rfl, h1⟩
  · exact .inl h1
  · exact .inr ⟨u, a, v ++ [x], by simp, h1⟩

theorem ledger_step {d0 : Dir} {d d' : Disk} {tr : STrace} {o : Sys} {r : o.Resp} (ho : moveOp c o) (hs : SysStep umask d o r d') (h : Ledger c d0 tr d.dir) : Ledger c d0 (tr ++ [⟨o, r⟩]) d'.dir := by
  have same : (∀ s : Option Int × List (Option Int × Bytes), (sinceStep s ⟨o, r⟩).2 = s.2) → d'.dir = d.dir → Ledger c d0 (tr ++ [⟨o, r⟩]) d'.dir := by
    intro h1 h2
    rw [h2]
    exact ⟨by rw [since_snoc, h1]; exact h.cur, ledger_old h _ fun n data p _ e => ⟨p, e⟩⟩
  by_cases hq : quiet o = true
  · have e := quiet_step hq hs
    refine same (fun s => ?_) (by rw [e])
    obtain ⟨l, cs⟩ := s
    cases o <;> first | rfl | (simp [quiet] at hq)
  · cases o <;> simp only [quiet, not_true_eq_false, reduceCtorEq, Bool.false_eq_true, not_false_eq_true] at hq <;> simp only [SysStep, moveOp] at hs ho
    case openAppend m p =>
      subst ho
      split at hs
      · split at hs
        · rename_i e
          obtain ⟨_, hs⟩ := hs
          refine ⟨?_, ledger_old h _ fun n data q hn e => ?_⟩
          · rw [since_snoc, hs]
            have : (sinceStep (tr.foldl sinceStep (none, [(none, dataOf d0 c.fileName)])) ⟨.openAppend c.fileName p, r⟩).2 = since [(none, dataOf d0 c.fileName)] tr := rfl
            rw [this, ← h.cur]
            simp [dataOf, put_dir, e]
          · rw [hs, put_dir, if_neg hn] at e
            exact ⟨q, e⟩
        · exact same (fun s => rfl) (by rw [hs])
        · exact hs.elim
      · exact same (fun s => rfl) (by rw [hs])
    case write m bs =>
      subst ho
      obtain ⟨data, p, e, _, _, rfl⟩ := hs
      refine ⟨?_, ledger_old h _ fun n data q hn e => ?_⟩
      · have h0 := h.cur
        rw [since_snoc]
        obtain ⟨⟨l, cs⟩, hx⟩ : ∃ s, tr.foldl sinceStep (none, [(none, dataOf d0 c.fileName)]) = s := ⟨_, rfl⟩
        rw [since, hx] at h0
        rw [hx]
        have h0 : dataOf d.dir c.fileName = (cs.map Prod.snd).flatten := h0
        have h1 : dataOf d.dir c.fileName = data := by simp [dataOf, e]
        simp only [dataOf, put_dir, if_true, sinceStep, List.map_append, List.flatten_append, List.map_cons, List.map_nil, List.flatten_cons, List.flatten_nil, List.append_nil]
        rw [← h0, h1]
      · rw [put_dir, if_neg hn] at e
        exact ⟨q, e⟩
    case rename a b =>
      obtain ⟨rfl, hb⟩ := ho
      split at hs
      · rename_i hr
        subst hr
        obtain ⟨data, p, e, _, _, rfl⟩ := hs
        refine ⟨?_, fun n data' q hn e' => ?_⟩
        · rw [since_snoc]
          simp [dataOf, put_dir, Ne.symm hb, sinceStep]
        · rw [put_dir] at e'
          by_cases hnb : n = b
          · rw [if_pos hnb] at e'
            cases e'
            have h0 := h.cur
            simp only [dataOf, e] at h0
            exact .inr ⟨tr, c.fileName, [], by rw [hnb], h0⟩
          · rw [if_neg hnb, put_dir, if_neg hn] at e'
            exact ledger_old h ⟨.rename c.fileName b, true⟩ (d' := d.dir) (fun n data p _ e => ⟨p, e⟩) n data' q hn e'
      · rename_i hr
        have hr : r = false := by simpa using hr
        subst hr
        exact same (fun s => rfl) (by rw [hs])
    case chmod m p =>
      split at hs
      · obtain ⟨data, q, e, rfl⟩ := hs
        refine ⟨?_, ledger_old h _ fun n data' q' hn e' => ?_⟩
        · have h0 := h.cur
          rw [since_snoc]
          show _ = ((since [(none, dataOf d0 c.fileName)] tr).map Prod.snd).flatten
          rw [← h0]
          by_cases hm : c.fileName = m
          · simp [dataOf, put_dir, hm, e]
          · simp [dataOf, put_dir, hm]
        · rw [put_dir] at e'
          split at e'
          · rename_i hm
            cases e'
            exact ⟨q, by rw [hm]; exact e⟩
          · exact ⟨q', e'⟩
      · exact same (fun s => rfl) (by rw [hs])
    case remove m =>
      split at hs
      · rcases hs with ⟨_, rfl⟩ | ⟨data, q, e, rfl⟩
        · exact same (fun s => rfl) rfl
        · refine ⟨?_, ledger_old h _ fun n data' q' hn e' => ?_⟩
          · have h0 := h.cur
            rw [since_snoc]
            show _ = ((since [(none, dataOf d0 c.fileName)] tr).map Prod.snd).flatten
            rw [← h0]
            simp [dataOf, put_dir, Ne.symm ho]
          · rw [put_dir] at e'
            split at e'
            · cases e'
            · exact ⟨q', e'⟩
      · exact same (fun s => rfl) (by rw [hs])

theorem ledger_stops {α : Type} {p : Prog α} {d0 : Dir} {d d' : Disk} {tr tr' : STrace} (hp : p.All (moveOp c)) (hs : Stops umask p d tr' d') (h : Ledger c d0 tr d.dir) : Ledger c d0 (tr ++ tr') d'.dir := by
  induction hs generalizing tr with
  | here => simpa using h
  | call hs _ ih =>
    have := ih (hp.2 _) (ledger_step hp.1 hs h)
    simpa using this

theorem life_ledger {d0 d : Disk} {tr : STrace} {rw : RW} (hl : Life umask lib c d0 tr d rw) : Ledger c d0.dir tr d.dir := by
  induction hl with
  | start => exact ⟨by simp [since], fun n data p _ e => .inl ⟨p, e⟩⟩
  | write hl hr ih => exact ledger_stops (all_write_move (life_name hl)) hr.stops ih
  | crash hl hr ih => exact ledger_stops (all_write_move (life_name hl)) hr ih
  | restart _ ih => exact ih

end Log4g
